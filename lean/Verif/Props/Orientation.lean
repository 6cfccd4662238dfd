import Verif.Props.Rotation
import Mathlib.Analysis.SpecialFunctions.Complex.Arg
import Mathlib.Tactic

/-! # Orientations of crystals (C161) -/

namespace PyElli

open Matrix Spec

/-- Points of the unit circle have an angle in `[0, 360)` degrees. -/
lemma circle_angle {a b : ℝ} (h : a ^ 2 + b ^ 2 = 1) :
    ∃ t : ℝ, 0 ≤ t ∧ t < 360 ∧ Real.cos (deg2rad t) = a ∧ Real.sin (deg2rad t) = b := by
  have hpi := Real.pi_pos
  set z : ℂ := ⟨a, b⟩ with hz
  have hn : ‖z‖ = 1 := by
    have h2 : ‖z‖ ^ 2 = 1 := by
      rw [← Complex.normSq_eq_norm_sq, Complex.normSq_apply, hz]
      simp only
      linarith
    nlinarith [norm_nonneg z]
  have hz0 : z ≠ 0 := by
    intro h0
    rw [h0, norm_zero] at hn
    exact zero_ne_one hn
  have hc : Real.cos (Complex.arg z) = a := by rw [Complex.cos_arg hz0, hn, div_one]
  have hs : Real.sin (Complex.arg z) = b := by rw [Complex.sin_arg, hn, div_one]
  have h1 := Complex.neg_pi_lt_arg z
  have h2 := Complex.arg_le_pi z
  have hd : ∀ x : ℝ, deg2rad (x * 180 / Real.pi) = x := fun x => by unfold deg2rad; field_simp
  by_cases h0 : 0 ≤ Complex.arg z
  · refine ⟨Complex.arg z * 180 / Real.pi, by positivity, ?_, by rw [hd, hc], by rw [hd, hs]⟩
    rw [div_lt_iff₀ hpi]
    linarith
  · push Not at h0
    refine ⟨(Complex.arg z + 2 * Real.pi) * 180 / Real.pi, ?_, ?_, by rw [hd, Real.cos_add_two_pi, hc], by rw [hd, Real.sin_add_two_pi, hs]⟩
    · have : 0 ≤ Complex.arg z + 2 * Real.pi := by linarith
      positivity
    · rw [div_lt_iff₀ hpi]
      linarith

/-- Angles in `[0, 360)` with the same sine and cosine are equal. -/
lemma circle_unique {s t : ℝ} (hs : 0 ≤ s ∧ s < 360) (ht : 0 ≤ t ∧ t < 360) (hc : Real.cos (deg2rad s) = Real.cos (deg2rad t))
    (hsn : Real.sin (deg2rad s) = Real.sin (deg2rad t)) : s = t := by
  have hpi := Real.pi_pos
  have h1 : Real.cos (deg2rad s - deg2rad t) = 1 := by
    rw [Real.cos_sub, hc, hsn]
    nlinarith [Real.sin_sq_add_cos_sq (deg2rad t)]
  rw [Real.cos_eq_one_iff] at h1
  obtain ⟨k, hk⟩ := h1
  have h2 : s - t = 360 * k := by
    unfold deg2rad at hk
    field_simp at hk
    linarith
  have h3 : (k : ℝ) < 1 := by linarith
  have h4 : (-1 : ℝ) < k := by linarith
  have h5 : k < 1 := by exact_mod_cast h3
  have h6 : -1 < k := by exact_mod_cast h4
  have h7 : k = 0 := by omega
  rw [h7] at h2
  simp at h2
  linarith

/-- Every unit vector is the image of the z axis under a rotation with the first two Euler angles. -/
lemma column_angles (c : Fin 3 → ℝ) (hcol : c 0 ^ 2 + c 1 ^ 2 + c 2 ^ 2 = 1) :
    ∃ p n : ℝ, (0 ≤ p ∧ p < 360) ∧ (0 ≤ n ∧ n ≤ 180) ∧ ∀ i, rotationEuler p n 0 i 2 = c i := by
  have hpi := Real.pi_pos
  have hz1 : -1 ≤ c 2 := by nlinarith [sq_nonneg (c 0), sq_nonneg (c 1)]
  have hz2 : c 2 ≤ 1 := by nlinarith [sq_nonneg (c 0), sq_nonneg (c 1)]
  set n := Real.arccos (c 2) * 180 / Real.pi with hn
  have hdn : deg2rad n = Real.arccos (c 2) := by rw [hn]; unfold deg2rad; field_simp
  have hcn : Real.cos (deg2rad n) = c 2 := by rw [hdn, Real.cos_arccos hz1 hz2]
  have hsn : Real.sin (deg2rad n) ^ 2 = c 0 ^ 2 + c 1 ^ 2 := by
    have := Real.sin_sq_add_cos_sq (deg2rad n)
    rw [hcn] at this
    linarith
  have hnr : 0 ≤ n ∧ n ≤ 180 := by
    constructor
    · rw [hn]
      have := Real.arccos_nonneg (c 2)
      positivity
    · rw [hn, div_le_iff₀ hpi]
      linarith [Real.arccos_le_pi (c 2)]
  obtain ⟨p, hp0, hp1, hp⟩ : ∃ p : ℝ, 0 ≤ p ∧ p < 360 ∧
      (Real.sin (deg2rad p) * Real.sin (deg2rad n) = c 0 ∧ -Real.cos (deg2rad p) * Real.sin (deg2rad n) = c 1) := by
    by_cases hs : Real.sin (deg2rad n) = 0
    · refine ⟨0, le_rfl, by norm_num, ?_⟩
      rw [hs] at hsn ⊢
      have e0 : c 0 = 0 := by nlinarith [sq_nonneg (c 0), sq_nonneg (c 1)]
      have e1 : c 1 = 0 := by nlinarith [sq_nonneg (c 0), sq_nonneg (c 1)]
      rw [e0, e1]
      simp
    · obtain ⟨p, a, b, c', d⟩ := circle_angle (a := -c 1 / Real.sin (deg2rad n)) (b := c 0 / Real.sin (deg2rad n)) (by
        rw [div_pow, div_pow, ← add_div, hsn, div_eq_one_iff_eq (by rw [← hsn]; exact pow_ne_zero 2 hs)]
        ring)
      refine ⟨p, a, b, ?_, ?_⟩
      · rw [d, div_mul_cancel₀ _ hs]
      · rw [c', neg_mul, div_mul_cancel₀ _ hs, neg_neg]
  refine ⟨p, n, ⟨hp0, hp1⟩, hnr, fun i => ?_⟩
  fin_cases i
  · simpa [rotationEuler] using hp.1
  · simpa [rotationEuler] using hp.2
  · simpa [rotationEuler] using hcn

/-- A rotation which fixes the z axis turns about it. -/
lemma fixes_z (M : Mat3) (hMM : Mᵀ * M = 1) (hMd : M.det = 1) (hM2 : ∀ i, M i 2 = (1 : Mat3) i 2) :
    ∃ r : ℝ, 0 ≤ r ∧ r < 360 ∧ M = Rz (r * Real.pi / 180) := by
  have hMM' : M * Mᵀ = 1 := mul_eq_one_comm.1 hMM
  have m02 : M 0 2 = 0 := by rw [hM2]; simp
  have m12 : M 1 2 = 0 := by rw [hM2]; simp
  have m22 : M 2 2 = 1 := by rw [hM2]; simp
  have r22 := congrFun (congrFun hMM' 2) 2
  simp [Matrix.mul_apply, Fin.sum_univ_three, m22] at r22
  have m20 : M 2 0 = 0 := by nlinarith [sq_nonneg (M 2 0), sq_nonneg (M 2 1)]
  have m21 : M 2 1 = 0 := by nlinarith [sq_nonneg (M 2 0), sq_nonneg (M 2 1)]
  have c00 := congrFun (congrFun hMM 0) 0
  have c11 := congrFun (congrFun hMM 1) 1
  have c01 := congrFun (congrFun hMM 0) 1
  simp [Matrix.mul_apply, Fin.sum_univ_three, m20, m21] at c00 c11 c01
  rw [Matrix.det_fin_three, m02, m12, m22, m20, m21] at hMd
  have m11 : M 1 1 = M 0 0 := by linear_combination M 0 0 * hMd - M 1 1 * c00 + M 1 0 * c01
  have m01 : M 0 1 = -M 1 0 := by linear_combination M 0 0 * c01 - M 0 1 * c00 - M 1 0 * hMd
  obtain ⟨r, hr0, hr1, hrc, hrs⟩ := circle_angle (a := M 0 0) (b := M 1 0) (by linarith)
  refine ⟨r, hr0, hr1, ?_⟩
  have hdr : r * Real.pi / 180 = deg2rad r := by unfold deg2rad; ring
  rw [hdr]
  ext i j
  fin_cases i <;> fin_cases j <;> simp [Rz, hrc, hrs, m01, m02, m11, m12, m20, m21, m22]

/-- C161: `rotation_euler` with the angles of its documentation gives every orientation. -/
theorem C161_euler_all (R : Mat3) (hR : IsProperRotation R) :
    ∃ p n r : ℝ, (0 ≤ p ∧ p < 360) ∧ (0 ≤ n ∧ n ≤ 180) ∧ (0 ≤ r ∧ r < 360) ∧ rotationEuler p n r = R := by
  obtain ⟨h1, h2, h3⟩ := hR
  obtain ⟨p, n, hp, hn, hA2⟩ := column_angles (fun i => R i 2) (by
    have := congrFun (congrFun h2 2) 2
    simp [Matrix.mul_apply, Fin.sum_univ_three] at this
    linarith)
  -- what is left is a rotation about z
  set A := rotationEuler p n 0 with hA
  have hAp := C17_euler_proper p n 0
  rw [← hA] at hAp
  set M := Aᵀ * R with hM
  have hRM : R = A * M := by rw [hM, ← Matrix.mul_assoc, hAp.1, Matrix.one_mul]
  have hMM : Mᵀ * M = 1 := by
    rw [hM, Matrix.transpose_mul, Matrix.transpose_transpose, Matrix.mul_assoc, ← Matrix.mul_assoc A, hAp.1, Matrix.one_mul, h2]
  have hMd : M.det = 1 := by rw [hM, Matrix.det_mul, Matrix.det_transpose, hAp.2.2, h3, one_mul]
  have hM2 : ∀ i, M i 2 = (1 : Mat3) i 2 := by
    intro i
    rw [← hAp.2.1, hM, Matrix.mul_apply, Matrix.mul_apply]
    exact Finset.sum_congr rfl fun k _ => by rw [hA2 k]
  obtain ⟨r, hr0, hr1, hRz⟩ := fixes_z M hMM hMd hM2
  refine ⟨p, n, r, hp, hn, ⟨hr0, hr1⟩, ?_⟩
  rw [hRM, hRz, hA, C17_euler_product, C17_euler_product]
  have : Rz (0 * Real.pi / 180) = 1 := by
    ext i j
    fin_cases i <;> fin_cases j <;> simp [Rz]
  rw [this, Matrix.mul_one]

/-- C161: if the z axis is tilted, the three angles are unique in the ranges of the documentation. -/
theorem C161_euler_unique {p n r p' n' r' : ℝ} (hp : 0 ≤ p ∧ p < 360) (hn : 0 < n ∧ n < 180) (hr : 0 ≤ r ∧ r < 360) (hp' : 0 ≤ p' ∧ p' < 360)
    (hn' : 0 ≤ n' ∧ n' ≤ 180) (hr' : 0 ≤ r' ∧ r' < 360) (h : rotationEuler p n r = rotationEuler p' n' r') : p = p' ∧ n = n' ∧ r = r' := by
  have hpi := Real.pi_pos
  have e : ∀ i j, rotationEuler p n r i j = rotationEuler p' n' r' i j := fun i j => by rw [h]
  have e02 := e 0 2
  have e12 := e 1 2
  have e20 := e 2 0
  have e21 := e 2 1
  have e22 := e 2 2
  simp [rotationEuler] at e02 e12 e20 e21 e22
  have hnn : n = n' := by
    have := Real.injOn_cos (x₁ := deg2rad n) (x₂ := deg2rad n') ?_ ?_ e22
    · unfold deg2rad at this
      field_simp at this
      linarith
    · unfold deg2rad
      constructor <;> nlinarith
    · unfold deg2rad
      constructor <;> nlinarith
  subst hnn
  have hs : Real.sin (deg2rad n) ≠ 0 := by
    apply ne_of_gt
    apply Real.sin_pos_of_pos_of_lt_pi
    · unfold deg2rad; nlinarith
    · unfold deg2rad; nlinarith
  simp [hs] at e02 e12 e20 e21
  exact ⟨circle_unique hp hp' e12 e02, rfl, circle_unique hr hr' e21 e20⟩

/-- C161: the tensor of a uniaxial crystal depends on the direction of its optic axis only, the image of the z axis; two rotations give the same tensor
exactly if they send the axis to the same line. So the third Euler angle does nothing. -/
theorem C161_uniaxial (o e : ℝ → ℂ) (lbda : ℝ) (R : Mat3) (hR : IsProperRotation R) :
    (∀ i j, ((uniaxialMaterial o e).setRotation R).getTensor lbda i j = (if i = j then o lbda else 0) + (e lbda - o lbda) * (R i 2 * R j 2 : ℝ)) ∧
    (o lbda ≠ e lbda → ∀ R' : Mat3, IsProperRotation R' →
      (((uniaxialMaterial o e).setRotation R).getTensor lbda = ((uniaxialMaterial o e).setRotation R').getTensor lbda ↔
        (∀ i, R i 2 = R' i 2) ∨ ∀ i, R i 2 = -R' i 2)) ∧
    ∀ p n r r', ((uniaxialMaterial o e).setRotation (rotationEuler p n r)).getTensor lbda =
      ((uniaxialMaterial o e).setRotation (rotationEuler p n r')).getTensor lbda := by
  have key : ∀ R : Mat3, IsProperRotation R → ∀ i j, ((uniaxialMaterial o e).setRotation R).getTensor lbda i j =
      (if i = j then o lbda else 0) + (e lbda - o lbda) * (R i 2 * R j 2 : ℝ) := by
    intro R hR i j
    have h1 := congrFun (congrFun hR.1 i) j
    rw [Matrix.mul_apply, Fin.sum_univ_three, Matrix.one_apply] at h1
    simp only [Matrix.transpose_apply] at h1
    have h2 : ((R i 0 : ℂ) * R j 0 + R i 1 * R j 1 + R i 2 * R j 2) = if i = j then 1 else 0 := by
      have := congrArg (fun x : ℝ => (x : ℂ)) h1
      simp only [apply_ite (fun x : ℝ => (x : ℂ))] at this
      push_cast at this
      exact this
    simp only [SingleMaterial.setRotation, uniaxialMaterial, SingleMaterial.getTensor, Matrix.mul_apply, Fin.sum_univ_three]
    simp [Matrix.diagonal]
    have h3 : (if i = j then o lbda else 0) = o lbda * (if i = j then 1 else 0) := by split_ifs <;> simp
    rw [h3, ← h2]
    ring
  refine ⟨key R hR, fun hne R' hR' => ⟨fun h => ?_, fun h => ?_⟩, fun p n r r' => ?_⟩
  · have hp : ∀ i j, R i 2 * R j 2 = R' i 2 * R' j 2 := by
      intro i j
      have h1 := congrFun (congrFun h i) j
      rw [key R hR, key R' hR'] at h1
      have h2 := mul_left_cancel₀ (sub_ne_zero.2 hne.symm) (add_left_cancel h1)
      exact_mod_cast h2
    obtain ⟨k, hk⟩ : ∃ k, R' k 2 ≠ 0 := by
      by_contra hc
      push Not at hc
      have := congrFun (congrFun hR'.2.1 2) 2
      simp [Matrix.mul_apply, hc] at this
    rcases mul_self_eq_mul_self_iff.1 (hp k k) with hs | hs
    · left
      intro i
      have := hp i k
      rw [hs] at this
      exact mul_right_cancel₀ hk this
    · right
      intro i
      have := hp i k
      rw [hs] at this
      apply mul_right_cancel₀ hk
      linarith
  · ext i j
    rw [key R hR, key R' hR']
    rcases h with h | h
    · rw [h i, h j]
    · rw [h i, h j, neg_mul_neg]
  · ext i j
    rw [key _ (C17_euler_proper p n r), key _ (C17_euler_proper p n r')]
    have : ∀ i, rotationEuler p n r i 2 = rotationEuler p n r' i 2 := by
      intro i
      fin_cases i <;> simp [rotationEuler]
    rw [this i, this j]

/-- C161: for a biaxial crystal with three different permittivities two rotations give the same tensor exactly if they differ by signs of the axes: there are
four such orientations. -/
theorem C161_biaxial (x y z : ℝ → ℂ) (lbda : ℝ) (hxy : x lbda ≠ y lbda) (hxz : x lbda ≠ z lbda) (hyz : y lbda ≠ z lbda) (R R' : Mat3)
    (hR : IsProperRotation R) (hR' : IsProperRotation R') :
    ((biaxialMaterial x y z).setRotation R).getTensor lbda = ((biaxialMaterial x y z).setRotation R').getTensor lbda ↔
      ∃ s : Fin 3 → ℝ, (∀ k, s k = 1 ∨ s k = -1) ∧ s 0 * s 1 * s 2 = 1 ∧ ∀ i k, R i k = s k * R' i k := by
  set d : Fin 3 → ℂ := ![x lbda, y lbda, z lbda] with hd
  have hdd : ∀ i j, i ≠ j → d i ≠ d j := by
    intro i j hij
    fin_cases i <;> fin_cases j <;> simp at hij <;> simp [hd, hxy, hxz, hyz, hxy.symm, hxz.symm, hyz.symm]
  have ht : ∀ R : Mat3, ((biaxialMaterial x y z).setRotation R).getTensor lbda = R.map Complex.ofReal * Matrix.diagonal d * (R.map Complex.ofReal)ᵀ := fun R => rfl
  have hc : ∀ A B : Mat3, A.map Complex.ofReal * B.map Complex.ofReal = (A * B).map Complex.ofReal := by
    intro A B
    ext i j
    simp [Matrix.mul_apply, Fin.sum_univ_three]
  have hone : (1 : Mat3).map Complex.ofReal = 1 := by
    ext i j
    simp [Matrix.one_apply]
    split_ifs <;> simp
  have htr : ∀ A : Mat3, (A.map Complex.ofReal)ᵀ = Aᵀ.map Complex.ofReal := fun A => rfl
  rw [ht, ht]
  constructor
  · intro h
    set M := R'ᵀ * R with hM
    have hRM : R = R' * M := by rw [hM, ← Matrix.mul_assoc, hR'.1, Matrix.one_mul]
    have h1 : M.map Complex.ofReal * Matrix.diagonal d = Matrix.diagonal d * M.map Complex.ofReal := by
      calc M.map Complex.ofReal * Matrix.diagonal d
          = R'ᵀ.map Complex.ofReal * (R.map Complex.ofReal * Matrix.diagonal d * (R.map Complex.ofReal)ᵀ) * R.map Complex.ofReal := by
            rw [Matrix.mul_assoc, Matrix.mul_assoc _ _ (R.map Complex.ofReal), htr, hc, hR.2.1, hone, Matrix.mul_one, ← Matrix.mul_assoc, hc, hM]
        _ = R'ᵀ.map Complex.ofReal * (R'.map Complex.ofReal * Matrix.diagonal d * (R'.map Complex.ofReal)ᵀ) * R.map Complex.ofReal := by rw [h]
        _ = Matrix.diagonal d * M.map Complex.ofReal := by
            rw [← Matrix.mul_assoc, ← Matrix.mul_assoc, hc, hR'.2.1, hone, Matrix.one_mul, htr, Matrix.mul_assoc, hc, hM]
    have h2 : ∀ i j, i ≠ j → M i j = 0 := by
      intro i j hij
      have := congrFun (congrFun h1 i) j
      rw [Matrix.mul_diagonal, Matrix.diagonal_mul] at this
      simp only [Matrix.map_apply] at this
      have h3 : (d j - d i) * (M i j : ℂ) = 0 := by linear_combination this
      have h4 := (mul_eq_zero.1 h3).resolve_left (sub_ne_zero.2 (hdd j i hij.symm))
      exact_mod_cast h4
    have hMM : Mᵀ * M = 1 := by
      rw [hM, Matrix.transpose_mul, Matrix.transpose_transpose, Matrix.mul_assoc, ← Matrix.mul_assoc R', hR'.1, Matrix.one_mul, hR.2.1]
    have hMd : M.det = 1 := by rw [hM, Matrix.det_mul, Matrix.det_transpose, hR'.2.2, hR.2.2, one_mul]
    have m01 := h2 0 1 (by decide)
    have m02 := h2 0 2 (by decide)
    have m10 := h2 1 0 (by decide)
    have m12 := h2 1 2 (by decide)
    have m20 := h2 2 0 (by decide)
    have m21 := h2 2 1 (by decide)
    refine ⟨fun k => M k k, fun k => ?_, ?_, fun i k => ?_⟩
    · have := congrFun (congrFun hMM k) k
      rw [Matrix.mul_apply, Fin.sum_univ_three, Matrix.one_apply_eq] at this
      apply mul_self_eq_one_iff.1
      fin_cases k <;> simp [m01, m02, m10, m12, m20, m21] at this ⊢ <;> exact this
    · rw [Matrix.det_fin_three, m01, m02, m10, m12, m20, m21] at hMd
      linarith
    · conv_lhs => rw [hRM]
      rw [Matrix.mul_apply, Fin.sum_univ_three]
      fin_cases k <;> simp [m01, m02, m10, m12, m20, m21] <;> ring
  · rintro ⟨s, hs, -, h⟩
    ext i j
    simp only [Matrix.mul_apply, Fin.sum_univ_three, Matrix.transpose_apply, Matrix.map_apply, Matrix.diagonal]
    have hq : ∀ k, ((s k : ℝ) : ℂ) * s k = 1 := by
      intro k
      rcases hs k with h | h <;> rw [h] <;> norm_num
    simp [h]
    linear_combination (R' i 0 * R' j 0 * d 0 : ℂ) * hq 0 + (R' i 1 * R' j 1 * d 1 : ℂ) * hq 1 + (R' i 2 * R' j 2 * d 2 : ℂ) * hq 2

/-- Non-vacuity of `C161_euler_all`: the cyclic exchange of the axes has Euler angles. -/
example : ∃ p n r : ℝ, rotationEuler p n r = !![0, 0, 1; 1, 0, 0; 0, 1, 0] := by
  obtain ⟨p, n, r, -, -, -, h⟩ := C161_euler_all !![0, 0, 1; 1, 0, 0; 0, 1, 0] (by
    refine ⟨?_, ?_, by simp [Matrix.det_fin_three]⟩ <;>
      · ext i j
        fin_cases i <;> fin_cases j <;> simp [Matrix.mul_apply, Fin.sum_univ_three])
  exact ⟨p, n, r, h⟩

/-- Non-vacuity of `C161_euler_unique`. -/
example (p n r : ℝ) (hp : 0 ≤ p ∧ p < 360) (hn : 0 ≤ n ∧ n ≤ 180) (hr : 0 ≤ r ∧ r < 360) (h : rotationEuler 30 45 60 = rotationEuler p n r) : n = 45 :=
  (C161_euler_unique (by norm_num) (by norm_num) (by norm_num) hp hn hr h).2.1.symm

/-- Non-vacuity of `C161_uniaxial`: calcite with its axis along `z` is the same upside down, and not the same with its axis along `y`. -/
example : ((uniaxialMaterial (fun _ => 11 / 4) (fun _ => 11 / 5)).setRotation (rotationEuler 0 0 0)).getTensor 500 =
      ((uniaxialMaterial (fun _ => 11 / 4) (fun _ => 11 / 5)).setRotation (rotationEuler 0 180 0)).getTensor 500 ∧
    ((uniaxialMaterial (fun _ => 11 / 4) (fun _ => 11 / 5)).setRotation (rotationEuler 0 0 0)).getTensor 500 ≠
      ((uniaxialMaterial (fun _ => 11 / 4) (fun _ => 11 / 5)).setRotation (rotationEuler 0 90 0)).getTensor 500 := by
  have h := (C161_uniaxial (fun _ => 11 / 4) (fun _ => 11 / 5) 500 _ (C17_euler_proper 0 0 0)).2.1 (by norm_num)
  have d0 : deg2rad 0 = 0 := by simp [deg2rad]
  have d90 : deg2rad 90 = Real.pi / 2 := by unfold deg2rad; ring
  have d180 : deg2rad 180 = Real.pi := by unfold deg2rad; ring
  refine ⟨(h _ (C17_euler_proper 0 180 0)).2 (Or.inr ?_), fun hc => ?_⟩
  · intro i
    fin_cases i <;> simp [rotationEuler, d0, d180]
  · rcases (h _ (C17_euler_proper 0 90 0)).1 hc with h2 | h2
    · have := h2 2
      simp [rotationEuler, d0, d90] at this
    · have := h2 2
      simp [rotationEuler, d0, d90] at this

/-- Non-vacuity of `C161_biaxial`: half a turn about `z` leaves a biaxial crystal alone, a quarter turn does not. -/
example : ((biaxialMaterial (fun _ => 2) (fun _ => 3) (fun _ => 4)).setRotation (rotationEuler 0 0 0)).getTensor 500 =
      ((biaxialMaterial (fun _ => 2) (fun _ => 3) (fun _ => 4)).setRotation (rotationEuler 180 0 0)).getTensor 500 ∧
    ((biaxialMaterial (fun _ => 2) (fun _ => 3) (fun _ => 4)).setRotation (rotationEuler 0 0 0)).getTensor 500 ≠
      ((biaxialMaterial (fun _ => 2) (fun _ => 3) (fun _ => 4)).setRotation (rotationEuler 90 0 0)).getTensor 500 := by
  have h := fun q => C161_biaxial (fun _ => 2) (fun _ => 3) (fun _ => 4) 500 (by norm_num) (by norm_num) (by norm_num) _ _
    (C17_euler_proper 0 0 0) (C17_euler_proper q 0 0)
  have d0 : deg2rad 0 = 0 := by simp [deg2rad]
  have d90 : deg2rad 90 = Real.pi / 2 := by unfold deg2rad; ring
  have d180 : deg2rad 180 = Real.pi := by unfold deg2rad; ring
  refine ⟨(h 180).2 ⟨![-1, -1, 1], ?_, by simp, ?_⟩, fun hc => ?_⟩
  · intro k
    fin_cases k <;> simp
  · intro i k
    fin_cases i <;> fin_cases k <;> simp [rotationEuler, d0, d180]
  · obtain ⟨s, -, -, h2⟩ := (h 90).1 hc
    have := h2 0 0
    simp [rotationEuler, d0, d90] at this

end PyElli
