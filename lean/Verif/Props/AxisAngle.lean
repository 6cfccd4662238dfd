import Verif.Props.Orientation

/-! # Axis and angle of a rotation (C161) -/

namespace PyElli

open Matrix Spec

/-- A rotation has an axis. -/
lemma rotation_axis (R : Mat3) (hR : IsProperRotation R) : ∃ u : Fin 3 → ℝ, IsUnitAxis u ∧ R.mulVec u = u := by
  obtain ⟨h1, h2, h3⟩ := hR
  have hdet : (R - 1).det = 0 := by
    have e : R - 1 = -(R * (R - 1)ᵀ) := by
      rw [Matrix.transpose_sub, Matrix.transpose_one, Matrix.mul_sub, h1, Matrix.mul_one, neg_sub]
    have h4 : (R - 1).det = -(R - 1).det := by
      conv_lhs => rw [e]
      rw [Matrix.det_neg, Matrix.det_mul, h3, Matrix.det_transpose, Fintype.card_fin]
      ring
    linarith
  obtain ⟨v, hv, hv2⟩ := Matrix.exists_mulVec_eq_zero_iff.2 hdet
  rw [Matrix.sub_mulVec, Matrix.one_mulVec, sub_eq_zero] at hv2
  have hq : 0 < v 0 ^ 2 + v 1 ^ 2 + v 2 ^ 2 := by
    by_contra hc
    apply hv
    ext i
    fin_cases i <;> simp <;> nlinarith [sq_nonneg (v 0), sq_nonneg (v 1), sq_nonneg (v 2)]
  set q := v 0 ^ 2 + v 1 ^ 2 + v 2 ^ 2 with hqd
  refine ⟨(Real.sqrt q)⁻¹ • v, ?_, by rw [Matrix.mulVec_smul, hv2]⟩
  have hs := Real.sq_sqrt hq.le
  have hs0 : Real.sqrt q ≠ 0 := (Real.sqrt_pos.2 hq).ne'
  unfold IsUnitAxis
  simp only [Pi.smul_apply, smul_eq_mul, mul_pow, inv_pow, hs]
  field_simp
  linarith

/-- A turn about z, carried to another axis, is `rotation_v_theta` about that axis. -/
lemma conj_Rz_axis (Q : Mat3) (hQ : IsProperRotation Q) (r : ℝ) :
    Q * Rz (r * Real.pi / 180) * Qᵀ = rotationVTheta (fun i => Q i 2) r := by
  obtain ⟨h1, h2, h3⟩ := hQ
  have hadj : Q.adjugate = Qᵀ := by
    have h4 := Matrix.mul_adjugate Q
    rw [h3, one_smul] at h4
    calc Q.adjugate = Qᵀ * Q * Q.adjugate := by rw [h2, Matrix.one_mul]
      _ = Qᵀ := by rw [Matrix.mul_assoc, h4, Matrix.mul_one]
  rw [Matrix.adjugate_fin_three] at hadj
  have a20 := congrFun (congrFun hadj 2) 0
  have a21 := congrFun (congrFun hadj 2) 1
  have a22 := congrFun (congrFun hadj 2) 2
  simp at a20 a21 a22
  have hu := congrFun (congrFun h2 2) 2
  simp [Matrix.mul_apply, Fin.sum_univ_three] at hu
  have hd : r * Real.pi / 180 = deg2rad r := by unfold deg2rad; ring
  rw [hd]
  unfold rotationVTheta
  have hw : ∀ i j, mW (fun i => Q i 2) i j = Q i 1 * Q j 0 - Q i 0 * Q j 1 := by
    intro i j
    fin_cases i <;> fin_cases j <;> simp [mW] <;> linarith
  have hw2 : ∀ i j, (mW (fun i => Q i 2) ^ 2) i j = Q i 2 * Q j 2 - (1 : Mat3) i j := by
    intro i j
    rw [pow_two, Matrix.mul_apply, Fin.sum_univ_three]
    fin_cases i <;> fin_cases j <;> simp [mW] <;> linarith
  ext i j
  have ho := congrFun (congrFun h1 i) j
  rw [Matrix.mul_apply, Fin.sum_univ_three] at ho
  simp only [Matrix.transpose_apply] at ho
  rw [Matrix.add_apply, Matrix.add_apply, Matrix.smul_apply, Matrix.smul_apply, hw, hw2, ← ho]
  simp [Matrix.mul_apply, Fin.sum_univ_three, Rz]
  ring

/-- C161: every rotation is `rotation_v_theta` of a unit axis and an angle from 0 to 180 degrees, and `rotation_v` of a vector no longer than `π`. -/
theorem C161_axis_all (R : Mat3) (hR : IsProperRotation R) :
    (∃ (v : Fin 3 → ℝ) (theta : ℝ), IsUnitAxis v ∧ 0 ≤ theta ∧ theta ≤ 180 ∧ rotationVTheta v theta = R) ∧
    ∃ v : Fin 3 → ℝ, v 0 ^ 2 + v 1 ^ 2 + v 2 ^ 2 ≤ Real.pi ^ 2 ∧ rotationV v = R := by
  have main : ∃ (v : Fin 3 → ℝ) (theta : ℝ), IsUnitAxis v ∧ 0 ≤ theta ∧ theta ≤ 180 ∧ rotationVTheta v theta = R := by
    obtain ⟨u, hu, hRu⟩ := rotation_axis R hR
    obtain ⟨p, n, -, -, hq⟩ := column_angles u hu
    obtain ⟨h1, h2, h3⟩ := hR
    have hQ := C17_euler_proper p n 0
    set Q := rotationEuler p n 0
    have hcol : (fun i => Q i 2) = u := funext hq
    set M := Qᵀ * R * Q with hM
    have hRM : Q * M * Qᵀ = R := by
      rw [hM, Matrix.mul_assoc Qᵀ, ← Matrix.mul_assoc Q, hQ.1, Matrix.one_mul, Matrix.mul_assoc, hQ.1, Matrix.mul_one]
    have hMM : Mᵀ * M = 1 := by
      rw [hM]
      simp only [Matrix.transpose_mul, Matrix.transpose_transpose, Matrix.mul_assoc]
      rw [← Matrix.mul_assoc Q Qᵀ, hQ.1, Matrix.one_mul, ← Matrix.mul_assoc Rᵀ, h2, Matrix.one_mul, hQ.2.1]
    have hMd : M.det = 1 := by
      rw [hM, Matrix.det_mul, Matrix.det_mul, Matrix.det_transpose, hQ.2.2, h3]
      norm_num
    have hM2 : ∀ i, M i 2 = (1 : Mat3) i 2 := by
      intro i
      have e : ∀ k, (R * Q) k 2 = Q k 2 := by
        intro k
        have := congrFun hRu k
        rw [← hcol] at this
        simpa [Matrix.mulVec, dotProduct, Matrix.mul_apply] using this
      rw [hM, Matrix.mul_assoc, ← hQ.2.1, Matrix.mul_apply, Matrix.mul_apply]
      exact Finset.sum_congr rfl fun k _ => by rw [e k]
    obtain ⟨r, hr0, hr1, hr⟩ := fixes_z M hMM hMd hM2
    have hfin : rotationVTheta u r = R := by rw [← hRM, hr, conj_Rz_axis Q hQ, hcol]
    by_cases h : r ≤ 180
    · exact ⟨u, r, hu, hr0, h, hfin⟩
    · push Not at h
      refine ⟨fun i => -u i, 360 - r, ?_, by linarith, by linarith, ?_⟩
      · unfold IsUnitAxis at hu ⊢
        linarith
      · rw [← hfin]
        have hd : deg2rad (360 - r) = 2 * Real.pi - deg2rad r := by unfold deg2rad; ring
        have hw : mW (fun i => -u i) = -mW u := by
          have := mW_smul (-1) u
          simpa using this
        unfold rotationVTheta
        rw [hd, Real.sin_two_pi_sub, Real.cos_two_pi_sub, hw, neg_sq, smul_neg, neg_smul, neg_neg]
  refine ⟨main, ?_⟩
  obtain ⟨v, theta, hv, h0, h1, h⟩ := main
  refine ⟨fun i => theta * Real.pi / 180 * v i, ?_, by rw [C18_axis_vector_agree v hv, h]⟩
  unfold IsUnitAxis at hv
  have hpi := Real.pi_pos
  have e : (theta * Real.pi / 180 * v 0) ^ 2 + (theta * Real.pi / 180 * v 1) ^ 2 + (theta * Real.pi / 180 * v 2) ^ 2 = (theta * Real.pi / 180) ^ 2 := by
    linear_combination (theta * Real.pi / 180) ^ 2 * hv
  simp only
  rw [e]
  apply pow_le_pow_left₀ (by positivity)
  rw [div_le_iff₀ (by norm_num)]
  nlinarith

/-- C161: axis and angle are unique, unless the rotation is the identity or a half turn. -/
theorem C161_axis_unique (v v' : Fin 3 → ℝ) (hv : IsUnitAxis v) (hv' : IsUnitAxis v') (t t' : ℝ) (ht : 0 < t ∧ t < 180) (ht' : 0 ≤ t' ∧ t' ≤ 180)
    (h : rotationVTheta v t = rotationVTheta v' t') : v = v' ∧ t = t' := by
  have hpi := Real.pi_pos
  have e : ∀ i j, rotationVTheta v t i j = rotationVTheta v' t' i j := fun i j => by rw [h]
  have val : ∀ (v : Fin 3 → ℝ) (t : ℝ), (rotationVTheta v t 0 0 + rotationVTheta v t 1 1 + rotationVTheta v t 2 2 =
        3 - 2 * (1 - Real.cos (deg2rad t)) * (v 0 ^ 2 + v 1 ^ 2 + v 2 ^ 2)) ∧
      rotationVTheta v t 2 1 - rotationVTheta v t 1 2 = 2 * Real.sin (deg2rad t) * v 0 ∧
      rotationVTheta v t 0 2 - rotationVTheta v t 2 0 = 2 * Real.sin (deg2rad t) * v 1 ∧
      rotationVTheta v t 1 0 - rotationVTheta v t 0 1 = 2 * Real.sin (deg2rad t) * v 2 := by
    intro v t
    refine ⟨?_, ?_, ?_, ?_⟩ <;>
      simp [rotationVTheta, mW, pow_two, Matrix.mul_apply, Fin.sum_univ_three, Matrix.add_apply] <;> ring
  obtain ⟨a0, a1, a2, a3⟩ := val v t
  obtain ⟨b0, b1, b2, b3⟩ := val v' t'
  simp only [e] at a0 a1 a2 a3
  unfold IsUnitAxis at hv hv'
  rw [hv] at a0
  rw [hv'] at b0
  have hc : Real.cos (deg2rad t) = Real.cos (deg2rad t') := by linarith
  have htt : t = t' := by
    have := Real.injOn_cos (x₁ := deg2rad t) (x₂ := deg2rad t') ?_ ?_ hc
    · unfold deg2rad at this
      field_simp at this
      linarith
    · unfold deg2rad
      constructor <;> nlinarith
    · unfold deg2rad
      constructor <;> nlinarith
  subst htt
  have hs : 0 < Real.sin (deg2rad t) := by
    apply Real.sin_pos_of_pos_of_lt_pi
    · unfold deg2rad; nlinarith
    · unfold deg2rad; nlinarith
  refine ⟨?_, rfl⟩
  have key : ∀ x y : ℝ, 2 * Real.sin (deg2rad t) * x = 2 * Real.sin (deg2rad t) * y → x = y := fun x y hxy =>
    mul_left_cancel₀ (by positivity) hxy
  ext i
  fin_cases i
  · exact key _ _ (a1.symm.trans b1)
  · exact key _ _ (a2.symm.trans b2)
  · exact key _ _ (a3.symm.trans b3)

/-- Non-vacuity of `C161_axis_unique`. -/
example (v : Fin 3 → ℝ) (t : ℝ) (hv : IsUnitAxis v) (ht : 0 ≤ t ∧ t ≤ 180) (h : rotationVTheta ![0, 3 / 5, 4 / 5] 30 = rotationVTheta v t) : t = 30 :=
  (C161_axis_unique _ v (by simp [IsUnitAxis]; norm_num) hv 30 t (by norm_num) ht h).2.symm

/-- Non-vacuity of `C161_axis_all`: rotations given by Euler angles have an axis. -/
example : ∃ (v : Fin 3 → ℝ) (theta : ℝ), IsUnitAxis v ∧ rotationVTheta v theta = rotationEuler 30 45 60 := by
  obtain ⟨⟨v, theta, h, -, -, e⟩, -⟩ := C161_axis_all _ (C17_euler_proper 30 45 60)
  exact ⟨v, theta, h, e⟩

end PyElli
