import Verif.Props.SolverLaws
import Verif.Lemmas.Sqrt

/-! # Which layers `PropagatorEig` treats (C159) -/

/-- There is a basis of eigenvectors. -/
def Spec.Diagonalisable (A : Matrix (Fin 4) (Fin 4) ℂ) : Prop :=
  ∃ (q : Fin 4 → ℂ) (w : Matrix (Fin 4) (Fin 4) ℂ), IsUnit w ∧ A * w = w * Matrix.diagonal q

/-- What is used of `np.linalg.eig`: a basis of eigenvectors with their eigenvalues, if there is one. -/
def Spec.IsEig (eig : Matrix (Fin 4) (Fin 4) ℂ → (Fin 4 → ℂ) × Matrix (Fin 4) (Fin 4) ℂ) : Prop :=
  ∀ A, Spec.Diagonalisable A → IsUnit (eig A).2 ∧ A * (eig A).2 = (eig A).2 * Matrix.diagonal (eig A).1

namespace PyElli

open Matrix Complex Spec

/-- The optical axes along x, y and z. -/
def xyzTensor (ex ey ez : ℂ) : Tensor := Matrix.diagonal ![ex, ey, ez]

lemma diag_nilpotent {A : Mat4} (h : Diagonalisable A) (v : Fin 4 → ℂ) (h2 : A *ᵥ (A *ᵥ v) = 0) : A *ᵥ v = 0 := by
  obtain ⟨q, w, hw, hA⟩ := h
  have hdet : IsUnit w.det := (Matrix.isUnit_iff_isUnit_det _).1 hw
  have hA' : A = w * Matrix.diagonal q * w⁻¹ := by
    rw [← hA, Matrix.mul_assoc, Matrix.mul_nonsing_inv _ hdet, Matrix.mul_one]
  set u := w⁻¹ *ᵥ v with hu
  have hv : ∀ x : Fin 4 → ℂ, w⁻¹ *ᵥ (w *ᵥ x) = x := by
    intro x
    rw [Matrix.mulVec_mulVec, Matrix.nonsing_inv_mul _ hdet, Matrix.one_mulVec]
  have e1 : A *ᵥ v = w *ᵥ (Matrix.diagonal q *ᵥ u) := by
    rw [hA', hu, Matrix.mulVec_mulVec, Matrix.mulVec_mulVec, Matrix.mul_assoc]
  have e2 : A *ᵥ (A *ᵥ v) = w *ᵥ (Matrix.diagonal q *ᵥ (Matrix.diagonal q *ᵥ u)) := by
    rw [e1]
    conv_lhs => rw [hA']
    rw [← Matrix.mulVec_mulVec, ← Matrix.mulVec_mulVec, hv]
  rw [h2] at e2
  have e3 := congrArg (fun x => w⁻¹ *ᵥ x) e2
  simp only [Matrix.mulVec_zero, hv] at e3
  have e4 : Matrix.diagonal q *ᵥ u = 0 := by
    funext i
    have := congrFun e3 i
    simp only [Matrix.mulVec_diagonal, Pi.zero_apply] at this ⊢
    rcases mul_eq_zero.1 this.symm with h | h
    · rw [h, zero_mul]
    · exact h
  rw [e1, e4, Matrix.mulVec_zero]

/-- C159: for crystals with their axes along x, y and z (isotropic layers included) there is a basis of eigenvectors exactly if neither polarisation
is at its critical angle. -/
theorem C159_aligned_iff (kx ex ey ez : ℂ) (hx : ex ≠ 0) (hz : ez ≠ 0) :
    Diagonalisable (buildDelta kx (xyzTensor ex ey ez)) ↔ kx ^ 2 ≠ ey ∧ kx ^ 2 ≠ ez := by
  have hD : buildDelta kx (xyzTensor ex ey ez) = !![0, 0, 0, 1 - kx ^ 2 / ez; 0, 0, -1, 0; 0, kx ^ 2 - ey, 0, 0; ex, 0, 0, 0] := by
    ext i j
    fin_cases i <;> fin_cases j <;> simp [buildDelta, xyzTensor, Matrix.diagonal]
  rw [hD]
  constructor
  · intro h
    constructor
    · intro hk
      have h1 := diag_nilpotent h ![0, 0, 1, 0] (by
        funext i
        fin_cases i <;> simp [Matrix.mulVec, dotProduct, Fin.sum_univ_four, hk])
      have := congrFun h1 1
      simp [Matrix.mulVec, dotProduct, Fin.sum_univ_four] at this
    · intro hk
      have h0 : 1 - kx ^ 2 / ez = 0 := by rw [hk, div_self hz, sub_self]
      rw [h0] at h
      have h1 := diag_nilpotent h ![1, 0, 0, 0] (by
        funext i
        fin_cases i <;> simp [Matrix.mulVec, dotProduct, Fin.sum_univ_four])
      have := congrFun h1 3
      simp [Matrix.mulVec, dotProduct, Fin.sum_univ_four] at this
      exact hx this
  · rintro ⟨h1, h2⟩
    have ha : 1 - kx ^ 2 / ez ≠ 0 := by
      intro h
      apply h2
      field_simp at h
      linear_combination -h
    obtain ⟨p, hp⟩ : ∃ p : ℂ, p ^ 2 = (1 - kx ^ 2 / ez) * ex := ⟨_, csqrt_sq _⟩
    obtain ⟨s, hs⟩ : ∃ s : ℂ, s ^ 2 = ey - kx ^ 2 := ⟨_, csqrt_sq _⟩
    have hp0 : p ≠ 0 := by
      rintro rfl
      rw [zero_pow two_ne_zero] at hp
      exact mul_ne_zero ha hx hp.symm
    have hs0 : s ≠ 0 := by
      rintro rfl
      rw [zero_pow two_ne_zero] at hs
      exact h1 (by linear_combination hs)
    refine ⟨![p, -p, s, -s], !![p, -p, 0, 0; 0, 0, 1, 1; 0, 0, -s, s; ex, ex, 0, 0], ?_, ?_⟩
    · have hinv : !![p, -p, 0, 0; 0, 0, 1, 1; 0, 0, -s, s; ex, ex, 0, 0] *
          !![1 / (2 * p), 0, 0, 1 / (2 * ex); -(1 / (2 * p)), 0, 0, 1 / (2 * ex); 0, 1 / 2, -(1 / (2 * s)), 0; 0, 1 / 2, 1 / (2 * s), 0] = (1 : Mat4) := by
        ext i j
        fin_cases i <;> fin_cases j <;> simp [Matrix.mul_apply, Fin.sum_univ_four] <;> field_simp <;> ring
      exact IsUnit.of_mul_eq_one _ hinv
    · generalize 1 - kx ^ 2 / ez = a at *
      ext i j
      fin_cases i <;> fin_cases j <;> simp [Matrix.mul_apply, Fin.sum_univ_four, Matrix.diagonal] <;>
        first | linear_combination hp | linear_combination -hp | linear_combination hs | linear_combination -hs | ring

/-- C159: in samples all of whose layers have a basis of eigenvectors, `PropagatorEig` gives the result of `PropagatorExpm`. -/
theorem C159_agree_partial {eig : Mat4 → (Fin 4 → ℂ) × Mat4} (he : IsEig eig) (s : Stack) (theta lbda : ℝ) (ee)
    (h : ∀ l ∈ s.layers, Diagonalisable (buildDelta (kxOf s theta) l.2)) :
    calculate4x4 (fun delta => propEig (eig delta).1 (eig delta).2) s theta lbda ee = calculate4x4 propExpm s theta lbda ee := by
  have hm : (s.layers.map fun l => propEig (eig (buildDelta (kxOf s theta) l.2)).1 (eig (buildDelta (kxOf s theta) l.2)).2 (-l.1) lbda) =
      s.layers.map fun l => propExpm (buildDelta (kxOf s theta) l.2) (-l.1) lbda := by
    apply List.map_congr_left
    intro l hl
    obtain ⟨h1, h2⟩ := he _ (h l hl)
    exact C40_eig_eq_expm _ _ _ h1 h2 _ _
  have ht : transfer4x4 (fun delta => propEig (eig delta).1 (eig delta).2) s theta lbda ee = transfer4x4 propExpm s theta lbda ee := by
    unfold transfer4x4
    rw [loop4x4_eq, loop4x4_eq, hm]
  unfold calculate4x4
  rw [ht]

/-- C159: so for all samples of crystals with axes along x, y and z that are not at a critical angle; in particular for absorbing ones at all angles. -/
theorem C159_aligned_partial {eig : Mat4 → (Fin 4 → ℂ) × Mat4} (he : IsEig eig) (s : Stack) (n0 theta lbda : ℝ) (hn0 : 0 < n0)
    (hf : s.front 0 0 = ((n0 ^ 2 : ℝ) : ℂ)) (ee)
    (h : ∀ l ∈ s.layers, ∃ ex ey ez : ℂ, l.2 = xyzTensor ex ey ez ∧ ex ≠ 0 ∧ ez ≠ 0 ∧
      (ey.im ≠ 0 ∨ ey.re ≠ (n0 * Real.sin (deg2rad theta)) ^ 2) ∧ (ez.im ≠ 0 ∨ ez.re ≠ (n0 * Real.sin (deg2rad theta)) ^ 2)) :
    calculate4x4 (fun delta => propEig (eig delta).1 (eig delta).2) s theta lbda ee = calculate4x4 propExpm s theta lbda ee := by
  apply C159_agree_partial he
  intro l hl
  obtain ⟨ex, ey, ez, e, hx, hz, h1, h2⟩ := h l hl
  have hk : kxOf s theta = ((n0 * Real.sin (deg2rad theta) : ℝ) : ℂ) := by
    unfold kxOf nOf
    rw [hf, csqrt_ofReal (by positivity), Real.sqrt_sq hn0.le]
    push_cast
    rfl
  have key : ∀ z : ℂ, (z.im ≠ 0 ∨ z.re ≠ (n0 * Real.sin (deg2rad theta)) ^ 2) → kxOf s theta ^ 2 ≠ z := by
    intro z hz hc
    rw [hk, ← Complex.ofReal_pow] at hc
    rw [← hc, Complex.ofReal_im, Complex.ofReal_re] at hz
    rcases hz with h | h <;> exact h rfl
  rw [e, C159_aligned_iff _ _ _ _ hx hz]
  exact ⟨key _ h1, key _ h2⟩

/-- A calcite plate with its optical axis along z and a metal film, at 30 degrees in air. -/
example {eig : Mat4 → (Fin 4 → ℂ) × Mat4} (he : IsEig eig) (d1 d2 lbda : ℝ) (ee) :
    calculate4x4 (fun delta => propEig (eig delta).1 (eig delta).2)
      ⟨isoTensor 1, [(d1, xyzTensor 2.75 2.75 2.21), (d2, xyzTensor (-10 + I) (-10 + I) (-10 + I))], isoTensor 4, true⟩ 30 lbda ee =
    calculate4x4 propExpm
      ⟨isoTensor 1, [(d1, xyzTensor 2.75 2.75 2.21), (d2, xyzTensor (-10 + I) (-10 + I) (-10 + I))], isoTensor 4, true⟩ 30 lbda ee := by
  apply C159_aligned_partial he _ 1 30 lbda one_pos (by simp [isoTensor])
  have h30 : Real.sin (deg2rad 30) = 1 / 2 := by
    rw [show deg2rad 30 = Real.pi / 6 by unfold deg2rad; ring, Real.sin_pi_div_six]
  have hI : (-10 + I : ℂ) ≠ 0 := by
    intro h
    have := congrArg Complex.im h
    simp at this
  intro l hl
  rw [h30]
  simp only [List.mem_cons, List.not_mem_nil, or_false] at hl
  rcases hl with rfl | rfl
  · refine ⟨2.75, 2.75, 2.21, rfl, by norm_num, by norm_num, Or.inr ?_, Or.inr ?_⟩
    · rw [show (2.75 : ℂ) = ((2.75 : ℝ) : ℂ) by norm_num, Complex.ofReal_re]; norm_num
    · rw [show (2.21 : ℂ) = ((2.21 : ℝ) : ℂ) by norm_num, Complex.ofReal_re]; norm_num
  · exact ⟨_, _, _, rfl, hI, hI, Or.inl (by simp), Or.inl (by simp)⟩

/-- C159 fails at the critical angle of an isotropic layer: whatever eigenvectors are returned, their matrix has no inverse. -/
theorem C159_critical_refuted (s : Stack) (n0 theta : ℝ) (hn0 : 0 < n0) (hf : s.front 0 0 = ((n0 ^ 2 : ℝ) : ℂ)) (e : ℝ) (he : 0 < e)
    (hcrit : e = (n0 * Real.sin (deg2rad theta)) ^ 2) (q : Fin 4 → ℂ) (w : Mat4)
    (h : buildDelta (kxOf s theta) (isoTensor (e : ℂ)) * w = w * Matrix.diagonal q) : ¬ IsUnit w := by
  intro hw
  have hk : kxOf s theta ^ 2 = (e : ℂ) := by
    unfold kxOf nOf
    rw [hf, csqrt_ofReal (by positivity), Real.sqrt_sq hn0.le, hcrit]
    push_cast
    rfl
  have hi : isoTensor (e : ℂ) = xyzTensor e e e := by
    ext i j
    fin_cases i <;> fin_cases j <;> simp [isoTensor, xyzTensor, Matrix.diagonal]
  have he' : (e : ℂ) ≠ 0 := by exact_mod_cast he.ne'
  have := (C159_aligned_iff (kxOf s theta) e e e he' he').1 ⟨q, w, hw, by rw [← hi]; exact h⟩
  exact this.1 hk

/-- An air gap under a prism of index √2 at 45 degrees. -/
example : (1 : ℝ) = (Real.sqrt 2 * Real.sin (deg2rad 45)) ^ 2 := by
  have : deg2rad 45 = Real.pi / 4 := by unfold deg2rad; ring
  rw [this, Real.sin_pi_div_four, mul_pow, div_pow, Real.sq_sqrt (by norm_num)]
  norm_num

/-- A routine as assumed exists. -/
example : ∃ eig, IsEig eig := by
  classical
  exact ⟨fun A => if h : Diagonalisable A then (h.choose, h.choose_spec.choose) else (0, 0), fun A h => by
    simp only [h, dif_pos]
    exact h.choose_spec.choose_spec⟩

end PyElli
