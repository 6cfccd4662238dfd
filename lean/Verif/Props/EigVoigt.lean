import Verif.Props.EigCrystals
import Verif.Model.Materials

/-! # An absorbing crystal that `PropagatorEig` does not treat (C159) -/

namespace PyElli

open Matrix Complex Spec

/-- An absorbing biaxial crystal, turned. -/
noncomputable def voigtCrystal : SingleMaterial where
  dispersionX := fun _ => 4 + 3 * I
  dispersionY := fun _ => 2 + I
  dispersionZ := fun _ => 2 + 2 * I
  rotation := some !![1 / 3, 2 / 3, 2 / 3; 2 / 3, 1 / 3, -2 / 3; -2 / 3, 2 / 3, -1 / 3]

lemma voigt_tensor (lbda : ℝ) : voigtCrystal.getTensor lbda =
    !![(20 + 15 * I) / 9, 4 / 9, -(4 + 6 * I) / 9; 4 / 9, (26 + 21 * I) / 9, -(8 + 6 * I) / 9; -(4 + 6 * I) / 9, -(8 + 6 * I) / 9, (26 + 18 * I) / 9] := by
  ext i j
  fin_cases i <;> fin_cases j <;>
    simp [voigtCrystal, SingleMaterial.getTensor, Matrix.mul_apply, Fin.sum_univ_three, Matrix.diagonal] <;> ring

lemma voigt_delta (lbda : ℝ) : buildDelta 0 (voigtCrystal.getTensor lbda) =
    !![0, 0, 0, 1; 0, 0, -1, 0; -(39 - 27 * I) / 125, -(327 + 264 * I) / 125, 0, 0; (273 + 186 * I) / 125, (39 - 27 * I) / 125, 0, 0] := by
  have hI : I ^ 2 = -1 := Complex.I_sq
  have h0 : (26 + 18 * I : ℂ) ≠ 0 := by
    intro h
    have := congrArg Complex.re h
    simp at this
  have h1 : (26 + 18 * I : ℂ) / 9 ≠ 0 := div_ne_zero h0 (by norm_num)
  rw [voigt_tensor]
  have e1 : -(8 + 6 * I) / 9 * (-(4 + 6 * I) / 9) / ((26 + 18 * I) / 9) = 4 / 9 - (39 - 27 * I) / 125 := by
    rw [div_eq_iff h1]
    linear_combination (-(2 / 3 : ℂ) * 4 / 9 - 18 * 27 / 1125 + 4 / 9 + 8 / 27) * hI
  have e2 : -(8 + 6 * I) / 9 * (-(8 + 6 * I) / 9) / ((26 + 18 * I) / 9) = (26 + 21 * I) / 9 - (327 + 264 * I) / 125 := by
    rw [div_eq_iff h1]
    linear_combination (36 / 81 - 18 * 21 / 81 + 18 * 264 / 1125 : ℂ) * hI
  have e3 : -(4 + 6 * I) / 9 * (-(4 + 6 * I) / 9) / ((26 + 18 * I) / 9) = (20 + 15 * I) / 9 - (273 + 186 * I) / 125 := by
    rw [div_eq_iff h1]
    linear_combination (36 / 81 - 18 * 15 / 81 + 18 * 186 / 1125 : ℂ) * hI
  have e4 : -(4 + 6 * I) / 9 * (-(8 + 6 * I) / 9) / ((26 + 18 * I) / 9) = 4 / 9 - (39 - 27 * I) / 125 := by
    rw [mul_comm, e1]
  ext i j
  fin_cases i <;> fin_cases j <;> simp [buildDelta, -neg_add_rev] 
  · rw [show -(8 + 6 * I) / 9 * (-(4 + 6 * I) / 9) / ((26 + 18 * I) / 9) = _ from e1]; ring
  · rw [e2]; ring
  · rw [e3]; ring
  · rw [e4]; ring

/-- C159 fails for absorbing crystals, also at normal incidence: for this one (a wave along a singular axis, known as Voigt wave) every matrix of
eigenvectors is singular. -/
theorem C159_voigt_refuted : ∃ (m : SingleMaterial) (r : Matrix (Fin 3) (Fin 3) ℝ), m.rotation = some r ∧ r * rᵀ = 1 ∧ r.det = 1 ∧
    (∀ lbda, 0 < (m.dispersionX lbda).im ∧ 0 < (m.dispersionY lbda).im ∧ 0 < (m.dispersionZ lbda).im) ∧
    ∀ (lbda : ℝ) (q : Fin 4 → ℂ) (w : Mat4), buildDelta 0 (m.getTensor lbda) * w = w * Matrix.diagonal q → ¬ IsUnit w := by
  refine ⟨voigtCrystal, _, rfl, ?_, ?_, ?_, ?_⟩
  · ext i j
    fin_cases i <;> fin_cases j <;> simp [Matrix.mul_apply, Fin.sum_univ_three] <;> norm_num
  · rw [Matrix.det_fin_three]
    simp
    norm_num
  · intro lbda
    simp [voigtCrystal]
  · intro lbda q w h hw
    rw [voigt_delta] at h
    have hI : I ^ 2 = -1 := Complex.I_sq
    set D : Mat4 := !![0, 0, 0, 1; 0, 0, -1, 0; -(39 - 27 * I) / 125, -(327 + 264 * I) / 125, 0, 0; (273 + 186 * I) / 125, (39 - 27 * I) / 125, 0, 0] with hD
    have hB : Diagonalisable (D * D - ((12 + 9 * I) / 5 : ℂ) • (1 : Mat4)) := by
      refine ⟨fun i => q i * q i - (12 + 9 * I) / 5, w, hw, ?_⟩
      have hd : Matrix.diagonal (fun i => q i * q i - (12 + 9 * I) / 5) =
          Matrix.diagonal q * Matrix.diagonal q - ((12 + 9 * I) / 5 : ℂ) • (1 : Mat4) := by
        rw [Matrix.diagonal_mul_diagonal, ← Matrix.diagonal_one, ← Matrix.diagonal_smul, Matrix.diagonal_sub]
        congr 1
        funext i
        simp
      rw [hd, Matrix.sub_mul, Matrix.mul_sub, Matrix.mul_assoc, h, ← Matrix.mul_assoc, h, Matrix.mul_assoc, Matrix.smul_mul, Matrix.one_mul,
        Matrix.mul_smul, Matrix.mul_one]
    have hv : (D * D - ((12 + 9 * I) / 5 : ℂ) • (1 : Mat4)) *ᵥ ![1, 0, 0, 0] = ![-(27 + 39 * I) / 125, (39 - 27 * I) / 125, 0, 0] := by
      funext i
      fin_cases i <;> simp [hD, Matrix.mulVec, dotProduct, Matrix.mul_apply, Fin.sum_univ_four, -neg_add_rev] <;> ring
    have h2 := diag_nilpotent hB ![1, 0, 0, 0] (by
      rw [hv]
      funext i
      fin_cases i <;> simp [hD, Matrix.mulVec, dotProduct, Matrix.mul_apply, Fin.sum_univ_four, -neg_add_rev]
      · linear_combination ((39 * 39 + 27 * 27) / 15625 : ℂ) * hI
      · ring_nf)
    rw [hv] at h2
    have := congrArg Complex.re (congrFun h2 1)
    norm_num at this

end PyElli
