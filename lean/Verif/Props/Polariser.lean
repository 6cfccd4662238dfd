import Verif.Props.MuellerInverse
import Verif.Props.Mixture

/-! # What a sample does to unpolarised light (C163) -/

namespace PyElli

open Complex Matrix Spec

/-- The reflected light is fully polarised for every incident light exactly if it is so for unpolarised light, and exactly if the determinant of the Jones matrix
is zero. -/
theorem C163_polariser (J : Mat2) (h : J 1 1 ≠ 0) :
    ((∀ S : Fin 4 → ℝ, let T := muellerMatrix J *ᵥ S; T 1 ^ 2 + T 2 ^ 2 + T 3 ^ 2 = T 0 ^ 2) ↔ J.det = 0) ∧
    ((let T := muellerMatrix J *ᵥ ![1, 0, 0, 0]; T 1 ^ 2 + T 2 ^ 2 + T 3 ^ 2 = T 0 ^ 2) ↔ J.det = 0) := by
  obtain ⟨-, -, -, h1⟩ := C129_single J h
  have hp := meanPower_pos J h
  have fwd : J.det = 0 → ∀ S : Fin 4 → ℝ, let T := muellerMatrix J *ᵥ S; T 1 ^ 2 + T 2 ^ 2 + T 3 ^ 2 = T 0 ^ 2 := fun h0 S => by
    have := h1 S
    simp only [h0, map_zero, zero_div, zero_mul] at this
    intro T
    linarith
  have bwd : (let T := muellerMatrix J *ᵥ ![1, 0, 0, 0]; T 1 ^ 2 + T 2 ^ 2 + T 3 ^ 2 = T 0 ^ 2) → J.det = 0 := fun h0 => by
    have h2 := h1 ![1, 0, 0, 0]
    simp only at h0 h2
    have h3 : normSq J.det / meanPower J ^ 2 = 0 := by
      simp only [Matrix.cons_val_zero, Matrix.cons_val_one, Matrix.cons_val] at h2
      linarith
    rcases div_eq_zero_iff.1 h3 with h4 | h4
    · exact normSq_eq_zero.1 h4
    · exact absurd h4 (by positivity)
  exact ⟨⟨fun h0 => bwd (h0 _), fwd⟩, ⟨bwd, fun h0 => fwd h0 _⟩⟩

/-- Unpolarised light stays unpolarised exactly if the Jones matrix is a multiple of a unitary one. -/
theorem C163_unpolarised (J : Mat2) (h : J 1 1 ≠ 0) :
    muellerMatrix J *ᵥ ![1, 0, 0, 0] = ![1, 0, 0, 0] ↔ ∃ c : ℝ, J * Jᴴ = (c : ℂ) • 1 := by
  have hp := meanPower_pos J h
  have hT : ∀ i, (muellerMatrix J *ᵥ ![1, 0, 0, 0]) i = (meanPower J)⁻¹ * muellerRaw J i 0 := fun i => by
    rw [mueller_smul J h]
    simp [Matrix.mulVec, dotProduct, Fin.sum_univ_four]
  constructor
  · intro h0
    have z : ∀ i, i ≠ 0 → muellerRaw J i 0 = 0 := fun i hi => by
      have h2 := (hT i).symm.trans (congrFun h0 i)
      have h3 : (![1, 0, 0, 0] : Fin 4 → ℝ) i = 0 := by fin_cases i <;> simp at hi ⊢
      rw [h3] at h2
      exact (mul_eq_zero.1 h2).resolve_left (inv_ne_zero hp.ne')
    have z1 := z 1 (by decide)
    have z2 := z 2 (by decide)
    have z3 := z 3 (by decide)
    simp [muellerRaw, normSq_apply] at z1 z2 z3
    refine ⟨meanPower J, ?_⟩
    ext i j
    apply Complex.ext <;> fin_cases i <;> fin_cases j <;>
      simp [Matrix.mul_apply, Fin.sum_univ_two, Matrix.conjTranspose_apply, meanPower, normSq_apply] <;> linarith
  · rintro ⟨c, hc⟩
    have e00 := congrFun (congrFun hc 0) 0
    have e11 := congrFun (congrFun hc 1) 1
    have e01 := congrFun (congrFun hc 0) 1
    have r00 := congrArg re e00
    have r11 := congrArg re e11
    have r01 := congrArg re e01
    have i01 := congrArg im e01
    simp [Matrix.mul_apply, Fin.sum_univ_two, Matrix.conjTranspose_apply] at r00 r11 r01 i01
    ext i
    rw [hT]
    fin_cases i
    · simp only [Fin.zero_eta, raw_zero]
      simpa using inv_mul_cancel₀ hp.ne'
    all_goals
      simp [muellerRaw, normSq_apply, hp.ne']
      linarith

/-- A polariser at 45 degrees, and a rotator, which leaves light unpolarised. -/
example : let P : Mat2 := !![1 / 2, 1 / 2; 1 / 2, 1 / 2]; let J : Mat2 := !![1, 1; -1, 1]
    P 1 1 ≠ 0 ∧ P.det = 0 ∧ J 1 1 ≠ 0 ∧ J * Jᴴ = ((2 : ℝ) : ℂ) • 1 := by
  refine ⟨by simp, by simp [Matrix.det_fin_two], by simp, ?_⟩
  ext i j
  fin_cases i <;> fin_cases j <;> simp [Matrix.mul_apply, Fin.sum_univ_two, Matrix.conjTranspose_apply] <;> norm_num

end PyElli
