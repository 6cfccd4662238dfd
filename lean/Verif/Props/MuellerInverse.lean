import Verif.Props.Mueller

/-! # What a Mueller matrix tells about the sample (C163) -/

namespace PyElli

open Complex Matrix

/-- C163: the entries of `rho_matrix` follow from those of `mueller_matrix`. The denominator is never zero. -/
theorem C163_recover (J : Mat2) (h : J 1 1 ≠ 0) :
    let M := muellerMatrix J
    let D := M 0 0 - M 0 1 - M 1 0 + M 1 1
    0 < D ∧ J 0 0 / J 1 1 = ((M 2 2 + M 3 3 : ℝ) + (M 2 3 - M 3 2 : ℝ) * I) / (D : ℂ) ∧
      J 0 1 / J 1 1 = ((M 2 0 - M 2 1 : ℝ) - (M 3 0 - M 3 1 : ℝ) * I) / (D : ℂ) ∧
      J 1 0 / J 1 1 = ((M 0 2 - M 1 2 : ℝ) + (M 0 3 - M 1 3 : ℝ) * I) / (D : ℂ) := by
  intro M D
  have hpos := raw00_pos J h
  have hM : ∀ i j, M i j = muellerRaw (rhoMatrix J) i j / muellerRaw (rhoMatrix J) 0 0 := muellerMatrix_eq J
  have h11 : rhoMatrix J 1 1 = 1 := by simp [rhoMatrix, h]
  have e : ∀ i j, J i j / J 1 1 = rhoMatrix J i j := fun i j => rfl
  have hD : D = 2 / muellerRaw (rhoMatrix J) 0 0 := by
    simp only [D, hM, ← sub_div, ← add_div]
    congr 1
    simp only [muellerRaw]
    simp [h11]
    ring
  have hn : ((muellerRaw (rhoMatrix J) 0 0 : ℝ) : ℂ) ≠ 0 := ofReal_ne_zero.2 hpos.ne'
  refine ⟨by rw [hD]; positivity, ?_, ?_, ?_⟩
  all_goals
    rw [hD, e]
    simp only [hM, ← sub_div, ← add_div]
    push_cast
    generalize ((muellerRaw (rhoMatrix J) 0 0 : ℝ) : ℂ) = n at hn
    field_simp
    apply Complex.ext <;> simp [muellerRaw, h11] <;> ring

/-- C163: two samples have the same Mueller matrix exactly if their Jones matrices differ by a common factor. -/
theorem C163_iff (J J' : Mat2) (h : J 1 1 ≠ 0) (h' : J' 1 1 ≠ 0) : muellerMatrix J = muellerMatrix J' ↔ ∃ c : ℂ, c ≠ 0 ∧ J' = c • J := by
  constructor
  · intro hM
    obtain ⟨-, a1, a2, a3⟩ := C163_recover J h
    obtain ⟨-, b1, b2, b3⟩ := C163_recover J' h'
    rw [hM] at a1 a2 a3
    refine ⟨J' 1 1 / J 1 1, div_ne_zero h' h, ?_⟩
    have key : ∀ i j, J i j / J 1 1 = J' i j / J' 1 1 → J' i j = J' 1 1 / J 1 1 * J i j := by
      intro i j hij
      rw [div_eq_div_iff h h'] at hij
      field_simp
      linear_combination -hij
    ext i j
    rw [Matrix.smul_apply, smul_eq_mul]
    fin_cases i <;> fin_cases j
    · exact key 0 0 (a1.trans b1.symm)
    · exact key 0 1 (a2.trans b2.symm)
    · exact key 1 0 (a3.trans b3.symm)
    · exact key 1 1 (by rw [div_self h, div_self h'])
  · rintro ⟨c, hc, rfl⟩
    have : rhoMatrix (c • J) = rhoMatrix J := by
      ext i j
      simp only [rhoMatrix, Matrix.smul_apply, smul_eq_mul]
      rw [mul_div_mul_left _ _ hc]
    unfold muellerMatrix muellerComplex
    rw [this]

/-- C163: the Mueller matrix fixes `rho`, `psi`, `delta` for every incident polarisation and delta range, and the psi and delta matrices. -/
theorem C163_angles (res res' : Result) (h : res.jr 1 1 ≠ 0) (h' : res'.jr 1 1 ≠ 0) (hj : res.jones = res'.jones) (hr : res.range = res'.range)
    (hM : muellerMatrix res.jr = muellerMatrix res'.jr) :
    res.rho = res'.rho ∧ res.psi = res'.psi ∧ res.delta = res'.delta ∧ res.psiMatrix = res'.psiMatrix ∧ res.deltaMatrix = res'.deltaMatrix := by
  obtain ⟨c, hc, e⟩ := (C163_iff _ _ h h').1 hM
  have hrho : rhoMatrix res'.jr = rhoMatrix res.jr := by
    rw [e]
    ext i j
    simp only [rhoMatrix, Matrix.smul_apply, smul_eq_mul]
    rw [mul_div_mul_left _ _ hc]
  have h1 : res.rho = res'.rho := by unfold Result.rho; rw [hrho, hj, hr]
  refine ⟨h1, by unfold Result.psi; rw [h1], by unfold Result.delta; rw [h1, hr], by unfold Result.psiMatrix; rw [hrho], by unfold Result.deltaMatrix; rw [hrho, hr]⟩

/-- C163: the reflectance does not follow from the Mueller matrix, which is normalised. -/
theorem C163_power : ∃ J J' : Mat2, J 1 1 ≠ 0 ∧ J' 1 1 ≠ 0 ∧ muellerMatrix J = muellerMatrix J' ∧
    ∀ (jt : Mat2) (v : Fin 2 → ℂ), (Result.mk' J jt none v).R = 1 ∧ (Result.mk' J' jt none v).R = 1 / 4 := by
  refine ⟨1, (1 / 2 : ℂ) • 1, by simp, by simp, (C163_iff _ _ (by simp) (by simp)).2 ⟨1 / 2, by norm_num, rfl⟩, fun jt v => ⟨?_, ?_⟩⟩
  · simp [Result.R, Result.RMatrix, Result.mk']
  · simp [Result.R, Result.RMatrix, Result.mk']
    norm_num

/-- Non-vacuity of `C163_recover` and `C163_iff`: a sample that mixes the polarisations, and one with the opposite phase of `r_sp`. -/
example : muellerMatrix !![1, I; 2, 3] ≠ muellerMatrix !![1, -I; 2, 3] := by
  intro hM
  obtain ⟨c, -, h⟩ := (C163_iff !![1, I; 2, 3] !![1, -I; 2, 3] (by simp) (by simp)).1 hM
  have h1 := congrFun (congrFun h 0) 0
  have h2 := congrFun (congrFun h 0) 1
  simp at h1 h2
  rw [← h1, one_mul] at h2
  have := congrArg im h2
  norm_num at this

/-- Non-vacuity of `C163_angles`: a sample and the same with half the amplitude. -/
example (v : Fin 2 → ℂ) : (Result.mk' !![1, I; 2, 3] 1 none v).psi = (Result.mk' ((1 / 2 : ℂ) • !![1, I; 2, 3]) 1 none v).psi :=
  (C163_angles (Result.mk' !![1, I; 2, 3] 1 none v) (Result.mk' ((1 / 2 : ℂ) • !![1, I; 2, 3]) 1 none v) (by simp [Result.mk']) (by simp [Result.mk']) rfl rfl
    ((C163_iff _ _ (by simp [Result.mk']) (by simp [Result.mk'])).2 ⟨1 / 2, by norm_num, rfl⟩)).2.1

end PyElli
