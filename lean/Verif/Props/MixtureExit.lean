import Verif.Props.ExitBasis
import Verif.Props.Slicing

/-! # C35: exit media that are optically isotropic but not an `IsotropicMaterial` -/

namespace PyElli

open Matrix Complex Spec

/-- C35: the solver treats the exit medium as isotropic only if the object is an `IsotropicMaterial`; what the tensor looks like plays no role. -/
theorem C35_exit_by_class (s : Struct) (lbda : ℝ) (st : Stack) (h : s.stack lbda = some st) :
    st.backIsotropic = true ↔ ∃ m, s.back = .single .isotropic m := by
  unfold Struct.stack at h
  simp only [Option.bind_eq_some_iff, Option.map_eq_some_iff] at h
  obtain ⟨f, -, ls, -, b, -, rfl⟩ := h
  cases hb : s.back with
  | single c m => cases c <;> simp [Material.isIsotropicClass, hb]
  | mixture k a b f => simp [Material.isIsotropicClass, hb]

/-- Air on a material of permittivity 4, given as an `IsotropicMaterial`. -/
noncomputable def glassStruct : Struct :=
  ⟨.single .isotropic (isotropicMaterial fun _ => 1), [], .single .isotropic (isotropicMaterial fun _ => 4)⟩

/-- The same, but the exit medium is a `VCAMaterial` of two such materials in equal parts. -/
noncomputable def mixedStruct : Struct :=
  ⟨.single .isotropic (isotropicMaterial fun _ => 1), [],
    .mixture .vca (.single .isotropic (isotropicMaterial fun _ => 4)) (.single .isotropic (isotropicMaterial fun _ => 4)) (1 / 2)⟩

noncomputable def mixedStack : Stack := ⟨isoTensor 1, [], isoTensor 4, false⟩

/-- Eigenvectors of the exit medium at normal incidence, as long as `c`. -/
noncomputable def mixW (c : ℝ) : Mat4 := !![0, c, 0, c; c, 0, c, 0; -2 * c, 0, 2 * c, 0; 0, 2 * c, 0, -2 * c]

def mixQ : Fin 4 → ℂ := ![2, 2, -2, -2]

lemma mix_kx : kxOf mixedStack 0 = 0 := by simp [kxOf, deg2rad]

lemma mix_eig (c : ℝ) : buildDelta (kxOf mixedStack 0) mixedStack.back * mixW c = mixW c * Matrix.diagonal mixQ := by
  rw [mix_kx]
  ext i j
  rw [Matrix.mul_diagonal]
  fin_cases i <;> fin_cases j <;> simp [buildDelta, mixedStack, isoTensor, mixW, mixQ, Matrix.mul_apply, Fin.sum_univ_four] <;> ring

lemma mix_unit {c : ℝ} (hc : c ≠ 0) : IsUnit (mixW c) := by
  have hc' : (c : ℂ) ≠ 0 := by exact_mod_cast hc
  have h : mixW c * !![0, 1 / (2 * (c : ℂ)), -(1 / (4 * c)), 0; 1 / (2 * c), 0, 0, 1 / (4 * c); 0, 1 / (2 * c), 1 / (4 * c), 0; 1 / (2 * c), 0, 0, -(1 / (4 * c))] = 1 := by
    ext i j
    fin_cases i <;> fin_cases j <;> simp [mixW, Matrix.mul_apply, Fin.sum_univ_four] <;> field_simp <;> norm_num
  exact IsUnit.of_mul_eq_one _ h

lemma mix_idx : argsort (lexLe mixQ) = [0, 1, 2, 3] := by
  unfold argsort
  rw [List.mergeSort_of_pairwise]
  · rfl
  · have : List.finRange 4 = [0, 1, 2, 3] := rfl
    rw [this]
    simp [lexLe, mixQ]

lemma mix_sorted (c : ℝ) : eigSorted mixQ (mixW c) = mixW c := by
  ext a k
  unfold eigSorted takeIdx
  simp only [mix_idx]
  fin_cases k <;> rfl

lemma mix_phased {c : ℝ} (hc : 0 < c) : eigPhased mixQ (mixW c) =
    !![0, 0, (c : ℂ), c; c, c, 0, 0; -2 * c, 2 * c, 0, 0; 0, 0, 2 * c, -2 * c] := by
  have d : ∀ x : ℂ, descTwo x 0 = ![0, 1] := by
    intro x
    unfold descTwo
    rw [if_pos]
    simp
  have p1 : unitPhase (c : ℂ) = 1 := by
    have hc' : (c : ℂ) ≠ 0 := by exact_mod_cast hc.ne'
    rw [unitPhase, if_pos (norm_ne_zero_iff.2 hc'), Complex.norm_of_nonneg hc.le, div_self hc']
  ext a k
  simp only [eigPhased, mix_sorted]
  have w1 : mixW c 1 1 = 0 := rfl
  have w3 : mixW c 1 3 = 0 := rfl
  simp only [w1, w3, d]
  fin_cases k <;> fin_cases a <;> simp [mixW, p1]

lemma mix_half {c : ℝ} (hc : 0 < c) : eigHalf mixQ (mixW c) = !![0, 0, 1, 1; 1, 1, 0, 0; -2, 2, 0, 0; 0, 0, 2, -2] := by
  have hc' : (c : ℂ) ≠ 0 := by exact_mod_cast hc.ne'
  ext a k
  unfold eigHalf eigNorm
  rw [mix_phased hc]
  fin_cases a <;> fin_cases k <;> simp <;> field_simp <;> ring

lemma mix_out {c : ℝ} (hc : 0 < c) (prop : Propagator) (lbda : ℝ) :
    calculate4x4 prop mixedStack 0 lbda (mixQ, mixW c) = ⟨!![1 / 3, 0; 0, -1 / 3], !![2 / 3, 0; 0, 2 / 3], none⟩ := by
  have n1 : nOf (isoTensor 1) = 1 := by
    have := nOf_iso_sq (x := 1) (by norm_num)
    simpa using this
  have c1 : cosPhi 0 (isoTensor 1) = 1 := by
    unfold cosPhi
    have := csqrt_ofReal (x := 1) (by norm_num)
    simpa using this
  have hl : loop4x4 prop 0 lbda mixedStack.layers (exitMatrix mixedStack 0 (mixQ, mixW c)) = eigHalf mixQ (mixW c) := rfl
  have hm : tIt (transfer4x4 prop mixedStack 0 lbda (mixQ, mixW c)) = !![3 / 2, 0; 0, 3 / 2] := by
    unfold transfer4x4
    rw [mix_kx, hl, mix_half hc]
    ext i j
    fin_cases i <;> fin_cases j <;> simp [tIt, Matrix.mul_apply, Fin.sum_univ_four, isoHalfInv, mixedStack, n1, c1] <;> norm_num
  have hr : tRt (transfer4x4 prop mixedStack 0 lbda (mixQ, mixW c)) = !![1 / 2, 0; 0, -1 / 2] := by
    unfold transfer4x4
    rw [mix_kx, hl, mix_half hc]
    ext i j
    fin_cases i <;> fin_cases j <;> simp [tRt, Matrix.mul_apply, Fin.sum_univ_four, isoHalfInv, mixedStack, n1, c1] <;> norm_num
  have hi : (!![3 / 2, 0; 0, 3 / 2] : Mat2)⁻¹ = !![2 / 3, 0; 0, 2 / 3] := by
    apply Matrix.inv_eq_right_inv
    ext i j
    fin_cases i <;> fin_cases j <;> simp [Matrix.mul_apply, Fin.sum_univ_two]
  unfold calculate4x4
  simp only [hm, hr, hi]
  congr 1
  ext i j
  fin_cases i <;> fin_cases j <;> simp [Matrix.mul_apply, Fin.sum_univ_two] <;> norm_num

/-- C35 fails for exit media that are lossless and optically isotropic but given as a mixture: air on a `VCAMaterial` of a material of permittivity 4 with
itself. The tensors agree with those of the `IsotropicMaterial`, `np.linalg.eig` answers correctly with vectors of length one, and yet
reflectance and transmittance add up to 5/9; with the `IsotropicMaterial` they add up to 1. -/
theorem C35_mixture_exit_refuted (lbda : ℝ) (hl : 0 < lbda) (jones : Fin 2 → ℂ) :
    ∃ (st st' : Stack) (q : Fin 4 → ℂ) (w : Mat4), mixedStruct.stack lbda = some st ∧ glassStruct.stack lbda = some st' ∧
      st.front = st'.front ∧ st.layers = st'.layers ∧ st.back = st'.back ∧
      IsUnit w ∧ buildDelta (kxOf st 0) st.back * w = w * Matrix.diagonal q ∧ (∀ k, ∑ a, ‖w a k‖ ^ 2 = 1) ∧
      (∀ j, let out := calculate4x4 propExpm st 0 lbda (q, w)
        let res := Result.mk' out.jr out.jt out.power jones
        res.RMatrix 0 j + res.RMatrix 1 j + (res.TMatrix 0 j + res.TMatrix 1 j) = 5 / 9) ∧
      (∀ j, let out := calculate4x4 propExpm st' 0 lbda (q, w)
        let res := Result.mk' out.jr out.jt out.power jones
        res.RMatrix 0 j + res.RMatrix 1 j + (res.TMatrix 0 j + res.TMatrix 1 j) = 1) := by
  set c : ℝ := 1 / Real.sqrt 5 with hcdef
  have h5 : (0 : ℝ) < Real.sqrt 5 := Real.sqrt_pos.2 (by norm_num)
  have hc : 0 < c := by positivity
  have hc2 : c ^ 2 = 1 / 5 := by
    rw [hcdef, div_pow, Real.sq_sqrt (by norm_num)]
    norm_num
  have hmix : mixedStruct.back.getTensor lbda = fun i j => some (isoTensor 4 i j) := by
    funext i j
    simp only [mixedStruct, Material.getTensor, EmaKind.numTensor, isotropicMaterial, SingleMaterial.getTensor, EmaKind.entryNum, EmaKind.entry, vcaEntry, isoTensor]
    fin_cases i <;> fin_cases j <;> simp <;> norm_num
  have e1 : mixedStruct.stack lbda = some mixedStack := by
    unfold Struct.stack
    rw [hmix, finite_some]
    simp only [mixedStruct, iso_numTensor, finite_some, profileList, finiteSlices]
    rfl
  have e2 : glassStruct.stack lbda = some (sampleStack ⟨1, [], 4⟩) := by
    unfold Struct.stack
    simp only [glassStruct, iso_numTensor, finite_some, profileList, finiteSlices, sampleStack]
    simp [Material.isIsotropicClass]
  refine ⟨mixedStack, sampleStack ⟨1, [], 4⟩, mixQ, mixW c, e1, e2, by simp [mixedStack, sampleStack], rfl, rfl, mix_unit hc.ne', mix_eig c, ?_, ?_, ?_⟩
  · intro k
    have hn : ‖(c : ℂ)‖ = c := Complex.norm_of_nonneg hc.le
    fin_cases k <;> simp [mixW, Fin.sum_univ_four, hn, mul_pow] <;> nlinarith
  · intro j
    simp only [mix_out hc, Result.mk', Result.RMatrix, Result.TMatrix, Option.getD_none]
    fin_cases j <;> simp <;> norm_num
  · intro j
    exact C35_energy_conservation _ 0 lbda (bare_passive (by norm_num) (by norm_num) (by norm_num) (by norm_num) hl) (by simp [bare, sampleStack]) (by
      simp [bare, sampleStack, isoTensor]) _ jones j

end PyElli
