import Verif.Model.Choices
import Verif.Props.Energy
import Verif.Props.CrystalFresnel
import Mathlib.Tactic

/-! # C120 and C121: warnings of `Solver2x2`, backends of `PropagatorExpm` -/

namespace PyElli

open Complex

/-! ## C120 -/

lemma nOf_active_iff (t : Tensor) : ((nOf t).re > 0 ∧ (nOf t).im < 0) ↔ (t 0 0).im < 0 := by
  have hsq : nOf t ^ 2 = t 0 0 := csqrt_sq _
  have him : (t 0 0).im = 2 * (nOf t).re * (nOf t).im := by
    rw [← hsq, pow_two, Complex.mul_im]
    ring
  constructor
  · rintro ⟨h1, h2⟩
    rw [him]
    nlinarith
  · intro h
    have hre : 0 ≤ (nOf t).re := csqrt_re_nonneg _
    rw [him] at h
    have h1 : 0 < (nOf t).re := by
      rcases hre.lt_or_eq with h' | h'
      · exact h'
      · rw [← h'] at h
        simp at h
    refine ⟨h1, ?_⟩
    by_contra hc
    push Not at hc
    nlinarith

lemma nOf_not_negative (t : Tensor) : ¬ (nOf t).re < 0 := not_lt.2 (csqrt_re_nonneg _)

open Classical in
lemma rowWarning_eq (row : List Tensor) :
    rowWarning (row.map nOf) = if ∃ t ∈ row, (t 0 0).im < 0 then some .active else none := by
  unfold rowWarning
  have h1 : (∃ n ∈ row.map nOf, n.re > 0 ∧ n.im < 0) ↔ ∃ t ∈ row, (t 0 0).im < 0 := by
    simp only [List.mem_map, exists_exists_and_eq_and, nOf_active_iff]
  have h2 : ¬ ∃ n ∈ row.map nOf, n.re < 0 ∧ n.im > 0 := by
    simp only [List.mem_map, exists_exists_and_eq_and, not_exists, not_and]
    intro t _ h
    exact absurd h (nOf_not_negative t)
  simp only [h1, h2, if_false]

open Classical in
/-- C120: `Solver2x2` warns once for every medium whose permittivity has a negative imaginary part at some wavelength, and raises no other warning. -/
theorem C120_warns_iff_partial (profile : List (List Tensor)) :
    warnings2x2 profile = List.replicate (profile.countP fun row => ∃ t ∈ row, (t 0 0).im < 0) .active := by
  unfold warnings2x2 nRows
  induction profile with
  | nil => rfl
  | cons row l ih =>
    rw [List.map_cons, List.filterMap_cons, rowWarning_eq, ih, List.countP_cons]
    by_cases h : ∃ t ∈ row, (t 0 0).im < 0
    · simp [h, List.replicate_succ]
    · simp [h]

/-- C120: an isotropic sample in a transparent ambient for which `Solver2x2` does not warn gets the result of `Solver4x4`. -/
theorem C120_silent_agree_partial (asin : ℂ → ℂ) (hasin : IsArcsin asin) (s : Stack) (theta lbda : ℝ) (ee) (hw : warnings2x2 s.rows = [])
    {n0 : ℝ} (hn0 : 0 < n0) (hf : s.front 0 0 = ((n0 ^ 2 : ℝ) : ℂ)) (ha : |theta| < 90) (hl : 0 < lbda)
    (hd : ∀ l ∈ s.layers, 0 ≤ l.1 ∧ l.2 0 0 ≠ 0) (hiso : IsoLayers s.layers) (hb0 : s.back 0 0 ≠ 0) (hb : s.backIsotropic = true)
    (hfw : ForwardOk (nOf s.back * cosPhi (kxOf s theta) s.back)) (hreg : Regular2x2 asin s theta) :
    calculate2x2 asin s theta lbda = calculate4x4 propExpm s theta lbda ee := by
  classical
  rw [C120_warns_iff_partial] at hw
  have hw' : ∀ row ∈ s.rows, ∀ t ∈ row, 0 ≤ (t 0 0).im := by
    have := List.eq_replicate_iff.1 hw.symm |>.1
    simp only [List.length_nil] at this
    have h0 := List.countP_eq_zero.1 this.symm
    intro row hr t ht
    by_contra hc
    push Not at hc
    exact h0 row hr (by simpa using ⟨t, ht, hc⟩)
  refine C37_solvers_agree_passive asin hasin s theta lbda ee ⟨⟨n0, hn0, hf⟩, ha, hl, ?_, hb0, ?_, hb⟩ hiso hfw hreg
  · intro l hml
    have him : 0 ≤ (l.2 0 0).im := hw' [l.2] (by simp only [Stack.rows, List.cons_append, List.mem_cons, List.mem_append, List.mem_map]; exact Or.inr (Or.inl ⟨l, hml, rfl⟩)) _ (by simp)
    obtain ⟨h1, h2⟩ := hd l hml
    have he := hiso l hml
    refine ⟨h1, ?_, ?_⟩
    · rw [he]
      simpa [isoTensor] using h2
    · rw [he]
      exact passive_isoTensor him
  · exact hw' [s.back] (by simp [Stack.rows]) _ (by simp)

/-- C120 fails for the second message: a medium with n < 0 and k > 0 is reported as an active medium, the message for it never appears. -/
theorem C120_negative_index_refuted :
    (∀ profile, Warning2x2.negativeIndex ∉ warnings2x2 profile) ∧
    ∀ n : ℂ, n.re < 0 → 0 < n.im → warnings2x2 [[isoTensor 1], [isoTensor (n ^ 2)]] = [.active] := by
  classical
  refine ⟨fun profile => ?_, fun n h1 h2 => ?_⟩
  · rw [C120_warns_iff_partial]
    intro h
    exact absurd (List.eq_of_mem_replicate h) (by decide)
  · rw [C120_warns_iff_partial]
    have : (n ^ 2).im < 0 := by
      rw [pow_two, Complex.mul_im]
      nlinarith
    simp [isoTensor, this, List.countP_cons]

/-- A bare crystal with axes along the coordinates. -/
noncomputable def silentStack : Stack := ⟨isoTensor 1, [], alignedTensor 4 1 1, false⟩

/-- C120 fails for anisotropic samples: `Solver2x2` treats them as isotropic without a warning. -/
theorem C120_anisotropic_refuted (asin : ℂ → ℂ) (hasin : IsArcsin asin) (prop : Propagator) (lbda : ℝ) : ∃ (q : Fin 4 → ℂ) (w : Mat4), IsUnit w ∧
    buildDelta (kxOf silentStack 0) silentStack.back * w = w * Matrix.diagonal q ∧ eigNorm q w ≠ 0 ∧
    warnings2x2 silentStack.rows = [] ∧
    (calculate4x4 prop silentStack 0 lbda (q, w)).jr 1 1 = 0 ∧ (calculate2x2 asin silentStack 0 lbda).jr 1 1 = -1 / 3 := by
  have hk : kxOf silentStack 0 = 0 := by simp [kxOf, deg2rad]
  have n1 : nOf silentStack.front = 1 := by
    have := nOf_iso_sq (x := 1) (by norm_num)
    simpa [silentStack] using this
  have n2 : nOf silentStack.back = 2 := by
    have := csqrt_ofReal (x := 4) (by norm_num)
    have h4 : Real.sqrt 4 = 2 := by
      rw [show (4 : ℝ) = 2 ^ 2 by norm_num, Real.sqrt_sq (by norm_num)]
    rw [h4] at this
    simpa [nOf, silentStack, alignedTensor] using this
  have hu : IsUnit (!![1, 0, 0, 1; 0, 1, 1, 0; 0, -1, 1, 0; 2, 0, 0, -2] : Mat4) := by
    have h : (!![1, 0, 0, 1; 0, 1, 1, 0; 0, -1, 1, 0; 2, 0, 0, -2] : Mat4) *
        !![1 / 2, 0, 0, 1 / 4; 0, 1 / 2, -1 / 2, 0; 0, 1 / 2, 1 / 2, 0; 1 / 2, 0, 0, -1 / 4] = 1 := by
      ext i j
      fin_cases i <;> fin_cases j <;> simp [Matrix.mul_apply, Fin.sum_univ_four] <;> norm_num
    exact IsUnit.of_mul_eq_one _ h
  have he : buildDelta (kxOf silentStack 0) silentStack.back * !![1, 0, 0, 1; 0, 1, 1, 0; 0, -1, 1, 0; 2, 0, 0, -2] =
      !![1, 0, 0, 1; 0, 1, 1, 0; 0, -1, 1, 0; 2, 0, 0, -2] * Matrix.diagonal ![2, 1, -1, -2] := by
    rw [hk]
    ext i j
    rw [Matrix.mul_diagonal]
    fin_cases i <;> fin_cases j <;>
      simp [buildDelta, silentStack, alignedTensor, Matrix.mul_apply, Fin.sum_univ_four] <;> norm_num
  have hn : eigNorm ![2, 1, -1, -2] !![1, 0, 0, 1; 0, 1, 1, 0; 0, -1, 1, 0; 2, 0, 0, -2] ≠ 0 := by
    rw [norm_of_sorted]
    · norm_num
    · simp [LexGe]
    · simp
  refine ⟨_, _, hu, he, hn, ?_, ?_, ?_⟩
  · classical
    rw [C120_warns_iff_partial]
    simp [Stack.rows, silentStack, isoTensor, alignedTensor, List.countP_cons]
  · have h1 : Spec.Outward 1 := Or.inr ⟨by simp, by simp⟩
    have h2 : Spec.Outward 2 := Or.inr ⟨by simp, by simp⟩
    rw [C117_aligned prop (s := silentStack) rfl rfl hu he hn (by rw [n1]; simp) (by simp) (ex := 4) (ey := 1) (ez := 1) (qs := 1) (qp := 2) rfl
      (by simp) (by rw [hk]; simp) h1 h2 (by rw [hk]; norm_num) (by rw [hk]; norm_num) (by rw [n1]; simp [deg2rad])
      (by rw [n1, hk]; simp [deg2rad]; norm_num)]
    simp [n1, deg2rad]
  · have hcb : cosPhi (kxOf silentStack 0) silentStack.back = 1 := by
      rw [hk]
      unfold cosPhi
      have := csqrt_ofReal (x := 1) (by norm_num)
      simpa using this
    have hfw : ForwardOk (nOf silentStack.back * cosPhi (kxOf silentStack 0) silentStack.back) := by
      rw [hcb, n2]
      left
      constructor <;> norm_num
    have hf := frontMedium_cos hasin silentStack 0 (by rw [n1]; simp) (by rw [n1]; simp) (by simp [deg2rad])
    have hb := backMedium_cos hasin silentStack 0 hfw
    rw [hcb] at hb
    simp only [deg2rad, zero_mul, Real.cos_zero, Complex.ofReal_one] at hf
    have hf1 : (frontMedium asin silentStack 0).1 = 1 := n1
    have hb1 : (backMedium asin silentStack 0).1 = 2 := n2
    have hl : silentStack.layers = [] := rfl
    simp only [calculate2x2, matrices2x2, hl, innerMedia, List.map_nil, nextMedium, loop2x2, fresnel, interfaceMatrix, hf, hb, hf1, hb1]
    norm_num

/-- A coated absorber and an active substrate: silent, respectively one warning. -/
example : warnings2x2 (demoStack (4 + I)).rows = [] ∧ warnings2x2 (demoStack (4 - I)).rows = [.active] := by
  classical
  constructor <;> rw [C120_warns_iff_partial] <;> norm_num [Stack.rows, demoStack, isoTensor, List.countP_cons]

/-! ## C121 -/

/-- C121: which names are accepted, and which library computes. -/
theorem C121_backend (available : Bool) (name : String) :
    (chooseBackend available name = .ok .torch ↔ available = true ∧ (name = "torch" ∨ name = "automatic")) ∧
    (chooseBackend available name = .ok .scipy ↔ name = "scipy" ∨ (available = false ∧ name = "automatic")) ∧
    (chooseBackend available name = .error .importError ↔ available = false ∧ name = "torch") ∧
    (chooseBackend available name = .error .valueError ↔ name ≠ "torch" ∧ name ≠ "scipy" ∧ name ≠ "automatic") := by
  have d1 : ("torch" : String) ≠ "automatic" := by decide
  have d2 : ("scipy" : String) ≠ "automatic" := by decide
  have d3 : ("scipy" : String) ≠ "torch" := by decide
  unfold chooseBackend
  by_cases h1 : name = "automatic"
  · subst h1
    cases available <;> simp
  · by_cases h2 : name = "torch"
    · subst h2
      cases available <;> simp
    · by_cases h3 : name = "scipy"
      · subst h3
        cases available <;> simp
      · cases available <;> simp [h1, h2, h3]

/-- C121: the default propagator of `Solver4x4` exists on every installation, and every accepted choice gives the same results, as long as both
libraries compute the matrix exponential. -/
theorem C121_same_result (expm : Backend → Mat4 → Mat4) (h : ∀ b m, expm b m = NormedSpace.exp m) (available : Bool) :
    (∃ b, chooseBackend available "automatic" = .ok b) ∧
    ∀ name b, chooseBackend available name = .ok b → ∀ (s : Stack) (theta lbda : ℝ) (ee),
      calculate4x4 (propBackend expm b) s theta lbda ee = calculate4x4 propExpm s theta lbda ee := by
  refine ⟨?_, fun name b _ s theta lbda ee => ?_⟩
  · cases available
    · exact ⟨.scipy, rfl⟩
    · exact ⟨.torch, rfl⟩
  · have : propBackend expm b = propExpm := by
      funext delta thickness lbda
      simp only [propBackend, h, propExpm]
    rw [this]

example : ∀ (b : Backend) (m : Mat4), (fun (_ : Backend) (m : Mat4) => NormedSpace.exp m) b m = NormedSpace.exp m := fun _ _ => rfl

example : chooseBackend true "automatic" = .ok .torch ∧ chooseBackend false "torch" = .error .importError ∧
    chooseBackend true "numpy" = .error .valueError := by
  refine ⟨?_, ?_, ?_⟩ <;> simp [chooseBackend]

end PyElli
