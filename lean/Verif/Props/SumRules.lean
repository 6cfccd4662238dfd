import Verif.Props.DispLimits
import Mathlib.Analysis.SpecialFunctions.ImproperIntegrals
import Mathlib.MeasureTheory.Integral.Gamma

/-! # Sum rules of the dispersion models (C126) -/

namespace PyElli

open Filter Topology MeasureTheory Complex

/-! ## The absorption of one oscillator -/

/-- `∫ E² / ((E₀² - E²)² + g²E²) dE`, whatever the damping: the substitution `E ↦ E₀²/E` turns the integrand into `E₀²/E²` times itself,
and `(1 + E₀²/E²)` times the integrand is the derivative of an arctangent. -/
lemma lorentz_moment {E0 g : ℝ} (hE : 0 < E0) (hg : 0 < g) :
    IntegrableOn (fun x : ℝ => x ^ 2 / ((E0 ^ 2 - x ^ 2) ^ 2 + g ^ 2 * x ^ 2)) (Set.Ioi 0) ∧
      ∫ x in Set.Ioi (0 : ℝ), x ^ 2 / ((E0 ^ 2 - x ^ 2) ^ 2 + g ^ 2 * x ^ 2) = Real.pi / (2 * g) := by
  set f : ℝ → ℝ := fun x => x ^ 2 / ((E0 ^ 2 - x ^ 2) ^ 2 + g ^ 2 * x ^ 2) with hf
  have hden : ∀ x : ℝ, 0 < x → 0 < (E0 ^ 2 - x ^ 2) ^ 2 + g ^ 2 * x ^ 2 := fun x hx => by positivity
  have hden' : ∀ x : ℝ, (E0 ^ 2 - x ^ 2) ^ 2 + g ^ 2 * x ^ 2 ≠ 0 := fun x => by
    rcases eq_or_ne x 0 with h | h
    · subst h
      have : (E0 ^ 2) ^ 2 ≠ 0 := by positivity
      simpa using this
    · positivity
  have hcont : Continuous f := Continuous.div (by fun_prop) (by fun_prop) hden'
  -- the sum of the integrand and its image
  let T : ℝ → ℝ := fun x => Real.arctan ((x - E0 ^ 2 / x) / g) / g
  have dT : ∀ x, 0 < x → HasDerivAt T ((1 + E0 ^ 2 / x ^ 2) * f x) x := fun x hx => by
    have h0 : HasDerivAt (fun x : ℝ => E0 ^ 2 / x) _ x := (hasDerivAt_const x (E0 ^ 2)).fun_div (hasDerivAt_id x) hx.ne'
    have h1 : HasDerivAt (fun x : ℝ => (x - E0 ^ 2 / x) / g) _ x := ((hasDerivAt_id x).fun_sub h0).div_const g
    have h2 : HasDerivAt T _ x := (h1.arctan).div_const g
    refine h2.congr_deriv ?_
    have hd := (hden x hx).ne'
    have e1 : 1 + ((x - E0 ^ 2 / x) / g) ^ 2 = ((E0 ^ 2 - x ^ 2) ^ 2 + g ^ 2 * x ^ 2) / (g ^ 2 * x ^ 2) := by
      field_simp
      ring
    simp only [id, hf]
    rw [e1]
    field_simp
    ring
  have hpos : ∀ x ∈ Set.Ioi (0 : ℝ), 0 ≤ (1 + E0 ^ 2 / x ^ 2) * f x := fun x hx => by
    have : (0 : ℝ) < x := hx
    simp only [hf]
    have := hden x this
    positivity
  have lim0 : Tendsto T (𝓝[>] 0) (𝓝 (-(Real.pi / 2) / g)) := by
    have h1 : Tendsto (fun x : ℝ => (x - E0 ^ 2 / x) / g) (𝓝[>] 0) atBot := by
      refine Tendsto.atBot_div_const hg ?_
      have h2 : Tendsto (fun x : ℝ => -(E0 ^ 2 / x)) (𝓝[>] 0) atBot := by
        refine tendsto_neg_atTop_atBot.comp ?_
        exact (tendsto_inv_nhdsGT_zero.const_mul_atTop (by positivity : 0 < E0 ^ 2)).congr fun x => (div_eq_mul_inv _ _).symm
      have h3 : Tendsto (fun x : ℝ => x) (𝓝[>] 0) (𝓝 0) := nhdsWithin_le_nhds
      simpa [sub_eq_add_neg] using h3.add_atBot h2
    exact ((Real.tendsto_arctan_atBot.mono_right nhdsWithin_le_nhds).comp h1).div_const g
  have limT : Tendsto T atTop (𝓝 (Real.pi / 2 / g)) := by
    have h1 : Tendsto (fun x : ℝ => (x - E0 ^ 2 / x) / g) atTop atTop := by
      refine Tendsto.atTop_div_const hg ?_
      have h3 : Tendsto (fun x : ℝ => -(E0 ^ 2 / x)) atTop (𝓝 (-0)) := (tendsto_const_nhds.div_atTop tendsto_id).neg
      simpa [sub_eq_add_neg] using tendsto_id.atTop_add h3
    exact ((Real.tendsto_arctan_atTop.mono_right nhdsWithin_le_nhds).comp h1).div_const g
  have hint : IntegrableOn (fun x => (1 + E0 ^ 2 / x ^ 2) * f x) (Set.Ioi 0) := by
    refine integrableOn_Ioi_deriv_of_nonneg (g := fun x => if x ≤ 0 then -(Real.pi / 2) / g else T x) (a := 0) (l := Real.pi / 2 / g) ?_ ?_ hpos ?_
    · rw [← continuousWithinAt_Ioi_iff_Ici, ContinuousWithinAt, if_pos le_rfl]
      refine lim0.congr' ?_
      filter_upwards [self_mem_nhdsWithin] with x hx
      rw [if_neg (not_le.2 hx)]
    · intro x hx
      refine (dT x hx).congr_of_eventuallyEq ?_
      filter_upwards [Ioi_mem_nhds hx] with y hy
      rw [if_neg (not_le.2 hy)]
    · refine limT.congr' ?_
      filter_upwards [eventually_gt_atTop 0] with x hx
      rw [if_neg (not_le.2 hx)]
  have hval : ∫ x in Set.Ioi (0 : ℝ), (1 + E0 ^ 2 / x ^ 2) * f x = Real.pi / g := by
    rw [integral_Ioi_of_hasDerivAt_of_tendsto (f := fun x => if x ≤ 0 then -(Real.pi / 2) / g else T x) (a := 0) (m := Real.pi / 2 / g) ?_ ?_ hint ?_]
    · rw [if_pos le_rfl]
      ring
    · rw [← continuousWithinAt_Ioi_iff_Ici, ContinuousWithinAt, if_pos le_rfl]
      refine lim0.congr' ?_
      filter_upwards [self_mem_nhdsWithin] with x hx
      rw [if_neg (not_le.2 hx)]
    · intro x hx
      refine (dT x hx).congr_of_eventuallyEq ?_
      filter_upwards [Ioi_mem_nhds hx] with y hy
      rw [if_neg (not_le.2 hy)]
    · refine limT.congr' ?_
      filter_upwards [eventually_gt_atTop 0] with x hx
      rw [if_neg (not_le.2 hx)]
  have h1 : IntegrableOn f (Set.Ioi 0) := by
    refine hint.mono' hcont.aestronglyMeasurable ?_
    refine (ae_restrict_iff' measurableSet_Ioi).2 (Eventually.of_forall fun x hx => ?_)
    have hx' : (0 : ℝ) < x := hx
    have : 0 ≤ f x := by simp only [hf]; have := hden x hx'; positivity
    rw [Real.norm_of_nonneg this]
    have : 0 ≤ E0 ^ 2 / x ^ 2 := by positivity
    nlinarith
  have h2 : IntegrableOn (fun x => E0 ^ 2 / x ^ 2 * f x) (Set.Ioi 0) := by
    refine (hint.sub h1).congr (Eventually.of_forall fun x => ?_)
    simp only [Pi.sub_apply]
    ring
  -- the substitution
  have hsub : ∫ x in Set.Ioi (0 : ℝ), E0 ^ 2 / x ^ 2 * f x = ∫ x in Set.Ioi (0 : ℝ), f x := by
    have s1 := integral_comp_rpow_Ioi (fun y : ℝ => E0 ^ 2 * f (E0 ^ 2 * y)) (p := -1) (by norm_num)
    have s2 := integral_comp_mul_left_Ioi f 0 (by positivity : 0 < E0 ^ 2)
    simp only [mul_zero, smul_eq_mul] at s2
    rw [integral_const_mul, s2, ← mul_assoc, mul_inv_cancel₀ (by positivity), one_mul] at s1
    rw [← s1]
    refine setIntegral_congr_fun measurableSet_Ioi fun x hx => ?_
    have hx' : (0 : ℝ) < x := hx
    simp only [abs_neg, abs_one, one_mul, smul_eq_mul]
    rw [show (-1 - 1 : ℝ) = -2 by norm_num, Real.rpow_neg hx'.le, Real.rpow_neg hx'.le, Real.rpow_one]
    have e2 : x ^ (2 : ℝ) = x ^ 2 := by exact_mod_cast Real.rpow_natCast x 2
    rw [e2]
    have e3 : f (E0 ^ 2 * x⁻¹) = f x := by
      simp only [hf]
      have ha := hden x hx'
      have hb := hden (E0 ^ 2 * x⁻¹) (by positivity)
      rw [div_eq_div_iff hb.ne' ha.ne']
      field_simp
      ring
    rw [e3]
    ring
  refine ⟨h1, ?_⟩
  have h3 : ∫ x in Set.Ioi (0 : ℝ), (1 + E0 ^ 2 / x ^ 2) * f x = (∫ x in Set.Ioi (0 : ℝ), f x) + ∫ x in Set.Ioi (0 : ℝ), E0 ^ 2 / x ^ 2 * f x := by
    rw [← integral_add h1 h2]
    refine setIntegral_congr_fun measurableSet_Ioi fun x _ => ?_
    ring
  rw [hsub, hval] at h3
  have : Real.pi / g = 2 * (Real.pi / (2 * g)) := by field_simp
  linarith

/-- `2/π ∫ E a(E) dE = W`. -/
def AbsMoment (a : ℝ → ℝ) (W : ℝ) : Prop := IntegrableOn (fun E => E * a E) (Set.Ioi 0) ∧ 2 / Real.pi * ∫ E in Set.Ioi 0, E * a E = W

lemma absMoment_sum {α : Type*} (L : List α) (a : α → ℝ → ℝ) (W : α → ℝ) (h : ∀ o ∈ L, AbsMoment (a o) (W o)) :
    AbsMoment (fun E => (L.map fun o => a o E).sum) (L.map W).sum := by
  induction L with
  | nil => exact ⟨by simp, by simp⟩
  | cons o L ih =>
    obtain ⟨h1, h2⟩ := h o (by simp)
    obtain ⟨h3, h4⟩ := ih fun o ho => h o (List.mem_cons_of_mem _ ho)
    have e : (fun E => E * ((o :: L).map fun o => a o E).sum) = fun E => E * a o E + E * (L.map fun o => a o E).sum := by
      funext E
      simp [mul_add]
    refine ⟨?_, ?_⟩
    · simp only [e]
      exact h1.add h3
    · simp only [e]
      rw [integral_add h1 h3, mul_add, h2, h4]
      simp

lemma absMoment_congr {a b : ℝ → ℝ} {W : ℝ} (e : ∀ E, 0 < E → a E = b E) (h : AbsMoment b W) : AbsMoment a W := by
  obtain ⟨h1, h2⟩ := h
  refine ⟨h1.congr_fun (fun E hE => by rw [e E hE]) measurableSet_Ioi, ?_⟩
  rw [← h2, setIntegral_congr_fun measurableSet_Ioi fun E hE => ?_]
  rw [e E hE]

lemma lz_imag (A E : ℝ) {g x : ℝ} (hg : 0 < g) (hx : 0 < x) : (lz A E g x).im = A * g * x / ((E ^ 2 - x ^ 2) ^ 2 + g ^ 2 * x ^ 2) := by
  have h : (E : ℂ) ^ 2 - (x : ℂ) ^ 2 - I * g * x = ⟨E ^ 2 - x ^ 2, -(g * x)⟩ := by
    apply Complex.ext <;> simp [pow_two]
  unfold lz
  rw [h, Complex.div_im]
  simp only [Complex.ofReal_im, Complex.ofReal_re, Complex.normSq_mk]
  have : 0 < (E ^ 2 - x ^ 2) ^ 2 + g ^ 2 * x ^ 2 := by positivity
  have e : (E ^ 2 - x ^ 2) * (E ^ 2 - x ^ 2) + -(g * x) * -(g * x) = (E ^ 2 - x ^ 2) ^ 2 + g ^ 2 * x ^ 2 := by ring
  rw [e]
  field_simp
  ring

/-- `∫ 1/(x² + g²) dx` over the positive numbers. -/
lemma free_moment {g : ℝ} (hg : 0 < g) :
    IntegrableOn (fun x : ℝ => 1 / (x ^ 2 + g ^ 2)) (Set.Ioi 0) ∧ ∫ x in Set.Ioi (0 : ℝ), 1 / (x ^ 2 + g ^ 2) = Real.pi / (2 * g) := by
  have dT : ∀ x : ℝ, x ∈ Set.Ici (0 : ℝ) → HasDerivAt (fun x => Real.arctan (x / g) / g) (1 / (x ^ 2 + g ^ 2)) x := fun x _ => by
    refine (((hasDerivAt_id x).div_const g).arctan.div_const g).congr_deriv ?_
    have : x ^ 2 + g ^ 2 ≠ 0 := by positivity
    have e : 1 + (x / g) ^ 2 = (x ^ 2 + g ^ 2) / g ^ 2 := by field_simp; ring
    simp only [id]
    rw [e]
    field_simp
  have hp : ∀ x ∈ Set.Ioi (0 : ℝ), 0 ≤ 1 / (x ^ 2 + g ^ 2) := fun x _ => by positivity
  have ht : Tendsto (fun x : ℝ => Real.arctan (x / g) / g) atTop (𝓝 (Real.pi / 2 / g)) :=
    ((Real.tendsto_arctan_atTop.mono_right nhdsWithin_le_nhds).comp (tendsto_id.atTop_div_const hg)).div_const g
  refine ⟨integrableOn_Ioi_deriv_of_nonneg' dT hp ht, ?_⟩
  rw [integral_Ioi_of_hasDerivAt_of_nonneg' dT hp ht]
  simp
  field_simp

lemma lz_moment (A E : ℝ) {g : ℝ} (hg : 0 < g) : AbsMoment (fun x => (lz A E g x).im) A := by
  have key : ∀ E0 : ℝ, 0 ≤ E0 → E0 ^ 2 = E ^ 2 → AbsMoment (fun x => (lz A E g x).im) A := by
    intro E0 h0 h1
    have h2 : IntegrableOn (fun x : ℝ => x ^ 2 / ((E ^ 2 - x ^ 2) ^ 2 + g ^ 2 * x ^ 2)) (Set.Ioi 0) ∧
        ∫ x in Set.Ioi (0 : ℝ), x ^ 2 / ((E ^ 2 - x ^ 2) ^ 2 + g ^ 2 * x ^ 2) = Real.pi / (2 * g) := by
      rcases eq_or_lt_of_le h0 with h | h
      · have hE : E ^ 2 = 0 := by rw [← h1, ← h]; simp
        have e : ∀ x ∈ Set.Ioi (0 : ℝ), 1 / (x ^ 2 + g ^ 2) = x ^ 2 / ((E ^ 2 - x ^ 2) ^ 2 + g ^ 2 * x ^ 2) := fun x hx => by
          have hx' : (0 : ℝ) < x := hx
          rw [hE, div_eq_div_iff (by positivity) (by positivity)]
          ring
        obtain ⟨h3, h4⟩ := free_moment hg
        refine ⟨h3.congr_fun e measurableSet_Ioi, ?_⟩
        rw [← h4]
        exact (setIntegral_congr_fun measurableSet_Ioi e).symm
      · rw [← h1]
        exact lorentz_moment h hg
    have e : ∀ x ∈ Set.Ioi (0 : ℝ), A * g * (x ^ 2 / ((E ^ 2 - x ^ 2) ^ 2 + g ^ 2 * x ^ 2)) = x * (lz A E g x).im := fun x hx => by
      rw [lz_imag A E hg hx]
      ring
    refine ⟨IntegrableOn.congr_fun (h2.1.const_mul (A * g)) e measurableSet_Ioi, ?_⟩
    rw [← setIntegral_congr_fun measurableSet_Ioi e, integral_const_mul, h2.2]
    have := Real.pi_ne_zero
    field_simp
  exact key |E| (abs_nonneg E) (sq_abs E)

/-- C126: any Lorentz oscillators in energy with positive broadening, in any damping regime, obey the f-sum rule. -/
theorem C126_sum_rule_lorentz_energy (K : PhysConst) (osc : List (ℝ × ℝ × ℝ)) (h : ∀ o ∈ osc, 0 < o.2.2) :
    Spec.SumRule K.c K.h (lorentzEnergy K (osc.map fun o => [("A", o.1), ("E", o.2.1), ("gamma", o.2.2)])) 1 (osc.map fun o => o.1).sum := by
  refine ⟨?_, fun E => 1 + (osc.map fun o => lz o.1 o.2.1 o.2.2 E).sum, Eventually.of_forall fun l hl => ?_, ?_⟩
  · have := C126_lorentz_energy K osc
    convert this using 1
    induction osc with
    | nil => simp
    | cons o L ih => simp [ih (fun o ho => h o (List.mem_cons_of_mem _ ho)) (C126_lorentz_energy K L)]
  · have hE : 0 < photon K l := by rw [photon_eq]; exact div_pos (photon_const_pos K) hl
    simp only [lorentzEnergy, energy_photon K hl.ne', Option.bind_eq_bind, Option.bind_some, lorentzEnergy_val osc h hE]
    rfl
  · have := absMoment_sum osc (fun o E => (lz o.1 o.2.1 o.2.2 E).im) (fun o => o.1) fun o ho => lz_moment _ _ (h o ho)
    have e : ∀ E : ℝ, (1 + (osc.map fun o => lz o.1 o.2.1 o.2.2 E).sum).im = (osc.map fun o => (lz o.1 o.2.1 o.2.2 E).im).sum := fun E => by
      rw [Complex.add_im, list_im_sum]
      simp
    simp only [e]
    exact this

lemma lz_scale (A E g x : ℝ) {k : ℝ} (hk : k ≠ 0) : lz (A * k ^ 2) (E * k) (g * k) (x * k) = lz A E g x := by
  have hk' : (k : ℂ) ≠ 0 := by exact_mod_cast hk
  unfold lz
  push_cast
  rw [show ((E : ℂ) * k) ^ 2 - ((x : ℂ) * k) ^ 2 - I * (g * k) * (x * k) = ((E : ℂ) ^ 2 - (x : ℂ) ^ 2 - I * g * x) * (k : ℂ) ^ 2 by ring]
  exact mul_div_mul_right _ _ (pow_ne_zero 2 hk')

/-- C126: any Lorentz oscillators over the wavelength with positive broadening obey the f-sum rule. -/
theorem C126_sum_rule_lorentz_lambda (K : PhysConst) (osc : List (ℝ × ℝ × ℝ)) (h : ∀ o ∈ osc, o.2.1 ≠ 0 ∧ 0 < o.2.2) :
    Spec.SumRule K.c K.h (lorentzLambda (osc.map fun o => [("A", o.1), ("lambda_r", o.2.1), ("gamma", o.2.2)])) 1
      (osc.map fun o => o.1 * Spec.photonEnergy K.c K.h o.2.1 ^ 2).sum := by
  have hk := photon_const_pos K
  set k := K.c * K.h / 1e-9 with hkd
  refine ⟨?_, fun E => 1 + (osc.map fun o => lz (o.1 / o.2.1 ^ 2 * k ^ 2) (1 / o.2.1 * k) (o.2.2 / o.2.1 ^ 2 * k) E).sum, Eventually.of_forall fun l hl => ?_, ?_⟩
  · have := C126_lorentz_lambda K osc fun o ho => (h o ho).1
    convert this using 1
    clear this h
    induction osc with
    | nil => simp
    | cons o L ih => simp [ih]
  · have e : Spec.photonEnergy K.c K.h l = 1 / l * k := by
      rw [show Spec.photonEnergy K.c K.h l = k / l from photon_eq K l]
      ring
    simp only [lorentzLambda, Option.bind_eq_bind, lorentzLambda_val osc h hl, Option.bind_some, e, lz_scale _ _ _ _ hk.ne']
  · have := absMoment_sum osc (fun o E => (lz (o.1 / o.2.1 ^ 2 * k ^ 2) (1 / o.2.1 * k) (o.2.2 / o.2.1 ^ 2 * k) E).im) (fun o => o.1 / o.2.1 ^ 2 * k ^ 2) fun o ho => lz_moment _ _ (by
      obtain ⟨h1, h2⟩ := h o ho
      positivity)
    have e : ∀ E : ℝ, (1 + (osc.map fun o => lz (o.1 / o.2.1 ^ 2 * k ^ 2) (1 / o.2.1 * k) (o.2.2 / o.2.1 ^ 2 * k) E).sum).im =
        (osc.map fun o => (lz (o.1 / o.2.1 ^ 2 * k ^ 2) (1 / o.2.1 * k) (o.2.2 / o.2.1 ^ 2 * k) E).im).sum := fun E => by
      rw [Complex.add_im, list_im_sum]
      simp
    have e2 : (osc.map fun o => o.1 * Spec.photonEnergy K.c K.h o.2.1 ^ 2) = osc.map fun o => o.1 / o.2.1 ^ 2 * k ^ 2 := by
      refine List.map_congr_left fun o _ => ?_
      rw [show Spec.photonEnergy K.c K.h o.2.1 = k / o.2.1 from photon_eq K _]
      ring
    simp only [e, e2]
    exact this

/-- The Drude models break the rule: their absorption sums to `A`, but the approach to the limit is that of `-A` (`C126_drude_refuted`). -/
theorem C126_sum_rule_drude_refuted (K : PhysConst) (A g : ℝ) (hg : 0 < g) :
    Spec.AbsorptionSum K.c K.h (drudeEnergy K [("A", A), ("gamma", g)]) A ∧ Spec.FreeElectrons K.c K.h (drudeEnergy K [("A", A), ("gamma", g)]) 0 (-A : ℂ) := by
  refine ⟨⟨fun E => ⟨A / (E ^ 2 + g ^ 2), A * g / (E * (E ^ 2 + g ^ 2))⟩, Eventually.of_forall fun l hl => drude_val K A hg hl, ?_⟩, C126_drude_refuted K A g⟩
  obtain ⟨h1, h2⟩ := free_moment hg
  have e : ∀ x ∈ Set.Ioi (0 : ℝ), A * g * (1 / (x ^ 2 + g ^ 2)) = x * (A * g / (x * (x ^ 2 + g ^ 2))) := fun x hx => by
    have hx' : (0 : ℝ) < x := hx
    have : 0 < x ^ 2 + g ^ 2 := by positivity
    field_simp
  refine ⟨IntegrableOn.congr_fun (h1.const_mul (A * g)) e measurableSet_Ioi, ?_⟩
  rw [← setIntegral_congr_fun measurableSet_Ioi e, integral_const_mul, h2]
  have := Real.pi_ne_zero
  field_simp

/-! ## Gaussian oscillators -/

lemma gauss_first (b e : ℝ) (hb : 0 < b) :
    Integrable (fun x : ℝ => x * Real.exp (-b * (x - e) ^ 2)) ∧ ∫ x : ℝ, x * Real.exp (-b * (x - e) ^ 2) = e * √(Real.pi / b) := by
  have h1 : Integrable fun y : ℝ => y * Real.exp (-b * y ^ 2) := integrable_mul_exp_neg_mul_sq hb
  have h2 : Integrable fun y : ℝ => e * Real.exp (-b * y ^ 2) := (integrable_exp_neg_mul_sq hb).const_mul e
  have h3 : Integrable fun y : ℝ => (y + e) * Real.exp (-b * y ^ 2) := by
    refine (h1.add h2).congr (Eventually.of_forall fun y => ?_)
    simp only [Pi.add_apply]
    ring
  have hodd : ∫ y : ℝ, y * Real.exp (-b * y ^ 2) = 0 := by
    have := integral_neg_eq_self (fun y : ℝ => y * Real.exp (-b * y ^ 2)) volume
    simp only [neg_mul, even_two.neg_pow] at this
    rw [integral_neg] at this
    simp only [neg_mul]
    linarith
  have e1 : (fun x : ℝ => x * Real.exp (-b * (x - e) ^ 2)) = fun x => (fun y : ℝ => (y + e) * Real.exp (-b * y ^ 2)) (x - e) := by
    funext x
    simp
  refine ⟨by rw [e1]; exact h3.comp_sub_right e, ?_⟩
  rw [e1, integral_sub_right_eq_self (fun y : ℝ => (y + e) * Real.exp (-b * y ^ 2)) e]
  have e2 : (fun y : ℝ => (y + e) * Real.exp (-b * y ^ 2)) = fun y => y * Real.exp (-b * y ^ 2) + e * Real.exp (-b * y ^ 2) := by
    funext y
    ring
  rw [e2, integral_add h1 h2, hodd, integral_const_mul, integral_gaussian, zero_add]

lemma gauss_moment (A e : ℝ) {k : ℝ} (hk : 0 < k) :
    AbsMoment (fun E => A * Real.exp (-(k * (E - e)) ^ 2) - A * Real.exp (-(k * (E + e)) ^ 2)) (2 * A * e / (√Real.pi * k)) := by
  obtain ⟨a1, a2⟩ := gauss_first (k ^ 2) e (by positivity)
  obtain ⟨b1, b2⟩ := gauss_first (k ^ 2) (-e) (by positivity)
  let F : ℝ → ℝ := fun E => E * (A * Real.exp (-(k * (E - e)) ^ 2) - A * Real.exp (-(k * (E + e)) ^ 2))
  have eF : F = fun x => A * (x * Real.exp (-k ^ 2 * (x - e) ^ 2)) - A * (x * Real.exp (-k ^ 2 * (x - -e) ^ 2)) := by
    funext x
    simp only [F]
    rw [show -(k * (x - e)) ^ 2 = -k ^ 2 * (x - e) ^ 2 by ring, show -(k * (x + e)) ^ 2 = -k ^ 2 * (x - -e) ^ 2 by ring]
    ring
  have hi : Integrable F := by rw [eF]; exact (a1.const_mul A).sub (b1.const_mul A)
  have hv : ∫ x, F x = 2 * A * e * √(Real.pi / k ^ 2) := by
    rw [eF, integral_sub (a1.const_mul A) (b1.const_mul A), integral_const_mul, integral_const_mul, a2, b2]
    ring
  have heven : ∀ x, F |x| = F x := fun x => by
    rcases abs_choice x with h | h
    · rw [h]
    · rw [h]
      simp only [F]
      rw [show -(k * (-x - e)) ^ 2 = -(k * (x + e)) ^ 2 by ring, show -(k * (-x + e)) ^ 2 = -(k * (x - e)) ^ 2 by ring]
      ring
  have h2 : ∫ x, F x = 2 * ∫ x in Set.Ioi (0 : ℝ), F x := by
    rw [← integral_comp_abs]
    exact integral_congr_ae (Eventually.of_forall fun x => (heven x).symm)
  refine ⟨hi.integrableOn, ?_⟩
  have h3 : ∫ x in Set.Ioi (0 : ℝ), F x = A * e * √(Real.pi / k ^ 2) := by linarith [h2, hv]
  show 2 / Real.pi * ∫ x in Set.Ioi (0 : ℝ), F x = _
  rw [h3, Real.sqrt_div Real.pi_pos.le, Real.sqrt_sq hk.le]
  have h4 : √Real.pi * √Real.pi = Real.pi := Real.mul_self_sqrt Real.pi_pos.le
  have h5 : 0 < √Real.pi := Real.sqrt_pos.2 Real.pi_pos
  have h6 := Real.pi_pos
  field_simp
  rw [Real.sq_sqrt Real.pi_pos.le]
  ring

/-- C126: any Gaussian oscillators of positive width obey the f-sum rule. -/
theorem C126_sum_rule_gaussian (dawsn : ℝ → ℝ) (hD : ∀ x, dawsn x = Real.exp (-x ^ 2) * ∫ u in (0 : ℝ)..x, Real.exp (u ^ 2)) (K : PhysConst)
    (osc : List (ℝ × ℝ × ℝ)) (h : ∀ o ∈ osc, 0 < o.2.2) :
    Spec.SumRule K.c K.h (gaussian dawsn K (osc.map fun o => [("A", o.1), ("E", o.2.1), ("sigma", o.2.2)])) 0
      (osc.map fun o => o.1 * o.2.1 * o.2.2 / √(Real.pi * Real.log 2)).sum := by
  let f : ℝ × ℝ × ℝ → ℝ → ℂ := fun o E => ((2 * o.1 / √Real.pi * (dawsn (gaussWidth o.2.2 * (E + o.2.1)) - dawsn (gaussWidth o.2.2 * (E - o.2.1))) : ℝ) : ℂ) +
    I * ((o.1 * Real.exp (-(gaussWidth o.2.2 * (E - o.2.1)) ^ 2) - o.1 * Real.exp (-(gaussWidth o.2.2 * (E + o.2.1)) ^ 2) : ℝ) : ℂ)
  have hf : ∀ o ∈ osc, ∀ E, gaussianTerm dawsn E [("A", o.1), ("E", o.2.1), ("sigma", o.2.2)] = some (f o E) := by
    intro o ho E
    have hs := h o ho
    simp only [gaussianTerm, Dict.get, Option.bind_eq_bind]
    simp only [String.reduceEq, if_true, if_false, Option.bind_some, divN, hs.ne']
    have e1 : ∀ y, 2 * √(Real.log 2) * y / o.2.2 = gaussWidth o.2.2 * y := fun y => by unfold gaussWidth; ring
    rw [e1, e1]
  have him : ∀ o E, (f o E).im = o.1 * Real.exp (-(gaussWidth o.2.2 * (E - o.2.1)) ^ 2) - o.1 * Real.exp (-(gaussWidth o.2.2 * (E + o.2.1)) ^ 2) := by
    intro o E
    simp only [f]
    generalize 2 * o.1 / √Real.pi * (dawsn (gaussWidth o.2.2 * (E + o.2.1)) - dawsn (gaussWidth o.2.2 * (E - o.2.1))) = x
    generalize o.1 * Real.exp (-(gaussWidth o.2.2 * (E - o.2.1)) ^ 2) - o.1 * Real.exp (-(gaussWidth o.2.2 * (E + o.2.1)) ^ 2) = y
    simp
  have hsum : ∀ E, sumN ((osc.map fun o => [("A", o.1), ("E", o.2.1), ("sigma", o.2.2)]).map (gaussianTerm dawsn E)) = some (osc.map fun o => f o E).sum := by
    intro E
    clear h him
    induction osc with
    | nil => rfl
    | cons o L ih =>
      simp only [List.map_cons, sumN, hf o (by simp) E, ih fun o ho => hf o (List.mem_cons_of_mem _ ho), Option.map_some, List.sum_cons]
  refine ⟨?_, fun E => (osc.map fun o => f o E).sum, Eventually.of_forall fun l hl => ?_, ?_⟩
  · have h0 := free_sum (α := ℝ × ℝ × ℝ) (c := K.c) (h := K.h)
      (fun l o => (conversionWavelengthEnergy K l).bind fun E => gaussianTerm dawsn E [("A", o.1), ("E", o.2.1), ("sigma", o.2.2)]) osc
      (fun o => ((o.1 * o.2.1 * o.2.2 / √(Real.pi * Real.log 2) : ℝ) : ℂ)) fun o ho => gaussian_free hD K o (h o ho)
    have e : (((osc.map fun o => o.1 * o.2.1 * o.2.2 / √(Real.pi * Real.log 2)).sum : ℝ) : ℂ) = (osc.map fun o => ((o.1 * o.2.1 * o.2.2 / √(Real.pi * Real.log 2) : ℝ) : ℂ)).sum := by
      clear h hf hsum h0
      induction osc with
      | nil => simp
      | cons o L ih => rw [List.map_cons, List.sum_cons, Complex.ofReal_add, ih, List.map_cons, List.sum_cons]
    rw [e]
    refine free_congr ?_ h0
    filter_upwards [self_mem_nhdsWithin] with l hl
    have hl' : l ≠ 0 := ne_of_gt hl
    simp only [gaussian, energy_photon K hl', Option.bind_eq_bind, Option.bind_some, List.map_map, Function.comp_def]
  · simp only [gaussian, energy_photon K hl.ne', Option.bind_eq_bind, Option.bind_some, hsum]
    rfl
  · have := absMoment_sum osc (fun o E => (f o E).im) (fun o => o.1 * o.2.1 * o.2.2 / √(Real.pi * Real.log 2)) fun o ho => by
      have hw := gaussWidth_pos (h o ho)
      have hm := gauss_moment o.1 o.2.1 hw
      have e : 2 * o.1 * o.2.1 / (√Real.pi * gaussWidth o.2.2) = o.1 * o.2.1 * o.2.2 / √(Real.pi * Real.log 2) := by
        have h2 : 0 < √(Real.log 2) := Real.sqrt_pos.2 (Real.log_pos one_lt_two)
        have h3 : 0 < √Real.pi := Real.sqrt_pos.2 Real.pi_pos
        have h4 := h o ho
        rw [Real.sqrt_mul Real.pi_pos.le]
        unfold gaussWidth
        field_simp
      rw [← e]
      exact absMoment_congr (fun E _ => him o E) hm
    have e : ∀ E : ℝ, ((osc.map fun o => f o E).sum).im = (osc.map fun o => (f o E).im).sum := fun E => list_im_sum _ _
    simp only [e]
    exact this

/-! ## Tauc-Lorentz oscillators -/

/-- The absorption of a Tauc-Lorentz oscillator at all energies together. -/
lemma tauc_moment {Eg E0 C al : ℝ} (hE0 : 0 < E0) (hC : 0 < C) (hal : 0 < al) (hal2 : al ^ 2 = 4 * E0 ^ 2 - C ^ 2) :
    IntegrableOn (fun x : ℝ => (x - Eg) ^ 2 / ((x ^ 2 - E0 ^ 2) ^ 2 + C ^ 2 * x ^ 2)) (Set.Ioi Eg) ∧
      ∫ x in Set.Ioi Eg, (x - Eg) ^ 2 / ((x ^ 2 - E0 ^ 2) ^ 2 + C ^ 2 * x ^ 2) =
        -((Eg ^ 2 - E0 ^ 2) / (4 * al * E0 ^ 2) * Real.log ((E0 ^ 2 + Eg ^ 2 + al * Eg) / (E0 ^ 2 + Eg ^ 2 - al * Eg)))
        + (Eg ^ 2 + E0 ^ 2) / (2 * C * E0 ^ 2) * (Real.pi - Real.arctan ((2 * Eg + al) / C) + Real.arctan ((al - 2 * Eg) / C))
        - Eg / (al * C) * (Real.pi + 2 * Real.arctan (2 / al / C * ((E0 ^ 2 - C ^ 2 / 2) - Eg ^ 2))) := by
  have hQp : ∀ x : ℝ, 0 < E0 ^ 2 + x ^ 2 + al * x := fun x => by nlinarith [sq_nonneg (2 * x + al), sq_nonneg C, pow_pos hC 2]
  have hQm : ∀ x : ℝ, 0 < E0 ^ 2 + x ^ 2 - al * x := fun x => by nlinarith [sq_nonneg (2 * x - al), sq_nonneg C, pow_pos hC 2]
  have hQ : ∀ x : ℝ, (x ^ 2 - E0 ^ 2) ^ 2 + C ^ 2 * x ^ 2 = (E0 ^ 2 + x ^ 2 + al * x) * (E0 ^ 2 + x ^ 2 - al * x) := fun x => by
    linear_combination x ^ 2 * hal2
  let P : ℝ → ℝ := fun x => (Eg ^ 2 - E0 ^ 2) / (4 * al * E0 ^ 2) * (Real.log (E0 ^ 2 + x ^ 2 + al * x) - Real.log (E0 ^ 2 + x ^ 2 - al * x))
    + (Eg ^ 2 + E0 ^ 2) / (2 * C * E0 ^ 2) * (Real.arctan ((2 * x + al) / C) + Real.arctan ((2 * x - al) / C))
    - 2 * Eg / (al * C) * Real.arctan (2 / al / C * (x ^ 2 - (E0 ^ 2 - C ^ 2 / 2)))
  have dP : ∀ x ∈ Set.Ici Eg, HasDerivAt P ((x - Eg) ^ 2 / ((x ^ 2 - E0 ^ 2) ^ 2 + C ^ 2 * x ^ 2)) x := fun x _ => by
    have s0 : HasDerivAt (fun x : ℝ => x ^ 2) (2 * x) x := by simpa using hasDerivAt_pow 2 x
    have l0 : HasDerivAt (fun x : ℝ => al * x) al x := by simpa using (hasDerivAt_id x).const_mul al
    have q1 : HasDerivAt (fun x : ℝ => E0 ^ 2 + x ^ 2 + al * x) (2 * x + al) x := (s0.const_add (E0 ^ 2)).fun_add l0
    have q2 : HasDerivAt (fun x : ℝ => E0 ^ 2 + x ^ 2 - al * x) (2 * x - al) x := (s0.const_add (E0 ^ 2)).fun_sub l0
    have t0 : HasDerivAt (fun x : ℝ => 2 * x) 2 x := by simpa using (hasDerivAt_id x).const_mul 2
    have a1 : HasDerivAt (fun x : ℝ => Real.arctan ((2 * x + al) / C)) _ x := ((t0.add_const al).div_const C).arctan
    have a2 : HasDerivAt (fun x : ℝ => Real.arctan ((2 * x - al) / C)) _ x := ((t0.sub_const al).div_const C).arctan
    have a3 : HasDerivAt (fun x : ℝ => Real.arctan (2 / al / C * (x ^ 2 - (E0 ^ 2 - C ^ 2 / 2)))) _ x := ((s0.sub_const _).const_mul (2 / al / C)).arctan
    have all : HasDerivAt P _ x :=
      ((((q1.log (hQp x).ne').fun_sub (q2.log (hQm x).ne')).const_mul ((Eg ^ 2 - E0 ^ 2) / (4 * al * E0 ^ 2))).fun_add
        ((a1.fun_add a2).const_mul ((Eg ^ 2 + E0 ^ 2) / (2 * C * E0 ^ 2)))).fun_sub (a3.const_mul (2 * Eg / (al * C)))
    refine all.congr_deriv ?_
    have e1 : 1 + ((2 * x + al) / C) ^ 2 = 4 * (E0 ^ 2 + x ^ 2 + al * x) / C ^ 2 := by
      field_simp
      linear_combination hal2
    have e2 : 1 + ((2 * x - al) / C) ^ 2 = 4 * (E0 ^ 2 + x ^ 2 - al * x) / C ^ 2 := by
      field_simp
      linear_combination hal2
    have e3 : 1 + (2 / al / C * (x ^ 2 - (E0 ^ 2 - C ^ 2 / 2))) ^ 2 = 4 * ((E0 ^ 2 + x ^ 2 + al * x) * (E0 ^ 2 + x ^ 2 - al * x)) / (al ^ 2 * C ^ 2) := by
      rw [← hQ]
      field_simp
      linear_combination C ^ 2 * hal2
    rw [e1, e2, e3, hQ]
    have h1 := (hQp x).ne'
    have h2 := (hQm x).ne'
    have i1 : (2 * x + al) / (E0 ^ 2 + x ^ 2 + al * x) - (2 * x - al) / (E0 ^ 2 + x ^ 2 - al * x) =
        2 * al * (E0 ^ 2 - x ^ 2) / ((E0 ^ 2 + x ^ 2 + al * x) * (E0 ^ 2 + x ^ 2 - al * x)) := by
      rw [div_sub_div _ _ h1 h2]
      congr 1
      ring
    have i2 : 1 / (4 * (E0 ^ 2 + x ^ 2 + al * x) / C ^ 2) * (2 / C) + 1 / (4 * (E0 ^ 2 + x ^ 2 - al * x) / C ^ 2) * (2 / C) =
        C * (E0 ^ 2 + x ^ 2) / ((E0 ^ 2 + x ^ 2 + al * x) * (E0 ^ 2 + x ^ 2 - al * x)) := by
      have e4 : E0 ^ 2 + x ^ 2 = ((E0 ^ 2 + x ^ 2 + al * x) + (E0 ^ 2 + x ^ 2 - al * x)) / 2 := by ring
      generalize hu : E0 ^ 2 + x ^ 2 + al * x = u at *
      generalize hv : E0 ^ 2 + x ^ 2 - al * x = v at *
      rw [e4]
      field_simp
      ring
    have i3 : 1 / (4 * ((E0 ^ 2 + x ^ 2 + al * x) * (E0 ^ 2 + x ^ 2 - al * x)) / (al ^ 2 * C ^ 2)) * (2 / al / C * (2 * x)) =
        al * C * x / ((E0 ^ 2 + x ^ 2 + al * x) * (E0 ^ 2 + x ^ 2 - al * x)) := by
      field_simp
      ring
    rw [i1, i2, i3]
    have h3 : (E0 ^ 2 + x ^ 2 + al * x) * (E0 ^ 2 + x ^ 2 - al * x) ≠ 0 := mul_ne_zero h1 h2
    generalize (E0 ^ 2 + x ^ 2 + al * x) * (E0 ^ 2 + x ^ 2 - al * x) = Q at *
    field_simp
    ring
  have hp : ∀ x ∈ Set.Ioi Eg, 0 ≤ (x - Eg) ^ 2 / ((x ^ 2 - E0 ^ 2) ^ 2 + C ^ 2 * x ^ 2) := fun x _ => by positivity
  have at1 : ∀ c : ℝ, Tendsto (fun x : ℝ => Real.arctan ((2 * x + c) / C)) atTop (𝓝 (Real.pi / 2)) := fun c =>
    (Real.tendsto_arctan_atTop.mono_right nhdsWithin_le_nhds).comp
      ((tendsto_atTop_add_const_right _ c (tendsto_id.const_mul_atTop two_pos)).atTop_div_const hC)
  have at2 : Tendsto (fun x : ℝ => Real.arctan (2 / al / C * (x ^ 2 - (E0 ^ 2 - C ^ 2 / 2)))) atTop (𝓝 (Real.pi / 2)) :=
    (Real.tendsto_arctan_atTop.mono_right nhdsWithin_le_nhds).comp
      ((tendsto_atTop_add_const_right _ (-(E0 ^ 2 - C ^ 2 / 2)) (tendsto_pow_atTop (two_ne_zero : (2 : ℕ) ≠ 0) (α := ℝ))).const_mul_atTop (by positivity))
  have lg : Tendsto (fun x : ℝ => Real.log (E0 ^ 2 + x ^ 2 + al * x) - Real.log (E0 ^ 2 + x ^ 2 - al * x)) atTop (𝓝 0) := by
    have h1 : Tendsto (fun u : ℝ => (E0 ^ 2 * u ^ 2 + 1 + al * u) / (E0 ^ 2 * u ^ 2 + 1 - al * u)) (𝓝 0) (𝓝 ((E0 ^ 2 * 0 ^ 2 + 1 + al * 0) / (E0 ^ 2 * 0 ^ 2 + 1 - al * 0))) :=
      ContinuousAt.tendsto (by
        apply ContinuousAt.div
        · fun_prop
        · fun_prop
        · norm_num)
    have h2 := (h1.comp tendsto_inv_atTop_zero)
    have h3 := h2.log (by norm_num)
    have e : Real.log ((E0 ^ 2 * 0 ^ 2 + 1 + al * 0) / (E0 ^ 2 * 0 ^ 2 + 1 - al * 0)) = 0 := by norm_num
    rw [e] at h3
    refine h3.congr' ?_
    filter_upwards [eventually_gt_atTop 0] with x hx
    rw [← Real.log_div (hQp x).ne' (hQm x).ne']
    simp only [Function.comp]
    congr 1
    have hm := (hQm x).ne'
    have e1 : E0 ^ 2 * x⁻¹ ^ 2 + 1 + al * x⁻¹ = (E0 ^ 2 + x ^ 2 + al * x) / x ^ 2 := by field_simp
    have e2 : E0 ^ 2 * x⁻¹ ^ 2 + 1 - al * x⁻¹ = (E0 ^ 2 + x ^ 2 - al * x) / x ^ 2 := by field_simp
    rw [e1, e2, div_div_div_cancel_right₀ (by positivity)]
  have ht : Tendsto P atTop (𝓝 ((Eg ^ 2 - E0 ^ 2) / (4 * al * E0 ^ 2) * 0 + (Eg ^ 2 + E0 ^ 2) / (2 * C * E0 ^ 2) * (Real.pi / 2 + Real.pi / 2) - 2 * Eg / (al * C) * (Real.pi / 2))) :=
    ((lg.const_mul _).add (((at1 al).add ((at1 (-al)).congr fun x => by rw [← sub_eq_add_neg])).const_mul _)).sub (at2.const_mul _)
  refine ⟨integrableOn_Ioi_deriv_of_nonneg' dP hp ht, ?_⟩
  rw [integral_Ioi_of_hasDerivAt_of_nonneg' dP hp ht]
  simp only [P]
  rw [Real.log_div (hQp Eg).ne' (hQm Eg).ne', show (al - 2 * Eg) / C = -((2 * Eg - al) / C) by ring, Real.arctan_neg,
    show 2 / al / C * (E0 ^ 2 - C ^ 2 / 2 - Eg ^ 2) = -(2 / al / C * (Eg ^ 2 - (E0 ^ 2 - C ^ 2 / 2))) by ring, Real.arctan_neg]
  ring

/-- Twice the absorption moment over `π`, for a unit of `A E₀ C`. -/
noncomputable def taucPlasma (Eg E0 C al : ℝ) : ℝ :=
  -((Eg ^ 2 - E0 ^ 2) / (4 * al * E0 ^ 2) * Real.log ((E0 ^ 2 + Eg ^ 2 + al * Eg) / (E0 ^ 2 + Eg ^ 2 - al * Eg)))
    + (Eg ^ 2 + E0 ^ 2) / (2 * C * E0 ^ 2) * (Real.pi - Real.arctan ((2 * Eg + al) / C) + Real.arctan ((al - 2 * Eg) / C))
    - Eg / (al * C) * (Real.pi + 2 * Real.arctan (2 / al / C * ((E0 ^ 2 - C ^ 2 / 2) - Eg ^ 2)))

lemma tauc_ratio (E0 C : ℝ) : Tendsto (fun E : ℝ => E ^ 4 / ((E ^ 2 - E0 ^ 2) ^ 2 + C ^ 2 * E ^ 2)) atTop (𝓝 1) ∧
    Tendsto (fun E : ℝ => E ^ 2 / ((E ^ 2 - E0 ^ 2) ^ 2 + C ^ 2 * E ^ 2)) atTop (𝓝 0) := by
  have h1 : Tendsto (fun u : ℝ => 1 / ((1 - E0 ^ 2 * u ^ 2) ^ 2 + C ^ 2 * u ^ 2)) (𝓝 0) (𝓝 (1 / ((1 - E0 ^ 2 * 0 ^ 2) ^ 2 + C ^ 2 * 0 ^ 2))) :=
    ContinuousAt.tendsto (by
      apply ContinuousAt.div
      · fun_prop
      · fun_prop
      · norm_num)
  have h2 := h1.comp tendsto_inv_atTop_zero
  have e : 1 / ((1 - E0 ^ 2 * 0 ^ 2) ^ 2 + C ^ 2 * 0 ^ 2) = (1 : ℝ) := by norm_num
  rw [e] at h2
  have h4 : Tendsto (fun E : ℝ => E ^ 4 / ((E ^ 2 - E0 ^ 2) ^ 2 + C ^ 2 * E ^ 2)) atTop (𝓝 1) := by
    refine h2.congr' ?_
    filter_upwards [eventually_gt_atTop 0] with E hE
    simp only [Function.comp]
    have e1 : (1 - E0 ^ 2 * E⁻¹ ^ 2) ^ 2 + C ^ 2 * E⁻¹ ^ 2 = ((E ^ 2 - E0 ^ 2) ^ 2 + C ^ 2 * E ^ 2) / E ^ 4 := by
      field_simp
    rw [e1, one_div_div]
  refine ⟨h4, ?_⟩
  have h5 := h4.mul ((tendsto_inv_atTop_zero (𝕜 := ℝ)).pow 2)
  rw [one_mul, zero_pow two_ne_zero] at h5
  refine h5.congr' ?_
  filter_upwards [eventually_gt_atTop 0] with E hE
  field_simp

lemma tauc_free (K : PhysConst) (Eg : ℝ) (hEg : 0 ≤ Eg) (o : ℝ × ℝ × ℝ) (hE0 : 0 < o.2.1) (hC : 0 < o.2.2) (hu : o.2.2 < 2 * o.2.1) :
    Spec.FreeElectrons K.c K.h (fun l => (conversionWavelengthEnergy K l).bind fun E => taucTerm E Eg [("A", o.1), ("E", o.2.1), ("C", o.2.2)]) 0
      ((2 / Real.pi * (o.1 * o.2.1 * o.2.2 * taucPlasma Eg o.2.1 o.2.2 √(4 * o.2.1 ^ 2 - o.2.2 ^ 2)) : ℝ) : ℂ) := by
  obtain ⟨A, E0, C⟩ := o
  simp only at hE0 hC hu ⊢
  have hpos : 0 < 4 * E0 ^ 2 - C ^ 2 := by nlinarith
  have hal : 0 < √(4 * E0 ^ 2 - C ^ 2) := Real.sqrt_pos.2 hpos
  have hal2 : √(4 * E0 ^ 2 - C ^ 2) ^ 2 = 4 * E0 ^ 2 - C ^ 2 := Real.sq_sqrt hpos.le
  set al := √(4 * E0 ^ 2 - C ^ 2)
  have hroot : 0 < √((E0 ^ 2 - Eg ^ 2) ^ 2 + Eg ^ 2 * C ^ 2) := by
    apply Real.sqrt_pos.2
    rcases eq_or_lt_of_le hEg with h | h
    · rw [← h]
      have : 0 < (E0 ^ 2) ^ 2 := by positivity
      simpa using this
    · positivity
  set root := √((E0 ^ 2 - Eg ^ 2) ^ 2 + Eg ^ 2 * C ^ 2)
  obtain ⟨r4, r2⟩ := tauc_ratio E0 C
  have hinv := tendsto_inv_atTop_zero (𝕜 := ℝ)
  -- the two logarithms
  have la : Tendsto (fun E : ℝ => Real.log (|E - Eg| / (E + Eg))) atTop (𝓝 0) := by
    have h1 : Tendsto (fun u : ℝ => (1 - Eg * u) / (1 + Eg * u)) (𝓝 0) (𝓝 ((1 - Eg * 0) / (1 + Eg * 0))) :=
      ContinuousAt.tendsto (by
        apply ContinuousAt.div
        · fun_prop
        · fun_prop
        · norm_num)
    have h2 := (h1.comp hinv).log (by norm_num)
    have e : Real.log ((1 - Eg * 0) / (1 + Eg * 0)) = 0 := by norm_num
    rw [e] at h2
    refine h2.congr' ?_
    filter_upwards [eventually_gt_atTop Eg, eventually_gt_atTop 0] with E hE h0
    simp only [Function.comp]
    rw [abs_of_pos (sub_pos.2 hE)]
    congr 1
    have h3 : E + Eg ≠ 0 := by linarith
    have e1 : 1 - Eg * E⁻¹ = (E - Eg) / E := by field_simp
    have e2 : 1 + Eg * E⁻¹ = (E + Eg) / E := by field_simp
    rw [e1, e2, div_div_div_cancel_right₀ h0.ne']
  have lb : Tendsto (fun E : ℝ => Real.log (|E - Eg| * (E + Eg) / root) * E⁻¹ ^ 2) atTop (𝓝 0) := by
    have hy : Tendsto (fun E : ℝ => (E ^ 2 + -Eg ^ 2) / root) atTop atTop :=
      (tendsto_atTop_add_const_right _ _ (tendsto_pow_atTop (two_ne_zero : (2 : ℕ) ≠ 0) (α := ℝ))).atTop_div_const hroot
    have h1 : Tendsto (fun y : ℝ => Real.log y / y) atTop (𝓝 0) := by
      have := Real.isLittleO_log_id_atTop.tendsto_div_nhds_zero
      simpa using this
    have h2 : Tendsto (fun E : ℝ => (1 - Eg ^ 2 * E⁻¹ ^ 2) / root) atTop (𝓝 ((1 - Eg ^ 2 * 0 ^ 2) / root)) :=
      (tendsto_const_nhds.sub ((hinv.pow 2).const_mul _)).div_const _
    have h3 := (h1.comp hy).mul h2
    rw [zero_mul] at h3
    refine h3.congr' ?_
    filter_upwards [eventually_gt_atTop Eg, eventually_gt_atTop 0] with E hE h0
    simp only [Function.comp]
    have h4 : (E ^ 2 + -Eg ^ 2) / root = |E - Eg| * (E + Eg) / root := by
      rw [abs_of_pos (sub_pos.2 hE)]
      congr 1
      ring
    have h5 : 0 < |E - Eg| * (E + Eg) / root := by
      have := sub_pos.2 hE
      have : 0 < |E - Eg| := abs_pos.2 this.ne'
      have : 0 < E + Eg := by linarith
      positivity
    have h6 : (1 - Eg ^ 2 * E⁻¹ ^ 2) / root = (|E - Eg| * (E + Eg) / root) * E⁻¹ ^ 2 := by
      rw [← h4]
      field_simp
      ring
    rw [h4, h6]
    generalize |E - Eg| * (E + Eg) / root = y at *
    field_simp
  -- real part
  have re := (((((((r4.const_mul (Eg ^ 2 - E0 ^ 2)).add (r2.const_mul (Eg ^ 2 * C ^ 2 - E0 ^ 2 * (E0 ^ 2 + 3 * Eg ^ 2)))).const_mul
        (A * C / 2 / Real.pi / al / E0 * Real.log ((E0 ^ 2 + Eg ^ 2 + al * Eg) / (E0 ^ 2 + Eg ^ 2 - al * Eg)))).sub
      (((r4.const_mul (E0 ^ 2 + Eg ^ 2)).add (r2.const_mul (Eg ^ 2 * C ^ 2 - E0 ^ 2 * (E0 ^ 2 + Eg ^ 2)))).const_mul
        (A / Real.pi / E0 * (Real.pi - Real.arctan ((2 * Eg + al) / C) + Real.arctan ((al - 2 * Eg) / C))))).add
      ((r4.sub (r2.const_mul (E0 ^ 2 - C ^ 2 / 2))).const_mul
        (2 * A * E0 * Eg / Real.pi / al * (Real.pi + 2 * Real.arctan (2 / al / C * ((E0 ^ 2 - C ^ 2 / 2) - Eg ^ 2)))))).sub
      (((r4.add (r2.const_mul (Eg ^ 2))).mul (hinv.mul la)).const_mul (A * E0 * C / Real.pi))).add
      ((r4.mul lb).const_mul (2 * A * E0 * C * Eg / Real.pi))).neg
  have im := (((r4.mul ((tendsto_const_nhds (x := (1 : ℝ))).sub (hinv.const_mul Eg) |>.pow 2)).mul hinv).const_mul (A * E0 * C)).neg
  have all := ((Complex.continuous_ofReal.tendsto _).comp re).add (((Complex.continuous_ofReal.tendsto _).comp im).const_mul I)
  have all' := all.comp tendsto_inv_nhdsGT_zero
  refine free_of_energy K
    (fun u => (taucTerm u⁻¹ Eg [("A", A), ("E", E0), ("C", C)]).getD 0) _ ?_ ?_ (Tendsto.congr (fun _ => rfl) (Eq.mp (congrArg (Tendsto _ _ <| 𝓝 ·) ?_) all'))
  · filter_upwards [tendsto_inv_nhdsGT_zero.eventually (eventually_gt_atTop Eg)] with u hu1
    have hE : 0 < u⁻¹ := lt_of_le_of_lt hEg hu1
    rw [taucTerm_split _ Eg A E0 C hE hC _ (taucEps1_value _ Eg A E0 C al hE hEg hE0 hC hu hu1.ne' hal hal2), Option.getD_some]
  · filter_upwards [tendsto_inv_nhdsGT_zero.eventually (eventually_gt_atTop Eg), self_mem_nhdsWithin] with u hu1 hu0
    have hE : 0 < u⁻¹ := lt_of_le_of_lt hEg hu1
    rw [taucTerm_split _ Eg A E0 C hE hC _ (taucEps1_value _ Eg A E0 C al hE hEg hE0 hC hu hu1.ne' hal hal2), Option.getD_some]
    simp only [Function.comp]
    have hab : Spec.taucAbsorption u⁻¹ Eg A E0 C = A * E0 * C * (u⁻¹ - Eg) ^ 2 / ((u⁻¹ ^ 2 - E0 ^ 2) ^ 2 + C ^ 2 * u⁻¹ ^ 2) / u⁻¹ := if_neg (not_le.2 hu1)
    rw [hab]
    have hu2 : (0 : ℝ) < u := hu0
    obtain ⟨E, hEu⟩ : ∃ E, E = u⁻¹ := ⟨_, rfl⟩
    have huE : u = E⁻¹ := by rw [hEu, inv_inv]
    rw [← hEu] at hE ⊢
    rw [huE, Complex.ofReal_inv]
    have hEC : (E : ℂ) ≠ 0 := by exact_mod_cast hE.ne'
    have hZ : (E ^ 2 - E0 ^ 2) ^ 2 + C ^ 2 * E ^ 2 ≠ 0 := by positivity
    generalize Real.log (|E - Eg| * (E + Eg) / root) = y1
    generalize Real.log (|E - Eg| / (E + Eg)) = y2
    generalize Real.arctan (2 / al / C * ((E0 ^ 2 - C ^ 2 / 2) - Eg ^ 2)) = y3
    generalize (Real.pi - Real.arctan ((2 * Eg + al) / C) + Real.arctan ((al - 2 * Eg) / C)) = y4
    generalize Real.log ((E0 ^ 2 + Eg ^ 2 + al * Eg) / (E0 ^ 2 + Eg ^ 2 - al * Eg)) = y5
    generalize hZd : (E ^ 2 - E0 ^ 2) ^ 2 + C ^ 2 * E ^ 2 = Z at *
    have hp := Real.pi_ne_zero
    have key : ∀ a b c d : ℝ, a = -E⁻¹ ^ 2 * c → b = -E⁻¹ ^ 2 * d → I * (b : ℂ) + (a : ℂ) = -(E : ℂ)⁻¹ ^ 2 * ((c : ℂ) + I * (d : ℂ)) := by
      intro a b c d h1 h2
      rw [h1, h2]
      push_cast
      ring
    apply key
    · field_simp
      ring
    · field_simp
  · have key : ∀ a b c : ℝ, a = c → b = 0 → (a : ℂ) + I * (b : ℂ) = (c : ℂ) := by
      intro a b c h1 h2
      rw [h1, h2]
      simp
    apply key
    · unfold taucPlasma
      generalize Real.arctan (2 / al / C * ((E0 ^ 2 - C ^ 2 / 2) - Eg ^ 2)) = y3
      generalize (Real.pi - Real.arctan ((2 * Eg + al) / C) + Real.arctan ((al - 2 * Eg) / C)) = y4
      generalize Real.log ((E0 ^ 2 + Eg ^ 2 + al * Eg) / (E0 ^ 2 + Eg ^ 2 - al * Eg)) = y5
      have hp := Real.pi_ne_zero
      field_simp
      ring
    · ring

/-- C126: any Tauc-Lorentz oscillators below critical damping obey the f-sum rule. -/
theorem C126_sum_rule_tauc_lorentz (K : PhysConst) (Eg : ℝ) (hEg : 0 ≤ Eg) (osc : List (ℝ × ℝ × ℝ)) (h : ∀ o ∈ osc, 0 < o.2.1 ∧ 0 < o.2.2 ∧ o.2.2 < 2 * o.2.1) :
    Spec.SumRule K.c K.h (taucLorentz K [("Eg", Eg)] (osc.map fun o => [("A", o.1), ("E", o.2.1), ("C", o.2.2)])) 0
      (osc.map fun o => 2 / Real.pi * (o.1 * o.2.1 * o.2.2 * ∫ E in Set.Ioi Eg, (E - Eg) ^ 2 / ((E ^ 2 - o.2.1 ^ 2) ^ 2 + o.2.2 ^ 2 * E ^ 2))).sum := by
  have hk := photon_const_pos K
  have halpha : ∀ o ∈ osc, 0 < √(4 * o.2.1 ^ 2 - o.2.2 ^ 2) ∧ √(4 * o.2.1 ^ 2 - o.2.2 ^ 2) ^ 2 = 4 * o.2.1 ^ 2 - o.2.2 ^ 2 := by
    intro o ho
    obtain ⟨h1, h2, h3⟩ := h o ho
    have hpos : 0 < 4 * o.2.1 ^ 2 - o.2.2 ^ 2 := by nlinarith
    exact ⟨Real.sqrt_pos.2 hpos, Real.sq_sqrt hpos.le⟩
  have hm : ∀ o ∈ osc, IntegrableOn (fun x : ℝ => (x - Eg) ^ 2 / ((x ^ 2 - o.2.1 ^ 2) ^ 2 + o.2.2 ^ 2 * x ^ 2)) (Set.Ioi Eg) ∧
      ∫ x in Set.Ioi Eg, (x - Eg) ^ 2 / ((x ^ 2 - o.2.1 ^ 2) ^ 2 + o.2.2 ^ 2 * x ^ 2) = taucPlasma Eg o.2.1 o.2.2 √(4 * o.2.1 ^ 2 - o.2.2 ^ 2) :=
    fun o ho => tauc_moment (h o ho).1 (h o ho).2.1 (halpha o ho).1 (halpha o ho).2
  have eW : (osc.map fun o => 2 / Real.pi * (o.1 * o.2.1 * o.2.2 * ∫ E in Set.Ioi Eg, (E - Eg) ^ 2 / ((E ^ 2 - o.2.1 ^ 2) ^ 2 + o.2.2 ^ 2 * E ^ 2))) =
      osc.map fun o => 2 / Real.pi * (o.1 * o.2.1 * o.2.2 * taucPlasma Eg o.2.1 o.2.2 √(4 * o.2.1 ^ 2 - o.2.2 ^ 2)) :=
    List.map_congr_left fun o ho => by rw [(hm o ho).2]
  rw [eW]
  let f : ℝ × ℝ × ℝ → ℝ → ℂ := fun o E => I * (Spec.taucAbsorption E Eg o.1 o.2.1 o.2.2 : ℝ) + (((taucEps1 E Eg o.1 o.2.1 o.2.2).getD 0).re : ℝ)
  have hf : ∀ o ∈ osc, ∀ E, 0 < E → E ≠ Eg → taucTerm E Eg [("A", o.1), ("E", o.2.1), ("C", o.2.2)] = some (f o E) := by
    intro o ho E hE hne
    obtain ⟨h1, h2, h3⟩ := h o ho
    obtain ⟨r, hr⟩ := taucEps1_real E Eg o.1 o.2.1 o.2.2 hE hEg h1 h2 h3 hne
    rw [taucTerm_split E Eg o.1 o.2.1 o.2.2 hE h2 _ hr]
    simp only [f, hr, Option.getD_some, Complex.ofReal_re]
  have hsum : ∀ E, 0 < E → E ≠ Eg → sumN ((osc.map fun o => [("A", o.1), ("E", o.2.1), ("C", o.2.2)]).map (taucTerm E Eg)) = some (osc.map fun o => f o E).sum := by
    intro E hE hne
    clear h hm halpha eW
    induction osc with
    | nil => rfl
    | cons o L ih =>
      simp only [List.map_cons, sumN, hf o (by simp) E hE hne, ih fun o ho => hf o (List.mem_cons_of_mem _ ho), Option.map_some, List.sum_cons]
  refine ⟨?_, fun E => (osc.map fun o => f o E).sum, ?_, ?_⟩
  · have h0 := free_sum (α := ℝ × ℝ × ℝ) (c := K.c) (h := K.h)
      (fun l o => (conversionWavelengthEnergy K l).bind fun E => taucTerm E Eg [("A", o.1), ("E", o.2.1), ("C", o.2.2)]) osc
      (fun o => ((2 / Real.pi * (o.1 * o.2.1 * o.2.2 * taucPlasma Eg o.2.1 o.2.2 √(4 * o.2.1 ^ 2 - o.2.2 ^ 2)) : ℝ) : ℂ))
      fun o ho => tauc_free K Eg hEg o (h o ho).1 (h o ho).2.1 (h o ho).2.2
    have e : (((osc.map fun o => 2 / Real.pi * (o.1 * o.2.1 * o.2.2 * taucPlasma Eg o.2.1 o.2.2 √(4 * o.2.1 ^ 2 - o.2.2 ^ 2))).sum : ℝ) : ℂ) =
        (osc.map fun o => ((2 / Real.pi * (o.1 * o.2.1 * o.2.2 * taucPlasma Eg o.2.1 o.2.2 √(4 * o.2.1 ^ 2 - o.2.2 ^ 2)) : ℝ) : ℂ)).sum := by
      clear h hf hsum h0 hm halpha eW
      induction osc with
      | nil => simp
      | cons o L ih => rw [List.map_cons, List.sum_cons, Complex.ofReal_add, ih, List.map_cons, List.sum_cons]
    rw [e]
    refine free_congr ?_ h0
    filter_upwards [self_mem_nhdsWithin] with l hl
    have hl' : l ≠ 0 := ne_of_gt hl
    simp only [taucLorentz, energy_photon K hl', Option.bind_eq_bind, Option.bind_some, Dict.get, if_true, List.map_map, Function.comp_def]
  · have hnull : ∀ᵐ l : ℝ, l ≠ K.c * K.h / 1e-9 / Eg := by
      rw [ae_iff]
      simp
    filter_upwards [hnull] with l hl1 hl
    have hE : 0 < photon K l := by rw [photon_eq]; exact div_pos hk hl
    have hne : photon K l ≠ Eg := by
      intro he
      apply hl1
      rw [← he, photon_eq, div_div_cancel₀ hk.ne']
    simp only [taucLorentz, energy_photon K hl.ne', Option.bind_eq_bind, Option.bind_some, Dict.get, if_true, hsum _ hE hne]
    rfl
  · have := absMoment_sum osc (fun o E => (f o E).im) (fun o => 2 / Real.pi * (o.1 * o.2.1 * o.2.2 * taucPlasma Eg o.2.1 o.2.2 √(4 * o.2.1 ^ 2 - o.2.2 ^ 2))) fun o ho => by
      refine absMoment_congr (b := fun E => Spec.taucAbsorption E Eg o.1 o.2.1 o.2.2) (fun E _ => by simp [f]) ?_
      obtain ⟨i1, i2⟩ := hm o ho
      have hsub : Set.Ioi Eg ⊆ Set.Ioi (0 : ℝ) := Set.Ioi_subset_Ioi hEg
      have e : ∀ x ∈ Set.Ioi Eg, o.1 * o.2.1 * o.2.2 * ((x - Eg) ^ 2 / ((x ^ 2 - o.2.1 ^ 2) ^ 2 + o.2.2 ^ 2 * x ^ 2)) = x * Spec.taucAbsorption x Eg o.1 o.2.1 o.2.2 := by
        intro x hx
        have hx0 : (0 : ℝ) < x := hsub hx
        unfold Spec.taucAbsorption
        rw [if_neg (not_le.2 hx), mul_div_cancel₀ _ hx0.ne', mul_div_assoc]
      have z : ∀ x ∈ Set.Ioi (0 : ℝ) \ Set.Ioi Eg, x * Spec.taucAbsorption x Eg o.1 o.2.1 o.2.2 = 0 := by
        intro x hx
        unfold Spec.taucAbsorption
        rw [if_pos (not_lt.1 hx.2), mul_zero]
      have j1 : IntegrableOn (fun x => x * Spec.taucAbsorption x Eg o.1 o.2.1 o.2.2) (Set.Ioi Eg) := IntegrableOn.congr_fun (i1.const_mul (o.1 * o.2.1 * o.2.2)) e measurableSet_Ioi
      refine ⟨j1.of_forall_diff_eq_zero measurableSet_Ioi z, ?_⟩
      show 2 / Real.pi * ∫ E in Set.Ioi 0, E * Spec.taucAbsorption E Eg o.1 o.2.1 o.2.2 = _
      rw [setIntegral_eq_of_subset_of_forall_diff_eq_zero measurableSet_Ioi hsub z, ← setIntegral_congr_fun measurableSet_Ioi e, integral_const_mul, i2]
    have e : ∀ E : ℝ, ((osc.map fun o => f o E).sum).im = (osc.map fun o => (f o E).im).sum := fun E => list_im_sum _ _
    simp only [e]
    exact this

end PyElli
