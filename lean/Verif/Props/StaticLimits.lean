import Verif.Props.SumRules

/-! # Static limits of the dispersion models (C126) -/

namespace PyElli

open Filter Topology MeasureTheory Complex

lemma photon_zero (K : PhysConst) : Tendsto (photon K) atTop (𝓝[>] 0) := by
  have hk := photon_const_pos K
  refine tendsto_nhdsWithin_iff.2 ⟨?_, ?_⟩
  · have : Tendsto (fun l : ℝ => K.c * K.h / 1e-9 / l) atTop (𝓝 0) := tendsto_const_nhds.div_atTop tendsto_id
    exact this.congr fun l => (photon_eq K l).symm
  · filter_upwards [eventually_gt_atTop 0] with l hl
    rw [photon_eq]
    exact div_pos hk hl

/-- A function of the photon energy with a limit at zero energy. -/
lemma static_of_energy (K : PhysConst) {f : ℝ → Option ℂ} {z : ℂ} (h : Spec.Approaches (𝓝[>] 0) f z) :
    Spec.Static (fun l => (conversionWavelengthEnergy K l).bind f) z := by
  obtain ⟨g, h1, h2⟩ := h
  refine ⟨fun l => g (photon K l), ?_, h2.comp (photon_zero K)⟩
  filter_upwards [(photon_zero K).eventually h1, eventually_gt_atTop 0] with l a hl
  rw [energy_photon K hl.ne', Option.bind_some, a]

/-- C126: the static value of Lorentz oscillators in energy: every oscillator adds `A / E²`. -/
theorem C126_static_lorentz_energy (K : PhysConst) (osc : List (ℝ × ℝ × ℝ)) (h : ∀ o ∈ osc, o.2.1 ≠ 0) :
    Spec.Static (lorentzEnergy K (osc.map fun o => [("A", o.1), ("E", o.2.1), ("gamma", o.2.2)])) (1 + (osc.map fun o => (o.1 : ℂ) / (o.2.1 : ℂ) ^ 2).sum) := by
  have H := static_of_energy K (approaches_shift 1 (approaches_sum (F := 𝓝[>] 0) (fun E (o : ℝ × ℝ × ℝ) => lorentzEnergyTerm E [("A", o.1), ("E", o.2.1), ("gamma", o.2.2)]) osc
    (fun o => (o.1 : ℂ) / (o.2.1 : ℂ) ^ 2) fun o ho => ?_))
  · refine approaches_congr (Eventually.of_forall fun l => ?_) H
    simp only [lorentzEnergy, Option.bind_eq_bind, List.map_map, Function.comp_def]
  · have hr : (o.2.1 : ℂ) ≠ 0 := by exact_mod_cast h o ho
    have hd : Tendsto (fun E : ℝ => (o.2.1 : ℂ) ^ 2 - (E : ℂ) ^ 2 - I * o.2.2 * E) (𝓝[>] 0) (𝓝 ((o.2.1 : ℂ) ^ 2)) := by
      have : Tendsto (fun l : ℂ => (o.2.1 : ℂ) ^ 2 - l ^ 2 - I * o.2.2 * l) (𝓝 0) (𝓝 ((o.2.1 : ℂ) ^ 2 - 0 ^ 2 - I * o.2.2 * 0)) := (by fun_prop : Continuous _).tendsto _
      simpa [Function.comp_def] using this.comp ofReal_small
    refine ⟨fun E => (o.1 : ℂ) / ((o.2.1 : ℂ) ^ 2 - (E : ℂ) ^ 2 - I * o.2.2 * E), ?_, tendsto_const_nhds.div hd (pow_ne_zero 2 hr)⟩
    filter_upwards [hd.eventually_ne (pow_ne_zero 2 hr)] with E hn
    simp only [lorentzEnergyTerm, Dict.get, Option.bind_eq_bind]
    simp only [String.reduceEq, if_true, if_false, Option.bind_some, divN_ne hn]

/-- `A l² / (l² - b - c l)` at long wavelengths. -/
lemma ratio_long (A b c : ℂ) : Tendsto (fun l : ℝ => A * (l : ℂ) ^ 2 / ((l : ℂ) ^ 2 - b - c * l)) atTop (𝓝 A) ∧ ∀ᶠ l : ℝ in atTop, (l : ℂ) ^ 2 - b - c * l ≠ 0 := by
  have hu : Tendsto (fun l : ℝ => ((l⁻¹ : ℝ) : ℂ)) atTop (𝓝 0) := by
    have := (Complex.continuous_ofReal.tendsto 0).comp tendsto_inv_atTop_zero
    simpa [Function.comp_def] using this
  have hd : Tendsto (fun l : ℝ => 1 - b * ((l⁻¹ : ℝ) : ℂ) ^ 2 - c * ((l⁻¹ : ℝ) : ℂ)) atTop (𝓝 1) := by
    have : Tendsto (fun u : ℂ => 1 - b * u ^ 2 - c * u) (𝓝 0) (𝓝 (1 - b * 0 ^ 2 - c * 0)) := (by fun_prop : Continuous _).tendsto _
    simpa [Function.comp_def] using this.comp hu
  have key : ∀ l : ℝ, l ≠ 0 → (l : ℂ) ^ 2 - b - c * l = (1 - b * ((l⁻¹ : ℝ) : ℂ) ^ 2 - c * ((l⁻¹ : ℝ) : ℂ)) * (l : ℂ) ^ 2 := by
    intro l hl
    have : (l : ℂ) ≠ 0 := by exact_mod_cast hl
    push_cast
    field_simp
  constructor
  · have h := (tendsto_const_nhds (x := A)).div hd one_ne_zero
    rw [div_one] at h
    refine h.congr' ?_
    filter_upwards [eventually_gt_atTop 0] with l hl
    have : (l : ℂ) ≠ 0 := by exact_mod_cast hl.ne'
    rw [key l hl.ne', mul_div_mul_right _ _ (pow_ne_zero 2 this)]
    rfl
  · filter_upwards [eventually_gt_atTop 0, hd.eventually_ne one_ne_zero] with l hl hn
    have : (l : ℂ) ≠ 0 := by exact_mod_cast hl.ne'
    rw [key l hl.ne']
    exact mul_ne_zero hn (pow_ne_zero 2 this)

/-- C126: the static value of Lorentz oscillators over the wavelength: every oscillator adds its amplitude. -/
theorem C126_static_lorentz_lambda (osc : List (ℝ × ℝ × ℝ)) :
    Spec.Static (lorentzLambda (osc.map fun o => [("A", o.1), ("lambda_r", o.2.1), ("gamma", o.2.2)])) (1 + (osc.map fun o => (o.1 : ℂ)).sum) := by
  have H := approaches_shift 1 (approaches_sum (F := atTop) (fun l (o : ℝ × ℝ × ℝ) => lorentzLambdaTerm l [("A", o.1), ("lambda_r", o.2.1), ("gamma", o.2.2)]) osc
    (fun o => (o.1 : ℂ)) fun o ho => ?_)
  · refine approaches_congr (Eventually.of_forall fun l => ?_) H
    simp only [lorentzLambda, Option.bind_eq_bind, List.map_map, Function.comp_def]
  · obtain ⟨h1, h2⟩ := ratio_long o.1 ((o.2.1 : ℂ) ^ 2) (I * o.2.2)
    refine ⟨_, ?_, h1⟩
    filter_upwards [h2] with l hn
    simp only [lorentzLambdaTerm, Dict.get, Option.bind_eq_bind]
    simp only [String.reduceEq, if_true, if_false, Option.bind_some, divN_ne hn]

/-- C126: the static value of Sellmeier's equation: every term adds its amplitude. -/
theorem C126_static_sellmeier (osc : List (ℝ × ℝ)) :
    Spec.Static (sellmeier (osc.map fun o => [("A", o.1), ("B", o.2)])) (1 + (osc.map fun o => (o.1 : ℂ)).sum) := by
  have H := approaches_shift 1 (approaches_sum (F := atTop) (fun l (o : ℝ × ℝ) => sellmeierTerm (l / 1e3) [("A", o.1), ("B", o.2)]) osc (fun o => (o.1 : ℂ)) fun o ho => ?_)
  · refine approaches_congr (Eventually.of_forall fun l => ?_) H
    simp only [sellmeier, Option.bind_eq_bind, List.map_map, Function.comp_def]
  · obtain ⟨h1, h2⟩ := ratio_long o.1 (o.2 : ℂ) 0
    have hx : Tendsto (fun l : ℝ => l / 1e3) atTop atTop := tendsto_id.atTop_div_const (by norm_num)
    refine ⟨_, ?_, h1.comp hx⟩
    filter_upwards [hx.eventually h2] with l hn
    have hn' : (l / 1e3) ^ 2 - o.2 ≠ 0 := by
      rw [zero_mul, sub_zero] at hn
      exact_mod_cast hn
    simp only [sellmeierTerm, Dict.get, Option.bind_eq_bind]
    simp only [String.reduceEq, if_true, if_false, Option.bind_some, divN_ne hn', toC, Function.comp, zero_mul, sub_zero]
    rw [Option.bind_eq_bind, Option.bind_some, Option.pure_def, Option.map_some]
    push_cast
    rfl

/-- C126: the static index of Cauchy's law is `n0 + i k0`. -/
theorem C126_static_cauchy (n0 n1 n2 k0 k1 k2 : ℝ) :
    Spec.Static (cauchyIndex [("n0", n0), ("n1", n1), ("n2", n2), ("k0", k0), ("k1", k1), ("k2", k2)]) ((n0 : ℂ) + I * k0) := by
  have p : ∀ (a : ℝ) (n : ℕ), n ≠ 0 → Tendsto (fun l : ℝ => a / l ^ n) atTop (𝓝 0) := fun a n hn => tendsto_const_nhds.div_atTop (tendsto_pow_atTop hn)
  have q : ∀ a b c : ℝ, Tendsto (fun l : ℝ => ((a + 1e2 * b / l ^ 2 + 1e7 * c / l ^ 4 : ℝ) : ℂ)) atTop (𝓝 (a : ℂ)) := fun a b c => by
    have h := (((p (1e2 * b) 2 (by norm_num)).const_add a).add (p (1e7 * c) 4 (by norm_num)))
    rw [add_zero, add_zero] at h
    exact (Complex.continuous_ofReal.tendsto a).comp h
  refine ⟨fun l => ((n0 + 1e2 * n1 / l ^ 2 + 1e7 * n2 / l ^ 4 : ℝ) : ℂ) + I * ((k0 + 1e2 * k1 / l ^ 2 + 1e7 * k2 / l ^ 4 : ℝ) : ℂ), ?_, (q n0 n1 n2).add ((q k0 k1 k2).const_mul I)⟩
  filter_upwards [eventually_gt_atTop 0] with l hl
  have h2 : l ^ 2 ≠ 0 := by positivity
  have h4 : l ^ 4 ≠ 0 := by positivity
  simp only [cauchyIndex, Dict.get, Option.bind_eq_bind]
  simp only [String.reduceEq, if_true, if_false, Option.bind_some, divN_ne h2, divN_ne h4]

/-- C126: the static value of Gaussian oscillators. -/
theorem C126_static_gaussian (dawsn : ℝ → ℝ) (hD : ∀ x, dawsn x = Real.exp (-x ^ 2) * ∫ u in (0 : ℝ)..x, Real.exp (u ^ 2)) (K : PhysConst)
    (osc : List (ℝ × ℝ × ℝ)) (h : ∀ o ∈ osc, 0 < o.2.2) :
    Spec.Static (gaussian dawsn K (osc.map fun o => [("A", o.1), ("E", o.2.1), ("sigma", o.2.2)]))
      (osc.map fun o => ((4 * o.1 / √Real.pi * dawsn (2 * √(Real.log 2) * o.2.1 / o.2.2) : ℝ) : ℂ)).sum := by
  have cD : Continuous dawsn := by
    have : dawsn = fun x => Real.exp (-x ^ 2) * ∫ u in (0 : ℝ)..x, Real.exp (u ^ 2) := funext hD
    rw [this]
    refine Continuous.mul (by fun_prop) ?_
    exact intervalIntegral.continuous_primitive (fun a b => (by fun_prop : Continuous fun u : ℝ => Real.exp (u ^ 2)).intervalIntegrable a b) 0
  have odd : ∀ x, dawsn (-x) = -dawsn x := fun x => by
    rw [hD, hD, neg_pow x 2]
    have : ∫ u in (0 : ℝ)..-x, Real.exp (u ^ 2) = -∫ u in (0 : ℝ)..x, Real.exp (u ^ 2) := by
      have h1 := intervalIntegral.integral_comp_neg (a := 0) (b := x) (fun u : ℝ => Real.exp (u ^ 2))
      simp only [even_two.neg_pow, neg_zero] at h1
      rw [h1, intervalIntegral.integral_symm]
    rw [this]
    simp
  have H := static_of_energy K (approaches_sum (F := 𝓝[>] 0) (fun E (o : ℝ × ℝ × ℝ) => gaussianTerm dawsn E [("A", o.1), ("E", o.2.1), ("sigma", o.2.2)]) osc
    (fun o => ((4 * o.1 / √Real.pi * dawsn (2 * √(Real.log 2) * o.2.1 / o.2.2) : ℝ) : ℂ)) fun o ho => ?_)
  · refine approaches_congr (Eventually.of_forall fun l => ?_) H
    simp only [gaussian, Option.bind_eq_bind, List.map_map, Function.comp_def]
  · have hs := h o ho
    let F : ℝ → ℂ := fun E => ((2 * o.1 / √Real.pi * (dawsn (2 * √(Real.log 2) * (E + o.2.1) / o.2.2) - dawsn (2 * √(Real.log 2) * (E - o.2.1) / o.2.2)) : ℝ) : ℂ)
      + I * ((o.1 * Real.exp (-(2 * √(Real.log 2) * (E - o.2.1) / o.2.2) ^ 2) - o.1 * Real.exp (-(2 * √(Real.log 2) * (E + o.2.1) / o.2.2) ^ 2) : ℝ) : ℂ)
    have hc : Continuous F := by
      have h1 : Continuous fun E : ℝ => dawsn (2 * √(Real.log 2) * (E + o.2.1) / o.2.2) := cD.comp (by fun_prop)
      have h2 : Continuous fun E : ℝ => dawsn (2 * √(Real.log 2) * (E - o.2.1) / o.2.2) := cD.comp (by fun_prop)
      exact (Complex.continuous_ofReal.comp (continuous_const.mul (h1.sub h2))).add (continuous_const.mul (Complex.continuous_ofReal.comp (by fun_prop)))
    refine ⟨F, Eventually.of_forall fun E => ?_, ?_⟩
    · simp only [gaussianTerm, Dict.get, Option.bind_eq_bind]
      simp only [String.reduceEq, if_true, if_false, Option.bind_some, divN, hs.ne']
      rfl
    · have h0 : F 0 = ((4 * o.1 / √Real.pi * dawsn (2 * √(Real.log 2) * o.2.1 / o.2.2) : ℝ) : ℂ) := by
        simp only [F, zero_add, zero_sub]
        rw [show 2 * √(Real.log 2) * -o.2.1 / o.2.2 = -(2 * √(Real.log 2) * o.2.1 / o.2.2) by ring, odd, neg_pow (2 * √(Real.log 2) * o.2.1 / o.2.2) 2]
        generalize 2 * √(Real.log 2) * o.2.1 / o.2.2 = t
        simp only [even_two.neg_pow, one_pow, one_mul, sub_self, Complex.ofReal_zero, mul_zero, add_zero]
        congr 1
        ring
      rw [← h0]
      exact (hc.tendsto 0).mono_left nhdsWithin_le_nhds

/-- C126: a Drude material conducts: its dielectric function grows without bound at long wavelengths. -/
theorem C126_conductor (K : PhysConst) (A g : ℝ) (hA : A ≠ 0) : Spec.Unbounded (drudeEnergy K [("A", A), ("gamma", g)]) := by
  refine ⟨fun l => (A : ℂ) / ((photon K l : ℂ) ^ 2 - I * g * photon K l), ?_, ?_⟩
  · filter_upwards [(photon_zero K).eventually self_mem_nhdsWithin, eventually_gt_atTop 0] with l hE hl
    have hn : (photon K l : ℂ) ^ 2 - I * g * photon K l ≠ 0 := by
      intro h0
      have := congrArg Complex.re h0
      simp [pow_two] at this
      exact (ne_of_gt hE) this
    simp only [drudeEnergy, energy_photon K hl.ne', Dict.get, Option.bind_eq_bind]
    simp only [String.reduceEq, if_true, if_false, Option.bind_some, divN_ne hn]
  · have h1 : Tendsto (fun l => ‖(photon K l : ℂ) ^ 2 - I * g * photon K l‖) atTop (𝓝[>] 0) := by
      refine tendsto_nhdsWithin_iff.2 ⟨?_, ?_⟩
      · have h2 : Continuous fun E : ℝ => ‖(E : ℂ) ^ 2 - I * g * E‖ := by fun_prop
        have h3 := (h2.tendsto 0).comp ((photon_zero K).mono_right nhdsWithin_le_nhds)
        simpa [Function.comp_def] using h3
      · filter_upwards [(photon_zero K).eventually self_mem_nhdsWithin] with l hE
        refine norm_pos_iff.2 fun h0 => ?_
        have := congrArg Complex.re h0
        simp [pow_two] at this
        exact (ne_of_gt hE) this
    have h4 := (tendsto_inv_nhdsGT_zero.comp h1).const_mul_atTop (norm_pos_iff.2 (by exact_mod_cast hA : (A : ℂ) ≠ 0))
    refine h4.congr fun l => ?_
    simp only [Function.comp]
    rw [norm_div, div_eq_mul_inv]

/-! ## Instances -/

/-- Two Lorentz oscillators of opposite sign, one of them overdamped. -/
example (K : PhysConst) : Spec.SumRule K.c K.h (lorentzEnergy K ([((3 : ℝ), (4 : ℝ), (1 : ℝ)), (-1, 1, 5)].map fun o => [("A", o.1), ("E", o.2.1), ("gamma", o.2.2)])) 1 2 := by
  have := C126_sum_rule_lorentz_energy K [(3, 4, 1), (-1, 1, 5)] (by
    intro o ho
    simp only [List.mem_cons, List.not_mem_nil, or_false] at ho
    rcases ho with rfl | rfl <;> norm_num)
  norm_num at this ⊢
  exact this

/-- Tauc-Lorentz below critical damping with a gap. -/
example (K : PhysConst) := C126_sum_rule_tauc_lorentz K 1.2 (by norm_num) [(50, 3.5, 2)] (by
  intro o ho
  simp only [List.mem_cons, List.not_mem_nil, or_false] at ho
  subst ho
  norm_num)

end PyElli
