import Verif.Props.KkrTanguy
import Verif.Props.StaticLimits
import Mathlib.Analysis.SpecialFunctions.Integrals.Basic
import Mathlib.Analysis.SpecialFunctions.Trigonometric.Arctan

/-! # The Tanguy model far from its exciton (C126) -/

namespace PyElli

open Filter Topology MeasureTheory Complex ComplexConjugate PyElli.Exciton PyElli.Herglotz

/-- A Debye relaxator: the value at zero frequency is `c`. -/
noncomputable def debye (c : ℝ) (z : ℂ) : ℂ := (c : ℂ) / (1 - I * z)

lemma debye_den {z : ℂ} (hz : z ∈ UpperOf 1) : 1 - I * z ≠ 0 := by
  intro h
  have h1 := congrArg re h
  have : -1 < z.im := hz
  simp at h1
  linarith

lemma debye_causal (c : ℝ) : Causal 1 (debye c) := by
  refine ⟨fun z hz => ?_, fun x => ?_, 2 * |c|, 2, fun z hz hR => ?_⟩
  · have h1 : DifferentiableAt ℂ (fun z : ℂ => 1 - I * z) z := by fun_prop
    exact ((differentiableAt_const (c : ℂ)).div h1 (debye_den hz)).differentiableWithinAt
  · unfold debye
    rw [map_div₀]
    simp
  · unfold debye
    rw [norm_div, norm_real, Real.norm_eq_abs]
    have h1 : ‖z‖ / 2 ≤ ‖1 - I * z‖ := by
      have := norm_sub_norm_le (I * z) 1
      rw [norm_mul, norm_I, one_mul, norm_one, norm_sub_rev] at this
      linarith
    calc |c| / ‖1 - I * z‖ ≤ |c| / (‖z‖ / 2) := div_le_div_of_nonneg_left (abs_nonneg _) (by linarith) h1
      _ = 2 * |c| / ‖z‖ := by field_simp

lemma debye_im (c x : ℝ) : (debye c x).im / x = if x = 0 then 0 else c * (1 + x ^ 2)⁻¹ := by
  split_ifs with h
  · simp [h]
  · unfold debye
    rw [div_im, normSq_apply]
    simp
    have : 1 + x * x ≠ 0 := by nlinarith [mul_self_nonneg x]
    have h2 : 1 + x ^ 2 ≠ 0 := by nlinarith [sq_nonneg x]
    field_simp

/-- The static rule for functions analytic in the upper half plane. -/
theorem static_of_causal {δ : ℝ} {F : ℂ → ℂ} (hδ : 0 < δ) (h : Causal δ F) :
    (F 0).im = 0 ∧ Tendsto (fun T : ℝ => ∫ x in (0 : ℝ)..T, (F x).im / x) atTop (𝓝 (Real.pi / 2 * (F 0).re)) := by
  have him : (F 0).im = 0 := by
    have := h.cross 0
    rw [ofReal_zero, neg_zero] at this
    have := congrArg im this
    rw [conj_im] at this
    linarith
  refine ⟨him, ?_⟩
  set c := (F 0).re with hc
  set η := min δ 1 with hη
  have hη0 : 0 < η := lt_min hδ one_pos
  set D : ℂ → ℂ := fun z => F z - debye c z with hD
  have cD : Causal η D := (h.mono (min_le_left _ _)).sub ((debye_causal c).mono (min_le_right _ _))
  have hd0 : debye c 0 = c := by simp [debye]
  have hD0 : D 0 = 0 := by
    rw [hD]
    simp only
    rw [hd0, ← re_add_im (F 0), him]
    simp [hc]
  have m0 : UpperOf η ∈ 𝓝 (0 : ℂ) := (isOpen_upperOf η).mem_nhds (by simp [UpperOf]; exact hη0)
  have dH : DifferentiableOn ℂ (dslope D 0) (UpperOf η) := (Complex.differentiableOn_dslope m0).2 cD.diff
  have vH : ∀ z : ℂ, z ≠ 0 → dslope D 0 z = D z / z := fun z hz => by
    rw [dslope_of_ne _ hz, slope, hD0, vsub_eq_sub, sub_zero, sub_zero, smul_eq_mul]
    ring
  obtain ⟨C, R, hdec⟩ := cD.decay
  have hint0 := upper_integral (H := dslope D 0) hη0 dH (C := |C|) (R := max R 1) (by positivity) (abs_nonneg _) (fun z hz hR => by
    have hz1 : 1 ≤ ‖z‖ := (le_max_right _ _).trans hR
    have hz0 : z ≠ 0 := fun h => by rw [h, norm_zero] at hz1; linarith
    rw [vH z hz0, norm_div, pow_two, ← div_div]
    gcongr
    exact (hdec z hz ((le_max_left _ _).trans hR)).trans (by gcongr; exact le_abs_self C))
  have cH : Continuous fun x : ℝ => dslope D 0 (x : ℂ) := by
    refine continuous_iff_continuousAt.2 fun x => ?_
    have h1 : ContinuousAt (dslope D 0) (x : ℂ) :=
      (dH.differentiableAt ((isOpen_upperOf η).mem_nhds (by simp [UpperOf]; exact hη0))).continuousAt
    exact ContinuousAt.comp (g := dslope D 0) (f := fun x : ℝ => (x : ℂ)) h1 continuous_ofReal.continuousAt
  have cI : Continuous fun x : ℝ => (dslope D 0 (x : ℂ)).im := continuous_im.comp cH
  have vI : ∀ x : ℝ, x ≠ 0 → (dslope D 0 (x : ℂ)).im = (D x).im / x := fun x hx => by
    rw [vH _ (by exact_mod_cast hx), div_ofReal_im]
  have even : ∀ x : ℝ, (dslope D 0 ((-x : ℝ) : ℂ)).im = (dslope D 0 (x : ℂ)).im := by
    intro x
    by_cases hx : x = 0
    · simp [hx]
    · rw [vI _ (neg_ne_zero.2 hx), vI _ hx]
      push_cast
      rw [cD.cross, conj_im]
      field_simp
  have half : Tendsto (fun T : ℝ => ∫ x in (0 : ℝ)..T, (dslope D 0 (x : ℂ)).im) atTop (𝓝 0) := by
    have h1 : ∀ T : ℝ, ∫ x in (0 : ℝ)..T, (dslope D 0 (x : ℂ)).im = (∫ x in (-T)..T, dslope D 0 (x : ℂ)).im / 2 := by
      intro T
      have h2 : (∫ x in (-T)..T, dslope D 0 (x : ℂ)).im = ∫ x in (-T)..T, (dslope D 0 (x : ℂ)).im := by
        have := Complex.imCLM.intervalIntegral_comp_comm (cH.intervalIntegrable (μ := volume) (-T) T)
        simpa using this.symm
      rw [h2, ← intervalIntegral.integral_add_adjacent_intervals (cI.intervalIntegrable (-T) 0) (cI.intervalIntegrable 0 T)]
      have h3 : ∫ x in (-T)..0, (dslope D 0 (x : ℂ)).im = ∫ x in (0 : ℝ)..T, (dslope D 0 (x : ℂ)).im := by
        have := intervalIntegral.integral_comp_neg (a := 0) (b := T) (fun x : ℝ => (dslope D 0 (x : ℂ)).im)
        rw [neg_zero] at this
        rw [← this]
        exact intervalIntegral.integral_congr fun x _ => even x
      rw [h3]
      ring
    simp only [h1]
    have := ((continuous_im.tendsto 0).comp hint0).div_const 2
    simpa using this
  have hdeb : Tendsto (fun T : ℝ => ∫ x in (0 : ℝ)..T, c * (1 + x ^ 2)⁻¹) atTop (𝓝 (Real.pi / 2 * c)) := by
    have e : ∀ T : ℝ, ∫ x in (0 : ℝ)..T, c * (1 + x ^ 2)⁻¹ = c * Real.arctan T := fun T => by
      rw [intervalIntegral.integral_const_mul, integral_inv_one_add_sq, Real.arctan_zero, sub_zero]
    simp only [e]
    rw [mul_comm]
    exact ((Real.tendsto_arctan_atTop).mono_right nhdsWithin_le_nhds).const_mul c
  have cd : Continuous fun x : ℝ => c * (1 + x ^ 2)⁻¹ := by
    refine continuous_const.mul (Continuous.inv₀ (by fun_prop) fun x => ?_)
    nlinarith [sq_nonneg x]
  have sum := half.add hdeb
  rw [zero_add] at sum
  refine sum.congr fun T => ?_
  rw [← intervalIntegral.integral_add (cI.intervalIntegrable _ _) (cd.intervalIntegrable _ _)]
  refine intervalIntegral.integral_congr_ae ?_
  have h0 : ∀ᵐ x : ℝ, x ≠ 0 := by
    have : ({0} : Set ℝ)ᶜ ∈ ae volume := compl_mem_ae_iff.2 (by simp)
    filter_upwards [this] with x hx
    exact hx
  filter_upwards [h0] with x hx _
  have hdx := debye_im c x
  rw [if_neg hx] at hdx
  rw [vI x hx, hD]
  simp only [sub_im]
  rw [sub_div, hdx]
  ring

lemma photon_inf (K : PhysConst) : Tendsto (photon K) (𝓝[>] 0) atTop := by
  have hk := photon_const_pos K
  have : Tendsto (fun l : ℝ => K.c * K.h / 1e-9 / l) (𝓝[>] 0) atTop := by
    simp only [div_eq_mul_inv]
    exact tendsto_inv_nhdsGT_zero.const_mul_atTop (by simpa [div_eq_mul_inv] using hk)
  exact this.congr fun l => (photon_eq K l).symm

/-- C126: at short wavelengths the Tanguy model approaches vacuum; at long wavelengths it approaches a real static value, which is the
background `1 + a / b` plus the sum `2/π ∫ Im ε / E dE` of the absorption, and so at least the background for positive amplitudes. -/
theorem C126_static_tanguy (K : PhysConst) (A d gam R Eg a b : ℝ) (hd : 1 < d) (hd' : d ≤ 3) (hg : 0 < gam) (hR : 0 < R)
    (hb : R < ((d - 1) / 2) ^ 2 * Eg) :
    Spec.Approaches (𝓝[>] 0) (tanguy K (tanguyParams A d gam R Eg a b)) 1 ∧
      ∃ s : ℝ, Spec.StaticSum K.c K.h (tanguy K (tanguyParams A d gam R Eg a b)) s ∧ (0 ≤ A → 0 ≤ s) ∧
        (b ≠ 0 → Spec.Static (tanguy K (tanguyParams A d gam R Eg a b)) ((1 + a / b + s : ℝ) : ℂ)) := by
  have hk := photon_const_pos K
  have ha : 0 < (d - 1) / 2 := by linarith
  have ht : 0 < Eg - R / ((d - 1) / 2) ^ 2 := by
    rw [sub_pos, div_lt_iff₀ (pow_pos ha 2)]
    linarith
  have hcau := excitonPart_causal ht (pick_gfun (Eg := Eg) hd hd' hR) (A * R ^ (d / 2 - 1)) hg
  set F := excitonPart (fun z => gfun d (xi R Eg z)) (A * R ^ (d / 2 - 1)) gam with hF
  have hpos : ∀ l, 0 < l → 0 < photon K l := fun l hl => by rw [photon_eq]; positivity
  have val : ∀ l, 0 < l → b ≠ photon K l ^ 2 → tanguy K (tanguyParams A d gam R Eg a b) l =
      some (1 + (a / (b - photon K l ^ 2) : ℝ) + F (photon K l)) := fun l hl hne => by
    rw [tanguy_value K (energy_photon K hl.ne') (hpos l hl) hd hd' hg hR hb hne]
    rfl
  obtain ⟨him, hst⟩ := static_of_causal hg hcau
  have hsum : Tendsto (fun T : ℝ => 2 / Real.pi * ∫ x in (0 : ℝ)..T, (F x).im / x) atTop (𝓝 (F 0).re) := by
    have := hst.const_mul (2 / Real.pi)
    rwa [← mul_assoc, show 2 / Real.pi * (Real.pi / 2) = 1 by field_simp [Real.pi_ne_zero], one_mul] at this
  have cF : ContinuousAt (fun x : ℝ => F x) 0 := by
    have h1 : ContinuousAt F ((0 : ℝ) : ℂ) :=
      (hcau.diff.differentiableAt ((isOpen_upperOf gam).mem_nhds (by simp [UpperOf]; exact hg))).continuousAt
    exact ContinuousAt.comp (g := F) (f := fun x : ℝ => (x : ℂ)) h1 continuous_ofReal.continuousAt
  refine ⟨⟨fun l => 1 + (a / (b - photon K l ^ 2) : ℝ) + F (photon K l), ?_, ?_⟩, (F 0).re, ?_, ?_, ?_⟩
  · have hbig := (photon_inf K).eventually (eventually_gt_atTop (|b| + 1))
    filter_upwards [hbig, self_mem_nhdsWithin] with l h1 hl
    refine val l hl fun h2 => ?_
    have := le_abs_self b
    have := abs_nonneg b
    nlinarith
  · obtain ⟨C, r, hdec⟩ := hcau.decay
    have t1 : Tendsto (fun E : ℝ => ((a / (b - E ^ 2) : ℝ) : ℂ)) atTop (𝓝 ((0 : ℝ) : ℂ)) := by
      refine (continuous_ofReal.tendsto 0).comp (tendsto_const_nhds.div_atBot ?_)
      exact tendsto_atBot_add_const_left _ b (tendsto_neg_atBot_iff.2 (tendsto_pow_atTop two_ne_zero))
    have t2 : Tendsto (fun E : ℝ => F E) atTop (𝓝 0) := by
      rw [tendsto_zero_iff_norm_tendsto_zero]
      refine squeeze_zero' (Eventually.of_forall fun _ => norm_nonneg _) ?_ (tendsto_const_nhds.div_atTop tendsto_id : Tendsto (fun T : ℝ => C / T) atTop (𝓝 0))
      filter_upwards [eventually_ge_atTop (max r 1)] with E hE
      have hE1 : 1 ≤ E := (le_max_right _ _).trans hE
      have := hdec (E : ℂ) (by simp) (by rw [norm_real, Real.norm_of_nonneg (by linarith)]; exact (le_max_left _ _).trans hE)
      rwa [norm_real, Real.norm_of_nonneg (by linarith)] at this
    have := ((tendsto_const_nhds (x := (1 : ℂ))).add t1).add t2
    rw [ofReal_zero, add_zero, add_zero] at this
    exact this.comp (photon_inf K)
  · refine ⟨fun E => 1 + (a / (b - E ^ 2) : ℝ) + F E, ?_, hsum.congr fun T => ?_⟩
    · have hne : ∀ᵐ l : ℝ, l ≠ K.c * K.h / 1e-9 / √b := by
        have : ({K.c * K.h / 1e-9 / √b} : Set ℝ)ᶜ ∈ ae volume := compl_mem_ae_iff.2 (by simp)
        filter_upwards [this] with x hx
        exact hx
      filter_upwards [hne] with l hl hl0
      refine val l hl0 fun h2 => hl ?_
      have hp := hpos l hl0
      rw [h2, Real.sqrt_sq hp.le, photon_eq, div_div_cancel₀ hk.ne']
    · congr 1
      refine intervalIntegral.integral_congr fun x _ => ?_
      simp only [add_im, one_im, ofReal_im, zero_add]
  · intro hA
    refine ge_of_tendsto hsum ?_
    filter_upwards [eventually_ge_atTop 0] with T hT
    refine mul_nonneg (by positivity) (intervalIntegral.integral_nonneg hT fun x hx => ?_)
    rcases hx.1.eq_or_lt with h0 | h0
    · simp [← h0]
    · refine div_nonneg ?_ hx.1
      have h := second_difference_nonneg ht (pick_gfun (Eg := Eg) hd hd' hR) (z := x + I * gam) (by simpa using h0) (by simpa using hg)
      rw [hF]
      unfold excitonPart
      generalize gfun d (xi R Eg (x + I * gam)) + gfun d (xi R Eg (-(x + I * gam))) - 2 * gfun d (xi R Eg 0) = S at *
      rw [show (((A * R ^ (d / 2 - 1) : ℝ)) : ℂ) / (x + I * gam) ^ 2 * S = ((A * R ^ (d / 2 - 1) : ℝ) : ℂ) * (S / (x + I * gam) ^ 2) by ring, im_ofReal_mul]
      exact mul_nonneg (mul_nonneg hA (Real.rpow_nonneg hR.le _)) h
  · intro hb0
    refine ⟨fun l => 1 + (a / (b - photon K l ^ 2) : ℝ) + F (photon K l), ?_, ?_⟩
    · have hp := photon_zero K
      have : Tendsto (fun l => photon K l ^ 2) atTop (𝓝 0) := by
        have := (hp.mono_right nhdsWithin_le_nhds).pow 2
        simpa using this
      filter_upwards [this.eventually (isOpen_ne.mem_nhds (Ne.symm hb0)), eventually_gt_atTop 0] with l h1 hl
      exact val l hl (Ne.symm h1)
    · have hp := (photon_zero K).mono_right nhdsWithin_le_nhds
      have t1 : Tendsto (fun l : ℝ => ((a / (b - photon K l ^ 2) : ℝ) : ℂ)) atTop (𝓝 ((a / b : ℝ) : ℂ)) := by
        refine (continuous_ofReal.tendsto (a / b)).comp ?_
        have := (tendsto_const_nhds (x := a)).div ((tendsto_const_nhds (x := b)).sub (hp.pow 2)) (by simpa using hb0)
        simpa [Pi.div_def] using this
      have t2 : Tendsto (fun l : ℝ => F (photon K l)) atTop (𝓝 (F 0)) := by
        have := cF.tendsto.comp hp
        simpa [Function.comp_def] using this
      have := ((tendsto_const_nhds (x := (1 : ℂ))).add t1).add t2
      convert this using 2
      rw [← re_add_im (F 0), him]
      push_cast
      simp

/-- Three dimensions, an exciton at 2.9 eV below a gap of 3 eV. -/
example (K : PhysConst) : ∃ s : ℝ, Spec.StaticSum K.c K.h (tanguy K (tanguyParams 5 3 0.1 0.1 3 1 30)) s ∧ 0 ≤ s ∧
    Spec.Static (tanguy K (tanguyParams 5 3 0.1 0.1 3 1 30)) ((1 + 1 / 30 + s : ℝ) : ℂ) := by
  obtain ⟨_, s, h1, h2, h3⟩ := C126_static_tanguy K 5 3 0.1 0.1 3 1 30 (by norm_num) (by norm_num) (by norm_num) (by norm_num) (by norm_num)
  exact ⟨s, h1, h2 (by norm_num), h3 (by norm_num)⟩

end PyElli
