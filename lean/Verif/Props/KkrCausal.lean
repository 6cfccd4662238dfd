import Verif.Props.KkrLimit
import Verif.Spec.Causal
import Verif.Lemmas.CausalKk
import Mathlib.Analysis.Calculus.ParametricIntegral
import Mathlib.MeasureTheory.Integral.Gamma
import Mathlib.Analysis.SpecialFunctions.ImproperIntegrals

/-! # The transforms applied to causal responses (C90) -/

namespace PyElli

open Filter Topology MeasureTheory Complex

/-- Outputs of transform `k` for the function `f`, at the axis point `w`, come as close to `v` as wanted for wide enough ranges and fine enough axes. -/
def CodeTendsto (k : KkrKind) (f : ℝ → ℝ) (w v : ℝ) : Prop :=
  ∀ ε > 0, ∃ A > 0, ∃ B, ∀ a b, 0 < a → a < A → B < b → a < w → w < b →
    ∀ (x : ℕ → List ℝ) (i : ℕ → ℕ), (∀ m, IsAxis (x m) a b) → (∀ m, (x m)[i m]? = some w) → Tendsto (fun m => (x m).length) atTop atTop →
      ∃ y : ℕ → ℝ, (∀ m, ∃ o, calcKkr k ((x m).map f) (x m) = .ok o ∧ o[i m]? = some (some (y m))) ∧ ∀ᶠ m in atTop, |y m - v| < ε

/-- The interval integrals tend to `π/2 v`. -/
lemma codeTendsto_of (k : KkrKind) (f : ℝ → ℝ) (w v : ℝ) (hf : ContinuousOn f (Set.Ioi 0)) (hd : DifferentiableAt ℝ f w) (V : ℝ → ℝ → ℝ)
    (hV : ∀ a b, 0 < a → a < w → w < b → KkIntegral k f a w b (V a b))
    (ht : Tendsto (fun p : ℝ × ℝ => V p.1 p.2) (𝓝[>] 0 ×ˢ atTop) (𝓝 (Real.pi / 2 * v))) : CodeTendsto k f w v := by
  intro ε hε
  have ht' := ht.const_mul (2 / Real.pi)
  rw [← mul_assoc, show 2 / Real.pi * (Real.pi / 2) = 1 by have := Real.pi_ne_zero; field_simp, one_mul] at ht'
  have he := (Metric.tendsto_nhds.1 ht') (ε / 2) (by positivity)
  rw [Filter.eventually_prod_iff] at he
  obtain ⟨pa, hpa, pb, hpb, hab⟩ := he
  obtain ⟨A, hA, hA'⟩ := mem_nhdsGT_iff_exists_Ioo_subset.1 hpa
  obtain ⟨B, hB⟩ := eventually_atTop.1 hpb
  refine ⟨A, hA, B, fun a b ha haA hBb haw hwb x i hx hi hn => ?_⟩
  have hsub : Set.Icc a b ⊆ Set.Ioi 0 := fun x hx => lt_of_lt_of_le ha hx.1
  obtain ⟨u, hu, hlim⟩ := C89_limit k f a w b ha haw hwb (hf.mono hsub) hd
  obtain ⟨y, hy, hty⟩ := hlim x i hx hi hn
  refine ⟨y, hy, ?_⟩
  have huV : u = V a b := by
    have h := hV a b ha haw hwb
    cases k <;> exact isPV_unique hu h
  have h1 := hab (hA' ⟨ha, haA⟩) (hB b hBb.le)
  simp only [Real.dist_eq] at h1
  rw [huV] at hty
  have h2 := (Metric.tendsto_nhds.1 hty) (ε / 2) (by positivity)
  filter_upwards [h2] with m hm
  rw [Real.dist_eq] at hm
  have e : y m - v = (y m - 2 / Real.pi * V a b) + (2 / Real.pi * V a b - v) := by ring
  rw [e]
  exact (abs_add_le _ _).trans_lt (by linarith)

lemma recip_tendsto (V : ℝ → ℝ → ℝ) (v : ℝ) (ht : Tendsto (fun p : ℝ × ℝ => V p.1 p.2) (𝓝[>] 0 ×ˢ atTop) (𝓝 v)) :
    Tendsto (fun p : ℝ × ℝ => V (1 / p.2) (1 / p.1)) (𝓝[>] 0 ×ˢ atTop) (𝓝 v) := by
  refine ht.comp (f := fun p : ℝ × ℝ => (1 / p.2, 1 / p.1)) (Tendsto.prodMk ?_ ?_)
  · simp only [one_div]
    exact tendsto_inv_atTop_nhdsGT_zero.comp tendsto_snd
  · simp only [one_div]
    exact tendsto_inv_nhdsGT_zero.comp tendsto_fst

/-! ## Pairs of poles -/

/-- A damped oscillation `Re (2 (A + B t) e^(-s t))`, `Re s > 0`. -/
structure Mode where
  A : ℂ
  B : ℂ
  s : ℂ
  damped : 0 < s.re

/-- The two conjugate poles it gives. -/
noncomputable def Mode.chi (m : Mode) (x : ℝ) : ℂ := kkPole m.A m.B m.s x + kkPole (star m.A) (star m.B) (star m.s) x

lemma mode_integral (A B u : ℂ) (hu : 0 < u.re) :
    IntegrableOn (fun t : ℝ => (A + B * t) * Complex.exp (-(u * t))) (Set.Ioi 0) ∧
      ∫ t in Set.Ioi (0 : ℝ), (A + B * t) * Complex.exp (-(u * t)) = A / u + B / u ^ 2 := by
  have hu0 : u ≠ 0 := fun h => by rw [h] at hu; simp at hu
  have hneg : (-u).re < 0 := by simpa using hu
  have i1 : IntegrableOn (fun t : ℝ => Complex.exp (-u * t)) (Set.Ioi 0) := integrableOn_exp_mul_complex_Ioi hneg 0
  have v1 : ∫ t in Set.Ioi (0 : ℝ), Complex.exp (-u * t) = 1 / u := by
    rw [integral_exp_mul_complex_Ioi hneg 0]
    simp
  set c := u.re
  have hn : ∀ t : ℝ, ‖Complex.exp (-u * t)‖ = Real.exp (-(c * t)) := fun t => by
    rw [Complex.norm_exp]
    simp [c]
  have hexp : ∀ t : ℝ, 0 ≤ t → t * Real.exp (-(c * t)) ≤ 2 / c * Real.exp (-(c / 2) * t) := fun t _ => by
    have h1 : c / 2 * t ≤ Real.exp (c / 2 * t) := by linarith [Real.add_one_le_exp (c / 2 * t)]
    have h2 : Real.exp (-(c * t)) = Real.exp (-(c / 2) * t) * Real.exp (-(c / 2 * t)) := by
      rw [← Real.exp_add]; congr 1; ring
    have h3 : Real.exp (c / 2 * t) * Real.exp (-(c / 2 * t)) = 1 := by rw [← Real.exp_add]; simp
    have h4 : c / 2 * t * Real.exp (-(c / 2 * t)) ≤ 1 := by
      rw [← h3]
      exact mul_le_mul_of_nonneg_right h1 (Real.exp_pos _).le
    have h5 : t * Real.exp (-(c / 2 * t)) ≤ 2 / c := by
      rw [le_div_iff₀ hu]
      nlinarith
    rw [h2]
    calc t * (Real.exp (-(c / 2) * t) * Real.exp (-(c / 2 * t))) = t * Real.exp (-(c / 2 * t)) * Real.exp (-(c / 2) * t) := by ring
      _ ≤ _ := mul_le_mul_of_nonneg_right h5 (Real.exp_pos _).le
  have i0 : IntegrableOn (fun t : ℝ => 2 / c * Real.exp (-(c / 2) * t)) (Set.Ioi 0) :=
    (integrableOn_exp_mul_Ioi (by linarith) 0).const_mul _
  have i2 : IntegrableOn (fun t : ℝ => (t : ℂ) * Complex.exp (-u * t)) (Set.Ioi 0) := by
    refine Integrable.mono' i0 (Continuous.aestronglyMeasurable (by fun_prop)) ?_
    refine (ae_restrict_iff' measurableSet_Ioi).2 (ae_of_all _ fun t ht => ?_)
    rw [norm_mul, hn, Complex.norm_real, Real.norm_of_nonneg (le_of_lt ht)]
    exact hexp t (le_of_lt ht)
  have v2 : ∫ t in Set.Ioi (0 : ℝ), (t : ℂ) * Complex.exp (-u * t) = 1 / u ^ 2 := by
    have hd : ∀ t ∈ Set.Ici (0 : ℝ), HasDerivAt (fun t : ℝ => -(((t : ℂ) / u + 1 / u ^ 2) * Complex.exp (-u * t))) ((t : ℂ) * Complex.exp (-u * t)) t := by
      intro t _
      have h1 : HasDerivAt (fun y : ℝ => (y : ℂ)) 1 t := Complex.ofRealCLM.hasDerivAt
      have h2 := ((h1.div_const u).add_const (1 / u ^ 2)).mul (h1.const_mul (-u)).cexp
      refine h2.neg.congr_deriv ?_
      field_simp
      ring
    have hlim : Tendsto (fun t : ℝ => -(((t : ℂ) / u + 1 / u ^ 2) * Complex.exp (-u * t))) atTop (𝓝 0) := by
      have hb : Tendsto (fun t : ℝ => ‖u‖⁻¹ * (2 / c * Real.exp (-(c / 2) * t)) + ‖u ^ 2‖⁻¹ * Real.exp (-(c / 2) * t)) atTop (𝓝 0) := by
        have h0 : Tendsto (fun t : ℝ => Real.exp (-(c / 2) * t)) atTop (𝓝 0) :=
          Real.tendsto_exp_atBot.comp (tendsto_id.const_mul_atTop_of_neg (by linarith))
        have := ((h0.const_mul (2 / c)).const_mul ‖u‖⁻¹).add (h0.const_mul ‖u ^ 2‖⁻¹)
        simpa using this
      refine squeeze_zero_norm' ?_ hb
      filter_upwards [eventually_ge_atTop 0] with t ht
      rw [norm_neg, add_mul]
      refine (norm_add_le _ _).trans (add_le_add ?_ ?_)
      · rw [norm_mul, hn, norm_div, Complex.norm_real, Real.norm_of_nonneg ht, div_eq_inv_mul, mul_assoc]
        exact mul_le_mul_of_nonneg_left (hexp t ht) (by positivity)
      · rw [norm_mul, hn, norm_div, norm_one, one_div]
        refine mul_le_mul_of_nonneg_left (Real.exp_le_exp.2 ?_) (by positivity)
        nlinarith
    rw [integral_Ioi_of_hasDerivAt_of_tendsto' hd i2 hlim]
    simp
  have e : (fun t : ℝ => (A + B * t) * Complex.exp (-(u * t))) = fun t : ℝ => A * Complex.exp (-u * t) + B * ((t : ℂ) * Complex.exp (-u * t)) := by
    funext t
    rw [neg_mul]
    ring
  rw [e]
  refine ⟨(i1.const_mul A).add (i2.const_mul B), ?_⟩
  rw [integral_add (i1.const_mul A) (i2.const_mul B), integral_const_mul, integral_const_mul, v1, v2]
  ring

lemma star_re_pos {s : ℂ} (hs : 0 < s.re) : 0 < (star s).re := by simpa using hs

/-! ## The Kramers-Kronig relations -/

lemma kkPole_star (A B s : ℂ) (x : ℝ) : kkPole (star A) (star B) (star s) x = star (kkPole A B s (-x)) := by
  unfold kkPole
  simp [sub_eq_add_neg]

lemma kkPole_continuous (A B : ℂ) {s : ℂ} (hs : 0 < s.re) : Continuous (kkPole A B s) := by
  unfold kkPole
  have c1 : Continuous fun x : ℝ => s - I * (x : ℂ) := by fun_prop
  exact (continuous_const.div c1 fun x => sub_I_ne hs x).add (continuous_const.div (c1.pow 2) fun x => pow_ne_zero 2 (sub_I_ne hs x))

lemma kkPole_differentiable (A B : ℂ) {s : ℂ} (hs : 0 < s.re) : Differentiable ℝ (kkPole A B s) := by
  intro x
  unfold kkPole
  have d1 : DifferentiableAt ℝ (fun x : ℝ => s - I * (x : ℂ)) x := (sub_I_deriv s x).differentiableAt
  exact ((differentiableAt_const A).div d1 (sub_I_ne hs x)).add ((differentiableAt_const B).div (d1.pow 2) (pow_ne_zero 2 (sub_I_ne hs x)))

lemma chi_continuous (m : Mode) : Continuous (Mode.chi m) := (kkPole_continuous _ _ m.damped).add (kkPole_continuous _ _ (star_re_pos m.damped))

lemma chi_differentiable (m : Mode) : Differentiable ℝ (Mode.chi m) :=
  (kkPole_differentiable _ _ m.damped).add (kkPole_differentiable _ _ (star_re_pos m.damped))

lemma kkPole_cont_frac (A B σ τ : ℂ) {s : ℂ} (hs : 0 < s.re) (w : ℝ) (hw : 0 < w) :
    ContinuousOn (fun x : ℝ => (τ * (kkPole A B s x / (x - w) + σ * (kkPole A B s x / (x + w)))).re) (Set.Ioi 0 \ {w}) := by
  have cb := (kkPole_continuous A B hs).continuousOn (s := Set.Ioi 0 \ {w})
  have c1 : Continuous fun x : ℝ => (x : ℂ) - w := by fun_prop
  have c2 : Continuous fun x : ℝ => (x : ℂ) + w := by fun_prop
  refine Complex.continuous_re.comp_continuousOn (continuousOn_const.mul ((cb.div c1.continuousOn fun x hx => ?_).add
    (continuousOn_const.mul (cb.div c2.continuousOn fun x hx => ?_))))
  · rw [← Complex.ofReal_sub]
    exact Complex.ofReal_ne_zero.2 (sub_ne_zero.2 hx.2)
  · rw [← Complex.ofReal_add]
    have : 0 < x := hx.1
    exact Complex.ofReal_ne_zero.2 (by positivity)

/-- Both relations for one mode, `σ = 1, τ = -i/2` for the real part and `σ = -1, τ = 1/2` for the imaginary part. -/
lemma chi_half (m : Mode) (σ τ : ℂ) (w : ℝ) (hw : 0 < w) :
    Spec.IsPVHalf (fun x => (τ * (Mode.chi m x / (x - w) + σ * (Mode.chi m x / (x + w)))).re) w
      ((τ * ((kkPole m.A m.B m.s w + σ * kkPole m.A m.B m.s (-w)) * (I * (Real.pi / 2) + Complex.log m.s - ((Real.log w : ℝ) : ℂ)) -
        (m.B / (m.s - I * w) + σ * (m.B / (m.s - I * (-w : ℝ)))) * m.s⁻¹)).re +
      (τ * ((star (kkPole m.A m.B m.s (-w)) + σ * star (kkPole m.A m.B m.s w)) * (I * (Real.pi / 2) + star (Complex.log m.s) - ((Real.log w : ℝ) : ℂ)) -
        (star (m.B / (m.s - I * (-w : ℝ))) + σ * star (m.B / (m.s - I * w))) * star m.s⁻¹)).re) := by
  have h1 := kkPole_half m.A m.B σ τ m.damped w hw
  have h2 := kkPole_half (star m.A) (star m.B) σ τ (star_re_pos m.damped) w hw
  have e1 : Complex.log (star m.s) = star (Complex.log m.s) := by
    have := Complex.log_conj m.s (by
      intro h
      have h3 := m.damped
      rw [Complex.arg_eq_pi_iff] at h
      linarith [h.1])
    exact this
  have e2 : star m.B / (star m.s - I * w) = star (m.B / (m.s - I * (-w : ℝ))) := by simp [sub_eq_add_neg]
  have e3 : star m.B / (star m.s - I * (-w : ℝ)) = star (m.B / (m.s - I * w)) := by simp [sub_eq_add_neg]
  rw [kkPole_star, kkPole_star, neg_neg, e1, e2, e3, show (star m.s)⁻¹ = star m.s⁻¹ by simp] at h2
  refine isPVHalf_congr (fun x _ _ => ?_) (isPVHalf_add (kkPole_cont_frac _ _ σ τ m.damped w hw) (kkPole_cont_frac _ _ σ τ (star_re_pos m.damped) w hw) h1 h2)
  rw [← Complex.add_re]
  congr 1
  unfold Mode.chi
  ring

lemma frac_re (z : ℂ) (x w : ℝ) (h1 : x - w ≠ 0) (h2 : x + w ≠ 0) :
    ((-I / 2) * (z / (x - w) + 1 * (z / (x + w)))).re = x * z.im / (x ^ 2 - w ^ 2) := by
  have e : (-I / 2) * (z / (x - w) + 1 * (z / (x + w))) = (-I * z) * ((x / (x ^ 2 - w ^ 2) : ℝ) : ℂ) := by
    have c1 : (x : ℂ) - w ≠ 0 := by rw [← Complex.ofReal_sub]; exact Complex.ofReal_ne_zero.2 h1
    have c2 : (x : ℂ) + w ≠ 0 := by rw [← Complex.ofReal_add]; exact Complex.ofReal_ne_zero.2 h2
    have c3 : (x : ℂ) ^ 2 - w ^ 2 ≠ 0 := by rw [show (x : ℂ) ^ 2 - w ^ 2 = (x - w) * (x + w) by ring]; exact mul_ne_zero c1 c2
    push_cast
    field_simp
    ring
  rw [e, Complex.re_mul_ofReal]
  simp
  ring

lemma frac_im (z : ℂ) (x w : ℝ) (h1 : x - w ≠ 0) (h2 : x + w ≠ 0) :
    ((1 / 2) * (z / (x - w) + (-1) * (z / (x + w)))).re = w * z.re / (x ^ 2 - w ^ 2) := by
  have e : (1 / 2) * (z / (x - w) + (-1) * (z / (x + w))) = z * ((w / (x ^ 2 - w ^ 2) : ℝ) : ℂ) := by
    have c1 : (x : ℂ) - w ≠ 0 := by rw [← Complex.ofReal_sub]; exact Complex.ofReal_ne_zero.2 h1
    have c2 : (x : ℂ) + w ≠ 0 := by rw [← Complex.ofReal_add]; exact Complex.ofReal_ne_zero.2 h2
    have c3 : (x : ℂ) ^ 2 - w ^ 2 ≠ 0 := by rw [show (x : ℂ) ^ 2 - w ^ 2 = (x - w) * (x + w) by ring]; exact mul_ne_zero c1 c2
    push_cast
    field_simp
    ring
  rw [e, Complex.re_mul_ofReal]
  ring

lemma chi_real (m : Mode) (w : ℝ) (hw : 0 < w) : Spec.KkReal (Mode.chi m) w := by
  have h := chi_half m 1 (-I / 2) w hw
  have hc : (Mode.chi m w).re = (kkPole m.A m.B m.s w).re + (kkPole m.A m.B m.s (-w)).re := by
    unfold Mode.chi
    rw [kkPole_star]
    simp
  unfold Spec.KkReal
  rw [hc]
  generalize kkPole m.A m.B m.s w = g at h ⊢
  generalize kkPole m.A m.B m.s (-w) = g' at h ⊢
  generalize m.B / (m.s - I * w) = q at h
  generalize m.B / (m.s - I * (-w : ℝ)) = q' at h
  generalize m.s⁻¹ = r at h
  generalize Complex.log m.s = l at h
  refine isPVHalf_congr (fun x hx hne => frac_re _ x w (sub_ne_zero.2 hne) (by positivity)) ?_
  convert h using 1
  simp [Complex.add_re, Complex.mul_re, Complex.mul_im, Complex.sub_re, Complex.sub_im]
  ring

/-- Both axes. -/
lemma code_im2re (χ : ℝ → ℂ) (w : ℝ) (hw : 0 < w) (hc : ContinuousOn χ (Set.Ioi 0)) (hd : DifferentiableAt ℝ χ w) (hk : Spec.KkReal χ w) :
    CodeTendsto .im2re (fun x => (χ x).im) w (χ w).re ∧ CodeTendsto .im2reReciprocal (fun x => (χ (1 / x)).im) (1 / w) (χ w).re := by
  have hci : ContinuousOn (fun x => (χ x).im) (Set.Ioi 0) := Complex.continuous_im.comp_continuousOn hc
  have hdi : DifferentiableAt ℝ (fun x => (χ x).im) w := (Complex.imCLM.differentiableAt).comp w hd
  obtain ⟨V, hV, ht⟩ := hk
  refine ⟨codeTendsto_of .im2re _ w _ hci hdi V hV ht, ?_⟩
  refine codeTendsto_of .im2reReciprocal _ (1 / w) _ (hci.comp (continuousOn_const.div continuousOn_id fun x hx => ne_of_gt hx) fun x hx => ?_) ?_
    (fun a b => V (1 / b) (1 / a)) (fun a b ha haw hwb => ?_) (recip_tendsto V _ ht)
  · have : 0 < x := hx
    exact one_div_pos.2 this
  · have h1 : DifferentiableAt ℝ (fun x : ℝ => 1 / x) (1 / w) := (differentiableAt_const _).div differentiableAt_id (by positivity)
    exact DifferentiableAt.comp (g := fun x => (χ x).im) (1 / w) (by rw [one_div_one_div]; exact hdi) h1
  · simp only [KkIntegral, one_div_one_div]
    have hw1 : 0 < 1 / w := by positivity
    exact hV (1 / b) (1 / a) (by have := hw1.trans hwb; positivity) ((one_div_lt (hw1.trans hwb) hw).2 hwb) ((lt_one_div hw ha).2 haw)

lemma code_re2im (χ : ℝ → ℂ) (w : ℝ) (hw : 0 < w) (hc : ContinuousOn χ (Set.Ioi 0)) (hd : DifferentiableAt ℝ χ w) (hk : Spec.KkImag χ w) :
    CodeTendsto .re2im (fun x => (χ x).re) w (-(χ w).im) ∧ CodeTendsto .re2imReciprocal (fun x => (χ (1 / x)).re) (1 / w) (-(χ w).im) := by
  have hci : ContinuousOn (fun x => (χ x).re) (Set.Ioi 0) := Complex.continuous_re.comp_continuousOn hc
  have hdi : DifferentiableAt ℝ (fun x => (χ x).re) w := (Complex.reCLM.differentiableAt).comp w hd
  obtain ⟨V, hV, ht⟩ := hk
  rw [← mul_neg] at ht
  refine ⟨codeTendsto_of .re2im _ w _ hci hdi V hV ht, ?_⟩
  refine codeTendsto_of .re2imReciprocal _ (1 / w) _ (hci.comp (continuousOn_const.div continuousOn_id fun x hx => ne_of_gt hx) fun x hx => ?_) ?_
    (fun a b => V (1 / b) (1 / a)) (fun a b ha haw hwb => ?_) (recip_tendsto V _ ht)
  · have : 0 < x := hx
    exact one_div_pos.2 this
  · have h1 : DifferentiableAt ℝ (fun x : ℝ => 1 / x) (1 / w) := (differentiableAt_const _).div differentiableAt_id (by positivity)
    exact DifferentiableAt.comp (g := fun x => (χ x).re) (1 / w) (by rw [one_div_one_div]; exact hdi) h1
  · simp only [KkIntegral, one_div_one_div]
    have hw1 : 0 < 1 / w := by positivity
    exact hV (1 / b) (1 / a) (by have := hw1.trans hwb; positivity) ((one_div_lt (hw1.trans hwb) hw).2 hwb) ((lt_one_div hw ha).2 haw)

/-! ## Any integrable response -/

section

variable {φ : ℝ → ℝ} (hφ : IntegrableOn φ (Set.Ioi 0))
include hφ

lemma sus_integrable (x : ℝ) : IntegrableOn (fun t : ℝ => Complex.exp (I * x * t) * ((φ t : ℝ) : ℂ)) (Set.Ioi 0) := by
  refine Integrable.bdd_mul (c := 1) hφ.ofReal (Continuous.aestronglyMeasurable (by fun_prop)) (Eventually.of_forall fun t => ?_)
  rw [show I * (x : ℂ) * t = ((x * t : ℝ) : ℂ) * I by push_cast; ring, Complex.norm_exp_ofReal_mul_I]

lemma sus_im (x : ℝ) : (Spec.susceptibility φ x).im = ∫ t in Set.Ioi (0 : ℝ), Real.sin (x * t) * φ t := by
  unfold Spec.susceptibility
  have := integral_im (sus_integrable hφ x)
  simp only [RCLike.im_eq_complex_im] at this
  rw [← this]
  refine integral_congr_ae (Eventually.of_forall fun t => ?_)
  simp only
  rw [Complex.im_mul_ofReal, show I * (x : ℂ) * t = ((x * t : ℝ) : ℂ) * I by push_cast; ring, Complex.exp_ofReal_mul_I_im]

lemma sus_re (x : ℝ) : (Spec.susceptibility φ x).re = ∫ t in Set.Ioi (0 : ℝ), Real.cos (x * t) * φ t := by
  unfold Spec.susceptibility
  have := integral_re (sus_integrable hφ x)
  simp only [RCLike.re_eq_complex_re] at this
  rw [← this]
  refine integral_congr_ae (Eventually.of_forall fun t => ?_)
  simp only
  rw [Complex.re_mul_ofReal, show I * (x : ℂ) * t = ((x * t : ℝ) : ℂ) * I by push_cast; ring, Complex.exp_ofReal_mul_I_re]

lemma sus_continuous : Continuous (Spec.susceptibility φ) := by
  unfold Spec.susceptibility
  refine continuous_of_dominated (bound := fun t => |φ t|) (fun x => (sus_integrable hφ x).aestronglyMeasurable) (fun x => Eventually.of_forall fun t => ?_) hφ.abs
    (Eventually.of_forall fun t => by fun_prop)
  rw [show I * (x : ℂ) * t = ((x * t : ℝ) : ℂ) * I by push_cast; ring, norm_mul, Complex.norm_exp_ofReal_mul_I, one_mul, Complex.norm_real, Real.norm_eq_abs]

lemma sus_hasDerivAt (hφ' : IntegrableOn (fun t => t * φ t) (Set.Ioi 0)) (w : ℝ) :
    HasDerivAt (Spec.susceptibility φ) (∫ t in Set.Ioi (0 : ℝ), Complex.exp (I * w * t) * (I * t) * ((φ t : ℝ) : ℂ)) w := by
  have h := hasDerivAt_integral_of_dominated_loc_of_deriv_le (μ := volume.restrict (Set.Ioi (0 : ℝ))) (𝕜 := ℝ) (F := fun x t => Complex.exp (I * x * t) * ((φ t : ℝ) : ℂ))
    (F' := fun (x : ℝ) t => Complex.exp (I * x * t) * (I * t) * ((φ t : ℝ) : ℂ)) (x₀ := w) (s := Set.univ) (bound := fun t => |t * φ t|) Filter.univ_mem
    (Eventually.of_forall fun x => (sus_integrable hφ x).aestronglyMeasurable) (sus_integrable hφ w) ?_ (Eventually.of_forall fun t x _ => ?_) hφ'.abs
    (Eventually.of_forall fun t x _ => ?_)
  · exact h.2
  · refine AEStronglyMeasurable.mul (Continuous.aestronglyMeasurable (by fun_prop)) hφ.ofReal.aestronglyMeasurable
  · rw [show I * (x : ℂ) * t = ((x * t : ℝ) : ℂ) * I by push_cast; ring, norm_mul, norm_mul, Complex.norm_exp_ofReal_mul_I, one_mul, norm_mul, Complex.norm_I, one_mul,
      Complex.norm_real, Complex.norm_real, Real.norm_eq_abs, Real.norm_eq_abs, abs_mul]
  · have h1 : HasDerivAt (fun y : ℝ => (y : ℂ)) 1 x := Complex.ofRealCLM.hasDerivAt
    have h2 := (((h1.const_mul I).mul_const (t : ℂ)).cexp).mul_const ((φ t : ℝ) : ℂ)
    refine h2.congr_deriv ?_
    ring

lemma sus_differentiable (hφ' : IntegrableOn (fun t => t * φ t) (Set.Ioi 0)) (w : ℝ) : DifferentiableAt ℝ (Spec.susceptibility φ) w :=
  (sus_hasDerivAt hφ hφ' w).differentiableAt

/-- The first relation. -/
lemma sus_kkReal {w : ℝ} (hw : 0 < w) : Spec.KkReal (Spec.susceptibility φ) w := by
  have hg : ContinuousOn (fun x : ℝ => x / (x ^ 2 - w ^ 2)) (Set.Ioi 0 \ {w}) := by
    refine ContinuousOn.div (by fun_prop) (by fun_prop) fun x hx => ?_
    have h0 : 0 < x := hx.1
    rw [show x ^ 2 - w ^ 2 = (x - w) * (x + w) by ring]
    exact mul_ne_zero (sub_ne_zero.2 hx.2) (by positivity)
  have := causal_half (C := fun t => Real.sin (w * t)) (S := fun t => Real.cos (w * t)) hw hφ Real.continuous_sin Real.abs_sin_le_one hg
    (fun t => Real.abs_sin_le_one _) (fun t => Real.abs_cos_le_one _) ?_
  · unfold Spec.KkReal
    rw [sus_re hφ]
    refine isPVHalf_congr (fun x _ _ => ?_) this
    rw [sus_im hφ]
    ring
  · intro x t hx hne
    have n1 : x - w ≠ 0 := sub_ne_zero.2 hne
    have n2 : x + w ≠ 0 := by positivity
    have e1 : Real.sin (x * t) = Real.sin (w * t) * Real.cos ((x - w) * t) + Real.cos (w * t) * Real.sin ((x - w) * t) := by
      rw [← Real.sin_add]; congr 1; ring
    have e2 : Real.sin (x * t) = -(Real.sin (w * t) * Real.cos ((x + w) * t)) + Real.cos (w * t) * Real.sin ((x + w) * t) := by
      rw [show x * t = (x + w) * t - w * t by ring, Real.sin_sub]; ring
    have e3 : x / (x ^ 2 - w ^ 2) * Real.sin (x * t) = (Real.sin (x * t) / (x - w) + Real.sin (x * t) / (x + w)) / 2 := by
      rw [show x ^ 2 - w ^ 2 = (x - w) * (x + w) by ring]
      field_simp
      ring
    rw [e3]
    nth_rewrite 1 [e1]
    rw [e2]
    unfold kkKer
    ring

/-- The second relation. -/
lemma sus_kkImag {w : ℝ} (hw : 0 < w) : Spec.KkImag (Spec.susceptibility φ) w := by
  have hg : ContinuousOn (fun x : ℝ => w / (x ^ 2 - w ^ 2)) (Set.Ioi 0 \ {w}) := by
    refine ContinuousOn.div (by fun_prop) (by fun_prop) fun x hx => ?_
    have h0 : 0 < x := hx.1
    rw [show x ^ 2 - w ^ 2 = (x - w) * (x + w) by ring]
    exact mul_ne_zero (sub_ne_zero.2 hx.2) (by positivity)
  have := causal_half (C := fun t => Real.cos (w * t)) (S := fun t => -Real.sin (w * t)) hw hφ Real.continuous_cos Real.abs_cos_le_one hg
    (fun t => Real.abs_cos_le_one _) (fun t => by rw [abs_neg]; exact Real.abs_sin_le_one _) ?_
  · unfold Spec.KkImag
    rw [sus_im hφ]
    simp only [neg_mul, integral_neg, mul_neg] at this
    refine isPVHalf_congr (fun x _ _ => ?_) this
    rw [sus_re hφ]
    ring
  · intro x t hx hne
    have n1 : x - w ≠ 0 := sub_ne_zero.2 hne
    have n2 : x + w ≠ 0 := by positivity
    have e1 : Real.cos (x * t) = Real.cos (w * t) * Real.cos ((x - w) * t) - Real.sin (w * t) * Real.sin ((x - w) * t) := by
      rw [← Real.cos_add]; congr 1; ring
    have e2 : Real.cos (x * t) = Real.cos (w * t) * Real.cos ((x + w) * t) + Real.sin (w * t) * Real.sin ((x + w) * t) := by
      rw [show x * t = (x + w) * t - w * t by ring, Real.cos_sub]; ring
    have e3 : w / (x ^ 2 - w ^ 2) * Real.cos (x * t) = (Real.cos (x * t) / (x - w) - Real.cos (x * t) / (x + w)) / 2 := by
      rw [show x ^ 2 - w ^ 2 = (x - w) * (x + w) by ring]
      field_simp
      ring
    rw [e3]
    nth_rewrite 1 [e1]
    rw [e2]
    unfold kkKer
    ring

end

/-- C90, the half that holds: for every causal response `φ` with `φ(t)` and `t φ(t)` integrable, the transforms to the real part, on wide and fine enough axes,
applied to the imaginary part of the susceptibility give its real part. Missing: `re2im` and `re2im_reciprocal` (`C90_re2im_sign_refuted`). -/
theorem C90_im2re_partial (φ : ℝ → ℝ) (hφ : IntegrableOn φ (Set.Ioi 0)) (hφ' : IntegrableOn (fun t => t * φ t) (Set.Ioi 0)) (w : ℝ) (hw : 0 < w) :
    CodeTendsto .im2re (fun x => (Spec.susceptibility φ x).im) w (Spec.susceptibility φ w).re ∧
    CodeTendsto .im2reReciprocal (fun x => (Spec.susceptibility φ (1 / x)).im) (1 / w) (Spec.susceptibility φ w).re :=
  code_im2re _ w hw (sus_continuous hφ).continuousOn (sus_differentiable hφ hφ' w) (sus_kkReal hφ hw)

/-- C90 is false for the other half: `re2im` and `re2im_reciprocal` give minus the imaginary part, for every such response. -/
theorem C90_re2im_sign_refuted (φ : ℝ → ℝ) (hφ : IntegrableOn φ (Set.Ioi 0)) (hφ' : IntegrableOn (fun t => t * φ t) (Set.Ioi 0)) (w : ℝ) (hw : 0 < w) :
    CodeTendsto .re2im (fun x => (Spec.susceptibility φ x).re) w (-(Spec.susceptibility φ w).im) ∧
    CodeTendsto .re2imReciprocal (fun x => (Spec.susceptibility φ (1 / x)).re) (1 / w) (-(Spec.susceptibility φ w).im) :=
  code_re2im _ w hw (sus_continuous hφ).continuousOn (sus_differentiable hφ hφ' w) (sus_kkImag hφ hw)

/-- The decay `e^(-t)` has the susceptibility `1/(1 - ix)`, with positive imaginary part: at `w = 1` the transforms give `1/2` for the real part, which is
right, and `-1/2` for the imaginary part, which is `1/2`. -/
example : Spec.susceptibility (fun t => Real.exp (-t)) 1 = 1 / 2 + 1 / 2 * I ∧
    CodeTendsto .im2re (fun x => (Spec.susceptibility (fun t => Real.exp (-t)) x).im) 1 (1 / 2) ∧
    CodeTendsto .re2im (fun x => (Spec.susceptibility (fun t => Real.exp (-t)) x).re) 1 (-(1 / 2)) := by
  have h : Spec.susceptibility (fun t => Real.exp (-t)) 1 = 1 / 2 + 1 / 2 * I := by
    have e : (1 - I : ℂ) ≠ 0 := fun h => by
      have := congrArg Complex.re h
      simp at this
    have h1 := (mode_integral 1 0 (1 - I) (by simp)).2
    have h2 : Spec.susceptibility (fun t => Real.exp (-t)) 1 = ∫ t in Set.Ioi (0 : ℝ), (1 + 0 * (t : ℂ)) * Complex.exp (-((1 - I) * t)) := by
      unfold Spec.susceptibility
      refine integral_congr_ae (Eventually.of_forall fun t => ?_)
      simp only [Complex.ofReal_exp, ← Complex.exp_add]
      rw [zero_mul, add_zero, one_mul]
      congr 1
      push_cast
      ring
    rw [h2, h1]
    field_simp
    linear_combination (1 - I) * I_sq
  have i1 : IntegrableOn (fun t => Real.exp (-t)) (Set.Ioi 0) := by
    have := integrableOn_exp_mul_Ioi (a := -1) (by norm_num) 0
    simpa using this
  have i2 : IntegrableOn (fun t => t * Real.exp (-t)) (Set.Ioi 0) := by
    have := ((mode_integral 0 1 1 (by simp)).1).re
    refine this.congr (Eventually.of_forall fun t => ?_)
    simp only [zero_add, one_mul, RCLike.re_eq_complex_re]
    rw [← Complex.ofReal_neg, ← Complex.ofReal_exp, ← Complex.ofReal_mul, Complex.ofReal_re]
  refine ⟨h, ?_, ?_⟩
  · have := (C90_im2re_partial _ i1 i2 1 one_pos).1
    rw [h] at this
    simpa using this
  · have := (C90_re2im_sign_refuted _ i1 i2 1 one_pos).1
    rw [h] at this
    simpa using this

end PyElli
