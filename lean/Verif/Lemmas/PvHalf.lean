import Verif.Lemmas.Pv
import Mathlib.Analysis.SpecialFunctions.Complex.LogDeriv
import Mathlib.Analysis.Complex.RealDeriv
import Mathlib.MeasureTheory.Integral.IntervalIntegral.FundThmCalculus

/-! # Principal values from antiderivatives, and the Kramers-Kronig relations for poles in the lower half plane (C90) -/

namespace PyElli

open Filter Topology MeasureTheory Complex

lemma isPV_congr {F G : ℝ → ℝ} {a w b v : ℝ} (haw : a < w) (hwb : w < b) (h : ∀ x, a ≤ x → x ≤ b → x ≠ w → F x = G x) (hF : Spec.IsPV F a w b v) :
    Spec.IsPV G a w b v := by
  refine Tendsto.congr' ?_ hF
  filter_upwards [Ioo_mem_nhdsGT (lt_min (sub_pos.2 haw) (sub_pos.2 hwb))] with d hd
  have h0 := hd.1
  have h1 : d < w - a := hd.2.trans_le (min_le_left _ _)
  have h2 : d < b - w := hd.2.trans_le (min_le_right _ _)
  congr 1
  · refine intervalIntegral.integral_congr fun x hx => ?_
    rw [Set.uIcc_of_le (by linarith)] at hx
    exact h x hx.1 (by linarith [hx.2]) (ne_of_lt (by linarith [hx.2]))
  · refine intervalIntegral.integral_congr fun x hx => ?_
    rw [Set.uIcc_of_le (by linarith)] at hx
    exact h x (by linarith [hx.1]) hx.2 (ne_of_gt (by linarith [hx.1]))

lemma isPV_add {F G : ℝ → ℝ} {a w b u v : ℝ} (haw : a < w) (hwb : w < b) (cF : ContinuousOn F (Set.Icc a b \ {w})) (cG : ContinuousOn G (Set.Icc a b \ {w}))
    (hF : Spec.IsPV F a w b u) (hG : Spec.IsPV G a w b v) : Spec.IsPV (fun x => F x + G x) a w b (u + v) := by
  refine (Tendsto.add hF hG).congr' ?_
  filter_upwards [Ioo_mem_nhdsGT (lt_min (sub_pos.2 haw) (sub_pos.2 hwb))] with d hd
  have h0 := hd.1
  have h1 : d < w - a := hd.2.trans_le (min_le_left _ _)
  have h2 : d < b - w := hd.2.trans_le (min_le_right _ _)
  have s1 : Set.uIcc a (w - d) ⊆ Set.Icc a b \ {w} := by
    rw [Set.uIcc_of_le (by linarith)]
    exact fun x hx => ⟨⟨hx.1, by linarith [hx.2]⟩, ne_of_lt (by linarith [hx.2])⟩
  have s2 : Set.uIcc (w + d) b ⊆ Set.Icc a b \ {w} := by
    rw [Set.uIcc_of_le (by linarith)]
    exact fun x hx => ⟨⟨by linarith [hx.1], hx.2⟩, ne_of_gt (by linarith [hx.1])⟩
  rw [intervalIntegral.integral_add (cF.mono s1).intervalIntegrable (cG.mono s1).intervalIntegrable,
    intervalIntegral.integral_add (cF.mono s2).intervalIntegrable (cG.mono s2).intervalIntegrable]
  ring

lemma isPV_unique {F : ℝ → ℝ} {a w b u v : ℝ} (h1 : Spec.IsPV F a w b u) (h2 : Spec.IsPV F a w b v) : u = v := tendsto_nhds_unique h1 h2

/-- `c/(x - w)` plus a function with a known antiderivative. -/
lemma isPV_antideriv {F Φ φ : ℝ → ℝ} {a w b c : ℝ} (haw : a < w) (hwb : w < b) (hφ : ContinuousOn φ (Set.Icc a b))
    (hΦ : ∀ x ∈ Set.Icc a b, HasDerivAt Φ (φ x) x) (hF : ∀ x, a ≤ x → x ≤ b → x ≠ w → F x = c * (1 / (x - w)) + φ x) :
    Spec.IsPV F a w b (c * Real.log ((b - w) / (w - a)) + (Φ b - Φ a)) := by
  have hab : a ≤ b := by linarith
  have hp : ∀ᶠ d in 𝓝[>] (0 : ℝ), 0 < d := eventually_mem_nhdsWithin
  have h1 : Spec.IsPV (fun x => c * (1 / (x - w))) a w b (c * Real.log ((b - w) / (w - a))) := by
    refine tendsto_const_nhds.congr' ?_
    filter_upwards [Ioo_mem_nhdsGT (lt_min (sub_pos.2 haw) (sub_pos.2 hwb))] with d hd
    have := gap_inv a w b d d hd.1 hd.1 (hd.2.trans_le (min_le_left _ _)) (hd.2.trans_le (min_le_right _ _))
    rw [div_self hd.1.ne', Real.log_one, add_zero] at this
    rw [intervalIntegral.integral_const_mul, intervalIntegral.integral_const_mul, ← mul_add, ← this]
    rfl
  have h2 : Spec.IsPV φ a w b (Φ b - Φ a) := by
    have e : Φ b - Φ a = ∫ x in a..b, φ x := by
      refine (intervalIntegral.integral_eq_sub_of_hasDerivAt (fun x hx => ?_) ?_).symm
      · rw [Set.uIcc_of_le hab] at hx; exact hΦ x hx
      · refine ContinuousOn.intervalIntegrable ?_
        rwa [Set.uIcc_of_le hab]
    rw [e]
    exact gap_smooth φ a w b haw hwb hφ (fun d => d) (fun d => d) nhdsWithin_le_nhds nhdsWithin_le_nhds hp hp
  have c1 : ContinuousOn (fun x : ℝ => c * (1 / (x - w))) (Set.Icc a b \ {w}) :=
    continuousOn_const.mul (continuousOn_const.div (continuousOn_id.sub continuousOn_const) fun x hx => sub_ne_zero.2 hx.2)
  exact isPV_congr haw hwb (fun x h3 h4 h5 => (hF x h3 h4 h5).symm) (isPV_add haw hwb c1 (hφ.mono Set.diff_subset) h1 h2)

lemma isPVHalf_congr {F G : ℝ → ℝ} {w v : ℝ} (h : ∀ x, 0 < x → x ≠ w → F x = G x) (hF : Spec.IsPVHalf F w v) : Spec.IsPVHalf G w v := by
  obtain ⟨V, h1, h2⟩ := hF
  exact ⟨V, fun a b ha haw hwb => isPV_congr haw hwb (fun x hx _ hne => h x (by linarith) hne) (h1 a b ha haw hwb), h2⟩

lemma isPVHalf_add {F G : ℝ → ℝ} {w u v : ℝ} (cF : ContinuousOn F (Set.Ioi 0 \ {w})) (cG : ContinuousOn G (Set.Ioi 0 \ {w}))
    (hF : Spec.IsPVHalf F w u) (hG : Spec.IsPVHalf G w v) : Spec.IsPVHalf (fun x => F x + G x) w (u + v) := by
  obtain ⟨V, h1, h2⟩ := hF
  obtain ⟨W, h3, h4⟩ := hG
  refine ⟨fun a b => V a b + W a b, fun a b ha haw hwb => ?_, h2.add h4⟩
  have hs : Set.Icc a b \ {w} ⊆ Set.Ioi 0 \ {w} := fun x hx => ⟨lt_of_lt_of_le ha hx.1.1, hx.2⟩
  exact isPV_add haw hwb (cF.mono hs) (cG.mono hs) (h1 a b ha haw hwb) (h3 a b ha haw hwb)

lemma isPVHalf_zero (w : ℝ) : Spec.IsPVHalf (fun _ => 0) w 0 := by
  refine ⟨fun _ _ => 0, fun a b _ _ _ => ?_, tendsto_const_nhds⟩
  unfold Spec.IsPV
  simp

/-! ## A pole in the lower half plane -/

/-- `A/(s - ix) + B/(s - ix)²`, the response to `t ↦ (A + B t) e^(-st)`. -/
noncomputable def kkPole (A B s : ℂ) (x : ℝ) : ℂ := A / (s - I * x) + B / (s - I * x) ^ 2

lemma sub_I_re (s : ℂ) (x : ℝ) : (s - I * x).re = s.re := by simp

lemma sub_I_ne {s : ℂ} (hs : 0 < s.re) (x : ℝ) : s - I * x ≠ 0 := fun h => by
  have := sub_I_re s x
  rw [h] at this
  simp at this
  linarith

lemma sub_I_deriv (s : ℂ) (x : ℝ) : HasDerivAt (fun y : ℝ => s - I * (y : ℂ)) (-I) x := by
  have h1 : HasDerivAt (fun y : ℝ => (y : ℂ)) 1 x := Complex.ofRealCLM.hasDerivAt
  simpa using (h1.const_mul I).const_sub s

lemma clog_sub_I_deriv {s : ℂ} (hs : 0 < s.re) (x : ℝ) : HasDerivAt (fun y : ℝ => Complex.log (s - I * (y : ℂ))) (-I / (s - I * x)) x :=
  (sub_I_deriv s x).clog_real (Or.inl (by rw [sub_I_re]; exact hs))

/-- Antiderivative of the regular part. -/
noncomputable def kkPoleAnti (Z Y D s : ℂ) (w : ℝ) (x : ℝ) : ℂ :=
  -Z * Complex.log (s - I * x) + Y * (s - I * x)⁻¹ + D * ((Real.log (x + w) : ℝ) : ℂ)

noncomputable def kkPoleReg (Z Y D s : ℂ) (w : ℝ) (x : ℝ) : ℂ :=
  Z * I / (s - I * x) + Y * I / (s - I * x) ^ 2 + D * ((1 / (x + w) : ℝ) : ℂ)

lemma kkPoleAnti_deriv (Z Y D : ℂ) {s : ℂ} (hs : 0 < s.re) (w x : ℝ) (hx : 0 < x + w) : HasDerivAt (kkPoleAnti Z Y D s w) (kkPoleReg Z Y D s w x) x := by
  have h1 := (clog_sub_I_deriv hs x).const_mul (-Z)
  have h2 := ((sub_I_deriv s x).inv (sub_I_ne hs x)).const_mul Y
  have h3 : HasDerivAt (fun y : ℝ => ((Real.log (y + w) : ℝ) : ℂ)) ((1 / (x + w) : ℝ) : ℂ) x :=
    (((hasDerivAt_id x).add_const w).log hx.ne').ofReal_comp
  refine ((h1.add h2).add (h3.const_mul D)).congr_deriv ?_
  unfold kkPoleReg
  have := sub_I_ne hs x
  field_simp

lemma kkPoleReg_continuousOn (Z Y D : ℂ) {s : ℂ} (hs : 0 < s.re) (w : ℝ) (hw : 0 < w) (S : Set ℝ) (hS : S ⊆ Set.Ioi 0) : ContinuousOn (kkPoleReg Z Y D s w) S := by
  unfold kkPoleReg
  have c1 : Continuous fun x : ℝ => s - I * (x : ℂ) := by fun_prop
  have c2 : ContinuousOn (fun x : ℝ => ((1 / (x + w) : ℝ) : ℂ)) S := by
    refine Complex.continuous_ofReal.comp_continuousOn (continuousOn_const.div (continuousOn_id.add continuousOn_const) fun x hx => ?_)
    have : 0 < x := hS hx
    positivity
  exact (((continuousOn_const.div c1.continuousOn fun x _ => sub_I_ne hs x)).add
    (continuousOn_const.div (c1.pow 2).continuousOn fun x _ => pow_ne_zero 2 (sub_I_ne hs x))).add (continuousOn_const.mul c2)

/-- Partial fractions. -/
lemma kkPole_split (A B σ : ℂ) {s : ℂ} (hs : 0 < s.re) (w x : ℝ) (hw : 0 < w) (hx : 0 < x) (hne : x ≠ w) :
    kkPole A B s x / (x - w) + σ * (kkPole A B s x / (x + w)) =
      kkPole A B s w * ((1 / (x - w) : ℝ) : ℂ) +
        kkPoleReg (kkPole A B s w + σ * kkPole A B s (-w)) (B / (s - I * w) + σ * (B / (s - I * (-w : ℝ)))) (σ * kkPole A B s (-w)) s w x := by
  have h1 := sub_I_ne hs x
  have h2 := sub_I_ne hs w
  have h3 := sub_I_ne hs (-w)
  have h4 : (x : ℂ) - w ≠ 0 := by
    rw [← Complex.ofReal_sub]
    exact Complex.ofReal_ne_zero.2 (sub_ne_zero.2 hne)
  have h5 : (x : ℂ) + w ≠ 0 := by
    rw [← Complex.ofReal_add]
    exact Complex.ofReal_ne_zero.2 (by positivity)
  have e1 : kkPole A B s x / (x - w) = kkPole A B s w / (x - w) + kkPole A B s w * I / (s - I * x) + B / (s - I * w) * I / (s - I * x) ^ 2 := by
    have e : (x : ℂ) - w = I * ((s - I * x) - (s - I * w)) := by
      ring_nf
      rw [Complex.I_sq]; ring
    unfold kkPole
    rw [e] at h4 ⊢
    generalize s - I * x = u at *
    generalize s - I * w = v at *
    have h6 : u - v ≠ 0 := fun h => h4 (by rw [h, mul_zero])
    have h7 := Complex.I_ne_zero
    field_simp
    rw [Complex.I_sq]
    ring
  have e2 : kkPole A B s x / (x + w) = kkPole A B s (-w) / (x + w) + kkPole A B s (-w) * I / (s - I * x) + B / (s - I * (-w : ℝ)) * I / (s - I * x) ^ 2 := by
    have e : (x : ℂ) + w = I * ((s - I * x) - (s - I * (-w : ℝ))) := by
      push_cast
      ring_nf
      rw [Complex.I_sq]; ring
    unfold kkPole
    rw [e] at h5 ⊢
    generalize s - I * x = u at *
    generalize s - I * (-w : ℝ) = v at *
    have h6 : u - v ≠ 0 := fun h => h5 (by rw [h, mul_zero])
    have h7 := Complex.I_ne_zero
    field_simp
    rw [Complex.I_sq]
    ring
  rw [e1, e2]
  unfold kkPoleReg
  push_cast
  ring

/-- The complex value on `[a, b]`. -/
noncomputable def kkPoleVal (c Z Y D s : ℂ) (w a b : ℝ) : ℂ := c * ((Real.log ((b - w) / (w - a)) : ℝ) : ℂ) + (kkPoleAnti Z Y D s w b - kkPoleAnti Z Y D s w a)

lemma kkPoleVal_tendsto (c Z Y D : ℂ) {s : ℂ} (hs : 0 < s.re) (w : ℝ) (hw : 0 < w) (hZ : c + D = Z) :
    Tendsto (fun p : ℝ × ℝ => kkPoleVal c Z Y D s w p.1 p.2) (𝓝[>] 0 ×ˢ atTop)
      (𝓝 (Z * (I * (Real.pi / 2) + Complex.log s - ((Real.log w : ℝ) : ℂ)) - Y * s⁻¹)) := by
  have ta : Tendsto (fun p : ℝ × ℝ => p.1) (𝓝[>] (0 : ℝ) ×ˢ (atTop : Filter ℝ)) (𝓝 0) :=
    (nhdsWithin_le_nhds (a := (0 : ℝ)) (s := Set.Ioi 0)).trans' tendsto_fst
  have tb : Tendsto (fun p : ℝ × ℝ => p.2) (𝓝[>] (0 : ℝ) ×ˢ (atTop : Filter ℝ)) atTop := tendsto_snd
  have ea : ∀ᶠ p : ℝ × ℝ in (𝓝[>] (0 : ℝ) ×ˢ (atTop : Filter ℝ)), 0 < p.1 := tendsto_fst.eventually eventually_mem_nhdsWithin
  have ea' : ∀ᶠ p : ℝ × ℝ in (𝓝[>] (0 : ℝ) ×ˢ (atTop : Filter ℝ)), p.1 < w := ta.eventually_lt_const hw
  have eb : ∀ᶠ p : ℝ × ℝ in (𝓝[>] (0 : ℝ) ×ˢ (atTop : Filter ℝ)), w < p.2 := tb.eventually_gt_atTop w
  have tinv : Tendsto (fun p : ℝ × ℝ => (p.2)⁻¹) (𝓝[>] (0 : ℝ) ×ˢ (atTop : Filter ℝ)) (𝓝 0) := tendsto_inv_atTop_zero.comp tb
  have tcinv : Tendsto (fun p : ℝ × ℝ => (((p.2)⁻¹ : ℝ) : ℂ)) (𝓝[>] (0 : ℝ) ×ˢ (atTop : Filter ℝ)) (𝓝 0) := by
    have := (Complex.continuous_ofReal.tendsto 0).comp tinv
    rw [Complex.ofReal_zero] at this
    exact this
  have l1 : Tendsto (fun p : ℝ × ℝ => Real.log (1 - w * (p.2)⁻¹)) (𝓝[>] (0 : ℝ) ×ˢ (atTop : Filter ℝ)) (𝓝 0) := by
    have h := (tinv.const_mul w).const_sub 1
    rw [mul_zero, sub_zero] at h
    have := (Real.continuousAt_log one_ne_zero).tendsto.comp h
    rw [Real.log_one] at this
    exact this
  have l2 : Tendsto (fun p : ℝ × ℝ => Real.log (1 + w * (p.2)⁻¹)) (𝓝[>] (0 : ℝ) ×ˢ (atTop : Filter ℝ)) (𝓝 0) := by
    have h := (tinv.const_mul w).const_add 1
    rw [mul_zero, add_zero] at h
    have := (Real.continuousAt_log one_ne_zero).tendsto.comp h
    rw [Real.log_one] at this
    exact this
  have l3 : Tendsto (fun p : ℝ × ℝ => Real.log (w - p.1)) (𝓝[>] (0 : ℝ) ×ˢ (atTop : Filter ℝ)) (𝓝 (Real.log w)) := by
    have h := ta.const_sub w
    rw [sub_zero] at h
    exact (Real.continuousAt_log hw.ne').tendsto.comp h
  have l4 : Tendsto (fun p : ℝ × ℝ => Real.log (p.1 + w)) (𝓝[>] (0 : ℝ) ×ˢ (atTop : Filter ℝ)) (𝓝 (Real.log w)) := by
    have h := ta.add_const w
    rw [zero_add] at h
    exact (Real.continuousAt_log hw.ne').tendsto.comp h
  have l5 : Tendsto (fun p : ℝ × ℝ => Complex.log (s * (((p.2)⁻¹ : ℝ) : ℂ) - I)) (𝓝[>] (0 : ℝ) ×ˢ (atTop : Filter ℝ)) (𝓝 (-(Real.pi / 2) * I)) := by
    have h := (tcinv.const_mul s).sub_const I
    rw [mul_zero, zero_sub] at h
    have hm : -I ∈ Complex.slitPlane := Or.inr (by simp)
    have := (continuousAt_clog hm).tendsto.comp h
    rw [Complex.log_neg_I] at this
    exact this
  have tcs : Tendsto (fun p : ℝ × ℝ => s - I * (p.1 : ℂ)) (𝓝[>] (0 : ℝ) ×ˢ (atTop : Filter ℝ)) (𝓝 s) := by
    have h := (((Complex.continuous_ofReal.tendsto 0).comp ta).const_mul I).const_sub s
    simpa using h
  have hsm : s ∈ Complex.slitPlane := Or.inl hs
  have l6 : Tendsto (fun p : ℝ × ℝ => Complex.log (s - I * (p.1 : ℂ))) (𝓝[>] (0 : ℝ) ×ˢ (atTop : Filter ℝ)) (𝓝 (Complex.log s)) :=
    (continuousAt_clog hsm).tendsto.comp tcs
  have hs0 : s ≠ 0 := fun h => by rw [h] at hs; simp at hs
  have l7 : Tendsto (fun p : ℝ × ℝ => (s - I * (p.1 : ℂ))⁻¹) (𝓝[>] (0 : ℝ) ×ˢ (atTop : Filter ℝ)) (𝓝 s⁻¹) := tcs.inv₀ hs0
  have l8 : Tendsto (fun p : ℝ × ℝ => (((p.2)⁻¹ : ℝ) : ℂ) * (s * (((p.2)⁻¹ : ℝ) : ℂ) - I)⁻¹) (𝓝[>] (0 : ℝ) ×ˢ (atTop : Filter ℝ)) (𝓝 0) := by
    have h := (tcinv.const_mul s).sub_const I
    rw [mul_zero, zero_sub] at h
    have := tcinv.mul (h.inv₀ (neg_ne_zero.2 Complex.I_ne_zero))
    rw [zero_mul] at this
    exact this
  have k1 := (Complex.continuous_ofReal.tendsto _).comp (l1.sub l3)
  have k2 := (Complex.continuous_ofReal.tendsto _).comp (l2.sub l4)
  have key := (((k1.const_mul c).add (k2.const_mul D)).sub ((l5.sub l6).const_mul Z)).add ((l8.sub l7).const_mul Y)
  refine (key.congr' ?_).trans (le_of_eq ?_)
  · filter_upwards [ea, ea', eb] with p h1 h2 h3
    have hb : 0 < p.2 := hw.trans h3
    have e1 : Real.log ((p.2 - w) / (w - p.1)) = Real.log p.2 + (Real.log (1 - w * (p.2)⁻¹) - Real.log (w - p.1)) := by
      rw [Real.log_div (by linarith) (by linarith), show p.2 - w = p.2 * (1 - w * (p.2)⁻¹) by field_simp, Real.log_mul hb.ne']
      · ring
      · intro h0
        have : p.2 * (1 - w * (p.2)⁻¹) = p.2 - w := by field_simp
        rw [h0, mul_zero] at this
        linarith
    have e2 : Real.log (p.2 + w) = Real.log p.2 + Real.log (1 + w * (p.2)⁻¹) := by
      rw [show p.2 + w = p.2 * (1 + w * (p.2)⁻¹) by field_simp, Real.log_mul hb.ne' (by positivity)]
    have hbc : (p.2 : ℂ) ≠ 0 := Complex.ofReal_ne_zero.2 hb.ne'
    have e3 : s - I * (p.2 : ℂ) = (p.2 : ℂ) * (s * (((p.2)⁻¹ : ℝ) : ℂ) - I) := by
      push_cast
      field_simp
    have hne : s * (((p.2)⁻¹ : ℝ) : ℂ) - I ≠ 0 := fun h0 => by
      rw [h0, mul_zero] at e3
      exact sub_I_ne hs p.2 e3
    have e4 : Complex.log (s - I * (p.2 : ℂ)) = ((Real.log p.2 : ℝ) : ℂ) + Complex.log (s * (((p.2)⁻¹ : ℝ) : ℂ) - I) := by
      rw [e3, Complex.log_ofReal_mul hb hne]
    have e5 : (s - I * (p.2 : ℂ))⁻¹ = (((p.2)⁻¹ : ℝ) : ℂ) * (s * (((p.2)⁻¹ : ℝ) : ℂ) - I)⁻¹ := by
      rw [e3, mul_inv]
      push_cast
      rfl
    simp only [kkPoleVal, kkPoleAnti, Function.comp]
    rw [e1, e2, e4, e5, ← hZ]
    push_cast
    ring
  · rw [← hZ]
    push_cast
    congr 1
    ring

/-- The principal value over `(0, ∞)` for one pole. -/
lemma kkPole_half (A B σ τ : ℂ) {s : ℂ} (hs : 0 < s.re) (w : ℝ) (hw : 0 < w) :
    Spec.IsPVHalf (fun x => (τ * (kkPole A B s x / (x - w) + σ * (kkPole A B s x / (x + w)))).re) w
      (τ * ((kkPole A B s w + σ * kkPole A B s (-w)) * (I * (Real.pi / 2) + Complex.log s - ((Real.log w : ℝ) : ℂ)) -
        (B / (s - I * w) + σ * (B / (s - I * (-w : ℝ)))) * s⁻¹)).re := by
  set c := kkPole A B s w
  set D := σ * kkPole A B s (-w)
  set Y := B / (s - I * w) + σ * (B / (s - I * (-w : ℝ)))
  refine ⟨fun a b => (τ * kkPoleVal c (c + D) Y D s w a b).re, fun a b ha haw hwb => ?_, ?_⟩
  · have h := isPV_antideriv (F := fun x => (τ * (kkPole A B s x / (x - w) + σ * (kkPole A B s x / (x + w)))).re)
      (Φ := fun x => (τ * kkPoleAnti (c + D) Y D s w x).re) (φ := fun x => (τ * kkPoleReg (c + D) Y D s w x).re) (c := (τ * c).re) haw hwb ?_ ?_ ?_
    · have e : (τ * kkPoleVal c (c + D) Y D s w a b).re = (τ * c).re * Real.log ((b - w) / (w - a)) +
          ((τ * kkPoleAnti (c + D) Y D s w b).re - (τ * kkPoleAnti (c + D) Y D s w a).re) := by
        unfold kkPoleVal
        rw [mul_add, mul_sub, Complex.add_re, Complex.sub_re, ← mul_assoc, Complex.re_mul_ofReal]
      rw [← e] at h
      exact h
    · exact Complex.continuous_re.comp_continuousOn (continuousOn_const.mul
        (kkPoleReg_continuousOn _ _ _ hs w hw _ fun x hx => lt_of_lt_of_le ha hx.1))
    · intro x hx
      have hd := (kkPoleAnti_deriv (c + D) Y D hs w x (by linarith [hx.1])).const_mul τ
      exact (Complex.reCLM.hasFDerivAt.comp_hasDerivAt x hd)
    · intro x h1 h2 h3
      rw [kkPole_split A B σ hs w x hw (by linarith) h3, mul_add, Complex.add_re, ← mul_assoc, Complex.re_mul_ofReal]
  · have := (kkPoleVal_tendsto c (c + D) Y D hs w hw rfl).const_mul τ
    exact (Complex.continuous_re.tendsto _).comp this

end PyElli
