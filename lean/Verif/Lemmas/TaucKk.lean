import Verif.Lemmas.PvHalf
import Verif.Spec.Dispersion
import Mathlib.Analysis.SpecialFunctions.Trigonometric.ArctanDeriv

/-! # The Kramers-Kronig integral of the Tauc-Lorentz absorption (C91)

Partial fractions of `P (x - Eg)² / (Q(x) (x² - w²))`, `Q(x) = (x² + αx + E0²)(x² - αx + E0²)`, and their antiderivative. -/

namespace PyElli

open Filter Topology MeasureTheory

/-- Parameters of one oscillator: `al = √(4 E0² - C²)`, `P = A E0 C`, `w` the energy at which the transform is taken. -/
structure TlPar where
  P : ℝ
  Eg : ℝ
  E0 : ℝ
  C : ℝ
  al : ℝ
  w : ℝ

namespace TlPar

variable (t : TlPar)

noncomputable def sp (x : ℝ) : ℝ := x ^ 2 + t.al * x + t.E0 ^ 2
noncomputable def sm (x : ℝ) : ℝ := x ^ 2 - t.al * x + t.E0 ^ 2
noncomputable def q (x : ℝ) : ℝ := t.sp x * t.sm x
noncomputable def c0 : ℝ := t.P * (t.w - t.Eg) ^ 2 / (2 * t.w * t.q t.w)
noncomputable def e0 : ℝ := -(t.P * (t.w + t.Eg) ^ 2 / (2 * t.w * t.q t.w))
noncomputable def aL : ℝ := (t.Eg ^ 2 - t.E0 ^ 2) * t.w ^ 2 + t.Eg ^ 2 * t.C ^ 2 - t.E0 ^ 2 * (t.E0 ^ 2 + 3 * t.Eg ^ 2)
noncomputable def aA : ℝ := (t.w ^ 2 - t.E0 ^ 2) * (t.E0 ^ 2 + t.Eg ^ 2) + t.Eg ^ 2 * t.C ^ 2
noncomputable def la : ℝ := -(t.P * t.aL / (4 * t.E0 ^ 2 * t.al * t.q t.w))
noncomputable def lb : ℝ := t.P * t.Eg / (2 * t.q t.w)
noncomputable def at' : ℝ := -(t.P * t.aA / (2 * t.E0 ^ 2 * t.C * t.q t.w))
noncomputable def dt : ℝ := -(2 * t.P * t.Eg * (t.w ^ 2 - (t.E0 ^ 2 - t.C ^ 2 / 2)) / (t.al * t.C * t.q t.w))

/-- The part of the antiderivative without `log |x - w|`. -/
noncomputable def reg (x : ℝ) : ℝ :=
  t.e0 * Real.log (x + t.w) + (t.la + t.lb) * Real.log (t.sp x) + (t.lb - t.la) * Real.log (t.sm x) +
    (t.at' + t.dt) * Real.arctan ((2 * x + t.al) / t.C) + (t.at' - t.dt) * Real.arctan ((2 * x - t.al) / t.C)

noncomputable def regD (x : ℝ) : ℝ :=
  t.e0 * (1 / (x + t.w)) + (t.la + t.lb) * ((2 * x + t.al) / t.sp x) + (t.lb - t.la) * ((2 * x - t.al) / t.sm x) +
    (t.at' + t.dt) * (t.C / (2 * t.sp x)) + (t.at' - t.dt) * (t.C / (2 * t.sm x))

/-- Underdamped, positive parameters. -/
structure Good : Prop where
  hE0 : 0 < t.E0
  hC : 0 < t.C
  hal : 0 < t.al
  hal2 : t.al ^ 2 = 4 * t.E0 ^ 2 - t.C ^ 2
  hw : 0 < t.w

variable {t}

lemma sp_pos (h : t.Good) (x : ℝ) : 0 < t.sp x := by
  have h1 := h.hal2
  have := h.hC
  unfold sp
  nlinarith [sq_nonneg (x + t.al / 2), sq_pos_of_pos this]

lemma sm_pos (h : t.Good) (x : ℝ) : 0 < t.sm x := by
  have h1 := h.hal2
  have := h.hC
  unfold sm
  nlinarith [sq_nonneg (x - t.al / 2), sq_pos_of_pos this]

lemma q_pos (h : t.Good) (x : ℝ) : 0 < t.q x := mul_pos (sp_pos h x) (sm_pos h x)

lemma q_eq (h : t.Good) (x : ℝ) : t.q x = (x ^ 2 - t.E0 ^ 2) ^ 2 + t.C ^ 2 * x ^ 2 := by
  unfold q sp sm
  linear_combination (-x ^ 2) * h.hal2

lemma split (h : t.Good) (x : ℝ) (hx : 0 < x) (hne : x ≠ t.w) :
    t.P * (x - t.Eg) ^ 2 / (t.q x * (x ^ 2 - t.w ^ 2)) = t.c0 * (1 / (x - t.w)) + t.regD x := by
  have h1 := (sp_pos h x).ne'
  have h2 := (sm_pos h x).ne'
  have h3 := (sp_pos h t.w).ne'
  have h4 := (sm_pos h t.w).ne'
  have hw := h.hw
  have hw' := hw.ne'
  have h5 : x - t.w ≠ 0 := sub_ne_zero.2 hne
  have h6 : x + t.w ≠ 0 := by positivity
  have h7 : x ^ 2 - t.w ^ 2 ≠ 0 := by rw [show x ^ 2 - t.w ^ 2 = (x - t.w) * (x + t.w) by ring]; exact mul_ne_zero h5 h6
  have hal := h.hal.ne'
  have hE := h.hE0.ne'
  have hC := h.hC.ne'
  have hC2 : t.C ^ 2 = 4 * t.E0 ^ 2 - t.al ^ 2 := by linarith [h.hal2]
  have e1 : (t.at' + t.dt) * (t.C / (2 * t.sp x)) + (t.at' - t.dt) * (t.C / (2 * t.sm x)) =
      -(t.P * t.aA / (4 * t.E0 ^ 2 * t.q t.w)) * (1 / t.sp x + 1 / t.sm x) -
        t.P * t.Eg * (t.w ^ 2 - (t.E0 ^ 2 - t.C ^ 2 / 2)) / (t.al * t.q t.w) * (1 / t.sp x - 1 / t.sm x) := by
    unfold at' dt q
    field_simp
    ring
  unfold regD
  rw [add_assoc _ ((t.at' + t.dt) * _) _, e1]
  rw [show x ^ 2 - t.w ^ 2 = (x - t.w) * (x + t.w) by ring]
  unfold c0 e0 la lb aL aA q
  rw [hC2]
  obtain ⟨s1, e2⟩ : ∃ y, y = t.sp x := ⟨_, rfl⟩
  obtain ⟨s2, e3⟩ : ∃ y, y = t.sm x := ⟨_, rfl⟩
  obtain ⟨s3, e4⟩ : ∃ y, y = t.sp t.w := ⟨_, rfl⟩
  obtain ⟨s4, e5⟩ : ∃ y, y = t.sm t.w := ⟨_, rfl⟩
  obtain ⟨u, e6⟩ : ∃ y, y = x - t.w := ⟨_, rfl⟩
  obtain ⟨v, e7⟩ : ∃ y, y = x + t.w := ⟨_, rfl⟩
  rw [← e2] at h1 ⊢
  rw [← e3] at h2 ⊢
  rw [← e4] at h3 ⊢
  rw [← e5] at h4 ⊢
  rw [← e6] at h5 ⊢
  rw [← e7] at h6 ⊢
  field_simp
  rw [e2, e3, e4, e5, e6, e7]
  unfold sp sm
  ring

lemma reg_deriv (h : t.Good) (x : ℝ) (hx : 0 ≤ x) : HasDerivAt t.reg (t.regD x) x := by
  have hw := h.hw
  have hC := h.hC
  have i := hasDerivAt_id' x
  have d1 : HasDerivAt (fun x => Real.log (x + t.w)) (1 / (x + t.w)) x := (i.add_const t.w).log (by positivity)
  have d2 : HasDerivAt t.sp (2 * x + t.al) x := by
    refine (((i.pow 2).add (i.const_mul t.al)).add_const (t.E0 ^ 2)).congr_deriv ?_
    ring
  have d3 : HasDerivAt t.sm (2 * x - t.al) x := by
    refine (((i.pow 2).sub (i.const_mul t.al)).add_const (t.E0 ^ 2)).congr_deriv ?_
    ring
  have d4 := d2.log (sp_pos h x).ne'
  have d5 := d3.log (sm_pos h x).ne'
  have d6 : HasDerivAt (fun x => Real.arctan ((2 * x + t.al) / t.C)) (t.C / (2 * t.sp x)) x := by
    have := (((i.const_mul 2).add_const t.al).div_const t.C).arctan
    refine this.congr_deriv ?_
    have h1 := (sp_pos h x).ne'
    have h2 : t.C ^ 2 + (2 * x + t.al) ^ 2 = 4 * t.sp x := by unfold sp; linear_combination h.hal2
    rw [show 1 + ((2 * x + t.al) / t.C) ^ 2 = (t.C ^ 2 + (2 * x + t.al) ^ 2) / t.C ^ 2 by field_simp, h2]
    field_simp
    ring
  have d7 : HasDerivAt (fun x => Real.arctan ((2 * x - t.al) / t.C)) (t.C / (2 * t.sm x)) x := by
    have := (((i.const_mul 2).sub_const t.al).div_const t.C).arctan
    refine this.congr_deriv ?_
    have h1 := (sm_pos h x).ne'
    have h2 : t.C ^ 2 + (2 * x - t.al) ^ 2 = 4 * t.sm x := by unfold sm; linear_combination h.hal2
    rw [show 1 + ((2 * x - t.al) / t.C) ^ 2 = (t.C ^ 2 + (2 * x - t.al) ^ 2) / t.C ^ 2 by field_simp, h2]
    field_simp
    ring
  exact ((((d1.const_mul t.e0).add (d4.const_mul _)).add (d5.const_mul _)).add (d6.const_mul _)).add (d7.const_mul _)

lemma regD_continuousOn (h : t.Good) : ContinuousOn t.regD (Set.Ioi 0) := by
  have hw := h.hw
  have csp : Continuous t.sp := by unfold sp; fun_prop
  have csm : Continuous t.sm := by unfold sm; fun_prop
  have c1 : ContinuousOn (fun x : ℝ => 1 / (x + t.w)) (Set.Ioi 0) :=
    continuousOn_const.div (continuousOn_id.add continuousOn_const) fun x hx => by
      have : 0 < x := hx
      positivity
  have c2 : Continuous fun x : ℝ => (2 * x + t.al) / t.sp x := Continuous.div (by fun_prop) csp fun x => (sp_pos h x).ne'
  have c3 : Continuous fun x : ℝ => (2 * x - t.al) / t.sm x := Continuous.div (by fun_prop) csm fun x => (sm_pos h x).ne'
  have c4 : Continuous fun x : ℝ => t.C / (2 * t.sp x) := continuous_const.div (csp.const_smul 2 |>.congr fun x => by simp) fun x => by
    have := sp_pos h x
    positivity
  have c5 : Continuous fun x : ℝ => t.C / (2 * t.sm x) := continuous_const.div (csm.const_smul 2 |>.congr fun x => by simp) fun x => by
    have := sm_pos h x
    positivity
  exact ((((continuousOn_const.mul c1).add (continuousOn_const.mul c2.continuousOn)).add (continuousOn_const.mul c3.continuousOn)).add
    (continuousOn_const.mul c4.continuousOn)).add (continuousOn_const.mul c5.continuousOn)

/-- Limit of the antiderivative at infinity. -/
lemma tail (h : t.Good) : Tendsto (fun b : ℝ => t.c0 * Real.log (b - t.w) + t.reg b) atTop (𝓝 (t.at' * Real.pi)) := by
  have hw := h.hw
  have tinv : Tendsto (fun b : ℝ => b⁻¹) atTop (𝓝 0) := tendsto_inv_atTop_zero
  have lg : ∀ (p r : ℝ), Tendsto (fun b : ℝ => Real.log (1 + p * b⁻¹ + r * (b⁻¹) ^ 2)) atTop (𝓝 0) := by
    intro p r
    have h1 := ((tinv.const_mul p).const_add 1).add ((tinv.pow 2).const_mul r)
    have e : 1 + p * 0 + r * (0 : ℝ) ^ 2 = 1 := by ring
    rw [e] at h1
    have := (Real.continuousAt_log one_ne_zero).tendsto.comp h1
    rw [Real.log_one] at this
    exact this
  have ta : ∀ r : ℝ, Tendsto (fun b : ℝ => Real.arctan ((2 * b + r) / t.C)) atTop (𝓝 (Real.pi / 2)) := by
    intro r
    have h1 : Tendsto (fun b : ℝ => (2 * b + r) / t.C) atTop atTop :=
      (tendsto_atTop_add_const_right _ _ (tendsto_id.const_mul_atTop (by norm_num : (0 : ℝ) < 2))).atTop_div_const h.hC
    exact (Real.tendsto_arctan_atTop.comp h1).mono_right nhdsWithin_le_nhds
  have key := (((((lg (-t.w) 0).const_mul t.c0).add ((lg t.w 0).const_mul t.e0)).add
    (((lg t.al (t.E0 ^ 2)).const_mul (t.la + t.lb)).add ((lg (-t.al) (t.E0 ^ 2)).const_mul (t.lb - t.la)))).add
    ((ta t.al).const_mul (t.at' + t.dt))).add ((ta (-t.al)).const_mul (t.at' - t.dt))
  have e : t.c0 * 0 + t.e0 * 0 + ((t.la + t.lb) * 0 + (t.lb - t.la) * 0) + (t.at' + t.dt) * (Real.pi / 2) + (t.at' - t.dt) * (Real.pi / 2) = t.at' * Real.pi := by ring
  rw [e] at key
  refine key.congr' ?_
  filter_upwards [eventually_gt_atTop t.w] with b hb
  have hb0 : 0 < b := hw.trans hb
  have e1 : Real.log (b - t.w) = Real.log b + Real.log (1 + -t.w * b⁻¹ + 0 * b⁻¹ ^ 2) := by
    have : b - t.w = b * (1 + -t.w * b⁻¹ + 0 * b⁻¹ ^ 2) := by field_simp; ring
    rw [← Real.log_mul hb0.ne', ← this]
    intro h0
    rw [h0, mul_zero] at this
    linarith
  have e2 : Real.log (b + t.w) = Real.log b + Real.log (1 + t.w * b⁻¹ + 0 * b⁻¹ ^ 2) := by
    have : b + t.w = b * (1 + t.w * b⁻¹ + 0 * b⁻¹ ^ 2) := by field_simp; ring
    rw [← Real.log_mul hb0.ne', ← this]
    intro h0
    rw [h0, mul_zero] at this
    linarith
  have e3 : Real.log (t.sp b) = 2 * Real.log b + Real.log (1 + t.al * b⁻¹ + t.E0 ^ 2 * b⁻¹ ^ 2) := by
    have : t.sp b = b ^ 2 * (1 + t.al * b⁻¹ + t.E0 ^ 2 * b⁻¹ ^ 2) := by unfold sp; field_simp
    have hp := sp_pos h b
    rw [this, Real.log_mul (by positivity), Real.log_pow]
    · push_cast; ring
    · intro h0
      rw [h0, mul_zero] at this
      linarith
  have e4 : Real.log (t.sm b) = 2 * Real.log b + Real.log (1 + -t.al * b⁻¹ + t.E0 ^ 2 * b⁻¹ ^ 2) := by
    have : t.sm b = b ^ 2 * (1 + -t.al * b⁻¹ + t.E0 ^ 2 * b⁻¹ ^ 2) := by unfold sm; field_simp; ring
    have hp := sm_pos h b
    rw [this, Real.log_mul (by positivity), Real.log_pow]
    · push_cast; ring
    · intro h0
      rw [h0, mul_zero] at this
      linarith
  have e5 : t.c0 + t.e0 + 4 * t.lb = 0 := by
    unfold c0 e0 lb
    have := (q_pos h t.w).ne'
    have := hw.ne'
    field_simp
    ring
  unfold reg
  rw [e1, e2, e3, e4]
  have e6 : (2 * b - t.al) = 2 * b + -t.al := by ring
  rw [e6]
  linear_combination (-Real.log b) * e5

/-! ## The integral over the half line -/

lemma isPV_extend {F : ℝ → ℝ} {a a' w b v : ℝ} (haa : a ≤ a') (haw : a' < w) (hwb : w < b) (h0 : ∀ x, a ≤ x → x ≤ a' → F x = 0)
    (hc : ContinuousOn F (Set.Icc a' b \ {w})) (hF : Spec.IsPV F a' w b v) : Spec.IsPV F a w b v := by
  refine Tendsto.congr' ?_ hF
  filter_upwards [Ioo_mem_nhdsGT (sub_pos.2 haw)] with d hd
  congr 1
  have hd2 : d < w - a' := hd.2
  have hd1 : 0 < d := hd.1
  have i1 : IntervalIntegrable F volume a a' := by
    refine (ContinuousOn.intervalIntegrable (u := fun _ : ℝ => (0 : ℝ)) continuousOn_const).congr fun x hx => ?_
    rw [Set.uIoc_of_le haa] at hx
    exact (h0 x hx.1.le hx.2).symm
  have i2 : IntervalIntegrable F volume a' (w - d) := by
    refine ContinuousOn.intervalIntegrable (hc.mono ?_)
    rw [Set.uIcc_of_le (by linarith)]
    exact fun x hx => ⟨⟨hx.1, by linarith [hx.2]⟩, ne_of_lt (by linarith [hx.2])⟩
  rw [← intervalIntegral.integral_add_adjacent_intervals i1 i2]
  have : ∫ x in a..a', F x = ∫ _ in a..a', (0 : ℝ) := by
    refine intervalIntegral.integral_congr fun x hx => ?_
    rw [Set.uIcc_of_le haa] at hx
    exact h0 x hx.1 hx.2
  rw [this]
  simp

/-- The integrand: zero below the gap. -/
noncomputable def gapped (x : ℝ) : ℝ := t.P * (max (x - t.Eg) 0) ^ 2 / (t.q x * (x ^ 2 - t.w ^ 2))

lemma gapped_below {x : ℝ} (hx : x ≤ t.Eg) : t.gapped x = 0 := by
  unfold gapped
  rw [max_eq_right (by linarith)]
  simp

lemma gapped_above (h : t.Good) {x : ℝ} (hx : t.Eg ≤ x) (h0 : 0 < x) (hne : x ≠ t.w) : t.gapped x = t.c0 * (1 / (x - t.w)) + t.regD x := by
  unfold gapped
  rw [max_eq_left (by linarith), split h x h0 hne]

lemma q_continuous : Continuous t.q := by unfold q sp sm; fun_prop

lemma gapped_continuousOn (h : t.Good) : ContinuousOn t.gapped (Set.Ioi 0 \ {t.w}) := by
  have hw := h.hw
  unfold gapped
  refine ContinuousOn.div (by fun_prop) (q_continuous.mul (by fun_prop)).continuousOn fun x hx => ?_
  have h0 : 0 < x := hx.1
  rw [show x ^ 2 - t.w ^ 2 = (x - t.w) * (x + t.w) by ring]
  exact mul_ne_zero (q_pos h x).ne' (mul_ne_zero (sub_ne_zero.2 hx.2) (by positivity))

lemma gapped_continuous (h : t.Good) (hlt : t.w < t.Eg) : Continuous t.gapped := by
  have hw := h.hw
  have e : t.gapped = fun x => t.P * (max (x - t.Eg) 0) ^ 2 / (t.q x * ((max x t.Eg) ^ 2 - t.w ^ 2)) := by
    funext x
    rcases le_total x t.Eg with hx | hx
    · rw [gapped_below hx, max_eq_right (by linarith)]
      simp
    · unfold gapped
      rw [max_eq_left hx]
  rw [e]
  refine Continuous.div (by fun_prop) (q_continuous.mul (by fun_prop)) fun x => mul_ne_zero (q_pos h x).ne' ?_
  have : t.Eg ≤ max x t.Eg := le_max_right _ _
  nlinarith

lemma gapped_half (h : t.Good) (hEg : 0 ≤ t.Eg) (hne : t.w ≠ t.Eg) :
    Spec.IsPVHalf t.gapped t.w (t.at' * Real.pi - (t.c0 * Real.log |t.w - t.Eg| + t.reg t.Eg)) := by
  have hw := h.hw
  have ta : Tendsto (fun p : ℝ × ℝ => p.1) (𝓝[>] (0 : ℝ) ×ˢ (atTop : Filter ℝ)) (𝓝 0) :=
    (nhdsWithin_le_nhds (a := (0 : ℝ)) (s := Set.Ioi 0)).trans' tendsto_fst
  have tb : Tendsto (fun p : ℝ × ℝ => p.2) (𝓝[>] (0 : ℝ) ×ˢ (atTop : Filter ℝ)) atTop := tendsto_snd
  have tt := (tail h).comp tb
  rcases lt_or_gt_of_ne hne with hlt | hgt
  · -- below the gap
    have cG := gapped_continuous h hlt
    have hEg0 : 0 < t.Eg := hw.trans hlt
    have hI : ∀ x, HasDerivAt (fun y => ∫ u in t.Eg..y, t.gapped u) (t.gapped x) x := fun x => cG.integral_hasStrictDerivAt _ _ |>.hasDerivAt
    refine ⟨fun a b => (∫ u in t.Eg..b, t.gapped u) - ∫ u in t.Eg..a, t.gapped u, fun a b ha haw hwb => ?_, ?_⟩
    · have := isPV_antideriv (F := t.gapped) (c := 0) haw hwb cG.continuousOn (fun x _ => hI x) (fun x _ _ _ => by ring)
      rw [zero_mul, zero_add] at this
      exact this
    · have e1 : ∀ᶠ p : ℝ × ℝ in (𝓝[>] (0 : ℝ) ×ˢ (atTop : Filter ℝ)), ∫ u in t.Eg..p.1, t.gapped u = 0 := by
        filter_upwards [ta.eventually (gt_mem_nhds hEg0)] with p hp
        rw [intervalIntegral.integral_congr (g := fun _ => (0 : ℝ))]
        · simp
        · intro x hx
          rw [Set.uIcc_of_ge hp.le] at hx
          exact gapped_below hx.2
      have e2 : ∀ᶠ p : ℝ × ℝ in (𝓝[>] (0 : ℝ) ×ˢ (atTop : Filter ℝ)), ∫ u in t.Eg..p.2, t.gapped u =
          t.c0 * Real.log (p.2 - t.w) + t.reg p.2 - (t.c0 * Real.log (t.Eg - t.w) + t.reg t.Eg) := by
        filter_upwards [tb.eventually (eventually_gt_atTop t.Eg)] with p hp
        refine intervalIntegral.integral_eq_sub_of_hasDerivAt (f := fun x => t.c0 * Real.log (x - t.w) + t.reg x) (fun x hx => ?_) (cG.intervalIntegrable _ _)
        rw [Set.uIcc_of_le hp.le] at hx
        have hx1 := hx.1
        have hx0 : 0 < x := by linarith
        rw [gapped_above h hx1 hx0 (ne_of_gt (by linarith))]
        exact ((((hasDerivAt_id' x).sub_const t.w).log (sub_ne_zero.2 (ne_of_gt (by linarith)))).const_mul t.c0).add (reg_deriv h x hx0.le)
      rw [show |t.w - t.Eg| = t.Eg - t.w by rw [abs_sub_comm]; exact abs_of_pos (sub_pos.2 hlt)]
      refine (tt.sub_const _).congr' ?_
      filter_upwards [e1, e2] with p h1 h2
      rw [h1, h2, sub_zero]
      rfl
  · -- above the gap
    refine ⟨fun a b => t.c0 * Real.log ((b - t.w) / (t.w - max a t.Eg)) + (t.reg b - t.reg (max a t.Eg)), fun a b ha haw hwb => ?_, ?_⟩
    · rcases le_total t.Eg a with hE | hE
      · have hs : Set.Icc a b ⊆ Set.Ioi 0 := fun x hx => lt_of_lt_of_le ha hx.1
        simp only [max_eq_left hE]
        exact isPV_antideriv haw hwb ((regD_continuousOn h).mono hs) (fun x hx => reg_deriv h x (le_of_lt (hs hx)))
          fun x h1 _ h3 => gapped_above h (hE.trans h1) (lt_of_lt_of_le ha h1) h3
      · have hs : Set.Icc t.Eg b ⊆ Set.Ioi 0 := fun x hx => lt_of_lt_of_le ha (hE.trans hx.1)
        simp only [max_eq_right hE]
        refine isPV_extend hE hgt hwb (fun x _ h2 => gapped_below h2) ?_
          (isPV_antideriv hgt hwb ((regD_continuousOn h).mono hs) (fun x hx => reg_deriv h x (le_of_lt (hs hx))) ?_)
        · exact (gapped_continuousOn h).mono fun x hx => ⟨hs hx.1, hx.2⟩
        · intro x h1 _ h3
          exact gapped_above h h1 (lt_of_lt_of_le ha (hE.trans h1)) h3
    · have tm : Tendsto (fun p : ℝ × ℝ => max p.1 t.Eg) (𝓝[>] (0 : ℝ) ×ˢ (atTop : Filter ℝ)) (𝓝 t.Eg) := by
        have := ta.max (tendsto_const_nhds (x := t.Eg))
        rw [max_eq_right hEg] at this
        exact this
      have t1 : Tendsto (fun p : ℝ × ℝ => t.reg (max p.1 t.Eg)) (𝓝[>] (0 : ℝ) ×ˢ (atTop : Filter ℝ)) (𝓝 (t.reg t.Eg)) :=
        (reg_deriv h t.Eg hEg).continuousAt.tendsto.comp tm
      have t2 : Tendsto (fun p : ℝ × ℝ => Real.log (t.w - max p.1 t.Eg)) (𝓝[>] (0 : ℝ) ×ˢ (atTop : Filter ℝ)) (𝓝 (Real.log (t.w - t.Eg))) :=
        (Real.continuousAt_log (sub_pos.2 hgt).ne').tendsto.comp (tm.const_sub t.w)
      rw [abs_of_pos (sub_pos.2 hgt)]
      refine (tt.sub ((t2.const_mul t.c0).add t1)).congr' ?_
      filter_upwards [ta.eventually (gt_mem_nhds hw), tb.eventually (eventually_gt_atTop t.w)] with p h1 h2
      have h3 : max p.1 t.Eg < t.w := max_lt h1 hgt
      rw [Real.log_div (sub_pos.2 h2).ne' (sub_pos.2 h3).ne']
      simp only [Function.comp]
      ring

end TlPar

end PyElli
