import Verif.Lemmas.Dirichlet
import Verif.Lemmas.PvHalf

/-! # The Kramers-Kronig relations for an integrable causal kernel (C90) -/

namespace PyElli

open Filter Topology MeasureTheory

/-- `∫ cos(ut)/u du` and `∫ sin(ut)/u du`. -/
noncomputable def ecI (t α β : ℝ) : ℝ := ∫ u in α..β, Real.cos (u * t) / u
noncomputable def esI (t α β : ℝ) : ℝ := ∫ u in α..β, Real.sin (u * t) / u

lemma trig_ii (h : ℝ → ℝ) (hh : Continuous h) (t : ℝ) {α β : ℝ} (hα : 0 < α) (hβ : 0 < β) : IntervalIntegrable (fun u => h (u * t) / u) volume α β := by
  refine ContinuousOn.intervalIntegrable ?_
  refine ContinuousOn.div (hh.comp (by fun_prop)).continuousOn continuousOn_id fun u hu => ?_
  have : min α β ≤ u := hu.1
  have : 0 < min α β := lt_min hα hβ
  exact ne_of_gt (by linarith)

lemma ecI_add (t : ℝ) {α β γ : ℝ} (h1 : 0 < α) (h2 : 0 < β) (h3 : 0 < γ) : ecI t α β + ecI t β γ = ecI t α γ :=
  intervalIntegral.integral_add_adjacent_intervals (trig_ii _ Real.continuous_cos t h1 h2) (trig_ii _ Real.continuous_cos t h2 h3)

lemma esI_add (t : ℝ) {α β γ : ℝ} (h1 : 0 < α) (h2 : 0 < β) (h3 : 0 < γ) : esI t α β + esI t β γ = esI t α γ :=
  intervalIntegral.integral_add_adjacent_intervals (trig_ii _ Real.continuous_sin t h1 h2) (trig_ii _ Real.continuous_sin t h2 h3)

lemma trig_bound (h : ℝ → ℝ) (hb : ∀ x, |h x| ≤ 1) (t : ℝ) {α β : ℝ} (hα : 0 < α) (hαβ : α ≤ β) : |∫ u in α..β, h (u * t) / u| ≤ Real.log (β / α) := by
  rw [← integral_one_div_of_pos hα (hα.trans_le hαβ), ← Real.norm_eq_abs]
  refine intervalIntegral.norm_integral_le_of_norm_le hαβ ?_ ?_
  · refine Eventually.of_forall fun u hu => ?_
    have hu0 : 0 < u := hα.trans hu.1
    rw [norm_div, Real.norm_eq_abs, Real.norm_eq_abs, abs_of_pos hu0]
    exact div_le_div_of_nonneg_right (hb _) hu0.le
  · refine ContinuousOn.intervalIntegrable (continuousOn_const.div continuousOn_id fun u hu => ?_)
    rw [Set.uIcc_of_le hαβ] at hu
    exact ne_of_gt (hα.trans_le hu.1)

lemma ecI_bound (t : ℝ) {α β : ℝ} (hα : 0 < α) (hαβ : α ≤ β) : |ecI t α β| ≤ Real.log (β / α) := trig_bound _ Real.abs_cos_le_one t hα hαβ
lemma esI_bound (t : ℝ) {α β : ℝ} (hα : 0 < α) (hαβ : α ≤ β) : |esI t α β| ≤ Real.log (β / α) := trig_bound _ Real.abs_sin_le_one t hα hαβ

lemma esI_eq (t : ℝ) (ht : 0 < t) {α β : ℝ} (hα : 0 < α) (hαβ : α ≤ β) : esI t α β = sinInt (β * t) - sinInt (α * t) := by
  have h1 : sinInt (β * t) - sinInt (α * t) = ∫ u in (α * t)..(β * t), Real.sinc u := by
    unfold sinInt
    rw [intervalIntegral.integral_interval_sub_left] <;> exact Real.continuous_sinc.intervalIntegrable _ _
  rw [h1, ← intervalIntegral.smul_integral_comp_mul_right, smul_eq_mul, ← intervalIntegral.integral_const_mul]
  refine intervalIntegral.integral_congr fun u hu => ?_
  rw [Set.uIcc_of_le hαβ] at hu
  have hu0 : 0 < u := hα.trans_le hu.1
  have : u * t ≠ 0 := by positivity
  rw [Real.sinc_of_ne_zero this]
  field_simp

/-- The kernel of the two relations after splitting into the poles at `w` and `-w`. -/
noncomputable def kkKer (C S t w x : ℝ) : ℝ :=
  (C * (Real.cos ((x - w) * t) / (x - w) - Real.cos ((x + w) * t) / (x + w)) + S * (Real.sin ((x - w) * t) / (x - w) + Real.sin ((x + w) * t) / (x + w))) / 2

/-- Its integral outside a gap of half width `d`. -/
noncomputable def kkGap (C S t w a b d : ℝ) : ℝ :=
  (C * (ecI t (w - a) (w + a) - ecI t (b - w) (b + w) + ecI t (2 * w - d) (2 * w + d)) +
    S * (esI t d (b - w) + esI t d (b + w) - esI t (w - a) (w + a) - esI t (2 * w - d) (2 * w + d))) / 2

lemma ker_ii (C S t w : ℝ) {α β : ℝ} (hα : 0 < α) (hαβ : α ≤ β) (h : w ∉ Set.Icc α β) (hw : 0 < w) : ContinuousOn (kkKer C S t w) (Set.Icc α β) := by
  have c1 : ContinuousOn (fun x : ℝ => x - w) (Set.Icc α β) := by fun_prop
  have c2 : ContinuousOn (fun x : ℝ => x + w) (Set.Icc α β) := by fun_prop
  have n1 : ∀ x ∈ Set.Icc α β, x - w ≠ 0 := fun x hx h0 => h (by rwa [sub_eq_zero.1 h0] at hx)
  have n2 : ∀ x ∈ Set.Icc α β, x + w ≠ 0 := fun x hx => ne_of_gt (by linarith [hx.1])
  unfold kkKer
  refine ContinuousOn.div_const ((continuousOn_const.mul (ContinuousOn.sub ?_ ?_)).add (continuousOn_const.mul (ContinuousOn.add ?_ ?_))) 2
  · exact ContinuousOn.div (by fun_prop) c1 n1
  · exact ContinuousOn.div (by fun_prop) c2 n2
  · exact ContinuousOn.div (by fun_prop) c1 n1
  · exact ContinuousOn.div (by fun_prop) c2 n2

lemma shift_sub (f : ℝ → ℝ) (w α β : ℝ) : ∫ x in α..β, f (x - w) = ∫ u in (α - w)..(β - w), f u := intervalIntegral.integral_comp_sub_right _ _
lemma shift_add (f : ℝ → ℝ) (w α β : ℝ) : ∫ x in α..β, f (x + w) = ∫ u in (α + w)..(β + w), f u := intervalIntegral.integral_comp_add_right _ _

lemma piece (C S t w : ℝ) {α β : ℝ} (hα : 0 < α) (hαβ : α ≤ β) (h : w ∉ Set.Icc α β) (hw : 0 < w) :
    ∫ x in α..β, kkKer C S t w x =
      (C * ((∫ u in (α - w)..(β - w), Real.cos (u * t) / u) - ecI t (α + w) (β + w)) + S * ((∫ u in (α - w)..(β - w), Real.sin (u * t) / u) + esI t (α + w) (β + w))) / 2 := by
  have c1 : ContinuousOn (fun x : ℝ => x - w) (Set.Icc α β) := by fun_prop
  have c2 : ContinuousOn (fun x : ℝ => x + w) (Set.Icc α β) := by fun_prop
  have n1 : ∀ x ∈ Set.Icc α β, x - w ≠ 0 := fun x hx h0 => h (by rwa [sub_eq_zero.1 h0] at hx)
  have n2 : ∀ x ∈ Set.Icc α β, x + w ≠ 0 := fun x hx => ne_of_gt (by linarith [hx.1])
  have ii : ∀ f : ℝ → ℝ, ContinuousOn f (Set.Icc α β) → IntervalIntegrable f volume α β := fun f hf => ContinuousOn.intervalIntegrable (by rwa [Set.uIcc_of_le hαβ])
  have i1 := ii (fun x => Real.cos ((x - w) * t) / (x - w)) (ContinuousOn.div (by fun_prop) c1 n1)
  have i2 := ii (fun x => Real.cos ((x + w) * t) / (x + w)) (ContinuousOn.div (by fun_prop) c2 n2)
  have i3 := ii (fun x => Real.sin ((x - w) * t) / (x - w)) (ContinuousOn.div (by fun_prop) c1 n1)
  have i4 := ii (fun x => Real.sin ((x + w) * t) / (x + w)) (ContinuousOn.div (by fun_prop) c2 n2)
  unfold kkKer
  rw [intervalIntegral.integral_div, intervalIntegral.integral_add ((i1.sub i2).const_mul C) ((i3.add i4).const_mul S), intervalIntegral.integral_const_mul,
    intervalIntegral.integral_const_mul, intervalIntegral.integral_sub i1 i2, intervalIntegral.integral_add i3 i4]
  rw [shift_sub (fun u => Real.cos (u * t) / u), shift_sub (fun u => Real.sin (u * t) / u), shift_add (fun u => Real.cos (u * t) / u), shift_add (fun u => Real.sin (u * t) / u)]
  rfl

lemma reflect_cos (t p d : ℝ) : ∫ u in (-p)..(-d), Real.cos (u * t) / u = -ecI t d p := by
  unfold ecI
  rw [← intervalIntegral.integral_comp_neg (fun u => Real.cos (u * t) / u), ← intervalIntegral.integral_neg]
  refine intervalIntegral.integral_congr fun u _ => ?_
  simp only [neg_mul, Real.cos_neg, div_neg]

lemma reflect_sin (t p d : ℝ) : ∫ u in (-p)..(-d), Real.sin (u * t) / u = esI t d p := by
  unfold esI
  rw [← intervalIntegral.integral_comp_neg (fun u => Real.sin (u * t) / u)]
  refine intervalIntegral.integral_congr fun u _ => ?_
  simp only [neg_mul, Real.sin_neg, neg_div_neg_eq]

lemma gap_eq (C S t : ℝ) {w a b d : ℝ} (ha : 0 < a) (haw : a < w) (hwb : w < b) (hd : 0 < d) (h1 : d < w - a) (h2 : d < b - w) :
    (∫ x in a..(w - d), kkKer C S t w x) + (∫ x in (w + d)..b, kkKer C S t w x) = kkGap C S t w a b d := by
  have hw : 0 < w := ha.trans haw
  rw [piece C S t w ha (by linarith) (fun h => by linarith [h.2]) hw, piece C S t w (by linarith : 0 < w + d) (by linarith) (fun h => by linarith [h.1]) hw]
  rw [show a - w = -(w - a) by ring, show w - d - w = -d by ring, reflect_cos, reflect_sin, show w + d - w = d by ring,
    show w - d + w = 2 * w - d by ring, show w + d + w = 2 * w + d by ring]
  change (C * (-ecI t d (w - a) - ecI t (a + w) (2 * w - d)) + S * (esI t d (w - a) + esI t (a + w) (2 * w - d))) / 2 +
    (C * (ecI t d (b - w) - ecI t (2 * w + d) (b + w)) + S * (esI t d (b - w) + esI t (2 * w + d) (b + w))) / 2 = _
  unfold kkGap
  have p1 : 0 < w - a := by linarith
  have p2 : 0 < w + a := by linarith
  have p3 : 0 < b - w := by linarith
  have p4 : 0 < b + w := by linarith
  have p5 : 0 < 2 * w - d := by linarith
  have p6 : 0 < 2 * w + d := by linarith
  rw [add_comm a w]
  have c1 := ecI_add t hd p1 p2
  have c2 := ecI_add t hd p2 p5
  have c3 := ecI_add t hd p5 p6
  have c4 := ecI_add t hd p6 p4
  have c5 := ecI_add t hd p3 p4
  have s1 := esI_add t hd p1 p2
  have s2 := esI_add t hd p2 p5
  have s3 := esI_add t hd p5 p6
  have s4 := esI_add t hd p6 p4
  linear_combination C / 2 * (c5 - c1 - c2 - c3 - c4) + S / 2 * (s1 + s2 + s3 + s4)

/-! ## Limits -/

/-- The principal value of the kernel. -/
noncomputable def kkLim (C S t w a b : ℝ) : ℝ :=
  (C * (ecI t (w - a) (w + a) - ecI t (b - w) (b + w)) + S * (sinInt ((b - w) * t) + sinInt ((b + w) * t) - esI t (w - a) (w + a))) / 2

lemma log_ratio_tendsto {w : ℝ} (hw : 0 < w) : Tendsto (fun d : ℝ => Real.log ((w + d) / (w - d))) (𝓝 0) (𝓝 0) := by
  have h1 : Tendsto (fun d : ℝ => (w + d) / (w - d)) (𝓝 0) (𝓝 ((w + 0) / (w - 0))) :=
    (tendsto_id.const_add w).div (tendsto_id.const_sub w) (by simpa using hw.ne')
  rw [add_zero, sub_zero, div_self hw.ne'] at h1
  have := (Real.continuousAt_log one_ne_zero).tendsto.comp h1
  rw [Real.log_one] at this
  exact this

lemma log_ratio_atTop (w : ℝ) : Tendsto (fun b : ℝ => Real.log ((b + w) / (b - w))) atTop (𝓝 0) := by
  have ti : Tendsto (fun b : ℝ => b⁻¹) atTop (𝓝 0) := tendsto_inv_atTop_zero
  have h1 := ((ti.const_mul w).const_add 1).div ((ti.const_mul (-w)).const_add 1) (by simp)
  rw [show (1 + w * 0) / (1 + -w * 0) = (1 : ℝ) by simp] at h1
  have h2 := (Real.continuousAt_log one_ne_zero).tendsto.comp h1
  rw [Real.log_one] at h2
  refine h2.congr' ?_
  filter_upwards [eventually_gt_atTop 0, eventually_gt_atTop w] with b h0 hb
  have : b - w ≠ 0 := (sub_pos.2 hb).ne'
  have e : (1 + w * b⁻¹) / (1 + -w * b⁻¹) = (b + w) / (b - w) := by
    have n : 1 + -w * b⁻¹ ≠ 0 := by
      intro h
      field_simp at h
      exact this (by linarith)
    rw [div_eq_div_iff n this]
    field_simp
    ring
  simp only [Function.comp, Pi.div_apply, e]

lemma abs_mul_le_one {C x B : ℝ} (hC : |C| ≤ 1) (hx : |x| ≤ B) : |C * x| ≤ B := by
  rw [abs_mul]
  have := abs_nonneg x
  nlinarith [abs_nonneg C]

lemma gap_lim (C S : ℝ) {t w a b : ℝ} (ht : 0 < t) (hw : 0 < w) (hwb : w < b) : Tendsto (kkGap C S t w a b) (𝓝[>] 0) (𝓝 (kkLim C S t w a b)) := by
  have hl : Tendsto (fun d : ℝ => Real.log ((2 * w + d) / (2 * w - d))) (𝓝[>] 0) (𝓝 0) := (log_ratio_tendsto (by linarith : 0 < 2 * w)).mono_left nhdsWithin_le_nhds
  have ev : ∀ᶠ d in 𝓝[>] (0 : ℝ), d ∈ Set.Ioo 0 (min w (b - w)) := Ioo_mem_nhdsGT (lt_min hw (sub_pos.2 hwb))
  have t1 : Tendsto (fun d => ecI t (2 * w - d) (2 * w + d)) (𝓝[>] 0) (𝓝 0) := by
    refine squeeze_zero_norm' ?_ hl
    filter_upwards [ev] with d hd
    have := hd.1
    have := hd.2.trans_le (min_le_left _ _)
    exact ecI_bound t (by linarith) (by linarith)
  have t2 : Tendsto (fun d => esI t (2 * w - d) (2 * w + d)) (𝓝[>] 0) (𝓝 0) := by
    refine squeeze_zero_norm' ?_ hl
    filter_upwards [ev] with d hd
    have := hd.1
    have := hd.2.trans_le (min_le_left _ _)
    exact esI_bound t (by linarith) (by linarith)
  have t0 : Tendsto (fun d : ℝ => sinInt (d * t)) (𝓝[>] 0) (𝓝 0) := by
    have : Tendsto (fun d : ℝ => sinInt (d * t)) (𝓝 0) (𝓝 (sinInt (0 * t))) := (sinInt_continuous.comp (continuous_id.mul continuous_const)).tendsto 0
    rw [zero_mul, sinInt_zero] at this
    exact this.mono_left nhdsWithin_le_nhds
  have t3 : ∀ Z, b - w ≤ Z → Tendsto (fun d => esI t d Z) (𝓝[>] 0) (𝓝 (sinInt (Z * t))) := by
    intro Z hZ
    have := t0.const_sub (sinInt (Z * t))
    rw [sub_zero] at this
    refine this.congr' ?_
    filter_upwards [ev] with d hd
    have := hd.2.trans_le (min_le_right _ _)
    rw [esI_eq t ht hd.1 (by linarith)]
  have := ((((t1.const_add (ecI t (w - a) (w + a) - ecI t (b - w) (b + w))).const_mul C).add
    (((((t3 (b - w) le_rfl).add (t3 (b + w) (by linarith))).sub_const (esI t (w - a) (w + a))).sub t2).const_mul S)).div_const 2)
  simp only [add_zero, sub_zero] at this
  exact this

lemma gap_bound {C S t w a b d : ℝ} (hC : |C| ≤ 1) (hS : |S| ≤ 1) (ht : 0 < t) (ha : 0 < a) (haw : a < w) (hwb : w < b) (hd : 0 < d) (h1 : d < w) (h2 : d < b - w) :
    |kkGap C S t w a b d| ≤ Real.log ((w + a) / (w - a)) + Real.log ((b + w) / (b - w)) + Real.log 3 + 8 := by
  have hw : 0 < w := ha.trans haw
  have b1 := ecI_bound t (α := w - a) (β := w + a) (by linarith) (by linarith)
  have b2 := ecI_bound t (α := b - w) (β := b + w) (by linarith) (by linarith)
  have b3 := ecI_bound t (α := 2 * w - d) (β := 2 * w + d) (by linarith) (by linarith)
  have b4 := esI_bound t (α := w - a) (β := w + a) (by linarith) (by linarith)
  have b5 := esI_bound t (α := 2 * w - d) (β := 2 * w + d) (by linarith) (by linarith)
  have l3 : Real.log ((2 * w + d) / (2 * w - d)) ≤ Real.log 3 := by
    refine Real.log_le_log (div_pos (by linarith) (by linarith)) ?_
    rw [div_le_iff₀ (by linarith)]
    linarith
  have si : ∀ z, 0 ≤ z → |sinInt z| ≤ 4 := fun z hz => sinInt_abs hz
  have s1 := abs_le.1 (si ((b - w) * t) (by have : 0 < b - w := by linarith
                                            positivity))
  have s2 := abs_le.1 (si ((b + w) * t) (by have : 0 < b + w := by linarith
                                            positivity))
  have s3 := abs_le.1 (si (d * t) (by positivity))
  have q1 : |ecI t (w - a) (w + a) - ecI t (b - w) (b + w) + ecI t (2 * w - d) (2 * w + d)| ≤
      Real.log ((w + a) / (w - a)) + Real.log ((b + w) / (b - w)) + Real.log 3 := by
    have b1 := abs_le.1 b1
    have b2 := abs_le.1 b2
    have b3 := abs_le.1 b3
    rw [abs_le]
    constructor <;> linarith [b1.1, b1.2, b2.1, b2.2, b3.1, b3.2]
  have q2 : |esI t d (b - w) + esI t d (b + w) - esI t (w - a) (w + a) - esI t (2 * w - d) (2 * w + d)| ≤
      Real.log ((w + a) / (w - a)) + Real.log 3 + 16 := by
    rw [esI_eq t ht hd (by linarith), esI_eq t ht hd (by linarith)]
    have b4 := abs_le.1 b4
    have b5 := abs_le.1 b5
    rw [abs_le]
    constructor <;> linarith [b4.1, b4.2, b5.1, b5.2, s1.1, s1.2, s2.1, s2.2, s3.1, s3.2]
  have r1 := abs_le.1 (abs_mul_le_one hC q1)
  have r2 := abs_le.1 (abs_mul_le_one hS q2)
  have l1 : 0 ≤ Real.log ((b + w) / (b - w)) := (abs_nonneg _).trans b2
  unfold kkGap
  rw [abs_le]
  constructor <;> linarith [r1.1, r1.2, r2.1, r2.2]

lemma lim_bound {C S t w a b : ℝ} (hC : |C| ≤ 1) (hS : |S| ≤ 1) (ht : 0 < t) (ha : 0 < a) (haw : a < w) (hwb : w < b) :
    |kkLim C S t w a b| ≤ Real.log ((w + a) / (w - a)) + Real.log ((b + w) / (b - w)) + Real.log 3 + 8 := by
  have h := (gap_lim C S (a := a) ht (ha.trans haw) hwb).abs
  refine le_of_tendsto h ?_
  filter_upwards [Ioo_mem_nhdsGT (lt_min (ha.trans haw) (sub_pos.2 hwb))] with d hd
  exact gap_bound hC hS ht ha haw hwb hd.1 (hd.2.trans_le (min_le_left _ _)) (hd.2.trans_le (min_le_right _ _))

lemma lim_lim (C S : ℝ) {t w : ℝ} (ht : 0 < t) (hw : 0 < w) :
    Tendsto (fun p : ℝ × ℝ => kkLim C S t w p.1 p.2) (𝓝[>] 0 ×ˢ atTop) (𝓝 (Real.pi / 2 * S)) := by
  have ta : Tendsto (fun p : ℝ × ℝ => p.1) (𝓝[>] (0 : ℝ) ×ˢ (atTop : Filter ℝ)) (𝓝 0) :=
    (nhdsWithin_le_nhds (a := (0 : ℝ)) (s := Set.Ioi 0)).trans' tendsto_fst
  have tb : Tendsto (fun p : ℝ × ℝ => p.2) (𝓝[>] (0 : ℝ) ×ˢ (atTop : Filter ℝ)) atTop := tendsto_snd
  have ea : ∀ᶠ p : ℝ × ℝ in (𝓝[>] (0 : ℝ) ×ˢ (atTop : Filter ℝ)), 0 < p.1 := tendsto_fst.eventually eventually_mem_nhdsWithin
  have l1 := (log_ratio_tendsto hw).comp ta
  have l2 := (log_ratio_atTop w).comp tb
  have e1 : Tendsto (fun p : ℝ × ℝ => ecI t (w - p.1) (w + p.1)) (𝓝[>] 0 ×ˢ atTop) (𝓝 0) := by
    refine squeeze_zero_norm' ?_ l1
    filter_upwards [ea, ta.eventually (gt_mem_nhds hw)] with p h1 h2
    exact ecI_bound t (by linarith) (by linarith)
  have e2 : Tendsto (fun p : ℝ × ℝ => esI t (w - p.1) (w + p.1)) (𝓝[>] 0 ×ˢ atTop) (𝓝 0) := by
    refine squeeze_zero_norm' ?_ l1
    filter_upwards [ea, ta.eventually (gt_mem_nhds hw)] with p h1 h2
    exact esI_bound t (by linarith) (by linarith)
  have e3 : Tendsto (fun p : ℝ × ℝ => ecI t (p.2 - w) (p.2 + w)) (𝓝[>] 0 ×ˢ atTop) (𝓝 0) := by
    refine squeeze_zero_norm' ?_ l2
    filter_upwards [tb.eventually (eventually_gt_atTop w)] with p h1
    exact ecI_bound t (by linarith) (by linarith)
  have e4 : Tendsto (fun p : ℝ × ℝ => sinInt ((p.2 - w) * t)) (𝓝[>] 0 ×ˢ atTop) (𝓝 (Real.pi / 2)) :=
    sinInt_tendsto.comp ((tendsto_atTop_add_const_right _ (-w) tb).atTop_mul_const ht)
  have e5 : Tendsto (fun p : ℝ × ℝ => sinInt ((p.2 + w) * t)) (𝓝[>] 0 ×ˢ atTop) (𝓝 (Real.pi / 2)) :=
    sinInt_tendsto.comp ((tendsto_atTop_add_const_right _ w tb).atTop_mul_const ht)
  have := (((e1.sub e3).const_mul C).add (((e4.add e5).sub e2).const_mul S)).div_const 2
  rw [show (C * (0 - 0) + S * (Real.pi / 2 + Real.pi / 2 - 0)) / 2 = Real.pi / 2 * S by ring] at this
  exact this

/-! ## Integration against the response -/

lemma fubini_piece {φ g h : ℝ → ℝ} (hφ : IntegrableOn φ (Set.Ioi 0)) (hh : Continuous h) (hb : ∀ x, |h x| ≤ 1) {α β : ℝ} (hαβ : α ≤ β) (hg : ContinuousOn g (Set.Icc α β)) :
    Integrable (fun t => ∫ x in α..β, g x * (h (x * t) * φ t)) (volume.restrict (Set.Ioi 0)) ∧
      ∫ x in α..β, g x * ∫ t in Set.Ioi (0 : ℝ), h (x * t) * φ t = ∫ t in Set.Ioi (0 : ℝ), ∫ x in α..β, g x * (h (x * t) * φ t) := by
  have ig : Integrable g (volume.restrict (Set.uIoc α β)) := by
    have : IntervalIntegrable g volume α β := ContinuousOn.intervalIntegrable (by rwa [Set.uIcc_of_le hαβ])
    exact intervalIntegrable_iff.1 this
  have ip : Integrable (fun z : ℝ × ℝ => g z.1 * φ z.2) ((volume.restrict (Set.uIoc α β)).prod (volume.restrict (Set.Ioi 0))) := ig.mul_prod hφ
  have i3 : Integrable (Function.uncurry fun x t => g x * (h (x * t) * φ t)) ((volume.restrict (Set.uIoc α β)).prod (volume.restrict (Set.Ioi 0))) := by
    have := ip.bdd_mul (c := 1) (f := fun z : ℝ × ℝ => h (z.1 * z.2)) (Continuous.aestronglyMeasurable (by fun_prop)) (Eventually.of_forall fun z => hb _)
    refine this.congr (Eventually.of_forall fun z => ?_)
    simp only [Function.uncurry]
    ring
  constructor
  · have := i3.integral_prod_right
    refine this.congr (Eventually.of_forall fun t => ?_)
    simp only [Function.uncurry]
    rw [intervalIntegral.integral_of_le hαβ, Set.uIoc_of_le hαβ]
  · rw [← intervalIntegral_integral_swap i3]
    refine intervalIntegral.integral_congr fun x _ => ?_
    simp only [integral_const_mul]

/-- The Kramers-Kronig integrals of a response. `g(x) h(xt)` is the kernel of either relation. -/
lemma causal_half {φ g h C S : ℝ → ℝ} {w : ℝ} (hw : 0 < w) (hφ : IntegrableOn φ (Set.Ioi 0)) (hh : Continuous h) (hb : ∀ x, |h x| ≤ 1)
    (hg : ContinuousOn g (Set.Ioi 0 \ {w})) (hC : ∀ t, |C t| ≤ 1) (hS : ∀ t, |S t| ≤ 1)
    (hk : ∀ x t, 0 < x → x ≠ w → g x * h (x * t) = kkKer (C t) (S t) t w x) :
    Spec.IsPVHalf (fun x => g x * ∫ t in Set.Ioi (0 : ℝ), h (x * t) * φ t) w (Real.pi / 2 * ∫ t in Set.Ioi (0 : ℝ), S t * φ t) := by
  -- the integral outside a gap
  have key : ∀ a b d, 0 < a → a < w → w < b → 0 < d → d < w - a → d < b - w →
      Integrable (fun t => kkGap (C t) (S t) t w a b d * φ t) (volume.restrict (Set.Ioi 0)) ∧
      (∫ x in a..(w - d), g x * ∫ t in Set.Ioi (0 : ℝ), h (x * t) * φ t) + (∫ x in (w + d)..b, g x * ∫ t in Set.Ioi (0 : ℝ), h (x * t) * φ t) =
        ∫ t in Set.Ioi (0 : ℝ), kkGap (C t) (S t) t w a b d * φ t := by
    intro a b d ha haw hwb hd h1 h2
    obtain ⟨i1, e1⟩ := fubini_piece hφ hh hb (by linarith : a ≤ w - d) (hg.mono fun x hx => ⟨ha.trans_le hx.1, ne_of_lt (by linarith [hx.2])⟩)
    obtain ⟨i2, e2⟩ := fubini_piece hφ hh hb (by linarith : w + d ≤ b) (hg.mono fun x hx => ⟨lt_of_lt_of_le (by linarith) hx.1, ne_of_gt (by linarith [hx.1])⟩)
    have e : ∀ t, (∫ x in a..(w - d), g x * (h (x * t) * φ t)) + (∫ x in (w + d)..b, g x * (h (x * t) * φ t)) = kkGap (C t) (S t) t w a b d * φ t := by
      intro t
      rw [← gap_eq (C t) (S t) t ha haw hwb hd h1 h2, add_mul, ← intervalIntegral.integral_mul_const, ← intervalIntegral.integral_mul_const]
      congr 1
      · refine intervalIntegral.integral_congr fun x hx => ?_
        rw [Set.uIcc_of_le (by linarith)] at hx
        rw [← hk x t (ha.trans_le hx.1) (ne_of_lt (by linarith [hx.2])), mul_assoc]
      · refine intervalIntegral.integral_congr fun x hx => ?_
        rw [Set.uIcc_of_le (by linarith)] at hx
        rw [← hk x t (lt_of_lt_of_le (by linarith) hx.1) (ne_of_gt (by linarith [hx.1])), mul_assoc]
    refine ⟨(i1.add i2).congr (Eventually.of_forall fun t => e t), ?_⟩
    rw [e1, e2, ← integral_add i1 i2]
    exact integral_congr_ae (Eventually.of_forall fun t => e t)
  have bnd : ∀ (B : ℝ), Integrable (fun t => B * |φ t|) (volume.restrict (Set.Ioi 0)) := fun B => hφ.abs.const_mul B
  have ev : ∀ a b, a < w → w < b → ∀ᶠ d in 𝓝[>] (0 : ℝ), d ∈ Set.Ioo 0 (min (w - a) (b - w)) := fun a b h1 h2 => Ioo_mem_nhdsGT (lt_min (sub_pos.2 h1) (sub_pos.2 h2))
  have conv : ∀ a b, 0 < a → a < w → w < b →
      ∀ᵐ t ∂(volume.restrict (Set.Ioi (0 : ℝ))), Tendsto (fun d => kkGap (C t) (S t) t w a b d * φ t) (𝓝[>] 0) (𝓝 (kkLim (C t) (S t) t w a b * φ t)) := by
    intro a b ha haw hwb
    filter_upwards [ae_restrict_mem measurableSet_Ioi] with t ht
    exact (gap_lim (C t) (S t) ht hw hwb).mul_const _
  have meas : ∀ a b, 0 < a → a < w → w < b → ∀ᶠ d in 𝓝[>] (0 : ℝ), AEStronglyMeasurable (fun t => kkGap (C t) (S t) t w a b d * φ t) (volume.restrict (Set.Ioi (0 : ℝ))) := by
    intro a b ha haw hwb
    filter_upwards [ev a b haw hwb] with d hd
    exact (key a b d ha haw hwb hd.1 (hd.2.trans_le (min_le_left _ _)) (hd.2.trans_le (min_le_right _ _))).1.aestronglyMeasurable
  refine ⟨fun a b => ∫ t in Set.Ioi (0 : ℝ), kkLim (C t) (S t) t w a b * φ t, fun a b ha haw hwb => ?_, ?_⟩
  · have dct := tendsto_integral_filter_of_dominated_convergence (μ := volume.restrict (Set.Ioi (0 : ℝ))) (l := 𝓝[>] (0 : ℝ))
      (F := fun d t => kkGap (C t) (S t) t w a b d * φ t) (f := fun t => kkLim (C t) (S t) t w a b * φ t) _ (meas a b ha haw hwb) ?_
      (bnd (Real.log ((w + a) / (w - a)) + Real.log ((b + w) / (b - w)) + Real.log 3 + 8)) (conv a b ha haw hwb)
    · refine dct.congr' ?_
      filter_upwards [ev a b haw hwb] with d hd
      exact (key a b d ha haw hwb hd.1 (hd.2.trans_le (min_le_left _ _)) (hd.2.trans_le (min_le_right _ _))).2.symm
    · filter_upwards [ev a b haw hwb] with d hd
      filter_upwards [ae_restrict_mem measurableSet_Ioi] with t ht
      rw [norm_mul]
      exact mul_le_mul_of_nonneg_right (gap_bound (hC t) (hS t) ht ha haw hwb hd.1 (by linarith [hd.2.trans_le (min_le_left (w - a) (b - w))]) (hd.2.trans_le (min_le_right _ _))) (norm_nonneg _)
  · have ta : Tendsto (fun p : ℝ × ℝ => p.1) (𝓝[>] (0 : ℝ) ×ˢ (atTop : Filter ℝ)) (𝓝 0) :=
      (nhdsWithin_le_nhds (a := (0 : ℝ)) (s := Set.Ioi 0)).trans' tendsto_fst
    have tb : Tendsto (fun p : ℝ × ℝ => p.2) (𝓝[>] (0 : ℝ) ×ˢ (atTop : Filter ℝ)) atTop := tendsto_snd
    have ea : ∀ᶠ p : ℝ × ℝ in (𝓝[>] (0 : ℝ) ×ˢ (atTop : Filter ℝ)), 0 < p.1 := tendsto_fst.eventually eventually_mem_nhdsWithin
    have l1 := ((log_ratio_tendsto hw).comp ta).eventually (gt_mem_nhds one_pos)
    have l2 := ((log_ratio_atTop w).comp tb).eventually (gt_mem_nhds one_pos)
    rw [← integral_const_mul]
    refine tendsto_integral_filter_of_dominated_convergence (μ := volume.restrict (Set.Ioi (0 : ℝ))) (fun t => (10 + Real.log 3) * |φ t|) ?_ ?_ (bnd _) ?_
    · filter_upwards [ea, ta.eventually (gt_mem_nhds hw), tb.eventually (eventually_gt_atTop w)] with p h1 h2 h3
      have hne : (𝓝[>] (0 : ℝ)).NeBot := inferInstance
      obtain ⟨u, hu⟩ := (𝓝[>] (0 : ℝ)).exists_seq_tendsto
      have hm := hu.eventually (meas p.1 p.2 h1 h2 h3)
      obtain ⟨N, hN⟩ := eventually_atTop.1 hm
      refine aestronglyMeasurable_of_tendsto_ae (u := atTop) (f := fun n t => kkGap (C t) (S t) t w p.1 p.2 (u (n + N)) * φ t) (fun n => hN (n + N) (by omega)) ?_
      filter_upwards [conv p.1 p.2 h1 h2 h3] with t ht
      exact ht.comp (hu.comp (tendsto_add_atTop_nat N))
    · filter_upwards [ea, ta.eventually (gt_mem_nhds hw), tb.eventually (eventually_gt_atTop w), l1, l2] with p h1 h2 h3 h4 h5
      filter_upwards [ae_restrict_mem measurableSet_Ioi] with t ht
      rw [norm_mul]
      refine mul_le_mul_of_nonneg_right ((lim_bound (hC t) (hS t) ht h1 h2 h3).trans ?_) (norm_nonneg _)
      simp only [Function.comp] at h4 h5
      linarith
    · filter_upwards [ae_restrict_mem measurableSet_Ioi] with t ht
      have := (lim_lim (C t) (S t) ht hw).mul_const (φ t)
      rw [mul_assoc] at this
      exact this

end PyElli
