import Verif.Lemmas.TaucKk

/-! # The Kramers-Kronig integral of the Tauc-Lorentz absorption above critical damping (C91)

For `C > 2 E0` the denominator of the absorption is `(x² + p²)(x² + q²)` with `p + q = C`, `p q = E0²`. -/

namespace PyElli

open Filter Topology MeasureTheory

/-- A principal value over the half line of a function that vanishes up to `Eg` and has a known antiderivative above. -/
lemma gap_pv {F reg regD : ℝ → ℝ} {c0 Eg w T : ℝ} (hw : 0 < w) (hEg : 0 ≤ Eg) (hne : w ≠ Eg) (below : ∀ x, x ≤ Eg → F x = 0)
    (above : ∀ x, Eg ≤ x → 0 < x → x ≠ w → F x = c0 * (1 / (x - w)) + regD x) (hreg : ∀ x, 0 ≤ x → HasDerivAt reg (regD x) x)
    (cD : ContinuousOn regD (Set.Ioi 0)) (cF : ContinuousOn F (Set.Ioi 0 \ {w})) (cG : w < Eg → Continuous F)
    (tail : Tendsto (fun b : ℝ => c0 * Real.log (b - w) + reg b) atTop (𝓝 T)) :
    Spec.IsPVHalf F w (T - (c0 * Real.log |w - Eg| + reg Eg)) := by
  have ta : Tendsto (fun p : ℝ × ℝ => p.1) (𝓝[>] (0 : ℝ) ×ˢ (atTop : Filter ℝ)) (𝓝 0) :=
    (nhdsWithin_le_nhds (a := (0 : ℝ)) (s := Set.Ioi 0)).trans' tendsto_fst
  have tb : Tendsto (fun p : ℝ × ℝ => p.2) (𝓝[>] (0 : ℝ) ×ˢ (atTop : Filter ℝ)) atTop := tendsto_snd
  have tt := tail.comp tb
  rcases lt_or_gt_of_ne hne with hlt | hgt
  · have cG := cG hlt
    have hEg0 : 0 < Eg := hw.trans hlt
    have hI : ∀ x, HasDerivAt (fun y => ∫ u in Eg..y, F u) (F x) x := fun x => cG.integral_hasStrictDerivAt _ _ |>.hasDerivAt
    refine ⟨fun a b => (∫ u in Eg..b, F u) - ∫ u in Eg..a, F u, fun a b ha haw hwb => ?_, ?_⟩
    · have := isPV_antideriv (F := F) (c := 0) haw hwb cG.continuousOn (fun x _ => hI x) (fun x _ _ _ => by ring)
      rw [zero_mul, zero_add] at this
      exact this
    · have e1 : ∀ᶠ p : ℝ × ℝ in (𝓝[>] (0 : ℝ) ×ˢ (atTop : Filter ℝ)), ∫ u in Eg..p.1, F u = 0 := by
        filter_upwards [ta.eventually (gt_mem_nhds hEg0)] with p hp
        rw [intervalIntegral.integral_congr (g := fun _ => (0 : ℝ))]
        · simp
        · intro x hx
          rw [Set.uIcc_of_ge hp.le] at hx
          exact below x hx.2
      have e2 : ∀ᶠ p : ℝ × ℝ in (𝓝[>] (0 : ℝ) ×ˢ (atTop : Filter ℝ)), ∫ u in Eg..p.2, F u =
          c0 * Real.log (p.2 - w) + reg p.2 - (c0 * Real.log (Eg - w) + reg Eg) := by
        filter_upwards [tb.eventually (eventually_gt_atTop Eg)] with p hp
        refine intervalIntegral.integral_eq_sub_of_hasDerivAt (f := fun x => c0 * Real.log (x - w) + reg x) (fun x hx => ?_) (cG.intervalIntegrable _ _)
        rw [Set.uIcc_of_le hp.le] at hx
        have hx1 := hx.1
        have hx0 : 0 < x := by linarith
        rw [above x hx1 hx0 (ne_of_gt (by linarith))]
        exact ((((hasDerivAt_id' x).sub_const w).log (sub_ne_zero.2 (ne_of_gt (by linarith)))).const_mul c0).add (hreg x hx0.le)
      rw [show |w - Eg| = Eg - w by rw [abs_sub_comm]; exact abs_of_pos (sub_pos.2 hlt)]
      refine (tt.sub_const _).congr' ?_
      filter_upwards [e1, e2] with p h1 h2
      rw [h1, h2, sub_zero]
      rfl
  · refine ⟨fun a b => c0 * Real.log ((b - w) / (w - max a Eg)) + (reg b - reg (max a Eg)), fun a b ha haw hwb => ?_, ?_⟩
    · rcases le_total Eg a with hE | hE
      · have hs : Set.Icc a b ⊆ Set.Ioi 0 := fun x hx => lt_of_lt_of_le ha hx.1
        simp only [max_eq_left hE]
        exact isPV_antideriv haw hwb (cD.mono hs) (fun x hx => hreg x (le_of_lt (hs hx)))
          fun x h1 _ h3 => above x (hE.trans h1) (lt_of_lt_of_le ha h1) h3
      · have hs : Set.Icc Eg b ⊆ Set.Ioi 0 := fun x hx => lt_of_lt_of_le ha (hE.trans hx.1)
        simp only [max_eq_right hE]
        refine TlPar.isPV_extend hE hgt hwb (fun x _ h2 => below x h2) ?_
          (isPV_antideriv hgt hwb (cD.mono hs) (fun x hx => hreg x (le_of_lt (hs hx))) ?_)
        · exact cF.mono fun x hx => ⟨hs hx.1, hx.2⟩
        · intro x h1 _ h3
          exact above x h1 (lt_of_lt_of_le ha (hE.trans h1)) h3
    · have tm : Tendsto (fun p : ℝ × ℝ => max p.1 Eg) (𝓝[>] (0 : ℝ) ×ˢ (atTop : Filter ℝ)) (𝓝 Eg) := by
        have := ta.max (tendsto_const_nhds (x := Eg))
        rw [max_eq_right hEg] at this
        exact this
      have t1 : Tendsto (fun p : ℝ × ℝ => reg (max p.1 Eg)) (𝓝[>] (0 : ℝ) ×ˢ (atTop : Filter ℝ)) (𝓝 (reg Eg)) :=
        (hreg Eg hEg).continuousAt.tendsto.comp tm
      have t2 : Tendsto (fun p : ℝ × ℝ => Real.log (w - max p.1 Eg)) (𝓝[>] (0 : ℝ) ×ˢ (atTop : Filter ℝ)) (𝓝 (Real.log (w - Eg))) :=
        (Real.continuousAt_log (sub_pos.2 hgt).ne').tendsto.comp (tm.const_sub w)
      rw [abs_of_pos (sub_pos.2 hgt)]
      refine (tt.sub ((t2.const_mul c0).add t1)).congr' ?_
      filter_upwards [ta.eventually (gt_mem_nhds hw), tb.eventually (eventually_gt_atTop w)] with p h1 h2
      have h3 : max p.1 Eg < w := max_lt h1 hgt
      rw [Real.log_div (sub_pos.2 h2).ne' (sub_pos.2 h3).ne']
      simp only [Function.comp]
      ring

/-- Antiderivative `e log (x + w) + l log (x² + p²) + a arctan (x/p)` and its derivative. -/
noncomputable def opReg (e l a w p x : ℝ) : ℝ := e * Real.log (x + w) + l * Real.log (x ^ 2 + p ^ 2) + a * Real.arctan (x / p)
noncomputable def opRegD (e l a w p x : ℝ) : ℝ := e * (1 / (x + w)) + l * (2 * x / (x ^ 2 + p ^ 2)) + a * (p / (x ^ 2 + p ^ 2))

lemma opReg_deriv (e l a : ℝ) {w p x : ℝ} (hw : 0 < w) (hp : 0 < p) (hx : 0 ≤ x) : HasDerivAt (opReg e l a w p) (opRegD e l a w p x) x := by
  have i := hasDerivAt_id' x
  have d1 : HasDerivAt (fun x => Real.log (x + w)) (1 / (x + w)) x := (i.add_const w).log (by positivity)
  have d2 : HasDerivAt (fun x : ℝ => x ^ 2 + p ^ 2) (2 * x) x := by
    refine ((i.pow 2).add_const (p ^ 2)).congr_deriv ?_
    ring
  have d3 := d2.log (by positivity)
  have d4 : HasDerivAt (fun x => Real.arctan (x / p)) (p / (x ^ 2 + p ^ 2)) x := by
    refine ((i.div_const p).arctan).congr_deriv ?_
    have : 1 + (x / p) ^ 2 = (x ^ 2 + p ^ 2) / p ^ 2 := by field_simp; ring
    rw [this]
    have : x ^ 2 + p ^ 2 ≠ 0 := by positivity
    field_simp
  exact ((d1.const_mul e).add (d3.const_mul l)).add (d4.const_mul a)

lemma opRegD_continuousOn (e l a : ℝ) {w p : ℝ} (hw : 0 < w) (hp : 0 < p) : ContinuousOn (opRegD e l a w p) (Set.Ioi 0) := by
  have h : ∀ x : ℝ, x ^ 2 + p ^ 2 ≠ 0 := fun x => by positivity
  have c1 : ContinuousOn (fun x : ℝ => 1 / (x + w)) (Set.Ioi 0) :=
    continuousOn_const.div (continuousOn_id.add continuousOn_const) fun x hx => by
      have : 0 < x := hx
      positivity
  have c2 : Continuous fun x : ℝ => 2 * x / (x ^ 2 + p ^ 2) := Continuous.div (by fun_prop) (by fun_prop) h
  have c3 : Continuous fun x : ℝ => p / (x ^ 2 + p ^ 2) := Continuous.div (by fun_prop) (by fun_prop) h
  exact ((continuousOn_const.mul c1).add (continuousOn_const.mul c2.continuousOn)).add (continuousOn_const.mul c3.continuousOn)

lemma opReg_tail (c e l a : ℝ) {w p : ℝ} (hw : 0 < w) (hp : 0 < p) (hs : c + e + 2 * l = 0) :
    Tendsto (fun b : ℝ => c * Real.log (b - w) + opReg e l a w p b) atTop (𝓝 (a * (Real.pi / 2))) := by
  have tinv : Tendsto (fun b : ℝ => b⁻¹) atTop (𝓝 0) := tendsto_inv_atTop_zero
  have lg : ∀ (p r : ℝ), Tendsto (fun b : ℝ => Real.log (1 + p * b⁻¹ + r * (b⁻¹) ^ 2)) atTop (𝓝 0) := by
    intro p r
    have h1 := ((tinv.const_mul p).const_add 1).add ((tinv.pow 2).const_mul r)
    have e : 1 + p * 0 + r * (0 : ℝ) ^ 2 = 1 := by ring
    rw [e] at h1
    have := (Real.continuousAt_log one_ne_zero).tendsto.comp h1
    rw [Real.log_one] at this
    exact this
  have ta : Tendsto (fun b : ℝ => Real.arctan (b / p)) atTop (𝓝 (Real.pi / 2)) :=
    (Real.tendsto_arctan_atTop.comp (tendsto_id.atTop_div_const hp)).mono_right nhdsWithin_le_nhds
  have key := (((lg (-w) 0).const_mul c).add ((lg w 0).const_mul e)).add ((lg 0 (p ^ 2)).const_mul l) |>.add (ta.const_mul a)
  have e0 : c * 0 + e * 0 + l * 0 + a * (Real.pi / 2) = a * (Real.pi / 2) := by ring
  rw [e0] at key
  refine key.congr' ?_
  filter_upwards [eventually_gt_atTop w] with b hb
  have hb0 : 0 < b := hw.trans hb
  have e1 : Real.log (b - w) = Real.log b + Real.log (1 + -w * b⁻¹ + 0 * b⁻¹ ^ 2) := by
    have : b - w = b * (1 + -w * b⁻¹ + 0 * b⁻¹ ^ 2) := by field_simp; ring
    rw [← Real.log_mul hb0.ne', ← this]
    intro h0
    rw [h0, mul_zero] at this
    linarith
  have e2 : Real.log (b + w) = Real.log b + Real.log (1 + w * b⁻¹ + 0 * b⁻¹ ^ 2) := by
    have : b + w = b * (1 + w * b⁻¹ + 0 * b⁻¹ ^ 2) := by field_simp; ring
    rw [← Real.log_mul hb0.ne', ← this]
    intro h0
    rw [h0, mul_zero] at this
    linarith
  have e3 : Real.log (b ^ 2 + p ^ 2) = 2 * Real.log b + Real.log (1 + 0 * b⁻¹ + p ^ 2 * b⁻¹ ^ 2) := by
    have : b ^ 2 + p ^ 2 = b ^ 2 * (1 + 0 * b⁻¹ + p ^ 2 * b⁻¹ ^ 2) := by field_simp; ring
    have hp' : 0 < b ^ 2 + p ^ 2 := by positivity
    rw [this, Real.log_mul (by positivity), Real.log_pow]
    · push_cast; ring
    · intro h0
      rw [h0, mul_zero] at this
      linarith
  unfold opReg
  rw [e1, e2, e3]
  linear_combination (-Real.log b) * hs

/-- The integral of `(x - Eg)² / ((x² + p²)(x² - w²))` above the gap. -/
noncomputable def opVal (Eg w p : ℝ) : ℝ :=
  (p ^ 2 - Eg ^ 2) / (p * (w ^ 2 + p ^ 2)) * (Real.pi / 2) -
    ((w - Eg) ^ 2 / (2 * w * (w ^ 2 + p ^ 2)) * Real.log |w - Eg| +
      opReg (-((w + Eg) ^ 2 / (2 * w * (w ^ 2 + p ^ 2)))) (Eg / (w ^ 2 + p ^ 2)) ((p ^ 2 - Eg ^ 2) / (p * (w ^ 2 + p ^ 2))) w p Eg)

lemma onePole_contOn (Eg : ℝ) {w p : ℝ} (hw : 0 < w) (hp : 0 < p) :
    ContinuousOn (fun x => (max (x - Eg) 0) ^ 2 / ((x ^ 2 + p ^ 2) * (x ^ 2 - w ^ 2))) (Set.Ioi 0 \ {w}) := by
  refine ContinuousOn.div (by fun_prop) (by fun_prop) fun x hx => ?_
  have h0 : 0 < x := hx.1
  rw [show x ^ 2 - w ^ 2 = (x - w) * (x + w) by ring]
  exact mul_ne_zero (by positivity) (mul_ne_zero (sub_ne_zero.2 hx.2) (by positivity))

lemma onePole_half {Eg w p : ℝ} (hEg : 0 ≤ Eg) (hw : 0 < w) (hp : 0 < p) (hne : w ≠ Eg) :
    Spec.IsPVHalf (fun x => (max (x - Eg) 0) ^ 2 / ((x ^ 2 + p ^ 2) * (x ^ 2 - w ^ 2))) w (opVal Eg w p) := by
  have hwp : w ^ 2 + p ^ 2 ≠ 0 := by positivity
  refine gap_pv hw hEg hne (fun x hx => ?_) (fun x hx h0 hxw => ?_) (fun x hx => opReg_deriv _ _ _ hw hp hx) (opRegD_continuousOn _ _ _ hw hp)
    (onePole_contOn Eg hw hp) (fun hlt => ?_) (opReg_tail _ _ _ _ hw hp ?_)
  · rw [max_eq_right (by linarith)]
    simp
  · rw [max_eq_left (by linarith)]
    have h1 : x ^ 2 + p ^ 2 ≠ 0 := by positivity
    have h5 : x - w ≠ 0 := sub_ne_zero.2 hxw
    have h6 : x + w ≠ 0 := by positivity
    have hp' := hp.ne'
    have hw' := hw.ne'
    unfold opRegD
    rw [show x ^ 2 - w ^ 2 = (x - w) * (x + w) by ring]
    field_simp
    ring
  · have e : (fun x : ℝ => (max (x - Eg) 0) ^ 2 / ((x ^ 2 + p ^ 2) * (x ^ 2 - w ^ 2))) =
        fun x => (max (x - Eg) 0) ^ 2 / ((x ^ 2 + p ^ 2) * ((max x Eg) ^ 2 - w ^ 2)) := by
      funext x
      rcases le_total x Eg with hx | hx
      · rw [max_eq_right (by linarith : x - Eg ≤ 0)]
        simp
      · rw [max_eq_left hx]
    rw [e]
    refine Continuous.div (by fun_prop) (by fun_prop) fun x => mul_ne_zero (by positivity) ?_
    have : Eg ≤ max x Eg := le_max_right _ _
    nlinarith
  · have hw' := hw.ne'
    field_simp
    ring

/-- The integral of `x / ((x² + p²)(x² - w²))`. -/
lemma lorentz_half {w p : ℝ} (hw : 0 < w) (hp : 0 < p) :
    Spec.IsPVHalf (fun x => x * (1 / (x ^ 2 + p ^ 2)) / (x ^ 2 - w ^ 2)) w ((Real.log p - Real.log w) / (w ^ 2 + p ^ 2)) := by
  have hwp : w ^ 2 + p ^ 2 ≠ 0 := by positivity
  have key : Spec.IsPVHalf (fun x => max x 0 / ((x ^ 2 + p ^ 2) * (x ^ 2 - w ^ 2))) w _ :=
    gap_pv (Eg := 0) (c0 := 1 / (2 * (w ^ 2 + p ^ 2))) (reg := opReg (1 / (2 * (w ^ 2 + p ^ 2))) (-(1 / (2 * (w ^ 2 + p ^ 2)))) 0 w p)
      (T := 0 * (Real.pi / 2)) hw le_rfl hw.ne' (fun x hx => by rw [max_eq_right hx]; simp) (fun x hx h0 hxw => ?_)
      (fun x hx => opReg_deriv _ _ _ hw hp hx) (opRegD_continuousOn _ _ _ hw hp) ?_ (fun h => absurd h (not_lt.2 hw.le)) (opReg_tail _ _ _ _ hw hp (by ring))
  · have e : 0 * (Real.pi / 2) - (1 / (2 * (w ^ 2 + p ^ 2)) * Real.log |w - 0| + opReg (1 / (2 * (w ^ 2 + p ^ 2))) (-(1 / (2 * (w ^ 2 + p ^ 2)))) 0 w p 0) =
        (Real.log p - Real.log w) / (w ^ 2 + p ^ 2) := by
      unfold opReg
      have e1 : Real.log (0 ^ 2 + p ^ 2) = 2 * Real.log p := by
        rw [zero_pow two_ne_zero, zero_add, Real.log_pow]
        push_cast
        rfl
      rw [e1, sub_zero, zero_add, abs_of_pos hw]
      field_simp
      ring
    rw [e] at key
    refine isPVHalf_congr (fun x hx _ => ?_) key
    rw [max_eq_left hx.le, mul_one_div, div_div]
  · have h1 : x ^ 2 + p ^ 2 ≠ 0 := by positivity
    have h5 : x - w ≠ 0 := sub_ne_zero.2 hxw
    have h6 : x + w ≠ 0 := by positivity
    rw [max_eq_left hx]
    unfold opRegD
    rw [show x ^ 2 - w ^ 2 = (x - w) * (x + w) by ring]
    field_simp
    ring
  · refine ContinuousOn.div (by fun_prop) (by fun_prop) fun x hx => ?_
    have h0 : 0 < x := hx.1
    rw [show x ^ 2 - w ^ 2 = (x - w) * (x + w) by ring]
    exact mul_ne_zero (by positivity) (mul_ne_zero (sub_ne_zero.2 hx.2) (by positivity))

end PyElli
