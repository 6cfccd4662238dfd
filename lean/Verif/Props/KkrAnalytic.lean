import Mathlib.Analysis.Complex.CauchyIntegral
import Mathlib.Analysis.Complex.RemovableSingularity
import Mathlib.Topology.Algebra.Module.Cardinality
import Verif.Props.KkrDispersion

/-! # The Kramers-Kronig relation for functions analytic in the upper half plane

Functions that are analytic slightly below the real axis, decay and take conjugate values at opposite frequencies satisfy the relation. Two
Lorentz oscillators, for which it is known, are subtracted so that the difference vanishes at the frequency in question; what remains is an
ordinary integral over the boundary of a rectangle. -/

namespace PyElli

open Filter Topology MeasureTheory Complex ComplexConjugate

/-- The half plane above `-δ`. -/
def UpperOf (δ : ℝ) : Set ℂ := {z | -δ < z.im}

lemma isOpen_upperOf (δ : ℝ) : IsOpen (UpperOf δ) := isOpen_lt continuous_const continuous_im

/-- Analytic in the upper half plane and a little below, conjugate values at opposite frequencies, decay. -/
structure Causal (δ : ℝ) (F : ℂ → ℂ) : Prop where
  diff : DifferentiableOn ℂ F (UpperOf δ)
  cross : ∀ x : ℝ, F (-x) = conj (F x)
  decay : ∃ C R : ℝ, ∀ z : ℂ, 0 ≤ z.im → R ≤ ‖z‖ → ‖F z‖ ≤ C / ‖z‖

section
variable {δ w : ℝ} {D : ℂ → ℂ}

/-- `z D(z) / (z² - w²)` without its removable singularities. -/
noncomputable def reduced (D : ℂ → ℂ) (w : ℝ) (z : ℂ) : ℂ := z * dslope (dslope D w) (-w) z

lemma reduced_eq (hD : Causal δ D) (hw : 0 < w) (h0 : D w = 0) {z : ℂ} (h1 : z ≠ w) (h2 : z ≠ -w) : reduced D w z = z * D z / (z ^ 2 - w ^ 2) := by
  have h3 : D (-w) = 0 := by rw [hD.cross, h0, map_zero]
  have hne : (-w : ℂ) ≠ w := by
    intro h
    have := congrArg re h
    simp at this
    linarith
  have a1 : z - w ≠ 0 := sub_ne_zero.2 h1
  have a2 : z + w ≠ 0 := fun h => h2 (by linear_combination h)
  have a3 : z ^ 2 - w ^ 2 ≠ 0 := by
    rw [show z ^ 2 - (w : ℂ) ^ 2 = (z - w) * (z + w) by ring]
    exact mul_ne_zero a1 a2
  unfold reduced
  rw [dslope_of_ne _ h2, slope, dslope_of_ne _ h1, dslope_of_ne _ hne, slope, slope]
  simp only [h0, h3, vsub_eq_sub, sub_zero, smul_eq_mul, mul_zero, sub_neg_eq_add]
  rw [show z ^ 2 - (w : ℂ) ^ 2 = (z - w) * (z + w) by ring] at a3 ⊢
  field_simp

lemma reduced_diff (hδ : 0 < δ) (hD : Causal δ D) : DifferentiableOn ℂ (reduced D w) (UpperOf δ) := by
  have m1 : UpperOf δ ∈ 𝓝 (w : ℂ) := (isOpen_upperOf δ).mem_nhds (by simp [UpperOf]; exact hδ)
  have m2 : UpperOf δ ∈ 𝓝 (-w : ℂ) := (isOpen_upperOf δ).mem_nhds (by simp [UpperOf]; exact hδ)
  exact differentiableOn_id.mul ((Complex.differentiableOn_dslope m2).2 ((Complex.differentiableOn_dslope m1).2 hD.diff))

lemma reduced_decay (hD : Causal δ D) (hw : 0 < w) (h0 : D w = 0) :
    ∃ C R : ℝ, 0 < R ∧ 0 ≤ C ∧ ∀ z : ℂ, 0 ≤ z.im → R ≤ ‖z‖ → ‖reduced D w z‖ ≤ C / ‖z‖ ^ 2 := by
  obtain ⟨C, R, h⟩ := hD.decay
  refine ⟨2 * |C|, max R (2 * w), by positivity, by positivity, fun z hz hR => ?_⟩
  have r1 : R ≤ ‖z‖ := (le_max_left _ _).trans hR
  have r2 : 2 * w ≤ ‖z‖ := (le_max_right _ _).trans hR
  have hz0 : 0 < ‖z‖ := by linarith
  have hwn : ‖(w : ℂ)‖ = w := by rw [norm_real, Real.norm_of_nonneg hw.le]
  have n1 : z ≠ w := by
    rintro rfl
    rw [hwn] at r2
    linarith
  have n2 : z ≠ -w := by
    rintro rfl
    rw [norm_neg, hwn] at r2
    linarith
  rw [reduced_eq hD hw h0 n1 n2, norm_div, norm_mul]
  have h1 := h z hz r1
  have h2 : ‖z‖ ^ 2 / 2 ≤ ‖z ^ 2 - (w : ℂ) ^ 2‖ := by
    have := norm_sub_norm_le (z ^ 2) ((w : ℂ) ^ 2)
    rw [norm_pow, norm_pow, hwn] at this
    nlinarith
  have h3 : ‖z‖ * ‖D z‖ ≤ |C| := by
    rw [le_div_iff₀ hz0] at h1
    linarith [le_abs_self C, mul_comm ‖z‖ ‖D z‖]
  have h4 : 0 < ‖z‖ ^ 2 / 2 := by positivity
  calc ‖z‖ * ‖D z‖ / ‖z ^ 2 - (w : ℂ) ^ 2‖ ≤ |C| / (‖z‖ ^ 2 / 2) := div_le_div₀ (abs_nonneg _) h3 h4 h2
    _ = 2 * |C| / ‖z‖ ^ 2 := by field_simp

/-- The integral along the real axis of a function with quadratic decay in the upper half plane vanishes. -/
lemma upper_integral {H : ℂ → ℂ} (hδ : 0 < δ) (hH : DifferentiableOn ℂ H (UpperOf δ)) {C R : ℝ} (hR : 0 < R) (hC : 0 ≤ C)
    (hb : ∀ z : ℂ, 0 ≤ z.im → R ≤ ‖z‖ → ‖H z‖ ≤ C / ‖z‖ ^ 2) : Tendsto (fun T : ℝ => ∫ x in (-T)..T, H x) atTop (𝓝 0) := by
  have key : ∀ T : ℝ, R ≤ T → ‖∫ x in (-T)..T, H x‖ ≤ 4 * C / T := by
    intro T hT
    have hT0 : 0 < T := lt_of_lt_of_le hR hT
    have hrect := Complex.integral_boundary_rect_eq_zero_of_differentiableOn H ((-T : ℝ) : ℂ) (T + T * I) (hH.mono (by
      intro z hz
      rw [mem_reProdIm] at hz
      have := hz.2
      simp at this
      rw [Set.uIcc_of_le hT0.le] at this
      simp only [UpperOf, Set.mem_setOf_eq]
      linarith [this.1]))
    simp only [ofReal_re, ofReal_im, add_re, add_im, mul_re, mul_im, I_re, I_im, mul_zero, mul_one, sub_zero, zero_add, add_zero, ofReal_zero, zero_mul, sub_self] at hrect
    have hle : ∀ z : ℂ, 0 ≤ z.im → T ≤ ‖z‖ → ‖H z‖ ≤ C / T ^ 2 := fun z hz h =>
      (hb z hz (hT.trans h)).trans (div_le_div_of_nonneg_left hC (by positivity) (by gcongr))
    have b1 : ‖∫ x in (-T)..T, H (x + T * I)‖ ≤ C / T ^ 2 * |T - -T| := by
      refine intervalIntegral.norm_integral_le_of_norm_le_const fun x _ => hle _ (by simp; exact hT0.le) ?_
      have := abs_im_le_norm ((x : ℂ) + T * I)
      simp at this
      exact (le_abs_self T).trans this
    have side : ∀ s : ℝ, |s| = T → ‖∫ y in (0 : ℝ)..T, H (s + y * I)‖ ≤ C / T ^ 2 * |T - 0| := by
      intro s hs
      refine intervalIntegral.norm_integral_le_of_norm_le_const fun y hy => hle _ ?_ ?_
      · rw [Set.uIoc_of_le hT0.le] at hy
        simp
        exact hy.1.le
      · have := abs_re_le_norm ((s : ℂ) + y * I)
        simp at this
        rw [← hs]
        exact this
    have b2 := side T (abs_of_pos hT0)
    have b3 := side (-T) (by rw [abs_neg, abs_of_pos hT0])
    push_cast at b3 hrect
    have e : ∫ x in (-T)..T, H x = (∫ x in (-T)..T, H (x + T * I)) - I * (∫ y in (0 : ℝ)..T, H (T + y * I)) +
        I * ∫ y in (0 : ℝ)..T, H (-T + y * I) := by
      simp only [smul_eq_mul] at hrect
      linear_combination hrect
    rw [e]
    have e1 : |T - -T| = 2 * T := by rw [abs_of_pos (by linarith)]; ring
    have e2 : |T - 0| = T := by rw [sub_zero, abs_of_pos hT0]
    rw [e1] at b1
    rw [e2] at b2 b3
    calc _ ≤ ‖∫ x in (-T)..T, H (x + T * I)‖ + ‖I * (∫ y in (0 : ℝ)..T, H (T + y * I))‖ + ‖I * ∫ y in (0 : ℝ)..T, H (-T + y * I)‖ :=
          (norm_add_le _ _).trans (add_le_add (norm_sub_le _ _) le_rfl)
      _ ≤ C / T ^ 2 * (2 * T) + C / T ^ 2 * T + C / T ^ 2 * T := by
          rw [norm_mul, norm_mul, norm_I, one_mul, one_mul]
          exact add_le_add (add_le_add b1 b2) b3
      _ = 4 * C / T := by field_simp; ring
  rw [tendsto_zero_iff_norm_tendsto_zero]
  refine squeeze_zero' (Eventually.of_forall fun T => norm_nonneg _) ?_ (tendsto_const_nhds.div_atTop tendsto_id : Tendsto (fun T : ℝ => 4 * C / T) atTop (𝓝 0))
  filter_upwards [eventually_ge_atTop R] with T hT
  exact key T hT

/-- The integral along the real axis vanishes. -/
lemma reduced_integral (hδ : 0 < δ) (hD : Causal δ D) (hw : 0 < w) (h0 : D w = 0) :
    Tendsto (fun T : ℝ => ∫ x in (-T)..T, reduced D w x) atTop (𝓝 0) := by
  obtain ⟨C, R, hR, hC, hb⟩ := reduced_decay hD hw h0
  exact upper_integral hδ (reduced_diff hδ hD) hR hC hb

lemma reduced_cont (hδ : 0 < δ) (hD : Causal δ D) : Continuous fun x : ℝ => (reduced D w x).im := by
  refine continuous_im.comp (continuous_iff_continuousAt.2 fun x => ?_)
  have h1 : ContinuousAt (reduced D w) (x : ℂ) :=
    ((reduced_diff hδ hD).differentiableAt ((isOpen_upperOf δ).mem_nhds (by simp [UpperOf]; exact hδ))).continuousAt
  exact ContinuousAt.comp (g := reduced D w) (f := fun x : ℝ => (x : ℂ)) h1 continuous_ofReal.continuousAt

lemma reduced_im (hD : Causal δ D) (hw : 0 < w) (h0 : D w = 0) {x : ℝ} (h1 : x ≠ w) (h2 : x ≠ -w) :
    (reduced D w x).im = x * (D x).im / (x ^ 2 - w ^ 2) := by
  rw [reduced_eq hD hw h0 (by exact_mod_cast h1) (by exact_mod_cast h2), show ((x : ℂ) ^ 2 - (w : ℂ) ^ 2) = ((x ^ 2 - w ^ 2 : ℝ) : ℂ) by push_cast; ring,
    div_ofReal_im, im_ofReal_mul]

lemma reduced_even (hδ : 0 < δ) (hD : Causal δ D) (hw : 0 < w) (h0 : D w = 0) (x : ℝ) : (reduced D w (-x : ℝ)).im = (reduced D w x).im := by
  have hc := reduced_cont (w := w) hδ hD
  have hd : Dense ({w, -w}ᶜ : Set ℝ) := Set.Countable.dense_compl ℝ (Set.toFinite ({w, -w} : Set ℝ)).countable
  have he : Set.EqOn (fun x : ℝ => (reduced D w (-x : ℝ)).im) (fun x : ℝ => (reduced D w x).im) ({w, -w}ᶜ : Set ℝ) := by
    intro x hx
    simp only [Set.mem_compl_iff, Set.mem_insert_iff, Set.mem_singleton_iff, not_or] at hx
    have a1 : -x ≠ w := fun h => hx.2 (by linarith)
    have a2 : -x ≠ -w := fun h => hx.1 (by linarith)
    simp only
    rw [reduced_im hD hw h0 hx.1 hx.2, reduced_im hD hw h0 a1 a2]
    push_cast
    rw [hD.cross, conj_im]
    ring
  exact congrFun (Continuous.ext_on hd (hc.comp continuous_neg) hc he) x

/-- The relation at a zero. -/
lemma kk_of_zero (hδ : 0 < δ) (hD : Causal δ D) (hw : 0 < w) (h0 : D w = 0) : Kk (fun x => (D x).im) w 0 := by
  have hc := reduced_cont (w := w) hδ hD
  have hint : ∀ a b : ℝ, IntervalIntegrable (fun x : ℝ => (reduced D w x).im) volume a b := fun a b => hc.intervalIntegrable a b
  have half : Tendsto (fun T : ℝ => ∫ x in (0 : ℝ)..T, (reduced D w x).im) atTop (𝓝 0) := by
    have h1 : ∀ T : ℝ, ∫ x in (0 : ℝ)..T, (reduced D w x).im = (∫ x in (-T)..T, reduced D w x).im / 2 := by
      intro T
      have hcc : IntervalIntegrable (fun x : ℝ => reduced D w x) volume (-T) T := by
        apply Continuous.intervalIntegrable
        refine continuous_iff_continuousAt.2 fun x => ?_
        have h1 : ContinuousAt (reduced D w) (x : ℂ) :=
          ((reduced_diff hδ hD).differentiableAt ((isOpen_upperOf δ).mem_nhds (by simp [UpperOf]; exact hδ))).continuousAt
        exact ContinuousAt.comp (g := reduced D w) (f := fun x : ℝ => (x : ℂ)) h1 continuous_ofReal.continuousAt
      have h2 : (∫ x in (-T)..T, reduced D w x).im = ∫ x in (-T)..T, (reduced D w x).im := by
        have := Complex.imCLM.intervalIntegral_comp_comm hcc
        simpa using this.symm
      rw [h2, ← intervalIntegral.integral_add_adjacent_intervals (hint (-T) 0) (hint 0 T)]
      have h3 : ∫ x in (-T)..0, (reduced D w x).im = ∫ x in (0 : ℝ)..T, (reduced D w x).im := by
        have := intervalIntegral.integral_comp_neg (a := 0) (b := T) (fun x : ℝ => (reduced D w x).im)
        rw [neg_zero] at this
        rw [← this]
        refine intervalIntegral.integral_congr fun x _ => ?_
        exact reduced_even hδ hD hw h0 x
      rw [h3]
      ring
    simp only [h1]
    have := ((continuous_im.tendsto 0).comp (reduced_integral hδ hD hw h0)).div_const 2
    simpa using this
  have prim : Continuous fun b : ℝ => ∫ x in (0 : ℝ)..b, (reduced D w x).im := intervalIntegral.continuous_primitive hint 0
  refine ⟨fun a b => ∫ x in a..b, (reduced D w x).im, ?_, ?_⟩
  · intro a b ha haw hwb
    have h1 : Tendsto (fun d : ℝ => (∫ x in a..(w - d), (reduced D w x).im) + ∫ x in (w + d)..b, (reduced D w x).im) (𝓝[>] 0)
        (𝓝 (∫ x in a..b, (reduced D w x).im)) := by
      have e : ∀ d : ℝ, (∫ x in a..(w - d), (reduced D w x).im) + ∫ x in (w + d)..b, (reduced D w x).im =
          ((∫ x in (0 : ℝ)..(w - d), (reduced D w x).im) - ∫ x in (0 : ℝ)..a, (reduced D w x).im) +
            ((∫ x in (0 : ℝ)..b, (reduced D w x).im) - ∫ x in (0 : ℝ)..(w + d), (reduced D w x).im) := by
        intro d
        rw [intervalIntegral.integral_interval_sub_left (hint _ _) (hint _ _), intervalIntegral.integral_interval_sub_left (hint _ _) (hint _ _)]
      have hcont : Continuous fun d : ℝ => (∫ x in a..(w - d), (reduced D w x).im) + ∫ x in (w + d)..b, (reduced D w x).im := by
        simp only [e]
        exact ((prim.comp (by fun_prop : Continuous fun d : ℝ => w - d)).sub continuous_const).add
          (continuous_const.sub (prim.comp (by fun_prop : Continuous fun d : ℝ => w + d)))
      have := hcont.tendsto 0
      simp only [sub_zero, add_zero] at this
      rw [intervalIntegral.integral_add_adjacent_intervals (hint a w) (hint w b)] at this
      exact this.mono_left nhdsWithin_le_nhds
    refine h1.congr' ?_
    have hsm : ∀ᶠ d : ℝ in 𝓝[>] 0, d < min (w - a) (b - w) :=
      nhdsWithin_le_nhds (gt_mem_nhds (lt_min (by linarith) (by linarith)))
    filter_upwards [self_mem_nhdsWithin, hsm] with d hd hd'
    have hd0 : 0 < d := hd
    have l1 := lt_of_lt_of_le hd' (min_le_left _ _)
    have l2 := lt_of_lt_of_le hd' (min_le_right _ _)
    congr 1
    · refine intervalIntegral.integral_congr fun x hx => ?_
      rw [Set.uIcc_of_le (by linarith)] at hx
      exact reduced_im hD hw h0 (by linarith [hx.2]) (by linarith [hx.1])
    · refine intervalIntegral.integral_congr fun x hx => ?_
      rw [Set.uIcc_of_le (by linarith)] at hx
      exact reduced_im hD hw h0 (by linarith [hx.1]) (by linarith [hx.1])
  · rw [mul_zero]
    have e : (fun p : ℝ × ℝ => ∫ x in p.1..p.2, (reduced D w x).im) =
        fun p : ℝ × ℝ => (∫ x in (0 : ℝ)..p.2, (reduced D w x).im) - ∫ x in (0 : ℝ)..p.1, (reduced D w x).im := by
      funext p
      rw [intervalIntegral.integral_interval_sub_left (hint _ _) (hint _ _)]
    rw [e]
    have t1 := half.comp (tendsto_snd (f := 𝓝[>] (0 : ℝ)) (g := (atTop : Filter ℝ)))
    have t2 : Tendsto (fun a : ℝ => ∫ x in (0 : ℝ)..a, (reduced D w x).im) (𝓝[>] 0) (𝓝 0) := by
      have := prim.tendsto 0
      rw [intervalIntegral.integral_same] at this
      exact this.mono_left nhdsWithin_le_nhds
    have := t1.sub (t2.comp (tendsto_fst (f := 𝓝[>] (0 : ℝ)) (g := (atTop : Filter ℝ))))
    simpa using this

end

/-- A Lorentz oscillator at complex frequencies. -/
noncomputable def lzc (A q g : ℝ) (z : ℂ) : ℂ := (A : ℂ) / ((q : ℂ) - z ^ 2 - I * g * z)

lemma lzc_den {q g : ℝ} (hg : 0 < g) (hq : g ^ 2 ≤ q) {z : ℂ} (hz : z ∈ UpperOf (g / 2)) : (q : ℂ) - z ^ 2 - I * g * z ≠ 0 := by
  intro h
  have h1 := congrArg im h
  have h2 := congrArg re h
  simp [pow_two] at h1 h2
  have hz' : -(g / 2) < z.im := hz
  have h3 : z.re * (2 * z.im + g) = 0 := by linarith
  rcases mul_eq_zero.1 h3 with h4 | h4
  · rw [h4] at h2
    nlinarith [sq_nonneg (z.im + g / 2)]
  · linarith

lemma lzc_causal (A : ℝ) {q g : ℝ} (hg : 0 < g) (hq : g ^ 2 ≤ q) : Causal (g / 2) (lzc A q g) := by
  refine ⟨?_, ?_, ?_⟩
  · intro z hz
    have h1 : DifferentiableAt ℂ (fun z : ℂ => (q : ℂ) - z ^ 2 - I * g * z) z := by fun_prop
    exact ((differentiableAt_const (A : ℂ)).div h1 (lzc_den hg hq hz)).differentiableWithinAt
  · intro x
    unfold lzc
    rw [map_div₀]
    simp
  · refine ⟨2 * |A|, max 1 (2 * (|q| + g + 1)), fun z hz hR => ?_⟩
    have r1 : 1 ≤ ‖z‖ := (le_max_left _ _).trans hR
    have r2 : 2 * (|q| + g + 1) ≤ ‖z‖ := (le_max_right _ _).trans hR
    have hq0 := abs_nonneg q
    unfold lzc
    rw [norm_div, norm_real, Real.norm_eq_abs]
    have h1 : ‖z‖ / 2 ≤ ‖(q : ℂ) - z ^ 2 - I * g * z‖ := by
      have h2 : ‖z ^ 2‖ - ‖(q : ℂ) - I * g * z‖ ≤ ‖(q : ℂ) - z ^ 2 - I * g * z‖ := by
        have := norm_sub_norm_le (z ^ 2) ((q : ℂ) - I * g * z)
        rwa [show z ^ 2 - ((q : ℂ) - I * g * z) = -((q : ℂ) - z ^ 2 - I * g * z) by ring, norm_neg] at this
      have h3 : ‖(q : ℂ) - I * g * z‖ ≤ |q| + g * ‖z‖ := by
        refine (norm_sub_le _ _).trans ?_
        rw [norm_mul, norm_mul, norm_I, norm_real, norm_real, Real.norm_eq_abs, Real.norm_eq_abs, abs_of_pos hg, one_mul]
      rw [norm_pow] at h2
      nlinarith
    calc |A| / ‖(q : ℂ) - z ^ 2 - I * g * z‖ ≤ |A| / (‖z‖ / 2) := div_le_div_of_nonneg_left (abs_nonneg _) (by positivity) h1
      _ = 2 * |A| / ‖z‖ := by field_simp

lemma Causal.mono {δ δ' : ℝ} {F : ℂ → ℂ} (h : Causal δ F) (hd : δ' ≤ δ) : Causal δ' F :=
  ⟨h.diff.mono fun z hz => by simp only [UpperOf, Set.mem_setOf_eq] at *; linarith, h.cross, h.decay⟩

lemma Causal.sub {δ : ℝ} {F G : ℂ → ℂ} (h : Causal δ F) (h' : Causal δ G) : Causal δ (fun z => F z - G z) := by
  refine ⟨h.diff.sub h'.diff, fun x => by rw [h.cross, h'.cross, map_sub], ?_⟩
  obtain ⟨C, R, hC⟩ := h.decay
  obtain ⟨C', R', hC'⟩ := h'.decay
  refine ⟨C + C', max R R', fun z hz hR => (norm_sub_le _ _).trans ?_⟩
  rw [add_div]
  exact add_le_add (hC z hz ((le_max_left _ _).trans hR)) (hC' z hz ((le_max_right _ _).trans hR))

lemma Causal.contOn {δ : ℝ} {F : ℂ → ℂ} (hδ : 0 < δ) (h : Causal δ F) : Continuous (fun x : ℝ => (F x).im) ∧ ∀ w : ℝ, DifferentiableAt ℝ (fun x : ℝ => (F x).im) w := by
  have d : ∀ w : ℝ, DifferentiableAt ℝ (fun x : ℝ => (F x).im) w := by
    intro w
    have h1 : DifferentiableAt ℝ (fun x : ℝ => (x : ℂ)) w := Complex.ofRealCLM.differentiableAt
    have h2 : DifferentiableAt ℂ F (w : ℂ) := h.diff.differentiableAt ((isOpen_upperOf δ).mem_nhds (by simp [UpperOf]; exact hδ))
    have h3 : DifferentiableAt ℝ (fun x : ℝ => F x) w := DifferentiableAt.comp (g := F) w (h2.restrictScalars ℝ) h1
    exact (Complex.imCLM.differentiableAt).comp w h3
  exact ⟨continuous_iff_continuousAt.2 fun x => (d x).continuousAt, d⟩

/-- The Kramers-Kronig relation for functions analytic in the upper half plane. -/
theorem kk_of_causal {δ : ℝ} {F : ℂ → ℂ} (hδ : 0 < δ) (h : Causal δ F) {w : ℝ} (hw : 0 < w) : Kk (fun x => (F x).im) w (F w).re := by
  set p := (F w).re with hp
  set q := (F w).im with hq
  set a := w ^ 2 * (q - p) with ha
  set b := 2 * w ^ 2 * p with hb
  have hs : (√2 * w) ^ 2 = 2 * w ^ 2 := by rw [mul_pow, Real.sq_sqrt (by norm_num)]
  have L1 : ∀ x : ℝ, lzc a (w ^ 2) w x = lz a w w x := fun x => by unfold lzc lz; push_cast; rfl
  have L2 : ∀ x : ℝ, lzc b (2 * w ^ 2) w x = lz b (√2 * w) w x := fun x => by
    unfold lzc lz
    rw [← hs]
    push_cast
    rfl
  have c1 := (lzc_causal a hw (le_refl (w ^ 2))).mono (min_le_right δ (w / 2))
  have c2 := (lzc_causal b (q := 2 * w ^ 2) hw (by nlinarith)).mono (min_le_right δ (w / 2))
  have hm : 0 < min δ (w / 2) := lt_min hδ (by linarith)
  have c0 := ((h.mono (min_le_left δ (w / 2))).sub c1).sub c2
  have hwc : (w : ℂ) ≠ 0 := by exact_mod_cast hw.ne'
  have v1 : lzc a (w ^ 2) w w = ((a / w ^ 2 : ℝ) : ℂ) * I := by
    unfold lzc
    push_cast
    rw [show (w : ℂ) ^ 2 - (w : ℂ) ^ 2 - I * w * w = -(I * w ^ 2) by ring]
    field_simp
    rw [I_sq]
    ring
  have hI : (1 : ℂ) - I ≠ 0 := by
    intro h
    have := congrArg re h
    simp at this
  have v2 : lzc b (2 * w ^ 2) w w = ((b / (2 * w ^ 2) : ℝ) : ℂ) * (1 + I) := by
    unfold lzc
    push_cast
    rw [show 2 * (w : ℂ) ^ 2 - (w : ℂ) ^ 2 - I * w * w = (w : ℂ) ^ 2 * (1 - I) by ring]
    field_simp
    ring_nf
    rw [I_sq]
    ring
  have hw2 : w ^ 2 ≠ 0 := by positivity
  have e1 : a / w ^ 2 = q - p := by rw [ha]; field_simp
  have e2 : b / (2 * w ^ 2) = p := by rw [hb]; field_simp
  have hzero : (fun z => F z - lzc a (w ^ 2) w z - lzc b (2 * w ^ 2) w z) (w : ℂ) = 0 := by
    simp only
    rw [v1, v2, e1, e2]
    have : F w = p + q * I := (re_add_im (F w)).symm
    rw [this]
    push_cast
    ring
  have k0 := kk_of_zero hm c0 hw hzero
  have k1 : Kk (fun x => (lzc a (w ^ 2) w x).im) w 0 := by
    have := lz_kk a w (g := w) hw hw
    rw [← L1, v1, re_ofReal_mul, I_re, mul_zero] at this
    simp only [← L1] at this
    exact this
  have k2 : Kk (fun x => (lzc b (2 * w ^ 2) w x).im) w p := by
    have := lz_kk b (√2 * w) (g := w) hw hw
    rw [← L2, v2, e2, re_ofReal_mul, add_re, one_re, I_re, add_zero, mul_one] at this
    simp only [← L2] at this
    exact this
  have s := kk_add hw (c1.contOn hm).1.continuousOn (c2.contOn hm).1.continuousOn k1 k2
  have t := kk_add hw (c0.contOn hm).1.continuousOn ((c1.contOn hm).1.add (c2.contOn hm).1).continuousOn k0 s
  rw [zero_add, zero_add] at t
  refine kk_congr (fun x _ => ?_) t
  simp

end PyElli
