import Verif.Props.Kkr
import Verif.Lemmas.PvHalf
import Mathlib.MeasureTheory.Integral.IntervalIntegral.IntegrationByParts

/-! # The Kramers-Kronig sums converge to the principal value integrals (C89) -/

namespace PyElli

open Filter Topology MeasureTheory

/-- The integral each transform stands for, for data `f` on the axis `[a, b]`. With frequency as axis, `P∫ x f(x)/(x² - w²)` for the real part and
`P∫ w f(x)/(x² - w²)` for the imaginary part; with wavelength as axis the same integral over the frequencies `1/x`. -/
def KkIntegral : KkrKind → (ℝ → ℝ) → (a w b v : ℝ) → Prop
  | .im2re, f, a, w, b, v => Spec.IsPV (fun x => x * f x / (x ^ 2 - w ^ 2)) a w b v
  | .re2im, f, a, w, b, v => Spec.IsPV (fun x => w * f x / (x ^ 2 - w ^ 2)) a w b v
  | .im2reReciprocal, f, a, w, b, v => Spec.IsPV (fun e => e * f (1 / e) / (e ^ 2 - (1 / w) ^ 2)) (1 / b) (1 / w) (1 / a) v
  | .re2imReciprocal, f, a, w, b, v => Spec.IsPV (fun e => 1 / w * f (1 / e) / (e ^ 2 - (1 / w) ^ 2)) (1 / b) (1 / w) (1 / a) v

/-- Numerator of the integrand over `x - w`. -/
noncomputable def kkNum (k : KkrKind) (w : ℝ) (f : ℝ → ℝ) (x : ℝ) : ℝ :=
  match k with
  | .im2re => x / (x + w) * f x
  | .re2im => w / (x + w) * f x
  | .im2reReciprocal => -(w ^ 2 / (x * (x + w))) * f x
  | .re2imReciprocal => -(w / (x + w)) * f x

lemma kkNum_continuousOn (k : KkrKind) (w : ℝ) (hw : 0 < w) (f : ℝ → ℝ) (a b : ℝ) (ha : 0 < a) (hf : ContinuousOn f (Set.Icc a b)) :
    ContinuousOn (kkNum k w f) (Set.Icc a b) := by
  have h1 : ∀ x ∈ Set.Icc a b, x + w ≠ 0 := fun x hx => by have := hx.1; linarith
  have h2 : ∀ x ∈ Set.Icc a b, x * (x + w) ≠ 0 := fun x hx => by
    have := hx.1
    have : 0 < x := by linarith
    positivity
  have ci : ContinuousOn (fun x : ℝ => x) (Set.Icc a b) := continuousOn_id
  have cs : ContinuousOn (fun x : ℝ => x + w) (Set.Icc a b) := ci.add continuousOn_const
  cases k
  · exact (continuousOn_const.div cs h1).mul hf
  · exact (ci.div cs h1).mul hf
  · exact (continuousOn_const.div cs h1).neg.mul hf
  · exact (continuousOn_const.div (ci.mul cs) h2).neg.mul hf

lemma kkNum_differentiableAt (k : KkrKind) (w : ℝ) (hw : 0 < w) (f : ℝ → ℝ) (hf : DifferentiableAt ℝ f w) :
    DifferentiableAt ℝ (kkNum k w f) w := by
  have di : DifferentiableAt ℝ (fun x : ℝ => x) w := differentiableAt_id
  have ds : DifferentiableAt ℝ (fun x : ℝ => x + w) w := di.add_const w
  have h1 : w + w ≠ 0 := by positivity
  have h2 : w * (w + w) ≠ 0 := by positivity
  cases k
  · exact ((differentiableAt_const w).div ds h1).mul hf
  · exact (di.div ds h1).mul hf
  · exact ((differentiableAt_const w).div ds h1).neg.mul hf
  · exact ((differentiableAt_const (w ^ 2)).div (di.mul ds) h2).neg.mul hf

lemma kkNum_eq (k : KkrKind) {w x : ℝ} (hw : 0 < w) (hx : 0 < x) (hne : x ≠ w) (f : ℝ → ℝ) :
    docKernel k x w * f x = kkNum k w f x / (x - w) := by
  have h1 : x - w ≠ 0 := sub_ne_zero.2 hne
  have h2 : x + w ≠ 0 := by positivity
  have h3 : x ^ 2 - w ^ 2 ≠ 0 := by rw [show x ^ 2 - w ^ 2 = (x - w) * (x + w) by ring]; exact mul_ne_zero h1 h2
  have h4 : w ^ 2 - x ^ 2 ≠ 0 := fun h => h3 (by linarith)
  cases k
  · simp only [docKernel, kkNum]; field_simp; ring
  · simp only [docKernel, kkNum]; field_simp; ring
  · simp only [docKernel, kkNum]
    rw [show w - x ^ 2 / w = (w ^ 2 - x ^ 2) / w by field_simp]
    field_simp; ring
  · simp only [docKernel, kkNum]
    rw [show x * (1 - x ^ 2 / w ^ 2) = x * (w ^ 2 - x ^ 2) / w ^ 2 by field_simp]
    field_simp; ring

/-- Substitution `e = 1/x`. -/
lemma integral_inv_subst (F : ℝ → ℝ) (u v : ℝ) (hu : 0 < u) (huv : u ≤ v) (hF : ContinuousOn F (Set.Icc (1 / v) (1 / u))) :
    (∫ e in (1 / v)..(1 / u), F e) = ∫ x in u..v, F (1 / x) / x ^ 2 := by
  have hpos : ∀ x ∈ Set.uIcc u v, 0 < x := fun x hx => by rw [Set.uIcc_of_le huv] at hx; linarith [hx.1]
  have key := intervalIntegral.integral_comp_mul_deriv'' (a := u) (b := v) (f := fun x : ℝ => x⁻¹) (f' := fun x => -(x ^ 2)⁻¹) (g := F)
    (fun x hx => (continuousAt_inv₀ (hpos x hx).ne').continuousWithinAt)
    (fun x hx => by
      have : 0 < x := by
        rw [min_eq_left huv] at hx
        linarith [hx.1]
      exact (hasDerivAt_inv this.ne').hasDerivWithinAt)
    (by
      refine ContinuousOn.neg (ContinuousOn.inv₀ (continuousOn_id.pow 2) fun x hx => ?_)
      have := hpos x hx
      positivity)
    (by
      refine hF.mono ?_
      rintro _ ⟨x, hx, rfl⟩
      have hx0 := hpos x hx
      rw [Set.uIcc_of_le huv] at hx
      simp only [one_div]
      exact ⟨inv_anti₀ hx0 hx.2, inv_anti₀ hu hx.1⟩)
  rw [one_div, one_div, intervalIntegral.integral_symm, ← key, ← intervalIntegral.integral_neg]
  refine intervalIntegral.integral_congr fun x _ => ?_
  simp only [Function.comp, one_div]
  ring

lemma pv_recip (F : ℝ → ℝ) (g : ℝ → ℝ) (a w b : ℝ) (ha : 0 < a) (haw : a < w) (hwb : w < b) (hg : ContinuousOn g (Set.Icc a b))
    (hd : DifferentiableAt ℝ g w) (hF : ∀ x, a ≤ x → x ≤ b → x ≠ w → F (1 / x) / x ^ 2 = g x / (x - w)) :
    Spec.IsPV F (1 / b) (1 / w) (1 / a) (pvVal g a w b) := by
  have hw0 : 0 < w := ha.trans haw
  have hb0 : 0 < b := hw0.trans hwb
  have hFe : ∀ e, 1 / b ≤ e → e ≤ 1 / a → e ≠ 1 / w → F e = g (1 / e) / (1 / e - w) * (1 / e) ^ 2 := by
    intro e h1 h2 h3
    have he : 0 < e := lt_of_lt_of_le (by positivity) h1
    have := hF (1 / e) ((le_one_div he ha).1 h2) ((one_div_le hb0 he).1 h1) (fun h => h3 (by rw [← h, one_div_one_div]))
    rw [one_div_one_div] at this
    rw [← this]
    field_simp
  have hFc : ∀ p q, 1 / b ≤ p → q ≤ 1 / a → (∀ e ∈ Set.Icc p q, e ≠ 1 / w) → ContinuousOn F (Set.Icc p q) := by
    intro p q hp hq hne
    have hpos : ∀ e ∈ Set.Icc p q, 0 < e := fun e he => lt_of_lt_of_le (by positivity) (hp.trans he.1)
    have ci : ContinuousOn (fun e : ℝ => 1 / e) (Set.Icc p q) := continuousOn_const.div continuousOn_id fun e he => (hpos e he).ne'
    have cg : ContinuousOn (fun e : ℝ => g (1 / e)) (Set.Icc p q) := hg.comp ci fun e he =>
      ⟨(le_one_div (hpos e he) ha).1 (he.2.trans hq), (one_div_le hb0 (hpos e he)).1 (hp.trans he.1)⟩
    refine ContinuousOn.congr (f := fun e => g (1 / e) / (1 / e - w) * (1 / e) ^ 2) ((cg.div (ci.sub continuousOn_const) fun e he h0 => ?_).mul (ci.pow 2))
      fun e he => hFe e (hp.trans he.1) (he.2.trans hq) (hne e he)
    have h1 : 1 / e - w = 0 := h0
    exact hne e he (by rw [← sub_eq_zero.1 h1, one_div_one_div])
  have hp : ∀ᶠ d in 𝓝[>] (0 : ℝ), 0 < d := eventually_mem_nhdsWithin
  have hsm : ∀ᶠ d in 𝓝[>] (0 : ℝ), d < 1 / w - 1 / b ∧ d < 1 / a - 1 / w := by
    have h1 : 0 < 1 / w - 1 / b := sub_pos.2 (one_div_lt_one_div_of_lt hw0 hwb)
    have h2 : 0 < 1 / a - 1 / w := sub_pos.2 (one_div_lt_one_div_of_lt ha haw)
    filter_upwards [Ioo_mem_nhdsGT (lt_min h1 h2)] with d hd
    exact ⟨hd.2.trans_le (min_le_left _ _), hd.2.trans_le (min_le_right _ _)⟩
  have hid : Tendsto (fun d : ℝ => d) (𝓝[>] 0) (𝓝 0) := nhdsWithin_le_nhds
  have hm1 : ∀ᶠ d in 𝓝[>] (0 : ℝ), 0 < 1 - w * d := by
    filter_upwards [hsm] with d h
    have h1 : d < 1 / w := lt_trans h.1 (by have : 0 < 1 / b := by positivity
                                            linarith)
    rw [lt_div_iff₀ hw0] at h1
    linarith
  have t := pv_gap (l := 𝓝[>] (0 : ℝ)) g a w b haw hwb hg hd (fun d => w ^ 2 * d / (1 + w * d)) (fun d => w ^ 2 * d / (1 - w * d))
    (by
      have := (hid.const_mul (w ^ 2)).div ((hid.const_mul w).const_add 1) (by simp)
      rw [mul_zero, zero_div] at this
      exact this)
    (by
      have := (hid.const_mul (w ^ 2)).div ((hid.const_mul w).const_sub 1) (by simp)
      rw [mul_zero, zero_div] at this
      exact this)
    (by filter_upwards [hp] with d h; positivity)
    (by filter_upwards [hp, hm1] with d h h1; positivity)
    (by
      have := ((hid.const_mul w).const_sub 1).div ((hid.const_mul w).const_add 1) (by simp)
      rw [show (1 - w * 0) / (1 + w * 0) = (1 : ℝ) by simp] at this
      refine this.congr' ?_
      filter_upwards [hp, hm1] with d h h1
      have : 1 + w * d ≠ 0 := by positivity
      simp only [Pi.div_apply]
      field_simp)
  refine t.congr' ?_
  filter_upwards [hp, hsm, hm1] with d h0 ⟨h1, h2⟩ h3
  unfold gapInt
  have q1 : (0 : ℝ) < 1 + w * d := by positivity
  have e1 : w - w ^ 2 * d / (1 + w * d) = 1 / (1 / w + d) := by field_simp; ring
  have q2 : 0 < 1 / w - d := by
    have : (0 : ℝ) < 1 / b := by positivity
    linarith
  have e2 : w + w ^ 2 * d / (1 - w * d) = 1 / (1 / w - d) := by
    rw [eq_div_iff q2.ne']
    field_simp
    ring
  have q3 : 0 < 1 / w + d := by positivity
  have p1 : a ≤ 1 / (1 / w + d) := (le_one_div ha q3).2 (by linarith)
  have p2 : 1 / (1 / w - d) ≤ b := (one_div_le q2 hb0).2 (by linarith)
  have p3 : 1 / (1 / w + d) < w := (one_div_lt q3 hw0).2 (by linarith)
  have p4 : w < 1 / (1 / w - d) := (lt_one_div hw0 q2).2 (by linarith)
  rw [e1, e2, add_comm (∫ x in a..(1 / (1 / w + d)), g x / (x - w))]
  congr 1
  · have := integral_inv_subst F (1 / (1 / w - d)) b (by positivity) p2 (by
      rw [one_div_one_div]
      exact hFc _ _ le_rfl (by linarith [one_div_lt_one_div_of_lt ha haw]) fun e he h => by linarith [he.2])
    rw [one_div_one_div] at this
    rw [this]
    refine intervalIntegral.integral_congr fun x hx => ?_
    rw [Set.uIcc_of_le p2] at hx
    exact (hF x (by linarith [hx.1]) hx.2 (ne_of_gt (by linarith [hx.1]))).symm
  · have := integral_inv_subst F a (1 / (1 / w + d)) ha p1 (by
      rw [one_div_one_div]
      exact hFc _ _ (by linarith [one_div_lt_one_div_of_lt hw0 hwb]) le_rfl fun e he h => by linarith [he.1])
    rw [one_div_one_div] at this
    rw [this]
    refine intervalIntegral.integral_congr fun x hx => ?_
    rw [Set.uIcc_of_le p1] at hx
    exact (hF x hx.1 (by linarith [hx.2]) (ne_of_lt (by linarith [hx.2]))).symm

lemma kkIntegral_pvVal (k : KkrKind) (f : ℝ → ℝ) (a w b : ℝ) (ha : 0 < a) (haw : a < w) (hwb : w < b) (hf : ContinuousOn f (Set.Icc a b))
    (hd : DifferentiableAt ℝ f w) : KkIntegral k f a w b (pvVal (kkNum k w f) a w b) := by
  have hw0 : 0 < w := ha.trans haw
  have hc := kkNum_continuousOn k w hw0 f a b ha hf
  have hdd := kkNum_differentiableAt k w hw0 f hd
  have hfac : ∀ x, a ≤ x → x ≠ w → 0 < x ∧ x - w ≠ 0 ∧ x + w ≠ 0 ∧ x ^ 2 - w ^ 2 ≠ 0 := by
    intro x hx hne
    have h0 : 0 < x := by linarith
    have h1 : x - w ≠ 0 := sub_ne_zero.2 hne
    have h2 : x + w ≠ 0 := by positivity
    exact ⟨h0, h1, h2, by rw [show x ^ 2 - w ^ 2 = (x - w) * (x + w) by ring]; exact mul_ne_zero h1 h2⟩
  cases k
  · refine isPV_congr haw hwb (fun x hx _ hne => ?_) (pv_isPV _ a w b haw hwb hc hdd)
    obtain ⟨h0, h1, h2, h3⟩ := hfac x hx hne
    simp only [kkNum]; field_simp; ring
  · refine isPV_congr haw hwb (fun x hx _ hne => ?_) (pv_isPV _ a w b haw hwb hc hdd)
    obtain ⟨h0, h1, h2, h3⟩ := hfac x hx hne
    simp only [kkNum]; field_simp; ring
  · refine pv_recip _ _ a w b ha haw hwb hc hdd fun x hx _ hne => ?_
    obtain ⟨h0, h1, h2, h3⟩ := hfac x hx hne
    have h4 : w ^ 2 - x ^ 2 ≠ 0 := fun h => h3 (by linarith)
    simp only [kkNum, one_div_one_div]
    rw [show (1 / x) ^ 2 - (1 / w) ^ 2 = (w ^ 2 - x ^ 2) / (x ^ 2 * w ^ 2) by field_simp]
    field_simp; ring
  · refine pv_recip _ _ a w b ha haw hwb hc hdd fun x hx _ hne => ?_
    obtain ⟨h0, h1, h2, h3⟩ := hfac x hx hne
    have h4 : w ^ 2 - x ^ 2 ≠ 0 := fun h => h3 (by linarith)
    simp only [kkNum, one_div_one_div]
    rw [show (1 / x) ^ 2 - (1 / w) ^ 2 = (w ^ 2 - x ^ 2) / (x ^ 2 * w ^ 2) by field_simp]
    field_simp; ring

/-- An equidistant axis of `n` points from `a` to `b`. -/
def IsAxis (x : List ℝ) (a b : ℝ) : Prop := ∃ h, 0 < h ∧ (∀ j < x.length, x[j]? = some (a + j * h)) ∧ a + ((x.length : ℝ) - 1) * h = b

/-- C89: as the equidistant axis over `[a, b]` is refined, the value the transforms give at a point `w` inside tends to `2/π` times the principal value
integral over `[a, b]`. `f` is the sampled function. -/
theorem C89_limit (k : KkrKind) (f : ℝ → ℝ) (a w b : ℝ) (ha : 0 < a) (haw : a < w) (hwb : w < b) (hf : ContinuousOn f (Set.Icc a b))
    (hd : DifferentiableAt ℝ f w) :
    ∃ v, KkIntegral k f a w b v ∧
      ∀ (x : ℕ → List ℝ) (i : ℕ → ℕ), (∀ m, IsAxis (x m) a b) → (∀ m, (x m)[i m]? = some w) → Tendsto (fun m => (x m).length) atTop atTop →
        ∃ y : ℕ → ℝ, (∀ m, ∃ o, calcKkr k ((x m).map f) (x m) = .ok o ∧ o[i m]? = some (some (y m))) ∧
          Tendsto y atTop (𝓝 (2 / Real.pi * v)) := by
  have hw0 : 0 < w := ha.trans haw
  refine ⟨_, kkIntegral_pvVal k f a w b ha haw hwb hf hd, ?_⟩
  intro x i hx hi hn
  choose h hh hxj hb using hx
  have hin : ∀ m, i m < (x m).length := fun m => by
    by_contra hc
    have := hi m
    rw [List.getElem?_eq_none (not_lt.1 hc)] at this
    exact absurd this (by simp)
  have hw : ∀ m, a + i m * h m = w := fun m => by
    have h1 := hxj m (i m) (hin m)
    rw [hi m] at h1
    exact (Option.some.inj h1).symm
  have hi1 : ∀ m, 1 ≤ i m := fun m => (grid_pos haw hwb (hh m) (hb m) (hw m)).1
  have hex := fun m => C56_weight_partial k ((x m).map f) (x m) a (h m) ha (hh m) (by simp) (by have := hin m; have := hi1 m; omega) (hxj m) (i m) (hi1 m) (hin m)
  refine ⟨_, hex, ?_⟩
  refine ((pv_grid (kkNum k w f) a w b haw hwb (kkNum_continuousOn k w hw0 f a b ha hf) (kkNum_differentiableAt k w hw0 f hd)
    (fun m => (x m).length) i h hn hh hb hw).const_mul (2 / Real.pi)).congr fun m => ?_
  unfold Spec.maclaurin
  rw [← mul_assoc]
  congr 1
  refine Finset.sum_congr rfl fun j hj => ?_
  have hj' := Finset.mem_range.1 hj
  split_ifs with hp
  · have hne : a + j * h m ≠ w := by
      intro h0
      have h1 : ((j : ℝ) - i m) * h m = 0 := by linarith [hw m]
      rcases mul_eq_zero.1 h1 with h2 | h2
      · apply hp
        have : j = i m := by exact_mod_cast sub_eq_zero.1 h2
        rw [this]
      · exact (hh m).ne' h2
    have hpos : 0 < a + j * h m := by
      have := hh m
      positivity
    rw [← kkNum_eq k hw0 hpos hne f]
    simp only [hw m]
    congr 1
    simp [List.getD_eq_getElem?_getD, List.getElem?_map, hxj m j hj']
  · rfl

/-- A Gaussian absorption on `[1, 3]`, `w = 2` and axes of `2m + 3` points. -/
example : ∃ v, KkIntegral .im2re (fun x => Real.exp (-(x - 2) ^ 2)) 1 2 3 v ∧
    ∃ y : ℕ → ℝ, (∀ m : ℕ, ∃ o, calcKkr .im2re (((List.range (2 * m + 3)).map fun j : ℕ => (1 : ℝ) + j * (1 / (m + 1))).map fun x => Real.exp (-(x - 2) ^ 2))
        ((List.range (2 * m + 3)).map fun j : ℕ => (1 : ℝ) + j * (1 / (m + 1))) = .ok o ∧ o[m + 1]? = some (some (y m))) ∧
      Tendsto y atTop (𝓝 (2 / Real.pi * v)) := by
  obtain ⟨v, hv, h⟩ := C89_limit .im2re (fun x => Real.exp (-(x - 2) ^ 2)) 1 2 3 (by norm_num) (by norm_num) (by norm_num)
    (by fun_prop) (by fun_prop)
  refine ⟨v, hv, h (fun m => (List.range (2 * m + 3)).map fun j : ℕ => (1 : ℝ) + j * (1 / (m + 1))) (fun m => m + 1) (fun m => ?_) (fun m => ?_) ?_⟩
  · refine ⟨1 / (m + 1), by positivity, fun j hj => ?_, ?_⟩
    · simp only [List.length_map, List.length_range] at hj
      simp [hj]
    · simp only [List.length_map, List.length_range]
      push_cast
      field_simp
      ring
  · have : m + 1 < 2 * m + 3 := by omega
    simp only [List.getElem?_map, List.getElem?_range this, Option.map_some]
    push_cast
    congr 1
    field_simp
    ring
  · simp only [List.length_map, List.length_range]
    exact tendsto_atTop_mono (fun m => by omega : ∀ m, m ≤ 2 * m + 3) tendsto_id

/-- The formula in the docstring of `im2re_reciprocal` (`kkr.py:226-228`) is not what the code converges to: it has `x Im(x)` where `Im(x)/x` is needed. For
constant data and `w = 1` the two differ by `log (b/a)`. -/
theorem C89_reciprocal_docstring_refuted (a b : ℝ) (ha : 0 < a) (ha1 : a < 1) (hb : 1 < b) :
    ∃ v v', KkIntegral .im2reReciprocal (fun _ => 1) a 1 b v ∧ Spec.IsPV (fun x => x * 1 / (1 - x ^ 2 / 1 ^ 2)) a 1 b v' ∧ v' ≠ v := by
  set g : ℝ → ℝ := kkNum .im2reReciprocal 1 fun _ => 1 with hg
  have cf : ContinuousOn (fun _ : ℝ => (1 : ℝ)) (Set.Icc a b) := continuousOn_const
  have h1 := kkIntegral_pvVal .im2reReciprocal (fun _ => 1) a 1 b ha ha1 hb cf (differentiableAt_const _)
  have hc := kkNum_continuousOn .im2reReciprocal 1 one_pos (fun _ => 1) a b ha cf
  have hd := kkNum_differentiableAt .im2reReciprocal 1 one_pos (fun _ => 1) (differentiableAt_const _)
  have h2 := pv_isPV g a 1 b ha1 hb hc hd
  have hpos : ∀ x ∈ Set.Icc a b, 0 < x := fun x hx => lt_of_lt_of_le ha hx.1
  have h3 : Spec.IsPV (fun x => -(1 / x)) a 1 b (0 * Real.log ((b - 1) / (1 - a)) + (-Real.log b - -Real.log a)) := by
    refine isPV_antideriv (φ := fun x => -(1 / x)) (Φ := fun x => -Real.log x) ha1 hb ?_ ?_ ?_
    · exact (continuousOn_const.div continuousOn_id fun x hx => (hpos x hx).ne').neg
    · intro x hx
      rw [one_div]
      exact (Real.hasDerivAt_log (hpos x hx).ne').neg
    · intro x _ _ _
      ring
  have c1 : ContinuousOn (fun x => g x / (x - 1)) (Set.Icc a b \ {1}) :=
    (hc.mono Set.diff_subset).div (continuousOn_id.sub continuousOn_const) fun x hx => sub_ne_zero.2 hx.2
  have c2 : ContinuousOn (fun x : ℝ => -(1 / x)) (Set.Icc a b \ {1}) :=
    (continuousOn_const.div continuousOn_id fun x hx => (hpos x hx.1).ne').neg
  refine ⟨_, _, h1, isPV_congr ha1 hb (fun x hx1 hx2 hne => ?_) (isPV_add ha1 hb c1 c2 h2 h3), ?_⟩
  · have h0 : 0 < x := by linarith
    have h5 : x - 1 ≠ 0 := sub_ne_zero.2 hne
    have h6 : x + 1 ≠ 0 := by positivity
    have h7 : 1 - x ^ 2 ≠ 0 := by
      rw [show 1 - x ^ 2 = -((x - 1) * (x + 1)) by ring]
      exact neg_ne_zero.2 (mul_ne_zero h5 h6)
    simp only [hg, kkNum]
    rw [one_pow, div_one]
    field_simp
    ring
  · have : Real.log a < Real.log b := Real.log_lt_log ha (by linarith)
    intro h
    have : -Real.log b - -Real.log a = 0 := by linarith
    linarith

end PyElli
