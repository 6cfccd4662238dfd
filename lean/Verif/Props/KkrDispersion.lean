import Verif.Props.KkrCausal
import Verif.Props.Passivity
import Verif.Props.DispersionDoc
import Verif.Lemmas.TaucKk
import Verif.Lemmas.GaussKk

/-! # Kramers-Kronig consistency of the oscillator models (C91)

The real and the imaginary part that a dispersion model computes belong to one causal response: `im2re_reciprocal`, applied to the
imaginary part over the wavelength, reproduces the real part. -/

namespace PyElli

open Filter Topology MeasureTheory Complex

/-! ## Scaling of the axis -/

lemma isPV_scale {F : ℝ → ℝ} {k a w b v : ℝ} (hk : 0 < k) (h : Spec.IsPV F (k * a) (k * w) (k * b) v) : Spec.IsPV (fun x => k * F (k * x)) a w b v := by
  have h1 : Tendsto (fun d : ℝ => k * d) (𝓝[>] 0) (𝓝[>] 0) := by
    refine tendsto_nhdsWithin_iff.2 ⟨?_, ?_⟩
    · have : Tendsto (fun d : ℝ => k * d) (𝓝 0) (𝓝 (k * 0)) := (continuous_const.mul continuous_id).tendsto 0
      rw [mul_zero] at this
      exact this.mono_left nhdsWithin_le_nhds
    · filter_upwards [self_mem_nhdsWithin] with d hd
      exact mul_pos hk hd
  have h2 := Tendsto.comp h h1
  refine h2.congr fun d => ?_
  simp only [Function.comp, intervalIntegral.integral_const_mul]
  rw [intervalIntegral.mul_integral_comp_mul_left, intervalIntegral.mul_integral_comp_mul_left, mul_sub, mul_add]

lemma mul_tendsto_zero {k : ℝ} (hk : 0 < k) : Tendsto (fun d : ℝ => k * d) (𝓝[>] 0) (𝓝[>] 0) := by
  refine tendsto_nhdsWithin_iff.2 ⟨?_, ?_⟩
  · have : Tendsto (fun d : ℝ => k * d) (𝓝 0) (𝓝 (k * 0)) := (continuous_const.mul continuous_id).tendsto 0
    rw [mul_zero] at this
    exact this.mono_left nhdsWithin_le_nhds
  · filter_upwards [self_mem_nhdsWithin] with d hd
    exact mul_pos hk hd

/-- `v` is the real part at `w` that belongs to the imaginary part `f`. -/
def Kk (f : ℝ → ℝ) (w v : ℝ) : Prop := Spec.IsPVHalf (fun x => x * f x / (x ^ 2 - w ^ 2)) w (Real.pi / 2 * v)

lemma kk_scale {f : ℝ → ℝ} {k w v : ℝ} (hk : 0 < k) (h : Kk f (k * w) v) : Kk (fun x => f (k * x)) w v := by
  obtain ⟨V, h1, h2⟩ := h
  refine ⟨fun a b => V (k * a) (k * b), fun a b ha haw hwb => ?_, ?_⟩
  · have := isPV_scale hk (h1 (k * a) (k * b) (mul_pos hk ha) (mul_lt_mul_of_pos_left haw hk) (mul_lt_mul_of_pos_left hwb hk))
    refine isPV_congr haw hwb (fun x _ _ hne => ?_) this
    rw [mul_pow, mul_pow, ← mul_sub]
    have := hk.ne'
    rcases eq_or_ne (x ^ 2 - w ^ 2) 0 with h0 | h0
    · rw [h0]; simp
    · field_simp
  · exact h2.comp (f := fun p : ℝ × ℝ => (k * p.1, k * p.2))
      (Tendsto.prodMk ((mul_tendsto_zero hk).comp tendsto_fst) ((tendsto_id.const_mul_atTop hk).comp tendsto_snd))

lemma frac_contOn (f : ℝ → ℝ) (w : ℝ) (hw : 0 < w) (hf : ContinuousOn f (Set.Ioi 0)) : ContinuousOn (fun x => x * f x / (x ^ 2 - w ^ 2)) (Set.Ioi 0 \ {w}) := by
  refine (continuousOn_id.mul (hf.mono Set.diff_subset)).div (by fun_prop) fun x hx => ?_
  have h0 : 0 < x := hx.1
  rw [show x ^ 2 - w ^ 2 = (x - w) * (x + w) by ring]
  exact mul_ne_zero (sub_ne_zero.2 hx.2) (by positivity)

lemma kk_add {f g : ℝ → ℝ} {w u v : ℝ} (hw : 0 < w) (h1 : ContinuousOn f (Set.Ioi 0)) (h2 : ContinuousOn g (Set.Ioi 0)) (k1 : Kk f w u) (k2 : Kk g w v) :
    Kk (fun x => f x + g x) w (u + v) := by
  unfold Kk at *
  have := isPVHalf_add (frac_contOn _ w hw h1) (frac_contOn _ w hw h2) k1 k2
  rw [mul_add]
  refine isPVHalf_congr (fun x _ _ => ?_) this
  ring

lemma kk_zero (w : ℝ) : Kk (fun _ => 0) w 0 := by
  have := isPVHalf_zero w
  simpa [Kk] using this

lemma kk_congr {f g : ℝ → ℝ} {w v : ℝ} (h : ∀ x, 0 < x → f x = g x) (k : Kk f w v) : Kk g w v :=
  isPVHalf_congr (fun x hx _ => by rw [h x hx]) k

/-- A finite sum of oscillators. -/
lemma kk_sum {α : Type*} (L : List α) (f : α → ℝ → ℝ) (v : α → ℝ) (w : ℝ) (hw : 0 < w)
    (h : ∀ o ∈ L, ContinuousOn (f o) (Set.Ioi 0) ∧ DifferentiableAt ℝ (f o) w ∧ Kk (f o) w (v o)) :
    ContinuousOn (fun x => (L.map fun o => f o x).sum) (Set.Ioi 0) ∧ DifferentiableAt ℝ (fun x => (L.map fun o => f o x).sum) w ∧
      Kk (fun x => (L.map fun o => f o x).sum) w (L.map v).sum := by
  induction L with
  | nil => exact ⟨by simpa using continuousOn_const, by simp, by simpa using kk_zero w⟩
  | cons o L ih =>
    obtain ⟨h1, h2, h3⟩ := ih (fun o ho => h o (List.mem_cons_of_mem _ ho))
    obtain ⟨g1, g2, g3⟩ := h o (by simp)
    simp only [List.map_cons, List.sum_cons]
    exact ⟨g1.add h1, g2.add h2, kk_add hw g1 h1 g3 h3⟩

/-- From the relation on the energy axis to the output of `im2re_reciprocal` on a wavelength axis, `E = k/λ`. -/
lemma kk_code {f : ℝ → ℝ} {k l v : ℝ} (hk : 0 < k) (hl : 0 < l) (hc : ContinuousOn f (Set.Ioi 0)) (hd : DifferentiableAt ℝ f (k / l)) (h : Kk f (k / l) v) :
    CodeTendsto .im2reReciprocal (fun x => f (k / x)) l v := by
  have e : k / l = k * (1 / l) := by ring
  rw [e] at h hd
  obtain ⟨V, hV, ht⟩ := kk_scale hk h
  refine codeTendsto_of .im2reReciprocal _ l _ (hc.comp (continuousOn_const.div continuousOn_id fun x hx => ne_of_gt hx) fun x hx => ?_) ?_
    (fun a b => V (1 / b) (1 / a)) (fun a b ha haw hwb => ?_) (recip_tendsto V _ ht)
  · have : 0 < x := hx
    exact div_pos hk this
  · have h1 : DifferentiableAt ℝ (fun x : ℝ => k / x) l := (differentiableAt_const _).div differentiableAt_id hl.ne'
    exact DifferentiableAt.comp (g := f) l (by rw [e]; exact hd) h1
  · simp only [KkIntegral]
    have := hV (1 / b) (1 / a) (by have := hl.trans hwb; positivity) (one_div_lt_one_div_of_lt hl hwb) (one_div_lt_one_div_of_lt ha haw)
    refine isPV_congr (one_div_lt_one_div_of_lt hl hwb) (one_div_lt_one_div_of_lt ha haw) (fun x _ _ _ => ?_) this
    simp only [div_div_eq_mul_div, div_one]

/-! ## Lorentz -/

/-- One resonance, `A/(E² - x² - iγx)`. -/
noncomputable def lz (A E g x : ℝ) : ℂ := (A : ℂ) / ((E : ℂ) ^ 2 - (x : ℂ) ^ 2 - I * g * x)

lemma lz_den {E g x : ℝ} (hg : 0 < g) (hx : 0 < x) : (E : ℂ) ^ 2 - (x : ℂ) ^ 2 - I * g * x ≠ 0 := by
  intro h
  have := congrArg Complex.im h
  simp [pow_two] at this
  rcases this with h | h <;> linarith

lemma lz_regular (A E : ℝ) {g : ℝ} (hg : 0 < g) : ContinuousOn (fun x => (lz A E g x).im) (Set.Ioi 0) ∧ ∀ w, 0 < w → DifferentiableAt ℝ (fun x => (lz A E g x).im) w := by
  have d : ∀ w, 0 < w → DifferentiableAt ℝ (fun x => (lz A E g x).im) w := by
    intro w hw
    have h1 : DifferentiableAt ℝ (fun x : ℝ => (x : ℂ)) w := Complex.ofRealCLM.differentiableAt
    have h2 : DifferentiableAt ℝ (lz A E g) w :=
      (differentiableAt_const _).div (((differentiableAt_const _).sub (h1.pow 2)).sub (h1.const_mul _)) (lz_den hg hw)
    exact (Complex.imCLM.differentiableAt).comp w h2
  exact ⟨fun x hx => (d x hx).continuousAt.continuousWithinAt, d⟩

lemma kk_chi (m : Mode) {w : ℝ} (hw : 0 < w) : Kk (fun x => (Mode.chi m x).im) w (Mode.chi m w).re := chi_real m w hw

lemma chi_contOn (m : Mode) : ContinuousOn (fun x => (Mode.chi m x).im) (Set.Ioi 0) := (Complex.continuous_im.comp (chi_continuous m)).continuousOn

lemma lz_kk_under (A E : ℝ) {g w : ℝ} (hg : 0 < g) (hw : 0 < w) (h : g ^ 2 < 4 * E ^ 2) : Kk (fun x => (lz A E g x).im) w (lz A E g w).re := by
  have h0 : 0 < E ^ 2 - g ^ 2 / 4 := by linarith
  obtain ⟨o, ho, ho2⟩ : ∃ o : ℝ, 0 < o ∧ o ^ 2 = E ^ 2 - g ^ 2 / 4 := ⟨√(E ^ 2 - g ^ 2 / 4), Real.sqrt_pos.2 h0, Real.sq_sqrt h0.le⟩
  let m : Mode := ⟨I * ((A / (2 * o) : ℝ) : ℂ), 0, ((g / 2 : ℝ) : ℂ) + I * o, by simp; exact hg⟩
  have e : ∀ x, 0 < x → Mode.chi m x = lz A E g x := by
    intro x hx
    have n1 : ((g / 2 : ℝ) : ℂ) + I * o - I * x ≠ 0 := sub_I_ne (s := ((g / 2 : ℝ) : ℂ) + I * o) (by simp; exact hg) x
    have n2 : ((g / 2 : ℝ) : ℂ) - I * o - I * x ≠ 0 := sub_I_ne (s := ((g / 2 : ℝ) : ℂ) - I * o) (by simp; exact hg) x
    have n3 := lz_den (E := E) hg hx
    have n4 : (o : ℂ) ≠ 0 := by exact_mod_cast ho.ne'
    have hs : star (((g / 2 : ℝ) : ℂ) + I * o) = ((g / 2 : ℝ) : ℂ) - I * o := by
      apply Complex.ext <;> simp
    have ha : star (I * ((A / (2 * o) : ℝ) : ℂ)) = -(I * ((A / (2 * o) : ℝ) : ℂ)) := by
      apply Complex.ext <;> simp
    have ho2' : (o : ℂ) ^ 2 = (E : ℂ) ^ 2 - (g : ℂ) ^ 2 / 4 := by exact_mod_cast ho2
    have hp : (((g / 2 : ℝ) : ℂ) + I * o - I * x) * (((g / 2 : ℝ) : ℂ) - I * o - I * x) = (E : ℂ) ^ 2 - (x : ℂ) ^ 2 - I * g * x := by
      push_cast
      linear_combination ho2' + ((x : ℂ) ^ 2 - o ^ 2) * I_sq
    show kkPole (I * ((A / (2 * o) : ℝ) : ℂ)) 0 (((g / 2 : ℝ) : ℂ) + I * o) x +
      kkPole (star (I * ((A / (2 * o) : ℝ) : ℂ))) (star 0) (star (((g / 2 : ℝ) : ℂ) + I * o)) x = _
    rw [hs, ha]
    unfold kkPole lz
    rw [star_zero, zero_div, zero_div, add_zero, add_zero, div_add_div _ _ n1 n2, hp]
    congr 1
    push_cast
    field_simp
    linear_combination (-4) * (A : ℂ) * (o : ℂ) * I_sq
  have := kk_chi m hw
  rw [e w hw] at this
  exact kk_congr (fun x hx => by rw [e x hx]) this

lemma lz_kk_crit (A E : ℝ) {g w : ℝ} (hg : 0 < g) (hw : 0 < w) (h : g ^ 2 = 4 * E ^ 2) : Kk (fun x => (lz A E g x).im) w (lz A E g w).re := by
  let m : Mode := ⟨0, ((A / 2 : ℝ) : ℂ), ((g / 2 : ℝ) : ℂ), by simp; exact hg⟩
  have e : ∀ x, 0 < x → Mode.chi m x = lz A E g x := by
    intro x hx
    have n1 : ((g / 2 : ℝ) : ℂ) - I * x ≠ 0 := sub_I_ne (s := ((g / 2 : ℝ) : ℂ)) (by simp; exact hg) x
    have h' : (g : ℂ) ^ 2 = 4 * (E : ℂ) ^ 2 := by exact_mod_cast h
    have hp : (((g / 2 : ℝ) : ℂ) - I * x) ^ 2 = (E : ℂ) ^ 2 - (x : ℂ) ^ 2 - I * g * x := by
      push_cast
      linear_combination (1 / 4) * h' + (x : ℂ) ^ 2 * I_sq
    show kkPole 0 ((A / 2 : ℝ) : ℂ) ((g / 2 : ℝ) : ℂ) x + kkPole (star 0) (star ((A / 2 : ℝ) : ℂ)) (star ((g / 2 : ℝ) : ℂ)) x = _
    have s1 : ∀ r : ℝ, star (r : ℂ) = r := fun r => Complex.conj_ofReal r
    rw [s1, s1, star_zero]
    unfold kkPole lz
    rw [zero_div, zero_add, hp]
    push_cast
    ring
  have := kk_chi m hw
  rw [e w hw] at this
  exact kk_congr (fun x hx => by rw [e x hx]) this

lemma lz_kk_over (A E : ℝ) {g w : ℝ} (hg : 0 < g) (hw : 0 < w) (hE : E ≠ 0) (h : 4 * E ^ 2 < g ^ 2) : Kk (fun x => (lz A E g x).im) w (lz A E g w).re := by
  have h0 : 0 < g ^ 2 / 4 - E ^ 2 := by linarith
  obtain ⟨r, hr, hr2⟩ : ∃ r : ℝ, 0 < r ∧ r ^ 2 = g ^ 2 / 4 - E ^ 2 := ⟨√(g ^ 2 / 4 - E ^ 2), Real.sqrt_pos.2 h0, Real.sq_sqrt h0.le⟩
  have hE2 : 0 < E ^ 2 := by positivity
  have hrg : r < g / 2 := by nlinarith
  let m1 : Mode := ⟨((A / (4 * r) : ℝ) : ℂ), 0, ((g / 2 - r : ℝ) : ℂ), by simp; exact hrg⟩
  let m2 : Mode := ⟨((-(A / (4 * r)) : ℝ) : ℂ), 0, ((g / 2 + r : ℝ) : ℂ), by rw [Complex.ofReal_re]; positivity⟩
  have e : ∀ x, 0 < x → Mode.chi m1 x + Mode.chi m2 x = lz A E g x := by
    intro x hx
    have n1 : ((g / 2 - r : ℝ) : ℂ) - I * x ≠ 0 := sub_I_ne (s := ((g / 2 - r : ℝ) : ℂ)) (by simp; exact hrg) x
    have n2 : ((g / 2 + r : ℝ) : ℂ) - I * x ≠ 0 := sub_I_ne (s := ((g / 2 + r : ℝ) : ℂ)) (by rw [Complex.ofReal_re]; positivity) x
    have n4 : (r : ℂ) ≠ 0 := by exact_mod_cast hr.ne'
    have hr2' : (r : ℂ) ^ 2 = (g : ℂ) ^ 2 / 4 - (E : ℂ) ^ 2 := by exact_mod_cast hr2
    have hp : (((g / 2 - r : ℝ) : ℂ) - I * x) * (((g / 2 + r : ℝ) : ℂ) - I * x) = (E : ℂ) ^ 2 - (x : ℂ) ^ 2 - I * g * x := by
      push_cast
      linear_combination -hr2' + (x : ℂ) ^ 2 * I_sq
    show (kkPole ((A / (4 * r) : ℝ) : ℂ) 0 ((g / 2 - r : ℝ) : ℂ) x + kkPole (star ((A / (4 * r) : ℝ) : ℂ)) (star 0) (star ((g / 2 - r : ℝ) : ℂ)) x) +
      (kkPole ((-(A / (4 * r)) : ℝ) : ℂ) 0 ((g / 2 + r : ℝ) : ℂ) x + kkPole (star ((-(A / (4 * r)) : ℝ) : ℂ)) (star 0) (star ((g / 2 + r : ℝ) : ℂ)) x) = _
    have s1 : ∀ r : ℝ, star (r : ℂ) = r := fun r => Complex.conj_ofReal r
    simp only [s1, star_zero]
    unfold kkPole lz
    rw [zero_div, zero_div, add_zero, add_zero, ← two_mul, ← two_mul, ← mul_add, div_add_div _ _ n1 n2, hp, ← mul_div_assoc]
    congr 1
    push_cast
    field_simp
    ring
  have := kk_add hw (chi_contOn m1) (chi_contOn m2) (kk_chi m1 hw) (kk_chi m2 hw)
  rw [← Complex.add_re, e w hw] at this
  exact kk_congr (fun x hx => by rw [← Complex.add_im, e x hx]) this

/-- The absorption of free carriers, `Aγ/(x(x² + γ²))`. -/
lemma free_kk (A : ℝ) {g w : ℝ} (hg : 0 < g) (hw : 0 < w) : Kk (fun x => A * g / (x * (x ^ 2 + g ^ 2))) w (-(A / (w ^ 2 + g ^ 2))) := by
  set c := A * g / (2 * w * (w ^ 2 + g ^ 2)) with hc
  have ta : Tendsto (fun p : ℝ × ℝ => p.1) (𝓝[>] (0 : ℝ) ×ˢ (atTop : Filter ℝ)) (𝓝 0) :=
    (nhdsWithin_le_nhds (a := (0 : ℝ)) (s := Set.Ioi 0)).trans' tendsto_fst
  have tb : Tendsto (fun p : ℝ × ℝ => p.2) (𝓝[>] (0 : ℝ) ×ˢ (atTop : Filter ℝ)) atTop := tendsto_snd
  let Φ : ℝ → ℝ := fun x => -c * Real.log (x + w) - A / (w ^ 2 + g ^ 2) * Real.arctan (x / g)
  let φ : ℝ → ℝ := fun x => -c * (1 / (x + w)) - A / (w ^ 2 + g ^ 2) * (g / (x ^ 2 + g ^ 2))
  refine ⟨fun a b => c * Real.log ((b - w) / (w - a)) + (Φ b - Φ a), fun a b ha haw hwb => ?_, ?_⟩
  · have hs : ∀ x ∈ Set.Icc a b, 0 < x := fun x hx => lt_of_lt_of_le ha hx.1
    refine isPV_antideriv (φ := φ) haw hwb ?_ ?_ ?_
    · refine (continuousOn_const.mul (continuousOn_const.div (continuousOn_id.add continuousOn_const) fun x hx => ?_)).sub
        (continuousOn_const.mul (continuousOn_const.div (by fun_prop) fun x hx => by positivity))
      have := hs x hx
      exact (add_pos this hw).ne'
    · intro x hx
      have hx0 := hs x hx
      have d1 : HasDerivAt (fun x => Real.log (x + w)) (1 / (x + w)) x := ((hasDerivAt_id' x).add_const w).log (by positivity)
      have d2 : HasDerivAt (fun x => Real.arctan (x / g)) (g / (x ^ 2 + g ^ 2)) x := by
        refine (((hasDerivAt_id' x).div_const g).arctan).congr_deriv ?_
        field_simp
        ring
      exact (d1.const_mul _).sub (d2.const_mul _)
    · intro x h1 _ h3
      have hx0 : 0 < x := lt_of_lt_of_le ha h1
      have n1 : x - w ≠ 0 := sub_ne_zero.2 h3
      have n2 : x + w ≠ 0 := by positivity
      rw [show x ^ 2 - w ^ 2 = (x - w) * (x + w) by ring, hc]
      simp only [φ, hc]
      have n3 : x ^ 2 + g ^ 2 ≠ 0 := by positivity
      have n4 : w ^ 2 + g ^ 2 ≠ 0 := by positivity
      have n5 := hw.ne'
      have n6 := hx0.ne'
      field_simp
      ring
  · have t1 : Tendsto (fun p : ℝ × ℝ => Real.log ((1 + -w * p.2⁻¹) / (1 + w * p.2⁻¹))) (𝓝[>] (0 : ℝ) ×ˢ (atTop : Filter ℝ)) (𝓝 0) := by
      have ti : Tendsto (fun p : ℝ × ℝ => p.2⁻¹) (𝓝[>] (0 : ℝ) ×ˢ (atTop : Filter ℝ)) (𝓝 0) := tendsto_inv_atTop_zero.comp tb
      have := ((ti.const_mul (-w)).const_add 1).div ((ti.const_mul w).const_add 1) (by simp)
      rw [show (1 + -w * 0) / (1 + w * 0) = (1 : ℝ) by simp] at this
      have := (Real.continuousAt_log one_ne_zero).tendsto.comp this
      rw [Real.log_one] at this
      exact this
    have t2 : Tendsto (fun p : ℝ × ℝ => Real.log ((p.1 + w) / (w - p.1))) (𝓝[>] (0 : ℝ) ×ˢ (atTop : Filter ℝ)) (𝓝 0) := by
      have := (ta.add_const w).div (ta.const_sub w) (by simpa using hw.ne')
      rw [show (0 + w) / (w - 0) = (1 : ℝ) by rw [zero_add, sub_zero, div_self hw.ne']] at this
      have := (Real.continuousAt_log one_ne_zero).tendsto.comp this
      rw [Real.log_one] at this
      exact this
    have t3 : Tendsto (fun p : ℝ × ℝ => Real.arctan (p.2 / g)) (𝓝[>] (0 : ℝ) ×ˢ (atTop : Filter ℝ)) (𝓝 (Real.pi / 2)) :=
      ((Real.tendsto_arctan_atTop.mono_right nhdsWithin_le_nhds).comp (tb.atTop_div_const hg))
    have t4 : Tendsto (fun p : ℝ × ℝ => Real.arctan (p.1 / g)) (𝓝[>] (0 : ℝ) ×ˢ (atTop : Filter ℝ)) (𝓝 0) := by
      have := (Real.continuous_arctan.tendsto 0).comp (by simpa using ta.div_const g : Tendsto (fun p : ℝ × ℝ => p.1 / g) _ (𝓝 0))
      rw [Real.arctan_zero] at this
      exact this
    have key := ((t1.const_mul c).add (t2.const_mul c)).sub ((t3.sub t4).const_mul (A / (w ^ 2 + g ^ 2)))
    rw [show c * 0 + c * 0 - A / (w ^ 2 + g ^ 2) * (Real.pi / 2 - 0) = Real.pi / 2 * -(A / (w ^ 2 + g ^ 2)) by ring] at key
    refine key.congr' ?_
    have ea : ∀ᶠ p : ℝ × ℝ in (𝓝[>] (0 : ℝ) ×ˢ (atTop : Filter ℝ)), 0 < p.1 := tendsto_fst.eventually eventually_mem_nhdsWithin
    filter_upwards [ea, ta.eventually (gt_mem_nhds hw), tb.eventually (eventually_gt_atTop w)] with p h0 h1 h2
    have p0 : 0 < p.2 := hw.trans h2
    have e1 : (1 + -w * p.2⁻¹) / (1 + w * p.2⁻¹) = (p.2 - w) / (p.2 + w) := by
      have : p.2 + w ≠ 0 := by positivity
      have : 1 + w * p.2⁻¹ ≠ 0 := by positivity
      field_simp
      ring
    rw [e1, Real.log_div (sub_pos.2 h2).ne' (by positivity), Real.log_div (by positivity) (sub_pos.2 h1).ne', Real.log_div (sub_pos.2 h2).ne' (sub_pos.2 h1).ne']
    simp only [Φ]
    ring

lemma lz_im_zero (A : ℝ) {g x : ℝ} (hg : 0 < g) (hx : 0 < x) : lz A 0 g x = ⟨-(A / (x ^ 2 + g ^ 2)), A * g / (x * (x ^ 2 + g ^ 2))⟩ := by
  have n := lz_den (E := 0) hg hx
  unfold lz
  rw [div_eq_iff n]
  have n1 : x ^ 2 + g ^ 2 ≠ 0 := by positivity
  have n2 := hx.ne'
  apply Complex.ext
  · simp [pow_two]
    field_simp
    try ring
  · simp [pow_two]
    field_simp
    try ring

lemma lz_kk (A E : ℝ) {g w : ℝ} (hg : 0 < g) (hw : 0 < w) : Kk (fun x => (lz A E g x).im) w (lz A E g w).re := by
  rcases lt_trichotomy (g ^ 2) (4 * E ^ 2) with h | h | h
  · exact lz_kk_under A E hg hw h
  · exact lz_kk_crit A E hg hw h
  · rcases eq_or_ne E 0 with rfl | hE
    · rw [lz_im_zero A hg hw]
      exact kk_congr (fun x hx => by rw [lz_im_zero A hg hx]) (free_kk A hg hw)
    · exact lz_kk_over A E hg hw hE h

lemma photon_eq (K : PhysConst) (x : ℝ) : photon K x = K.c * K.h / 1e-9 / x := by
  unfold photon
  rw [mul_comm x, div_div]

lemma photon_const_pos (K : PhysConst) : 0 < K.c * K.h / 1e-9 := div_pos (mul_pos K.c_pos K.h_pos) (by norm_num)

lemma lorentzEnergy_val (osc : List (ℝ × ℝ × ℝ)) (h : ∀ o ∈ osc, 0 < o.2.2) {E : ℝ} (hE : 0 < E) :
    sumN ((osc.map fun o => [("A", o.1), ("E", o.2.1), ("gamma", o.2.2)]).map (lorentzEnergyTerm E)) = some ((osc.map fun o => lz o.1 o.2.1 o.2.2 E).sum) := by
  induction osc with
  | nil => rfl
  | cons o osc ih =>
    have e : lorentzEnergyTerm E [("A", o.1), ("E", o.2.1), ("gamma", o.2.2)] = some (lz o.1 o.2.1 o.2.2 E) := by
      have := lz_den (E := o.2.1) (h o (by simp)) hE
      simp only [lorentzEnergyTerm, Dict.get, Option.bind_eq_bind]
      simp only [String.reduceEq, if_true, if_false, Option.bind_some, divN, this]
      rfl
    simp only [List.map_cons, sumN, e, ih (fun o ho => h o (List.mem_cons_of_mem _ ho)), Option.map_some, List.sum_cons]

lemma list_im_sum {α : Type*} (L : List α) (f : α → ℂ) : ((L.map f).sum).im = (L.map fun o => (f o).im).sum := by
  induction L with
  | nil => simp
  | cons o L ih => simp [ih]

lemma list_re_sum {α : Type*} (L : List α) (f : α → ℂ) : ((L.map f).sum).re = (L.map fun o => (f o).re).sum := by
  induction L with
  | nil => simp
  | cons o L ih => simp [ih]

/-- C91: any number of Lorentz oscillators in energy with positive broadening (amplitudes and resonances arbitrary, any damping regime):
`im2re_reciprocal` over the wavelength turns the imaginary part of the computed dielectric function into its real part minus one. -/
theorem C91_lorentz_energy (K : PhysConst) (osc : List (ℝ × ℝ × ℝ)) (h : ∀ o ∈ osc, 0 < o.2.2) :
    ∃ eps : ℝ → ℂ, (∀ l, 0 < l → lorentzEnergy K (osc.map fun o => [("A", o.1), ("E", o.2.1), ("gamma", o.2.2)]) l = some (eps l)) ∧
      ∀ l, 0 < l → CodeTendsto .im2reReciprocal (fun x => (eps x).im) l ((eps l).re - 1) := by
  have hk := photon_const_pos K
  refine ⟨fun l => 1 + (osc.map fun o => lz o.1 o.2.1 o.2.2 (photon K l)).sum, fun l hl => ?_, fun l hl => ?_⟩
  · have hE : 0 < photon K l := by rw [photon_eq]; positivity
    simp only [lorentzEnergy, energy_photon K hl.ne', Option.bind_eq_bind, Option.bind_some, lorentzEnergy_val osc h hE]
  · have hw : 0 < K.c * K.h / 1e-9 / l := div_pos hk hl
    obtain ⟨h1, h2, h3⟩ := kk_sum osc (fun o x => (lz o.1 o.2.1 o.2.2 x).im) (fun o => (lz o.1 o.2.1 o.2.2 (K.c * K.h / 1e-9 / l)).re) _ hw
      fun o ho => ⟨(lz_regular _ _ (h o ho)).1, (lz_regular _ _ (h o ho)).2 _ hw, lz_kk _ _ (h o ho) hw⟩
    have := kk_code hk hl h1 h2 h3
    simp only [photon_eq, Complex.add_im, Complex.one_im, zero_add, Complex.add_re, Complex.one_re, add_sub_cancel_left, list_im_sum, list_re_sum]
    exact this

lemma lorentzLambda_val (osc : List (ℝ × ℝ × ℝ)) (h : ∀ o ∈ osc, o.2.1 ≠ 0 ∧ 0 < o.2.2) {l : ℝ} (hl : 0 < l) :
    sumN ((osc.map fun o => [("A", o.1), ("lambda_r", o.2.1), ("gamma", o.2.2)]).map (lorentzLambdaTerm l)) =
      some ((osc.map fun o => lz (o.1 / o.2.1 ^ 2) (1 / o.2.1) (o.2.2 / o.2.1 ^ 2) (1 / l)).sum) := by
  induction osc with
  | nil => rfl
  | cons o osc ih =>
    have e : lorentzLambdaTerm l [("A", o.1), ("lambda_r", o.2.1), ("gamma", o.2.2)] = some (lz (o.1 / o.2.1 ^ 2) (1 / o.2.1) (o.2.2 / o.2.1 ^ 2) (1 / l)) := by
      obtain ⟨hr, hg⟩ := h o (by simp)
      have n1 : (o.2.1 : ℂ) ≠ 0 := by exact_mod_cast hr
      have n2 : (l : ℂ) ≠ 0 := by exact_mod_cast hl.ne'
      have n3 : (l : ℂ) ^ 2 - (o.2.1 : ℂ) ^ 2 - I * o.2.2 * l ≠ 0 := by
        intro h'
        have := congrArg Complex.im h'
        simp [pow_two] at this
        rcases this with h' | h' <;> linarith
      have n4 := lz_den (E := 1 / o.2.1) (g := o.2.2 / o.2.1 ^ 2) (x := 1 / l) (by positivity) (by positivity)
      simp only [lorentzLambdaTerm, Dict.get, Option.bind_eq_bind]
      simp only [String.reduceEq, if_true, if_false, Option.bind_some, divN, n3]
      unfold lz
      congr 1
      rw [div_eq_div_iff n3 n4]
      push_cast
      field_simp
    simp only [List.map_cons, sumN, e, ih (fun o ho => h o (List.mem_cons_of_mem _ ho)), Option.map_some, List.sum_cons]

/-- C91: the same for Lorentz oscillators in wavelength. -/
theorem C91_lorentz_lambda (osc : List (ℝ × ℝ × ℝ)) (h : ∀ o ∈ osc, o.2.1 ≠ 0 ∧ 0 < o.2.2) :
    ∃ eps : ℝ → ℂ, (∀ l, 0 < l → lorentzLambda (osc.map fun o => [("A", o.1), ("lambda_r", o.2.1), ("gamma", o.2.2)]) l = some (eps l)) ∧
      ∀ l, 0 < l → CodeTendsto .im2reReciprocal (fun x => (eps x).im) l ((eps l).re - 1) := by
  refine ⟨fun l => 1 + (osc.map fun o => lz (o.1 / o.2.1 ^ 2) (1 / o.2.1) (o.2.2 / o.2.1 ^ 2) (1 / l)).sum, fun l hl => ?_, fun l hl => ?_⟩
  · simp only [lorentzLambda, Option.bind_eq_bind, lorentzLambda_val osc h hl, Option.bind_some]
  · have hw : 0 < 1 / l := div_pos one_pos hl
    have hg : ∀ o ∈ osc, 0 < o.2.2 / o.2.1 ^ 2 := fun o ho => by
      obtain ⟨h1, h2⟩ := h o ho
      positivity
    obtain ⟨h1, h2, h3⟩ := kk_sum osc (fun o x => (lz (o.1 / o.2.1 ^ 2) (1 / o.2.1) (o.2.2 / o.2.1 ^ 2) x).im)
      (fun o => (lz (o.1 / o.2.1 ^ 2) (1 / o.2.1) (o.2.2 / o.2.1 ^ 2) (1 / l)).re) _ hw
      fun o ho => ⟨(lz_regular _ _ (hg o ho)).1, (lz_regular _ _ (hg o ho)).2 _ hw, lz_kk _ _ (hg o ho) hw⟩
    have := kk_code one_pos hl h1 h2 h3
    simp only [Complex.add_im, Complex.one_im, zero_add, Complex.add_re, Complex.one_re, add_sub_cancel_left, list_im_sum, list_re_sum]
    exact this

lemma drude_val (K : PhysConst) (A : ℝ) {g l : ℝ} (hg : 0 < g) (hl : 0 < l) :
    drudeEnergy K [("A", A), ("gamma", g)] l = some ⟨A / (photon K l ^ 2 + g ^ 2), A * g / (photon K l * (photon K l ^ 2 + g ^ 2))⟩ := by
  have hE : 0 < photon K l := by rw [photon_eq]; exact div_pos (photon_const_pos K) hl
  simp only [drudeEnergy, energy_photon K hl.ne', Option.bind_eq_bind, Option.bind_some]
  generalize photon K l = E at *
  have n : (E : ℂ) ^ 2 - I * g * E ≠ 0 := by
    intro h
    have := congrArg Complex.im h
    simp [pow_two] at this
    rcases this with h' | h' <;> linarith
  simp only [Dict.get, String.reduceEq, if_true, if_false, Option.bind_some, divN, n]
  congr 1
  rw [div_eq_iff n]
  have n1 : E ^ 2 + g ^ 2 ≠ 0 := by positivity
  have n2 := hE.ne'
  apply Complex.ext
  · simp [pow_two]
    field_simp
    try ring
  · simp [pow_two]
    field_simp
    try ring

/-- C91 is false for the Drude models: for every nonzero amplitude and positive damping, the imaginary part belongs to a response whose real part is
minus the computed one. -/
theorem C91_drude_refuted (K : PhysConst) (A g : ℝ) (hA : A ≠ 0) (hg : 0 < g) :
    ∃ eps : ℝ → ℂ, (∀ l, 0 < l → drudeEnergy K [("A", A), ("gamma", g)] l = some (eps l)) ∧
      ∀ l, 0 < l → CodeTendsto .im2reReciprocal (fun x => (eps x).im) l (-(eps l).re) ∧ (eps l).re ≠ 0 := by
  have hk := photon_const_pos K
  refine ⟨fun l => ⟨A / (photon K l ^ 2 + g ^ 2), A * g / (photon K l * (photon K l ^ 2 + g ^ 2))⟩, fun l hl => drude_val K A hg hl, fun l hl => ⟨?_, ?_⟩⟩
  · have hw : 0 < K.c * K.h / 1e-9 / l := div_pos hk hl
    simp only [photon_eq]
    refine kk_code (f := fun x => A * g / (x * (x ^ 2 + g ^ 2))) hk hl ?_ ?_ (free_kk A hg hw)
    · refine continuousOn_const.div (by fun_prop) fun x hx => ?_
      have : 0 < x := hx
      positivity
    · refine (differentiableAt_const _).div (by fun_prop) ?_
      positivity
  · exact div_ne_zero hA (by positivity)

/-- The other parametrisation, `DrudeResistivity`. -/
theorem C91_drude_resistivity_refuted (K : PhysConst) (rho tau : ℝ) (hr : 0 < rho) (ht : 0 < tau) :
    ∃ eps : ℝ → ℂ, (∀ l, 0 < l → drudeResistivity K [("rho_opt", rho), ("tau", tau)] l = some (eps l)) ∧
      ∀ l, 0 < l → CodeTendsto .im2reReciprocal (fun x => (eps x).im) l (-(eps l).re) ∧ (eps l).re ≠ 0 := by
  have h1 := K.h_pos
  have h2 := K.eps0_pos
  have h3 := Real.pi_pos
  obtain ⟨eps, e1, e2⟩ := C91_drude_refuted K ((K.h / (2 * Real.pi)) ^ 2 / (K.eps0 * 1e-2 * rho * tau)) (K.h / (2 * Real.pi) / tau) (by positivity) (by positivity)
  exact ⟨eps, fun l hl => by rw [C48_drude K rho tau l hr.ne' ht.ne']; exact e1 l hl, e2⟩

/-! ## Tauc-Lorentz -/

lemma arctan_add_compl {u v : ℝ} (h : 0 < u + v) : Real.arctan u + Real.arctan v = Real.pi / 2 - Real.arctan ((1 - u * v) / (u + v)) := by
  have h1 := Real.arctan_lt_pi_div_two u
  have h2 := Real.arctan_lt_pi_div_two v
  have h3 : Real.arctan (-v) < Real.arctan u := Real.arctan_strictMono (by linarith)
  rw [Real.arctan_neg] at h3
  have h4 : Real.arctan ((1 - u * v) / (u + v)) = Real.pi / 2 - (Real.arctan u + Real.arctan v) := by
    refine Real.arctan_eq_of_tan_eq ?_ ⟨by linarith, by linarith⟩
    rw [Real.tan_pi_div_two_sub, Real.tan_eq_sin_div_cos, Real.sin_add, Real.cos_add, Real.sin_arctan, Real.sin_arctan, Real.cos_arctan, Real.cos_arctan, inv_div]
    have p1 : 0 < √(1 + u ^ 2) := Real.sqrt_pos.2 (by positivity)
    have p2 : 0 < √(1 + v ^ 2) := Real.sqrt_pos.2 (by positivity)
    have n := h.ne'
    field_simp
  linarith

/-- The value of `TaucLorentz.eps1` below critical damping, in real numbers. -/
lemma taucEps1_value (E Eg A E0 C al : ℝ) (hE : 0 < E) (hEg : 0 ≤ Eg) (hE0 : 0 < E0) (hC : 0 < C) (hu : C < 2 * E0) (hne : E ≠ Eg)
    (hal : 0 < al) (hal2 : al ^ 2 = 4 * E0 ^ 2 - C ^ 2) :
    taucEps1 E Eg A E0 C = some (((
      A * C * ((Eg ^ 2 - E0 ^ 2) * E ^ 2 + Eg ^ 2 * C ^ 2 - E0 ^ 2 * (E0 ^ 2 + 3 * Eg ^ 2)) / 2 / Real.pi / ((E ^ 2 - E0 ^ 2) ^ 2 + C ^ 2 * E ^ 2) / al / E0 *
          Real.log ((E0 ^ 2 + Eg ^ 2 + al * Eg) / (E0 ^ 2 + Eg ^ 2 - al * Eg))
      - A * ((E ^ 2 - E0 ^ 2) * (E0 ^ 2 + Eg ^ 2) + Eg ^ 2 * C ^ 2) / Real.pi / ((E ^ 2 - E0 ^ 2) ^ 2 + C ^ 2 * E ^ 2) / E0 *
          (Real.pi - Real.arctan ((2 * Eg + al) / C) + Real.arctan ((al - 2 * Eg) / C))
      + 2 * A * E0 * Eg / Real.pi / ((E ^ 2 - E0 ^ 2) ^ 2 + C ^ 2 * E ^ 2) / al * (E ^ 2 - (E0 ^ 2 - C ^ 2 / 2)) *
          (Real.pi + 2 * Real.arctan (2 / al / C * ((E0 ^ 2 - C ^ 2 / 2) - Eg ^ 2)))
      - A * E0 * C * (E ^ 2 + Eg ^ 2) / Real.pi / ((E ^ 2 - E0 ^ 2) ^ 2 + C ^ 2 * E ^ 2) / E * Real.log (|E - Eg| / (E + Eg))
      + 2 * A * E0 * C * Eg / Real.pi / ((E ^ 2 - E0 ^ 2) ^ 2 + C ^ 2 * E ^ 2) * Real.log (|E - Eg| * (E + Eg) / √((E0 ^ 2 - Eg ^ 2) ^ 2 + Eg ^ 2 * C ^ 2)) : ℝ)) : ℂ) := by
  obtain ⟨r, hr⟩ := taucEps1_real E Eg A E0 C hE hEg hE0 hC hu hne
  have hpos : 0 < 4 * E0 ^ 2 - C ^ 2 := by nlinarith
  have hs : Complex.sqrt ((4 * E0 ^ 2 - C ^ 2 : ℝ) : ℂ) = (al : ℂ) := by
    rw [← hal2, csqrt_ofReal (sq_nonneg al), Real.sqrt_sq hal.le]
  rw [hr]
  unfold taucEps1 at hr
  simp only [hs, csqrt_sq] at hr
  split_ifs at hr with hc
  have hr := Option.some.inj hr
  rw [← hr]
  have hden : 0 < E0 ^ 2 + Eg ^ 2 - al * Eg := by nlinarith [sq_nonneg (E0 - Eg), sq_nonneg (al - 2 * Eg), sq_nonneg (al - Eg)]
  have hnum : 0 < E0 ^ 2 + Eg ^ 2 + al * Eg := by positivity
  have hlog : Complex.log (((E0 : ℂ) ^ 2 + (Eg : ℂ) ^ 2 + al * Eg) / ((E0 : ℂ) ^ 2 + (Eg : ℂ) ^ 2 - al * Eg)) =
      (Real.log ((E0 ^ 2 + Eg ^ 2 + al * Eg) / (E0 ^ 2 + Eg ^ 2 - al * Eg)) : ℝ) := by
    rw [Complex.ofReal_log (div_pos hnum hden).le]
    push_cast
    rfl
  have h1 : Complex.arctan ((2 * (Eg : ℂ) + al) / C) = (Real.arctan ((2 * Eg + al) / C) : ℝ) := by
    rw [Complex.ofReal_arctan]; push_cast; rfl
  have h2 : Complex.arctan (((al : ℂ) - 2 * Eg) / C) = (Real.arctan ((al - 2 * Eg) / C) : ℝ) := by
    rw [Complex.ofReal_arctan]; push_cast; rfl
  have h3 : Complex.arctan (2 / (al : ℂ) / C * (((E0 ^ 2 - C ^ 2 / 2 : ℝ) : ℂ) - (Eg : ℂ) ^ 2)) =
      (Real.arctan (2 / al / C * (E0 ^ 2 - C ^ 2 / 2 - Eg ^ 2)) : ℝ) := by
    rw [Complex.ofReal_arctan]; push_cast; rfl
  rw [hlog, h1, h2, h3]
  have hz : ((E : ℂ) ^ 2 - ((E0 ^ 2 - C ^ 2 / 2 : ℝ) : ℂ)) ^ 2 + (al : ℂ) ^ 2 * C ^ 2 / 4 = (((E ^ 2 - E0 ^ 2) ^ 2 + C ^ 2 * E ^ 2 : ℝ) : ℂ) := by
    have : (al : ℂ) ^ 2 = 4 * (E0 : ℂ) ^ 2 - (C : ℂ) ^ 2 := by exact_mod_cast hal2
    push_cast
    linear_combination (C : ℂ) ^ 2 / 4 * this
  rw [hz]
  generalize Real.log _ = L1
  generalize Real.arctan _ = A1
  generalize Real.arctan _ = A2
  generalize Real.arctan _ = A3
  generalize Real.log _ = L2
  generalize Real.log _ = L3
  push_cast
  rfl

/-- The parameters of the integral for one oscillator. -/
noncomputable def tlPar (Eg A E0 C w : ℝ) : TlPar := ⟨A * E0 * C, Eg, E0, C, √(4 * E0 ^ 2 - C ^ 2), w⟩

lemma tlPar_good (Eg A : ℝ) {E0 C w : ℝ} (hE0 : 0 < E0) (hC : 0 < C) (hu : C < 2 * E0) (hw : 0 < w) : (tlPar Eg A E0 C w).Good := by
  have h : 0 < 4 * E0 ^ 2 - C ^ 2 := by nlinarith
  exact ⟨hE0, hC, Real.sqrt_pos.2 h, Real.sq_sqrt h.le, hw⟩

/-- Jellison and Modine's formula is the Kramers-Kronig integral of the absorption. -/
lemma tauc_kk (Eg A : ℝ) {E0 C w : ℝ} (hEg : 0 ≤ Eg) (hE0 : 0 < E0) (hC : 0 < C) (hu : C < 2 * E0) (hw : 0 < w) (hne : w ≠ Eg) :
    ∃ r : ℝ, taucEps1 w Eg A E0 C = some (r : ℂ) ∧ Kk (fun x => Spec.taucAbsorption x Eg A E0 C) w r := by
  have good := tlPar_good Eg A hE0 hC hu hw
  have half := TlPar.gapped_half good hEg hne
  have hv := taucEps1_value w Eg A E0 C (tlPar Eg A E0 C w).al hw hEg hE0 hC hu hne good.hal good.hal2
  refine ⟨_, hv, ?_⟩
  unfold Kk
  have hq : ∀ x, (tlPar Eg A E0 C w).q x = (x ^ 2 - E0 ^ 2) ^ 2 + C ^ 2 * x ^ 2 := fun x => TlPar.q_eq good x
  have hqw := TlPar.q_pos good w
  have hsp := TlPar.sp_pos good Eg
  have hsm := TlPar.sm_pos good Eg
  have e1 : ∀ x, 0 < x → (tlPar Eg A E0 C w).gapped x = x * Spec.taucAbsorption x Eg A E0 C / (x ^ 2 - w ^ 2) := by
    intro x hx
    unfold TlPar.gapped Spec.taucAbsorption
    rw [hq]
    have hx' := hx.ne'
    show A * E0 * C * (max (x - Eg) 0) ^ 2 / (((x ^ 2 - E0 ^ 2) ^ 2 + C ^ 2 * x ^ 2) * (x ^ 2 - w ^ 2)) = _
    split_ifs with h
    · rw [max_eq_right (by linarith)]
      simp
    · rw [max_eq_left (by linarith), ← mul_div_assoc, mul_div_cancel_left₀ _ hx', div_div]
  have fin := isPVHalf_congr (fun x hx _ => e1 x hx) half
  refine Eq.mp (congrArg (Spec.IsPVHalf _ w) ?_) fin
  set al := (tlPar Eg A E0 C w).al with hal
  have hal0 : 0 < al := good.hal
  have hal2 : al ^ 2 = 4 * E0 ^ 2 - C ^ 2 := good.hal2
  have hab : 0 < |w - Eg| := abs_pos.2 (sub_ne_zero.2 hne)
  have hsum : 0 < w + Eg := by linarith
  have sp : (tlPar Eg A E0 C w).sp Eg = E0 ^ 2 + Eg ^ 2 + al * Eg := by
    show Eg ^ 2 + al * Eg + E0 ^ 2 = _
    ring
  have sm : (tlPar Eg A E0 C w).sm Eg = E0 ^ 2 + Eg ^ 2 - al * Eg := by
    show Eg ^ 2 - al * Eg + E0 ^ 2 = _
    ring
  rw [sp] at hsp
  rw [sm] at hsm
  have l1 : Real.log ((E0 ^ 2 + Eg ^ 2 + al * Eg) / (E0 ^ 2 + Eg ^ 2 - al * Eg)) = Real.log (E0 ^ 2 + Eg ^ 2 + al * Eg) - Real.log (E0 ^ 2 + Eg ^ 2 - al * Eg) :=
    Real.log_div hsp.ne' hsm.ne'
  have l2 : Real.log (|w - Eg| / (w + Eg)) = Real.log |w - Eg| - Real.log (w + Eg) := Real.log_div hab.ne' hsum.ne'
  have l3 : Real.log (|w - Eg| * (w + Eg) / √((E0 ^ 2 - Eg ^ 2) ^ 2 + Eg ^ 2 * C ^ 2)) =
      Real.log |w - Eg| + Real.log (w + Eg) - (Real.log (E0 ^ 2 + Eg ^ 2 + al * Eg) + Real.log (E0 ^ 2 + Eg ^ 2 - al * Eg)) / 2 := by
    have e2 : (E0 ^ 2 - Eg ^ 2) ^ 2 + Eg ^ 2 * C ^ 2 = (E0 ^ 2 + Eg ^ 2 + al * Eg) * (E0 ^ 2 + Eg ^ 2 - al * Eg) := by linear_combination (Eg ^ 2) * hal2
    have h0 : 0 < (E0 ^ 2 + Eg ^ 2 + al * Eg) * (E0 ^ 2 + Eg ^ 2 - al * Eg) := mul_pos hsp hsm
    rw [e2, Real.log_div (mul_pos hab hsum).ne' (Real.sqrt_pos.2 h0).ne', Real.log_mul hab.ne' hsum.ne', Real.log_sqrt h0.le, Real.log_mul hsp.ne' hsm.ne']
  have at1 : Real.arctan ((2 * Eg - al) / C) = -Real.arctan ((al - 2 * Eg) / C) := by
    rw [← Real.arctan_neg]
    congr 1
    ring
  have at2 : Real.arctan (2 / al / C * ((E0 ^ 2 - C ^ 2 / 2) - Eg ^ 2)) = Real.arctan ((2 * Eg + al) / C) + Real.arctan ((al - 2 * Eg) / C) - Real.pi / 2 := by
    rw [arctan_add_compl (by rw [← add_div]; exact div_pos (by linarith) hC), sub_sub_cancel_left, ← Real.arctan_neg]
    congr 1
    have := hC.ne'
    have := hal0.ne'
    rw [show (2 * Eg + al) / C + (al - 2 * Eg) / C = 2 * al / C by ring]
    field_simp
    linear_combination (-1) * hal2
  rw [l1, l2, l3, at2, ← hq w]
  unfold TlPar.reg TlPar.c0 TlPar.e0 TlPar.la TlPar.lb TlPar.at' TlPar.dt TlPar.aL TlPar.aA
  simp only [show (tlPar Eg A E0 C w).Eg = Eg from rfl, show (tlPar Eg A E0 C w).E0 = E0 from rfl, show (tlPar Eg A E0 C w).C = C from rfl,
    show (tlPar Eg A E0 C w).P = A * E0 * C from rfl, show (tlPar Eg A E0 C w).w = w from rfl, ← hal, sp, sm, at1]
  rw [add_comm Eg w]
  have hz := hqw.ne'
  generalize (tlPar Eg A E0 C w).q w = z at hz ⊢
  generalize Real.log |w - Eg| = L1
  generalize Real.log (w + Eg) = L2
  generalize Real.log (E0 ^ 2 + Eg ^ 2 + al * Eg) = L3
  generalize Real.log (E0 ^ 2 + Eg ^ 2 - al * Eg) = L4
  generalize Real.arctan ((2 * Eg + al) / C) = A1
  generalize Real.arctan ((al - 2 * Eg) / C) = A2
  have n1 := hal0.ne'
  have n2 := hE0.ne'
  have n3 := hC.ne'
  have n4 := hw.ne'
  have n5 := Real.pi_ne_zero
  generalize Real.pi = pi at n5 ⊢
  clear_value al
  field_simp
  ring

lemma taucAbs_regular (Eg A : ℝ) {E0 C : ℝ} (hC : 0 < C) :
    ContinuousOn (fun x => Spec.taucAbsorption x Eg A E0 C) (Set.Ioi 0) ∧ ∀ w, 0 < w → w ≠ Eg → DifferentiableAt ℝ (fun x => Spec.taucAbsorption x Eg A E0 C) w := by
  have e : ∀ x, Spec.taucAbsorption x Eg A E0 C = A * E0 * C * (max (x - Eg) 0) ^ 2 / ((x ^ 2 - E0 ^ 2) ^ 2 + C ^ 2 * x ^ 2) / x := by
    intro x
    unfold Spec.taucAbsorption
    split_ifs with h
    · rw [max_eq_right (by linarith)]
      simp
    · rw [max_eq_left (by linarith)]
  refine ⟨?_, fun w hw hne => ?_⟩
  · simp only [e]
    refine (ContinuousOn.div (by fun_prop) (by fun_prop) fun x hx => ?_).div continuousOn_id fun x hx => ne_of_gt hx
    have : 0 < x := hx
    positivity
  · rcases lt_or_gt_of_ne hne with h | h
    · refine (differentiableAt_const (0 : ℝ)).congr_of_eventuallyEq ?_
      filter_upwards [gt_mem_nhds h] with x hx
      unfold Spec.taucAbsorption
      rw [if_pos (le_of_lt hx)]
    · have d : DifferentiableAt ℝ (fun x : ℝ => A * E0 * C * (x - Eg) ^ 2 / ((x ^ 2 - E0 ^ 2) ^ 2 + C ^ 2 * x ^ 2) / x) w := by
        refine (DifferentiableAt.div (by fun_prop) (by fun_prop) ?_).div differentiableAt_id hw.ne'
        positivity
      refine d.congr_of_eventuallyEq ?_
      filter_upwards [lt_mem_nhds h] with x hx
      unfold Spec.taucAbsorption
      rw [if_neg (not_le.2 hx)]

/-- C91: any number of Tauc-Lorentz oscillators below critical damping (`C < 2E`): `im2re_reciprocal` over the wavelength turns the imaginary part
of the computed dielectric function into its real part, at every photon energy other than the gap (where the model is undefined). -/
theorem C91_tauc_lorentz (K : PhysConst) (Eg : ℝ) (hEg : 0 ≤ Eg) (osc : List (ℝ × ℝ × ℝ)) (h : ∀ o ∈ osc, 0 < o.2.1 ∧ 0 < o.2.2 ∧ o.2.2 < 2 * o.2.1) :
    ∃ eps : ℝ → ℂ, (∀ l, 0 < l → photon K l ≠ Eg →
        taucLorentz K [("Eg", Eg)] (osc.map fun o => [("A", o.1), ("E", o.2.1), ("C", o.2.2)]) l = some (eps l)) ∧
      ∀ l, 0 < l → photon K l ≠ Eg → CodeTendsto .im2reReciprocal (fun x => (eps x).im) l (eps l).re := by
  have hk := photon_const_pos K
  let r : ℝ × ℝ × ℝ → ℝ → ℝ := fun o w => ((taucEps1 w Eg o.1 o.2.1 o.2.2).getD 0).re
  have hr : ∀ o ∈ osc, ∀ w, 0 < w → w ≠ Eg → taucEps1 w Eg o.1 o.2.1 o.2.2 = some ((r o w : ℝ) : ℂ) ∧ Kk (fun x => Spec.taucAbsorption x Eg o.1 o.2.1 o.2.2) w (r o w) := by
    intro o ho w hw hne
    obtain ⟨h1, h2, h3⟩ := h o ho
    obtain ⟨s, h4, h5⟩ := tauc_kk Eg o.1 hEg h1 h2 h3 hw hne
    have : r o w = s := by simp only [r, h4, Option.getD_some, Complex.ofReal_re]
    rw [this]
    exact ⟨h4, h5⟩
  refine ⟨fun l => ⟨(osc.map fun o => r o (photon K l)).sum, (osc.map fun o => Spec.taucAbsorption (photon K l) Eg o.1 o.2.1 o.2.2).sum⟩, fun l hl hne => ?_, fun l hl hne => ?_⟩
  · have hE : 0 < photon K l := by rw [photon_eq]; exact div_pos hk hl
    simp only [taucLorentz, energy_photon K hl.ne', Option.bind_eq_bind, Option.bind_some, Dict.get, if_true]
    generalize photon K l = E at *
    clear hk
    induction osc with
    | nil => rfl
    | cons o osc ih =>
      obtain ⟨h1, h2, h3⟩ := h o (by simp)
      simp only [List.map_cons, sumN, taucTerm_split E Eg o.1 o.2.1 o.2.2 hE h2 _ (hr o (by simp) E hE hne).1,
        ih (fun o ho => h o (List.mem_cons_of_mem _ ho)) (fun o ho => hr o (List.mem_cons_of_mem _ ho)), Option.map_some, List.sum_cons]
      congr 1
      apply Complex.ext <;> simp
  · have hw : 0 < K.c * K.h / 1e-9 / l := div_pos hk hl
    rw [photon_eq] at hne
    simp only [photon_eq]
    obtain ⟨h1, h2, h3⟩ := kk_sum osc (fun o x => Spec.taucAbsorption x Eg o.1 o.2.1 o.2.2) (fun o => r o (K.c * K.h / 1e-9 / l)) _ hw
      fun o ho => ⟨(taucAbs_regular _ _ (h o ho).2.1).1, (taucAbs_regular _ _ (h o ho).2.1).2 _ hw hne, (hr o ho _ hw hne).2⟩
    exact kk_code hk hl h1 h2 h3

/-! ## Gaussian oscillators -/

/-- `2 √(ln 2) / σ`. -/
noncomputable def gaussWidth (sigma : ℝ) : ℝ := 2 * √(Real.log 2) / sigma

lemma gaussWidth_pos {sigma : ℝ} (h : 0 < sigma) : 0 < gaussWidth sigma :=
  div_pos (mul_pos two_pos (Real.sqrt_pos.2 (Real.log_pos one_lt_two))) h

/-- The response of one line. -/
noncomputable def gaussResponse (o : ℝ × ℝ × ℝ) : ℝ → ℝ := gaussKernel (2 * o.1 / (√Real.pi * gaussWidth o.2.2)) (1 / (4 * gaussWidth o.2.2 ^ 2)) o.2.1

lemma gaussian_val {dawsn : ℝ → ℝ} (hD : ∀ x, dawsn x = Real.exp (-x ^ 2) * ∫ u in (0 : ℝ)..x, Real.exp (u ^ 2)) (osc : List (ℝ × ℝ × ℝ)) (h : ∀ o ∈ osc, 0 < o.2.2) (E : ℝ) :
    sumN ((osc.map fun o => [("A", o.1), ("E", o.2.1), ("sigma", o.2.2)]).map (gaussianTerm dawsn E)) =
      some ((osc.map fun o => Spec.susceptibility (gaussResponse o) E).sum) := by
  induction osc with
  | nil => rfl
  | cons o osc ih =>
    have hs := h o (by simp)
    have e : gaussianTerm dawsn E [("A", o.1), ("E", o.2.1), ("sigma", o.2.2)] = some (Spec.susceptibility (gaussResponse o) E) := by
      rw [gaussResponse, gauss_line hD o.1 o.2.1 (gaussWidth_pos hs)]
      simp only [gaussianTerm, Dict.get, Option.bind_eq_bind]
      simp only [String.reduceEq, if_true, if_false, Option.bind_some, divN, hs.ne']
      have e1 : ∀ y, 2 * √(Real.log 2) * y / o.2.2 = gaussWidth o.2.2 * y := fun y => by unfold gaussWidth; ring
      rw [e1, e1]
      congr 1
      apply Complex.ext
      · simp [-Complex.ofReal_exp, -Complex.ofReal_mul, -Complex.ofReal_sub, -Complex.ofReal_div]
      · simp [-Complex.ofReal_exp, -Complex.ofReal_mul, -Complex.ofReal_sub, -Complex.ofReal_div]
    simp only [List.map_cons, sumN, e, ih (fun o ho => h o (List.mem_cons_of_mem _ ho)), Option.map_some, List.sum_cons]

/-- C91: any number of Gaussian oscillators, `dawsn` being Dawson's integral `e^(-x²) ∫₀^x e^(u²) du`. -/
theorem C91_gaussian (dawsn : ℝ → ℝ) (hD : ∀ x, dawsn x = Real.exp (-x ^ 2) * ∫ u in (0 : ℝ)..x, Real.exp (u ^ 2)) (K : PhysConst)
    (osc : List (ℝ × ℝ × ℝ)) (h : ∀ o ∈ osc, 0 < o.2.2) :
    ∃ eps : ℝ → ℂ, (∀ l, 0 < l → gaussian dawsn K (osc.map fun o => [("A", o.1), ("E", o.2.1), ("sigma", o.2.2)]) l = some (eps l)) ∧
      ∀ l, 0 < l → CodeTendsto .im2reReciprocal (fun x => (eps x).im) l (eps l).re := by
  have hk := photon_const_pos K
  refine ⟨fun l => (osc.map fun o => Spec.susceptibility (gaussResponse o) (photon K l)).sum, fun l hl => ?_, fun l hl => ?_⟩
  · simp only [gaussian, energy_photon K hl.ne', Option.bind_eq_bind, Option.bind_some, gaussian_val hD osc h]
  · have hw : 0 < K.c * K.h / 1e-9 / l := div_pos hk hl
    have hi : ∀ o ∈ osc, IntegrableOn (gaussResponse o) (Set.Ioi 0) ∧ IntegrableOn (fun t => t * gaussResponse o t) (Set.Ioi 0) := fun o ho => by
      have := gaussWidth_pos (h o ho)
      exact ⟨gaussKernel_int _ (by positivity) _, gaussKernel_int' _ (by positivity) _⟩
    obtain ⟨h1, h2, h3⟩ := kk_sum osc (fun o x => (Spec.susceptibility (gaussResponse o) x).im) (fun o => (Spec.susceptibility (gaussResponse o) (K.c * K.h / 1e-9 / l)).re) _ hw
      fun o ho => ⟨(Complex.continuous_im.comp (sus_continuous (hi o ho).1)).continuousOn,
        Complex.imCLM.differentiableAt.comp _ (sus_differentiable (hi o ho).1 (hi o ho).2 _), sus_kkReal (hi o ho).1 hw⟩
    have := kk_code hk hl h1 h2 h3
    simp only [photon_eq, list_im_sum, list_re_sum]
    exact this

/-- The hypotheses hold for concrete oscillators: an underdamped Lorentz resonance, a free-electron term and an overdamped one; a Tauc-Lorentz
oscillator with gap 1, `E = 3`, `C = 1`. -/
example (K : PhysConst) : (∃ eps : ℝ → ℂ, (∀ l, 0 < l → lorentzEnergy K [[("A", 1), ("E", 2), ("gamma", 1)], [("A", 3), ("E", 0), ("gamma", 2)], [("A", -1), ("E", 1), ("gamma", 5)]] l = some (eps l)) ∧
      ∀ l, 0 < l → CodeTendsto .im2reReciprocal (fun x => (eps x).im) l ((eps l).re - 1)) ∧
    ∃ eps : ℝ → ℂ, (∀ l, 0 < l → photon K l ≠ 1 → taucLorentz K [("Eg", 1)] [[("A", 1), ("E", 3), ("C", 1)]] l = some (eps l)) ∧
      ∀ l, 0 < l → photon K l ≠ 1 → CodeTendsto .im2reReciprocal (fun x => (eps x).im) l (eps l).re := by
  constructor
  · exact C91_lorentz_energy K [(1, 2, 1), (3, 0, 2), (-1, 1, 5)] (by intro o ho; fin_cases ho <;> norm_num)
  · exact C91_tauc_lorentz K 1 zero_le_one [(1, 3, 1)] (by intro o ho; fin_cases ho; norm_num)

/-- Two Gaussian lines with Dawson's integral. -/
example (K : PhysConst) : ∃ eps : ℝ → ℂ, (∀ l, 0 < l →
      gaussian (fun x => Real.exp (-x ^ 2) * ∫ u in (0 : ℝ)..x, Real.exp (u ^ 2)) K [[("A", 1), ("E", 2), ("sigma", 1)], [("A", 3), ("E", 5), ("sigma", 2)]] l = some (eps l)) ∧
    ∀ l, 0 < l → CodeTendsto .im2reReciprocal (fun x => (eps x).im) l (eps l).re :=
  C91_gaussian _ (fun _ => rfl) K [(1, 2, 1), (3, 5, 2)] (by intro o ho; fin_cases ho <;> norm_num)

end PyElli
