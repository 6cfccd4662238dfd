import Verif.Props.Materials
import Mathlib.Analysis.SpecialFunctions.Complex.Arg
import Mathlib.Analysis.SpecialFunctions.Complex.Log

/-! # The phase of absorbing mixtures (C137) -/

namespace PyElli

open Complex

lemma mul_cpow_arg {c h : ℂ} (hc : c ≠ 0) (hh : h ≠ 0) (ha : arg c + arg h ∈ Set.Ioc (-Real.pi) Real.pi) (s : ℂ) : (c * h) ^ s = c ^ s * h ^ s := by
  rw [cpow_def_of_ne_zero (mul_ne_zero hc hh), cpow_def_of_ne_zero hc, cpow_def_of_ne_zero hh, log_mul hc hh ha, add_mul, exp_add]

/-- The models commute with a common factor, as long as no phase crosses the cut. -/
lemma entry_mul (k : EmaKind) {c h g e : ℂ} {f : ℝ} (hc : c ≠ 0) (hh : h ≠ 0) (hg : g ≠ 0) (ah : arg c + arg h ∈ Set.Ioc (-Real.pi) Real.pi)
    (ag : arg c + arg g ∈ Set.Ioc (-Real.pi) Real.pi) (he : k.entry h g f = some e) : k.entry (c * h) (c * g) f = some (c * e) := by
  cases k with
  | vca =>
    cases he
    simp only [EmaKind.entry, vcaEntry]
    congr 1
    ring
  | looyenga =>
    cases he
    simp only [EmaKind.entry, looyengaEntry]
    rw [mul_cpow_arg hc hh ah, mul_cpow_arg hc hg ag]
    congr 1
    have := cbrt_cube c
    linear_combination (h ^ (1 / 3 : ℂ) * (1 - f) + g ^ (1 / 3 : ℂ) * f) ^ 3 * this
  | maxwellGarnett =>
    simp only [EmaKind.entry, maxwellGarnettEntry] at he ⊢
    rw [if_neg (fun h0 => hh h0.1)] at he
    rw [if_neg (fun h0 => mul_ne_zero hc hh h0.1)]
    by_cases hden : 2 * h + g - f * (g - h) = 0
    · rw [if_pos hden] at he
      cases he
    · rw [if_neg hden] at he
      have e1 : 2 * (c * h) + c * g - f * (c * g - c * h) = c * (2 * h + g - f * (g - h)) := by ring
      rw [e1, if_neg (mul_ne_zero hc hden), ← Option.some.inj he]
      congr 1
      rw [show c * h * (2 * f * (c * g - c * h) + c * g + 2 * (c * h)) = c * (c * (h * (2 * f * (g - h) + g + 2 * h))) by ring, mul_div_mul_left _ _ hc, mul_div_assoc]
  | bruggeman =>
    have s1 : Complex.sqrt (c * h) = Complex.sqrt c * Complex.sqrt h := mul_cpow_arg hc hh ah _
    have s2 : Complex.sqrt (c * g) = Complex.sqrt c * Complex.sqrt g := mul_cpow_arg hc hg ag _
    have sc : Complex.sqrt c ≠ 0 := fun h0 => hc (csqrt_eq_zero.1 h0)
    have sg : Complex.sqrt g ≠ 0 := fun h0 => hg (csqrt_eq_zero.1 h0)
    simp only [EmaKind.entry, bruggemanEntry] at he ⊢
    by_cases hne : h = g
    · rw [if_pos hne] at he
      rw [if_pos (by rw [hne]), ← Option.some.inj he]
    · rw [if_neg hne] at he
      rw [if_neg (fun h0 => hne (mul_left_cancel₀ hc h0)), s1, s2, mul_div_mul_left _ _ sc]
      by_cases hb : Complex.sqrt g = 0 ∨ Complex.sqrt h / Complex.sqrt g = 0
      · rw [if_pos hb] at he
        cases he
      · rw [if_neg hb] at he
        rw [if_neg (by
          rintro (h0 | h0)
          · exact (mul_ne_zero sc sg) h0
          · exact hb (Or.inr h0)), ← Option.some.inj he]
        congr 1
        have := csqrt_sq c
        generalize (0.25 * ((3 * (f : ℂ) - 1) * (1 / (Complex.sqrt h / Complex.sqrt g) - Complex.sqrt h / Complex.sqrt g) + Complex.sqrt h / Complex.sqrt g)) = b
        linear_combination (b + Complex.sqrt (b ^ 2 + 0.5)) * Complex.sqrt h * Complex.sqrt g * this

lemma im_polar (t : ℝ) {e : ℂ} : (exp (t * I) * e).im = ‖e‖ * Real.sin (t + arg e) := by
  conv_lhs => rw [← norm_mul_exp_arg_mul_I e]
  rw [show exp (t * I) * (‖e‖ * exp (arg e * I)) = ‖e‖ * exp ((t + arg e : ℝ) * I) by
    push_cast
    rw [add_mul, exp_add]
    ring, im_ofReal_mul, exp_ofReal_mul_I_im]

/-- With the phases in order. -/
lemma sector_aux (k : EmaKind) {h g e : ℂ} {f : ℝ} (hi : 0 ≤ h.im) (gi : 0 ≤ g.im) (hh : h ≠ 0) (hg : g ≠ 0) (he0 : e ≠ 0) (f0 : 0 ≤ f) (f1 : f ≤ 1)
    (he : k.entry h g f = some e) {α β : ℝ} (α0 : 0 ≤ α) (βπ : β ≤ Real.pi) (h1 : α ≤ arg h) (h2 : α ≤ arg g) (h3 : arg h ≤ β) (h4 : arg g ≤ β) :
    α ≤ arg e ∧ arg e ≤ β := by
  have hpi := Real.pi_pos
  have ei := C23_passive k h g e f hi gi f0 f1 he
  have ea := arg_nonneg_iff.2 ei
  have eb := arg_le_pi e
  have en : 0 < ‖e‖ := norm_pos_iff.2 he0
  -- rotation by a phase
  have rot : ∀ t : ℝ, -Real.pi < t → t ≤ Real.pi → (0 ≤ t + arg h ∧ t + arg h ≤ Real.pi) → (0 ≤ t + arg g ∧ t + arg g ≤ Real.pi) → 0 ≤ Real.sin (t + arg e) := by
    intro t t0 t1 r1 r2
    have at' : arg (exp (t * I)) = t := by
      rw [arg_exp_mul_I]
      exact (toIocMod_eq_self Real.two_pi_pos).2 ⟨t0, by linarith⟩
    have hr := entry_mul k (exp_ne_zero (t * I)) hh hg (by rw [at']; exact ⟨by linarith, r1.2⟩) (by rw [at']; exact ⟨by linarith, r2.2⟩) he
    have i1 : 0 ≤ (exp (t * I) * h).im := by
      rw [im_polar]
      exact mul_nonneg (norm_nonneg _) (Real.sin_nonneg_of_nonneg_of_le_pi r1.1 r1.2)
    have i2 : 0 ≤ (exp (t * I) * g).im := by
      rw [im_polar]
      exact mul_nonneg (norm_nonneg _) (Real.sin_nonneg_of_nonneg_of_le_pi r2.1 r2.2)
    have i3 := C23_passive k _ _ _ f i1 i2 f0 f1 hr
    rw [im_polar] at i3
    exact nonneg_of_mul_nonneg_right i3 en
  constructor
  · by_contra hlt
    push Not at hlt
    have hα : α ≤ Real.pi := h1.trans (arg_le_pi h)
    rcases hα.lt_or_eq with hα' | hα'
    · have := rot (-α) (by linarith) (by linarith) ⟨by linarith, by linarith [arg_le_pi h]⟩ ⟨by linarith, by linarith [arg_le_pi g]⟩
      have := Real.sin_neg_of_neg_of_neg_pi_lt (x := -α + arg e) (by linarith) (by linarith)
      linarith
    · -- both constituents are negative
      have ah : arg h = Real.pi := le_antisymm (arg_le_pi h) (hα' ▸ h1)
      have ag : arg g = Real.pi := le_antisymm (arg_le_pi g) (hα' ▸ h2)
      obtain ⟨hr, him⟩ := arg_eq_pi_iff.1 ah
      obtain ⟨gr, gim⟩ := arg_eq_pi_iff.1 ag
      obtain ⟨e', he', hlo, -⟩ := C22_between k (-h.re) (-g.re) f (by linarith) (by linarith) f0 f1
      have pe : 0 < e' := lt_of_lt_of_le (lt_min (by linarith) (by linarith)) hlo
      have hm := entry_mul k (c := -1) (by norm_num) (by exact_mod_cast (neg_ne_zero.2 hr.ne))
        (by exact_mod_cast (neg_ne_zero.2 gr.ne)) (by
          rw [arg_neg_one, arg_ofReal_of_nonneg (by linarith)]
          exact ⟨by linarith, by linarith⟩) (by
          rw [arg_neg_one, arg_ofReal_of_nonneg (by linarith)]
          exact ⟨by linarith, by linarith⟩) he'
      have eh : -1 * ((-h.re : ℝ) : ℂ) = h := by
        apply Complex.ext <;> simp [him]
      have eg : -1 * ((-g.re : ℝ) : ℂ) = g := by
        apply Complex.ext <;> simp [gim]
      rw [eh, eg, he] at hm
      have : e = -(e' : ℂ) := by
        rw [Option.some.inj hm]
        ring
      have : arg e = Real.pi := by
        rw [this, arg_eq_pi_iff]
        simp [pe]
      linarith
  · by_contra hlt
    push Not at hlt
    have hβ : 0 ≤ β := α0.trans (h1.trans h3)
    rcases hβ.lt_or_eq with hβ' | hβ'
    · have := rot (Real.pi - β) (by linarith) (by linarith) ⟨by linarith [arg_nonneg_iff.2 hi], by linarith⟩ ⟨by linarith [arg_nonneg_iff.2 gi], by linarith⟩
      have h5 := Real.sin_pos_of_pos_of_lt_pi (x := arg e - β) (by linarith) (by linarith)
      rw [show Real.pi - β + arg e = (arg e - β) + Real.pi by ring, Real.sin_add_pi] at this
      linarith
    · have ah : arg h = 0 := le_antisymm (hβ' ▸ h3) (arg_nonneg_iff.2 hi)
      have ag : arg g = 0 := le_antisymm (hβ' ▸ h4) (arg_nonneg_iff.2 gi)
      obtain ⟨hr, him⟩ := arg_eq_zero_iff.1 ah
      obtain ⟨gr, gim⟩ := arg_eq_zero_iff.1 ag
      have eh : ((h.re : ℝ) : ℂ) = h := by apply Complex.ext <;> simp [him]
      have eg : ((g.re : ℝ) : ℂ) = g := by apply Complex.ext <;> simp [gim]
      have hr' : 0 < h.re := lt_of_le_of_ne hr fun h0 => hh (by rw [← eh, ← h0]; simp)
      have gr' : 0 < g.re := lt_of_le_of_ne gr fun h0 => hg (by rw [← eg, ← h0]; simp)
      obtain ⟨e', he', hlo, -⟩ := C22_between k h.re g.re f hr' gr' f0 f1
      have pe : 0 < e' := lt_of_lt_of_le (lt_min hr' gr') hlo
      rw [eh, eg, he] at he'
      rw [Option.some.inj he', arg_ofReal_of_nonneg pe.le] at hlt
      linarith

/-- C137: the phase of the dielectric constant of a mixture of absorbing materials lies between the phases of its constituents. -/
theorem C137_phase (k : EmaKind) (h g e : ℂ) (f : ℝ) (hi : 0 ≤ h.im) (gi : 0 ≤ g.im) (hh : h ≠ 0) (hg : g ≠ 0) (f0 : 0 ≤ f) (f1 : f ≤ 1)
    (he : k.entry h g f = some e) (he0 : e ≠ 0) : min (arg h) (arg g) ≤ arg e ∧ arg e ≤ max (arg h) (arg g) :=
  sector_aux k hi gi hh hg he0 f0 f1 he (le_min (arg_nonneg_iff.2 hi) (arg_nonneg_iff.2 gi)) (max_le (arg_le_pi _) (arg_le_pi _)) (min_le_left _ _) (min_le_right _ _)
    (le_max_left _ _) (le_max_right _ _)

/-- Gold in glass at 633 nm, one tenth of gold. -/
example : ∃ e, EmaKind.entry .maxwellGarnett (2.25 : ℂ) (-11.8 + 1.2 * I) 0.1 = some e ∧ e ≠ 0 := by
  have hden : (2 : ℂ) * 2.25 + (-11.8 + 1.2 * I) - (0.1 : ℝ) * ((-11.8 + 1.2 * I) - 2.25) ≠ 0 := by
    intro h0
    have := congrArg im h0
    norm_num at this
  refine ⟨2.25 * (2 * (0.1 : ℝ) * ((-11.8 + 1.2 * I) - 2.25) + (-11.8 + 1.2 * I) + 2 * 2.25) / (2 * 2.25 + (-11.8 + 1.2 * I) - (0.1 : ℝ) * ((-11.8 + 1.2 * I) - 2.25)), ?_, ?_⟩
  · simp only [EmaKind.entry, maxwellGarnettEntry]
    rw [if_neg (by norm_num), if_neg hden]
  · refine div_ne_zero (mul_ne_zero (by norm_num) fun h0 => ?_) hden
    have := congrArg im h0
    norm_num at this

end PyElli
