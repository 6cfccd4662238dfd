import Verif.Props.Materials
import Verif.Spec.MixtureFraction
import Mathlib.Analysis.SpecialFunctions.Complex.Arg
import Mathlib.Analysis.SpecialFunctions.Complex.Log

/-! # The fraction of a mixture can be read from its dielectric constant (C154) -/

namespace PyElli

open Complex

/-- The sector of the cube roots of passive constants. -/
def CubeSector (w : ℂ) : Prop := 0 ≤ w.im ∧ w.im ≤ Real.sqrt 3 * w.re ∧ 0 < w.re

lemma cubeSector_root {h : ℂ} (hi : 0 ≤ h.im) (hh : h ≠ 0) : CubeSector (h ^ (1 / 3 : ℂ)) := by
  have hpi := Real.pi_pos
  have n0 : 0 < ‖h‖ := norm_pos_iff.2 hh
  have a0 := arg_nonneg_iff.2 hi
  have a1 := arg_le_pi h
  have hp : h ^ (1 / 3 : ℂ) = ((‖h‖ ^ (1 / 3 : ℝ) : ℝ) : ℂ) * exp ((arg h / 3 : ℝ) * I) := by
    rw [cpow_def_of_ne_zero hh, Complex.log, add_mul, exp_add]
    congr 1
    · rw [Real.rpow_def_of_pos n0]
      push_cast
      rfl
    · congr 1
      push_cast
      ring
  have r0 : 0 < ‖h‖ ^ (1 / 3 : ℝ) := Real.rpow_pos_of_pos n0 _
  rw [hp]
  unfold CubeSector
  rw [im_ofReal_mul, re_ofReal_mul, exp_ofReal_mul_I_im, exp_ofReal_mul_I_re]
  have hs : 0 ≤ Real.sin (arg h / 3) := Real.sin_nonneg_of_nonneg_of_le_pi (by linarith) (by linarith)
  have hc : 0 < Real.cos (arg h / 3) := Real.cos_pos_of_mem_Ioo ⟨by linarith, by linarith⟩
  have hd : 0 ≤ Real.sin (Real.pi / 3 - arg h / 3) := Real.sin_nonneg_of_nonneg_of_le_pi (by linarith) (by linarith)
  rw [Real.sin_sub, Real.sin_pi_div_three, Real.cos_pi_div_three] at hd
  refine ⟨mul_nonneg r0.le hs, ?_, mul_pos r0 hc⟩
  have : Real.sin (arg h / 3) ≤ Real.sqrt 3 * Real.cos (arg h / 3) := by linarith
  calc _ ≤ ‖h‖ ^ (1 / 3 : ℝ) * (Real.sqrt 3 * Real.cos (arg h / 3)) := mul_le_mul_of_nonneg_left this r0.le
    _ = _ := by ring

lemma cubeSector_mix {a b : ℂ} (ha : CubeSector a) (hb : CubeSector b) {f : ℝ} (f0 : 0 ≤ f) (f1 : f ≤ 1) : CubeSector (a * (1 - f) + b * f) := by
  obtain ⟨a1, a2, a3⟩ := ha
  obtain ⟨b1, b2, b3⟩ := hb
  have f1' : 0 ≤ 1 - f := by linarith
  have him : (a * (1 - f) + b * f).im = a.im * (1 - f) + b.im * f := by simp
  have hre : (a * (1 - f) + b * f).re = a.re * (1 - f) + b.re * f := by simp
  unfold CubeSector
  rw [him, hre]
  refine ⟨by positivity, ?_, ?_⟩
  · have h1 := mul_le_mul_of_nonneg_right a2 f1'
    have h2 := mul_le_mul_of_nonneg_right b2 f0
    linarith
  · rcases f0.lt_or_eq with h | h
    · have := mul_pos b3 h
      have := mul_nonneg a3.le f1'
      linarith
    · rw [← h]
      linarith

lemma cubeSector_cube {w : ℂ} (hw : CubeSector w) : (w ^ 3) ^ (1 / 3 : ℂ) = w := by
  obtain ⟨h1, h2, h3⟩ := hw
  have hpi := Real.pi_pos
  have hw0 : w ≠ 0 := by
    rintro rfl
    simp at h3
  have n0 : 0 < ‖w‖ := norm_pos_iff.2 hw0
  have a0 := arg_nonneg_iff.2 h1
  have ale : arg w ≤ Real.pi / 3 := by
    by_contra hlt
    push Not at hlt
    have hs := Real.sin_neg_of_neg_of_neg_pi_lt (x := Real.pi / 3 - arg w) (by linarith) (by linarith [arg_le_pi w])
    rw [Real.sin_sub, Real.sin_pi_div_three, Real.cos_pi_div_three, sin_arg, cos_arg hw0] at hs
    have := mul_neg_of_pos_of_neg n0 hs
    have e : ‖w‖ * (Real.sqrt 3 / 2 * (w.re / ‖w‖) - 1 / 2 * (w.im / ‖w‖)) = (Real.sqrt 3 * w.re - w.im) / 2 := by
      have := n0.ne'
      field_simp
    rw [e] at this
    linarith
  have h := Complex.pow_cpow_nat_inv (x := w) (n := 3) (by norm_num) (by push_cast; linarith) (by push_cast; linarith)
  rw [show (1 / 3 : ℂ) = ((3 : ℕ) : ℂ)⁻¹ by norm_num]
  exact h

lemma looyenga_root {h g : ℂ} {f : ℝ} (hi : 0 ≤ h.im) (gi : 0 ≤ g.im) (hh : h ≠ 0) (hg : g ≠ 0) (f0 : 0 ≤ f) (f1 : f ≤ 1) :
    looyengaEntry h g f ^ (1 / 3 : ℂ) = h ^ (1 / 3 : ℂ) * (1 - f) + g ^ (1 / 3 : ℂ) * f :=
  cubeSector_cube (cubeSector_mix (cubeSector_root hi hh) (cubeSector_root gi hg) f0 f1)

lemma cbrt_ne {h g : ℂ} (hne : h ≠ g) : h ^ (1 / 3 : ℂ) ≠ g ^ (1 / 3 : ℂ) := by
  intro h0
  apply hne
  rw [← cbrt_cube h, ← cbrt_cube g, h0]

/-- C154: the fraction is found from the dielectric constants of the mixture and its constituents, for absorbing materials too. -/
theorem C154_fraction (h g e : ℂ) (f : ℝ) (hi : 0 ≤ h.im) (gi : 0 ≤ g.im) (hh : h ≠ 0) (hg : g ≠ 0) (hne : h ≠ g) (f0 : 0 ≤ f) (f1 : f ≤ 1) :
    (EmaKind.entry .vca h g f = some e → (f : ℂ) = Spec.Fraction.linear h g e) ∧
    (EmaKind.entry .looyenga h g f = some e → (f : ℂ) = Spec.Fraction.cubeRoot h g e) ∧
    (g + 2 * h ≠ 0 → EmaKind.entry .maxwellGarnett h g f = some e → (f : ℂ) = Spec.Fraction.spheres h g e) ∧
    (f ≠ 0 → f ≠ 1 → EmaKind.entry .bruggeman h g f = some e → (f : ℂ) = Spec.Fraction.selfConsistent h g e) := by
  have hgh : g - h ≠ 0 := sub_ne_zero.2 (Ne.symm hne)
  refine ⟨?_, ?_, ?_, ?_⟩
  · intro he
    cases he
    unfold Spec.Fraction.linear vcaEntry
    rw [eq_div_iff hgh]
    ring
  · intro he
    cases he
    unfold Spec.Fraction.cubeRoot Spec.Fraction.linear
    rw [looyenga_root hi gi hh hg f0 f1, eq_div_iff (sub_ne_zero.2 (Ne.symm (cbrt_ne hne)))]
    ring
  · intro h2 he
    simp only [EmaKind.entry, maxwellGarnettEntry] at he
    rw [if_neg (fun h0 => hh h0.1)] at he
    split_ifs at he with hden
    have he' := Option.some.inj he
    have hD : 2 * h + g - f * (g - h) ≠ 0 := hden
    have e1 : e - h = 3 * f * h * (g - h) / (2 * h + g - f * (g - h)) := by
      rw [← he', eq_div_iff hD, sub_mul, div_mul_cancel₀ _ hD]
      ring
    have e2 : e + 2 * h = 3 * h * (g + 2 * h) / (2 * h + g - f * (g - h)) := by
      rw [← he', eq_div_iff hD, add_mul, div_mul_cancel₀ _ hD]
      ring
    unfold Spec.Fraction.spheres Spec.Fraction.polarisability
    rw [e1, e2]
    generalize 2 * h + g - f * (g - h) = D at hD
    generalize g + 2 * h = S at h2 ⊢
    field_simp
  · intro hf0 hf1 he
    obtain ⟨e', he', d1, d2, heq⟩ := C21_bruggeman_self_consistent h g f hh hg hf0 hf1
    have : e = e' := by
      have h1 : bruggemanEntry h g f = some e := he
      rw [he'] at h1
      exact (Option.some.inj h1).symm
    subst this
    have hx : Spec.Fraction.polarisability e h - Spec.Fraction.polarisability e g ≠ 0 := by
      have e0 : e ≠ 0 := by
        rintro rfl
        have hb := bruggeman_balance he'
        have : h * g = 0 := by linear_combination hb
        rcases mul_eq_zero.1 this with h0 | h0
        · exact hh h0
        · exact hg h0
      unfold Spec.Fraction.polarisability
      rw [div_sub_div _ _ d2 d1]
      refine div_ne_zero ?_ (mul_ne_zero d2 d1)
      rw [show (h - e) * (g + 2 * e) - (h + 2 * e) * (g - e) = -(3 * e * (g - h)) by ring]
      exact neg_ne_zero.2 (mul_ne_zero (mul_ne_zero (by norm_num) e0) hgh)
    unfold Spec.Fraction.selfConsistent
    rw [eq_div_iff hx]
    unfold Spec.Fraction.polarisability
    linear_combination -heq

/-- C154: two fractions with the same dielectric constant are equal. For inclusions at their resonance (`e_g = -2 e_h`) `MaxwellGarnettEMA`
does not depend on the fraction and has to be excluded. -/
theorem C154_determined (k : EmaKind) (h g : ℂ) (f₁ f₂ : ℝ) (hi : 0 ≤ h.im) (gi : 0 ≤ g.im) (hh : h ≠ 0) (hg : g ≠ 0) (hne : h ≠ g)
    (hk : k = .maxwellGarnett → g + 2 * h ≠ 0) (a0 : 0 ≤ f₁) (a1 : f₁ ≤ 1) (b0 : 0 ≤ f₂) (b1 : f₂ ≤ 1)
    (heq : k.entry h g f₁ = k.entry h g f₂) : f₁ = f₂ := by
  have hgh : g - h ≠ 0 := sub_ne_zero.2 (Ne.symm hne)
  cases k with
  | vca =>
    have h1 := (C154_fraction h g _ f₁ hi gi hh hg hne a0 a1).1 rfl
    have h2 := (C154_fraction h g _ f₂ hi gi hh hg hne b0 b1).1 heq.symm
    exact_mod_cast h1.trans h2.symm
  | looyenga =>
    have h1 := (C154_fraction h g _ f₁ hi gi hh hg hne a0 a1).2.1 rfl
    have h2 := (C154_fraction h g _ f₂ hi gi hh hg hne b0 b1).2.1 heq.symm
    exact_mod_cast h1.trans h2.symm
  | maxwellGarnett =>
    by_cases hden : 2 * h + g - f₁ * (g - h) = 0
    · have hnone : maxwellGarnettEntry h g f₁ = none := by
        unfold maxwellGarnettEntry
        rw [if_neg (fun h0 => hh h0.1)]
        simp only
        rw [if_pos hden]
      have h2 : maxwellGarnettEntry h g f₂ = none := heq.symm.trans hnone
      unfold maxwellGarnettEntry at h2
      rw [if_neg (fun h0 => hh h0.1)] at h2
      simp only at h2
      split_ifs at h2 with hden2
      have : ((f₁ : ℂ) - f₂) * (g - h) = 0 := by linear_combination hden2 - hden
      rcases mul_eq_zero.1 this with h0 | h0
      · exact_mod_cast sub_eq_zero.1 h0
      · exact absurd h0 hgh
    · obtain ⟨e, he⟩ : ∃ e, maxwellGarnettEntry h g f₁ = some e := by
        unfold maxwellGarnettEntry
        rw [if_neg (fun h0 => hh h0.1)]
        simp only
        rw [if_neg hden]
        exact ⟨_, rfl⟩
      have h1 := (C154_fraction h g e f₁ hi gi hh hg hne a0 a1).2.2.1 (hk rfl) he
      have h2 := (C154_fraction h g e f₂ hi gi hh hg hne b0 b1).2.2.1 (hk rfl) (heq.symm.trans he)
      exact_mod_cast h1.trans h2.symm
  | bruggeman =>
    obtain ⟨p, z, -, -, -, -, -, he⟩ := bruggeman_some hh hg hne f₁
    have hb1 := bruggeman_balance he
    have hb2 := bruggeman_balance (heq.symm.trans he)
    generalize z * Complex.sqrt h * Complex.sqrt g = e at *
    have e0 : e ≠ 0 := by
      rintro rfl
      have : h * g = 0 := by linear_combination hb1
      rcases mul_eq_zero.1 this with h0 | h0
      · exact hh h0
      · exact hg h0
    have : ((f₁ : ℂ) - f₂) * (3 * e * (g - h)) = 0 := by linear_combination hb1 - hb2
    rcases mul_eq_zero.1 this with h0 | h0
    · exact_mod_cast sub_eq_zero.1 h0
    · exact absurd h0 (mul_ne_zero (mul_ne_zero (by norm_num) e0) hgh)

/-- The exception: silver-like spheres at their resonance in water. All fractions give `-2 e_h`. -/
example (f : ℝ) (hf : f ≠ 0) : EmaKind.entry .maxwellGarnett (1.77 : ℂ) (-3.54) f = some (-3.54) := by
  have h0 : (f : ℂ) ≠ 0 := by exact_mod_cast hf
  simp only [EmaKind.entry, maxwellGarnettEntry]
  rw [if_neg (by rintro ⟨h, -⟩; norm_num at h), if_neg (by
    intro h
    have : (f : ℂ) = 0 := by linear_combination h / 5.31
    exact h0 this)]
  congr 1
  rw [div_eq_iff (by
    intro h
    have : (f : ℂ) = 0 := by linear_combination h / 5.31
    exact h0 this)]
  ring

/-- C154 for the objects: mixtures of the same materials that show the same number at one wavelength and place of the tensor, where the
constituents differ, have the same fraction. -/
theorem C154_tensor (k : EmaKind) (h g : ℝ → Tensor) (a₁ a₂ : FractionArg) (m₁ m₂ : Mixture) (h₁ : mkMixture k h g a₁ = .ok m₁)
    (h₂ : mkMixture k h g a₂ = .ok m₂) (lbda : ℝ) (i j : Fin 3) (hi : 0 ≤ (h lbda i j).im) (gi : 0 ≤ (g lbda i j).im) (hh : h lbda i j ≠ 0)
    (hg : g lbda i j ≠ 0) (hne : h lbda i j ≠ g lbda i j) (hk : k = .maxwellGarnett → g lbda i j + 2 * h lbda i j ≠ 0)
    (heq : m₁.getTensor lbda i j = m₂.getTensor lbda i j) : a₁ = a₂ := by
  have key : ∀ a m, mkMixture k h g a = .ok m → ∃ f, a = some f ∧ 0 ≤ f ∧ f ≤ 1 ∧ m = ⟨k, h, g, f⟩ := by
    intro a m hm
    cases a with
    | none => simp [mkMixture, checkFraction] at hm
    | some f =>
      unfold mkMixture checkFraction at hm
      by_cases hf : 0 ≤ f ∧ f ≤ 1
      · simp only [hf, not_true_eq_false, and_self, if_false] at hm
        exact ⟨f, rfl, hf.1, hf.2, by cases hm; rfl⟩
      · simp [hf] at hm
  obtain ⟨f₁, rfl, p0, p1, rfl⟩ := key _ _ h₁
  obtain ⟨f₂, rfl, q0, q1, rfl⟩ := key _ _ h₂
  rw [C154_determined k _ _ f₁ f₂ hi gi hh hg hne hk p0 p1 q0 q1 heq]

/-- Gold in glass at 633 nm. -/
example : (0 : ℝ) ≤ (2.25 : ℂ).im ∧ (0 : ℝ) ≤ (-11.8 + 1.2 * I : ℂ).im ∧ (-11.8 + 1.2 * I : ℂ) ≠ 0 ∧ (2.25 : ℂ) ≠ -11.8 + 1.2 * I ∧
    (-11.8 + 1.2 * I : ℂ) + 2 * 2.25 ≠ 0 := by
  refine ⟨by norm_num, by norm_num, ?_, ?_, ?_⟩ <;> intro h <;> have := congrArg Complex.im h <;> norm_num at this

lemma cbrt_pow {x : ℝ} (hx : 0 ≤ x) : (x ^ (1 / 3 : ℝ)) ^ 3 = x := by
  rw [← Real.rpow_natCast, ← Real.rpow_mul hx]
  norm_num

lemma looyenga_real {h g : ℝ} (hh : 0 < h) (hg : 0 < g) (f : ℝ) :
    looyengaEntry h g f = (((h ^ (1 / 3 : ℝ) * (1 - f) + g ^ (1 / 3 : ℝ) * f) ^ 3 : ℝ) : ℂ) := by
  have c1 : (h : ℂ) ^ (1 / 3 : ℂ) = ((h ^ (1 / 3 : ℝ) : ℝ) : ℂ) := by
    rw [Complex.ofReal_cpow hh.le]; norm_num
  have c2 : (g : ℂ) ^ (1 / 3 : ℂ) = ((g ^ (1 / 3 : ℝ) : ℝ) : ℂ) := by
    rw [Complex.ofReal_cpow hg.le]; norm_num
  unfold looyengaEntry
  rw [c1, c2]
  push_cast
  rfl

lemma mg_real {h g f e : ℝ} (hh : 0 < h) (hg : 0 < g) (f0 : 0 ≤ f) (f1 : f ≤ 1) (he : EmaKind.entry .maxwellGarnett h g f = some (e : ℂ)) :
    0 < 2 * h + g - f * (g - h) ∧ e * (2 * h + g - f * (g - h)) = h * (2 * f * (g - h) + g + 2 * h) := by
  have hp : 0 < 2 * h + g - f * (g - h) := by nlinarith
  have hc : 2 * (h : ℂ) + g - f * (g - h) ≠ 0 := by
    intro h0
    exact hp.ne' (by exact_mod_cast h0)
  refine ⟨hp, ?_⟩
  simp only [EmaKind.entry, maxwellGarnettEntry] at he
  rw [if_neg (by
    rintro ⟨h0, -⟩
    exact hh.ne' (by exact_mod_cast h0)), if_neg hc] at he
  have := Option.some.inj he
  rw [div_eq_iff hc] at this
  exact_mod_cast this.symm

lemma way {h g e : ℝ} (hne : h ≠ g) (h1 : min h g ≤ e) (h2 : e ≤ max h g) : ∃ t : ℝ, 0 ≤ t ∧ t ≤ 1 ∧ e = h + t * (g - h) := by
  have hd : g - h ≠ 0 := sub_ne_zero.2 (Ne.symm hne)
  refine ⟨(e - h) / (g - h), ?_, ?_, by rw [div_mul_cancel₀ _ hd]; ring⟩
  · rcases lt_or_gt_of_ne hne with hlt | hlt
    · rw [min_eq_left hlt.le] at h1
      exact div_nonneg (by linarith) (by linarith)
    · rw [max_eq_left hlt.le] at h2
      exact div_nonneg_of_nonpos (by linarith) (by linarith)
  · rcases lt_or_gt_of_ne hne with hlt | hlt
    · rw [max_eq_right hlt.le] at h2
      exact (div_le_one (by linarith)).2 (by linarith)
    · rw [min_eq_right hlt.le] at h1
      rw [div_le_iff_of_neg (by linarith)]
      linarith

/-- C154: with more of the guest the constant of a transparent mixture moves strictly towards that of the guest. -/
theorem C154_monotone (k : EmaKind) (h g f₁ f₂ : ℝ) (hh : 0 < h) (hg : 0 < g) (hf0 : 0 ≤ f₁) (hf : f₁ < f₂) (hf1 : f₂ ≤ 1) :
    ∃ e₁ e₂ : ℝ, k.entry h g f₁ = some (e₁ : ℂ) ∧ k.entry h g f₂ = some (e₂ : ℂ) ∧ (h < g → e₁ < e₂) ∧ (g < h → e₂ < e₁) := by
  obtain ⟨e₁, he1, l1, u1⟩ := C22_between k h g f₁ hh hg hf0 (by linarith)
  obtain ⟨e₂, he2, l2, u2⟩ := C22_between k h g f₂ hh hg (by linarith) hf1
  have p1 : 0 < e₁ := lt_of_lt_of_le (lt_min hh hg) l1
  have p2 : 0 < e₂ := lt_of_lt_of_le (lt_min hh hg) l2
  refine ⟨e₁, e₂, he1, he2, ?_⟩
  suffices hs : ∃ c : ℝ, 0 < c ∧ (e₂ - e₁) * c = (f₂ - f₁) * (g - h) by
    obtain ⟨c, hc, hs⟩ := hs
    have hd : 0 < f₂ - f₁ := by linarith
    constructor
    · intro hlt
      have : 0 < (e₂ - e₁) * c := by
        rw [hs]
        exact mul_pos hd (by linarith)
      linarith [(pos_iff_pos_of_mul_pos this).2 hc]
    · intro hlt
      have : (e₂ - e₁) * c < 0 := by
        rw [hs]
        exact mul_neg_of_pos_of_neg hd (by linarith)
      by_contra hcon
      push Not at hcon
      have := mul_nonneg (sub_nonneg.2 hcon) hc.le
      linarith
  cases k with
  | vca =>
    have h1 : e₁ = h * (1 - f₁) + g * f₁ := by
      have := Option.some.inj he1
      unfold vcaEntry at this
      exact_mod_cast this.symm
    have h2 : e₂ = h * (1 - f₂) + g * f₂ := by
      have := Option.some.inj he2
      unfold vcaEntry at this
      exact_mod_cast this.symm
    exact ⟨1, one_pos, by rw [h1, h2]; ring⟩
  | looyenga =>
    set a := h ^ (1 / 3 : ℝ) with ha
    set b := g ^ (1 / 3 : ℝ) with hb
    have a0 : 0 < a := Real.rpow_pos_of_pos hh _
    have b0 : 0 < b := Real.rpow_pos_of_pos hg _
    have ha3 : a ^ 3 = h := cbrt_pow hh.le
    have hb3 : b ^ 3 = g := cbrt_pow hg.le
    have h1 : e₁ = (a * (1 - f₁) + b * f₁) ^ 3 := by
      have := Option.some.inj he1
      rw [looyenga_real hh hg] at this
      exact_mod_cast this.symm
    have h2 : e₂ = (a * (1 - f₂) + b * f₂) ^ 3 := by
      have := Option.some.inj he2
      rw [looyenga_real hh hg] at this
      exact_mod_cast this.symm
    have w1 : 0 < a * (1 - f₁) + b * f₁ := by
      by_contra hc
      rw [h1] at p1
      exact absurd p1 (not_lt.2 (Odd.pow_nonpos (by decide) (not_lt.1 hc)))
    have w2 : 0 < a * (1 - f₂) + b * f₂ := by
      by_contra hc
      rw [h2] at p2
      exact absurd p2 (not_lt.2 (Odd.pow_nonpos (by decide) (not_lt.1 hc)))
    have hx : a * (1 - f₂) + b * f₂ - (a * (1 - f₁) + b * f₁) = (f₂ - f₁) * (b - a) := by ring
    generalize a * (1 - f₁) + b * f₁ = x at *
    generalize a * (1 - f₂) + b * f₂ = y at *
    have q1 : 0 < y ^ 2 + y * x + x ^ 2 := by positivity
    have q2 : 0 < b ^ 2 + b * a + a ^ 2 := by positivity
    refine ⟨(b ^ 2 + b * a + a ^ 2) / (y ^ 2 + y * x + x ^ 2), div_pos q2 q1, ?_⟩
    rw [mul_div, div_eq_iff q1.ne', h1, h2, ← ha3, ← hb3]
    linear_combination (y ^ 2 + y * x + x ^ 2) * (b ^ 2 + b * a + a ^ 2) * hx
  | maxwellGarnett =>
    obtain ⟨q1, v1⟩ := mg_real hh hg hf0 (by linarith) he1
    obtain ⟨q2, v2⟩ := mg_real hh hg (by linarith) hf1 he2
    refine ⟨(2 * h + g - f₁ * (g - h)) * (2 * h + g - f₂ * (g - h)) / (3 * h * (g + 2 * h)), by positivity, ?_⟩
    rw [mul_div, div_eq_iff (by positivity)]
    linear_combination (2 * h + g - f₁ * (g - h)) * v2 - (2 * h + g - f₂ * (g - h)) * v1
  | bruggeman =>
    have b1 : f₁ * (g - e₁) * (h + 2 * e₁) + (1 - f₁) * (h - e₁) * (g + 2 * e₁) = 0 := by exact_mod_cast bruggeman_balance he1
    have b2 : f₂ * (g - e₂) * (h + 2 * e₂) + (1 - f₂) * (h - e₂) * (g + 2 * e₂) = 0 := by exact_mod_cast bruggeman_balance he2
    refine ⟨(2 * e₁ * e₂ + h * g) / (3 * e₁ * e₂), by positivity, ?_⟩
    rw [mul_div, div_eq_iff (by positivity)]
    linear_combination e₂ * b1 - e₁ * b2

/-- C154: every value between the constants of the two materials is that of exactly one mixture. -/
theorem C154_attained (k : EmaKind) (h g e : ℝ) (hh : 0 < h) (hg : 0 < g) (hne : h ≠ g) (h1 : min h g ≤ e) (h2 : e ≤ max h g) :
    ∃! f : ℝ, (0 ≤ f ∧ f ≤ 1) ∧ k.entry h g f = some (e : ℂ) := by
  have hneC : (h : ℂ) ≠ g := fun h0 => hne (by exact_mod_cast h0)
  have hd : g - h ≠ 0 := sub_ne_zero.2 (Ne.symm hne)
  have he0 : 0 < e := lt_of_lt_of_le (lt_min hh hg) h1
  obtain ⟨t, t0, t1, ht⟩ := way hne h1 h2
  have t1' : 0 ≤ 1 - t := by linarith
  obtain ⟨f, f0, f1, hf⟩ : ∃ f : ℝ, 0 ≤ f ∧ f ≤ 1 ∧ k.entry h g f = some (e : ℂ) := by
    cases k with
    | vca =>
      refine ⟨t, t0, t1, ?_⟩
      simp only [EmaKind.entry, vcaEntry]
      rw [ht]
      push_cast
      congr 1
      ring
    | looyenga =>
      have hab : h ^ (1 / 3 : ℝ) ≠ g ^ (1 / 3 : ℝ) := by
        intro h0
        apply hne
        rw [← cbrt_pow hh.le, ← cbrt_pow hg.le, h0]
      have mono : ∀ x y : ℝ, 0 ≤ x → x ≤ y → x ^ (1 / 3 : ℝ) ≤ y ^ (1 / 3 : ℝ) := fun x y hx hxy => Real.rpow_le_rpow hx hxy (by norm_num)
      obtain ⟨f, f0, f1, hf⟩ := way (e := e ^ (1 / 3 : ℝ)) hab (by
        rcases min_le_iff.1 h1 with h0 | h0
        · exact (min_le_left _ _).trans (mono _ _ hh.le h0)
        · exact (min_le_right _ _).trans (mono _ _ hg.le h0)) (by
        rcases le_max_iff.1 h2 with h0 | h0
        · exact (mono _ _ he0.le h0).trans (le_max_left _ _)
        · exact (mono _ _ he0.le h0).trans (le_max_right _ _))
      refine ⟨f, f0, f1, ?_⟩
      simp only [EmaKind.entry]
      rw [looyenga_real hh hg, show h ^ (1 / 3 : ℝ) * (1 - f) + g ^ (1 / 3 : ℝ) * f = e ^ (1 / 3 : ℝ) by rw [hf]; ring, cbrt_pow he0.le]
    | maxwellGarnett =>
      have hs : 0 < e + 2 * h := by positivity
      have e1 : 1 - t * (g + 2 * h) / (e + 2 * h) = (1 - t) * (3 * h) / (e + 2 * h) := by
        rw [eq_div_iff hs.ne', sub_mul, div_mul_cancel₀ _ hs.ne', ht]
        ring
      have p1 : 0 ≤ (1 - t) * (3 * h) / (e + 2 * h) := by positivity
      have f0 : 0 ≤ t * (g + 2 * h) / (e + 2 * h) := by positivity
      have f1 : t * (g + 2 * h) / (e + 2 * h) ≤ 1 := by linarith
      refine ⟨_, f0, f1, ?_⟩
      have hf : t * (g + 2 * h) / (e + 2 * h) * (e + 2 * h) = t * (g + 2 * h) := div_mul_cancel₀ _ hs.ne'
      generalize t * (g + 2 * h) / (e + 2 * h) = f at f0 f1 hf
      obtain ⟨e', he', -, -⟩ := C22_between .maxwellGarnett h g f hh hg f0 f1
      obtain ⟨q, v⟩ := mg_real hh hg f0 f1 he'
      have hz : (e' - e) * (2 * h + g - f * (g - h)) = 0 := by
        have hq : (g - h) * (t * (g + 2 * h)) = (e - h) * (g + 2 * h) := by rw [ht]; ring
        linear_combination v + (g - h) * hf + hq
      rcases mul_eq_zero.1 hz with h0 | h0
      · rw [he', sub_eq_zero.1 h0]
      · exact absurd h0 q.ne'
    | bruggeman =>
      have hs : 0 < 3 * e := by positivity
      have e1 : 1 - t * (g + 2 * e) / (3 * e) = (1 - t) * (h + 2 * e) / (3 * e) := by
        rw [eq_div_iff hs.ne', sub_mul, div_mul_cancel₀ _ hs.ne', ht]
        ring
      have p1 : 0 ≤ (1 - t) * (h + 2 * e) / (3 * e) := by positivity
      have f0 : 0 ≤ t * (g + 2 * e) / (3 * e) := by positivity
      have f1 : t * (g + 2 * e) / (3 * e) ≤ 1 := by linarith
      refine ⟨_, f0, f1, ?_⟩
      have hf : t * (g + 2 * e) / (3 * e) * (3 * e) = t * (g + 2 * e) := div_mul_cancel₀ _ hs.ne'
      generalize t * (g + 2 * e) / (3 * e) = f at f0 f1 hf
      obtain ⟨e', he', l', -⟩ := C22_between .bruggeman h g f hh hg f0 f1
      have pe : 0 < e' := lt_of_lt_of_le (lt_min hh hg) l'
      have b : f * (g - e') * (h + 2 * e') + (1 - f) * (h - e') * (g + 2 * e') = 0 := by exact_mod_cast bruggeman_balance he'
      have hq : (g - h) * (t * (g + 2 * e)) = (e - h) * (g + 2 * e) := by
        have : t * (g - h) = e - h := by rw [ht]; ring
        linear_combination (g + 2 * e) * this
      have hz : (e' - e) * (2 * e * e' + h * g) = 0 := by
        linear_combination -e * b + e' * (g - h) * hf + e' * hq
      rcases mul_eq_zero.1 hz with h0 | h0
      · rw [he', sub_eq_zero.1 h0]
      · exact absurd h0 (by positivity)
  refine ⟨f, ⟨⟨f0, f1⟩, hf⟩, ?_⟩
  rintro f' ⟨⟨f0', f1'⟩, hf'⟩
  exact C154_determined k h g f' f (by simp) (by simp) (by exact_mod_cast hh.ne') (by exact_mod_cast hg.ne') hneC
    (fun _ h0 => (by positivity : g + 2 * h ≠ 0) (by exact_mod_cast h0)) f0' f1' f0 f1 (hf'.trans hf.symm)

/-- Porous silica, measured as 1.8: the fraction of the pores exists. -/
example : (0 : ℝ) < 2.1 ∧ (0 : ℝ) < 1 ∧ (2.1 : ℝ) ≠ 1 ∧ min (2.1 : ℝ) 1 ≤ 1.8 ∧ (1.8 : ℝ) ≤ max 2.1 1 := by norm_num

/-- C154: three of the classes treat host and guest alike. -/
theorem C154_exchange (k : EmaKind) (hk : k ≠ .maxwellGarnett) (h g : ℂ) (f : ℝ) : k.entry h g f = k.entry g h (1 - f) := by
  cases k with
  | vca =>
    simp only [EmaKind.entry, vcaEntry]
    push_cast
    congr 1
    ring
  | looyenga =>
    simp only [EmaKind.entry, looyengaEntry]
    push_cast
    congr 1
    ring
  | maxwellGarnett => exact absurd rfl hk
  | bruggeman => exact bruggeman_swap f

/-- C154: `MaxwellGarnettEMA` does not. -/
theorem C154_exchange_maxwell_garnett (h g f : ℝ) (hh : 0 < h) (hg : 0 < g) (hne : h ≠ g) (f0 : 0 < f) (f1 : f < 1) :
    EmaKind.entry .maxwellGarnett h g f ≠ EmaKind.entry .maxwellGarnett g h (1 - f : ℝ) := by
  intro heq
  obtain ⟨e, he, -, -⟩ := C22_between .maxwellGarnett h g f hh hg f0.le f1.le
  obtain ⟨q1, v1⟩ := mg_real hh hg f0.le f1.le he
  obtain ⟨q2, v2⟩ := mg_real hg hh (by linarith) (by linarith) (heq.symm.trans he)
  have : 2 * f * (1 - f) * (g - h) ^ 3 = 0 := by
    linear_combination (2 * g + h - (1 - f) * (h - g)) * v1 - (2 * h + g - f * (g - h)) * v2
  have hd : g - h ≠ 0 := sub_ne_zero.2 (Ne.symm hne)
  have h1 : (1 - f) ≠ 0 := by linarith
  exact absurd this (mul_ne_zero (mul_ne_zero (mul_ne_zero two_ne_zero f0.ne') h1) (pow_ne_zero 3 hd))

/-- A quarter of air in silica. -/
example : (0 : ℝ) < 2.1 ∧ (0 : ℝ) < 1 ∧ (2.1 : ℝ) ≠ 1 ∧ (0 : ℝ) < 1 / 4 ∧ (1 / 4 : ℝ) < 1 := by norm_num

end PyElli
