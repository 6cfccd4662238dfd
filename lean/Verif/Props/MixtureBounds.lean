import Verif.Props.Materials
import Verif.Spec.MixtureBounds
import Mathlib.Analysis.SpecialFunctions.Complex.Arg
import Mathlib.Topology.Algebra.Order.Field

/-! # Mixtures and the bounds of the theory of composites (C137) -/

namespace PyElli

open Complex Filter Topology

/-- All values in question have this form; `D` tells them apart. -/
noncomputable def mixForm (h g f D : ℝ) : ℝ := (1 - f) * h + f * g - f * (1 - f) * (g - h) ^ 2 / D

lemma mixForm_mono {h g f D D' : ℝ} (f0 : 0 ≤ f) (f1 : f ≤ 1) (hD : 0 < D) (h' : D ≤ D') : mixForm h g f D ≤ mixForm h g f D' := by
  unfold mixForm
  have : f * (1 - f) * (g - h) ^ 2 / D' ≤ f * (1 - f) * (g - h) ^ 2 / D :=
    div_le_div_of_nonneg_left (mul_nonneg (mul_nonneg f0 (by linarith)) (sq_nonneg _)) hD h'
  linarith

lemma mixForm_swap (h g f D : ℝ) : mixForm g h (1 - f) D = mixForm h g f D := by
  unfold mixForm
  rw [show (g - h) ^ 2 = (h - g) ^ 2 by ring]
  ring

lemma harmonic_form {h g f : ℝ} (hh : 0 < h) (hg : 0 < g) (f0 : 0 ≤ f) (f1 : f ≤ 1) :
    Spec.harmonicMean h g f = mixForm h g f ((1 - f) * g + f * h) := by
  have f1' : 0 ≤ 1 - f := by linarith
  have hD : 0 < (1 - f) * g + f * h := by
    rcases f0.lt_or_eq with h0 | h0
    · have := mul_pos h0 hh
      have := mul_nonneg f1' hg.le
      linarith
    · rw [← h0]
      linarith
  have e : (1 - f) / h + f / g = ((1 - f) * g + f * h) / (h * g) := by field_simp
  unfold Spec.harmonicMean mixForm
  rw [e, inv_div, div_eq_iff hD.ne', sub_mul, div_mul_cancel₀ _ hD.ne']
  ring

/-- The value of Maxwell-Garnett in this form. -/
lemma mg_form {h g f : ℝ} (hh : 0 < h) (hg : 0 < g) (f0 : 0 ≤ f) (f1 : f ≤ 1) :
    maxwellGarnettEntry h g f = some ((mixForm h g f ((2 + f) * h + (1 - f) * g) : ℝ) : ℂ) := by
  have hden : 0 < 2 * h + g - f * (g - h) := by nlinarith
  unfold maxwellGarnettEntry
  rw [if_neg (by
    rintro ⟨h0, -⟩
    exact hh.ne' (by exact_mod_cast h0))]
  simp only
  rw [if_neg (by
    intro h0
    exact hden.ne' (by exact_mod_cast h0))]
  have hD : (2 + f) * h + (1 - f) * g = 2 * h + g - f * (g - h) := by ring
  have : mixForm h g f ((2 + f) * h + (1 - f) * g) = h * (2 * f * (g - h) + g + 2 * h) / (2 * h + g - f * (g - h)) := by
    unfold mixForm
    rw [hD, eq_div_iff hden.ne', sub_mul, div_mul_cancel₀ _ hden.ne']
    ring
  rw [this]
  push_cast
  rfl

lemma coated_form {h g f : ℝ} (hh : 0 < h) (hg : 0 < g) (hne : h ≠ g) (f0 : 0 ≤ f) (f1 : f ≤ 1) :
    Spec.coatedSpheres h g f = mixForm h g f ((2 + f) * h + (1 - f) * g) := by
  have hden : 0 < (2 + f) * h + (1 - f) * g := by nlinarith
  have hgh : g - h ≠ 0 := sub_ne_zero.2 (Ne.symm hne)
  have e : 1 / (g - h) + (1 - f) / (3 * h) = ((2 + f) * h + (1 - f) * g) / ((g - h) * (3 * h)) := by
    field_simp
    ring
  unfold Spec.coatedSpheres mixForm
  rw [e, div_div_eq_mul_div]
  have hD : (2 + f) * h + (1 - f) * g = 3 * h + (1 - f) * (g - h) := by ring
  generalize (2 + f) * h + (1 - f) * g = D at *
  have := hden.ne'
  field_simp
  linear_combination -f * (g - h) * hD

/-- Looyenga's and Bruggeman's value in this form: the denominator lies between those of the two kinds of coated spheres. -/
lemma symmetric_form_aux {h g f : ℝ} (hh : 0 < h) (hle : h ≤ g) (f0 : 0 ≤ f) (f1 : f ≤ 1) (k : EmaKind) (hk : k = .looyenga ∨ k = .bruggeman) :
    ∃ D, k.entry h g f = some ((mixForm h g f D : ℝ) : ℂ) ∧ (2 + f) * h + (1 - f) * g ≤ D ∧ D ≤ f * h + (3 - f) * g := by
  have hg : 0 < g := by linarith
  have f1' : 0 ≤ 1 - f := by linarith
  rcases hk with rfl | rfl
  · set a := h ^ (1 / 3 : ℝ) with ha
    set b := g ^ (1 / 3 : ℝ) with hb
    have a0 : 0 < a := Real.rpow_pos_of_pos hh _
    have hab : a ≤ b := Real.rpow_le_rpow hh.le hle (by norm_num)
    have cube : ∀ x : ℝ, 0 ≤ x → (x ^ (1 / 3 : ℝ)) ^ 3 = x := by
      intro x hx
      rw [← Real.rpow_natCast, ← Real.rpow_mul hx]
      norm_num
    have ha3 : a ^ 3 = h := cube h hh.le
    have hb3 : b ^ 3 = g := cube g hg.le
    have val : looyengaEntry h g f = (((a * (1 - f) + b * f) ^ 3 : ℝ) : ℂ) := by
      have c1 : (h : ℂ) ^ (1 / 3 : ℂ) = (a : ℂ) := by
        rw [ha, Complex.ofReal_cpow hh.le]; norm_num
      have c2 : (g : ℂ) ^ (1 / 3 : ℂ) = (b : ℂ) := by
        rw [hb, Complex.ofReal_cpow hg.le]; norm_num
      unfold looyengaEntry
      rw [c1, c2]
      push_cast
      rfl
    obtain ⟨d, hd⟩ : ∃ d, d = b - a := ⟨_, rfl⟩
    have hd0 : 0 ≤ d := by linarith
    have hbd : b = a + d := by linarith
    have hN : 0 < 3 * a + (1 + f) * d := by positivity
    refine ⟨(3 * a ^ 2 + 3 * a * d + d ^ 2) ^ 2 / (3 * a + (1 + f) * d), ?_, ?_, ?_⟩
    · simp only [EmaKind.entry]
      rw [val]
      congr 2
      unfold mixForm
      have hM : 0 < 3 * a ^ 2 + 3 * a * d + d ^ 2 := by positivity
      rw [← ha3, ← hb3, hbd, show (a + d) ^ 3 - a ^ 3 = d * (3 * a ^ 2 + 3 * a * d + d ^ 2) by ring]
      generalize hMM : 3 * a ^ 2 + 3 * a * d + d ^ 2 = M at *
      rw [div_div_eq_mul_div, eq_sub_iff_add_eq]
      have : f * (1 - f) * (d * M) ^ 2 * (3 * a + (1 + f) * d) / M ^ 2 = f * (1 - f) * d ^ 2 * (3 * a + (1 + f) * d) := by
        field_simp
      rw [this]
      ring
    · rw [le_div_iff₀ hN, ← ha3, ← hb3, hbd]
      have q1 := mul_nonneg (pow_nonneg a0.le 3) hd0
      have q2 := mul_nonneg (pow_nonneg a0.le 2) (pow_nonneg hd0 2)
      have q3 := mul_nonneg a0.le (pow_nonneg hd0 3)
      have q4 := pow_nonneg hd0 4
      have e : (3 * a ^ 2 + 3 * a * d + d ^ 2) ^ 2 - ((2 + f) * a ^ 3 + (1 - f) * (a + d) ^ 3) * (3 * a + (1 + f) * d) =
          (6 + 6 * f) * (a ^ 3 * d) + (3 + 9 * f + 3 * f ^ 2) * (a ^ 2 * d ^ 2) + (3 * f + 3 * f ^ 2) * (a * d ^ 3) + f ^ 2 * d ^ 4 := by ring
      have : 0 ≤ (6 + 6 * f) * (a ^ 3 * d) + (3 + 9 * f + 3 * f ^ 2) * (a ^ 2 * d ^ 2) + (3 * f + 3 * f ^ 2) * (a * d ^ 3) + f ^ 2 * d ^ 4 := by positivity
      linarith
    · rw [div_le_iff₀ hN, ← ha3, ← hb3, hbd]
      have q1 := mul_nonneg (pow_nonneg a0.le 3) hd0
      have q2 := mul_nonneg (pow_nonneg a0.le 2) (pow_nonneg hd0 2)
      have q3 := mul_nonneg a0.le (pow_nonneg hd0 3)
      have q4 := pow_nonneg hd0 4
      have e : (f * a ^ 3 + (3 - f) * (a + d) ^ 3) * (3 * a + (1 + f) * d) - (3 * a ^ 2 + 3 * a * d + d ^ 2) ^ 2 =
          (12 - 6 * f) * (a ^ 3 * d) + (21 - 3 * f - 3 * f ^ 2) * (a ^ 2 * d ^ 2) + (12 + 3 * f - 3 * f ^ 2) * (a * d ^ 3) + (2 + 2 * f - f ^ 2) * d ^ 4 := by ring
      have c1 : 0 ≤ 12 - 6 * f := by linarith
      have c2 : 0 ≤ 21 - 3 * f - 3 * f ^ 2 := by nlinarith
      have c3 : 0 ≤ 12 + 3 * f - 3 * f ^ 2 := by nlinarith
      have c4 : 0 ≤ 2 + 2 * f - f ^ 2 := by nlinarith
      have : 0 ≤ (12 - 6 * f) * (a ^ 3 * d) + (21 - 3 * f - 3 * f ^ 2) * (a ^ 2 * d ^ 2) + (12 + 3 * f - 3 * f ^ 2) * (a * d ^ 3) + (2 + 2 * f - f ^ 2) * d ^ 4 := by
        positivity
      linarith
  · obtain ⟨e, he, h1, h2⟩ := C22_between .bruggeman h g f hh hg f0 f1
    rw [min_eq_left hle] at h1
    rw [max_eq_right hle] at h2
    have hb : f * (g - e) * (h + 2 * e) + (1 - f) * (h - e) * (g + 2 * e) = 0 := by exact_mod_cast bruggeman_balance he
    have hD : 0 < 2 * e + (1 - f) * g + f * h := by
      have := mul_nonneg f1' hg.le
      have := mul_nonneg f0 hh.le
      linarith
    refine ⟨2 * e + (1 - f) * g + f * h, ?_, by linarith, by linarith⟩
    rw [he]
    congr 2
    unfold mixForm
    rw [eq_sub_iff_add_eq, ← eq_sub_iff_add_eq', div_eq_iff hD.ne']
    linear_combination -hb

lemma looyenga_swap (h g : ℂ) (f : ℝ) : looyengaEntry h g f = looyengaEntry g h (1 - f) := by
  unfold looyengaEntry
  push_cast
  ring

lemma symmetric_form {h g f : ℝ} (hh : 0 < h) (hg : 0 < g) (f0 : 0 ≤ f) (f1 : f ≤ 1) (k : EmaKind) (hk : k = .looyenga ∨ k = .bruggeman) :
    ∃ D, k.entry h g f = some ((mixForm h g f D : ℝ) : ℂ) ∧ Spec.Between ((2 + f) * h + (1 - f) * g) (f * h + (3 - f) * g) D := by
  rcases le_total h g with hle | hle
  · obtain ⟨D, h1, h2, h3⟩ := symmetric_form_aux hh hle f0 f1 k hk
    exact ⟨D, h1, (min_le_left _ _).trans h2, h3.trans (le_max_right _ _)⟩
  · obtain ⟨D, h1, h2, h3⟩ := symmetric_form_aux (f := 1 - f) hg hle (by linarith) (by linarith) k hk
    refine ⟨D, ?_, (min_le_right _ _).trans (by linarith), le_trans ?_ (le_max_left _ _)⟩
    · rw [mixForm_swap] at h1
      rw [← h1]
      rcases hk with rfl | rfl
      · exact congrArg some (looyenga_swap _ _ _)
      · exact bruggeman_swap f
    · linarith

/-- C137: every mixture of two transparent materials lies between Wiener's bounds. -/
theorem C137_wiener (k : EmaKind) (h g f : ℝ) (hh : 0 < h) (hg : 0 < g) (f0 : 0 ≤ f) (f1 : f ≤ 1) :
    ∃ e : ℝ, k.entry h g f = some (e : ℂ) ∧ Spec.harmonicMean h g f ≤ e ∧ e ≤ Spec.arithmeticMean h g f := by
  have f1' : 0 ≤ 1 - f := by linarith
  have hw : 0 < (1 - f) * g + f * h := by
    rcases f0.lt_or_eq with h0 | h0
    · have := mul_pos h0 hh
      have := mul_nonneg f1' hg.le
      linarith
    · rw [← h0]
      linarith
  have up : ∀ D, 0 < D → mixForm h g f D ≤ Spec.arithmeticMean h g f := fun D hD => by
    unfold mixForm Spec.arithmeticMean
    have : 0 ≤ f * (1 - f) * (g - h) ^ 2 / D := by positivity
    linarith
  have lo : ∀ D, (1 - f) * g + f * h ≤ D → Spec.harmonicMean h g f ≤ mixForm h g f D := fun D hD => by
    rw [harmonic_form hh hg f0 f1]
    exact mixForm_mono f0 f1 hw hD
  have l1 : (1 - f) * g + f * h ≤ (2 + f) * h + (1 - f) * g := by linarith
  have l2 : (1 - f) * g + f * h ≤ f * h + (3 - f) * g := by linarith
  have sym : ∀ k : EmaKind, k = .looyenga ∨ k = .bruggeman → ∃ e : ℝ, k.entry h g f = some (e : ℂ) ∧ Spec.harmonicMean h g f ≤ e ∧ e ≤ Spec.arithmeticMean h g f := by
    intro k hk
    obtain ⟨D, h1, h2, -⟩ := symmetric_form hh hg f0 f1 k hk
    have hD := (le_min l1 l2).trans h2
    exact ⟨_, h1, lo D hD, up D (lt_of_lt_of_le hw hD)⟩
  cases k with
  | vca =>
    refine ⟨Spec.arithmeticMean h g f, ?_, (lo _ l1).trans (up _ (lt_of_lt_of_le hw l1)), le_refl _⟩
    simp [EmaKind.entry, vcaEntry, Spec.arithmeticMean]
    ring
  | looyenga => exact sym _ (Or.inl rfl)
  | maxwellGarnett => exact ⟨_, mg_form hh hg f0 f1, lo _ l1, up _ (lt_of_lt_of_le hw l1)⟩
  | bruggeman => exact sym _ (Or.inr rfl)

/-- C137: Maxwell-Garnett is the assemblage of coated spheres, with the host outside. -/
theorem C137_coated_spheres (h g f : ℝ) (hh : 0 < h) (hg : 0 < g) (hne : h ≠ g) (f0 : 0 ≤ f) (f1 : f ≤ 1) :
    EmaKind.entry .maxwellGarnett h g f = some ((Spec.coatedSpheres h g f : ℝ) : ℂ) := by
  rw [coated_form hh hg hne f0 f1]
  exact mg_form hh hg f0 f1

lemma between_forms {h g f D : ℝ} (hh : 0 < h) (hg : 0 < g) (hne : h ≠ g) (f0 : 0 ≤ f) (f1 : f ≤ 1)
    (hD : Spec.Between ((2 + f) * h + (1 - f) * g) (f * h + (3 - f) * g) D) :
    Spec.Between (Spec.coatedSpheres h g f) (Spec.coatedSpheres g h (1 - f)) (mixForm h g f D) := by
  have f1' : 0 ≤ 1 - f := by linarith
  rw [coated_form hh hg hne f0 f1, coated_form hg hh (Ne.symm hne) f1' (by linarith), mixForm_swap]
  rw [show (2 + (1 - f)) * g + (1 - (1 - f)) * h = f * h + (3 - f) * g by ring]
  have p1 : 0 < (2 + f) * h + (1 - f) * g := by
    have := mul_nonneg f1' hg.le
    have := mul_pos (show (0 : ℝ) < 2 + f by linarith) hh
    linarith
  have p2 : 0 < f * h + (3 - f) * g := by
    have := mul_nonneg f0 hh.le
    have := mul_pos (show (0 : ℝ) < 3 - f by linarith) hg
    linarith
  obtain ⟨h1, h2⟩ := hD
  generalize (2 + f) * h + (1 - f) * g = D1 at *
  generalize f * h + (3 - f) * g = D2 at *
  constructor
  · rcases le_total D1 D2 with hl | hl
    · rw [min_eq_left hl] at h1
      exact (min_le_left _ _).trans (mixForm_mono f0 f1 p1 h1)
    · rw [min_eq_right hl] at h1
      exact (min_le_right _ _).trans (mixForm_mono f0 f1 p2 h1)
  · have hD0 : 0 < D := lt_of_lt_of_le (lt_min p1 p2) h1
    rcases le_total D1 D2 with hl | hl
    · rw [max_eq_right hl] at h2
      exact (mixForm_mono f0 f1 hD0 h2).trans (le_max_right _ _)
    · rw [max_eq_left hl] at h2
      exact (mixForm_mono f0 f1 hD0 h2).trans (le_max_left _ _)

/-- C137: the effective medium models lie between the bounds of Hashin and Shtrikman. -/
theorem C137_hashin_shtrikman (k : EmaKind) (hk : k ≠ .vca) (h g f : ℝ) (hh : 0 < h) (hg : 0 < g) (hne : h ≠ g) (f0 : 0 ≤ f) (f1 : f ≤ 1) :
    ∃ e : ℝ, k.entry h g f = some (e : ℂ) ∧ Spec.Between (Spec.coatedSpheres h g f) (Spec.coatedSpheres g h (1 - f)) e := by
  cases k with
  | vca => exact absurd rfl hk
  | looyenga =>
    obtain ⟨D, h1, h2⟩ := symmetric_form hh hg f0 f1 .looyenga (Or.inl rfl)
    exact ⟨_, h1, between_forms hh hg hne f0 f1 h2⟩
  | maxwellGarnett => exact ⟨_, C137_coated_spheres h g f hh hg hne f0 f1, min_le_left _ _, le_max_left _ _⟩
  | bruggeman =>
    obtain ⟨D, h1, h2⟩ := symmetric_form hh hg f0 f1 .bruggeman (Or.inr rfl)
    exact ⟨_, h1, between_forms hh hg hne f0 f1 h2⟩

/-- C137: linear mixing (`VCAMaterial`) is above both, unless there is nothing to mix. -/
theorem C137_linear_mixing (h g f : ℝ) (hh : 0 < h) (hg : 0 < g) (hne : h ≠ g) (f0 : 0 < f) (f1 : f < 1) :
    ∃ e : ℝ, EmaKind.entry .vca h g f = some (e : ℂ) ∧ Spec.coatedSpheres h g f < e ∧ Spec.coatedSpheres g h (1 - f) < e := by
  have f1' : 0 < 1 - f := by linarith
  have q : 0 < (g - h) ^ 2 := by
    have : g - h ≠ 0 := sub_ne_zero.2 (Ne.symm hne)
    positivity
  have up : ∀ D, 0 < D → mixForm h g f D < (1 - f) * h + f * g := fun D hD => by
    unfold mixForm
    have : 0 < f * (1 - f) * (g - h) ^ 2 / D := by positivity
    linarith
  refine ⟨(1 - f) * h + f * g, ?_, ?_, ?_⟩
  · simp [EmaKind.entry, vcaEntry]
    ring
  · rw [coated_form hh hg hne f0.le f1.le]
    exact up _ (by positivity)
  · rw [coated_form hg hh (Ne.symm hne) f1'.le (by linarith), mixForm_swap]
    exact up _ (by
      have : 0 < 1 - (1 - f) := by linarith
      positivity)

/-- C137: for weak contrast the effective medium models agree with each other and with the theory of random media up to third order. -/
theorem C137_weak_contrast (k : EmaKind) (hk : k ≠ .vca) (h g f : ℝ) (hh : 0 < h) (f0 : 0 ≤ f) (f1 : f ≤ 1) (hc : |g - h| ≤ h / 2) :
    ∃ e : ℝ, k.entry h g f = some (e : ℂ) ∧
      |e - (h + f * (g - h) - f * (1 - f) * (g - h) ^ 2 / (3 * h))| ≤ |g - h| ^ 3 / (6 * h ^ 2) := by
  have f1' : 0 ≤ 1 - f := by linarith
  have hc' := abs_le.1 hc
  have hg : 0 < g := by linarith
  -- the error of one form
  have err : ∀ t, 0 ≤ t → t ≤ 3 → |mixForm h g f (3 * h + t * (g - h)) - (h + f * (g - h) - f * (1 - f) * (g - h) ^ 2 / (3 * h))| ≤ |g - h| ^ 3 / (6 * h ^ 2) := by
    intro t t0 t3
    have hD : 3 * h / 2 ≤ 3 * h + t * (g - h) := by nlinarith
    have hD0 : 0 < 3 * h + t * (g - h) := by linarith
    have e : mixForm h g f (3 * h + t * (g - h)) - (h + f * (g - h) - f * (1 - f) * (g - h) ^ 2 / (3 * h)) =
        f * (1 - f) * t * (g - h) ^ 3 / (3 * h * (3 * h + t * (g - h))) := by
      unfold mixForm
      have hne := hD0.ne'
      obtain ⟨D, hDD⟩ : ∃ D, D = 3 * h + t * (g - h) := ⟨_, rfl⟩
      rw [← hDD] at hne ⊢
      field_simp
      linear_combination f * (1 - f) * (g - h) ^ 2 * hDD
    rw [e, abs_div, abs_mul, abs_of_nonneg (by positivity : 0 ≤ f * (1 - f) * t), abs_pow, abs_of_pos (by positivity : 0 < 3 * h * (3 * h + t * (g - h)))]
    have c1 : f * (1 - f) * t ≤ 3 / 4 := by nlinarith [sq_nonneg (f - 1 / 2), mul_nonneg f0 f1']
    have c2 : 3 * h * (3 * h / 2) ≤ 3 * h * (3 * h + t * (g - h)) := by gcongr
    calc f * (1 - f) * t * |g - h| ^ 3 / (3 * h * (3 * h + t * (g - h))) ≤ 3 / 4 * |g - h| ^ 3 / (3 * h * (3 * h / 2)) := by gcongr
      _ = |g - h| ^ 3 / (6 * h ^ 2) := by field_simp; ring
  have d1 : (2 + f) * h + (1 - f) * g = 3 * h + (1 - f) * (g - h) := by ring
  have d2 : f * h + (3 - f) * g = 3 * h + (3 - f) * (g - h) := by ring
  have e1 := err (1 - f) f1' (by linarith)
  have e2 := err (3 - f) (by linarith) (by linarith)
  rw [← d1] at e1
  rw [← d2] at e2
  have p1 : 0 < (2 + f) * h + (1 - f) * g := by
    have := mul_nonneg f1' hg.le
    have := mul_pos (show (0 : ℝ) < 2 + f by linarith) hh
    linarith
  have p2 : 0 < f * h + (3 - f) * g := by
    have := mul_nonneg f0 hh.le
    have := mul_pos (show (0 : ℝ) < 3 - f by linarith) hg
    linarith
  have sym : ∀ k : EmaKind, k = .looyenga ∨ k = .bruggeman → ∃ e : ℝ, k.entry h g f = some (e : ℂ) ∧
      |e - (h + f * (g - h) - f * (1 - f) * (g - h) ^ 2 / (3 * h))| ≤ |g - h| ^ 3 / (6 * h ^ 2) := by
    intro k hk
    obtain ⟨D, h1, h2, h3⟩ := symmetric_form hh hg f0 f1 k hk
    refine ⟨_, h1, ?_⟩
    have hD0 : 0 < D := lt_of_lt_of_le (lt_min p1 p2) h2
    generalize (2 + f) * h + (1 - f) * g = D1 at *
    generalize f * h + (3 - f) * g = D2 at *
    have a1 := abs_le.1 e1
    have a2 := abs_le.1 e2
    rw [abs_le]
    constructor
    · rcases le_total D1 D2 with hl | hl
      · rw [min_eq_left hl] at h2
        linarith [mixForm_mono (h := h) (g := g) f0 f1 p1 h2]
      · rw [min_eq_right hl] at h2
        linarith [mixForm_mono (h := h) (g := g) f0 f1 p2 h2]
    · rcases le_total D1 D2 with hl | hl
      · rw [max_eq_right hl] at h3
        linarith [mixForm_mono (h := h) (g := g) f0 f1 hD0 h3]
      · rw [max_eq_left hl] at h3
        linarith [mixForm_mono (h := h) (g := g) f0 f1 hD0 h3]
  cases k with
  | vca => exact absurd rfl hk
  | looyenga => exact sym _ (Or.inl rfl)
  | maxwellGarnett => exact ⟨_, mg_form hh hg f0 f1, e1⟩
  | bruggeman => exact sym _ (Or.inr rfl)

/-- C137: a few inclusions act as single polarisable spheres, in the models of Maxwell Garnett and Bruggeman. -/
theorem C137_dilute (k : EmaKind) (hk : k = .maxwellGarnett ∨ k = .bruggeman) (h g : ℝ) (hh : 0 < h) (hg : 0 < g) :
    ∃ e : ℝ → ℝ, (∀ f, 0 ≤ f → f ≤ 1 → k.entry h g f = some ((e f : ℝ) : ℂ)) ∧
      Tendsto (fun f => (e f - h) / f) (𝓝[>] 0) (𝓝 (3 * h * (g - h) / (g + 2 * h))) := by
  have ht : Tendsto (fun f : ℝ => f) (𝓝[>] 0) (𝓝 0) := tendsto_id.mono_left nhdsWithin_le_nhds
  have hne : g + 2 * h ≠ 0 := by positivity
  have small : ∀ᶠ f : ℝ in 𝓝[>] 0, 0 < f ∧ f < 1 := by
    filter_upwards [self_mem_nhdsWithin, nhdsWithin_le_nhds (gt_mem_nhds (zero_lt_one' ℝ))] with f h1 h2
    exact ⟨h1, h2⟩
  have key : ∀ D : ℝ → ℝ, Tendsto D (𝓝[>] 0) (𝓝 (g + 2 * h)) → (∀ f, 0 < f → f < 1 → 0 < D f) →
      Tendsto (fun f => (mixForm h g f (D f) - h) / f) (𝓝[>] 0) (𝓝 (3 * h * (g - h) / (g + 2 * h))) := by
    intro D hD hpos
    have h1 : Tendsto (fun f : ℝ => (g - h) - (1 - f) * (g - h) ^ 2 / D f) (𝓝[>] 0) (𝓝 ((g - h) - (1 - 0) * (g - h) ^ 2 / (g + 2 * h))) :=
      tendsto_const_nhds.sub (((tendsto_const_nhds.sub ht).mul_const _).div hD hne)
    rw [show (g - h) - (1 - 0) * (g - h) ^ 2 / (g + 2 * h) = 3 * h * (g - h) / (g + 2 * h) by field_simp; ring] at h1
    refine h1.congr' ?_
    filter_upwards [small] with f hf
    have := (hpos f hf.1 hf.2).ne'
    have := hf.1.ne'
    unfold mixForm
    generalize D f = d at *
    field_simp
    ring
  rcases hk with rfl | rfl
  · refine ⟨fun f => mixForm h g f ((2 + f) * h + (1 - f) * g), fun f h0 h1 => mg_form hh hg h0 h1, key _ ?_ ?_⟩
    · have : Tendsto (fun f : ℝ => (2 + f) * h + (1 - f) * g) (𝓝[>] 0) (𝓝 ((2 + 0) * h + (1 - 0) * g)) :=
        ((tendsto_const_nhds.add ht).mul_const _).add ((tendsto_const_nhds.sub ht).mul_const _)
      convert this using 2
      ring
    · intro f h0 h1
      have : 0 < 1 - f := by linarith
      positivity
  · choose! e he using fun f (hf : 0 ≤ f ∧ f ≤ 1) => C137_wiener .bruggeman h g f hh hg hf.1 hf.2
    have hlim : Tendsto e (𝓝[>] 0) (𝓝 h) := by
      have l1 : Tendsto (fun f : ℝ => Spec.harmonicMean h g f) (𝓝[>] 0) (𝓝 h) := by
        have : Tendsto (fun f : ℝ => ((1 - f) / h + f / g)⁻¹) (𝓝[>] 0) (𝓝 (((1 - 0) / h + 0 / g)⁻¹)) :=
          Tendsto.inv₀ (((tendsto_const_nhds.sub ht).div_const _).add (ht.div_const _)) (by simp [hh.ne'])
        simpa [Spec.harmonicMean] using this
      have l2 : Tendsto (fun f : ℝ => Spec.arithmeticMean h g f) (𝓝[>] 0) (𝓝 h) := by
        have : Tendsto (fun f : ℝ => (1 - f) * h + f * g) (𝓝[>] 0) (𝓝 ((1 - 0) * h + 0 * g)) :=
          ((tendsto_const_nhds.sub ht).mul_const _).add (ht.mul_const _)
        simpa [Spec.arithmeticMean] using this
      refine tendsto_of_tendsto_of_tendsto_of_le_of_le' l1 l2 ?_ ?_
      · filter_upwards [small] with f hf
        exact (he f ⟨hf.1.le, hf.2.le⟩).2.1
      · filter_upwards [small] with f hf
        exact (he f ⟨hf.1.le, hf.2.le⟩).2.2
    have hpos : ∀ f, 0 < f → f < 1 → 0 < 2 * e f + (1 - f) * g + f * h := by
      intro f h0 h1
      obtain ⟨e', h2, h3, -⟩ := C22_between .bruggeman h g f hh hg h0.le h1.le
      have h4 := (he f ⟨h0.le, h1.le⟩).1
      rw [h2] at h4
      have h5 : e' = e f := by exact_mod_cast Option.some.inj h4
      have : 0 < e f := h5 ▸ lt_of_lt_of_le (lt_min hh hg) h3
      have : 0 < 1 - f := by linarith
      positivity
    refine ⟨e, fun f h0 h1 => (he f ⟨h0, h1⟩).1, ?_⟩
    have hD : Tendsto (fun f => 2 * e f + (1 - f) * g + f * h) (𝓝[>] 0) (𝓝 (g + 2 * h)) := by
      have : Tendsto (fun f => 2 * e f + (1 - f) * g + f * h) (𝓝[>] 0) (𝓝 (2 * h + (1 - 0) * g + 0 * h)) :=
        ((hlim.const_mul 2).add ((tendsto_const_nhds.sub ht).mul_const _)).add (ht.mul_const _)
      convert this using 2
      ring
    refine (key _ hD hpos).congr' ?_
    filter_upwards [small] with f hf
    congr 2
    have hb : f * (g - e f) * (h + 2 * e f) + (1 - f) * (h - e f) * (g + 2 * e f) = 0 := by
      exact_mod_cast bruggeman_balance (he f ⟨hf.1.le, hf.2.le⟩).1
    unfold mixForm
    rw [eq_comm, eq_sub_iff_add_eq, ← eq_sub_iff_add_eq', div_eq_iff (hpos f hf.1 hf.2).ne']
    linear_combination -hb

/-- Pores in silicon dioxide in the visible: `h = 2.13`, `g = 1`, three tenths of pores. -/
example (k : EmaKind) : ∃ e : ℝ, k.entry (2.13 : ℝ) (1 : ℝ) 0.3 = some (e : ℂ) ∧ Spec.harmonicMean 2.13 1 0.3 ≤ e ∧ e ≤ Spec.arithmeticMean 2.13 1 0.3 :=
  C137_wiener k 2.13 1 0.3 (by norm_num) (by norm_num) (by norm_num) (by norm_num)

/-- The bounds are 1.7106… and 1.7431…, linear mixing gives 1.791. -/
example : Spec.coatedSpheres 1 2.13 0.7 < 1.711 ∧ 1.743 < Spec.coatedSpheres 2.13 1 0.3 ∧ Spec.arithmeticMean 2.13 1 0.3 = 1.791 := by
  norm_num [Spec.coatedSpheres, Spec.arithmeticMean]

example : (2.13 : ℝ) ≠ 1 ∧ |(1.2 : ℝ) - 1| ≤ 1 / 2 := ⟨by norm_num, by rw [abs_le]; norm_num⟩

end PyElli
