import Verif.Props.Dispersion
import Verif.Props.KkrDispersion
import Verif.Props.Rii
import Verif.Spec.NormalDispersion

/-! # Normal dispersion in the transparent range (C144) -/

namespace PyElli

open Filter Topology MeasureTheory Complex
open Rii (sumN_congr sum_ofReal)

/-! ## From values to the property -/

lemma falls_of {f : ℝ → Option ℂ} {S : Set ℝ} (g : ℝ → ℂ) (h1 : ∀ l ∈ S, f l = some (g l)) (h2 : ∀ l ∈ S, ∀ l' ∈ S, l < l' → (g l').re < (g l).re) : Spec.Falls f S := by
  refine ⟨fun l hl => ⟨_, h1 l hl⟩, fun l hl l' hl' h z z' hz hz' => ?_⟩
  rw [h1 l hl, Option.some.injEq] at hz
  rw [h1 l' hl', Option.some.injEq] at hz'
  rw [← hz, ← hz']
  exact h2 l hl l' hl' h

lemma rises_of {f : ℝ → Option ℂ} {S : Set ℝ} (g : ℝ → ℂ) (h1 : ∀ l ∈ S, f l = some (g l)) (h2 : ∀ l ∈ S, ∀ l' ∈ S, l < l' → (g l).re < (g l').re) : Spec.Rises f S := by
  refine ⟨fun l hl => ⟨_, h1 l hl⟩, fun l hl l' hl' h z z' hz hz' => ?_⟩
  rw [h1 l hl, Option.some.injEq] at hz
  rw [h1 l' hl', Option.some.injEq] at hz'
  rw [← hz, ← hz']
  exact h2 l hl l' hl' h

lemma sum_re {α : Type} (L : List α) (g : α → ℂ) : ((L.map g).sum).re = (L.map fun o => (g o).re).sum := by
  induction L with
  | nil => simp
  | cons o L ih => simp [ih]

lemma sum_map_lt {α : Type} {L : List α} (hL : L ≠ []) {f g : α → ℝ} (h : ∀ o ∈ L, f o < g o) : (L.map f).sum < (L.map g).sum := by
  induction L with
  | nil => exact absurd rfl hL
  | cons o L ih =>
    simp only [List.map_cons, List.sum_cons]
    have h0 := h o (by simp)
    by_cases hn : L = []
    · subst hn; simpa using h0
    · exact add_lt_add h0 (ih hn fun x hx => h x (List.mem_cons_of_mem _ hx))

lemma photon_lt (K : PhysConst) {l l' : ℝ} (hl : 0 < l) (h : l < l') : photon K l' < photon K l := by
  rw [photon_eq, photon_eq]
  exact div_lt_div_of_pos_left (photon_const_pos K) hl h

lemma photon_pos' (K : PhysConst) {l : ℝ} (hl : 0 < l) : 0 < photon K l := by
  rw [photon_eq]; exact div_pos (photon_const_pos K) hl

/-- The comparison behind all oscillators: `x / (x² + g² (q - x))`, `q - x ≥ 0` being the squared frequency. -/
lemma osc_lt {A g q x x' : ℝ} (hA : 0 < A) (hx : x < x') (hD : 0 < x ^ 2 + g ^ 2 * (q - x)) (hD' : 0 < x' ^ 2 + g ^ 2 * (q - x')) :
    (g ^ 2 * q < x * x' → A * x' / (x' ^ 2 + g ^ 2 * (q - x')) < A * x / (x ^ 2 + g ^ 2 * (q - x))) ∧
    (x * x' < g ^ 2 * q → A * x / (x ^ 2 + g ^ 2 * (q - x)) < A * x' / (x' ^ 2 + g ^ 2 * (q - x'))) := by
  have e : A * x * (x' ^ 2 + g ^ 2 * (q - x')) - A * x' * (x ^ 2 + g ^ 2 * (q - x)) = A * (x' - x) * (x * x' - g ^ 2 * q) := by ring
  have hp : 0 < A * (x' - x) := mul_pos hA (by linarith)
  constructor
  · intro h
    rw [div_lt_div_iff₀ hD' hD]
    have := mul_pos hp (sub_pos.2 h)
    linarith
  · intro h
    rw [div_lt_div_iff₀ hD hD']
    have := mul_neg_of_pos_of_neg hp (sub_neg.2 h)
    linarith

lemma same_side {x x' c : ℝ} (hc : 0 ≤ c) (h : c < |x|) (h' : c < |x'|) (hs : 0 < x * x') : c ^ 2 < x * x' := by
  rw [← abs_of_pos hs, abs_mul, pow_two]
  exact mul_lt_mul'' h h' hc hc

lemma between {x x' c : ℝ} (h : |x| < c) (h' : |x'| < c) : x * x' < c ^ 2 := by
  refine (le_abs_self _).trans_lt ?_
  rw [abs_mul, pow_two]
  exact mul_lt_mul'' h h' (abs_nonneg _) (abs_nonneg _)

/-! ## Cauchy and Urbach -/

/-- **C144.** `Cauchy` with non-negative coefficients falls with the wavelength. -/
theorem C144_cauchy (n0 n1 n2 k0 k1 k2 : ℝ) (h1 : 0 ≤ n1) (h2 : 0 ≤ n2) (h : 0 < n1 + n2) :
    Spec.Falls (cauchyIndex [("n0", n0), ("n1", n1), ("n2", n2), ("k0", k0), ("k1", k1), ("k2", k2)]) (Set.Ioi 0) := by
  refine falls_of (fun l => (((n0 + 1e2 * n1 / l ^ 2 + 1e7 * n2 / l ^ 4 : ℝ) : ℂ) + I * ((k0 + 1e2 * k1 / l ^ 2 + 1e7 * k2 / l ^ 4 : ℝ) : ℂ))) (fun l hl => ?_) fun l hl l' hl' hlt => ?_
  · have hl0 : l ≠ 0 := (Set.mem_Ioi.1 hl).ne'
    simp [cauchyIndex, Dict.get, divN, hl0]
  · have hl0 : 0 < l := hl
    have hl0' : 0 < l' := hl'
    have e : ∀ a b : ℝ, ((a : ℂ) + I * (b : ℂ)).re = a := fun a b => by simp
    rw [e, e]
    have c2 : l ^ 2 < l' ^ 2 := pow_lt_pow_left₀ hlt hl0.le two_ne_zero
    have c4 : l ^ 4 < l' ^ 4 := pow_lt_pow_left₀ hlt hl0.le four_ne_zero
    rcases h1.eq_or_lt with h1 | h1
    · have : 0 < n2 := by linarith
      have h3 : 1e7 * n2 / l' ^ 4 < 1e7 * n2 / l ^ 4 := div_lt_div_of_pos_left (by positivity) (by positivity) c4
      rw [← h1]
      simp only [mul_zero, zero_div]
      linarith
    · have h3 : 1e7 * n2 / l' ^ 4 ≤ 1e7 * n2 / l ^ 4 := div_le_div_of_nonneg_left (by positivity) (by positivity) c4.le
      have h4 : 1e2 * n1 / l' ^ 2 < 1e2 * n1 / l ^ 2 := div_lt_div_of_pos_left (by positivity) (by positivity) c2
      linarith

/-- **C144.** `CauchyUrbach` with non-negative coefficients falls with the wavelength. -/
theorem C144_cauchy_urbach (K : PhysConst) (n0 B C D Eg Eu : ℝ) (h1 : 0 ≤ B) (h2 : 0 ≤ C) (h : 0 < B + C) (hEu : Eu ≠ 0) :
    Spec.Falls (cauchyUrbachIndex K [("n0", n0), ("B", B), ("C", C), ("D", D), ("Eg", Eg), ("Eu", Eu)]) (Set.Ioi 0) := by
  refine falls_of (fun l => (((n0 + B * photon K l ^ 2 + C * photon K l ^ 4 : ℝ) : ℂ) + I * ((D * Real.exp ((photon K l - Eg) / Eu) : ℝ) : ℂ))) (fun l hl => ?_)
    fun l hl l' hl' hlt => ?_
  · have hl0 : l ≠ 0 := (Set.mem_Ioi.1 hl).ne'
    simp [cauchyUrbachIndex, energy_photon K hl0, Dict.get, divN, hEu]
  · have e : ∀ a b : ℝ, ((a : ℂ) + I * (b : ℂ)).re = a := fun a b => by simp
    rw [e, e]
    have hE := photon_lt K hl hlt
    have hE' := photon_pos' K hl'
    have c2 := pow_lt_pow_left₀ hE hE'.le two_ne_zero
    have c4 := pow_lt_pow_left₀ hE hE'.le four_ne_zero
    rcases h1.eq_or_lt with h1 | h1
    · have h3 := mul_lt_mul_of_pos_left c4 (by linarith : 0 < C)
      rw [← h1]
      linarith
    · have h3 := mul_le_mul_of_nonneg_left c4.le h2
      have h4 := mul_lt_mul_of_pos_left c2 h1
      linarith

/-! ## Sellmeier -/

/-- **C144.** `Sellmeier` with positive coefficients is real and falls with the wavelength in every interval without a resonance. -/
theorem C144_sellmeier (osc : List (ℝ × ℝ)) (hne : osc ≠ []) (h : ∀ o ∈ osc, 0 < o.1 ∧ 0 < o.2) (S : Set ℝ) (hS : S.OrdConnected) (hpos : ∀ l ∈ S, 0 < l)
    (hres : ∀ l ∈ S, ∀ o ∈ osc, (l / 1e3) ^ 2 ≠ o.2) :
    Spec.Transparent (sellmeier (osc.map fun o => [("A", o.1), ("B", o.2)])) S ∧ Spec.Falls (sellmeier (osc.map fun o => [("A", o.1), ("B", o.2)])) S := by
  have hv : ∀ l ∈ S, sellmeier (osc.map fun o => [("A", o.1), ("B", o.2)]) l = some (((1 + (osc.map fun o => o.1 * (l / 1e3) ^ 2 / ((l / 1e3) ^ 2 - o.2)).sum : ℝ)) : ℂ) := by
    intro l hl
    have e := sumN_congr osc (fun o => sellmeierTerm (l / 1e3) [("A", o.1), ("B", o.2)]) (fun o => ((o.1 * (l / 1e3) ^ 2 / ((l / 1e3) ^ 2 - o.2) : ℝ) : ℂ)) fun o ho => by
      have hr : (l / 1e3) ^ 2 - o.2 ≠ 0 := sub_ne_zero.2 (hres l hl o ho)
      generalize l / 1e3 = t at hr
      simp [sellmeierTerm, Dict.get, divN, hr, toC]
    have hm : (osc.map fun o => [("A", o.1), ("B", o.2)]).map (sellmeierTerm (l / 1e3)) = osc.map fun o => sellmeierTerm (l / 1e3) [("A", o.1), ("B", o.2)] := by
      rw [List.map_map]; rfl
    unfold sellmeier
    rw [hm, e, sum_ofReal]
    simp
  refine ⟨fun l hl => ⟨_, hv l hl⟩, falls_of _ hv fun l hl l' hl' hlt => ?_⟩
  rw [ofReal_re, ofReal_re]
  refine add_lt_add_right (sum_map_lt hne fun o ho => ?_) 1
  obtain ⟨hA, hB⟩ := h o ho
  have hl0 := hpos l hl
  set t := l / 1e3 with ht
  set t' := l' / 1e3 with ht'
  have ht0 : 0 < t := by rw [ht]; positivity
  have htt : t < t' := by rw [ht, ht']; exact div_lt_div_of_pos_right hlt (by norm_num)
  have c2 : t ^ 2 < t' ^ 2 := pow_lt_pow_left₀ htt ht0.le two_ne_zero
  have key : 0 < (t ^ 2 - o.2) * (t' ^ 2 - o.2) := by
    have r1 : t ^ 2 ≠ o.2 := hres l hl o ho
    have r2 : t' ^ 2 ≠ o.2 := hres l' hl' o ho
    rcases lt_or_gt_of_ne r1 with h1 | h1 <;> rcases lt_or_gt_of_ne r2 with h2 | h2
    · exact mul_pos_of_neg_of_neg (by linarith) (by linarith)
    · exfalso
      have hs0 := Real.sqrt_nonneg o.2
      have hsq := Real.sq_sqrt hB.le
      have k1 : t < √o.2 := by by_contra hc; push Not at hc; nlinarith
      have k2 : √o.2 < t' := by by_contra hc; push Not at hc; nlinarith
      refine hres (1e3 * √o.2) (hS.out hl hl' ⟨?_, ?_⟩) o ho ?_
      · have : l = 1e3 * t := by rw [ht]; field_simp
        rw [this]; exact (mul_lt_mul_of_pos_left k1 (by norm_num)).le
      · have : l' = 1e3 * t' := by rw [ht']; field_simp
        rw [this]; exact (mul_lt_mul_of_pos_left k2 (by norm_num)).le
      · rw [mul_div_cancel_left₀ _ (by norm_num), hsq]
    · exfalso; linarith
    · exact mul_pos (by linarith) (by linarith)
  have e : o.1 * t ^ 2 / (t ^ 2 - o.2) - o.1 * t' ^ 2 / (t' ^ 2 - o.2) = o.1 * o.2 * (t' ^ 2 - t ^ 2) / ((t ^ 2 - o.2) * (t' ^ 2 - o.2)) := by
    have a1 : t ^ 2 - o.2 ≠ 0 := fun hc => by rw [hc, zero_mul] at key; exact lt_irrefl _ key
    have a2 : t' ^ 2 - o.2 ≠ 0 := fun hc => by rw [hc, mul_zero] at key; exact lt_irrefl _ key
    generalize t ^ 2 = x at a1
    generalize t' ^ 2 = y at a2
    field_simp
    ring
  have : 0 < o.1 * o.2 * (t' ^ 2 - t ^ 2) / ((t ^ 2 - o.2) * (t' ^ 2 - o.2)) := div_pos (mul_pos (mul_pos hA hB) (by linarith)) key
  rw [← e] at this
  linarith

/-! ## Lorentz oscillators -/

lemma lz_re' (A E g x : ℝ) : (lz A E g x).re = A * (E ^ 2 - x ^ 2) / ((E ^ 2 - x ^ 2) ^ 2 + g ^ 2 * (E ^ 2 - (E ^ 2 - x ^ 2))) := by
  have e : (E : ℂ) ^ 2 - (x : ℂ) ^ 2 - I * g * x = ((E ^ 2 - x ^ 2 : ℝ) : ℂ) + ((-(g * x) : ℝ) : ℂ) * I := by push_cast; ring
  unfold lz
  rw [e, Complex.div_re, Complex.normSq_add_mul_I]
  simp only [add_re, ofReal_re, mul_re, I_re, mul_zero, ofReal_im, I_im, mul_one, sub_self, add_zero, add_im, mul_im, zero_mul, zero_add, zero_div]
  congr 1
  ring

lemma lz_lossless (A E x : ℝ) : lz A E 0 x = ((A / (E ^ 2 - x ^ 2) : ℝ) : ℂ) := by
  unfold lz
  push_cast
  simp

lemma lorentz_some {A E g x : ℝ} (h : (E : ℂ) ^ 2 - (x : ℂ) ^ 2 - I * g * x ≠ 0) : lorentzEnergyTerm x [("A", A), ("E", E), ("gamma", g)] = some (lz A E g x) := by
  simp [lorentzEnergyTerm, Dict.get, divN, h, lz]

lemma lz_den' {E g x : ℝ} (h : E ^ 2 - x ^ 2 ≠ 0 ∨ g * x ≠ 0) : (E : ℂ) ^ 2 - (x : ℂ) ^ 2 - I * g * x ≠ 0 := by
  intro hc
  have e : (E : ℂ) ^ 2 - (x : ℂ) ^ 2 - I * g * x = ((E ^ 2 - x ^ 2 : ℝ) : ℂ) + ((-(g * x) : ℝ) : ℂ) * I := by push_cast; ring
  rw [e] at hc
  have h1 := congrArg re hc
  have h2 := congrArg im hc
  simp only [add_re, ofReal_re, mul_re, I_re, mul_zero, ofReal_im, I_im, mul_one, sub_self, add_zero, add_im, mul_im, zero_mul, zero_add, zero_re, zero_im] at h1 h2
  rcases h with h | h
  · exact h h1
  · exact h (by linarith)

lemma lorentz_list (K : PhysConst) (osc : List (ℝ × ℝ × ℝ)) {l : ℝ} (hl : 0 < l)
    (h : ∀ o ∈ osc, o.2.1 ^ 2 - photon K l ^ 2 ≠ 0 ∨ o.2.2 * photon K l ≠ 0) :
    lorentzEnergy K (osc.map fun o => [("A", o.1), ("E", o.2.1), ("gamma", o.2.2)]) l = some (1 + (osc.map fun o => lz o.1 o.2.1 o.2.2 (photon K l)).sum) := by
  have e := sumN_congr osc (fun o => lorentzEnergyTerm (photon K l) [("A", o.1), ("E", o.2.1), ("gamma", o.2.2)]) (fun o => lz o.1 o.2.1 o.2.2 (photon K l))
    fun o ho => lorentz_some (lz_den' (h o ho))
  have hm : (osc.map fun o => [("A", o.1), ("E", o.2.1), ("gamma", o.2.2)]).map (lorentzEnergyTerm (photon K l)) =
      osc.map fun o => lorentzEnergyTerm (photon K l) [("A", o.1), ("E", o.2.1), ("gamma", o.2.2)] := by
    rw [List.map_map]; rfl
  unfold lorentzEnergy
  rw [energy_photon K hl.ne']
  simp only [Option.bind_eq_bind, Option.bind_some, hm, e]

/-- **C144.** Lorentz oscillators: the real part falls with the wavelength in every interval that stays further than `γ E₀` from every resonance (in the squared
photon energy), and in such an interval the dielectric function is real when there is no broadening; it rises where all resonances are nearer than that. -/
theorem C144_lorentz_energy (K : PhysConst) (osc : List (ℝ × ℝ × ℝ)) (hne : osc ≠ []) (h : ∀ o ∈ osc, 0 < o.1 ∧ 0 < o.2.1 ∧ 0 ≤ o.2.2) (S : Set ℝ) (hS : S.OrdConnected)
    (hpos : ∀ l ∈ S, 0 < l) :
    ((∀ l ∈ S, ∀ o ∈ osc, o.2.2 * o.2.1 < |o.2.1 ^ 2 - photon K l ^ 2|) →
      Spec.Falls (lorentzEnergy K (osc.map fun o => [("A", o.1), ("E", o.2.1), ("gamma", o.2.2)])) S ∧
      ((∀ o ∈ osc, o.2.2 = 0) → Spec.Transparent (lorentzEnergy K (osc.map fun o => [("A", o.1), ("E", o.2.1), ("gamma", o.2.2)])) S)) ∧
    ((∀ l ∈ S, ∀ o ∈ osc, |o.2.1 ^ 2 - photon K l ^ 2| < o.2.2 * o.2.1) →
      Spec.Rises (lorentzEnergy K (osc.map fun o => [("A", o.1), ("E", o.2.1), ("gamma", o.2.2)])) S) := by
  have hx : ∀ o : ℝ × ℝ × ℝ, ∀ l l', 0 < l → l < l' → o.2.1 ^ 2 - photon K l ^ 2 < o.2.1 ^ 2 - photon K l' ^ 2 := fun o l l' hl hlt => by
    have := pow_lt_pow_left₀ (photon_lt K hl hlt) (photon_pos' K (hl.trans hlt)).le two_ne_zero
    linarith
  have hD : ∀ o : ℝ × ℝ × ℝ, ∀ l, o.2.1 ^ 2 - photon K l ^ 2 ≠ 0 ∨ o.2.2 * photon K l ≠ 0 →
      0 < (o.2.1 ^ 2 - photon K l ^ 2) ^ 2 + o.2.2 ^ 2 * (o.2.1 ^ 2 - (o.2.1 ^ 2 - photon K l ^ 2)) := fun o l hc => by
    rw [sub_sub_cancel, ← mul_pow]
    rcases hc with hc | hc <;> positivity
  constructor
  · intro hfar
    have hn : ∀ l ∈ S, ∀ o ∈ osc, o.2.1 ^ 2 - photon K l ^ 2 ≠ 0 := fun l hl o ho hc => by
      have := hfar l hl o ho
      rw [hc, abs_zero] at this
      obtain ⟨-, h2, h3⟩ := h o ho
      have := mul_nonneg h3 h2.le
      linarith
    refine ⟨falls_of _ (fun l hl => lorentz_list K osc (hpos l hl) fun o ho => Or.inl (hn l hl o ho)) fun l hl l' hl' hlt => ?_, fun h0 l hl => ?_⟩
    · rw [add_re, add_re, sum_re, sum_re]
      refine add_lt_add_right (sum_map_lt hne fun o ho => ?_) _
      obtain ⟨h1, h2, h3⟩ := h o ho
      rw [lz_re', lz_re']
      refine (osc_lt h1 (hx o l l' (hpos l hl) hlt) (hD o l (Or.inl (hn l hl o ho))) (hD o l' (Or.inl (hn l' hl' o ho)))).1 ?_
      rw [← mul_pow]
      refine same_side (mul_nonneg h3 h2.le) (hfar l hl o ho) (hfar l' hl' o ho) ?_
      rcases lt_or_gt_of_ne (hn l hl o ho) with k1 | k1 <;> rcases lt_or_gt_of_ne (hn l' hl' o ho) with k2 | k2
      · exact mul_pos_of_neg_of_neg k1 k2
      · exfalso
        have hk := photon_const_pos K
        have p1 := photon_pos' K (hpos l hl)
        have p2 := photon_pos' K (hpos l' hl')
        have q1 : o.2.1 < photon K l := by by_contra hc; push Not at hc; nlinarith
        have q2 : photon K l' < o.2.1 := by by_contra hc; push Not at hc; nlinarith
        have hl0 := hpos l hl
        have hl0' := hpos l' hl'
        rw [photon_eq, lt_div_iff₀ hl0] at q1
        rw [photon_eq, div_lt_iff₀ hl0'] at q2
        have hm : K.c * K.h / 1e-9 / o.2.1 ∈ S := hS.out hl hl' ⟨by rw [le_div_iff₀ h2]; linarith, by rw [div_le_iff₀ h2]; linarith⟩
        refine hn _ hm o ho ?_
        rw [photon_eq, div_div_cancel₀ hk.ne', sub_self]
      · exfalso
        have := hx o l l' (hpos l hl) hlt
        linarith
      · exact mul_pos k1 k2
    · refine ⟨1 + (osc.map fun o => o.1 / (o.2.1 ^ 2 - photon K l ^ 2)).sum, ?_⟩
      rw [lorentz_list K osc (hpos l hl) fun o ho => Or.inl (hn l hl o ho)]
      have e : osc.map (fun o => lz o.1 o.2.1 o.2.2 (photon K l)) = osc.map fun o => ((o.1 / (o.2.1 ^ 2 - photon K l ^ 2) : ℝ) : ℂ) :=
        List.map_congr_left fun o ho => by rw [h0 o ho, lz_lossless]
      rw [e, sum_ofReal]
      push_cast
      rfl
  · intro hnear
    have hn : ∀ l ∈ S, ∀ o ∈ osc, o.2.2 * photon K l ≠ 0 := fun l hl o ho => by
      have h1 := (abs_nonneg _).trans_lt (hnear l hl o ho)
      have h2 : 0 < o.2.2 := by
        rcases (h o ho).2.2.eq_or_lt with h2 | h2
        · rw [← h2, zero_mul] at h1; exact absurd h1 (lt_irrefl _)
        · exact h2
      exact (mul_pos h2 (photon_pos' K (hpos l hl))).ne'
    refine rises_of _ (fun l hl => lorentz_list K osc (hpos l hl) fun o ho => Or.inr (hn l hl o ho)) fun l hl l' hl' hlt => ?_
    rw [add_re, add_re, sum_re, sum_re]
    refine add_lt_add_right (sum_map_lt hne fun o ho => ?_) _
    rw [lz_re', lz_re']
    refine (osc_lt (h o ho).1 (hx o l l' (hpos l hl) hlt) (hD o l (Or.inr (hn l hl o ho))) (hD o l' (Or.inr (hn l' hl' o ho)))).2 ?_
    rw [← mul_pow]
    exact between (hnear l hl o ho) (hnear l' hl' o ho)

lemma lambda_re {A r g l : ℝ} (hr : 0 < r) (hl : 0 < l) :
    ((A : ℂ) * (l : ℂ) ^ 2 / ((l : ℂ) ^ 2 - (r : ℂ) ^ 2 - I * g * l)).re = A * (1 - (r / l) ^ 2) / ((1 - (r / l) ^ 2) ^ 2 + (g / r) ^ 2 * (1 - (1 - (r / l) ^ 2))) := by
  have e : (l : ℂ) ^ 2 - (r : ℂ) ^ 2 - I * g * l = ((l ^ 2 - r ^ 2 : ℝ) : ℂ) + ((-(g * l) : ℝ) : ℂ) * I := by push_cast; ring
  have e2 : (A : ℂ) * (l : ℂ) ^ 2 = ((A * l ^ 2 : ℝ) : ℂ) := by push_cast; ring
  rw [e, e2, Complex.div_re, Complex.normSq_add_mul_I]
  simp only [add_re, ofReal_re, mul_re, I_re, mul_zero, ofReal_im, I_im, mul_one, sub_self, add_zero, add_im, mul_im, zero_mul, zero_add, zero_div]
  have h1 : (l ^ 2 - r ^ 2) ^ 2 + (-(g * l)) ^ 2 = l ^ 4 * ((1 - (r / l) ^ 2) ^ 2 + (g / r) ^ 2 * (1 - (1 - (r / l) ^ 2))) := by
    field_simp
    ring
  rw [h1, show A * l ^ 2 * (l ^ 2 - r ^ 2) = l ^ 4 * (A * (1 - (r / l) ^ 2)) by field_simp, mul_div_mul_left _ _ (by positivity)]

lemma lambda_den {r g l : ℝ} (h : l ^ 2 - r ^ 2 ≠ 0 ∨ g * l ≠ 0) : (l : ℂ) ^ 2 - (r : ℂ) ^ 2 - I * g * l ≠ 0 := by
  intro hc
  have e : (l : ℂ) ^ 2 - (r : ℂ) ^ 2 - I * g * l = ((l ^ 2 - r ^ 2 : ℝ) : ℂ) + ((-(g * l) : ℝ) : ℂ) * I := by push_cast; ring
  rw [e] at hc
  have h1 := congrArg re hc
  have h2 := congrArg im hc
  simp only [add_re, ofReal_re, mul_re, I_re, mul_zero, ofReal_im, I_im, mul_one, sub_self, add_zero, add_im, mul_im, zero_mul, zero_add, zero_re, zero_im] at h1 h2
  rcases h with h | h
  · exact h h1
  · exact h (by linarith)

/-- **C144.** The same for Lorentz oscillators over the wavelength: the distance to the resonance is that of `λ²` to `λᵣ²`, and the limit is `γ λ² / λᵣ`. -/
theorem C144_lorentz_lambda (osc : List (ℝ × ℝ × ℝ)) (hne : osc ≠ []) (h : ∀ o ∈ osc, 0 < o.1 ∧ 0 < o.2.1 ∧ 0 ≤ o.2.2) (S : Set ℝ) (hS : S.OrdConnected)
    (hpos : ∀ l ∈ S, 0 < l) :
    ((∀ l ∈ S, ∀ o ∈ osc, o.2.2 * l ^ 2 / o.2.1 < |l ^ 2 - o.2.1 ^ 2|) →
      Spec.Falls (lorentzLambda (osc.map fun o => [("A", o.1), ("lambda_r", o.2.1), ("gamma", o.2.2)])) S) ∧
    ((∀ l ∈ S, ∀ o ∈ osc, |l ^ 2 - o.2.1 ^ 2| < o.2.2 * l ^ 2 / o.2.1) →
      Spec.Rises (lorentzLambda (osc.map fun o => [("A", o.1), ("lambda_r", o.2.1), ("gamma", o.2.2)])) S) := by
  have hval : ∀ l, 0 < l → (∀ o ∈ osc, l ^ 2 - o.2.1 ^ 2 ≠ 0 ∨ o.2.2 * l ≠ 0) →
      lorentzLambda (osc.map fun o => [("A", o.1), ("lambda_r", o.2.1), ("gamma", o.2.2)]) l =
        some (1 + (osc.map fun o => (o.1 : ℂ) * (l : ℂ) ^ 2 / ((l : ℂ) ^ 2 - (o.2.1 : ℂ) ^ 2 - I * o.2.2 * l)).sum) := by
    intro l hl hd
    have e := sumN_congr osc (fun o => lorentzLambdaTerm l [("A", o.1), ("lambda_r", o.2.1), ("gamma", o.2.2)])
      (fun o => (o.1 : ℂ) * (l : ℂ) ^ 2 / ((l : ℂ) ^ 2 - (o.2.1 : ℂ) ^ 2 - I * o.2.2 * l)) fun o ho => by
        have := lambda_den (hd o ho)
        simp [lorentzLambdaTerm, Dict.get, divN, this]
    have hm : (osc.map fun o => [("A", o.1), ("lambda_r", o.2.1), ("gamma", o.2.2)]).map (lorentzLambdaTerm l) =
        osc.map fun o => lorentzLambdaTerm l [("A", o.1), ("lambda_r", o.2.1), ("gamma", o.2.2)] := by
      rw [List.map_map]; rfl
    unfold lorentzLambda
    rw [hm, e]
    rfl
  have hdist : ∀ r l : ℝ, 0 < l → |l ^ 2 - r ^ 2| = l ^ 2 * |1 - (r / l) ^ 2| := fun r l hl => by
    rw [← abs_of_pos (show 0 < l ^ 2 by positivity), ← abs_mul, abs_of_pos (show 0 < l ^ 2 by positivity)]
    congr 1
    field_simp
  have hx : ∀ r l l' : ℝ, 0 < r → 0 < l → l < l' → 1 - (r / l) ^ 2 < 1 - (r / l') ^ 2 := fun r l l' hr hl hlt => by
    have h1 : r / l' < r / l := div_lt_div_of_pos_left hr hl hlt
    have := pow_lt_pow_left₀ h1 (div_nonneg hr.le (hl.trans hlt).le) two_ne_zero
    linarith
  have hD : ∀ g r l : ℝ, 0 < r → 0 < l → (l ^ 2 - r ^ 2 ≠ 0 ∨ g * l ≠ 0) → 0 < (1 - (r / l) ^ 2) ^ 2 + (g / r) ^ 2 * (1 - (1 - (r / l) ^ 2)) := fun g r l hr hl hc => by
    rw [sub_sub_cancel]
    rcases hc with hc | hc
    · have : 1 - (r / l) ^ 2 ≠ 0 := by
        intro h0
        have h1 := hdist r l hl
        rw [h0, abs_zero, mul_zero] at h1
        exact hc (abs_eq_zero.1 h1)
      positivity
    · have : g ≠ 0 := left_ne_zero_of_mul hc
      positivity
  constructor
  · intro hfar
    have hn : ∀ l ∈ S, ∀ o ∈ osc, l ^ 2 - o.2.1 ^ 2 ≠ 0 := fun l hl o ho hc => by
      have := hfar l hl o ho
      rw [hc, abs_zero] at this
      obtain ⟨-, h2, h3⟩ := h o ho
      have : 0 ≤ o.2.2 * l ^ 2 / o.2.1 := by positivity
      linarith
    have hq : ∀ l ∈ S, ∀ o ∈ osc, o.2.2 / o.2.1 < |1 - (o.2.1 / l) ^ 2| := fun l hl o ho => by
      have := hfar l hl o ho
      have hl0 := hpos l hl
      rw [hdist _ _ hl0, show o.2.2 * l ^ 2 / o.2.1 = l ^ 2 * (o.2.2 / o.2.1) by ring] at this
      exact lt_of_mul_lt_mul_left this (by positivity)
    refine falls_of _ (fun l hl => hval l (hpos l hl) fun o ho => Or.inl (hn l hl o ho)) fun l hl l' hl' hlt => ?_
    rw [add_re, add_re, sum_re, sum_re]
    refine add_lt_add_right (sum_map_lt hne fun o ho => ?_) _
    obtain ⟨h1, h2, h3⟩ := h o ho
    have hl0 := hpos l hl
    have hl0' := hpos l' hl'
    rw [lambda_re h2 hl0, lambda_re h2 hl0']
    refine (osc_lt h1 (hx _ l l' h2 hl0 hlt) (hD _ _ l h2 hl0 (Or.inl (hn l hl o ho))) (hD _ _ l' h2 hl0' (Or.inl (hn l' hl' o ho)))).1 ?_
    rw [mul_one]
    refine same_side (div_nonneg h3 h2.le) (hq l hl o ho) (hq l' hl' o ho) ?_
    have s1 : ∀ z : ℝ, 0 < z → 1 - (o.2.1 / z) ^ 2 = (z ^ 2 - o.2.1 ^ 2) / z ^ 2 := fun z hz => by field_simp
    rw [s1 l hl0, s1 l' hl0', div_mul_div_comm]
    refine div_pos ?_ (by positivity)
    rcases lt_or_gt_of_ne (hn l hl o ho) with k1 | k1 <;> rcases lt_or_gt_of_ne (hn l' hl' o ho) with k2 | k2
    · exact mul_pos_of_neg_of_neg k1 k2
    · exfalso
      refine hn o.2.1 (hS.out hl hl' ⟨?_, ?_⟩) o ho (sub_self _)
      · by_contra hc; push Not at hc; nlinarith
      · by_contra hc; push Not at hc; nlinarith
    · exfalso
      nlinarith
    · exact mul_pos k1 k2
  · intro hnear
    have hn : ∀ l ∈ S, ∀ o ∈ osc, o.2.2 * l ≠ 0 := fun l hl o ho => by
      have h1 := (abs_nonneg _).trans_lt (hnear l hl o ho)
      have h2 : 0 < o.2.2 := by
        rcases (h o ho).2.2.eq_or_lt with h2 | h2
        · rw [← h2, zero_mul, zero_div] at h1; exact absurd h1 (lt_irrefl _)
        · exact h2
      exact (mul_pos h2 (hpos l hl)).ne'
    have hq : ∀ l ∈ S, ∀ o ∈ osc, |1 - (o.2.1 / l) ^ 2| < o.2.2 / o.2.1 := fun l hl o ho => by
      have := hnear l hl o ho
      have hl0 := hpos l hl
      rw [hdist _ _ hl0, show o.2.2 * l ^ 2 / o.2.1 = l ^ 2 * (o.2.2 / o.2.1) by ring] at this
      exact lt_of_mul_lt_mul_left this (by positivity)
    refine rises_of _ (fun l hl => hval l (hpos l hl) fun o ho => Or.inr (hn l hl o ho)) fun l hl l' hl' hlt => ?_
    rw [add_re, add_re, sum_re, sum_re]
    refine add_lt_add_right (sum_map_lt hne fun o ho => ?_) _
    obtain ⟨h1, h2, h3⟩ := h o ho
    have hl0 := hpos l hl
    have hl0' := hpos l' hl'
    rw [lambda_re h2 hl0, lambda_re h2 hl0']
    refine (osc_lt h1 (hx _ l l' h2 hl0 hlt) (hD _ _ l h2 hl0 (Or.inr (hn l hl o ho))) (hD _ _ l' h2 hl0' (Or.inr (hn l' hl' o ho)))).2 ?_
    rw [mul_one]
    exact between (hq l hl o ho) (hq l' hl' o ho)

/-! ## Materials with a gap -/

/-- The Kramers-Kronig integral of an absorption that begins at `Eg`, seen from below. -/
lemma kk_below {f : ℝ → ℝ} {Eg w v : ℝ} (hw : 0 < w) (hwE : w < Eg) (h0 : ∀ x, x ≤ Eg → f x = 0) (hc : ContinuousOn f (Set.Ioi 0)) (hk : Kk f w v) :
    Tendsto (fun b => ∫ x in Eg..b, x * f x / (x ^ 2 - w ^ 2)) atTop (𝓝 (Real.pi / 2 * v)) := by
  obtain ⟨V, h1, h2⟩ := hk
  have hV : ∀ a b, 0 < a → a < w → Eg < b → V a b = ∫ x in Eg..b, x * f x / (x ^ 2 - w ^ 2) := by
    intro a b ha haw hb
    refine isPV_unique (h1 a b ha haw (hwE.trans hb)) ?_
    unfold Spec.IsPV
    refine tendsto_const_nhds.congr' ?_
    filter_upwards [Ioo_mem_nhdsGT (sub_pos.2 hwE)] with d hd
    have z1 : ∫ x in a..(w - d), x * f x / (x ^ 2 - w ^ 2) = 0 := by
      rw [intervalIntegral.integral_congr (g := fun _ => (0 : ℝ))]
      · simp
      · intro x hx
        have : x ≤ Eg := by
          rcases Set.mem_uIcc.1 hx with hx | hx
          · linarith [hx.2, hd.1]
          · linarith [hx.2]
        simp [h0 x this]
    have z2 : ∫ x in (w + d)..Eg, x * f x / (x ^ 2 - w ^ 2) = 0 := by
      rw [intervalIntegral.integral_congr (g := fun _ => (0 : ℝ))]
      · simp
      · intro x hx
        rw [Set.uIcc_of_le (by linarith [hd.2])] at hx
        simp [h0 x hx.2]
    have hint : ∀ p q, w < p → p ≤ q → IntervalIntegrable (fun x => x * f x / (x ^ 2 - w ^ 2)) volume p q := fun p q hp hpq => by
      refine ContinuousOn.intervalIntegrable ?_
      rw [Set.uIcc_of_le hpq]
      refine ContinuousOn.div (continuousOn_id.mul (hc.mono fun x hx => Set.mem_Ioi.2 (by linarith [hx.1]))) (by fun_prop) fun x hx => ?_
      have : w < x := by linarith [hx.1]
      nlinarith
    rw [z1, zero_add, ← intervalIntegral.integral_add_adjacent_intervals (hint (w + d) Eg (by linarith [hd.1]) (by linarith [hd.2])) (hint Eg b hwE hb.le), z2, zero_add]
  have hg : Tendsto (fun p : ℝ × ℝ => ∫ x in Eg..p.2, x * f x / (x ^ 2 - w ^ 2)) (𝓝[>] 0 ×ˢ atTop) (𝓝 (Real.pi / 2 * v)) := by
    refine h2.congr' ?_
    have e1 : ∀ᶠ p : ℝ × ℝ in 𝓝[>] 0 ×ˢ atTop, p.1 ∈ Set.Ioo 0 w := tendsto_fst.eventually (Ioo_mem_nhdsGT hw)
    have e2 : ∀ᶠ p : ℝ × ℝ in 𝓝[>] 0 ×ˢ atTop, Eg < p.2 := tendsto_snd.eventually (eventually_gt_atTop Eg)
    filter_upwards [e1, e2] with p q1 q2
    exact hV p.1 p.2 q1.1 q1.2 q2
  have key : Tendsto ((fun b => ∫ x in Eg..b, x * f x / (x ^ 2 - w ^ 2)) ∘ Prod.snd) (𝓝[>] (0 : ℝ) ×ˢ atTop) (𝓝 (Real.pi / 2 * v)) := hg
  rwa [← tendsto_map'_iff, map_snd_prod] at key

/-- More photon energy below the gap means a larger real part. -/
lemma kk_below_lt {f : ℝ → ℝ} {Eg w w' v v' : ℝ} (hw : 0 < w) (hww : w < w') (hwE : w' < Eg) (h0 : ∀ x, x ≤ Eg → f x = 0) (h1 : ∀ x, Eg < x → 0 < f x)
    (hc : ContinuousOn f (Set.Ioi 0)) (hk : Kk f w v) (hk' : Kk f w' v') : v < v' ∧ 0 < v := by
  have hf : ∀ x, 0 ≤ f x := fun x => by
    rcases le_or_gt x Eg with h | h
    · rw [h0 x h]
    · exact (h1 x h).le
  have hint : ∀ u p q, 0 < u → u < Eg → Eg ≤ p → p ≤ q → IntervalIntegrable (fun x => x * f x / (x ^ 2 - u ^ 2)) volume p q := fun u p q hu huE hp hpq => by
    refine ContinuousOn.intervalIntegrable ?_
    rw [Set.uIcc_of_le hpq]
    refine ContinuousOn.div (continuousOn_id.mul (hc.mono fun x hx => Set.mem_Ioi.2 (by linarith [hx.1]))) (by fun_prop) fun x hx => ?_
    have : u < x := by linarith [hx.1]
    nlinarith
  have hden : ∀ u x, 0 < u → u < Eg → Eg ≤ x → 0 < x ^ 2 - u ^ 2 := fun u x h2 h3 h4 => by nlinarith
  have t := kk_below hw (hww.trans hwE) h0 hc hk
  have t' := kk_below (hw.trans hww) hwE h0 hc hk'
  have hmono : ∀ x, Eg ≤ x → x * f x / (x ^ 2 - w ^ 2) ≤ x * f x / (x ^ 2 - w' ^ 2) := fun x hx => by
    have := hden w' x (hw.trans hww) hwE hx
    refine div_le_div_of_nonneg_left (mul_nonneg (by linarith) (hf x)) this ?_
    nlinarith
  have hmono' : ∀ x, Eg < x → x * f x / (x ^ 2 - w ^ 2) < x * f x / (x ^ 2 - w' ^ 2) := fun x hx => by
    have := hden w' x (hw.trans hww) hwE hx.le
    refine div_lt_div_of_pos_left (mul_pos (by linarith) (h1 x hx)) this ?_
    nlinarith
  have hpi := Real.pi_pos
  set F := fun x => x * f x / (x ^ 2 - w ^ 2) with hF
  set F' := fun x => x * f x / (x ^ 2 - w' ^ 2) with hF'
  have hw'0 := hw.trans hww
  have hwE0 := hww.trans hwE
  have c1 : 0 < ∫ x in Eg..(Eg + 1), F x :=
    intervalIntegral.intervalIntegral_pos_of_pos_on (hint w Eg (Eg + 1) hw hwE0 le_rfl (by linarith))
      (fun x hx => div_pos (mul_pos (by linarith [hx.1]) (h1 x hx.1)) (hden w x hw hwE0 hx.1.le)) (by linarith)
  have c2 : 0 < ∫ x in Eg..(Eg + 1), (F' x - F x) :=
    intervalIntegral.intervalIntegral_pos_of_pos_on ((hint w' Eg (Eg + 1) hw'0 hwE le_rfl (by linarith)).sub (hint w Eg (Eg + 1) hw hwE0 le_rfl (by linarith)))
      (fun x hx => sub_pos.2 (hmono' x hx.1)) (by linarith)
  have b1 : (∫ x in Eg..(Eg + 1), F x) ≤ Real.pi / 2 * v := by
    refine ge_of_tendsto t ?_
    filter_upwards [eventually_ge_atTop (Eg + 1)] with b hb
    rw [← intervalIntegral.integral_add_adjacent_intervals (hint w Eg (Eg + 1) hw hwE0 le_rfl (by linarith)) (hint w (Eg + 1) b hw hwE0 (by linarith) hb)]
    have : 0 ≤ ∫ x in (Eg + 1)..b, x * f x / (x ^ 2 - w ^ 2) := intervalIntegral.integral_nonneg hb fun x hx =>
      div_nonneg (mul_nonneg (by linarith [hx.1]) (hf x)) (hden w x hw hwE0 (by linarith [hx.1])).le
    exact le_add_of_nonneg_right this
  have b2 : (∫ x in Eg..(Eg + 1), (F' x - F x)) ≤ Real.pi / 2 * v' - Real.pi / 2 * v := by
    refine ge_of_tendsto (t'.sub t) ?_
    filter_upwards [eventually_ge_atTop (Eg + 1)] with b hb
    have i1 := hint w Eg b hw hwE0 le_rfl (by linarith)
    have i2 := hint w' Eg b hw'0 hwE le_rfl (by linarith)
    rw [← intervalIntegral.integral_sub i2 i1]
    have j1 := (hint w' Eg (Eg + 1) hw'0 hwE le_rfl (by linarith)).sub (hint w Eg (Eg + 1) hw hwE0 le_rfl (by linarith))
    have j2 := (hint w' (Eg + 1) b hw'0 hwE (by linarith) hb).sub (hint w (Eg + 1) b hw hwE0 (by linarith) hb)
    rw [← intervalIntegral.integral_add_adjacent_intervals j1 j2]
    have : 0 ≤ ∫ x in (Eg + 1)..b, (x * f x / (x ^ 2 - w' ^ 2) - x * f x / (x ^ 2 - w ^ 2)) := intervalIntegral.integral_nonneg hb fun x hx =>
      sub_nonneg.2 (hmono x (by linarith [hx.1]))
    exact le_add_of_nonneg_right this
  constructor
  · nlinarith
  · by_contra hneg
    push Not at hneg
    nlinarith

/-- **C144.** `TaucLorentz` below critical damping: at wavelengths beyond the gap the dielectric function is real and positive, and falls with the wavelength. -/
theorem C144_tauc_lorentz (K : PhysConst) (Eg : ℝ) (hEg : 0 < Eg) (osc : List (ℝ × ℝ × ℝ)) (hne : osc ≠ [])
    (h : ∀ o ∈ osc, 0 < o.1 ∧ 0 < o.2.1 ∧ 0 < o.2.2 ∧ o.2.2 < 2 * o.2.1) :
    Spec.Falls (taucLorentz K [("Eg", Eg)] (osc.map fun o => [("A", o.1), ("E", o.2.1), ("C", o.2.2)])) {l | 0 < l ∧ photon K l < Eg} ∧
    ∀ l, 0 < l → photon K l < Eg → ∃ r : ℝ, 0 < r ∧ taucLorentz K [("Eg", Eg)] (osc.map fun o => [("A", o.1), ("E", o.2.1), ("C", o.2.2)]) l = some (r : ℂ) := by
  have hr : ∀ o ∈ osc, ∀ w, 0 < w → w < Eg → ∃ r : ℝ, taucEps1 w Eg o.1 o.2.1 o.2.2 = some (r : ℂ) ∧ Kk (fun x => Spec.taucAbsorption x Eg o.1 o.2.1 o.2.2) w r :=
    fun o ho w hw hwE => tauc_kk Eg o.1 hEg.le (h o ho).2.1 (h o ho).2.2.1 (h o ho).2.2.2 hw hwE.ne
  let r : ℝ × ℝ × ℝ → ℝ → ℝ := fun o w => ((taucEps1 w Eg o.1 o.2.1 o.2.2).getD 0).re
  have hr' : ∀ o ∈ osc, ∀ w, 0 < w → w < Eg → taucEps1 w Eg o.1 o.2.1 o.2.2 = some ((r o w : ℝ) : ℂ) ∧ Kk (fun x => Spec.taucAbsorption x Eg o.1 o.2.1 o.2.2) w (r o w) := by
    intro o ho w hw hwE
    obtain ⟨s, h1, h2⟩ := hr o ho w hw hwE
    have : r o w = s := by simp [r, h1]
    rw [this]
    exact ⟨h1, h2⟩
  have hlt : ∀ o ∈ osc, ∀ w w', 0 < w → w < w' → w' < Eg → r o w < r o w' ∧ 0 < r o w := fun o ho w w' h1 h2 h3 => by
    obtain ⟨a1, a2, a3, a4⟩ := h o ho
    refine kk_below_lt h1 h2 h3 (fun x hx => by simp [Spec.taucAbsorption, hx]) (fun x hx => ?_) (taucAbs_regular _ _ a3).1 (hr' o ho w h1 (h2.trans h3)).2
      (hr' o ho w' (h1.trans h2) h3).2
    have hx0 : 0 < x := hEg.trans hx
    have : 0 < x - Eg := by linarith
    rw [Spec.taucAbsorption, if_neg (not_le.2 hx)]
    positivity
  have hval : ∀ l, 0 < l → photon K l < Eg → taucLorentz K [("Eg", Eg)] (osc.map fun o => [("A", o.1), ("E", o.2.1), ("C", o.2.2)]) l =
      some (((osc.map fun o => r o (photon K l)).sum : ℝ) : ℂ) := by
    intro l hl hE
    have hp := photon_pos' K hl
    simp only [taucLorentz, energy_photon K hl.ne', Option.bind_eq_bind, Option.bind_some, Dict.get, if_true]
    have hm : (osc.map fun o => [("A", o.1), ("E", o.2.1), ("C", o.2.2)]).map (taucTerm (photon K l) Eg) =
        osc.map fun o => taucTerm (photon K l) Eg [("A", o.1), ("E", o.2.1), ("C", o.2.2)] := by
      rw [List.map_map]; rfl
    rw [hm, sumN_congr osc _ (fun o => ((r o (photon K l) : ℝ) : ℂ)) fun o ho => by
      rw [taucTerm_split _ Eg o.1 o.2.1 o.2.2 hp (h o ho).2.2.1 _ (hr' o ho _ hp hE).1]
      simp [Spec.taucAbsorption, hE.le], sum_ofReal]
  refine ⟨falls_of _ (fun l hl => hval l hl.1 hl.2) fun l hl l' hl' hll => ?_, fun l hl hE => ⟨_, ?_, hval l hl hE⟩⟩
  · rw [ofReal_re, ofReal_re]
    exact sum_map_lt hne fun o ho => (hlt o ho _ _ (photon_pos' K hl'.1) (photon_lt K hl.1 hll) hl.2).1
  · have hz : (osc.map fun _ => (0 : ℝ)).sum = 0 := by simp
    rw [← hz]
    refine sum_map_lt hne fun o ho => ?_
    obtain ⟨w', h1, h2⟩ := exists_between hE
    exact (hlt o ho _ w' (photon_pos' K hl) h1 h2).2

/-! ## The index -/

/-- **C144.** Where the dielectric function is real, positive and falls, so does the refractive index. -/
theorem C144_index (f : ℝ → Option ℂ) (S : Set ℝ) (h : Spec.Falls f S) (hp : ∀ l ∈ S, ∃ r : ℝ, 0 < r ∧ f l = some (r : ℂ)) :
    Spec.Falls (fun l => (f l).map Complex.sqrt) S ∧ Spec.Transparent (fun l => (f l).map Complex.sqrt) S := by
  refine ⟨⟨fun l hl => ?_, fun l hl l' hl' hlt z z' hz hz' => ?_⟩, fun l hl => ?_⟩
  · obtain ⟨r, -, hr⟩ := hp l hl
    exact ⟨Complex.sqrt r, by simp only [hr, Option.map_some]⟩
  · obtain ⟨r, h0, hr⟩ := hp l hl
    obtain ⟨r', h0', hr'⟩ := hp l' hl'
    have := h.2 l hl l' hl' hlt _ _ hr hr'
    simp only [hr, Option.map_some, csqrt_ofReal h0.le, Option.some.injEq] at hz
    simp only [hr', Option.map_some, csqrt_ofReal h0'.le, Option.some.injEq] at hz'
    rw [← hz, ← hz', ofReal_re, ofReal_re]
    exact Real.sqrt_lt_sqrt h0'.le (by simpa using this)
  · obtain ⟨r, h0, hr⟩ := hp l hl
    exact ⟨√r, by simp only [hr, Option.map_some, csqrt_ofReal h0.le]⟩

/-! ## The models with the wrong sign -/

/-- **C144 fails** for `DrudeEnergy`: the real part rises with the wavelength, everywhere, for every positive amplitude. -/
theorem C144_drude_refuted (K : PhysConst) (A g : ℝ) (hA : 0 < A) : Spec.Rises (drudeEnergy K [("A", A), ("gamma", g)]) (Set.Ioi 0) := by
  have hd : ∀ {E : ℝ}, 0 < E → (E : ℂ) ^ 2 - I * g * E = ((E ^ 2 : ℝ) : ℂ) + ((-(g * E) : ℝ) : ℂ) * I := fun _ => by push_cast; ring
  have hne : ∀ {E : ℝ}, 0 < E → (E : ℂ) ^ 2 - I * g * E ≠ 0 := fun {E} hE hc => by
    rw [hd hE] at hc
    have := congrArg re hc
    simp only [add_re, ofReal_re, mul_re, I_re, mul_zero, ofReal_im, I_im, mul_one, sub_self, add_zero, zero_re] at this
    exact (pow_pos hE 2).ne' this
  have hre : ∀ {E : ℝ}, 0 < E → ((A : ℂ) / ((E : ℂ) ^ 2 - I * g * E)).re = A / (E ^ 2 + g ^ 2) := fun {E} hE => by
    rw [hd hE, Complex.div_re, Complex.normSq_add_mul_I]
    simp only [add_re, ofReal_re, mul_re, I_re, mul_zero, ofReal_im, I_im, mul_one, sub_self, add_zero, zero_mul, zero_div]
    rw [show (E ^ 2) ^ 2 + (-(g * E)) ^ 2 = E ^ 2 * (E ^ 2 + g ^ 2) by ring, mul_comm A, mul_div_mul_left _ _ (by positivity)]
  refine rises_of (fun l => (A : ℂ) / ((photon K l : ℂ) ^ 2 - I * g * photon K l)) (fun l hl => ?_) fun l hl l' hl' hlt => ?_
  · have := hne (photon_pos' K hl)
    simp only [drudeEnergy, energy_photon K (Set.mem_Ioi.1 hl).ne', Option.bind_eq_bind, Option.bind_some]
    simp [Dict.get, divN, this]
  · rw [hre (photon_pos' K hl), hre (photon_pos' K hl')]
    have p' := photon_pos' K hl'
    have := pow_lt_pow_left₀ (photon_lt K hl hlt) p'.le two_ne_zero
    exact div_lt_div_of_pos_left hA (by positivity) (by linarith)

/-- **C144 fails** for `DrudeResistivity` in the same way. -/
theorem C144_drude_resistivity_refuted (K : PhysConst) (rho tau : ℝ) (hr : 0 < rho) (ht : 0 < tau) :
    Spec.Rises (drudeResistivity K [("rho_opt", rho), ("tau", tau)]) (Set.Ioi 0) := by
  have e : drudeResistivity K [("rho_opt", rho), ("tau", tau)] = drudeEnergy K [("A", (K.h / (2 * Real.pi)) ^ 2 / (K.eps0 * 1e-2 * rho * tau)),
      ("gamma", K.h / (2 * Real.pi) / tau)] := funext fun l => C48_drude K rho tau l hr.ne' ht.ne'
  rw [e]
  have h1 := K.h_pos
  have h2 := K.eps0_pos
  exact C144_drude_refuted K _ _ (by positivity)

lemma poles_val (K : PhysConst) {a b E l : ℝ} (hl : 0 < l) (hE : E ^ 2 - photon K l ^ 2 ≠ 0) :
    poles K [("A_ir", a), ("A_uv", b), ("E_uv", E)] l = some ((a / photon K l ^ 2 + b / (E ^ 2 - photon K l ^ 2) : ℝ) : ℂ) := by
  have hp := photon_pos' K hl
  simp only [poles, energy_photon K hl.ne', Option.bind_eq_bind, Option.bind_some]
  simp [Dict.get, divN, hE, hp.ne']

/-- **C144 fails** for the infrared pole of `Poles`: with a positive amplitude it rises with the wavelength. -/
theorem C144_poles_refuted (K : PhysConst) (a E : ℝ) (ha : 0 < a) :
    Spec.Rises (poles K [("A_ir", a), ("A_uv", 0), ("E_uv", E)]) {l | 0 < l ∧ E ^ 2 ≠ photon K l ^ 2} := by
  refine rises_of _ (fun l hl => poles_val K hl.1 (sub_ne_zero.2 hl.2)) fun l hl l' hl' hlt => ?_
  rw [ofReal_re, ofReal_re, zero_div, zero_div, add_zero, add_zero]
  have p' := photon_pos' K hl'.1
  have := pow_lt_pow_left₀ (photon_lt K hl.1 hlt) p'.le two_ne_zero
  exact div_lt_div_of_pos_left ha (by positivity) this

/-- **C144** (partial): `Poles` falls with the wavelength beyond the ultraviolet pole when the infrared amplitude is not positive. Missing: positive infrared amplitudes
(`C144_poles_refuted`). -/
theorem C144_poles_partial (K : PhysConst) (a b E : ℝ) (ha : a ≤ 0) (hb : 0 < b) (hE : 0 < E) :
    Spec.Falls (poles K [("A_ir", a), ("A_uv", b), ("E_uv", E)]) {l | 0 < l ∧ photon K l < E} ∧
    Spec.Transparent (poles K [("A_ir", a), ("A_uv", b), ("E_uv", E)]) {l | 0 < l ∧ photon K l < E} := by
  have hn : ∀ l, 0 < l → photon K l < E → 0 < E ^ 2 - photon K l ^ 2 := fun l h1 h2 => by
    have := pow_lt_pow_left₀ h2 (photon_pos' K h1).le two_ne_zero
    linarith
  refine ⟨falls_of _ (fun l hl => poles_val K hl.1 (hn l hl.1 hl.2).ne') fun l hl l' hl' hlt => ?_, fun l hl => ⟨_, poles_val K hl.1 (hn l hl.1 hl.2).ne'⟩⟩
  rw [ofReal_re, ofReal_re]
  have p' := photon_pos' K hl'.1
  have hs := pow_lt_pow_left₀ (photon_lt K hl.1 hlt) p'.le two_ne_zero
  have h1 : a / photon K l' ^ 2 ≤ a / photon K l ^ 2 := by
    have := div_le_div_of_nonneg_left (neg_nonneg.2 ha) (by positivity) hs.le
    rw [neg_div, neg_div] at this
    linarith
  have h2 : b / (E ^ 2 - photon K l' ^ 2) < b / (E ^ 2 - photon K l ^ 2) := div_lt_div_of_pos_left hb (hn l hl.1 hl.2) (by linarith)
  linarith

/-! ## Cases -/

/-- BK7 glass (Sellmeier coefficients) between 300 nm and 2.5 µm. -/
example : Spec.Falls (sellmeier ([((1.03961212 : ℝ), (0.00600069867 : ℝ)), (0.231792344, 0.0200179144), (1.01046945, 103.560653)].map fun o => [("A", o.1), ("B", o.2)]))
    (Set.Icc 300 2500) := by
  refine (C144_sellmeier _ (by simp) (fun o ho => ?_) _ Set.ordConnected_Icc (fun l hl => by linarith [hl.1]) fun l hl o ho => ?_).2
  · simp only [List.mem_cons, List.not_mem_nil, or_false] at ho
    rcases ho with rfl | rfl | rfl <;> norm_num
  · have h1 : 0.3 ≤ l / 1e3 := by rw [le_div_iff₀ (by norm_num)]; linarith [hl.1]
    have h2 : l / 1e3 ≤ 2.5 := by rw [div_le_iff₀ (by norm_num)]; linarith [hl.2]
    simp only [List.mem_cons, List.not_mem_nil, or_false] at ho
    rcases ho with rfl | rfl | rfl
    · refine ne_of_gt ?_; norm_num; nlinarith
    · refine ne_of_gt ?_; norm_num; nlinarith
    · refine ne_of_lt ?_; norm_num; nlinarith

/-- A Lorentz oscillator at 4 eV, broadening 0.5 eV: normal dispersion below 3.7 eV (`16 - 3.7² > 2`), anomalous from 3.75 to 4.2 eV. -/
example (K : PhysConst) : Spec.Falls (lorentzEnergy K [[("A", 10), ("E", 4), ("gamma", 0.5)]]) {l | 0 < l ∧ photon K l ≤ 3.7} ∧
    Spec.Rises (lorentzEnergy K [[("A", 10), ("E", 4), ("gamma", 0.5)]]) {l | 0 < l ∧ 3.75 ≤ photon K l ∧ photon K l ≤ 4.2} := by
  have hanti : ∀ {a b : ℝ}, 0 < a → a ≤ b → photon K b ≤ photon K a := fun {a b} ha hab => by
    rcases hab.eq_or_lt with h | h
    · rw [h]
    · exact (photon_lt K ha h).le
  have key := fun (S : Set ℝ) (hS : S.OrdConnected) (hp : ∀ l ∈ S, 0 < l) => C144_lorentz_energy K [((10 : ℝ), (4 : ℝ), (0.5 : ℝ))] (by simp) (by simp; norm_num) S hS hp
  refine ⟨((key {l | 0 < l ∧ photon K l ≤ 3.7} ⟨fun x hx y hy z hz => ⟨hx.1.trans_le hz.1, (hanti hx.1 hz.1).trans hx.2⟩⟩ (fun l hl => hl.1)).1 fun l hl o ho => ?_).1,
    (key {l | 0 < l ∧ 3.75 ≤ photon K l ∧ photon K l ≤ 4.2} ⟨fun x hx y hy z hz => ⟨hx.1.trans_le hz.1, hy.2.1.trans (hanti (hx.1.trans_le hz.1) hz.2), (hanti hx.1 hz.1).trans hx.2.2⟩⟩ (fun l hl => hl.1)).2 fun l hl o ho => ?_⟩
  · rw [List.mem_singleton] at ho
    subst ho
    have hp := photon_pos' K hl.1
    have h2 := hl.2
    refine lt_of_lt_of_le ?_ (le_abs_self _)
    norm_num at h2 ⊢
    nlinarith
  · rw [List.mem_singleton] at ho
    subst ho
    have h1 := hl.2.1
    have h2 := hl.2.2
    rw [abs_lt]
    norm_num at h1 h2 ⊢
    constructor <;> nlinarith

/-- Amorphous silicon (Tauc-Lorentz, gap 1.2 eV): transparent with normal dispersion in the infrared. -/
example (K : PhysConst) : Spec.Falls (taucLorentz K [("Eg", 1.2)] [[("A", 122), ("E", 3.45), ("C", 2.54)]]) {l | 0 < l ∧ photon K l < 1.2} :=
  (C144_tauc_lorentz K 1.2 (by norm_num) [((122 : ℝ), (3.45 : ℝ), (2.54 : ℝ))] (by simp) (by simp; norm_num)).1

/-- The defaults of a Cauchy glass and of a Cauchy-Urbach film. -/
example (K : PhysConst) : Spec.Falls (cauchyIndex [("n0", 1.452), ("n1", 36), ("n2", 0), ("k0", 0), ("k1", 0), ("k2", 0)]) (Set.Ioi 0) ∧
    Spec.Falls (cauchyUrbachIndex K [("n0", 1.5), ("B", 0.005), ("C", 0), ("D", 0.01), ("Eg", 3.1), ("Eu", 0.4)]) (Set.Ioi 0) :=
  ⟨C144_cauchy _ _ _ _ _ _ (by norm_num) le_rfl (by norm_num), C144_cauchy_urbach K _ _ _ _ _ _ (by norm_num) le_rfl (by norm_num) (by norm_num)⟩

/-- A line at 300 nm without broadening, seen from 400 nm on. -/
example : Spec.Falls (lorentzLambda [[("A", 1), ("lambda_r", 300), ("gamma", 0)]]) (Set.Ici 400) := by
  refine (C144_lorentz_lambda [((1 : ℝ), (300 : ℝ), (0 : ℝ))] (by simp) (by simp) _ Set.ordConnected_Ici fun l hl => lt_of_lt_of_le (by norm_num) (Set.mem_Ici.1 hl)).1
    fun l hl o ho => ?_
  rw [List.mem_singleton] at ho
  subst ho
  have : (400 : ℝ) ≤ l := hl
  refine lt_of_lt_of_le ?_ (le_abs_self _)
  norm_num
  nlinarith

/-- The index of the silicon film above. -/
example (K : PhysConst) : Spec.Falls (fun l => (taucLorentz K [("Eg", 1.2)] [[("A", 122), ("E", 3.45), ("C", 2.54)]] l).map Complex.sqrt) {l | 0 < l ∧ photon K l < 1.2} := by
  have h := C144_tauc_lorentz K 1.2 (by norm_num) [((122 : ℝ), (3.45 : ℝ), (2.54 : ℝ))] (by simp) (by simp; norm_num)
  exact (C144_index _ _ h.1 fun l hl => h.2 l hl.1 hl.2).1

end PyElli
