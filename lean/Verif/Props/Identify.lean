import Verif.Props.NormalDispersion
import Verif.Spec.Identify
import Mathlib.LinearAlgebra.Lagrange

/-! # Reading the parameters of a dispersion from its values (C162) -/

namespace PyElli

open Complex Polynomial
open Rii (sumN_congr sum_ofReal)

/-- Sums of fractions with the denominators `d k`, each with a zero of its own, vanish at many points only if the numerators do. -/
lemma fractions_unique {ι : Type} [DecidableEq ι] (s : Finset ι) (d : ι → ℂ[X]) (m : ℕ) (hd : ∀ k ∈ s, (d k).natDegree ≤ m) (z : ι → ℂ)
    (hz0 : ∀ k ∈ s, (d k).eval (z k) = 0) (hz : ∀ k ∈ s, ∀ j ∈ s, j ≠ k → (d j).eval (z k) ≠ 0) (c : ι → ℂ) (P : Finset ℂ)
    (hP : m * (s.card - 1) < P.card) (h0 : ∀ x ∈ P, ∀ k ∈ s, (d k).eval x ≠ 0) (h : ∀ x ∈ P, ∑ k ∈ s, c k / (d k).eval x = 0) :
    ∀ k ∈ s, c k = 0 := by
  set Q : ℂ[X] := ∑ k ∈ s, C (c k) * ∏ j ∈ s.erase k, d j with hQ
  have hdeg : Q.natDegree ≤ m * (s.card - 1) := by
    rw [hQ]
    apply Polynomial.natDegree_sum_le_of_forall_le
    intro k hk
    refine (Polynomial.natDegree_C_mul_le _ _).trans ((Polynomial.natDegree_prod_le _ _).trans ?_)
    refine (Finset.sum_le_card_nsmul _ _ m fun j hj => hd j (Finset.mem_of_mem_erase hj)).trans ?_
    rw [Finset.card_erase_of_mem hk, smul_eq_mul, mul_comm]
  have hev : ∀ x, Q.eval x = ∑ k ∈ s, c k * ∏ j ∈ s.erase k, (d j).eval x := by
    intro x
    rw [hQ, Polynomial.eval_finset_sum]
    exact Finset.sum_congr rfl fun k _ => by rw [Polynomial.eval_mul, Polynomial.eval_C, Polynomial.eval_prod]
  have hzero : Q = 0 := by
    by_contra hne
    apply hne
    refine Polynomial.eq_zero_of_degree_lt_of_eval_finset_eq_zero (s := P) ?_ fun x hx => ?_
    · rw [Polynomial.degree_eq_natDegree hne]
      exact_mod_cast lt_of_le_of_lt hdeg hP
    · rw [hev]
      have e : ∀ k ∈ s, c k * ∏ j ∈ s.erase k, (d j).eval x = (∏ j ∈ s, (d j).eval x) * (c k / (d k).eval x) := by
        intro k hk
        rw [← Finset.mul_prod_erase s _ hk]
        have := h0 x hx k hk
        field_simp
      rw [Finset.sum_congr rfl e, ← Finset.mul_sum, h x hx, mul_zero]
  intro k hk
  have h1 := hev (z k)
  rw [hzero, Polynomial.eval_zero, Finset.sum_eq_single_of_mem k hk] at h1
  · rcases mul_eq_zero.1 h1.symm with h2 | h2
    · exact h2
    · exfalso
      rw [Finset.prod_eq_zero_iff] at h2
      obtain ⟨j, hj, hj2⟩ := h2
      exact hz k hk j (Finset.mem_of_mem_erase hj) (Finset.ne_of_mem_erase hj) hj2
  · intro j hj hjk
    rw [Finset.prod_eq_zero (Finset.mem_erase.2 ⟨hjk.symm, hk⟩) (hz0 k hk), mul_zero]

/-- The sum over the oscillators is a sum over the resonances. -/
lemma sum_totalAt {κ : Type} [DecidableEq κ] (g : κ → ℂ) (s : Finset κ) (L : List (ℝ × κ)) (h : ∀ o ∈ L, o.2 ∈ s) :
    (L.map fun o => (o.1 : ℂ) * g o.2).sum = ∑ k ∈ s, (Spec.totalAt L k : ℂ) * g k := by
  induction L with
  | nil => simp [Spec.totalAt]
  | cons o L ih =>
    have e : ∀ k, Spec.totalAt (o :: L) k = (if k = o.2 then o.1 else 0) + Spec.totalAt L k := by
      intro k
      unfold Spec.totalAt
      by_cases hk : k = o.2
      · subst hk
        simp
      · rw [List.filter_cons_of_neg (by simpa using fun h => hk h.symm), if_neg hk, zero_add]
    rw [List.map_cons, List.sum_cons, ih fun o' ho' => h o' (List.mem_cons_of_mem _ ho')]
    simp only [e]
    push_cast
    simp only [add_mul, Finset.sum_add_distrib]
    congr 1
    rw [Finset.sum_eq_single_of_mem o.2 (h o List.mem_cons_self)]
    · simp
    · intro k _ hk
      simp [hk]

/-- The resonances of two lists, at most as many as oscillators. -/
lemma keys_card {κ : Type} [DecidableEq κ] (L M : List (ℝ × κ)) : ((L ++ M).map Prod.snd).toFinset.card ≤ L.length + M.length := by
  refine (List.toFinset_card_le _).trans ?_
  simp

lemma totalAt_of_not_mem {κ : Type} [DecidableEq κ] (L : List (ℝ × κ)) (k : κ) (h : ∀ o ∈ L, o.2 ≠ k) : Spec.totalAt L k = 0 := by
  unfold Spec.totalAt
  rw [List.filter_eq_nil_iff.2 fun o ho => by simpa using h o ho]
  simp

/-- Both lists give the same sum of fractions exactly if their total amplitudes agree. -/
lemma sums_agree_iff {κ : Type} [DecidableEq κ] (L M : List (ℝ × κ)) (d : κ → ℂ[X]) (m : ℕ) (z : κ → ℂ)
    (hd : ∀ o ∈ L ++ M, (d o.2).natDegree ≤ m) (hz0 : ∀ o ∈ L ++ M, (d o.2).eval (z o.2) = 0)
    (hz : ∀ o ∈ L ++ M, ∀ o' ∈ L ++ M, o'.2 ≠ o.2 → (d o'.2).eval (z o.2) ≠ 0) (P : Finset ℂ) (hP : m * (L.length + M.length) < P.card + m)
    (h0 : ∀ x ∈ P, ∀ o ∈ L ++ M, (d o.2).eval x ≠ 0) :
    (∀ x ∈ P, (L.map fun o => (o.1 : ℂ) * (1 / (d o.2).eval x)).sum = (M.map fun o => (o.1 : ℂ) * (1 / (d o.2).eval x)).sum) ↔
      ∀ k, Spec.totalAt L k = Spec.totalAt M k := by
  set s := ((L ++ M).map Prod.snd).toFinset with hs
  have hmem : ∀ k, k ∈ s ↔ ∃ o ∈ L ++ M, o.2 = k := by
    intro k
    rw [hs, List.mem_toFinset, List.mem_map]
  have hL : ∀ o ∈ L, o.2 ∈ s := fun o ho => (hmem _).2 ⟨o, List.mem_append_left _ ho, rfl⟩
  have hM : ∀ o ∈ M, o.2 ∈ s := fun o ho => (hmem _).2 ⟨o, List.mem_append_right _ ho, rfl⟩
  constructor
  · intro h k
    by_cases hk : k ∈ s
    · have hcard := keys_card L M
      rw [← hs] at hcard
      have hpos : 0 < s.card := Finset.card_pos.2 ⟨k, hk⟩
      have key := fractions_unique s d m ?_ z ?_ ?_ (fun k => ((Spec.totalAt L k - Spec.totalAt M k : ℝ) : ℂ)) P ?_ ?_ ?_ k hk
      · have := ofReal_eq_zero.1 key
        linarith
      · intro k hk
        obtain ⟨o, ho, rfl⟩ := (hmem k).1 hk
        exact hd o ho
      · intro k hk
        obtain ⟨o, ho, rfl⟩ := (hmem k).1 hk
        exact hz0 o ho
      · intro k hk j hj
        obtain ⟨o, ho, rfl⟩ := (hmem k).1 hk
        obtain ⟨o', ho', rfl⟩ := (hmem j).1 hj
        exact hz o ho o' ho'
      · have h1 : m * (s.card - 1) + m = m * s.card := by
          obtain ⟨n, hn⟩ := Nat.exists_eq_succ_of_ne_zero hpos.ne'
          rw [hn]
          simp [Nat.mul_succ]
        have h2 := Nat.mul_le_mul_left m hcard
        omega
      · intro x hx k hk
        obtain ⟨o, ho, rfl⟩ := (hmem k).1 hk
        exact h0 x hx o ho
      · intro x hx
        have h1 := h x hx
        rw [sum_totalAt (fun k => 1 / (d k).eval x) s L hL, sum_totalAt (fun k => 1 / (d k).eval x) s M hM, ← sub_eq_zero, ← Finset.sum_sub_distrib] at h1
        rw [← h1]
        refine Finset.sum_congr rfl fun k _ => ?_
        push_cast
        ring
    · rw [totalAt_of_not_mem L k fun o ho hc => hk (hc ▸ hL o ho), totalAt_of_not_mem M k fun o ho hc => hk (hc ▸ hM o ho)]
  · intro h x _
    rw [sum_totalAt (fun k => 1 / (d k).eval x) s L hL, sum_totalAt (fun k => 1 / (d k).eval x) s M hM]
    exact Finset.sum_congr rfl fun k _ => by rw [h k]

/-! ## The models -/

lemma sellmeier_list (osc : List (ℝ × ℝ)) (l : ℝ) (h : ∀ o ∈ osc, (l / 1e3) ^ 2 ≠ o.2) :
    sellmeier (osc.map fun o => [("A", o.1), ("B", o.2)]) l =
      some (1 + ((l / 1e3 : ℝ) : ℂ) ^ 2 * (osc.map fun o => (o.1 : ℂ) * (1 / (X - C (o.2 : ℂ)).eval (((l / 1e3 : ℝ) : ℂ) ^ 2))).sum) := by
  have e := sumN_congr osc (fun o => sellmeierTerm (l / 1e3) [("A", o.1), ("B", o.2)])
    (fun o => ((l / 1e3 : ℝ) : ℂ) ^ 2 * ((o.1 : ℂ) * (1 / (X - C (o.2 : ℂ)).eval (((l / 1e3 : ℝ) : ℂ) ^ 2)))) fun o ho => by
      have hr : (l / 1e3) ^ 2 - o.2 ≠ 0 := sub_ne_zero.2 (h o ho)
      generalize l / 1e3 = t at hr
      simp [sellmeierTerm, Dict.get, divN, hr, toC]
      ring
  have hm : (osc.map fun o => [("A", o.1), ("B", o.2)]).map (sellmeierTerm (l / 1e3)) = osc.map fun o => sellmeierTerm (l / 1e3) [("A", o.1), ("B", o.2)] := by
    rw [List.map_map]; rfl
  unfold sellmeier
  rw [hm, e, List.sum_map_mul_left]
  simp

/-- C162: `Sellmeier`. Two lists of terms, `n` and `m` of them, that agree at `n + m` wavelengths have the same total amplitude at every resonance, and
hence agree at all. -/
theorem C162_sellmeier (L M : List (ℝ × ℝ)) (W : Finset ℝ) (hW : ∀ l ∈ W, 0 < l) (hcard : L.length + M.length ≤ W.card)
    (hres : ∀ l ∈ W, ∀ o ∈ L ++ M, (l / 1e3) ^ 2 ≠ o.2) :
    (∀ l ∈ W, sellmeier (L.map fun o => [("A", o.1), ("B", o.2)]) l = sellmeier (M.map fun o => [("A", o.1), ("B", o.2)]) l) ↔
      ∀ k, Spec.totalAt L k = Spec.totalAt M k := by
  have hinj : Set.InjOn (fun l : ℝ => ((l / 1e3 : ℝ) : ℂ) ^ 2) (W : Set ℝ) := by
    intro a ha b hb hab
    have h1 : (a / 1e3) ^ 2 = (b / 1e3) ^ 2 := by
      have : (((a / 1e3) ^ 2 : ℝ) : ℂ) = (((b / 1e3) ^ 2 : ℝ) : ℂ) := by
        push_cast
        push_cast at hab
        exact hab
      exact_mod_cast this
    have ha0 := hW a ha
    have hb0 := hW b hb
    have h2 := (pow_left_inj₀ (by positivity) (by positivity) two_ne_zero).1 h1
    exact (div_left_inj' (by norm_num)).1 h2
  rw [← sums_agree_iff L M (fun b => X - C (b : ℂ)) 1 (fun b => (b : ℂ)) (fun o _ => by rw [Polynomial.natDegree_X_sub_C])
    (fun o _ => by simp) (fun o _ o' _ hne => by
      simp only [eval_sub, eval_X, eval_C]
      rw [sub_ne_zero]
      exact_mod_cast hne.symm) (W.image fun l : ℝ => ((l / 1e3 : ℝ) : ℂ) ^ 2) (by rw [Finset.card_image_of_injOn hinj]; omega)
    (fun x hx o ho => by
      obtain ⟨l, hl, rfl⟩ := Finset.mem_image.1 hx
      simp only [eval_sub, eval_X, eval_C]
      rw [sub_ne_zero]
      exact_mod_cast hres l hl o ho)]
  rw [Finset.forall_mem_image]
  refine forall₂_congr fun l hl => ?_
  rw [sellmeier_list L l fun o ho => hres l hl o (List.mem_append_left _ ho), sellmeier_list M l fun o ho => hres l hl o (List.mem_append_right _ ho)]
  have ht : ((l / 1e3 : ℝ) : ℂ) ^ 2 ≠ 0 := by
    have := hW l hl
    have h2 : (l / 1e3 : ℝ) ≠ 0 := by positivity
    exact pow_ne_zero 2 (ofReal_ne_zero.2 h2)
  rw [Option.some.injEq, add_right_inj, mul_right_inj' ht]

/-- The denominator of a Lorentz oscillator with the resonance `k = (E, γ)`. -/
noncomputable def lorentzDen (k : ℝ × ℝ) : ℂ[X] := C ((k.1 : ℂ) ^ 2) - X ^ 2 - C (I * k.2) * X

lemma lorentzDen_eval (k : ℝ × ℝ) (x : ℂ) : (lorentzDen k).eval x = (k.1 : ℂ) ^ 2 - x ^ 2 - I * k.2 * x := by
  simp [lorentzDen]

/-- Sums of Lorentz oscillators below critical damping at `n + m` positive points; `σ` is the sign of the damping term. -/
lemma lorentz_sums_iff (σ : ℝ) (hσ : σ ^ 2 = 1) (L M : List (ℝ × ℝ × ℝ)) (h : ∀ o ∈ L ++ M, 0 < o.2.1 ∧ 0 < o.2.2 ∧ o.2.2 < 2 * o.2.1) (W : Finset ℝ)
    (hW : ∀ x ∈ W, 0 < x) (hcard : L.length + M.length ≤ W.card) :
    (∀ x ∈ W, (L.map fun o => (o.1 : ℂ) * (1 / (lorentzDen (o.2.1, σ * o.2.2)).eval (x : ℂ))).sum =
      (M.map fun o => (o.1 : ℂ) * (1 / (lorentzDen (o.2.1, σ * o.2.2)).eval (x : ℂ))).sum) ↔ ∀ k, Spec.totalAt L k = Spec.totalAt M k := by
  have hσ0 : σ ≠ 0 := by
    rintro rfl
    norm_num at hσ
  have hinj1 : Set.InjOn (fun x : ℝ => (x : ℂ)) (W : Set ℝ) := fun a _ b _ hab => ofReal_injective hab
  have hinj2 : Set.InjOn (fun x : ℝ => -(x : ℂ)) (W : Set ℝ) := fun a _ b _ hab => ofReal_injective (neg_injective hab)
  have hdis : Disjoint (W.image fun x : ℝ => (x : ℂ)) (W.image fun x : ℝ => -(x : ℂ)) := by
    rw [Finset.disjoint_left]
    intro x hx hx'
    obtain ⟨a, ha, rfl⟩ := Finset.mem_image.1 hx
    obtain ⟨b, hb, hab⟩ := Finset.mem_image.1 hx'
    have h1 : -b = a := by exact_mod_cast hab
    linarith [hW a ha, hW b hb]
  have hne : ∀ x : ℝ, x ≠ 0 → ∀ o ∈ L ++ M, (lorentzDen (o.2.1, σ * o.2.2)).eval (x : ℂ) ≠ 0 := by
    intro x hx o ho
    rw [lorentzDen_eval]
    exact lz_den' (Or.inr (mul_ne_zero (mul_ne_zero hσ0 (h o ho).2.1.ne') hx))
  have hw : ∀ o ∈ L ++ M, 0 < Real.sqrt (4 * o.2.1 ^ 2 - o.2.2 ^ 2) ∧ Real.sqrt (4 * o.2.1 ^ 2 - o.2.2 ^ 2) ^ 2 = 4 * o.2.1 ^ 2 - o.2.2 ^ 2 := by
    intro o ho
    obtain ⟨h1, h2, h3⟩ := h o ho
    have h4 : 0 < 4 * o.2.1 ^ 2 - o.2.2 ^ 2 := by nlinarith
    exact ⟨Real.sqrt_pos.2 h4, Real.sq_sqrt h4.le⟩
  have hσc : (σ : ℂ) ^ 2 = 1 := by exact_mod_cast hσ
  have hz0 : ∀ o ∈ L ++ M, (lorentzDen (o.2.1, σ * o.2.2)).eval ((-I * (σ * o.2.2) + (Real.sqrt (4 * o.2.1 ^ 2 - o.2.2 ^ 2) : ℝ)) / 2) = 0 := by
    intro o ho
    have h1 : ((Real.sqrt (4 * o.2.1 ^ 2 - o.2.2 ^ 2) : ℝ) : ℂ) ^ 2 = 4 * (o.2.1 : ℂ) ^ 2 - (o.2.2 : ℂ) ^ 2 := by exact_mod_cast (hw o ho).2
    rw [lorentzDen_eval]
    push_cast
    generalize ((Real.sqrt (4 * o.2.1 ^ 2 - o.2.2 ^ 2) : ℝ) : ℂ) = w at h1
    linear_combination (-1 / 4 : ℂ) * h1 + ((σ : ℂ) * o.2.2) ^ 2 / 4 * I_sq - (o.2.2 : ℂ) ^ 2 / 4 * hσc
  rw [← sums_agree_iff L M (fun k => lorentzDen (k.1, σ * k.2)) 2 (fun k => (-I * (σ * k.2) + (Real.sqrt (4 * k.1 ^ 2 - k.2 ^ 2) : ℝ)) / 2)
    (fun o _ => by unfold lorentzDen; compute_degree) hz0 ?_
    ((W.image fun x : ℝ => (x : ℂ)) ∪ W.image fun x : ℝ => -(x : ℂ)) ?_ ?_]
  · rw [Finset.forall_mem_union, Finset.forall_mem_image, Finset.forall_mem_image]
    have hconj : ∀ (N : List (ℝ × ℝ × ℝ)) (x : ℝ), (N.map fun o => (o.1 : ℂ) * (1 / (lorentzDen (o.2.1, σ * o.2.2)).eval (-(x : ℂ)))).sum =
        (starRingEnd ℂ) (N.map fun o => (o.1 : ℂ) * (1 / (lorentzDen (o.2.1, σ * o.2.2)).eval (x : ℂ))).sum := by
      intro N x
      rw [map_list_sum, List.map_map]
      congr 1
      refine List.map_congr_left fun o _ => ?_
      simp only [Function.comp, map_mul, map_div₀, map_one, conj_ofReal, lorentzDen_eval, map_sub, map_pow, conj_I]
      congr 2
      ring
    exact ⟨fun h2 => ⟨fun x hx => h2 x hx, fun x hx => by rw [hconj, hconj, h2 x hx]⟩, fun h2 x hx => h2.1 hx⟩
  · intro o ho o' ho' hoo hc
    have h1 := hz0 o ho
    obtain ⟨hw0, -⟩ := hw o ho
    rw [lorentzDen_eval] at h1 hc
    generalize Real.sqrt (4 * o.2.1 ^ 2 - o.2.2 ^ 2) = w at h1 hc hw0
    push_cast at h1 hc
    have h2 : ((o'.2.1 ^ 2 - o.2.1 ^ 2 - (σ * o'.2.2 - σ * o.2.2) * (σ * o.2.2) / 2 : ℝ) : ℂ) + ((-((σ * o'.2.2 - σ * o.2.2) * w / 2) : ℝ) : ℂ) * I = 0 := by
      push_cast
      linear_combination hc - h1 - ((σ : ℂ) * o'.2.2 - σ * o.2.2) * (σ * o.2.2) / 2 * I_sq
    have hre := congrArg re h2
    have him := congrArg im h2
    simp only [add_re, ofReal_re, mul_re, I_re, mul_zero, ofReal_im, I_im, mul_one, sub_self, add_zero, add_im, mul_im, zero_add, zero_re, zero_im] at hre him
    have hg : o'.2.2 = o.2.2 := by
      have h3 : (σ * w) * (o'.2.2 - o.2.2) = 0 := by linarith
      have := (mul_eq_zero.1 h3).resolve_left (mul_ne_zero hσ0 hw0.ne')
      linarith
    rw [hg] at hre
    have hE : o'.2.1 ^ 2 = o.2.1 ^ 2 := by linarith
    exact hoo (Prod.ext ((pow_left_inj₀ (h o' ho').1.le (h o ho).1.le two_ne_zero).1 hE) hg)
  · rw [Finset.card_union_of_disjoint hdis, Finset.card_image_of_injOn hinj1, Finset.card_image_of_injOn hinj2]
    omega
  · intro x hx o ho
    rcases Finset.mem_union.1 hx with hx | hx
    · obtain ⟨l, hl, rfl⟩ := Finset.mem_image.1 hx
      exact hne _ (hW l hl).ne' o ho
    · obtain ⟨l, hl, rfl⟩ := Finset.mem_image.1 hx
      have := hne (-l) (neg_ne_zero.2 (hW l hl).ne') o ho
      push_cast at this
      exact this

/-- C162: `LorentzEnergy` below critical damping. Two lists of oscillators, `n` and `m` of them, that agree at `n + m` wavelengths have the same total
amplitude for every pair of resonance energy and broadening, and hence agree at all wavelengths. -/
theorem C162_lorentz (K : PhysConst) (L M : List (ℝ × ℝ × ℝ)) (h : ∀ o ∈ L ++ M, 0 < o.2.1 ∧ 0 < o.2.2 ∧ o.2.2 < 2 * o.2.1) (W : Finset ℝ)
    (hW : ∀ l ∈ W, 0 < l) (hcard : L.length + M.length ≤ W.card) :
    (∀ l ∈ W, lorentzEnergy K (L.map fun o => [("A", o.1), ("E", o.2.1), ("gamma", o.2.2)]) l =
      lorentzEnergy K (M.map fun o => [("A", o.1), ("E", o.2.1), ("gamma", o.2.2)]) l) ↔ ∀ k, Spec.totalAt L k = Spec.totalAt M k := by
  have hp : ∀ l ∈ W, 0 < photon K l := fun l hl => photon_pos' K (hW l hl)
  have hinj : Set.InjOn (photon K) (W : Set ℝ) := by
    intro a ha b hb hab
    rcases lt_trichotomy a b with hlt | heq | hlt
    · exact absurd hab (photon_lt K (hW a ha) hlt).ne'
    · exact heq
    · exact absurd hab (photon_lt K (hW b hb) hlt).ne
  rw [← lorentz_sums_iff 1 (by norm_num) L M h (W.image (photon K)) (fun x hx => by
    obtain ⟨l, hl, rfl⟩ := Finset.mem_image.1 hx
    exact hp l hl) (by rw [Finset.card_image_of_injOn hinj]; exact hcard), Finset.forall_mem_image]
  have hval : ∀ N : List (ℝ × ℝ × ℝ), (∀ o ∈ N, o ∈ L ++ M) → ∀ l ∈ W,
      lorentzEnergy K (N.map fun o => [("A", o.1), ("E", o.2.1), ("gamma", o.2.2)]) l =
        some (1 + (N.map fun o => (o.1 : ℂ) * (1 / (lorentzDen (o.2.1, 1 * o.2.2)).eval ((photon K l : ℝ) : ℂ))).sum) := by
    intro N hN l hl
    rw [lorentz_list K N (hW l hl) fun o ho => Or.inr (mul_ne_zero (h o (hN o ho)).2.1.ne' (hp l hl).ne')]
    congr 3
    refine List.map_congr_left fun o _ => ?_
    rw [lorentzDen_eval, mul_one_div, one_mul]
    rfl
  refine forall₂_congr fun l hl => ?_
  rw [hval L (fun o ho => List.mem_append_left _ ho) l hl, hval M (fun o ho => List.mem_append_right _ ho) l hl, Option.some.injEq, add_right_inj]

/-- C162: `LorentzLambda` in the same way; a resonance is a pair of wavelength and broadening. -/
theorem C162_lorentz_lambda (L M : List (ℝ × ℝ × ℝ)) (h : ∀ o ∈ L ++ M, 0 < o.2.1 ∧ 0 < o.2.2 ∧ o.2.2 < 2 * o.2.1) (W : Finset ℝ)
    (hW : ∀ l ∈ W, 0 < l) (hcard : L.length + M.length ≤ W.card) :
    (∀ l ∈ W, lorentzLambda (L.map fun o => [("A", o.1), ("lambda_r", o.2.1), ("gamma", o.2.2)]) l =
      lorentzLambda (M.map fun o => [("A", o.1), ("lambda_r", o.2.1), ("gamma", o.2.2)]) l) ↔ ∀ k, Spec.totalAt L k = Spec.totalAt M k := by
  rw [← lorentz_sums_iff (-1) (by norm_num) L M h W hW hcard]
  have hval : ∀ N : List (ℝ × ℝ × ℝ), (∀ o ∈ N, o ∈ L ++ M) → ∀ l ∈ W,
      lorentzLambda (N.map fun o => [("A", o.1), ("lambda_r", o.2.1), ("gamma", o.2.2)]) l =
        some (1 + -(l : ℂ) ^ 2 * (N.map fun o => (o.1 : ℂ) * (1 / (lorentzDen (o.2.1, -1 * o.2.2)).eval (l : ℂ))).sum) := by
    intro N hN l hl
    have e := sumN_congr N (fun o => lorentzLambdaTerm l [("A", o.1), ("lambda_r", o.2.1), ("gamma", o.2.2)])
      (fun o => -(l : ℂ) ^ 2 * ((o.1 : ℂ) * (1 / (lorentzDen (o.2.1, -1 * o.2.2)).eval (l : ℂ)))) fun o ho => by
        have hd := lambda_den (r := o.2.1) (g := o.2.2) (l := l) (Or.inr (mul_ne_zero (h o (hN o ho)).2.1.ne' (hW l hl).ne'))
        have e2 : (lorentzDen (o.2.1, -1 * o.2.2)).eval (l : ℂ) = -((l : ℂ) ^ 2 - (o.2.1 : ℂ) ^ 2 - I * o.2.2 * l) := by
          rw [lorentzDen_eval]
          push_cast
          ring
        rw [e2]
        have e3 : lorentzLambdaTerm l [("A", o.1), ("lambda_r", o.2.1), ("gamma", o.2.2)] =
            some ((o.1 : ℂ) * (l : ℂ) ^ 2 / ((l : ℂ) ^ 2 - (o.2.1 : ℂ) ^ 2 - I * o.2.2 * l)) := by
          simp [lorentzLambdaTerm, Dict.get, divN, hd]
        rw [e3, Option.some.injEq]
        generalize (l : ℂ) ^ 2 - (o.2.1 : ℂ) ^ 2 - I * o.2.2 * l = d at hd
        field_simp
    have hm : (N.map fun o => [("A", o.1), ("lambda_r", o.2.1), ("gamma", o.2.2)]).map (lorentzLambdaTerm l) =
        N.map fun o => lorentzLambdaTerm l [("A", o.1), ("lambda_r", o.2.1), ("gamma", o.2.2)] := by
      rw [List.map_map]; rfl
    unfold lorentzLambda
    rw [hm, e, List.sum_map_mul_left]
    simp
  refine forall₂_congr fun l hl => ?_
  have hl2 : -(l : ℂ) ^ 2 ≠ 0 := neg_ne_zero.2 (pow_ne_zero 2 (ofReal_ne_zero.2 (hW l hl).ne'))
  rw [hval L (fun o ho => List.mem_append_left _ ho) l hl, hval M (fun o ho => List.mem_append_right _ ho) l hl, Option.some.injEq, add_right_inj,
    mul_right_inj' hl2]

/-- C162: the two parameters of `DrudeEnergy` follow from its value at one wavelength. -/
theorem C162_drude (K : PhysConst) (A g A' g' l : ℝ) (hl : 0 < l) (hA : A ≠ 0)
    (h : drudeEnergy K [("A", A), ("gamma", g)] l = drudeEnergy K [("A", A'), ("gamma", g')] l) : A = A' ∧ g = g' := by
  have hx := photon_pos' K hl
  have hd : ∀ g : ℝ, ((photon K l : ℝ) : ℂ) ^ 2 - I * g * (photon K l : ℝ) ≠ 0 := by
    intro g hc
    have := congrArg re hc
    simp [pow_two] at this
    exact hx.ne' this
  have hv : ∀ A g : ℝ, drudeEnergy K [("A", A), ("gamma", g)] l = some ((A : ℂ) / (((photon K l : ℝ) : ℂ) ^ 2 - I * g * (photon K l : ℝ))) := by
    intro A g
    have := hd g
    unfold drudeEnergy
    rw [energy_photon K hl.ne']
    simp [Dict.get, divN, this]
  rw [hv, hv, Option.some.injEq, div_eq_div_iff (hd g) (hd g')] at h
  generalize photon K l = x at hx h
  have hre := congrArg re h
  have him := congrArg im h
  simp [pow_two] at hre him
  have h1 : A = A' := by
    rcases hre with hre | hre
    · exact hre
    · exact absurd hre hx.ne'
  subst h1
  refine ⟨rfl, ?_⟩
  have h2 : A * x * (g - g') = 0 := by linarith
  have := (mul_eq_zero.1 h2).resolve_left (mul_ne_zero hA hx.ne')
  linarith

/-- C162: `CauchyUrbach` has a parameter too many: the gap can be moved if the amplitude of the tail is changed with it. -/
theorem C162_urbach_refuted (K : PhysConst) (n0 B C D Eg Eu t l : ℝ) (hE : Eu ≠ 0) :
    cauchyUrbachIndex K [("n0", n0), ("B", B), ("C", C), ("D", D), ("Eg", Eg), ("Eu", Eu)] l =
      cauchyUrbachIndex K [("n0", n0), ("B", B), ("C", C), ("D", D * Real.exp (t / Eu)), ("Eg", Eg + t), ("Eu", Eu)] l := by
  have e : ∀ x : ℝ, D * Real.exp ((x - Eg) / Eu) = D * Real.exp (t / Eu) * Real.exp ((x - (Eg + t)) / Eu) := by
    intro x
    rw [mul_assoc, ← Real.exp_add]
    congr 2
    field_simp
    ring
  unfold cauchyUrbachIndex
  cases conversionWavelengthEnergy K l with
  | none => rfl
  | some x =>
    have e' := congrArg (fun y : ℝ => (y : ℂ)) (e x)
    push_cast at e'
    simp [Dict.get, divN, hE, e']

/-- C162: above critical damping the oscillators cannot be told apart: two of them are the same as a third one at all wavelengths. -/
theorem C162_overdamped_refuted (K : PhysConst) (l : ℝ) (hl : 0 < l) :
    lorentzEnergy K [[("A", 3), ("E", 2), ("gamma", 5)], [("A", 5), ("E", 6), ("gamma", 13)]] l = lorentzEnergy K [[("A", 8), ("E", 3), ("gamma", 10)]] l := by
  have hx := photon_pos' K hl
  have h1 := lorentz_list K [(3, 2, 5), (5, 6, 13)] hl (fun o ho => by
    simp only [List.mem_cons, List.not_mem_nil, or_false] at ho
    rcases ho with rfl | rfl <;> right <;> simp [hx.ne'])
  have h2 := lorentz_list K [(8, 3, 10)] hl (fun o ho => by
    simp only [List.mem_cons, List.not_mem_nil, or_false] at ho
    subst ho
    right
    simp [hx.ne'])
  simp only [List.map_cons, List.map_nil, List.sum_cons, List.sum_nil, add_zero] at h1 h2
  rw [h1, h2]
  generalize photon K l = x at hx
  have key : ∀ a : ℝ, 0 < a → (-I * x + a : ℂ) ≠ 0 := fun a ha hc => by
    have := congrArg re hc
    simp at this
    exact ha.ne' this
  have k1 : (-I * x + 1 : ℂ) ≠ 0 := by exact_mod_cast key 1 (by norm_num)
  have k4 : (-I * x + 4 : ℂ) ≠ 0 := by exact_mod_cast key 4 (by norm_num)
  have k9 : (-I * x + 9 : ℂ) ≠ 0 := by exact_mod_cast key 9 (by norm_num)
  have e1 : lz 3 2 5 x = 3 / ((-I * x + 1) * (-I * x + 4)) := by
    unfold lz
    push_cast
    congr 1
    linear_combination -(x : ℂ) ^ 2 * I_sq
  have e2 : lz 5 6 13 x = 5 / ((-I * x + 4) * (-I * x + 9)) := by
    unfold lz
    push_cast
    congr 1
    linear_combination -(x : ℂ) ^ 2 * I_sq
  have e3 : lz 8 3 10 x = 8 / ((-I * x + 1) * (-I * x + 9)) := by
    unfold lz
    push_cast
    congr 1
    linear_combination -(x : ℂ) ^ 2 * I_sq
  rw [e1, e2, e3]
  congr 2
  generalize -I * (x : ℂ) = y at k1 k4 k9
  field_simp
  ring

/-- C162: if no resonance occurs twice and no amplitude is zero, equal total amplitudes mean the same oscillators up to their order. -/
theorem C162_order {κ : Type} [DecidableEq κ] (L M : List (ℝ × κ)) (hL : (L.map Prod.snd).Nodup) (hM : (M.map Prod.snd).Nodup)
    (hL0 : ∀ o ∈ L, o.1 ≠ 0) (hM0 : ∀ o ∈ M, o.1 ≠ 0) (h : ∀ k, Spec.totalAt L k = Spec.totalAt M k) : L.Perm M := by
  have key : ∀ N : List (ℝ × κ), (N.map Prod.snd).Nodup → ∀ o ∈ N, Spec.totalAt N o.2 = o.1 := by
    intro N
    induction N with
    | nil => intro _ o ho; simp at ho
    | cons a N ih =>
      intro hN o ho
      rw [List.map_cons, List.nodup_cons] at hN
      rcases List.mem_cons.1 ho with rfl | ho'
      · have := totalAt_of_not_mem N o.2 fun b hb hc => hN.1 (List.mem_map.2 ⟨b, hb, hc⟩)
        unfold Spec.totalAt at this ⊢
        rw [List.filter_cons_of_pos (by simp), List.map_cons, List.sum_cons, this, add_zero]
      · have hne : a.2 ≠ o.2 := fun hc => hN.1 (List.mem_map.2 ⟨o, ho', hc.symm⟩)
        have := ih hN.2 o ho'
        unfold Spec.totalAt at this ⊢
        rw [List.filter_cons_of_neg (by simpa using hne), this]
  have sub : ∀ A B : List (ℝ × κ), (A.map Prod.snd).Nodup → (B.map Prod.snd).Nodup → (∀ o ∈ A, o.1 ≠ 0) → (∀ k, Spec.totalAt A k = Spec.totalAt B k) →
      ∀ o ∈ A, o ∈ B := by
    intro A B hA hB hA0 hAB o ho
    have h1 := key A hA o ho
    by_contra hc
    by_cases hk : ∃ b ∈ B, b.2 = o.2
    · obtain ⟨b, hb, hbo⟩ := hk
      have h2 := key B hB b hb
      rw [hbo, ← hAB, h1] at h2
      exact hc ((Prod.ext h2.symm hbo : b = o) ▸ hb)
    · push Not at hk
      have h2 := totalAt_of_not_mem B o.2 hk
      rw [← hAB, h1] at h2
      exact hA0 o ho h2
  exact (List.perm_ext_iff_of_nodup (List.Nodup.of_map _ hL) (List.Nodup.of_map _ hM)).2 fun o =>
    ⟨sub L M hL hM hL0 h o, sub M L hM hL hM0 (fun k => (h k).symm) o⟩

/-- C162: the coefficients of `Cauchy` follow from the index at three wavelengths. -/
theorem C162_cauchy (n0 n1 n2 k0 k1 k2 n0' n1' n2' k0' k1' k2' a b c : ℝ) (ha : 0 < a) (hab : a < b) (hbc : b < c)
    (h : ∀ l ∈ [a, b, c], cauchyIndex [("n0", n0), ("n1", n1), ("n2", n2), ("k0", k0), ("k1", k1), ("k2", k2)] l =
      cauchyIndex [("n0", n0'), ("n1", n1'), ("n2", n2'), ("k0", k0'), ("k1", k1'), ("k2", k2')] l) :
    (n0, n1, n2, k0, k1, k2) = (n0', n1', n2', k0', k1', k2') := by
  have hv : ∀ l : ℝ, 0 < l → ∀ n0 n1 n2 k0 k1 k2 : ℝ, cauchyIndex [("n0", n0), ("n1", n1), ("n2", n2), ("k0", k0), ("k1", k1), ("k2", k2)] l =
      some (((n0 + 1e2 * n1 / l ^ 2 + 1e7 * n2 / l ^ 4 : ℝ) : ℂ) + I * ((k0 + 1e2 * k1 / l ^ 2 + 1e7 * k2 / l ^ 4 : ℝ) : ℂ)) := by
    intro l hl n0 n1 n2 k0 k1 k2
    simp [cauchyIndex, Dict.get, divN, hl.ne']
  have hs : ∀ l ∈ [a, b, c], 0 < l ∧ n0 - n0' + (1e2 * (n1 - n1')) * (1 / l ^ 2) + (1e7 * (n2 - n2')) * (1 / l ^ 2) ^ 2 = 0 ∧
      k0 - k0' + (1e2 * (k1 - k1')) * (1 / l ^ 2) + (1e7 * (k2 - k2')) * (1 / l ^ 2) ^ 2 = 0 := by
    intro l hl
    have hl0 : 0 < l := by
      simp only [List.mem_cons, List.not_mem_nil, or_false] at hl
      rcases hl with rfl | rfl | rfl <;> linarith
    have h1 := h l hl
    rw [hv l hl0, hv l hl0, Option.some.injEq] at h1
    have hre := congrArg re h1
    have him := congrArg im h1
    simp only [add_re, ofReal_re, mul_re, I_re, zero_mul, ofReal_im, I_im, mul_zero, sub_self, add_zero, add_im, mul_im, one_mul, zero_add] at hre him
    refine ⟨hl0, ?_, ?_⟩
    · have e : (1 / l ^ 2) ^ 2 = 1 / l ^ 4 := by ring
      rw [e]
      linear_combination hre
    · have e : (1 / l ^ 2) ^ 2 = 1 / l ^ 4 := by ring
      rw [e]
      linear_combination him
  have hb : 0 < b := ha.trans hab
  have hlt : ∀ x y : ℝ, 0 < x → x < y → 1 / y ^ 2 < 1 / x ^ 2 := fun x y hx hxy =>
    one_div_lt_one_div_of_lt (by positivity) (pow_lt_pow_left₀ hxy hx.le two_ne_zero)
  have huv := hlt a b ha hab
  have hvw := hlt b c hb hbc
  have quad : ∀ u v w p q r : ℝ, v < u → w < v → p + q * u + r * u ^ 2 = 0 → p + q * v + r * v ^ 2 = 0 → p + q * w + r * w ^ 2 = 0 → p = 0 ∧ q = 0 ∧ r = 0 := by
    intro u v w p q r h1 h2 e1 e2 e3
    have f1 : q + r * (u + v) = 0 := by
      have : (u - v) * (q + r * (u + v)) = 0 := by linear_combination e1 - e2
      exact (mul_eq_zero.1 this).resolve_left (by linarith)
    have f2 : q + r * (v + w) = 0 := by
      have : (v - w) * (q + r * (v + w)) = 0 := by linear_combination e2 - e3
      exact (mul_eq_zero.1 this).resolve_left (by linarith)
    have hr : r = 0 := by
      have : (u - w) * r = 0 := by linear_combination f1 - f2
      exact (mul_eq_zero.1 this).resolve_left (by linarith)
    subst hr
    have hq : q = 0 := by linarith
    subst hq
    exact ⟨by linarith, rfl, rfl⟩
  obtain ⟨-, a1, a2⟩ := hs a (by simp)
  obtain ⟨-, b1, b2⟩ := hs b (by simp)
  obtain ⟨-, c1, c2⟩ := hs c (by simp)
  obtain ⟨p1, p2, p3⟩ := quad _ _ _ _ _ _ huv hvw a1 b1 c1
  obtain ⟨q1, q2, q3⟩ := quad _ _ _ _ _ _ huv hvw a2 b2 c2
  have g : ∀ x y C : ℝ, C ≠ 0 → C * (x - y) = 0 → x = y := fun x y C hC h => sub_eq_zero.1 ((mul_eq_zero.1 h).resolve_left hC)
  simp only [Prod.mk.injEq]
  exact ⟨by linarith, g _ _ _ (by norm_num) p2, g _ _ _ (by norm_num) p3, by linarith, g _ _ _ (by norm_num) q2, g _ _ _ (by norm_num) q3⟩

/-- Non-vacuity of `C162_sellmeier`: two one-term glasses with different amplitudes differ at 500 or 600 nm. -/
example : ¬ ∀ l ∈ ({500, 600} : Finset ℝ), sellmeier [[("A", 1), ("B", 1 / 100)]] l = sellmeier [[("A", 2), ("B", 1 / 100)]] l := by
  intro h
  have h1 := (C162_sellmeier [(1, 1 / 100)] [(2, 1 / 100)] {500, 600} (by simp) (by rw [Finset.card_pair (by norm_num)]; simp) (by
    intro l hl o ho
    simp only [Finset.mem_insert, Finset.mem_singleton] at hl
    simp only [List.cons_append, List.nil_append, List.mem_cons, List.not_mem_nil, or_false] at ho
    rcases hl with rfl | rfl <;> rcases ho with rfl | rfl <;> norm_num)).1 h (1 / 100)
  simp [Spec.totalAt] at h1

/-- Non-vacuity of `C162_lorentz` and `C162_order`: a line at 3 eV and one at 4 eV. -/
example (K : PhysConst) : ¬ ∀ l ∈ ({500, 600} : Finset ℝ), lorentzEnergy K [[("A", 1), ("E", 3), ("gamma", 1)]] l = lorentzEnergy K [[("A", 1), ("E", 4), ("gamma", 1)]] l := by
  intro h
  have h1 := (C162_lorentz K [(1, 3, 1)] [(1, 4, 1)] (by simp; norm_num) {500, 600} (by simp) (by rw [Finset.card_pair (by norm_num)]; simp)).1 h
  have h2 := C162_order [((1 : ℝ), (3 : ℝ), (1 : ℝ))] [(1, 4, 1)] (by simp) (by simp) (by simp) (by simp) h1
  simp at h2

/-- Non-vacuity of `C162_lorentz_lambda`: lines at 300 and at 310 nm. -/
example : ¬ ∀ l ∈ ({500, 600} : Finset ℝ), lorentzLambda [[("A", 1), ("lambda_r", 300), ("gamma", 1)]] l = lorentzLambda [[("A", 1), ("lambda_r", 310), ("gamma", 1)]] l := by
  intro h
  have h1 := (C162_lorentz_lambda [(1, 300, 1)] [(1, 310, 1)] (by simp; norm_num) {500, 600} (by simp) (by rw [Finset.card_pair (by norm_num)]; simp)).1 h
  have h2 := C162_order [((1 : ℝ), (300 : ℝ), (1 : ℝ))] [(1, 310, 1)] (by simp) (by simp) (by simp) (by simp) h1
  simp at h2

/-- Non-vacuity of `C162_drude`. -/
example (K : PhysConst) (g : ℝ) (h : drudeEnergy K [("A", 2), ("gamma", 1 / 10)] 500 = drudeEnergy K [("A", 2), ("gamma", g)] 500) : 1 / 10 = g :=
  (C162_drude K 2 (1 / 10) 2 g 500 (by norm_num) (by norm_num) h).2

/-- Non-vacuity of `C162_urbach_refuted`: a gap of 3 and one of 4 eV. -/
example (K : PhysConst) (l : ℝ) : cauchyUrbachIndex K [("n0", 1.5), ("B", 0), ("C", 0), ("D", 1), ("Eg", 3), ("Eu", 1)] l =
    cauchyUrbachIndex K [("n0", 1.5), ("B", 0), ("C", 0), ("D", 1 * Real.exp (1 / 1)), ("Eg", 3 + 1), ("Eu", 1)] l :=
  C162_urbach_refuted K 1.5 0 0 1 3 1 1 l one_ne_zero

/-- Non-vacuity of `C162_cauchy`. -/
example (n1 : ℝ) (h : ∀ l ∈ [(400 : ℝ), 500, 600], cauchyIndex [("n0", 1.5), ("n1", n1), ("n2", 0), ("k0", 0), ("k1", 0), ("k2", 0)] l =
    cauchyIndex [("n0", 1.5), ("n1", 30), ("n2", 0), ("k0", 0), ("k1", 0), ("k2", 0)] l) : n1 = 30 := by
  have := C162_cauchy _ _ _ _ _ _ _ _ _ _ _ _ 400 500 600 (by norm_num) (by norm_num) (by norm_num) h
  simp only [Prod.mk.injEq] at this
  exact this.2.1

end PyElli
