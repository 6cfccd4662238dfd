import Verif.Spec.PrincipalValue
import Mathlib.Analysis.Calculus.DSlope
import Mathlib.Analysis.SpecialFunctions.Integrals.Basic
import Mathlib.NumberTheory.Harmonic.EulerMascheroni
import Mathlib.Topology.Algebra.Order.Field
import Mathlib.MeasureTheory.Integral.DominatedConvergence

/-!
# Sums over every second grid point (C89)

`2h Σ F(a + jh)` over the `j` of one parity tends to the integral for continuous `F`, and to the principal value for `F(x) = g(x)/(x - w)` if the sum runs over
the points at odd distance from `w`.
-/

namespace PyElli

open Filter Topology MeasureTheory

/-- Sum over the points of one parity. -/
noncomputable def paritySum (F : ℝ → ℝ) (a h : ℝ) (n r : ℕ) : ℝ :=
  ∑ j ∈ Finset.range n, if j % 2 = r then 2 * h * F (a + j * h) else 0

lemma paritySum_step (F : ℝ → ℝ) (a h : ℝ) (n r : ℕ) (hr : r < 2) :
    ∃ j : ℕ, (j = n ∨ j = n + 1) ∧ paritySum F a h (n + 2) r = paritySum F a h n r + 2 * h * F (a + j * h) := by
  unfold paritySum
  rw [Finset.sum_range_succ, Finset.sum_range_succ]
  by_cases h1 : n % 2 = r
  · refine ⟨n, Or.inl rfl, ?_⟩
    rw [if_pos h1, if_neg (by omega), add_zero]
  · refine ⟨n + 1, Or.inr rfl, ?_⟩
    rw [if_neg h1, if_pos (by omega), add_zero]

lemma paritySum_error (F : ℝ → ℝ) (hF : Continuous F) (M e a h : ℝ) (hM : ∀ x, |F x| ≤ M) (hh : 0 < h)
    (he : ∀ x y, |x - y| ≤ 2 * h → |F x - F y| ≤ e) (r : ℕ) (hr : r < 2) (n : ℕ) :
    |paritySum F a h n r - ∫ x in a..(a + n * h), F x| ≤ n * h * e + 3 * h * M := by
  have hM0 : 0 ≤ M := (abs_nonneg _).trans (hM 0)
  have he0 : 0 ≤ e := (abs_nonneg _).trans (he 0 0 (by simpa using hh.le))
  induction n using Nat.twoStepInduction with
  | zero => simp [paritySum]; positivity
  | one =>
    have h1 : |∫ x in a..(a + (1 : ℕ) * h), F x| ≤ M * h := by
      have := intervalIntegral.norm_integral_le_of_norm_le_const (a := a) (b := a + (1 : ℕ) * h) (f := F) (C := M) (fun x _ => hM x)
      simpa [abs_of_pos hh] using this
    have h2 : |paritySum F a h 1 r| ≤ 2 * h * M := by
      unfold paritySum
      simp only [Finset.range_one, Finset.sum_singleton]
      split_ifs
      · rw [abs_mul, abs_of_pos (by positivity)]
        exact mul_le_mul_of_nonneg_left (hM _) (by positivity)
      · simp; positivity
    have h3 := abs_sub (paritySum F a h 1 r) (∫ x in a..(a + (1 : ℕ) * h), F x)
    have h4 : (0 : ℝ) ≤ ((1 : ℕ) : ℝ) * h * e := by positivity
    nlinarith
  | more n ih _ =>
    obtain ⟨j, hj, hs⟩ := paritySum_step F a h n r hr
    have hi : ∀ u v, IntervalIntegrable F volume u v := fun u v => hF.intervalIntegrable u v
    have hadd : (∫ x in a..(a + (n + 2 : ℕ) * h), F x) = (∫ x in a..(a + n * h), F x) + ∫ x in (a + n * h)..(a + (n + 2 : ℕ) * h), F x :=
      (intervalIntegral.integral_add_adjacent_intervals (hi _ _) (hi _ _)).symm
    have hc : 2 * h * F (a + j * h) = ∫ _ in (a + n * h)..(a + (n + 2 : ℕ) * h), F (a + j * h) := by
      rw [intervalIntegral.integral_const, smul_eq_mul]
      push_cast; ring
    have hd : |2 * h * F (a + j * h) - ∫ x in (a + n * h)..(a + (n + 2 : ℕ) * h), F x| ≤ 2 * h * e := by
      rw [hc, ← intervalIntegral.integral_sub (by simp) (hi _ _)]
      have := intervalIntegral.norm_integral_le_of_norm_le_const (a := a + n * h) (b := a + (n + 2 : ℕ) * h)
        (f := fun x => F (a + j * h) - F x) (C := e) (fun x hx => by
          rw [Set.uIoc_of_le (by push_cast; nlinarith)] at hx
          apply he
          have h1 := hx.1
          have h2 := hx.2
          push_cast at h1 h2
          have hj' : (j : ℝ) = n ∨ (j : ℝ) = n + 1 := by
            rcases hj with h | h
            · exact Or.inl (by rw [h])
            · exact Or.inr (by rw [h]; push_cast; rfl)
          rw [abs_le]
          rcases hj' with h | h <;> rw [h] <;> constructor <;> nlinarith)
      refine this.trans (le_of_eq ?_)
      rw [abs_of_nonneg (by push_cast; nlinarith)]
      push_cast; ring
    rw [hs, hadd]
    have : paritySum F a h n r + 2 * h * F (a + j * h) -
        ((∫ x in a..(a + n * h), F x) + ∫ x in (a + n * h)..(a + (n + 2 : ℕ) * h), F x) =
        (paritySum F a h n r - ∫ x in a..(a + n * h), F x) + (2 * h * F (a + j * h) - ∫ x in (a + n * h)..(a + (n + 2 : ℕ) * h), F x) := by ring
    rw [this]
    refine (abs_add_le _ _).trans ((add_le_add ih hd).trans (le_of_eq ?_))
    push_cast
    ring

/-- The parity sums of a continuous function on `[a, b]` tend to its integral. -/
lemma paritySum_tendsto {ι : Type*} {l : Filter ι} (F : ℝ → ℝ) (a b : ℝ) (hab : a < b) (hF : ContinuousOn F (Set.Icc a b)) (n r : ι → ℕ) (h : ι → ℝ)
    (hn : Tendsto n l atTop) (hr : ∀ m, r m < 2) (hh : ∀ m, 0 < h m) (hb : ∀ m, a + ((n m : ℝ) - 1) * h m = b) :
    Tendsto (fun m => paritySum F a (h m) (n m) (r m)) l (𝓝 (∫ x in a..b, F x)) := by
  set G : ℝ → ℝ := Set.IccExtend hab.le (Set.restrict (Set.Icc a b) F) with hG
  have hGc : Continuous G := (continuousOn_iff_continuous_restrict.1 hF).Icc_extend'
  have hGF : ∀ x ∈ Set.Icc a b, G x = F x := fun x hx => by
    rw [hG, Set.IccExtend_of_mem _ _ hx]; rfl
  obtain ⟨M, hM⟩ : ∃ M, ∀ x, |G x| ≤ M := by
    obtain ⟨M, hM⟩ := isCompact_Icc.exists_bound_of_continuousOn hF
    refine ⟨M, fun x => ?_⟩
    rw [hG, Set.IccExtend_apply]
    exact hM _ (Set.projIcc a b hab.le x).2
  have hM0 : 0 ≤ M := (abs_nonneg _).trans (hM 0)
  have hU : UniformContinuous G := by
    have h1 : UniformContinuous (Set.restrict (Set.Icc a b) F) :=
      CompactSpace.uniformContinuous_of_continuous (continuousOn_iff_continuous_restrict.1 hF)
    have h2 : UniformContinuous (Set.projIcc a b hab.le) := by
      refine LipschitzWith.uniformContinuous (K := 1) ?_
      exact LipschitzWith.projIcc hab.le
    exact h1.comp h2
  have hn2 : ∀ᶠ m in l, 2 ≤ n m := hn.eventually_ge_atTop 2
  have hsum : ∀ m, paritySum F a (h m) (n m) (r m) = paritySum G a (h m) (n m) (r m) := by
    intro m
    unfold paritySum
    refine Finset.sum_congr rfl fun j hj => ?_
    split_ifs
    · rw [hGF]
      have hj' : (j : ℝ) ≤ (n m : ℝ) - 1 := by
        have := Finset.mem_range.1 hj
        have : (j : ℝ) + 1 ≤ n m := by exact_mod_cast this
        linarith
      have := hh m
      constructor
      · have : (0 : ℝ) ≤ j * h m := by positivity
        linarith
      · rw [← hb m]
        nlinarith
    · rfl
  have hh0 : Tendsto h l (𝓝 0) := by
    have h1 : Tendsto (fun m => (b - a) / ((n m : ℝ) - 1)) l (𝓝 0) := by
      refine Tendsto.div_atTop tendsto_const_nhds ?_
      exact tendsto_atTop_add_const_right _ _ (tendsto_natCast_atTop_atTop.comp hn)
    refine h1.congr' ?_
    filter_upwards [hn2] with m hm
    have : (2 : ℝ) ≤ n m := by exact_mod_cast hm
    have h3 : (n m : ℝ) - 1 ≠ 0 := by linarith
    have := hb m
    field_simp
    linarith
  have hint : (∫ x in a..b, F x) = ∫ x in a..b, G x := by
    refine intervalIntegral.integral_congr fun x hx => ?_
    rw [Set.uIcc_of_le hab.le] at hx
    exact (hGF x hx).symm
  simp only [hsum, hint]
  rw [Metric.tendsto_nhds]
  intro e he
  obtain ⟨d, hd, hd'⟩ := Metric.uniformContinuous_iff.1 hU (e / (4 * (b - a + 1))) (by have : 0 < b - a + 1 := by linarith
                                                                                       positivity)
  have hs : ∀ᶠ m in l, h m < min (min (d / 4) 1) (e / (8 * (M + 1))) := by
    refine hh0.eventually_lt_const ?_
    have : 0 < M + 1 := by linarith
    positivity
  filter_upwards [hs] with m hm
  have hm1 : h m < d / 4 := hm.trans_le ((min_le_left _ _).trans (min_le_left _ _))
  have hm2 : h m < 1 := hm.trans_le ((min_le_left _ _).trans (min_le_right _ _))
  have hm3 : h m < e / (8 * (M + 1)) := hm.trans_le (min_le_right _ _)
  have hpos := hh m
  have key := paritySum_error G hGc M (e / (4 * (b - a + 1))) a (h m) hM hpos (fun x y hxy => by
    have := hd' (a := x) (b := y) (by rw [Real.dist_eq]; linarith)
    rw [Real.dist_eq] at this
    exact this.le) (r m) (hr m) (n m)
  have hend : a + (n m) * h m = b + h m := by linarith [hb m]
  rw [hend] at key
  have hadd : (∫ x in a..(b + h m), G x) = (∫ x in a..b, G x) + ∫ x in b..(b + h m), G x :=
    (intervalIntegral.integral_add_adjacent_intervals (hGc.intervalIntegrable _ _) (hGc.intervalIntegrable _ _)).symm
  have hlast : |∫ x in b..(b + h m), G x| ≤ M * h m := by
    have := intervalIntegral.norm_integral_le_of_norm_le_const (a := b) (b := b + h m) (f := G) (C := M) (fun x _ => hM x)
    simpa [abs_of_pos hpos] using this
  rw [Real.dist_eq]
  have hw : (n m : ℝ) * h m ≤ b - a + 1 := by linarith [hb m]
  have hq : (n m : ℝ) * h m * (e / (4 * (b - a + 1))) ≤ e / 4 := by
    have : 0 < b - a + 1 := by linarith
    calc _ ≤ (b - a + 1) * (e / (4 * (b - a + 1))) := mul_le_mul_of_nonneg_right hw (by positivity)
      _ = e / 4 := by field_simp
  have hq2 : 4 * h m * M ≤ e / 2 := by
    have hp : 0 < M + 1 := by linarith
    rw [lt_div_iff₀ (by positivity)] at hm3
    nlinarith
  rw [hadd] at key
  have e1 : paritySum G a (h m) (n m) (r m) - ∫ x in a..b, G x =
      (paritySum G a (h m) (n m) (r m) - ((∫ x in a..b, G x) + ∫ x in b..(b + h m), G x)) + ∫ x in b..(b + h m), G x := by ring
  rw [e1]
  refine (abs_add_le _ _).trans_lt ?_
  linarith

/-! ## The odd harmonic numbers -/

/-- `Σ 2/k` over the odd `k < p`. -/
noncomputable def oddHarm (p : ℕ) : ℝ := ∑ k ∈ Finset.range p, if k % 2 = 1 then 2 / (k : ℝ) else 0

lemma oddHarm_even (L : ℕ) : oddHarm (2 * L) = 2 * (harmonic (2 * L) : ℝ) - (harmonic L : ℝ) := by
  induction L with
  | zero => simp [oddHarm]
  | succ L ih =>
    have e : 2 * (L + 1) = 2 * L + 1 + 1 := by ring
    rw [e, harmonic_succ, harmonic_succ, harmonic_succ]
    unfold oddHarm at ih ⊢
    rw [Finset.sum_range_succ, Finset.sum_range_succ, ih, if_neg (by omega), if_pos (by omega)]
    push_cast
    have h1 : (L : ℝ) + 1 ≠ 0 := by positivity
    have h2 : (2 : ℝ) * L + 1 ≠ 0 := by positivity
    field_simp
    ring

lemma oddHarm_odd (L : ℕ) : oddHarm (2 * L + 1) = oddHarm (2 * L) := by
  unfold oddHarm
  rw [Finset.sum_range_succ, if_neg (by omega), add_zero]

lemma oddHarm_half (p : ℕ) : oddHarm p = 2 * (harmonic (2 * (p / 2)) : ℝ) - (harmonic (p / 2) : ℝ) := by
  rw [← oddHarm_even]
  rcases Nat.mod_two_eq_zero_or_one p with h | h
  · congr 1; omega
  · rw [← oddHarm_odd]; congr 1; omega

lemma oddHarm_asymp : ∃ c, Tendsto (fun p : ℕ => oddHarm p - Real.log p) atTop (𝓝 c) := by
  have hp : Tendsto (fun p : ℕ => p / 2) atTop atTop := Nat.tendsto_div_const_atTop (by norm_num)
  have hp2 : Tendsto (fun p : ℕ => 2 * (p / 2)) atTop atTop := hp.const_mul_atTop' (by norm_num)
  have t1 := Real.tendsto_harmonic_sub_log.comp hp2
  have t2 := Real.tendsto_harmonic_sub_log.comp hp
  have hr : Tendsto (fun p : ℕ => ((2 * (p / 2) : ℕ) : ℝ) / p) atTop (𝓝 1) := by
    refine tendsto_of_tendsto_of_tendsto_of_le_of_le' (g := fun p : ℕ => 1 - 1 / (p : ℝ)) (h := fun _ => 1) ?_ tendsto_const_nhds ?_ ?_
    · simpa using tendsto_const_nhds.sub (tendsto_one_div_atTop_nhds_zero_nat (𝕜 := ℝ))
    · filter_upwards [eventually_ge_atTop 1] with p hp
      have : (p : ℝ) ≤ ((2 * (p / 2) : ℕ) : ℝ) + 1 := by exact_mod_cast (by omega : p ≤ 2 * (p / 2) + 1)
      have h0 : (0 : ℝ) < p := by exact_mod_cast hp
      rw [le_div_iff₀ h0]
      field_simp
      linarith
    · filter_upwards [eventually_ge_atTop 1] with p hp
      have : ((2 * (p / 2) : ℕ) : ℝ) ≤ p := by exact_mod_cast (by omega : 2 * (p / 2) ≤ p)
      have h0 : (0 : ℝ) < p := by exact_mod_cast hp
      rw [div_le_one h0]; exact this
  have hl : Tendsto (fun p : ℕ => Real.log (((2 * (p / 2) : ℕ) : ℝ) / p)) atTop (𝓝 0) := by
    have := (Real.continuousAt_log (x := 1) one_ne_zero).tendsto.comp hr
    rw [Real.log_one] at this
    exact this
  refine ⟨_, (((t1.const_mul 2).sub t2).add (hl.add_const (Real.log 2))).congr' ?_⟩
  filter_upwards [eventually_ge_atTop 2] with p hp
  have h1 : (0 : ℝ) < (p / 2 : ℕ) := by exact_mod_cast (by omega : 0 < p / 2)
  have h0 : (0 : ℝ) < p := by exact_mod_cast (by omega : 0 < p)
  simp only [Function.comp, oddHarm_half p]
  push_cast
  rw [Real.log_div (by positivity) h0.ne', Real.log_mul (by norm_num) h1.ne']
  ring

/-- Sum of `2/(j - i)` over the points at odd distance. -/
lemma sum_inv_odd (n i : ℕ) (hi : i < n) :
    (∑ j ∈ Finset.range n, if j % 2 = (i + 1) % 2 then 2 / ((j : ℝ) - i) else 0) = oddHarm (n - i) - oddHarm (i + 1) := by
  have e : n = i + (n - i) := by omega
  have hsplit : (∑ j ∈ Finset.range n, if j % 2 = (i + 1) % 2 then 2 / ((j : ℝ) - i) else 0) =
      (∑ j ∈ Finset.range i, if j % 2 = (i + 1) % 2 then 2 / ((j : ℝ) - i) else 0) +
      ∑ k ∈ Finset.range (n - i), if (i + k) % 2 = (i + 1) % 2 then 2 / (((i + k : ℕ) : ℝ) - i) else 0 := by
    conv_lhs => rw [e]
    rw [Finset.sum_range_add]
  rw [hsplit]
  have h1 : (∑ k ∈ Finset.range (n - i), if (i + k) % 2 = (i + 1) % 2 then 2 / (((i + k : ℕ) : ℝ) - i) else 0) = oddHarm (n - i) := by
    refine Finset.sum_congr rfl fun k _ => ?_
    have : ((i + k) % 2 = (i + 1) % 2) ↔ k % 2 = 1 := by omega
    simp only [this]
    push_cast
    simp
  have h2 : (∑ j ∈ Finset.range i, if j % 2 = (i + 1) % 2 then 2 / ((j : ℝ) - i) else 0) = - oddHarm (i + 1) := by
    rw [← Finset.sum_range_reflect]
    unfold oddHarm
    rw [Finset.sum_range_succ']
    simp only [Nat.zero_mod, zero_ne_one, if_false, add_zero]
    rw [← Finset.sum_neg_distrib]
    refine Finset.sum_congr rfl fun k hk => ?_
    have hk' := Finset.mem_range.1 hk
    have : ((i - 1 - k) % 2 = (i + 1) % 2) ↔ (k + 1) % 2 = 1 := by omega
    simp only [this]
    split_ifs
    · have e2 : ((i - 1 - k : ℕ) : ℝ) = (i : ℝ) - (k + 1 : ℕ) := by
        rw [show i - 1 - k = i - (k + 1) by omega, Nat.cast_sub (by omega)]
      rw [e2, show (i : ℝ) - (k + 1 : ℕ) - i = -((k + 1 : ℕ) : ℝ) by ring, div_neg]
    · simp
  rw [h1, h2]; ring

/-! ## Principal values -/

lemma grid_pos {a b w h : ℝ} {n i : ℕ} (haw : a < w) (hwb : w < b) (hh : 0 < h) (hb : a + ((n : ℝ) - 1) * h = b) (hw : a + i * h = w) :
    1 ≤ i ∧ i < n := by
  constructor
  · by_contra h0
    have : i = 0 := by omega
    subst this
    simp at hw
    linarith
  · by_contra h0
    have h1 : (n : ℝ) ≤ i := by exact_mod_cast (not_lt.1 h0)
    nlinarith

lemma inv_sum_tendsto {ι : Type*} {l : Filter ι} (a w b : ℝ) (haw : a < w) (hwb : w < b) (n i : ι → ℕ) (h : ι → ℝ) (hn : Tendsto n l atTop)
    (hh : ∀ m, 0 < h m) (hb : ∀ m, a + ((n m : ℝ) - 1) * h m = b) (hw : ∀ m, a + i m * h m = w) :
    Tendsto (fun m => oddHarm (n m - i m) - oddHarm (i m + 1)) l (𝓝 (Real.log ((b - w) / (w - a)))) := by
  obtain ⟨c, hc⟩ := oddHarm_asymp
  have hin : ∀ m, 1 ≤ i m ∧ i m < n m := fun m => grid_pos haw hwb (hh m) (hb m) (hw m)
  have hi : ∀ᶠ m in l, 2 ≤ n m := hn.eventually_ge_atTop 2
  have hn1 : Tendsto (fun m => (n m : ℝ) - 1) l atTop :=
    tendsto_atTop_add_const_right _ _ (tendsto_natCast_atTop_atTop.comp hn)
  have hir : ∀ m, (i m : ℝ) = (w - a) / (b - a) * ((n m : ℝ) - 1) := fun m => by
    have h1 := hb m
    have h2 := hw m
    have h3 : b - a ≠ 0 := by linarith
    have h4 := (hh m).ne'
    have e1 : b - a = ((n m : ℝ) - 1) * h m := by linarith
    have e2 : w - a = i m * h m := by linarith
    rw [div_mul_eq_mul_div, eq_div_iff h3, e1, e2]
    ring
  have hit : Tendsto (fun m => (i m : ℝ)) l atTop := by
    simp only [hir]
    exact hn1.const_mul_atTop (div_pos (by linarith) (by linarith))
  have hqt : Tendsto (fun m => ((n m - i m : ℕ) : ℝ)) l atTop := by
    have : ∀ m, ((n m - i m : ℕ) : ℝ) = (b - w) / (b - a) * ((n m : ℝ) - 1) + 1 := fun m => by
      rw [Nat.cast_sub (hin m).2.le, hir m]
      have h3 : b - a ≠ 0 := by linarith
      field_simp
      ring
    simp only [this]
    exact tendsto_atTop_add_const_right _ _ (hn1.const_mul_atTop (div_pos (by linarith) (by linarith)))
  have hq' : Tendsto (fun m => n m - i m) l atTop := tendsto_natCast_atTop_iff.1 hqt
  have hi' : Tendsto (fun m => i m + 1) l atTop := by
    refine (tendsto_natCast_atTop_iff (R := ℝ)).1 ?_
    push_cast
    exact tendsto_atTop_add_const_right _ _ hit
  have t := (hc.comp hq').sub (hc.comp hi')
  rw [sub_self] at t
  have hratio : Tendsto (fun m => ((n m - i m : ℕ) : ℝ) / ((i m + 1 : ℕ) : ℝ)) l (𝓝 ((b - w) / (w - a))) := by
    have e : ∀ᶠ m in l, (((b - w) / (b - a) + ((n m : ℝ) - 1)⁻¹) / ((w - a) / (b - a) + ((n m : ℝ) - 1)⁻¹)) = ((n m - i m : ℕ) : ℝ) / ((i m + 1 : ℕ) : ℝ) := by
      filter_upwards [hi] with m hm
      have h2 : (2 : ℝ) ≤ n m := by exact_mod_cast hm
      have h3 : (0 : ℝ) < (n m : ℝ) - 1 := by linarith
      have h4 : b - a ≠ 0 := by linarith
      rw [Nat.cast_sub (hin m).2.le, Nat.cast_add, hir m]
      have h5 : (0 : ℝ) < (w - a) / (b - a) := div_pos (by linarith) (by linarith)
      have h6 : (w - a) / (b - a) + ((n m : ℝ) - 1)⁻¹ ≠ 0 := by positivity
      have h7 : (w - a) / (b - a) * ((n m : ℝ) - 1) + ((1 : ℕ) : ℝ) ≠ 0 := by positivity
      rw [div_eq_div_iff h6 h7]
      have h8 : (b - w) / (b - a) = 1 - (w - a) / (b - a) := by field_simp; ring
      rw [h8]
      generalize (w - a) / (b - a) = t
      field_simp
      push_cast
      ring
    refine Tendsto.congr' e ?_
    have h0 : Tendsto (fun m => ((n m : ℝ) - 1)⁻¹) l (𝓝 0) := tendsto_inv_atTop_zero.comp hn1
    have h4 : b - a ≠ 0 := by linarith
    have h5 : w - a ≠ 0 := by linarith
    have := (h0.const_add ((b - w) / (b - a))).div (h0.const_add ((w - a) / (b - a))) (by rw [add_zero]; exact div_ne_zero h5 h4)
    rw [add_zero, add_zero, div_div_div_cancel_right₀ h4] at this
    exact this
  have hpos : (b - w) / (w - a) ≠ 0 := (div_pos (by linarith) (by linarith)).ne'
  have tl := (Real.continuousAt_log hpos).tendsto.comp hratio
  have := t.add tl
  rw [zero_add] at this
  refine this.congr fun m => ?_
  have h1 : ((n m - i m : ℕ) : ℝ) ≠ 0 := by
    have := (hin m).2
    exact_mod_cast (by omega : n m - i m ≠ 0)
  have h2 : ((i m + 1 : ℕ) : ℝ) ≠ 0 := by positivity
  simp only [Function.comp]
  rw [Real.log_div h1 h2]
  ring

/-- The integral with a gap `(w - c, w + d)`. -/
noncomputable def gapInt (F : ℝ → ℝ) (a w b c d : ℝ) : ℝ := (∫ x in a..(w - c), F x) + ∫ x in (w + d)..b, F x

lemma gap_inv (a w b c d : ℝ) (hc0 : 0 < c) (hd0 : 0 < d) (hc : c < w - a) (hd : d < b - w) :
    gapInt (fun x => 1 / (x - w)) a w b c d = Real.log ((b - w) / (w - a)) + Real.log (c / d) := by
  unfold gapInt
  have e1 : (∫ x in a..(w - c), 1 / (x - w)) = ∫ x in (a - w)..(w - c - w), 1 / x :=
    intervalIntegral.integral_comp_sub_right (fun x => 1 / x) w
  have e2 : (∫ x in (w + d)..b, 1 / (x - w)) = ∫ x in (w + d - w)..(b - w), 1 / x :=
    intervalIntegral.integral_comp_sub_right (fun x => 1 / x) w
  rw [e1, e2, integral_one_div_of_neg (by linarith) (by linarith), integral_one_div_of_pos (by linarith) (by linarith)]
  rw [show (w - c - w) / (a - w) = c / (w - a) by rw [← neg_div_neg_eq]; congr 1 <;> ring, show w + d - w = d by ring]
  rw [Real.log_div (by linarith) (by linarith), Real.log_div (by linarith) (by linarith), Real.log_div (by linarith) (by linarith),
    Real.log_div (by linarith) (by linarith)]
  ring

lemma gap_smooth {ι : Type*} {l : Filter ι} (F : ℝ → ℝ) (a w b : ℝ) (haw : a < w) (hwb : w < b) (hF : ContinuousOn F (Set.Icc a b)) (c d : ι → ℝ)
    (hc : Tendsto c l (𝓝 0)) (hd : Tendsto d l (𝓝 0)) (hc0 : ∀ᶠ m in l, 0 < c m) (hd0 : ∀ᶠ m in l, 0 < d m) :
    Tendsto (fun m => gapInt F a w b (c m) (d m)) l (𝓝 (∫ x in a..b, F x)) := by
  unfold gapInt
  have hab : a ≤ b := by linarith
  set G : ℝ → ℝ := Set.IccExtend hab (Set.restrict (Set.Icc a b) F) with hG
  have hGc : Continuous G := (continuousOn_iff_continuous_restrict.1 hF).Icc_extend'
  have hGF : ∀ x ∈ Set.Icc a b, G x = F x := fun x hx => by
    rw [hG, Set.IccExtend_of_mem _ _ hx]; rfl
  have hint : (∫ x in a..b, F x) = ∫ x in a..b, G x := by
    refine intervalIntegral.integral_congr fun x hx => ?_
    rw [Set.uIcc_of_le hab] at hx
    exact (hGF x hx).symm
  have c1 : Continuous fun c : ℝ => ∫ x in a..(w - c), G x :=
    (intervalIntegral.continuous_primitive (μ := volume) (f := G) (fun u v => hGc.intervalIntegrable u v) a).comp (continuous_const.sub continuous_id)
  have c2 : Continuous fun d : ℝ => ∫ x in (w + d)..b, G x := by
    have := (intervalIntegral.continuous_primitive (μ := volume) (f := G) (fun u v => hGc.intervalIntegrable u v) b).comp ((continuous_const (y := w)).add continuous_id)
    refine this.neg.congr fun d => ?_
    exact (intervalIntegral.integral_symm _ _).symm
  have ht := ((c1.tendsto 0).comp hc).add ((c2.tendsto 0).comp hd)
  have h0 : (∫ x in a..(w - 0), G x) + (∫ x in (w + 0)..b, G x) = ∫ x in a..b, F x := by
    rw [sub_zero, add_zero, hint]
    exact intervalIntegral.integral_add_adjacent_intervals (hGc.intervalIntegrable _ _) (hGc.intervalIntegrable _ _)
  rw [h0] at ht
  refine ht.congr' ?_
  filter_upwards [hc.eventually_lt_const (show 0 < w - a by linarith), hd.eventually_lt_const (show 0 < b - w by linarith), hc0, hd0] with m h1 h2 h3 h4
  congr 1
  · refine intervalIntegral.integral_congr fun x hx => ?_
    rw [Set.uIcc_of_le (by linarith)] at hx
    exact hGF x ⟨hx.1, by linarith [hx.2]⟩
  · refine intervalIntegral.integral_congr fun x hx => ?_
    rw [Set.uIcc_of_le (by linarith)] at hx
    exact hGF x ⟨by linarith [hx.1], hx.2⟩

/-- `g x / (x - w)` away from `w`. -/
lemma dslope_split (g : ℝ → ℝ) (w x : ℝ) (hx : x ≠ w) : g x / (x - w) = dslope g w x + g w * (1 / (x - w)) := by
  rw [dslope_of_ne _ hx, slope_def_field]
  have : x - w ≠ 0 := sub_ne_zero.2 hx
  field_simp
  ring

/-- Value of the principal value integral of `g x / (x - w)`. -/
noncomputable def pvVal (g : ℝ → ℝ) (a w b : ℝ) : ℝ := (∫ x in a..b, dslope g w x) + g w * Real.log ((b - w) / (w - a))

/-- Also with a gap that is symmetric only in the limit. -/
lemma pv_gap {ι : Type*} {l : Filter ι} (g : ℝ → ℝ) (a w b : ℝ) (haw : a < w) (hwb : w < b) (hg : ContinuousOn g (Set.Icc a b)) (hd : DifferentiableAt ℝ g w)
    (c d : ι → ℝ) (hc : Tendsto c l (𝓝 0)) (hdd : Tendsto d l (𝓝 0)) (hc0 : ∀ᶠ m in l, 0 < c m) (hd0 : ∀ᶠ m in l, 0 < d m)
    (hcd : Tendsto (fun m => c m / d m) l (𝓝 1)) :
    Tendsto (fun m => gapInt (fun x => g x / (x - w)) a w b (c m) (d m)) l (𝓝 (pvVal g a w b)) := by
  have hcont : ContinuousOn (dslope g w) (Set.Icc a b) := (continuousOn_dslope (Icc_mem_nhds haw hwb)).2 ⟨hg, hd⟩
  have hl : Tendsto (fun m => Real.log (c m / d m)) l (𝓝 0) := by
    have := (Real.continuousAt_log (x := 1) one_ne_zero).tendsto.comp hcd
    rw [Real.log_one] at this
    exact this
  have t := (gap_smooth _ a w b haw hwb hcont c d hc hdd hc0 hd0).add ((hl.const_add (Real.log ((b - w) / (w - a)))).const_mul (g w))
  rw [add_zero] at t
  refine t.congr' ?_
  filter_upwards [hc.eventually_lt_const (show 0 < w - a by linarith), hdd.eventually_lt_const (show 0 < b - w by linarith), hc0, hd0] with m h1 h2 h3 h4
  rw [← gap_inv a w b (c m) (d m) h3 h4 h1 h2]
  unfold gapInt
  have piece : ∀ u v, u ≤ v → a ≤ u → v ≤ b → (∀ x ∈ Set.Icc u v, x ≠ w) →
      (∫ x in u..v, g x / (x - w)) = (∫ x in u..v, dslope g w x) + g w * ∫ x in u..v, 1 / (x - w) := by
    intro u v huv hu hv hne
    rw [← intervalIntegral.integral_const_mul, ← intervalIntegral.integral_add]
    · refine intervalIntegral.integral_congr fun x hx => ?_
      rw [Set.uIcc_of_le huv] at hx
      exact dslope_split g w x (hne x hx)
    · refine ContinuousOn.intervalIntegrable ?_
      rw [Set.uIcc_of_le huv]
      exact hcont.mono (Set.Icc_subset_Icc hu hv)
    · refine ContinuousOn.intervalIntegrable ?_
      rw [Set.uIcc_of_le huv]
      refine continuousOn_const.mul (continuousOn_const.div (continuousOn_id.sub continuousOn_const) ?_)
      exact fun x hx => sub_ne_zero.2 (hne x hx)
  rw [piece a (w - c m) (by linarith) le_rfl (by linarith) (fun x hx => by have := hx.2; exact ne_of_lt (by linarith)),
    piece (w + d m) b (by linarith) (by linarith) le_rfl (fun x hx => by have := hx.1; exact ne_of_gt (by linarith))]
  ring

lemma pv_isPV (g : ℝ → ℝ) (a w b : ℝ) (haw : a < w) (hwb : w < b) (hg : ContinuousOn g (Set.Icc a b)) (hd : DifferentiableAt ℝ g w) :
    Spec.IsPV (fun x => g x / (x - w)) a w b (pvVal g a w b) := by
  have hp : ∀ᶠ d in 𝓝[>] (0 : ℝ), 0 < d := eventually_mem_nhdsWithin
  refine pv_gap g a w b haw hwb hg hd (fun d => d) (fun d => d) nhdsWithin_le_nhds nhdsWithin_le_nhds hp hp ?_
  refine tendsto_const_nhds.congr' ?_
  filter_upwards [hp] with d h
  exact (div_self h.ne').symm

lemma pv_grid (g : ℝ → ℝ) (a w b : ℝ) (haw : a < w) (hwb : w < b) (hg : ContinuousOn g (Set.Icc a b)) (hd : DifferentiableAt ℝ g w)
    {ι : Type*} {l : Filter ι} (n i : ι → ℕ) (h : ι → ℝ) (hn : Tendsto n l atTop) (hh : ∀ m, 0 < h m) (hb : ∀ m, a + ((n m : ℝ) - 1) * h m = b)
    (hw : ∀ m, a + i m * h m = w) :
    Tendsto (fun m => 2 * h m * ∑ j ∈ Finset.range (n m), if j % 2 ≠ i m % 2 then g (a + j * h m) / (a + j * h m - w) else 0) l
      (𝓝 (pvVal g a w b)) := by
  have hcont : ContinuousOn (dslope g w) (Set.Icc a b) := (continuousOn_dslope (Icc_mem_nhds haw hwb)).2 ⟨hg, hd⟩
  have t := (paritySum_tendsto (dslope g w) a b (haw.trans hwb) hcont n (fun m => (i m + 1) % 2) h hn (fun m => Nat.mod_lt _ (by norm_num)) hh hb).add
    ((inv_sum_tendsto a w b haw hwb n i h hn hh hb hw).const_mul (g w))
  refine t.congr fun m => ?_
  rw [← sum_inv_odd _ _ (grid_pos haw hwb (hh m) (hb m) (hw m)).2]
  unfold paritySum
  rw [Finset.mul_sum, Finset.mul_sum, ← Finset.sum_add_distrib]
  refine Finset.sum_congr rfl fun j _ => ?_
  have hpar : (j % 2 = (i m + 1) % 2) ↔ j % 2 ≠ i m % 2 := by omega
  simp only [hpar]
  split_ifs with hj
  · have hne : (j : ℝ) - i m ≠ 0 := by
      intro h0
      apply hj
      have : j = i m := by exact_mod_cast sub_eq_zero.1 h0
      rw [this]
    have hx : a + j * h m - w = ((j : ℝ) - i m) * h m := by rw [← hw m]; ring
    have hh' := (hh m).ne'
    have hxw : a + j * h m ≠ w := by
      intro h0
      rw [h0, sub_self] at hx
      exact (mul_ne_zero hne hh') hx.symm
    rw [dslope_split g w _ hxw, hx]
    field_simp
  · simp

end PyElli
