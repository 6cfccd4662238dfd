import Verif.Model.Rounding
import Mathlib.Algebra.Order.Round
import Mathlib.Data.Int.Log
import Mathlib.Order.Interval.Set.Infinite
import Mathlib.Data.Set.Finite.Lattice
import Mathlib.Order.Interval.Finset.Defs
import Mathlib.Data.Int.Interval

/-! # Rounding to a nearest double -/

namespace PyElli

lemma two_zpow_pos (e : ℤ) : (0 : ℝ) < 2 ^ e := by positivity

lemma round_le_round {x y : ℝ} (h : x ≤ y) : round x ≤ round y := by
  rw [round_eq, round_eq]
  exact Int.floor_le_floor (by linarith)

lemma isDouble_intCast {n : ℤ} (h : |n| ≤ 2 ^ 53) : IsDouble (n : ℝ) := ⟨n, 0, h, by norm_num, by simp⟩

lemma isDouble_zero : IsDouble 0 := by simpa using isDouble_intCast (n := 0) (by norm_num)

lemma isDouble_natCast {n : ℕ} (h : n ≤ 2 ^ 53) : IsDouble (n : ℝ) := by
  have := isDouble_intCast (n := n) (by rw [abs_of_nonneg (by positivity)]; exact_mod_cast h)
  simpa using this

lemma isDouble_neg {x : ℝ} (h : IsDouble x) : IsDouble (-x) := by
  obtain ⟨m, e, hm, he, rfl⟩ := h
  exact ⟨-m, e, by rwa [abs_neg], he, by push_cast; ring⟩

/-- Doubles are whole multiples of the smallest one. -/
lemma isDouble_multiple {x : ℝ} (h : IsDouble x) : ∃ n : ℤ, x = n * 2 ^ (-1074 : ℤ) := by
  obtain ⟨m, e, hm, he, rfl⟩ := h
  obtain ⟨k, hk⟩ := Int.eq_ofNat_of_zero_le (show 0 ≤ e + 1074 by linarith)
  refine ⟨m * 2 ^ k, ?_⟩
  rw [show e = (k : ℤ) + -1074 by linarith, zpow_add₀ (by norm_num)]
  push_cast
  simp only [zpow_natCast]
  ring

/-- Small multiples of the smallest double are doubles. -/
lemma isDouble_of_multiple {n : ℤ} (h : |(n : ℝ) * 2 ^ (-1074 : ℤ)| ≤ 2 ^ (-1021 : ℤ)) : IsDouble ((n : ℝ) * 2 ^ (-1074 : ℤ)) := by
  refine ⟨n, -1074, ?_, le_refl _, rfl⟩
  rw [abs_mul, abs_of_pos (two_zpow_pos _)] at h
  have h2 : (2 : ℝ) ^ (-1021 : ℤ) = 2 ^ (53 : ℕ) * 2 ^ (-1074 : ℤ) := by
    rw [← zpow_natCast, ← zpow_add₀ (by norm_num)]
    norm_num
  rw [h2] at h
  have := le_of_mul_le_mul_right h (two_zpow_pos _)
  exact_mod_cast this

namespace Rounding

variable (R : Rounding)

lemma rd_of_double {x : ℝ} (h : IsDouble x) : R.rd x = x := by
  have := R.nearest x x h
  rw [sub_self, abs_zero] at this
  linarith [abs_eq_zero.1 (le_antisymm this (abs_nonneg _))]

lemma rd_zero : R.rd 0 = 0 := R.rd_of_double isDouble_zero

lemma rd_mono {x y : ℝ} (h : x ≤ y) : R.rd x ≤ R.rd y := by
  rcases h.eq_or_lt with rfl | h
  · exact le_refl _
  by_contra hc
  push Not at hc
  have h1 := R.nearest x (R.rd y) (R.double y)
  have h2 := R.nearest y (R.rd x) (R.double x)
  rcases abs_cases (R.rd x - x) with ⟨a, a'⟩ | ⟨a, a'⟩ <;> rcases abs_cases (R.rd y - x) with ⟨b, b'⟩ | ⟨b, b'⟩ <;>
    rcases abs_cases (R.rd y - y) with ⟨c, c'⟩ | ⟨c, c'⟩ <;> rcases abs_cases (R.rd x - y) with ⟨d, d'⟩ | ⟨d, d'⟩ <;> linarith

lemma rd_le {x b : ℝ} (hb : IsDouble b) (h : x ≤ b) : R.rd x ≤ b := by
  have := R.rd_mono h
  rwa [R.rd_of_double hb] at this

lemma le_rd {x b : ℝ} (hb : IsDouble b) (h : b ≤ x) : b ≤ R.rd x := by
  have := R.rd_mono h
  rwa [R.rd_of_double hb] at this

lemma rd_nonneg {x : ℝ} (h : 0 ≤ x) : 0 ≤ R.rd x := R.le_rd isDouble_zero h

/-- Absolute error: half a unit in the last place. -/
lemma rd_abs {x : ℝ} {e : ℤ} (he : -1074 ≤ e) (hx : |x| ≤ 2 ^ (53 + e)) : |R.rd x - x| ≤ 2 ^ (e - 1) := by
  have h0 := two_zpow_pos e
  have hm : |round (x / 2 ^ e)| ≤ 2 ^ 53 := by
    rw [zpow_add₀ (by norm_num)] at hx
    have h1 : |x / 2 ^ e| ≤ 2 ^ 53 := by
      rw [abs_div, abs_of_pos h0, div_le_iff₀ h0]
      exact_mod_cast hx
    rw [abs_le] at h1 ⊢
    constructor
    · have : ((-(2 ^ 53) : ℤ) : ℝ) ≤ x / 2 ^ e := by push_cast; linarith
      have := round_le_round this
      rwa [round_intCast] at this
    · have : x / 2 ^ e ≤ ((2 ^ 53 : ℤ) : ℝ) := by push_cast; linarith
      have := round_le_round this
      rwa [round_intCast] at this
  have hd : IsDouble ((round (x / 2 ^ e) : ℝ) * 2 ^ e) := ⟨_, e, hm, he, rfl⟩
  refine (R.nearest x _ hd).trans ?_
  have h2 := abs_sub_round (x / 2 ^ e)
  have h3 : (round (x / 2 ^ e) : ℝ) * 2 ^ e - x = -((x / 2 ^ e - round (x / 2 ^ e)) * 2 ^ e) := by
    field_simp
    ring
  rw [h3, abs_neg, abs_mul, abs_of_pos h0, zpow_sub_one₀ (by norm_num)]
  have := mul_le_mul_of_nonneg_right h2 h0.le
  linarith

/-- Relative error of a rounding: one unit of `2⁻⁵³` unless the number is subnormal. -/
lemma rd_rel {x : ℝ} (hx : 2 ^ (-1022 : ℤ) ≤ |x|) : |R.rd x - x| ≤ 2 ^ (-53 : ℤ) * |x| := by
  have hx0 : 0 < |x| := lt_of_lt_of_le (two_zpow_pos _) hx
  set l := Int.log 2 |x| with hl
  have h1 : (2 : ℝ) ^ l ≤ |x| := by exact_mod_cast Int.zpow_log_le_self (b := 2) (by norm_num) hx0
  have h2 : |x| < 2 ^ (l + 1) := by exact_mod_cast Int.lt_zpow_succ_log_self (b := 2) (by norm_num) |x|
  have h3 : -1022 ≤ l := by
    have : (2 : ℝ) ^ (-1022 : ℤ) < 2 ^ (l + 1) := lt_of_le_of_lt hx h2
    have := (zpow_lt_zpow_iff_right₀ (by norm_num : (1 : ℝ) < 2)).1 this
    linarith
  refine (R.rd_abs (e := l - 52) (by linarith) (by rw [show 53 + (l - 52) = l + 1 by ring]; exact h2.le)).trans ?_
  rw [show l - 52 - 1 = -53 + l by ring, zpow_add₀ (by norm_num)]
  exact mul_le_mul_of_nonneg_left h1 (two_zpow_pos _).le

/-- The difference of two doubles has the relative error in any case. -/
lemma rd_sub_rel {x y : ℝ} (hx : IsDouble x) (hy : IsDouble y) : |R.rd (x - y) - (x - y)| ≤ 2 ^ (-53 : ℤ) * |x - y| := by
  rcases le_or_gt (2 ^ (-1022 : ℤ)) |x - y| with h | h
  · exact R.rd_rel h
  · obtain ⟨n, hn⟩ := isDouble_multiple hx
    obtain ⟨m, hm⟩ := isDouble_multiple hy
    have e : x - y = ((n - m : ℤ) : ℝ) * 2 ^ (-1074 : ℤ) := by rw [hn, hm]; push_cast; ring
    have hd : IsDouble (x - y) := by
      rw [e]
      apply isDouble_of_multiple
      rw [← e]
      exact h.le.trans (zpow_le_zpow_right₀ (by norm_num) (by norm_num))
    rw [R.rd_of_double hd, sub_self, abs_zero]
    positivity

/-- The standard model of arithmetic. -/
lemma rd_factor {x : ℝ} (hx : 2 ^ (-1022 : ℤ) ≤ |x|) : ∃ δ : ℝ, |δ| ≤ 2 ^ (-53 : ℤ) ∧ R.rd x = x * (1 + δ) := by
  have hx0 : x ≠ 0 := fun h => by
    rw [h, abs_zero] at hx
    linarith [two_zpow_pos (-1022)]
  refine ⟨(R.rd x - x) / x, ?_, by field_simp; ring⟩
  rw [abs_div, div_le_iff₀ (abs_pos.2 hx0)]
  exact R.rd_rel hx

end Rounding

/-- Such a rounding exists. -/
lemma exists_nearest (x : ℝ) : ∃ y, IsDouble y ∧ ∀ z, IsDouble z → |y - x| ≤ |z - x| := by
  set S : Set ℝ := {z | IsDouble z ∧ |z - x| ≤ |x|} with hS
  have hfin : S.Finite := by
    have : S ⊆ (fun n : ℤ => (n : ℝ) * 2 ^ (-1074 : ℤ)) '' (Set.Icc ⌊-(2 * |x|) / 2 ^ (-1074 : ℤ)⌋ ⌈2 * |x| / 2 ^ (-1074 : ℤ)⌉) := by
      rintro z ⟨hz, hzx⟩
      obtain ⟨n, rfl⟩ := isDouble_multiple hz
      have hp := two_zpow_pos (-1074)
      have hb := abs_le.1 hzx
      have h1 := le_abs_self x
      have h2 := neg_abs_le x
      refine ⟨n, ⟨?_, ?_⟩, rfl⟩
      · have : -(2 * |x|) / 2 ^ (-1074 : ℤ) ≤ (n : ℝ) := by rw [div_le_iff₀ hp]; linarith
        exact_mod_cast (Int.floor_le _).trans this
      · have : (n : ℝ) ≤ 2 * |x| / 2 ^ (-1074 : ℤ) := by rw [le_div_iff₀ hp]; linarith
        exact_mod_cast this.trans (Int.le_ceil _)
    exact ((Set.finite_Icc _ _).image _).subset this
  have hne : S.Nonempty := ⟨0, isDouble_zero, by simp⟩
  obtain ⟨y, hy, hmin⟩ := Set.exists_min_image S (fun z => |z - x|) hfin hne
  refine ⟨y, hy.1, fun z hz => ?_⟩
  by_cases h : |z - x| ≤ |x|
  · exact hmin z ⟨hz, h⟩
  · exact hy.2.trans (not_le.1 h).le

instance : Nonempty Rounding :=
  ⟨⟨fun x => (exists_nearest x).choose, fun x => (exists_nearest x).choose_spec.1, fun x => (exists_nearest x).choose_spec.2⟩⟩

/-- Large doubles lie on a grid. -/
lemma double_grid {y : ℝ} {e : ℤ} (h : IsDouble y) (hy : 2 ^ (52 + e) < |y|) : ∃ n : ℤ, y = n * 2 ^ e := by
  obtain ⟨m, f, hm, hf, rfl⟩ := h
  rcases le_or_gt e f with hef | hef
  · obtain ⟨k, hk⟩ := Int.eq_ofNat_of_zero_le (show 0 ≤ f - e by linarith)
    refine ⟨m * 2 ^ k, ?_⟩
    rw [show f = (k : ℤ) + e by linarith, zpow_add₀ (by norm_num)]
    push_cast
    simp only [zpow_natCast]
    ring
  · exfalso
    rw [abs_mul, abs_of_pos (two_zpow_pos f)] at hy
    have h1 : |(m : ℝ)| ≤ 2 ^ 53 := by exact_mod_cast hm
    have h2 : (2 : ℝ) ^ f ≤ 2 ^ (e - 1) := zpow_le_zpow_right₀ (by norm_num) (by linarith)
    have h3 : (2 : ℝ) ^ (52 + e) = 2 ^ 53 * 2 ^ (e - 1) := by
      rw [← zpow_natCast, ← zpow_add₀ (by norm_num)]
      congr 1
      push_cast
      ring
    rw [h3] at hy
    have := mul_le_mul h1 h2 (two_zpow_pos f).le (by positivity)
    linarith

/-- Numbers within half a unit of a double round to it. -/
lemma rd_eq (R : Rounding) {x b : ℝ} {e k : ℤ} (hb : IsDouble b) (hk : b = k * 2 ^ e) (hx : |x - b| < 2 ^ (e - 1)) (hbig : 2 ^ (52 + e) + 2 ^ e ≤ |b|) :
    R.rd x = b := by
  have h1 := R.nearest x b hb
  have h2 : |R.rd x - b| < 2 ^ e := by
    have h3 : |R.rd x - b| ≤ |R.rd x - x| + |x - b| := abs_sub_le _ _ _
    rw [abs_sub_comm b x] at h1
    rw [zpow_sub_one₀ (by norm_num)] at hx
    linarith
  have h3 : 2 ^ (52 + e) < |R.rd x| := by
    have : |b| ≤ |R.rd x| + |R.rd x - b| := by
      have := abs_sub_abs_le_abs_sub b (R.rd x)
      rw [abs_sub_comm b] at this
      linarith
    linarith
  obtain ⟨n, hn⟩ := double_grid (R.double x) h3
  rw [hn, hk, ← sub_mul, abs_mul, abs_of_pos (two_zpow_pos e)] at h2
  have h4 : |((n - k : ℤ) : ℝ)| < 1 := by
    push_cast
    by_contra hc
    push Not at hc
    nlinarith [two_zpow_pos e]
  have h5 : n - k = 0 := Int.abs_lt_one_iff.1 (by exact_mod_cast h4)
  rw [hn, hk, sub_eq_zero.1 h5]

end PyElli
