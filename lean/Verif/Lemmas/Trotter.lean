import Verif.Lemmas.Linear
import Mathlib.Analysis.SpecialFunctions.Exponential

/-! # Powers of matrices close to one -/

namespace PyElli

open Matrix Complex Set Filter Topology
open scoped Matrix.Norms.Operator

section

variable {𝔸 : Type*} [NormedRing 𝔸] [NormOneClass 𝔸] [NormedAlgebra ℝ 𝔸] [CompleteSpace 𝔸]

lemma pow_sub_bound {X Y : 𝔸} {C : ℝ} (hX : ‖X‖ ≤ C) (hY : ‖Y‖ ≤ C) (hC : 1 ≤ C) :
    ∀ n : ℕ, ‖X ^ n - Y ^ n‖ ≤ n * (C ^ n * ‖X - Y‖) := by
  have hC0 : 0 ≤ C := by linarith
  have hpow : ∀ n : ℕ, ‖X ^ n‖ ≤ C ^ n := fun n => (norm_pow_le X n).trans (pow_le_pow_left₀ (norm_nonneg _) hX n)
  intro n
  induction n with
  | zero => simp
  | succ n ih =>
    have e : X ^ (n + 1) - Y ^ (n + 1) = X ^ n * (X - Y) + (X ^ n - Y ^ n) * Y := by
      rw [pow_succ, pow_succ, mul_sub, sub_mul]
      abel
    rw [e]
    have t1 : ‖X ^ n * (X - Y)‖ ≤ C ^ n * ‖X - Y‖ :=
      (norm_mul_le _ _).trans (mul_le_mul_of_nonneg_right (hpow n) (norm_nonneg _))
    have t2 : ‖(X ^ n - Y ^ n) * Y‖ ≤ n * (C ^ n * ‖X - Y‖) * C :=
      (norm_mul_le _ _).trans (mul_le_mul ih hY (norm_nonneg _) (by positivity))
    have t3 : C ^ n * ‖X - Y‖ ≤ C ^ (n + 1) * ‖X - Y‖ :=
      mul_le_mul_of_nonneg_right (pow_le_pow_right₀ hC (Nat.le_succ n)) (norm_nonneg _)
    refine (norm_add_le _ _).trans ?_
    have e2 : ((n + 1 : ℕ) : ℝ) * (C ^ (n + 1) * ‖X - Y‖) = n * (C ^ n * ‖X - Y‖) * C + C ^ (n + 1) * ‖X - Y‖ := by
      push_cast
      ring
    linarith

lemma scaled_tendsto {f : ℝ → 𝔸} {A : 𝔸} (h : HasDerivAt f A 0) :
    Tendsto (fun k : ℕ => (k : ℝ) • (f (1 / (k : ℝ)) - f 0)) atTop (𝓝 A) := by
  have h1 := hasDerivAt_iff_tendsto_slope_zero.1 h
  have h2 : Tendsto (fun k : ℕ => 1 / (k : ℝ)) atTop (𝓝[≠] 0) := by
    refine tendsto_nhdsWithin_iff.2 ⟨tendsto_one_div_atTop_nhds_zero_nat, ?_⟩
    filter_upwards [eventually_ge_atTop 1] with k hk
    have : (0 : ℝ) < k := by exact_mod_cast hk
    simp only [mem_compl_iff, mem_singleton_iff]
    positivity
  refine (h1.comp h2).congr' ?_
  filter_upwards [eventually_ge_atTop 1] with k hk
  simp

/-- A curve of matrices through one: the `k`-th power of its value at `1 / k` approaches the exponential of its slope. -/
lemma power_tendsto {f : ℝ → 𝔸} {A : 𝔸} (h0 : f 0 = 1) (h : HasDerivAt f A 0) :
    Tendsto (fun k : ℕ => f (1 / (k : ℝ)) ^ k) atTop (𝓝 (NormedSpace.exp A)) := by
  have hf := scaled_tendsto h
  have hE : HasDerivAt (fun t : ℝ => (NormedSpace.exp (t • A) : 𝔸)) A 0 := by
    have := hasDerivAt_exp_smul_const (𝕂 := ℝ) A (0 : ℝ)
    simpa using this
  have hg := scaled_tendsto hE
  have hd : Tendsto (fun k : ℕ => ‖(k : ℝ) • (f (1 / (k : ℝ)) - NormedSpace.exp ((1 / (k : ℝ)) • A))‖) atTop (𝓝 0) := by
    have := (hf.sub hg).norm
    rw [sub_self, norm_zero] at this
    refine this.congr fun k => ?_
    rw [← smul_sub, h0]
    simp
  obtain ⟨K1, hK1⟩ := (hf.norm.isBoundedUnder_le).eventually_le
  obtain ⟨K2, hK2⟩ := (hg.norm.isBoundedUnder_le).eventually_le
  set K := max (max K1 K2) 0 with hKdef
  have hK0 : 0 ≤ K := le_max_right _ _
  have hbound : ∀ (X : 𝔸) (k : ℕ), 1 ≤ k → ‖(k : ℝ) • (X - 1)‖ ≤ K → ‖X‖ ≤ Real.exp (K / k) := by
    intro X k hk hX
    have hk0 : (0 : ℝ) < k := by exact_mod_cast hk
    rw [norm_smul, Real.norm_of_nonneg hk0.le] at hX
    have h1 : ‖X - 1‖ ≤ K / k := by rw [le_div_iff₀ hk0]; linarith
    have h2 : ‖X‖ ≤ ‖X - 1‖ + ‖(1 : 𝔸)‖ := by
      have := norm_add_le (X - 1) 1
      rwa [sub_add_cancel] at this
    rw [norm_one] at h2
    linarith [Real.add_one_le_exp (K / k)]
  rw [tendsto_iff_norm_sub_tendsto_zero]
  have hlim : Tendsto (fun k : ℕ => Real.exp K * ‖(k : ℝ) • (f (1 / (k : ℝ)) - NormedSpace.exp ((1 / (k : ℝ)) • A))‖) atTop (𝓝 0) := by
    have := hd.const_mul (Real.exp K)
    rwa [mul_zero] at this
  refine squeeze_zero' (Eventually.of_forall fun _ => norm_nonneg _) ?_ hlim
  filter_upwards [hK1, hK2, eventually_ge_atTop 1] with k b1 b2 hk
  have hk0 : (0 : ℝ) < k := by exact_mod_cast hk
  rw [h0] at b1
  simp only [zero_smul, NormedSpace.exp_zero] at b2
  have n1 := hbound _ k hk (b1.trans ((le_max_left _ _).trans (le_max_left _ _)))
  have n2 := hbound _ k hk (b2.trans ((le_max_right _ _).trans (le_max_left _ _)))
  have key := pow_sub_bound n1 n2 (Real.one_le_exp (by positivity)) k
  have e1 : (NormedSpace.exp ((1 / (k : ℝ)) • A) : 𝔸) ^ k = NormedSpace.exp A := by
    letI : NormedAlgebra ℚ 𝔸 := NormedAlgebra.restrictScalars ℚ ℝ 𝔸
    rw [← NormedSpace.exp_nsmul, ← Nat.cast_smul_eq_nsmul ℝ, smul_smul, mul_one_div_cancel hk0.ne', one_smul]
  have e2 : Real.exp (K / k) ^ k = Real.exp K := by
    rw [← Real.exp_nat_mul, mul_div_cancel₀ _ hk0.ne']
  rw [e1, e2] at key
  refine key.trans (le_of_eq ?_)
  rw [norm_smul, Real.norm_of_nonneg hk0.le]
  ring

/-- Slope of a product of exponentials at zero. -/
lemma product_slope : ∀ L : List 𝔸, HasDerivAt (fun t : ℝ => (L.map fun A => (NormedSpace.exp (t • A) : 𝔸)).prod) L.sum 0
  | [] => by
    simp only [List.map_nil, List.prod_nil, List.sum_nil]
    exact hasDerivAt_const _ _
  | A :: L => by
    have h1 : HasDerivAt (fun t : ℝ => (NormedSpace.exp (t • A) : 𝔸)) A 0 := by
      have := hasDerivAt_exp_smul_const (𝕂 := ℝ) A (0 : ℝ)
      simpa using this
    have h2 := h1.mul (product_slope L)
    simp only [List.map_cons, List.prod_cons, List.sum_cons]
    have e : (L.map fun A => (NormedSpace.exp ((0 : ℝ) • A) : 𝔸)).prod = 1 := by
      simp
    rw [e, zero_smul, NormedSpace.exp_zero, mul_one, one_mul] at h2
    exact h2

lemma lie_product' (L : List 𝔸) :
    Tendsto (fun k : ℕ => (L.map fun A => (NormedSpace.exp ((1 / (k : ℝ)) • A) : 𝔸)).prod ^ k) atTop (𝓝 (NormedSpace.exp L.sum)) :=
  power_tendsto (f := fun t : ℝ => (L.map fun A => (NormedSpace.exp (t • A) : 𝔸)).prod) (by simp) (product_slope L)

end

/-- Lie's product formula for any number of matrices. -/
lemma lie_product (L : List Mat4) :
    Tendsto (fun k : ℕ => (L.map fun A => (NormedSpace.exp ((1 / (k : ℝ)) • A) : Mat4)).prod ^ k) atTop (𝓝 (NormedSpace.exp L.sum)) :=
  lie_product' L

end PyElli
