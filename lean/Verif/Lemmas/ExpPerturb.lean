import Mathlib.Analysis.SpecialFunctions.Exponential
import Mathlib.Analysis.ODE.Gronwall
import Mathlib.MeasureTheory.Integral.IntervalIntegral.FundThmCalculus
import Mathlib.Analysis.Calculus.Deriv.Mul
import Mathlib.Tactic

/-! # Perturbation of exponentials: Duhamel's formula and its bound -/

namespace PyElli

open Set MeasureTheory

section

variable {𝔸 : Type*} [NormedRing 𝔸] [NormedAlgebra ℝ 𝔸] [CompleteSpace 𝔸]

lemma exp_smul_cont (A : 𝔸) : Continuous fun t : ℝ => (NormedSpace.exp (t • A) : 𝔸) :=
  continuous_iff_continuousAt.2 fun t => (hasDerivAt_exp_smul_const (𝕂 := ℝ) A t).continuousAt

/-- Duhamel's formula. -/
lemma duhamel (A E : 𝔸) (t : ℝ) : (NormedSpace.exp (t • (A + E)) : 𝔸) - NormedSpace.exp (t • A) =
    ∫ s in (0 : ℝ)..t, NormedSpace.exp ((t - s) • A) * E * NormedSpace.exp (s • (A + E)) := by
  have h : ∀ s : ℝ, HasDerivAt (fun s : ℝ => (NormedSpace.exp ((t - s) • A) : 𝔸) * NormedSpace.exp (s • (A + E)))
      (NormedSpace.exp ((t - s) • A) * E * NormedSpace.exp (s • (A + E))) s := by
    intro s
    have h1 : HasDerivAt (fun s : ℝ => (NormedSpace.exp ((t - s) • A) : 𝔸)) (-(NormedSpace.exp ((t - s) • A) * A)) s := by
      have := (hasDerivAt_exp_smul_const (𝕂 := ℝ) A (t - s)).scomp s ((hasDerivAt_id s).const_sub t)
      rw [neg_one_smul] at this
      exact this
    have h2 := hasDerivAt_exp_smul_const' (𝕂 := ℝ) (A + E) s
    have := h1.mul h2
    refine this.congr_deriv ?_
    generalize (NormedSpace.exp ((t - s) • A) : 𝔸) = X
    generalize (NormedSpace.exp (s • (A + E)) : 𝔸) = Y
    rw [neg_mul, mul_assoc X A Y, mul_assoc X E Y, add_mul, mul_add, neg_add_cancel_left]
  have hc : Continuous fun s : ℝ => (NormedSpace.exp ((t - s) • A) : 𝔸) * E * NormedSpace.exp (s • (A + E)) :=
    (((exp_smul_cont A).comp (continuous_const.sub continuous_id)).mul continuous_const).mul (exp_smul_cont (A + E))
  have := intervalIntegral.integral_eq_sub_of_hasDerivAt (fun s _ => h s) (hc.intervalIntegrable 0 t)
  rw [this]
  simp

/-- The exponential of a disturbed matrix, where the undisturbed one stays below `p` on the way. -/
lemma exp_perturb (A E : 𝔸) {p : ℝ} (hp : ∀ s ∈ Icc (0 : ℝ) 1, ‖(NormedSpace.exp (s • A) : 𝔸)‖ ≤ p) :
    ‖(NormedSpace.exp (A + E) : 𝔸) - NormedSpace.exp A‖ ≤ p * (Real.exp (p * ‖E‖) - 1) := by
  have hp0 : 0 ≤ p := (norm_nonneg _).trans (hp 0 ⟨le_rfl, zero_le_one⟩)
  set e := ‖E‖ with he
  have he0 : 0 ≤ e := norm_nonneg _
  set f : ℝ → ℝ := fun s => ‖(NormedSpace.exp (s • (A + E)) : 𝔸)‖ with hf
  have hfc : Continuous f := (exp_smul_cont (A + E)).norm
  set F : ℝ → ℝ := fun t => p + p * e * ∫ s in (0 : ℝ)..t, f s with hF
  have hint : ∀ t, 0 ≤ t → 0 ≤ ∫ s in (0 : ℝ)..t, f s := fun t ht => intervalIntegral.integral_nonneg ht fun s _ => norm_nonneg _
  have key : ∀ t ∈ Icc (0 : ℝ) 1, ‖(NormedSpace.exp (t • (A + E)) : 𝔸) - NormedSpace.exp (t • A)‖ ≤ p * e * ∫ s in (0 : ℝ)..t, f s := by
    intro t ht
    rw [duhamel]
    refine (intervalIntegral.norm_integral_le_of_norm_le ht.1 (g := fun s => p * e * f s) ?_ ?_).trans ?_
    · refine Filter.Eventually.of_forall fun s hs => ?_
      refine (norm_mul_le _ _).trans (mul_le_mul_of_nonneg_right ((norm_mul_le _ _).trans ?_) (norm_nonneg _))
      exact mul_le_mul_of_nonneg_right (hp (t - s) ⟨by linarith [hs.2], by linarith [hs.1, ht.2]⟩) he0
    · exact (continuous_const.mul hfc).intervalIntegrable _ _
    · rw [intervalIntegral.integral_const_mul]
  have hfF : ∀ t ∈ Icc (0 : ℝ) 1, f t ≤ F t := by
    intro t ht
    have h1 := norm_add_le ((NormedSpace.exp (t • (A + E)) : 𝔸) - NormedSpace.exp (t • A)) (NormedSpace.exp (t • A))
    rw [sub_add_cancel] at h1
    have := key t ht
    have := hp t ht
    simp only [hF, hf] at *
    linarith
  have hF' : ∀ t, HasDerivAt F (p * e * f t) t := fun t =>
    ((intervalIntegral.integral_hasDerivAt_right (hfc.intervalIntegrable _ _) (hfc.stronglyMeasurableAtFilter _ _) hfc.continuousAt).const_mul (p * e)).const_add p
  have hF0 : ∀ t ∈ Icc (0 : ℝ) 1, 0 ≤ F t := fun t ht => by
    have := hint t ht.1
    simp only [hF]
    positivity
  have hg := norm_le_gronwallBound_of_norm_deriv_right_le (f := F) (f' := fun t => p * e * f t) (δ := p) (K := p * e) (ε := 0) (a := 0) (b := 1)
    (fun t _ => (hF' t).continuousAt.continuousWithinAt) (fun t _ => (hF' t).hasDerivWithinAt) (by simp [hF, abs_of_nonneg hp0]) (fun t ht => by
      have ht' : t ∈ Icc (0 : ℝ) 1 := ⟨ht.1, ht.2.le⟩
      rw [add_zero, Real.norm_eq_abs, Real.norm_eq_abs, abs_of_nonneg (hF0 t ht'), abs_of_nonneg (by have : 0 ≤ f t := norm_nonneg _; positivity)]
      exact mul_le_mul_of_nonneg_left (hfF t ht') (by positivity)) 1 ⟨zero_le_one, le_rfl⟩
  rw [gronwallBound_ε0, Real.norm_eq_abs, abs_of_nonneg (hF0 1 ⟨zero_le_one, le_rfl⟩)] at hg
  have := key 1 ⟨zero_le_one, le_rfl⟩
  simp only [one_smul] at this
  simp only [hF, sub_zero, mul_one] at hg
  linarith

end

end PyElli
