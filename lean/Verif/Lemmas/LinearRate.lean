import Verif.Lemmas.SliceRate
import Verif.Lemmas.Linear

/-! # Rate of convergence of the linear propagator -/

namespace PyElli

open Matrix Complex Spec Set Filter Topology Asymptotics
open scoped Matrix.Norms.Operator

lemma exp_second (X : Mat4) {K h : ℝ} (hK : ‖X‖ ≤ K) (hh : 0 ≤ h) (v : Fin 4 → ℂ) :
    ‖(NormedSpace.exp (h • X) : Mat4) *ᵥ v - v - h • (X *ᵥ v)‖ ≤ (K * h) ^ 2 * Real.exp (K * h) * ‖v‖ := by
  have hK0 : 0 ≤ K := (norm_nonneg _).trans hK
  have hs := exp_solves X v 0 h
  have hX : ContinuousOn (fun _ : ℝ => X) (Icc 0 h) := continuousOn_const
  have hb : ∀ z ∈ Icc 0 h, ‖(NormedSpace.exp (z • X) : Mat4) *ᵥ v‖ ≤ Real.exp (K * h) * ‖v‖ := fun z hz => by
    refine (exp_mulVec_bound X hK hz.1 v).trans ?_
    rw [mul_comm]
    exact mul_le_mul_of_nonneg_right (Real.exp_le_exp.2 (mul_le_mul_of_nonneg_left hz.2 hK0)) (norm_nonneg _)
  have h1 : ∀ z ∈ Icc 0 h, ‖(NormedSpace.exp (z • X) : Mat4) *ᵥ v - v‖ ≤ K * (Real.exp (K * h) * ‖v‖) * h := by
    intro z hz
    have := norm_image_sub_le_of_norm_deriv_right_le_segment (C := K * (Real.exp (K * h) * ‖v‖)) hs.cont (hs.right hX) (fun y hy =>
      (Matrix.linfty_opNorm_mulVec _ _).trans (mul_le_mul hK (hb y ⟨hy.1, hy.2.le⟩) (norm_nonneg _) hK0)) z hz
    simp only [zero_smul, NormedSpace.exp_zero, Matrix.one_mulVec, sub_zero] at this
    exact this.trans (mul_le_mul_of_nonneg_left hz.2 (by positivity))
  have hq : ∀ z : ℝ, HasDerivAt (fun z : ℝ => z • (X *ᵥ v)) (X *ᵥ v) z := fun z => by
    simpa using (hasDerivAt_id z).smul_const (X *ᵥ v)
  have key := norm_image_sub_le_of_norm_deriv_right_le_segment (f := fun z : ℝ => (NormedSpace.exp (z • X) : Mat4) *ᵥ v - z • (X *ᵥ v)) (a := 0) (b := h)
    (f' := fun z => X *ᵥ ((NormedSpace.exp (z • X) : Mat4) *ᵥ v) - X *ᵥ v) (C := K * (K * (Real.exp (K * h) * ‖v‖) * h))
    (hs.cont.sub (continuousOn_of_forall_continuousAt fun z _ => (hq z).continuousAt)) (fun z hz => (hs.right hX z hz).sub (hq z).hasDerivWithinAt)
    (fun z hz => by
      rw [← Matrix.mulVec_sub]
      exact (Matrix.linfty_opNorm_mulVec _ _).trans (mul_le_mul hK (h1 z ⟨hz.1, hz.2.le⟩) (norm_nonneg _) hK0)) h ⟨hh, le_rfl⟩
  simp only [zero_smul, NormedSpace.exp_zero, Matrix.one_mulVec, sub_zero] at key
  rw [sub_right_comm]
  refine key.trans (le_of_eq ?_)
  ring

lemma exp_second_norm (X : Mat4) {K h : ℝ} (hK : ‖X‖ ≤ K) (hh : 0 ≤ h) :
    ‖(NormedSpace.exp ((-h) • X) : Mat4) - (1 + (-h) • X)‖ ≤ 4 * ((K * h) ^ 2 * Real.exp (K * h)) := by
  refine opNorm_le_entries fun i j => ?_
  have h1 := exp_second (-X) (K := K) (by rwa [norm_neg]) hh (Pi.single j 1)
  have h2 := (norm_le_pi_norm _ i).trans h1
  have hn : ‖(Pi.single j 1 : Fin 4 → ℂ)‖ = 1 := by
    rw [Pi.norm_single]
    simp
  rw [hn, mul_one] at h2
  have e : ((NormedSpace.exp (h • -X) : Mat4) *ᵥ (Pi.single j 1 : Fin 4 → ℂ) - Pi.single j 1 - h • (-X *ᵥ (Pi.single j 1 : Fin 4 → ℂ)) : Fin 4 → ℂ) i =
      ((NormedSpace.exp ((-h) • X) : Mat4) - (1 + (-h) • X)) i j := by
    rw [smul_neg, ← neg_smul]
    simp [Matrix.one_apply, Pi.single_apply, Matrix.col_apply]
    ring
  rw [e] at h2
  exact h2

/-- The linear propagators of `n` slices and the exact ones differ by `1/n`. -/
lemma linProd_rate {X : ℝ → Mat4} {d : ℝ} (hd : 0 ≤ d) (hX : ContinuousOn X (Icc 0 d)) (i j : Fin 4) :
    ∃ D, ∀ n : ℕ, 1 ≤ n → ‖linProd X (d / n) n i j - sliceProd X (d / n) n i j‖ ≤ D * (1 / (n : ℝ)) := by
  obtain ⟨K, hK⟩ : ∃ K : ℝ, ∀ z ∈ Icc 0 d, ‖X z‖ ≤ K := isCompact_Icc.exists_bound_of_continuousOn hX
  have hK0 : 0 ≤ K := (norm_nonneg _).trans (hK 0 ⟨le_rfl, hd⟩)
  refine ⟨d * K * (4 * (K * d) * Real.exp (K * d)) * Real.exp (K * d), fun n hn => ?_⟩
  have hn0 : (0 : ℝ) < n := by exact_mod_cast hn
  have hn1 : (1 : ℝ) ≤ n := by exact_mod_cast hn
  set h := d / n with hh'
  have hnd : (n : ℝ) * h = d := by rw [hh']; field_simp
  have hh : 0 ≤ h := by positivity
  have hle : h ≤ d := by nlinarith
  have := lin_error X hh (ε := 4 * (K * h) * Real.exp (K * d)) (by positivity) (n := n) (K := K) (by rwa [hnd]) hK0 (by
    rw [hnd]
    intro z hz
    refine (exp_second_norm (X z) (hK z hz) hh).trans ?_
    have h1 : Real.exp (K * h) ≤ Real.exp (K * d) := Real.exp_le_exp.2 (mul_le_mul_of_nonneg_left hle hK0)
    have h2 : 0 ≤ 4 * (K * h) ^ 2 := by positivity
    nlinarith [mul_le_mul_of_nonneg_left h1 h2]) n le_rfl (Pi.single j 1)
  rw [hnd] at this
  have hn' : ‖(Pi.single j 1 : Fin 4 → ℂ)‖ = 1 := by
    rw [Pi.norm_single]
    simp
  rw [hn', mul_one, norm_sub_rev] at this
  have h2 := (norm_le_pi_norm _ i).trans this
  simp only [Matrix.mulVec_single_one, Pi.sub_apply, Matrix.col_apply] at h2
  refine h2.trans (le_of_eq ?_)
  rw [hh']
  field_simp

end PyElli
