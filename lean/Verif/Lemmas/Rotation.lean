import Verif.Model.Rotation
import Verif.Spec.Rotation
import Mathlib.Analysis.SpecialFunctions.Exponential
import Mathlib.Analysis.Calculus.MeanValue
import Mathlib.Analysis.SpecialFunctions.Trigonometric.Deriv
import Mathlib.Analysis.Matrix.Normed
import Mathlib.Tactic

namespace PyElli

open Matrix Spec

/-- Rodrigues' formula as an exponential, in any real Banach algebra, for `W³ = -W`. -/
lemma exp_rodrigues_alg {A : Type*} [NormedRing A] [NormedAlgebra ℝ A] [CompleteSpace A]
    (W : A) (hW : W ^ 3 = -W) (t : ℝ) :
    NormedSpace.exp (t • W) = 1 + Real.sin t • W + (1 - Real.cos t) • W ^ 2 := by
  let _ : NormedAlgebra ℚ A := NormedAlgebra.restrictScalars ℚ ℝ A
  set F : ℝ → A := fun u => 1 + Real.sin u • W + (1 - Real.cos u) • W ^ 2 with hF
  have hF' : ∀ u, HasDerivAt F (Real.cos u • W + Real.sin u • W ^ 2) u := by
    intro u
    have h1 : HasDerivAt (fun u => Real.sin u • W) (Real.cos u • W) u :=
      (Real.hasDerivAt_sin u).smul_const W
    have h2 : HasDerivAt (fun u => (1 - Real.cos u) • W ^ 2) (Real.sin u • W ^ 2) u := by
      have := ((Real.hasDerivAt_cos u).const_sub 1).smul_const (W ^ 2)
      simpa using this
    exact (h1.const_add (1 : A)).add h2
  have hWF : ∀ u, W * F u = Real.cos u • W + Real.sin u • W ^ 2 := by
    intro u
    simp only [hF, mul_add, mul_one, mul_smul_comm]
    rw [← pow_two, ← pow_succ', hW]
    simp only [sub_smul, one_smul, smul_neg]
    abel
  have hG : ∀ u : ℝ, HasDerivAt (fun u : ℝ => NormedSpace.exp (u • (-W)) * F u) 0 u := by
    intro u
    have := (hasDerivAt_exp_smul_const (-W) u).mul (hF' u)
    rw [← hWF u] at this
    have h0 : NormedSpace.exp (u • -W) * -W * F u + NormedSpace.exp (u • -W) * (W * F u) = 0 := by
      rw [mul_assoc, ← mul_add, neg_mul, neg_add_cancel, mul_zero]
    rw [h0] at this
    exact this
  have hconst : ∀ u : ℝ, NormedSpace.exp (u • (-W)) * F u = 1 := by
    intro u
    have := is_const_of_deriv_eq_zero (f := fun u : ℝ => NormedSpace.exp (u • (-W)) * F u)
      (fun x => (hG x).differentiableAt) (fun x => (hG x).deriv) u 0
    rw [this]
    simp [hF]
  have h1 := hconst t
  have h2 : NormedSpace.exp (t • W) * NormedSpace.exp (t • (-W)) = 1 := by
    rw [← NormedSpace.exp_add_of_commute, smul_neg, add_neg_cancel, NormedSpace.exp_zero]
    rw [smul_neg]
    exact (Commute.refl _).neg_right
  calc NormedSpace.exp (t • W) = NormedSpace.exp (t • W) * (NormedSpace.exp (t • (-W)) * F t) := by
        rw [h1, mul_one]
    _ = F t := by rw [← mul_assoc, h2, one_mul]

/-- Rodrigues' formula for matrices. -/
lemma exp_rodrigues {n : Type*} [Fintype n] [DecidableEq n] (W : Matrix n n ℝ) (hW : W ^ 3 = -W)
    (t : ℝ) :
    NormedSpace.exp (t • W) = 1 + Real.sin t • W + (1 - Real.cos t) • W ^ 2 := by
  let _ : NormedRing (Matrix n n ℝ) := Matrix.linftyOpNormedRing
  let _ : NormedAlgebra ℝ (Matrix n n ℝ) := Matrix.linftyOpNormedAlgebra
  exact exp_rodrigues_alg W hW t

lemma mW_eq_cross : mW = Spec.cross := rfl

lemma mW_sq (v : Fin 3 → ℝ) : (mW v) ^ 2 =
    !![-(v 2 ^ 2 + v 1 ^ 2), v 0 * v 1, v 0 * v 2;
       v 0 * v 1, -(v 2 ^ 2 + v 0 ^ 2), v 1 * v 2;
       v 0 * v 2, v 1 * v 2, -(v 1 ^ 2 + v 0 ^ 2)] := by
  rw [pow_two]
  unfold mW
  ext i j
  fin_cases i <;> fin_cases j <;> simp [Matrix.mul_apply, Fin.sum_univ_three] <;> ring

lemma mW_cube (v : Fin 3 → ℝ) (h : IsUnitAxis v) : (mW v) ^ 3 = -mW v := by
  unfold IsUnitAxis at h
  rw [pow_succ, mW_sq]
  unfold mW
  ext i j
  fin_cases i <;> fin_cases j <;> simp [Matrix.mul_apply, Fin.sum_univ_three]
  · ring
  · linear_combination (v 2) * h
  · linear_combination (-v 1) * h
  · linear_combination (-v 2) * h
  · ring
  · linear_combination (v 0) * h
  · linear_combination (v 1) * h
  · linear_combination (-v 0) * h
  · ring

lemma mW_smul (t : ℝ) (v : Fin 3 → ℝ) : mW (fun i => t * v i) = t • mW v := by
  unfold mW
  ext i j
  fin_cases i <;> fin_cases j <;> simp

lemma mW_transpose (v : Fin 3 → ℝ) : (mW v)ᵀ = -mW v := by
  unfold mW
  ext i j
  fin_cases i <;> fin_cases j <;> simp

lemma rotationVTheta_eq_exp (v : Fin 3 → ℝ) (h : IsUnitAxis v) (theta : ℝ) :
    rotationVTheta v theta = NormedSpace.exp (deg2rad theta • mW v) := by
  rw [exp_rodrigues _ (mW_cube v h)]
  rfl

lemma exp_mW_orth (v : Fin 3 → ℝ) :
    NormedSpace.exp (mW v) * (NormedSpace.exp (mW v))ᵀ = 1 ∧
      (NormedSpace.exp (mW v))ᵀ * NormedSpace.exp (mW v) = 1 := by
  rw [← Matrix.exp_transpose, mW_transpose, Matrix.exp_neg]
  have hu := (Matrix.isUnit_iff_isUnit_det _).1 (Matrix.isUnit_exp (mW v))
  exact ⟨Matrix.mul_nonsing_inv _ hu, Matrix.nonsing_inv_mul _ hu⟩

/-- Determinant of a Rodrigues matrix. -/
lemma det_rodrigues (v : Fin 3 → ℝ) (h : IsUnitAxis v) (t : ℝ) :
    (1 + Real.sin t • mW v + (1 - Real.cos t) • (mW v) ^ 2).det = 1 := by
  unfold IsUnitAxis at h
  have hsc := Real.sin_sq_add_cos_sq t
  rw [mW_sq]
  unfold mW
  rw [Matrix.det_fin_three]
  simp
  generalize Real.sin t = s at *
  generalize Real.cos t = c at *
  generalize v 0 = x at *
  generalize v 1 = y at *
  generalize v 2 = z at *
  have hx : x ^ 2 = 1 - y ^ 2 - z ^ 2 := by linarith
  have hs : s ^ 2 = 1 - c ^ 2 := by linarith
  grind

/-- Every rotation vector is an angle times a unit axis. -/
lemma axis_decomp (v : Fin 3 → ℝ) :
    ∃ (t : ℝ) (u : Fin 3 → ℝ), IsUnitAxis u ∧ v = fun i => t * u i := by
  by_cases hv : v 0 ^ 2 + v 1 ^ 2 + v 2 ^ 2 = 0
  · refine ⟨0, ![1, 0, 0], ?_, ?_⟩
    · simp [IsUnitAxis]
    · have h0 : v 0 = 0 := by nlinarith [sq_nonneg (v 0), sq_nonneg (v 1), sq_nonneg (v 2)]
      have h1 : v 1 = 0 := by nlinarith [sq_nonneg (v 0), sq_nonneg (v 1), sq_nonneg (v 2)]
      have h2 : v 2 = 0 := by nlinarith [sq_nonneg (v 0), sq_nonneg (v 1), sq_nonneg (v 2)]
      ext i
      fin_cases i <;> simp [h0, h1, h2]
  · set t := Real.sqrt (v 0 ^ 2 + v 1 ^ 2 + v 2 ^ 2) with ht
    have hnn : 0 ≤ v 0 ^ 2 + v 1 ^ 2 + v 2 ^ 2 := by positivity
    have htsq : t ^ 2 = v 0 ^ 2 + v 1 ^ 2 + v 2 ^ 2 := Real.sq_sqrt hnn
    have ht0 : t ≠ 0 := by
      intro h
      rw [h] at htsq
      apply hv
      rw [← htsq]
      norm_num
    refine ⟨t, fun i => v i / t, ?_, ?_⟩
    · unfold IsUnitAxis
      field_simp
      exact htsq.symm
    · ext i
      field_simp

end PyElli
