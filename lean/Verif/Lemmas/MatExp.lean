import Mathlib.Analysis.Normed.Algebra.MatrixExponential
import Mathlib.Analysis.SpecialFunctions.Exponential
import Mathlib.Analysis.Matrix.Normed
import Mathlib.Analysis.Complex.Basic
import Mathlib.Analysis.Calculus.Deriv.Comp
import Mathlib.Tactic

/-! Matrix exponentials. -/

namespace PyElli

open Matrix

lemma exp_functional_hasDerivAt {A : Type*} [NormedRing A] [NormedAlgebra ℝ A] [CompleteSpace A]
    (X : A) (L : A →L[ℝ] ℂ) (z : ℝ) :
    HasDerivAt (fun z : ℝ => L (NormedSpace.exp (z • X))) (L (X * NormedSpace.exp (z • X))) z := by
  let _ : NormedAlgebra ℚ A := NormedAlgebra.restrictScalars ℚ ℝ A
  exact HasFDerivAt.comp_hasDerivAt z (L.hasFDerivAt (x := NormedSpace.exp (z • X))) (hasDerivAt_exp_smul_const' X z)

/-- Entry-wise derivative of `z ↦ exp (z X)`. -/
lemma exp_entry_hasDerivAt {n : Type*} [Fintype n] [DecidableEq n] (X : Matrix n n ℂ) (i j : n) (z : ℝ) :
    HasDerivAt (fun z : ℝ => (NormedSpace.exp (z • X) : Matrix n n ℂ) i j)
      ((X * NormedSpace.exp (z • X) : Matrix n n ℂ) i j) z := by
  let _ : NormedRing (Matrix n n ℂ) := Matrix.linftyOpNormedRing
  let _ : NormedAlgebra ℝ (Matrix n n ℂ) := Matrix.linftyOpNormedAlgebra
  let L : Matrix n n ℂ →L[ℝ] ℂ :=
    { toFun := fun M => M i j
      map_add' := fun _ _ => rfl
      map_smul' := fun _ _ => rfl
      cont := (continuous_apply j).comp (continuous_apply i) }
  exact exp_functional_hasDerivAt X L z

lemma exp_commute {n : Type*} [Fintype n] [DecidableEq n] {K X : Matrix n n ℂ} (h : K * X = X * K) :
    K * NormedSpace.exp X = NormedSpace.exp X * K := by
  have : Commute K X := h
  exact this.exp_right

lemma exp_mul_exp_smul {n : Type*} [Fintype n] [DecidableEq n] (X : Matrix n n ℂ) (a b : ℂ) :
    NormedSpace.exp ((a + b) • X) = NormedSpace.exp (a • X) * NormedSpace.exp (b • X) := by
  rw [add_smul]
  apply Matrix.exp_add_of_commute
  exact ((Commute.refl X).smul_left a).smul_right b

lemma exp_diag_conj {n : Type*} [Fintype n] [DecidableEq n] (U : Matrix n n ℂ) (v : n → ℂ) (hU : IsUnit U) (a : ℂ) :
    NormedSpace.exp (a • (U * Matrix.diagonal v * U⁻¹)) =
      U * Matrix.diagonal (fun i => Complex.exp (a * v i)) * U⁻¹ := by
  have h : a • (U * Matrix.diagonal v * U⁻¹) = U * Matrix.diagonal (fun i => a * v i) * U⁻¹ := by
    have : Matrix.diagonal (fun i => a * v i) = a • Matrix.diagonal v := by
      ext i j
      by_cases hij : i = j <;> simp [Matrix.diagonal, hij]
    rw [this, Matrix.mul_smul, Matrix.smul_mul]
  rw [h, Matrix.exp_conj _ _ hU, Matrix.exp_diagonal]
  congr 3
  funext i
  rw [Pi.coe_exp, Complex.exp_eq_exp_ℂ]

end PyElli
