import Mathlib.Analysis.SpecialFunctions.Complex.Arg
import Mathlib.Analysis.SpecialFunctions.Trigonometric.Arctan

/-!
# Specification vocabulary for ellipsometric angles (independent of the model)
-/

namespace Spec

/-- Two angles in degrees denote the same direction. -/
def SameAngle (a b : ℝ) : Prop := ∃ k : ℤ, a = b + 360 * k

/-- The half-open window of width 360 degrees starting at `lo`. -/
def InWindow (lo x : ℝ) : Prop := lo ≤ x ∧ x < lo + 360

/-- The ellipsometric equation `rho = tan(psi) exp(-i delta)` with both angles in degrees
(`docs`, `result.py:91, 113`). -/
noncomputable def EllipsometricEq (rho : ℂ) (psi delta : ℝ) : Prop :=
  rho = Complex.ofReal (Real.tan (psi * Real.pi / 180)) *
    (Complex.ofReal (Real.cos (delta * Real.pi / 180)) -
      Complex.I * Complex.ofReal (Real.sin (delta * Real.pi / 180)))

/-- Documented delta ranges (`result.py:443-451`): `(0, 180)` or a window of exactly 360 degrees
with `-360 ≤ lower ≤ 0`. -/
def ValidRange (lo up : ℝ) : Prop :=
  (lo = 0 ∧ up = 180) ∨ (-360 ≤ lo ∧ lo ≤ 0 ∧ up = lo + 360)

end Spec
