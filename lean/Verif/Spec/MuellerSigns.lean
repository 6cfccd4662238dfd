import Mathlib.Analysis.SpecialFunctions.Trigonometric.Basic
import Mathlib.LinearAlgebra.Matrix.Notation

/-! # Signs and turns of the Stokes components (C164) -/

namespace Spec

/-- Minus one for the Stokes component at 45 degrees, one for the others. -/
def sign45 (i : Fin 4) : ℝ := if i = 2 then -1 else 1

/-- The Stokes vector in a frame turned by `x`. -/
noncomputable def turn4 (x : ℝ) : Matrix (Fin 4) (Fin 4) ℝ :=
  !![1, 0, 0, 0; 0, Real.cos (2 * x), Real.sin (2 * x), 0; 0, -Real.sin (2 * x), Real.cos (2 * x), 0; 0, 0, 0, 1]

end Spec
