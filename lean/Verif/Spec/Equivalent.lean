import Mathlib.Analysis.SpecialFunctions.Trigonometric.Basic
import Mathlib.LinearAlgebra.Matrix.Notation

/-! # Equivalent layers of symmetric multilayers (C158) -/

namespace Spec.Equivalent

/-- The real characteristic matrix of a transparent layer of index `n` and phase thickness `B` at normal incidence. -/
noncomputable def layer (n B : ℝ) : Matrix (Fin 2) (Fin 2) ℝ := !![Real.cos B, Real.sin B / n; -(n * Real.sin B), Real.cos B]

/-- The characteristic matrix of layers given by index and thickness. -/
noncomputable def multilayer (lbda : ℝ) (L : List (ℝ × ℝ)) : Matrix (Fin 2) (Fin 2) ℝ :=
  (L.map fun l => layer l.1 (2 * Real.pi * l.1 * l.2 / lbda)).prod

end Spec.Equivalent
