import Mathlib.Data.Complex.Basic
import Mathlib.Analysis.Complex.Norm
import Mathlib.Data.Matrix.Mul

/-! # Specification of the power of light of any polarisation, and of samples seen from both sides (C127) -/

namespace Spec

open Matrix

/-- Power of a wave with the Jones vector `v`. -/
noncomputable def jonesPower (v : Fin 2 → ℂ) : ℝ := ‖v 0‖ ^ 2 + ‖v 1‖ ^ 2

/-- The reflectances that a sample with the reflection matrix `r` shows for light of unit power, over all states of polarisation. -/
def Reflectances (r : Matrix (Fin 2) (Fin 2) ℂ) : Set ℝ := {x | ∃ v, jonesPower v = 1 ∧ x = jonesPower (r *ᵥ v)}

end Spec
