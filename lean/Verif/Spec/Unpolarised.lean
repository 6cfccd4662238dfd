import Mathlib.Analysis.Complex.Basic
import Mathlib.LinearAlgebra.Matrix.Notation

/-!
# Power of unpolarised light (C88)

Unpolarised light of unit power is an equal, incoherent mixture of two orthogonal polarisations; which two does not matter.
-/

namespace Spec

open Matrix Complex

/-- Power of the light with Jones vector `J a` relative to that of `a`, times a factor for the medium. -/
noncomputable def powerOut (J : Matrix (Fin 2) (Fin 2) ℂ) (f : ℝ) (a : Fin 2 → ℂ) : ℝ := f * (‖(J *ᵥ a) 0‖ ^ 2 + ‖(J *ᵥ a) 1‖ ^ 2)

/-- Two orthogonal polarisations of unit power. -/
def OrthoPair (a b : Fin 2 → ℂ) : Prop := star a ⬝ᵥ a = 1 ∧ star b ⬝ᵥ b = 1 ∧ star a ⬝ᵥ b = 0

/-- `v` is the power coming out for unpolarised light, however it is mixed. -/
def IsUnpolarised (J : Matrix (Fin 2) (Fin 2) ℂ) (f v : ℝ) : Prop := ∀ a b, OrthoPair a b → (powerOut J f a + powerOut J f b) / 2 = v

end Spec
