import Mathlib.LinearAlgebra.Matrix.Determinant.Basic
import Mathlib.Analysis.SpecialFunctions.Trigonometric.Basic
import Mathlib.LinearAlgebra.Matrix.NonsingularInverse

/-! Independent specification of rotations of space. -/

namespace Spec

open Matrix

/-- Proper rotation: orthogonal, determinant one. -/
def IsProperRotation (R : Matrix (Fin 3) (Fin 3) ℝ) : Prop :=
  R * Rᵀ = 1 ∧ Rᵀ * R = 1 ∧ R.det = 1

/-- Rotation about the z axis by `a` radians. -/
noncomputable def Rz (a : ℝ) : Matrix (Fin 3) (Fin 3) ℝ :=
  !![Real.cos a, -Real.sin a, 0; Real.sin a, Real.cos a, 0; 0, 0, 1]

/-- Rotation about the x axis by `a` radians. -/
noncomputable def Rx (a : ℝ) : Matrix (Fin 3) (Fin 3) ℝ :=
  !![1, 0, 0; 0, Real.cos a, -Real.sin a; 0, Real.sin a, Real.cos a]

/-- Cross product `v × x` as a matrix acting on `x`. -/
def cross (v : Fin 3 → ℝ) : Matrix (Fin 3) (Fin 3) ℝ :=
  !![0, -v 2, v 1; v 2, 0, -v 0; -v 1, v 0, 0]

/-- Unit axis. -/
def IsUnitAxis (v : Fin 3 → ℝ) : Prop := v 0 ^ 2 + v 1 ^ 2 + v 2 ^ 2 = 1

end Spec
