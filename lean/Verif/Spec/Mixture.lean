import Verif.Spec.Polarisation
import Mathlib.LinearAlgebra.Matrix.ConjTranspose
import Mathlib.LinearAlgebra.Matrix.Trace

/-! # Specification of partly polarised light and of samples that are not uniform (C129) -/

namespace Spec

open Matrix Complex

/-- Stokes vectors of light, polarised or not. -/
def IsLight (S : Fin 4 → ℝ) : Prop := 0 ≤ S 0 ∧ S 1 ^ 2 + S 2 ^ 2 + S 3 ^ 2 ≤ S 0 ^ 2

/-- The matrices whose expectation values are the Stokes parameters. -/
def pauli : Fin 4 → Matrix (Fin 2) (Fin 2) ℂ := ![1, !![1, 0; 0, -1], !![0, 1; 1, 0], !![0, -I; I, 0]]

/-- Cloude's condition for a Mueller matrix to be that of a physical sample: the coherency matrix `Σ M_ij τ_i ⊗ τ_j*` is positive semidefinite, written as
a quadratic form in `K`. -/
def Realisable (M : Matrix (Fin 4) (Fin 4) ℝ) : Prop :=
  ∀ K : Matrix (Fin 2) (Fin 2) ℂ, 0 ≤ ∑ i, ∑ j, M i j * (trace (pauli i * K * pauli j * Kᴴ)).re

/-- Light from a sample of which equal areas have the Jones matrices `Js`: the intensities add. -/
noncomputable def mixtureStokes (Js : List (Matrix (Fin 2) (Fin 2) ℂ)) (a b : ℂ) (i : Fin 4) : ℝ :=
  (Js.map fun J => stokes (J 0 0 * a + J 0 1 * b) (J 1 0 * a + J 1 1 * b) i).sum / Js.length

/-- `M` is the normalised Mueller matrix of such a sample. -/
def IsMixture (M : Matrix (Fin 4) (Fin 4) ℝ) (Js : List (Matrix (Fin 2) (Fin 2) ℂ)) : Prop :=
  M 0 0 = 1 ∧ ∃ c : ℝ, 0 < c ∧ ∀ a b i, c * (M *ᵥ stokes a b) i = mixtureStokes Js a b i

/-- Reflected power of one Jones matrix for unpolarised light. -/
noncomputable def meanPower (J : Matrix (Fin 2) (Fin 2) ℂ) : ℝ := (normSq (J 0 0) + normSq (J 0 1) + normSq (J 1 0) + normSq (J 1 1)) / 2

end Spec
