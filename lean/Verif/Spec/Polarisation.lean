import Mathlib.Analysis.Complex.Basic
import Mathlib.Analysis.SpecialFunctions.Trigonometric.Basic
import Mathlib.LinearAlgebra.Matrix.Notation

/-!
# Specification of polarisation states by measured intensities (independent of the model)
-/

namespace Spec

open Complex

/-- Intensity behind an analyser that passes the (unit) Jones vector `(u, v)`. -/
noncomputable def intensity (u v a b : ℂ) : ℝ :=
  Complex.normSq ((starRingEnd ℂ) u * a + (starRingEnd ℂ) v * b)

/-- `1 / sqrt 2` as a complex number. -/
noncomputable def isq2 : ℂ := ((1 / Real.sqrt 2 : ℝ) : ℂ)

/-- The four Stokes parameters as differences of intensities behind analysers: p/s, ±45 degrees, and the
two circular states `(1, ±i)/sqrt 2`. -/
noncomputable def stokes (a b : ℂ) : Fin 4 → ℝ :=
  ![intensity 1 0 a b + intensity 0 1 a b,
    intensity 1 0 a b - intensity 0 1 a b,
    intensity isq2 isq2 a b - intensity isq2 (-isq2) a b,
    intensity isq2 (I * isq2) a b - intensity isq2 (-I * isq2) a b]

/-- A Stokes vector describes fully polarised light. -/
def FullyPolarised (S : Fin 4 → ℝ) : Prop := 0 < S 0 ∧ S 0 ^ 2 = S 1 ^ 2 + S 2 ^ 2 + S 3 ^ 2

/-- Two Jones vectors describe the same polarisation state (up to amplitude and global phase). -/
def SameState (a b a' b' : ℂ) : Prop := ∃ c : ℂ, c ≠ 0 ∧ a' = c * a ∧ b' = c * b

/-- The Mueller matrix of an isotropic sample (no cross polarisation) in the N/C/S form. -/
def isoMueller (N C S : ℝ) : Matrix (Fin 4) (Fin 4) ℝ :=
  !![1, -N, 0, 0; -N, 1, 0, 0; 0, 0, C, S; 0, 0, -S, C]

end Spec
