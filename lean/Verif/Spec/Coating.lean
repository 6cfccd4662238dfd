import Mathlib.Analysis.SpecialFunctions.Trigonometric.Basic
import Mathlib.Analysis.SpecialFunctions.Sqrt

/-! # A transparent film on a transparent substrate (Born and Wolf, section 1.6.4): admittances and reflectance -/

namespace Spec

/-- The two polarisations. -/
inductive Polarisation
  | s
  | p

/-- Position in the Jones matrices of the results: p first. -/
def Polarisation.index : Polarisation → Fin 2
  | .s => 1
  | .p => 0

/-- Normal component of the wave vector, in units of `2π/λ`, in a medium of permittivity `e` under incidence from index `n0` at `theta` degrees. -/
noncomputable def normalComponent (n0 theta e : ℝ) : ℝ := √(e - (n0 * Real.sin (theta * Real.pi / 180)) ^ 2)

/-- Optical admittance of a medium. -/
noncomputable def Polarisation.admittance (σ : Polarisation) (n0 theta e : ℝ) : ℝ :=
  match σ with
  | .s => normalComponent n0 theta e
  | .p => e / normalComponent n0 theta e

/-- Reflectance of a film with admittance `v` and phase thickness `b` between media with the admittances `u` and `w`. -/
noncomputable def filmReflectance (u v w b : ℝ) : ℝ :=
  (v ^ 2 * (u - w) ^ 2 * Real.cos b ^ 2 + (u * w - v ^ 2) ^ 2 * Real.sin b ^ 2) /
    (v ^ 2 * (u + w) ^ 2 * Real.cos b ^ 2 + (u * w + v ^ 2) ^ 2 * Real.sin b ^ 2)

end Spec
