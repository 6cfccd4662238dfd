import Mathlib.Analysis.Complex.Trigonometric
import Mathlib.Analysis.SpecialFunctions.Trigonometric.Basic
import Mathlib.Analysis.Normed.Algebra.MatrixExponential
import Mathlib.LinearAlgebra.Matrix.Notation

/-! # Specification of helical media (C128)

Light that travels along the axis of a helix, `ε(z) = R_z(q z) ε R_z(q z)ᵀ`; the tangential fields are `(E_x, E_y, H_x, H_y)`. In a frame that turns
with the helix the medium is uniform (Oseen, de Vries). -/

namespace Spec

open Matrix Complex

/-- Turn of the tangential fields by `phi` about the z axis. -/
noncomputable def turnFields (phi : ℝ) : Matrix (Fin 4) (Fin 4) ℂ :=
  !![(Real.cos phi : ℂ), -(Real.sin phi : ℂ), 0, 0; (Real.sin phi : ℂ), (Real.cos phi : ℂ), 0, 0;
     0, 0, (Real.cos phi : ℂ), -(Real.sin phi : ℂ); 0, 0, (Real.sin phi : ℂ), (Real.cos phi : ℂ)]

/-- Permittivity in the plane of the layers when `D_z = 0`. -/
noncomputable def planeEps (e : Matrix (Fin 3) (Fin 3) ℂ) (i j : Fin 3) : ℂ := e i j - e i 2 * e 2 j / e 2 2

/-- Maxwell's equations for light along z in a uniform medium: `dψ/dz = i k Δ ψ`. -/
noncomputable def normalDelta (e : Matrix (Fin 3) (Fin 3) ℂ) : Matrix (Fin 4) (Fin 4) ℂ :=
  !![0, 0, 0, 1; 0, 0, -1, 0; -planeEps e 1 0, -planeEps e 1 1, 0, 0; planeEps e 0 0, planeEps e 0 1, 0, 0]

/-- Generator of the turns. -/
def turnGen : Matrix (Fin 4) (Fin 4) ℂ := !![0, -1, 0, 0; 1, 0, 0, 0; 0, 0, 0, -1; 0, 0, 1, 0]

/-- The equations in the frame that turns by `q` per length: `dφ/dz = (i k Δ - q J) φ`. -/
noncomputable def helixGenerator (k q : ℝ) (e : Matrix (Fin 3) (Fin 3) ℂ) : Matrix (Fin 4) (Fin 4) ℂ :=
  (I * (k : ℂ)) • normalDelta e - (q : ℂ) • turnGen

/-- Fields in front of a helix of thickness `d` from those behind it. -/
noncomputable def helixSlab (k q d : ℝ) (e : Matrix (Fin 3) (Fin 3) ℂ) : Matrix (Fin 4) (Fin 4) ℂ :=
  NormedSpace.exp (-(d : ℂ) • helixGenerator k q e) * turnFields (-(q * d))

/-- Tangential fields in a medium of index `n` at normal incidence: `a` runs towards larger z, `r` back; index 0 is p, index 1 is s. -/
def normalFields (n : ℂ) (a r : Fin 2 → ℂ) : Fin 4 → ℂ := ![a 0 - r 0, a 1 + r 1, n * (r 1 - a 1), n * (a 0 + r 0)]

end Spec
