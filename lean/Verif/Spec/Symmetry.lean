import Verif.Model.Solver
import Verif.Spec.Rotation

/-! # Specification of turned, mirrored and reversed samples (C78-C82)

Only the sample between the half spaces is moved; the half spaces are isotropic. -/

namespace Spec

open Matrix PyElli

/-- The sample described in a coordinate system that is turned or mirrored: every layer tensor becomes `R ε Rᵀ`. -/
noncomputable def moved (R : Matrix (Fin 3) (Fin 3) ℝ) (s : Stack) : Stack :=
  { s with layers := s.layers.map fun l => (l.1, R.map Complex.ofReal * l.2 * (R.map Complex.ofReal)ᵀ) }

/-- Mirror image at the plane of incidence. -/
def mirrorY : Matrix (Fin 3) (Fin 3) ℝ := !![1, 0, 0; 0, -1, 0; 0, 0, 1]

/-- Half turn about the y axis (perpendicular to the plane of incidence): the sample lies upside down. -/
def flipY : Matrix (Fin 3) (Fin 3) ℝ := !![-1, 0, 0; 0, 1, 0; 0, 0, -1]

/-- The sample upside down, with the half spaces exchanged: light comes from what was the back. -/
noncomputable def upsideDown (s : Stack) : Stack :=
  { front := s.back, layers := (moved flipY s).layers.reverse, back := s.front, backIsotropic := true }

/-- The materials are not gyrotropic: symmetric permittivity tensors. -/
def Symmetric (s : Stack) : Prop := ∀ l ∈ s.layers, ∀ i j, l.2 i j = l.2 j i

/-- Rotation of a Jones vector (p, s) by `phi`. -/
noncomputable def turn2 (phi : ℝ) : Matrix (Fin 2) (Fin 2) ℂ :=
  !![(Real.cos phi : ℂ), -(Real.sin phi : ℂ); (Real.sin phi : ℂ), (Real.cos phi : ℂ)]

end Spec
