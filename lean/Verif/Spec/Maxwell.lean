import Mathlib.Analysis.Calculus.Deriv.Basic
import Mathlib.Analysis.SpecialFunctions.Trigonometric.Basic
import Mathlib.Analysis.SpecialFunctions.Exp
import Mathlib.LinearAlgebra.Matrix.Notation

/-!
# Maxwell's equations and the scattering problem of a layered sample (C83)

Nothing here refers to the solvers. Lengths in nanometres; time dependence `exp(-i ω t)`; the magnetic field is scaled by the impedance of vacuum; materials
are not magnetic.
-/

namespace Spec

open Matrix Complex

/-- A vector field as a function of x, y, z. -/
abbrev Field := ℝ → ℝ → ℝ → Fin 3 → ℂ

/-- `∂ F_j / ∂ x_i` at a point. -/
noncomputable def partialDeriv (F : Field) (i j : Fin 3) (x y z : ℝ) : ℂ :=
  ![deriv (fun s => F s y z j) x, deriv (fun s => F x s z j) y, deriv (fun s => F x y s j) z] i

/-- Rotation of a vector field. -/
noncomputable def curl (F : Field) (x y z : ℝ) : Fin 3 → ℂ :=
  ![partialDeriv F 1 2 x y z - partialDeriv F 2 1 x y z,
    partialDeriv F 2 0 x y z - partialDeriv F 0 2 x y z,
    partialDeriv F 0 1 x y z - partialDeriv F 1 0 x y z]

/-- All components have partial derivatives at the point. -/
def HasPartials (F : Field) (x y z : ℝ) : Prop :=
  ∀ j, DifferentiableAt ℝ (fun s => F s y z j) x ∧ DifferentiableAt ℝ (fun s => F x s z j) y ∧
    DifferentiableAt ℝ (fun s => F x y s j) z

/-- Maxwell's equations at a point, for light of vacuum wavelength `lbda` in a material of permittivity `eps`: `curl E = i k₀ H`,
`curl H = - i k₀ ε E`. -/
def MaxwellAt (lbda : ℝ) (eps : Matrix (Fin 3) (Fin 3) ℂ) (E H : Field) (x y z : ℝ) : Prop :=
  HasPartials E x y z ∧ HasPartials H x y z ∧
  curl E x y z = (I * (2 * Real.pi / lbda : ℝ)) • H x y z ∧
  curl H x y z = -(I * (2 * Real.pi / lbda : ℝ)) • (eps *ᵥ E x y z)

/-- A sample: a transparent half space of index `n0` at `z < 0`, layers (thickness, permittivity), a half space of permittivity
`eb`. -/
structure Sample where
  n0 : ℝ
  layers : List (ℝ × Matrix (Fin 3) (Fin 3) ℂ)
  eb : ℂ

/-- Permittivity at depth `z` below the top of the layers. -/
noncomputable def mediumBelow (eb : ℂ) : List (ℝ × Matrix (Fin 3) (Fin 3) ℂ) → ℝ → Matrix (Fin 3) (Fin 3) ℂ
  | [], _ => eb • 1
  | (d, e) :: ls, z => if z < d then e else mediumBelow eb ls (z - d)

/-- Permittivity as a function of `z`. -/
noncomputable def Sample.medium (S : Sample) (z : ℝ) : Matrix (Fin 3) (Fin 3) ℂ :=
  if z < 0 then ((S.n0 ^ 2 : ℝ) : ℂ) • 1 else mediumBelow S.eb S.layers z

/-- Positions of the interfaces below a given one, which is at `z`. -/
def interfacesFrom {α : Type*} (z : ℝ) : List (ℝ × α) → List ℝ
  | [] => [z]
  | (d, _) :: ls => z :: interfacesFrom (z + d) ls

def Sample.interfaces (S : Sample) : List ℝ := interfacesFrom 0 S.layers

/-- Thickness of all layers. -/
def Sample.depth (S : Sample) : ℝ := (S.layers.map Prod.fst).sum

/-- Unit vector of p polarisation for the wave vector `(kx, 0, kz)` (in units of k₀) in a medium of index `n`. -/
noncomputable def pVec (n kx kz : ℂ) : Fin 3 → ℂ := ![kz / n, 0, -kx / n]

/-- Unit vector of s polarisation. -/
def sVec : Fin 3 → ℂ := ![0, 1, 0]

/-- Electric field of a plane wave with the amplitudes `a 0` (p) and `a 1` (s). -/
noncomputable def planeWave (lbda : ℝ) (n kx kz : ℂ) (a : Fin 2 → ℂ) : Field := fun x _ z =>
  Complex.exp (I * (2 * Real.pi / lbda : ℝ) * (kx * x + kz * z)) • (a 0 • pVec n kx kz + a 1 • sVec)

/-- Refractive index of a passive medium: the root with non-negative real and imaginary part. -/
def IsIndex (n e : ℂ) : Prop := n ^ 2 = e ∧ 0 ≤ n.re ∧ 0 ≤ n.im

/-- z component of the wave vector of the outgoing wave in the exit medium: it decays, or else runs towards larger z. -/
def IsOutgoing (kz e kx : ℂ) : Prop := kz ^ 2 = e - kx ^ 2 ∧ 0 ≤ kz.im ∧ (kz.im = 0 → 0 ≤ kz.re)

/-- The fields `E, H` solve the scattering problem of a plane wave that meets a sample at the angle `theta` (degrees): incident amplitudes
`a`, reflected amplitudes `r` (both at `z = 0`), transmitted amplitudes `t` (at the back of the layers); index 0 is p, index 1 is s. The sample lies between
`z = 0` and `z = depth`, between a transparent half space of index `n0` and one of permittivity `eb`; its permittivity `medium z` may jump at the
`interfaces`. -/
structure ScatteringIn (n0 : ℝ) (eb : ℂ) (depth : ℝ) (medium : ℝ → Matrix (Fin 3) (Fin 3) ℂ) (interfaces : List ℝ) (theta lbda : ℝ)
    (a r t : Fin 2 → ℂ) (E H : Field) : Prop where
  /-- Maxwell's equations inside every medium -/
  maxwell : ∀ x y z, z ∉ interfaces → MaxwellAt lbda (medium z) E H x y z
  /-- continuity of the tangential components -/
  contE : ∀ x y (j : Fin 3), j ≠ 2 → Continuous fun z => E x y z j
  contH : ∀ x y (j : Fin 3), j ≠ 2 → Continuous fun z => H x y z j
  /-- the fields follow the incident wave along the surface -/
  lateralE : ∀ x y z, E x y z = Complex.exp (I * (2 * Real.pi / lbda : ℝ) * (n0 * Real.sin (theta * Real.pi / 180) : ℝ) * x) • E 0 0 z
  lateralH : ∀ x y z, H x y z = Complex.exp (I * (2 * Real.pi / lbda : ℝ) * (n0 * Real.sin (theta * Real.pi / 180) : ℝ) * x) • H 0 0 z
  /-- incident and reflected wave in front -/
  front : ∀ x y z, z < 0 → E x y z =
    planeWave lbda n0 (n0 * Real.sin (theta * Real.pi / 180) : ℝ) (n0 * Real.cos (theta * Real.pi / 180) : ℝ) a x y z +
    planeWave lbda n0 (n0 * Real.sin (theta * Real.pi / 180) : ℝ) (-(n0 * Real.cos (theta * Real.pi / 180)) : ℝ) r x y z
  /-- an outgoing wave behind -/
  back : ∃ nb kz : ℂ, IsIndex nb eb ∧ IsOutgoing kz eb (n0 * Real.sin (theta * Real.pi / 180) : ℝ) ∧
    ∀ x y z, depth < z → E x y z = planeWave lbda nb (n0 * Real.sin (theta * Real.pi / 180) : ℝ) kz t x y (z - depth)

/-- The scattering problem of a layered sample. -/
abbrev Scattering (S : Sample) (theta lbda : ℝ) (a r t : Fin 2 → ℂ) (E H : Field) : Prop :=
  ScatteringIn S.n0 S.eb S.depth S.medium S.interfaces theta lbda a r t E H

end Spec
