import Mathlib.LinearAlgebra.Matrix.Hermitian
import Mathlib.LinearAlgebra.Matrix.Notation
import Mathlib.Analysis.Complex.Basic
import Mathlib.Analysis.Matrix.Normed
import Mathlib.Analysis.Calculus.Deriv.Basic

/-!
# Electromagnetic specifications, independent of the solvers

Units: magnetic field scaled by the impedance of vacuum, lengths by 1/k0, time convention `exp(-i ω t)`.
-/

namespace Spec

open Matrix Complex

/-- A permittivity tensor is passive if no field gains energy from it: `Im (E† ε E) ≥ 0`. -/
def Passive (eps : Matrix (Fin 3) (Fin 3) ℂ) : Prop :=
  ∀ E : Fin 3 → ℂ, 0 ≤ (star E ⬝ᵥ eps *ᵥ E).im

/-- A lossless tensor: Hermitian. -/
def Lossless (eps : Matrix (Fin 3) (Fin 3) ℂ) : Prop := eps.IsHermitian

/-- A tensor that absorbs every field: `Im (E† ε E) > 0`. -/
def Absorbing (eps : Matrix (Fin 3) (Fin 3) ℂ) : Prop :=
  ∀ E : Fin 3 → ℂ, E ≠ 0 → 0 < (star E ⬝ᵥ eps *ᵥ E).im

/-- The wave vector `k = (kx, 0, kz)` (in units of k0) is shorter than that of every plane wave in this direction: `|k × E|² < Re (E† ε E)`
for all fields, whereas a plane wave of a transparent medium has `|k × E|² = E† ε E`. Such a `kz` exists as long as none of the
waves in the medium is totally reflected. -/
def Inside (kx kz : ℝ) (eps : Matrix (Fin 3) (Fin 3) ℂ) : Prop :=
  ∀ E : Fin 3 → ℂ, E ≠ 0 →
    ‖kz * E 1‖ ^ 2 + ‖kz * E 0 - kx * E 2‖ ^ 2 + ‖kx * E 1‖ ^ 2 < (star E ⬝ᵥ eps *ᵥ E).re

/-- z component of the time-averaged Poynting vector (up to a positive factor) of the tangential fields
(E_x, E_y, H_x, H_y). -/
noncomputable def flux (v : Fin 4 → ℂ) : ℝ :=
  (v 0 * (starRingEnd ℂ) (v 3) - v 1 * (starRingEnd ℂ) (v 2)).re

/-- Maxwell's equations for fields `E, H` that depend on x as `exp(i kx x)`, not on y, and have z-derivatives `E', H'` (all in units of
k0): `curl E = i H`, `curl H = -i ε E`. -/
def Maxwell (kx : ℂ) (eps : Matrix (Fin 3) (Fin 3) ℂ) (E H E' H' : Fin 3 → ℂ) : Prop :=
  let D := eps *ᵥ E
  -- curl E = (∂y Ez - ∂z Ey, ∂z Ex - ∂x Ez, ∂x Ey - ∂y Ex)
  (-E' 1 = I * H 0 ∧ E' 0 - I * kx * E 2 = I * H 1 ∧ I * kx * E 1 = I * H 2) ∧
  (-H' 1 = -I * D 0 ∧ H' 0 - I * kx * H 2 = -I * D 1 ∧ I * kx * H 1 = -I * D 2)

/-- Continuity of the tangential fields at an interface between two media with indices `n, n'` and direction cosines `c, c'`, for an
incident s wave of unit amplitude. -/
def InterfaceS (n c n' c' r t : ℂ) : Prop := 1 + r = t ∧ n * c * (1 - r) = n' * c' * t

/-- The same for p waves: tangential E is `c (1 - r)`, tangential H is `n (1 + r)`. -/
def InterfaceP (n c n' c' r t : ℂ) : Prop := c * (1 - r) = c' * t ∧ n * (1 + r) = n' * t

end Spec
