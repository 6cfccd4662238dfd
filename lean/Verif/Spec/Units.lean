import Mathlib.Data.Real.Basic

/-! # What the unit conversions should compute -/

namespace Spec.Units

/-- One photon described by its vacuum wavelength in nm, energy in eV, frequency in Hz and wavenumber in 1/cm, for light velocity `c` in
m/s and Planck constant `h` in eV s: `E = h f`, `λ f = c`, `λ σ = 1` (with one cm being 10^7 nm and one m being 10^9 nm). -/
structure Photon (c h lbda E f sigma : ℝ) : Prop where
  planck : E = h * f
  wave : lbda * f = c * 10 ^ 9
  number : lbda * sigma = 10 ^ 7

end Spec.Units
