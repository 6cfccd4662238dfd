import Mathlib.Data.Real.Basic

/-! # The wavelength of an axis label (specification) -/

namespace Spec.MeasFile

/-- How a number `x` in a file stands for light: as a length of `x` times so many nanometres, or as `x` units of energy, frequency or
wavenumber, one of which belongs to light of so many nanometres. -/
inductive AxisUnit
  | length (nm : ℝ)
  | reciprocal (nm : ℝ)

/-- The wavelength in nanometres of the light a label stands for; the wavelength of light is inversely proportional to its energy. -/
noncomputable def wavelengthOf : AxisUnit → ℝ → ℝ
  | .length nm, x => x * nm
  | .reciprocal nm, x => nm / x

end Spec.MeasFile
