import Mathlib.Data.Real.Basic

/-! # Absorption formulas of the literature -/

namespace Spec

/-- The absorption of one Tauc-Lorentz oscillator (Jellison and Modine 1996): `A E₀ C (E - E_g)² / ((E² - E₀²)² + C²E²) / E`
above the gap, zero below. -/
noncomputable def taucAbsorption (E Eg A E0 C : ℝ) : ℝ :=
  if E ≤ Eg then 0 else A * E0 * C * (E - Eg) ^ 2 / ((E ^ 2 - E0 ^ 2) ^ 2 + C ^ 2 * E ^ 2) / E

end Spec
