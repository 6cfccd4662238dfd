import Mathlib.Analysis.SpecialFunctions.Trigonometric.Basic

/-! # Bloch waves of a two-layer period (Yeh, Yariv, Hong 1977) -/

namespace Spec

/-- `cos(K Λ)` of the Bloch wave of a period of two layers with phase thicknesses `b1`, `b2` and wave admittances `z1`, `z2`. The period has a
stop band where the modulus of this is above one. -/
noncomputable def blochCos (z1 z2 b1 b2 : ℝ) : ℝ :=
  Real.cos b1 * Real.cos b2 - (z1 / z2 + z2 / z1) / 2 * Real.sin b1 * Real.sin b2

end Spec
