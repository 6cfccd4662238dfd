import Mathlib.Analysis.SpecialFunctions.Exp
import Mathlib.MeasureTheory.Integral.Bochner.Set
import Mathlib.MeasureTheory.Measure.Lebesgue.Basic
import Mathlib.Analysis.SpecialFunctions.Complex.Circle

/-! # Causal responses (C90) -/

namespace Spec

open Complex

/-- Susceptibility at frequency `x` of a system with real response `φ(t)` at time `t > 0` after a unit pulse (nothing happens before the pulse):
`∫₀^∞ e^(ixt) φ(t) dt`. -/
noncomputable def susceptibility (φ : ℝ → ℝ) (x : ℝ) : ℂ := ∫ t in Set.Ioi (0 : ℝ), Complex.exp (I * x * t) * ((φ t : ℝ) : ℂ)

end Spec
