import Mathlib.Data.Complex.Basic

/-! # What tabulated curves mean (specification, independent of the model) -/

namespace Spec

/-- The chord through two points of a curve, evaluated at `x`. -/
noncomputable def chord (p q : ℝ × ℂ) (x : ℝ) : ℂ := p.2 + ((x - p.1) / (q.1 - p.1) : ℝ) * (q.2 - p.2)

end Spec
