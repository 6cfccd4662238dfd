import Mathlib.Data.Real.Basic

/-! # Bounds for the dielectric constant of mixtures (C137)

Vocabulary of the theory of composites, for constituents `h` and `g` with volume fractions `1 - f` and `f`. -/

namespace Spec

/-- Wiener's upper bound: layers along the field. -/
noncomputable def arithmeticMean (h g f : ℝ) : ℝ := (1 - f) * h + f * g

/-- Wiener's lower bound: layers across the field. -/
noncomputable def harmonicMean (h g f : ℝ) : ℝ := ((1 - f) / h + f / g)⁻¹

/-- The bound of Hashin and Shtrikman (1962) for isotropic mixtures: spheres of `g` coated with `h`, in all sizes. -/
noncomputable def coatedSpheres (h g f : ℝ) : ℝ := h + f / (1 / (g - h) + (1 - f) / (3 * h))

/-- Between two numbers, in whatever order they are. -/
def Between (a b x : ℝ) : Prop := min a b ≤ x ∧ x ≤ max a b

end Spec
