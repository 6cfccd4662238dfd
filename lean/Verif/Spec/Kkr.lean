import Mathlib.Algebra.BigOperators.Group.Finset.Basic
import Mathlib.Analysis.Real.Pi.Bounds

/-! # Maclaurin's formula for the Kramers-Kronig integral (Ohta and Ishida 1988) -/

namespace Spec

/-- At point `i` of an axis with spacing `h`: `(2/π) · 2h · Σ` over the points of the other parity. -/
noncomputable def maclaurin (kernel : ℝ → ℝ → ℝ) (t x : ℕ → ℝ) (h : ℝ) (n i : ℕ) : ℝ :=
  2 / Real.pi * (2 * h) * ∑ j ∈ Finset.range n, if j % 2 ≠ i % 2 then kernel (x j) (x i) * t j else 0

end Spec
