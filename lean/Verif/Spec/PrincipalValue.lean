import Mathlib.MeasureTheory.Integral.IntervalIntegral.Basic
import Mathlib.Order.Filter.AtTopBot.Basic

/-! # Cauchy principal value -/

namespace Spec

open Filter Topology

/-- `v` is the principal value of the integral of `F` over `[a, b]` with a singularity at `w`: the limit of the integral with a symmetric gap around `w`. -/
def IsPV (F : ℝ → ℝ) (a w b v : ℝ) : Prop :=
  Tendsto (fun d => (∫ x in a..(w - d), F x) + ∫ x in (w + d)..b, F x) (𝓝[>] 0) (𝓝 v)

/-- `v` is the principal value of the integral of `F` over `(0, ∞)` with a singularity at `w`. -/
def IsPVHalf (F : ℝ → ℝ) (w v : ℝ) : Prop :=
  ∃ V : ℝ → ℝ → ℝ, (∀ a b, 0 < a → a < w → w < b → IsPV F a w b (V a b)) ∧
    Tendsto (fun p : ℝ × ℝ => V p.1 p.2) (𝓝[>] 0 ×ˢ atTop) (𝓝 v)

/-- The Kramers-Kronig relations at `w`: the real part of `χ` is `2/π P∫ x Im χ(x)/(x² - w²) dx`. -/
def KkReal (χ : ℝ → ℂ) (w : ℝ) : Prop := IsPVHalf (fun x => x * (χ x).im / (x ^ 2 - w ^ 2)) w (Real.pi / 2 * (χ w).re)

/-- The other relation: the imaginary part of `χ` is `-2/π P∫ w Re χ(x)/(x² - w²) dx`. -/
def KkImag (χ : ℝ → ℂ) (w : ℝ) : Prop := IsPVHalf (fun x => w * (χ x).re / (x ^ 2 - w ^ 2)) w (-(Real.pi / 2 * (χ w).im))

end Spec
