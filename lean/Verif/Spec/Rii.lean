import Mathlib.Analysis.SpecialFunctions.Pow.Real
import Mathlib.Data.Complex.Basic
import Mathlib.Data.Option.NAry

/-! # The dispersion formulas of refractiveindex.info (specification)

As documented on the web site, wavelength `x` in micrometres, coefficients `C1, C2, …`. -/

namespace Spec.Rii

/-- Coefficients in pairs; an incomplete pair at the end is no term. -/
def pairs : List ℝ → List (ℝ × ℝ)
  | a :: b :: r => (a, b) :: pairs r
  | _ => []

/-- Coefficients in groups of four; an incomplete group at the end is no term. -/
def fours : List ℝ → List (ℝ × ℝ × ℝ × ℝ)
  | a :: b :: c :: d :: r => (a, b, c, d) :: fours r
  | _ => []

/-- Formula 1 (Sellmeier, preferred): `n² - 1 = C1 + C2 x² / (x² - C3²) + …`. -/
noncomputable def nSq1 (c1 : ℝ) (c : List ℝ) (x : ℝ) : ℝ := 1 + c1 + ((pairs c).map fun p => p.1 * x ^ 2 / (x ^ 2 - p.2 ^ 2)).sum

/-- Formula 2 (Sellmeier-2): `n² - 1 = C1 + C2 x² / (x² - C3) + …`. -/
noncomputable def nSq2 (c1 : ℝ) (c : List ℝ) (x : ℝ) : ℝ := 1 + c1 + ((pairs c).map fun p => p.1 * x ^ 2 / (x ^ 2 - p.2)).sum

/-- Formula 3 (polynomial): `n² = C1 + C2 x^C3 + …`. -/
noncomputable def nSq3 (c1 : ℝ) (c : List ℝ) (x : ℝ) : ℝ := c1 + ((pairs c).map fun p => p.1 * x ^ p.2).sum

/-- Formula 4 (RefractiveIndex.INFO): `n² = C1 + C2 x^C3 / (x² - C4^C5) + C6 x^C7 / (x² - C8^C9) + C10 x^C11 + …`. -/
noncomputable def nSq4 (c1 : ℝ) (c : List ℝ) (x : ℝ) : ℝ :=
  c1 + ((fours (c.take 8)).map fun q => q.1 * x ^ q.2.1 / (x ^ 2 - q.2.2.1 ^ q.2.2.2)).sum
    + ((pairs (c.drop 8)).map fun p => p.1 * x ^ p.2).sum

/-- Formula 5 (Cauchy): `n = C1 + C2 x^C3 + …`. -/
noncomputable def n5 (c1 : ℝ) (c : List ℝ) (x : ℝ) : ℝ := c1 + ((pairs c).map fun p => p.1 * x ^ p.2).sum

/-- The power `b ^ e` is a real number: not a fractional power of a negative number, not a negative power of zero. -/
def PowDefined (b e : ℝ) : Prop := (b < 0 → ∃ n : ℤ, e = n) ∧ (b = 0 → 0 ≤ e)

/-- `z` is the total of the values `xs` (each an exception, NaN as `none`, or a complex number): it exists exactly when all exist, and is
NaN exactly when one of them is. -/
def TotalOf {ε : Type} (z : Except ε (Option ℂ)) (xs : List (Except ε (Option ℂ))) : Prop :=
  ∀ v, z = .ok v ↔ ∃ us : List (Option ℂ), xs = us.map .ok ∧ v = us.foldr (Option.map₂ (· + ·)) (some 0)

end Spec.Rii
