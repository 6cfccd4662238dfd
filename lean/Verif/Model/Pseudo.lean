import Verif.Model.Utils
import Verif.Model.Base

/-! # `PseudoDielectricFunction`, `/repo/src/elli/dispersions/pseudo_dielectric.py` -/

namespace PyElli

/-- Cubic splines of scipy (`interp1d(kind="cubic")`): some function through the given points. -/
structure Spline where
  eval : List (ℝ × ℂ) → ℝ → ℂ
  node : ∀ rows : List (ℝ × ℂ), (rows.map Prod.fst).Nodup → ∀ r ∈ rows, eval rows r.1 = r.2

open Classical in
/-- `PseudoDielectricFunction.__init__`, `pseudo_dielectric.py:46-61`, after the parameters were filled, and `dielectric_function`, 66-67.
`interp1d` refuses arrays of different lengths, fewer than four points and repeated wavelengths, and on evaluation wavelengths outside of
the table. `none`: NaN, which one NaN of the table passes on to every value. Simplification: psi and delta have the same length (numpy
would also repeat a single value). -/
noncomputable def mkPseudo (S : Spline) (angle : ℝ) (lbda psi delta : List ℝ) : Except PyErr (ℝ → Except PyErr (Option ℂ)) :=
  if psi.length ≠ delta.length then .error .valueError
  else if lbda.length ≠ psi.length then .error .valueError
  else if lbda.length < 4 then .error .valueError
  else if ¬ lbda.Nodup then .error .valueError
  else .ok fun x =>
    if (∀ l ∈ lbda, x < l) ∨ (∀ l ∈ lbda, l < x) then .error .valueError
    else .ok (((psi.zip delta).mapM fun pd => pseudoEps (calcRho pd.1 pd.2) angle).map fun eps => S.eval (lbda.zip eps) x)

end PyElli
