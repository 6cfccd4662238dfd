import Verif.Model.Solver
import Verif.Model.Angles

/-! # Functions of `utils.py` that do not belong to another module -/

namespace PyElli

open Complex

open Classical in
/-- `eps` in `calc_pseudo_diel`, `/repo/src/elli/utils.py:74-75`. `none`: division by zero (`1 + rho = 0`), or the tangent of 90
degrees. -/
noncomputable def pseudoEps (rho : ℂ) (angle : ℝ) : Option ℂ :=
  let theta : ℝ := angle * Real.pi / 180
  if 1 + rho = 0 ∨ Real.cos theta = 0 then none
  else some ((Real.sin theta : ℂ) ^ 2 * (1 + (Real.tan theta : ℂ) ^ 2 * ((1 - rho) / (1 + rho)) ^ 2))

/-- Row of the frame returned by `calc_pseudo_diel`. -/
inductive PseudoOut
  | nk (n k : ℝ)
  | epsi (e : ℂ)
  | eps (e1 e2 : ℝ)

/-- `calc_pseudo_diel`, `utils.py:56-84`, for one row; every output format other than `"n"` and `"epsi"` gives the two-column frame. -/
noncomputable def calcPseudoDiel (rho : ℂ) (angle : ℝ) (output : String) : Option PseudoOut :=
  (pseudoEps rho angle).map fun e =>
    if output = "n" then .nk (Complex.sqrt e).re (Complex.sqrt e).im
    else if output = "epsi" then .epsi e
    else .eps e.re e.im

/-- `get_qwp_thickness`, `utils.py:181-192`, as a function of the tensor of the material at the wavelength. -/
noncomputable def qwpThickness (eps : Tensor) (lbda : ℝ) : ℝ := lbda / (4 * (nOf eps).re)

end PyElli
