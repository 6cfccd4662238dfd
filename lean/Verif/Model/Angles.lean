import Verif.Model.Base
import Mathlib.Data.Complex.Basic
import Mathlib.Analysis.SpecialFunctions.Complex.Arg
import Mathlib.Analysis.SpecialFunctions.Trigonometric.Arctan
import Mathlib.Algebra.Order.Floor.Ring

/-!
# Ellipsometric angles: `utils.py` (delta ranges, rho) and the scalar part of `result.py`
-/

namespace PyElli

open Complex

/-- `np.deg2rad`. -/
noncomputable def deg2rad (x : ℝ) : ℝ := x * (Real.pi / 180)

/-- `np.rad2deg`. -/
noncomputable def rad2deg (x : ℝ) : ℝ := x * (180 / Real.pi)

/-- `np.mod(x, m)` on floats with `m > 0` (result has the sign of `m`). Only used with `m = 360`. -/
noncomputable def npMod (x m : ℝ) : ℝ := x - m * (⌊x / m⌋ : ℤ)

/-- `DeltaRange`, the frozen dataclass `utils.py:13-16`; the accepted bounds are stored as their
numeric value. -/
structure DeltaRange where
  lower : ℝ
  upper : ℝ

open Classical in
/-- `DeltaRange.__post_init__`, `utils.py:18-36`, in the order of the source: the `isinstance` test, the
lower bound, the upper bound, the span. A comparison with a non-number raises `TypeError`. -/
noncomputable def mkDeltaRange (lower upper : PyNum) : Except PyErr DeltaRange :=
  if (!(lower.isInt || upper.isInt)) = true then .error .typeError
  else
    lower.toReal.bind fun lo =>
      if ¬ (-360 ≤ lo ∧ lo ≤ 0) then .error .valueError
      else
        upper.toReal.bind fun up =>
          if ¬ (0 ≤ up ∧ up ≤ 360) then .error .valueError
          else if ¬ ((lo = 0 ∧ up = 180) ∨ |up - lo| = 360) then .error .valueError
          else .ok ⟨lo, up⟩

/-- The shift formula `np.mod(x + lower, 360) + lower` shared by `utils.py:53` and
`result.py:115-118, 129-132, 200-203, 215-220`. -/
noncomputable def shiftDelta (x : ℝ) (r : DeltaRange) : ℝ :=
  npMod (x + r.lower) 360 + r.lower

/-- `convert_delta_range`, `utils.py:39-53`, for one value. -/
noncomputable def convertDeltaRange (delta : ℝ) (lower upper : PyNum) : Except PyErr ℝ :=
  (mkDeltaRange lower upper).map (shiftDelta delta)

/-- `calc_rho`, `utils.py:87-105`, for one row of the data frame. -/
noncomputable def calcRho (psi delta : ℝ) : ℂ :=
  (Real.tan (deg2rad psi) : ℂ) * Complex.exp (-I * (deg2rad delta : ℂ))

/-- The last step of `Result.rho`/`Result.rho_t`, `result.py:71-73, 80-82`: for the range (0, 180) the
imaginary part is replaced by minus its absolute value. -/
noncomputable def foldRho (r : DeltaRange) (rho : ℂ) : ℂ :=
  open Classical in
  if r.lower = 0 ∧ r.upper = 180 then ⟨rho.re, -|rho.im|⟩ else rho

/-- `np.rad2deg(np.arctan(np.abs(rho)))`, `result.py:93, 104, 176, 188`. -/
noncomputable def psiOf (rho : ℂ) : ℝ := rad2deg (Real.arctan ‖rho‖)

/-- `np.mod(-np.angle(rho, deg=True) + lower, 360) + lower`, `result.py:115-118` and the other three
delta properties. -/
noncomputable def deltaOf (r : DeltaRange) (rho : ℂ) : ℝ :=
  shiftDelta (-(rad2deg (Complex.arg rho))) r

end PyElli
