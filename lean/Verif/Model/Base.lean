import Mathlib.Data.Real.Basic

/-!
# Shared vocabulary of the model

Python exceptions are modelled as values of `PyErr`; a function that may raise returns `Except PyErr α`.
-/

namespace PyElli

/-- Exceptions raised by the modelled code (built-in ones and
`dispersions/base_dispersion.py` `InvalidParameters`). Only the class is kept, not the message. -/
inductive PyErr
  | typeError
  | valueError
  | indexError
  | keyError
  | attributeError
  | zeroDivisionError
  | importError
  | notImplemented
  | invalidParameters
  | axisError
  | unboundLocal
  | parseError
  | recursionError
  | visitError
  deriving DecidableEq, Repr

/-- A Python value that is passed where a number is expected: `int`, `float` (as an exact
real; NaN/inf are not modelled) or an object that is not a number. -/
inductive PyNum
  | int (i : ℤ)
  | float (x : ℝ)
  | other

/-- Python `isinstance(x, int)`. -/
def PyNum.isInt : PyNum → Bool
  | .int _ => true
  | _ => false

/-- The numeric value used in comparisons; comparing a non-number with a number raises `TypeError`. -/
def PyNum.toReal : PyNum → Except PyErr ℝ
  | .int i => .ok i
  | .float x => .ok x
  | .other => .error .typeError

end PyElli
