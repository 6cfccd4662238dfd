import Verif.Model.Base
import Mathlib.Analysis.SpecialFunctions.Pow.Real
import Mathlib.Data.Complex.Basic
import Mathlib.Analysis.Complex.Basic

/-!
# Incident polarisation: `experiment.py`
-/

namespace PyElli

open Complex

/-- The attribute `jones_vector`: not set yet (`experiment.py:30`, class-level `None`), an array containing
NaN, or a pair of finite complex numbers. -/
inductive JonesVal
  | unset
  | nan
  | vec (a b : ℂ)

/-- The part of an `Experiment` that `set_vector` changes. -/
structure Pol where
  jones : JonesVal
  stokes : Option (ℝ × ℝ × ℝ × ℝ)

/-- Argument of `set_vector` after `np.asarray`: `None`, shape `(2,)`, shape `(4,)` (real entries), or any
other shape. -/
inductive VecArg
  | none
  | jones (a b : ℂ)
  | stokes (s0 s1 s2 s3 : ℝ)
  | otherShape

/-- The Jones vector computed from a Stokes vector, `experiment.py:112-131`. With `s0 = 0`, or with
`s1 = s2 = s3 = 0`, the code divides by zero (`p` is NaN/inf, or `s0 * p = 0`) and every entry becomes NaN. -/
noncomputable def jonesOfStokes (s0 s1 s2 s3 : ℝ) : JonesVal :=
  open Classical in
  let p : ℝ := Real.sqrt (s1 ^ 2 + s2 ^ 2 + s3 ^ 2) / s0
  if s0 = 0 ∨ s0 * p = 0 then .nan
  else
    let Q := s1 / (s0 * p)
    let U := s2 / (s0 * p)
    let V := s3 / (s0 * p)
    if Q = -1 then .vec 0 1
    else
      let a : ℝ := Real.sqrt ((1 + Q) / 2)
      .vec a ((U / (2 * a) : ℝ) + I * (V / (2 * a) : ℝ))

/-- The Stokes vector computed from a Jones vector, `experiment.py:92-107`. -/
noncomputable def stokesOfJones (a b : ℂ) : ℝ × ℝ × ℝ × ℝ :=
  (‖a‖ ^ 2 + ‖b‖ ^ 2, ‖a‖ ^ 2 - ‖b‖ ^ 2,
    2 * (a * (starRingEnd ℂ) b).re, -2 * (a * (starRingEnd ℂ) b).im)

/-- `Experiment.set_vector`, `experiment.py:65-131`. `None` is replaced by `[1, 0, 1, 0]`; a shape other
than `(2,)` and `(4,)` falls through both branches. -/
noncomputable def setVector (st : Pol) : VecArg → Pol
  | .none => ⟨jonesOfStokes 1 0 1 0, some (1, 0, 1, 0)⟩
  | .jones a b => ⟨.vec a b, some (stokesOfJones a b)⟩
  | .stokes s0 s1 s2 s3 => ⟨jonesOfStokes s0 s1 s2 s3, some (s0, s1, s2, s3)⟩
  | .otherShape => st

/-- Initial value of the two attributes: `experiment.py:30-31`. -/
def Pol.init : Pol := ⟨.unset, none⟩

end PyElli
