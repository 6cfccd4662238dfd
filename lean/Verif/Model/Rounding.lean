import Verif.Model.Angles
import Verif.Model.Structure
import Verif.Model.Units

/-!
# Short computations in double precision

The functions of the package that are short enough to follow every rounding: the wrapping of delta, the slices of inhomogeneous layers, the
unit conversions. IEEE arithmetic rounds the exact result of each operation to a nearest double; how ties are broken is left open, so that
everything proved holds for ties to even. Infinities are not modelled: the doubles have no upper end (the statements bound their inputs).
-/

namespace PyElli

/-- A binary64 number: 53 bits, exponents from -1074, no upper end. -/
def IsDouble (x : ℝ) : Prop := ∃ m e : ℤ, |m| ≤ 2 ^ 53 ∧ -1074 ≤ e ∧ x = m * 2 ^ e

/-- Rounding to a nearest double. -/
structure Rounding where
  rd : ℝ → ℝ
  double : ∀ x, IsDouble (rd x)
  nearest : ∀ x y, IsDouble y → |rd x - x| ≤ |y - x|

namespace Rounding

variable (R : Rounding)

/-- C's `fmod`, which is exact: the remainder with the sign of the dividend. -/
noncomputable def fmod (a b : ℝ) : ℝ := if 0 ≤ a / b then a - b * ⌊a / b⌋ else a - b * ⌈a / b⌉

/-- numpy's float remainder (`npy_divmod`): `fmod`, and the divisor added, with rounding, when the signs differ. -/
noncomputable def mod (a b : ℝ) : ℝ :=
  if fmod a b = 0 then 0
  else if (b < 0) ≠ (fmod a b < 0) then R.rd (fmod a b + b)
  else fmod a b

/-- The wrapping of delta, `utils.py:53` and `result.py:115-118, 129-132, 200-203, 215-220`, rounded step by step. -/
noncomputable def shiftDelta (x : ℝ) (r : DeltaRange) : ℝ := R.rd (R.mod (R.rd (x + r.lower)) 360 + r.lower)

/-- `convert_delta_range`, `utils.py:39-53`, for one double. -/
noncomputable def convertDeltaRange (delta : ℝ) (lower upper : PyNum) : Except PyErr ℝ :=
  (mkDeltaRange lower upper).map (R.shiftDelta delta)

/-- Interior point of numpy's `linspace(0, t, div + 1)`: the step times the index, or the fraction times `t` when the step underflows. -/
noncomputable def linPoint (t : ℝ) (div k : ℕ) : ℝ :=
  if R.rd (t / div) = 0 then R.rd (R.rd (k / div) * t) else R.rd (k * R.rd (t / div))

/-- `InhomogeneousLayer.get_slices`, `structure.py:247-253`: numpy stores the end point itself. Adding the start `0` is exact. -/
noncomputable def getSlices (t : ℝ) (div : ℕ) : List ℝ := ((List.range div).map fun k => R.linPoint t div k) ++ [t]

/-- `np.diff(z)`, `structure.py:269`. -/
noncomputable def diffs : List ℝ → List ℝ
  | a :: b :: t => R.rd (b - a) :: diffs (b :: t)
  | _ => []

/-- `(z[:-1] + z[1:]) / 2.0`, `structure.py:270`. -/
noncomputable def midpoints (z : List ℝ) : List ℝ := List.zipWith (fun a b => R.rd (R.rd (a + b) / 2)) z.dropLast z.tail

/-- The argument of the modulation, `structure.py:394-396`, for a positive thickness. -/
noncomputable def fraction (z t : ℝ) : ℝ := R.rd (z / t)

/-- `conversion_wavelength_energy`, `utils.py:201-213`; the constants are doubles. -/
noncomputable def wavelengthEnergy (c h nano v : ℝ) : ℝ := R.rd (R.rd (c * h) / R.rd (v * nano))

/-- `conversion_frequency2energy`, `utils.py:216-228`. -/
noncomputable def frequency2Energy (h f : ℝ) : ℝ := R.rd (f * h)

/-- `conversion_energy2frequency`, `utils.py:231-243`. -/
noncomputable def energy2Frequency (h E : ℝ) : ℝ := R.rd (E / h)

/-- `conversion_wavelength_frequency`, `utils.py:246-258`. -/
noncomputable def wavelengthFrequency (c nano v : ℝ) : ℝ := R.rd (c / R.rd (v * nano))

/-- `conversion_wavelength_wavenumber`, `utils.py:261-274`; `1e7` is a double. -/
noncomputable def wavelengthWavenumber (v : ℝ) : ℝ := R.rd (1e7 / v)

end Rounding

end PyElli
