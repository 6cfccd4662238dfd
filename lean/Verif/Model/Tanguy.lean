import Verif.Model.Dispersion
import Mathlib.Analysis.SpecialFunctions.Gamma.Digamma
import Mathlib.Analysis.SpecialFunctions.Gamma.Beta

/-! # The Tanguy dispersion: `/repo/src/elli/dispersions/tanguy.py`

Values are complex numbers; `none` stands for NaN or an infinity. `scipy.special.gamma` and `digamma` are the Gamma function and its
logarithmic derivative, without a value at the nonpositive integers. The square root and the power are the principal ones; for a
broadening of exactly zero numpy decides by the sign of a zero imaginary part on which side of the cut the root is taken, which is
not modelled (the theorems are about positive broadenings). -/

namespace PyElli

open Complex

open Classical in
/-- `scipy.special.gamma`. -/
noncomputable def gammaN (s : ℂ) : Option ℂ := if ∃ m : ℕ, s = -m then none else some (Complex.Gamma s)

open Classical in
/-- `scipy.special.digamma`. -/
noncomputable def digammaN (s : ℂ) : Option ℂ := if ∃ m : ℕ, s = -m then none else some (Complex.digamma s)

open Classical in
/-- `np.log` of a complex number. -/
noncomputable def clogN (z : ℂ) : Option ℂ := if z = 0 then none else some (Complex.log z)

open Classical in
/-- `z ** e` for a complex base and a real exponent; a power of zero is only used as a divisor here and has no value. -/
noncomputable def cpowN (z : ℂ) (e : ℝ) : Option ℂ := if z = 0 then none else some (z ^ (e : ℂ))

open Classical in
/-- `1 / np.tan(x)`, without a value where the tangent is zero (where the tangent is infinite the quotient is zero). -/
noncomputable def cotN (x : ℂ) : Option ℂ := if Complex.sin x = 0 then none else some (1 / Complex.tan x)

/-- `Tanguy.xsi`, `/repo/src/elli/dispersions/tanguy.py:77-79`. -/
noncomputable def tanguyXsi (z : ℂ) (R Eg : ℝ) : Option ℂ := (divN (R : ℂ) (Eg - z)).map Complex.sqrt

open Classical in
/-- `Tanguy.g`, `/repo/src/elli/dispersions/tanguy.py:81-97`. -/
noncomputable def tanguyG (xsi : ℂ) (d : ℝ) : Option ℂ :=
  if d = 2 then do
    let l ← clogN xsi
    let p ← digammaN (0.5 - xsi)
    some (2 * l - 2 * p)
  else if d = 3 then do
    let l ← clogN xsi
    let p ← digammaN (1 - xsi)
    let q ← divN 1 xsi
    some (2 * l - 2 * p - q)
  else do
    let D : ℝ := d - 1
    let g1 ← gammaN ((D / 2 : ℝ) + xsi)
    let g2 ← gammaN (D / 2 : ℝ)
    let g3 ← gammaN ((1 - D / 2 : ℝ) + xsi)
    let p ← cpowN xsi (d - 2)
    let q1 ← divN (2 * (Real.pi : ℂ) * g1) (g2 ^ 2)
    let q2 ← divN q1 g3
    let q3 ← divN q2 p
    let c1 ← cotN (Real.pi * ((D / 2 : ℝ) - xsi))
    let c2 ← cotN (Real.pi * D : ℝ)
    some (q3 * (c1 - c2))

/-- `Tanguy.dielectric_function`, `/repo/src/elli/dispersions/tanguy.py:55-75`. -/
noncomputable def tanguy (K : PhysConst) (s : Dict ℝ) (lbda : ℝ) : Option ℂ := do
  let E ← conversionWavelengthEnergy K lbda
  let A ← s.get "A"
  let d ← s.get "d"
  let gam ← s.get "gamma"
  let R ← s.get "R"
  let Eg ← s.get "Eg"
  let a ← s.get "a"
  let b ← s.get "b"
  let back ← divN a (b - E ^ 2)
  let p ← powN R (d / 2 - 1)
  let q ← divN ((A * p : ℝ) : ℂ) (((E : ℂ) + I * gam) ^ 2)
  let x1 ← tanguyXsi (E + I * gam) R Eg
  let x2 ← tanguyXsi (-E - I * gam) R Eg
  let x0 ← tanguyXsi ((E * 0 : ℝ)) R Eg
  let g1 ← tanguyG x1 d
  let g2 ← tanguyG x2 d
  let g0 ← tanguyG x0 d
  some (1 + back + q * (g1 + g2 - 2 * g0))

end PyElli
