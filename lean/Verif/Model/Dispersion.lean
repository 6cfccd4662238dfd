import Verif.Model.Params
import Verif.Model.Kkr
import Mathlib.Analysis.RCLike.Sqrt
import Mathlib.Analysis.SpecialFunctions.Complex.Arctan
import Mathlib.Analysis.SpecialFunctions.Pow.Real

/-! # Dispersion formulas: `/repo/src/elli/dispersions/*.py`

Parameters are dictionaries of real numbers, the wavelength is one real number (numpy works point by point). The result is `none`
where the code computes NaN or an infinity (or raises `ZeroDivisionError` on Python scalars), and when a parameter is missing.  -/

namespace PyElli

open Complex

/-- The physical constants the code takes from `scipy.constants`: speed of light (m/s), Planck constant (eV s), vacuum
permittivity. Their values are not used, only their signs. -/
structure PhysConst where
  c : ℝ
  h : ℝ
  eps0 : ℝ
  c_pos : 0 < c
  h_pos : 0 < h
  eps0_pos : 0 < eps0

/-- `conversion_wavelength_energy`, `/repo/src/elli/utils.py:201-213`. -/
noncomputable def conversionWavelengthEnergy (K : PhysConst) (v : ℝ) : Option ℝ := divN (K.c * K.h) (v * 1e-9)

open Classical in
/-- Power of real floats as numpy computes it: NaN for a negative base with fractional exponent, infinity for zero to a
negative exponent. -/
noncomputable def powN (x e : ℝ) : Option ℝ :=
  if x < 0 ∧ ¬ ∃ n : ℤ, e = n then none else if x = 0 ∧ e < 0 then none else some (x ^ e)

/-- A real number as complex number. -/
noncomputable def toC (x : Option ℝ) : Option ℂ := x.map fun r => (r : ℂ)

/-! ## Index dispersions -/

/-- `ConstantRefractiveIndex.refractive_index`, `/repo/src/elli/dispersions/constant_refractive_index.py:26-27`. -/
noncomputable def constantIndex (s : Dict ℝ) (_lbda : ℝ) : Option ℂ := toC (s.get "n")

/-- `Cauchy.refractive_index`, `/repo/src/elli/dispersions/cauchy.py:35-46`. -/
noncomputable def cauchyIndex (s : Dict ℝ) (lbda : ℝ) : Option ℂ := do
  let n0 ← s.get "n0"
  let n1 ← divN (1e2 * (← s.get "n1")) (lbda ^ 2)
  let n2 ← divN (1e7 * (← s.get "n2")) (lbda ^ 4)
  let k0 ← s.get "k0"
  let k1 ← divN (1e2 * (← s.get "k1")) (lbda ^ 2)
  let k2 ← divN (1e7 * (← s.get "k2")) (lbda ^ 4)
  some (((n0 + n1 + n2 : ℝ) : ℂ) + I * ((k0 + k1 + k2 : ℝ) : ℂ))

/-- One summand of `CauchyCustomExponent` (`cauchy_custom.py:30`) and `Polynomial` (`polynomial.py:30`). -/
noncomputable def powerTerm (lbda : ℝ) (c : Dict ℝ) : Option ℂ := do
  let p ← powN lbda (← c.get "e")
  some (((← c.get "f") * p : ℝ) : ℂ)

/-- `CauchyCustomExponent.refractive_index`, `/repo/src/elli/dispersions/cauchy_custom.py:28-31`. -/
noncomputable def cauchyCustomIndex (s : Dict ℝ) (rep : List (Dict ℝ)) (lbda : ℝ) : Option ℂ := do
  let n0 ← s.get "n0"
  let t ← sumN (rep.map (powerTerm lbda))
  some ((n0 : ℂ) + t)

/-- `CauchyUrbach.refractive_index`, `/repo/src/elli/dispersions/cauchy_urbach.py:39-50`. -/
noncomputable def cauchyUrbachIndex (K : PhysConst) (s : Dict ℝ) (lbda : ℝ) : Option ℂ := do
  let energy ← conversionWavelengthEnergy K lbda
  let n0 ← s.get "n0"
  let B ← s.get "B"
  let C ← s.get "C"
  let D ← s.get "D"
  let x ← divN (energy - (← s.get "Eg")) (← s.get "Eu")
  some (((n0 + B * energy ^ 2 + C * energy ^ 4 : ℝ) : ℂ) + I * ((D * Real.exp x : ℝ) : ℂ))

/-! ## Dielectric dispersions -/

/-- `EpsilonInf.dielectric_function`, `/repo/src/elli/dispersions/epsilon_inf.py:27-28`. -/
noncomputable def epsilonInf (s : Dict ℝ) (_lbda : ℝ) : Option ℂ := toC (s.get "eps")

/-- `Polynomial.dielectric_function`, `/repo/src/elli/dispersions/polynomial.py:28-31`. -/
noncomputable def polynomial (s : Dict ℝ) (rep : List (Dict ℝ)) (lbda : ℝ) : Option ℂ := do
  let e0 ← s.get "e0"
  let t ← sumN (rep.map (powerTerm lbda))
  some ((e0 : ℂ) + t)

/-- One summand of `Sellmeier` (`sellmeier.py:32-33`), wavelength in micrometres. -/
noncomputable def sellmeierTerm (l : ℝ) (c : Dict ℝ) : Option ℂ := do
  toC (divN ((← c.get "A") * l ^ 2) (l ^ 2 - (← c.get "B")))

/-- `Sellmeier.dielectric_function`, `/repo/src/elli/dispersions/sellmeier.py:30-34`. -/
noncomputable def sellmeier (rep : List (Dict ℝ)) (lbda : ℝ) : Option ℂ := do
  let t ← sumN (rep.map (sellmeierTerm (lbda / 1e3)))
  some (1 + t)

/-- One summand of `SellmeierCustomExponent` (`sellmeier_custom.py:34-36`), wavelength in micrometres. -/
noncomputable def sellmeierCustomTerm (l : ℝ) (c : Dict ℝ) : Option ℂ := do
  let p ← powN l (← c.get "e_A")
  let q ← powN (← c.get "B") (← c.get "e_B")
  toC (divN ((← c.get "A") * p) (l ^ 2 - q))

/-- `SellmeierCustomExponent.dielectric_function`, `/repo/src/elli/dispersions/sellmeier_custom.py:32-37`. -/
noncomputable def sellmeierCustom (rep : List (Dict ℝ)) (lbda : ℝ) : Option ℂ :=
  sumN (rep.map (sellmeierCustomTerm (lbda / 1e3)))

/-- `DrudeEnergy.dielectric_function`, `/repo/src/elli/dispersions/drude_energy.py:32-36`. -/
noncomputable def drudeEnergy (K : PhysConst) (s : Dict ℝ) (lbda : ℝ) : Option ℂ := do
  let energy ← conversionWavelengthEnergy K lbda
  let A ← s.get "A"
  let gamma ← s.get "gamma"
  divN (A : ℂ) ((energy : ℂ) ^ 2 - I * gamma * energy)

/-- `DrudeResistivity.dielectric_function`, `/repo/src/elli/dispersions/drude_resistivity.py:38-47`. -/
noncomputable def drudeResistivity (K : PhysConst) (s : Dict ℝ) (lbda : ℝ) : Option ℂ := do
  let energy ← conversionWavelengthEnergy K lbda
  let hbar : ℝ := K.h / 2 / Real.pi
  let eps0 : ℝ := K.eps0 * 1e-2
  let rho ← s.get "rho_opt"
  let tau ← s.get "tau"
  divN ((hbar : ℂ) ^ 2) ((eps0 : ℂ) * rho * (tau * (energy : ℂ) ^ 2 - I * hbar * energy))

/-- One summand of `LorentzEnergy` (`lorentz_energy.py:34-37`). -/
noncomputable def lorentzEnergyTerm (energy : ℝ) (c : Dict ℝ) : Option ℂ := do
  let A ← c.get "A"
  let E ← c.get "E"
  let gamma ← c.get "gamma"
  divN (A : ℂ) ((E : ℂ) ^ 2 - (energy : ℂ) ^ 2 - I * gamma * energy)

/-- `LorentzEnergy.dielectric_function`, `/repo/src/elli/dispersions/lorentz_energy.py:32-37`. -/
noncomputable def lorentzEnergy (K : PhysConst) (rep : List (Dict ℝ)) (lbda : ℝ) : Option ℂ := do
  let energy ← conversionWavelengthEnergy K lbda
  let t ← sumN (rep.map (lorentzEnergyTerm energy))
  some (1 + t)

/-- One summand of `LorentzLambda` (`lorentz_lambda.py:34-39`). -/
noncomputable def lorentzLambdaTerm (lbda : ℝ) (c : Dict ℝ) : Option ℂ := do
  let A ← c.get "A"
  let r ← c.get "lambda_r"
  let gamma ← c.get "gamma"
  divN ((A : ℂ) * (lbda : ℂ) ^ 2) ((lbda : ℂ) ^ 2 - (r : ℂ) ^ 2 - I * gamma * lbda)

/-- `LorentzLambda.dielectric_function`, `/repo/src/elli/dispersions/lorentz_lambda.py:33-39`. -/
noncomputable def lorentzLambda (rep : List (Dict ℝ)) (lbda : ℝ) : Option ℂ := do
  let t ← sumN (rep.map (lorentzLambdaTerm lbda))
  some (1 + t)

/-- `Poles.dielectric_function`, `/repo/src/elli/dispersions/poles.py:31-35`. -/
noncomputable def poles (K : PhysConst) (s : Dict ℝ) (lbda : ℝ) : Option ℂ := do
  let energy ← conversionWavelengthEnergy K lbda
  let a ← divN (← s.get "A_ir") (energy ^ 2)
  let b ← divN (← s.get "A_uv") ((← s.get "E_uv") ^ 2 - energy ^ 2)
  some ((a + b : ℝ) : ℂ)

/-- One summand of `Gaussian` (`gaussian.py:58-71`); `dawsn` is `scipy.special.dawsn`, any function of a real number. -/
noncomputable def gaussianTerm (dawsn : ℝ → ℝ) (energy : ℝ) (c : Dict ℝ) : Option ℂ := do
  let ftos : ℝ := 2 * √(Real.log 2)
  let A ← c.get "A"
  let E ← c.get "E"
  let sigma ← c.get "sigma"
  let x ← divN (ftos * (energy + E)) sigma
  let y ← divN (ftos * (energy - E)) sigma
  some (((2 * A / √Real.pi * (dawsn x - dawsn y) : ℝ) : ℂ)
    + I * ((A * Real.exp (-y ^ 2) - A * Real.exp (-x ^ 2) : ℝ) : ℂ))

/-- `Gaussian.dielectric_function`, `/repo/src/elli/dispersions/gaussian.py:54-73`. -/
noncomputable def gaussian (dawsn : ℝ → ℝ) (K : PhysConst) (rep : List (Dict ℝ)) (lbda : ℝ) : Option ℂ := do
  let energy ← conversionWavelengthEnergy K lbda
  sumN (rep.map (gaussianTerm dawsn energy))

open Classical in
/-- `TaucLorentz.eps1`, `/repo/src/elli/dispersions/tauc_lorentz.py:33-52`. `sqrt` is `numpy.lib.scimath.sqrt`, so `alpha` is
imaginary for `Ci > 2 Ei` and the logarithms and arctangents become complex; `Complex.arctan` takes on the branch cut the value that
numpy takes for a positive zero real part. `none`: a division by zero or the logarithm of zero. -/
noncomputable def taucEps1 (E Eg Ai Ei Ci : ℝ) : Option ℂ :=
  let gamma2 : ℂ := Complex.sqrt ((Ei ^ 2 - Ci ^ 2 / 2 : ℝ) : ℂ) ^ 2
  let alpha : ℂ := Complex.sqrt ((4 * Ei ^ 2 - Ci ^ 2 : ℝ) : ℂ)
  let aL : ℝ := (Eg ^ 2 - Ei ^ 2) * E ^ 2 + Eg ^ 2 * Ci ^ 2 - Ei ^ 2 * (Ei ^ 2 + 3 * Eg ^ 2)
  let aA : ℝ := (E ^ 2 - Ei ^ 2) * (Ei ^ 2 + Eg ^ 2) + Eg ^ 2 * Ci ^ 2
  let zeta4 : ℂ := (E ^ 2 - gamma2) ^ 2 + alpha ^ 2 * Ci ^ 2 / 4
  let root : ℝ := √((Ei ^ 2 - Eg ^ 2) ^ 2 + Eg ^ 2 * Ci ^ 2)
  if zeta4 = 0 ∨ alpha = 0 ∨ Ei = 0 ∨ Ci = 0 ∨ E = 0 ∨ (Ei ^ 2 + Eg ^ 2 - alpha * Eg : ℂ) = 0 ∨ root = 0 ∨
      |E - Eg| / (E + Eg) ≤ 0 ∨ |E - Eg| * (E + Eg) ≤ 0 then none
  else some (
    Ai * Ci * aL / 2 / Real.pi / zeta4 / alpha / Ei *
        Complex.log ((Ei ^ 2 + Eg ^ 2 + alpha * Eg) / (Ei ^ 2 + Eg ^ 2 - alpha * Eg))
    - Ai * aA / Real.pi / zeta4 / Ei *
        (Real.pi - Complex.arctan ((2 * Eg + alpha) / Ci) + Complex.arctan ((alpha - 2 * Eg) / Ci))
    + 2 * Ai * Ei * Eg / Real.pi / zeta4 / alpha * (E ^ 2 - gamma2) *
        (Real.pi + 2 * Complex.arctan (2 / alpha / Ci * (gamma2 - Eg ^ 2)))
    - Ai * Ei * Ci * (E ^ 2 + Eg ^ 2) / Real.pi / zeta4 / E * (Real.log (|E - Eg| / (E + Eg)) : ℝ)
    + 2 * Ai * Ei * Ci * Eg / Real.pi / zeta4 * (Real.log (|E - Eg| * (E + Eg) / root) : ℝ))

open Classical in
/-- `np.heaviside(x, v)`. -/
noncomputable def heaviside (x v : ℝ) : ℝ := if x < 0 then 0 else if x = 0 then v else 1

/-- One summand of `TaucLorentz.dielectric_function` (`tauc_lorentz.py:58-71`). -/
noncomputable def taucTerm (energy energyG : ℝ) (c : Dict ℝ) : Option ℂ := do
  let A ← c.get "A"
  let E ← c.get "E"
  let C ← c.get "C"
  let q ← divN (A * E * C * (energy - energyG) ^ 2) ((energy ^ 2 - E ^ 2) ^ 2 + C ^ 2 * energy ^ 2)
  let q' ← divN q energy
  let e1 ← taucEps1 energy energyG A E C
  some (I * (q' : ℂ) * (heaviside (energy - energyG) 0 : ℝ) + e1)

/-- `TaucLorentz.dielectric_function`, `/repo/src/elli/dispersions/tauc_lorentz.py:54-72`. -/
noncomputable def taucLorentz (K : PhysConst) (s : Dict ℝ) (rep : List (Dict ℝ)) (lbda : ℝ) : Option ℂ := do
  let energy ← conversionWavelengthEnergy K lbda
  let energyG ← s.get "Eg"
  sumN (rep.map (taucTerm energy energyG))

/-- `G(E)` in `CodyLorentz.eps2`, `/repo/src/elli/dispersions/cody_lorentz.py:54-55`. -/
noncomputable def codyG (Eg Ep E : ℝ) : Option ℝ := divN ((E - Eg) ^ 2) ((E - Eg) ^ 2 + Ep ^ 2)

/-- `L(E)` in `CodyLorentz.eps2`, `cody_lorentz.py:57-58`. -/
noncomputable def codyL (A gamma E0 E : ℝ) : Option ℝ :=
  divN (A * E0 * gamma * E) ((E ^ 2 - E0 ^ 2) ^ 2 + gamma ^ 2 * E ^ 2)

/-- `CodyLorentz.eps2`, `cody_lorentz.py:49-67`. Both branches are computed and multiplied by a step function. -/
noncomputable def codyEps2 (s : Dict ℝ) (E : ℝ) : Option ℝ := do
  let Eg ← s.get "Eg"
  let A ← s.get "A"
  let Et ← s.get "Et"
  let gamma ← s.get "gamma"
  let Ep ← s.get "Ep"
  let E0 ← s.get "E0"
  let Eu ← s.get "Eu"
  let Gt ← codyG Eg Ep Et
  let Lt ← codyL A gamma E0 Et
  let q ← divN (Et * Gt * Lt) E
  let x ← divN (E - Et) Eu
  let G ← codyG Eg Ep E
  let L ← codyL A gamma E0 E
  some (q * Real.exp x * heaviside (Et - E) 1 + G * L * heaviside (E - Et) 0)

end PyElli
