import Verif.Model.NdArray

/-! # Dispersions on arrays of wavelengths: `/repo/src/elli/dispersions/*.py`

The formulas of `Model/Dispersion.lean` and `Model/Tanguy.lean` as numpy computes them: the wavelength is an array of any shape (or a number, an
array without axes), and every expression is an operation on arrays with broadcasting, over an arbitrary arithmetic. Parameters are numbers.
`sum` is Python's built-in function, which starts with the number 0. -/

namespace PyElli.Nd

open PyElli

/-- The functions and constants of numpy and scipy that only dispersions use. -/
class Special (V : Type) where
  log : V → V
  tan : V → V
  gamma : V → V
  digamma : V → V
  dawsn : V → V
  heaviside : V → V → V
  /-- `sc.speed_of_light` -/
  c : V
  /-- `sc.value("Planck constant in eV/Hz")` -/
  h : V
  /-- `sc.value("vacuum electric permittivity")` -/
  eps0 : V

variable {V : Type} [Arith V] [Special V]

/-- Values of the parameters by name. -/
abbrev Pars (V : Type) := String → V

/-- `a ** n` for a literal `n`. -/
def powLit (a : Out V) (n : ℚ) : Out V := op2 Arith.pow a (lit n)

/-- Python's `sum` over the sets of repeated parameters. -/
def pySum (f : Pars V → Out V) (rep : List (Pars V)) : Out V := rep.foldl (fun acc c => acc + f c) (lit 0)

/-- `conversion_wavelength_energy`, `/repo/src/elli/utils.py:201-213`. -/
def energyArr (lbda : Out V) : Out V := scalar (Special.c ⊗ Special.h) / (lbda * lit (1 / 1000000000))

/-- `1j`. -/
def imagUnit : Out V := scalar Arith.I

/-! ## Index dispersions -/

/-- `ConstantRefractiveIndex.refractive_index`, `/repo/src/elli/dispersions/constant_refractive_index.py:26-27`. -/
def constantIndexArr (s : Pars V) (_ : Out V) : Out V := scalar (s "n")

/-- `Cauchy.refractive_index`, `/repo/src/elli/dispersions/cauchy.py:35-46`. -/
def cauchyArr (s : Pars V) (lbda : Out V) : Out V :=
  scalar (s "n0") + lit 100 * scalar (s "n1") / powLit lbda 2 + lit 10000000 * scalar (s "n2") / powLit lbda 4
    + imagUnit * (scalar (s "k0") + lit 100 * scalar (s "k1") / powLit lbda 2 + lit 10000000 * scalar (s "k2") / powLit lbda 4)

/-- `CauchyCustomExponent.refractive_index`, `/repo/src/elli/dispersions/cauchy_custom.py:28-31`. -/
def cauchyCustomArr (s : Pars V) (rep : List (Pars V)) (lbda : Out V) : Out V :=
  scalar (s "n0") + pySum (fun c => scalar (c "f") * op2 Arith.pow lbda (scalar (c "e"))) rep

/-- `CauchyUrbach.refractive_index`, `/repo/src/elli/dispersions/cauchy_urbach.py:39-50`. -/
def cauchyUrbachArr (s : Pars V) (lbda : Out V) : Out V :=
  let energy := energyArr lbda
  scalar (s "n0") + scalar (s "B") * powLit energy 2 + scalar (s "C") * powLit energy 4
    + imagUnit * scalar (s "D") * op1 Arith.exp ((energy - scalar (s "Eg")) / scalar (s "Eu"))

/-! ## Dielectric dispersions -/

/-- `EpsilonInf.dielectric_function`, `/repo/src/elli/dispersions/epsilon_inf.py:27-28`. -/
def epsilonInfArr (s : Pars V) (_ : Out V) : Out V := scalar (s "eps")

/-- `Polynomial.dielectric_function`, `/repo/src/elli/dispersions/polynomial.py:28-31`. -/
def polynomialArr (s : Pars V) (rep : List (Pars V)) (lbda : Out V) : Out V :=
  scalar (s "e0") + pySum (fun c => scalar (c "f") * op2 Arith.pow lbda (scalar (c "e"))) rep

/-- `Sellmeier.dielectric_function`, `/repo/src/elli/dispersions/sellmeier.py:30-34`. -/
def sellmeierArr (rep : List (Pars V)) (lbda : Out V) : Out V :=
  let l := lbda / lit 1000
  lit 1 + pySum (fun c => scalar (c "A") * powLit l 2 / (powLit l 2 - scalar (c "B"))) rep

/-- `SellmeierCustomExponent.dielectric_function`, `/repo/src/elli/dispersions/sellmeier_custom.py:32-37`. -/
def sellmeierCustomArr (rep : List (Pars V)) (lbda : Out V) : Out V :=
  let l := lbda / lit 1000
  pySum (fun c => scalar (c "A") * op2 Arith.pow l (scalar (c "e_A")) / (powLit l 2 - op2 Arith.pow (scalar (c "B")) (scalar (c "e_B")))) rep

/-- `DrudeEnergy.dielectric_function`, `/repo/src/elli/dispersions/drude_energy.py:32-36`. -/
def drudeEnergyArr (s : Pars V) (lbda : Out V) : Out V :=
  let energy := energyArr lbda
  scalar (s "A") / (powLit energy 2 - imagUnit * scalar (s "gamma") * energy)

/-- `DrudeResistivity.dielectric_function`, `/repo/src/elli/dispersions/drude_resistivity.py:38-47`. -/
def drudeResistivityArr (s : Pars V) (lbda : Out V) : Out V :=
  let energy := energyArr lbda
  let hbar : Out V := scalar Special.h / lit 2 / scalar Arith.pi
  let eps0 : Out V := scalar Special.eps0 * lit (1 / 100)
  powLit hbar 2 / (eps0 * scalar (s "rho_opt") * (scalar (s "tau") * powLit energy 2 - imagUnit * hbar * energy))

/-- `LorentzEnergy.dielectric_function`, `/repo/src/elli/dispersions/lorentz_energy.py:32-37`. -/
def lorentzEnergyArr (rep : List (Pars V)) (lbda : Out V) : Out V :=
  let energy := energyArr lbda
  lit 1 + pySum (fun c => scalar (c "A") / (powLit (scalar (c "E")) 2 - powLit energy 2 - imagUnit * scalar (c "gamma") * energy)) rep

/-- `LorentzLambda.dielectric_function`, `/repo/src/elli/dispersions/lorentz_lambda.py:33-39`. -/
def lorentzLambdaArr (rep : List (Pars V)) (lbda : Out V) : Out V :=
  lit 1 + pySum (fun c => scalar (c "A") * powLit lbda 2
    / (powLit lbda 2 - powLit (scalar (c "lambda_r")) 2 - imagUnit * scalar (c "gamma") * lbda)) rep

/-- `Poles.dielectric_function`, `/repo/src/elli/dispersions/poles.py:31-35`. -/
def polesArr (s : Pars V) (lbda : Out V) : Out V :=
  let energy := energyArr lbda
  scalar (s "A_ir") / powLit energy 2 + scalar (s "A_uv") / (powLit (scalar (s "E_uv")) 2 - powLit energy 2)

/-- `Gaussian.dielectric_function`, `/repo/src/elli/dispersions/gaussian.py:54-73`. -/
def gaussianArr (rep : List (Pars V)) (lbda : Out V) : Out V :=
  let energy := energyArr lbda
  let ftos : Out V := lit 2 * op1 Arith.sqrt (op1 Special.log (lit 2))
  pySum (fun c =>
    let x := ftos * (energy + scalar (c "E")) / scalar (c "sigma")
    let y := ftos * (energy - scalar (c "E")) / scalar (c "sigma")
    lit 2 * scalar (c "A") / op1 Arith.sqrt (scalar Arith.pi) * (op1 Special.dawsn x - op1 Special.dawsn y)
      + imagUnit * (scalar (c "A") * op1 Arith.exp (-powLit y 2) - scalar (c "A") * op1 Arith.exp (-powLit x 2))) rep

/-- `TaucLorentz.eps1`, `/repo/src/elli/dispersions/tauc_lorentz.py:33-52`. -/
def taucEps1Arr (E Eg Ai Ei Ci : Out V) : Out V :=
  let gamma2 := powLit (op1 Arith.sqrt (powLit Ei 2 - powLit Ci 2 / lit 2)) 2
  let alpha := op1 Arith.sqrt (lit 4 * powLit Ei 2 - powLit Ci 2)
  let aL := (powLit Eg 2 - powLit Ei 2) * powLit E 2 + powLit Eg 2 * powLit Ci 2 - powLit Ei 2 * (powLit Ei 2 + lit 3 * powLit Eg 2)
  let aA := (powLit E 2 - powLit Ei 2) * (powLit Ei 2 + powLit Eg 2) + powLit Eg 2 * powLit Ci 2
  let zeta4 := powLit (powLit E 2 - gamma2) 2 + powLit alpha 2 * powLit Ci 2 / lit 4
  let pi : Out V := scalar Arith.pi
  Ai * Ci * aL / lit 2 / pi / zeta4 / alpha / Ei
      * op1 Special.log ((powLit Ei 2 + powLit Eg 2 + alpha * Eg) / (powLit Ei 2 + powLit Eg 2 - alpha * Eg))
    - Ai * aA / pi / zeta4 / Ei * (pi - op1 Arith.arctan ((lit 2 * Eg + alpha) / Ci) + op1 Arith.arctan ((alpha - lit 2 * Eg) / Ci))
    + lit 2 * Ai * Ei * Eg / pi / zeta4 / alpha * (powLit E 2 - gamma2) * (pi + lit 2 * op1 Arith.arctan (lit 2 / alpha / Ci * (gamma2 - powLit Eg 2)))
    - Ai * Ei * Ci * (powLit E 2 + powLit Eg 2) / pi / zeta4 / E * op1 Special.log (op1 Arith.abs (E - Eg) / (E + Eg))
    + lit 2 * Ai * Ei * Ci * Eg / pi / zeta4
      * op1 Special.log (op1 Arith.abs (E - Eg) * (E + Eg) / op1 Arith.sqrt (powLit (powLit Ei 2 - powLit Eg 2) 2 + powLit Eg 2 * powLit Ci 2))

/-- `TaucLorentz.dielectric_function`, `/repo/src/elli/dispersions/tauc_lorentz.py:54-72`. -/
def taucLorentzArr (s : Pars V) (rep : List (Pars V)) (lbda : Out V) : Out V :=
  let energy := energyArr lbda
  let energy_g : Out V := scalar (s "Eg")
  pySum (fun c =>
    imagUnit * (scalar (c "A") * scalar (c "E") * scalar (c "C") * powLit (energy - energy_g) 2
          / (powLit (powLit energy 2 - powLit (scalar (c "E")) 2) 2 + powLit (scalar (c "C")) 2 * powLit energy 2) / energy)
        * op2 Special.heaviside (energy - energy_g) (lit 0)
      + taucEps1Arr energy energy_g (scalar (c "A")) (scalar (c "E")) (scalar (c "C"))) rep

/-- `CodyLorentz.eps2`, `/repo/src/elli/dispersions/cody_lorentz.py:49-67`. -/
def codyEps2Arr (s : Pars V) (E : Out V) : Out V :=
  let Eg : Out V := scalar (s "Eg")
  let Et : Out V := scalar (s "Et")
  let G : Out V → Out V := fun E => powLit (E - Eg) 2 / (powLit (E - Eg) 2 + powLit (scalar (s "Ep")) 2)
  let L : Out V → Out V := fun E => scalar (s "A") * scalar (s "E0") * scalar (s "gamma") * E
    / (powLit (powLit E 2 - powLit (scalar (s "E0")) 2) 2 + powLit (scalar (s "gamma")) 2 * powLit E 2)
  let E1 := Et * G Et * L Et
  E1 / E * op1 Arith.exp ((E - Et) / scalar (s "Eu")) * op2 Special.heaviside (Et - E) (lit 1)
    + G E * L E * op2 Special.heaviside (E - Et) (lit 0)

/-- The call of an interpolation (`scipy.interpolate.interp1d`) with an array: it raises if one of the elements is out of range, and otherwise
interpolates each element. -/
def callArr (f : V → Except PyErr V) : Out V → Out V
  | .error e => .error e
  | .ok a => match (allIdx a.shape).find? fun idx => (f (a.val idx)).isOk = false with
    | some idx => match f (a.val idx) with
      | .error e => .error e
      | .ok v => .ok ⟨a.shape, fun _ => v⟩
    | none => .ok ⟨a.shape, fun idx => (f (a.val idx)).toOption.getD Arith.nan⟩

/-- `Table.refractive_index`, `TableEpsilon.dielectric_function`, `PseudoDielectricFunction.dielectric_function`
(`/repo/src/elli/dispersions/table_index.py:76-77`, `table_epsilon.py:77-78`, `pseudo_dielectric.py:70-71`): `interpolation` is the function of
one wavelength made in the constructor. -/
def tableArr (interpolation : V → Except PyErr V) (lbda : Out V) : Out V := callArr interpolation lbda

/-- `CodyLorentz.dielectric_function`, `/repo/src/elli/dispersions/cody_lorentz.py:69-79`; `eps1` is the interpolation made on a fixed grid, which
does not depend on `lbda`. -/
def codyLorentzArr (eps1 : V → Except PyErr V) (s : Pars V) (lbda : Out V) : Out V :=
  let energy := energyArr lbda
  callArr eps1 lbda + imagUnit * codyEps2Arr s energy

/-- `Tanguy.xsi`, `/repo/src/elli/dispersions/tanguy.py:77-79`. -/
def tanguyXsiArr (z R Eg : Out V) : Out V := op1 Arith.sqrt (R / (Eg - z))

/-- `Tanguy.g`, `/repo/src/elli/dispersions/tanguy.py:81-97`. -/
def tanguyGArr (xsi : Out V) (d : V) : Out V :=
  if Arith.eq d (Arith.num 2) then lit 2 * op1 Special.log xsi - lit 2 * op1 Special.digamma (lit (1 / 2) - xsi)
  else if Arith.eq d (Arith.num 3) then lit 2 * op1 Special.log xsi - lit 2 * op1 Special.digamma (lit 1 - xsi) - lit 1 / xsi
  else
    let D : Out V := scalar d - lit 1
    let pi : Out V := scalar Arith.pi
    lit 2 * pi * op1 Special.gamma (D / lit 2 + xsi) / powLit (op1 Special.gamma (D / lit 2)) 2
        / op1 Special.gamma (lit 1 - D / lit 2 + xsi) / op2 Arith.pow xsi (scalar d - lit 2)
      * (lit 1 / op1 Special.tan (pi * (D / lit 2 - xsi)) - lit 1 / op1 Special.tan (pi * D))

/-- `Tanguy.dielectric_function`, `/repo/src/elli/dispersions/tanguy.py:55-75`. -/
def tanguyArr (s : Pars V) (lbda : Out V) : Out V :=
  let E := energyArr lbda
  let gam : Out V := scalar (s "gamma")
  let R : Out V := scalar (s "R")
  let Eg : Out V := scalar (s "Eg")
  lit 1 + scalar (s "a") / (scalar (s "b") - powLit E 2)
    + scalar (s "A") * op2 Arith.pow R (scalar (s "d") / lit 2 - lit 1) / powLit (E + imagUnit * gam) 2
      * (tanguyGArr (tanguyXsiArr (E + imagUnit * gam) R Eg) (s "d") + tanguyGArr (tanguyXsiArr (-E - imagUnit * gam) R Eg) (s "d")
        - lit 2 * tanguyGArr (tanguyXsiArr (E * lit 0) R Eg) (s "d"))

/-! ## All of them -/

/-- Dispersion objects other than formulas: their class and parameters, and sums (`DispersionSum`, `IndexDispersionSum`). -/
inductive DispObj (V : Type)
  | constantIndex (s : Pars V)
  | cauchy (s : Pars V)
  | cauchyCustom (s : Pars V) (rep : List (Pars V))
  | cauchyUrbach (s : Pars V)
  | tableIndex (interpolation : V → Except PyErr V)
  | indexSum (parts : List (DispObj V))
  | epsilonInf (s : Pars V)
  | polynomial (s : Pars V) (rep : List (Pars V))
  | sellmeier (rep : List (Pars V))
  | sellmeierCustom (rep : List (Pars V))
  | drudeEnergy (s : Pars V)
  | drudeResistivity (s : Pars V)
  | lorentzEnergy (rep : List (Pars V))
  | lorentzLambda (rep : List (Pars V))
  | poles (s : Pars V)
  | gaussian (rep : List (Pars V))
  | taucLorentz (s : Pars V) (rep : List (Pars V))
  | codyLorentz (eps1 : V → Except PyErr V) (s : Pars V)
  | tanguy (s : Pars V)
  | tableEpsilon (interpolation : V → Except PyErr V)
  | sum (parts : List (DispObj V))

/-- `isinstance(self, IndexDispersion)`. -/
def DispObj.isIndex : DispObj V → Bool
  | .constantIndex _ | .cauchy _ | .cauchyCustom _ _ | .cauchyUrbach _ | .tableIndex _ | .indexSum _ => true
  | _ => false

/-- `refractive_index` of an index dispersion and `dielectric_function` of the others; sums:
`/repo/src/elli/dispersions/base_dispersion.py:364-368, 407-411`. -/
def DispObj.own : DispObj V → Out V → Out V
  | .constantIndex s, l => constantIndexArr s l
  | .cauchy s, l => cauchyArr s l
  | .cauchyCustom s rep, l => cauchyCustomArr s rep l
  | .cauchyUrbach s, l => cauchyUrbachArr s l
  | .tableIndex f, l => tableArr f l
  | .indexSum parts, l => (parts.map fun p => DispObj.own p l).foldl (· + ·) (lit 0)
  | .epsilonInf s, l => epsilonInfArr s l
  | .polynomial s rep, l => polynomialArr s rep l
  | .sellmeier rep, l => sellmeierArr rep l
  | .sellmeierCustom rep, l => sellmeierCustomArr rep l
  | .drudeEnergy s, l => drudeEnergyArr s l
  | .drudeResistivity s, l => drudeResistivityArr s l
  | .lorentzEnergy rep, l => lorentzEnergyArr rep l
  | .lorentzLambda rep, l => lorentzLambdaArr rep l
  | .poles s, l => polesArr s l
  | .gaussian rep, l => gaussianArr rep l
  | .taucLorentz s rep, l => taucLorentzArr s rep l
  | .codyLorentz eps1 s, l => codyLorentzArr eps1 s l
  | .tanguy s, l => tanguyArr s l
  | .tableEpsilon f, l => tableArr f l
  | .sum parts, l => (parts.map fun p => if p.isIndex then powLit (DispObj.own p l) 2 else DispObj.own p l).foldl (· + ·) (lit 0)

/-- `dielectric_function`; for index dispersions `/repo/src/elli/dispersions/base_dispersion.py:310-311`. -/
def DispObj.dielectricFunction (d : DispObj V) (l : Out V) : Out V := if d.isIndex then powLit (d.own l) 2 else d.own l

/-- `get_dielectric(lbda)`, `/repo/src/elli/dispersions/base_dispersion.py:112-116`. -/
def DispObj.getDielectric (d : DispObj V) (l : Out V) : Out V := d.dielectricFunction l

/-- `get_refractive_index(lbda)`, `/repo/src/elli/dispersions/base_dispersion.py:118-125`. -/
def DispObj.getRefractiveIndex (d : DispObj V) (l : Out V) : Out V := if d.isIndex then d.own l else op1 Arith.sqrt (d.dielectricFunction l)

end PyElli.Nd
