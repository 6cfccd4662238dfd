import Verif.Model.Dispersion

/-! # Wavelengths given as integers

`Experiment.set_lbda` (`/repo/src/elli/experiment.py:141-150`) and `get_dielectric`, `get_refractive_index`
(`/repo/src/elli/dispersions/base_dispersion.py:112-125`) keep the number type of the wavelengths. `np.arange(400, 800)` or `500` are arrays
of integers of 64 bits (of 32 bits on some systems), whose powers are computed modulo `2 ^ w` (library behaviour). Most dispersions
divide or multiply the wavelength with a float first; the ones that do not are modelled here. Their parameters are floats. -/

namespace PyElli

open Complex

/-- An element of the array of wavelengths: a float, or a signed integer of `w` bits. -/
inductive Lam
  | float (x : ℝ)
  | int (w : ℕ) (x : ℤ)

/-- The number meant by the user. -/
def Lam.real : Lam → ℝ
  | .float x => x
  | .int _ x => x

/-- An exponent: a Python integer or a float. -/
inductive Expo
  | int (e : ℤ)
  | float (e : ℝ)

/-- The number meant by the user. -/
def Expo.real : Expo → ℝ
  | .int e => e
  | .float e => e

/-- The integer of `w` bits (two's complement) congruent to `x`. -/
def wrap (w : ℕ) (x : ℤ) : ℤ := Int.bmod x (2 ^ w)

/-- `lbda ** e`: integers to negative integer powers raise `ValueError`. -/
noncomputable def Lam.pow : Lam → Expo → Except PyErr (Option ℝ)
  | .float x, e => .ok (powN x e.real)
  | .int _ x, .float e => .ok (powN x e)
  | .int w x, .int e => if e < 0 then .error .valueError else .ok (some (wrap w (x ^ e.toNat) : ℤ))

/-- `lbda ** n` for a literal `n` in the code. -/
noncomputable def Lam.npow : Lam → ℕ → ℝ
  | .float x, n => x ^ n
  | .int w x, n => (wrap w (x ^ n) : ℤ)

/-- `Cauchy.refractive_index`, `/repo/src/elli/dispersions/cauchy.py:35-46`. -/
noncomputable def cauchyIndexLam (s : Dict ℝ) (lbda : Lam) : Option ℂ := do
  let n0 ← s.get "n0"
  let n1 ← divN (1e2 * (← s.get "n1")) (lbda.npow 2)
  let n2 ← divN (1e7 * (← s.get "n2")) (lbda.npow 4)
  let k0 ← s.get "k0"
  let k1 ← divN (1e2 * (← s.get "k1")) (lbda.npow 2)
  let k2 ← divN (1e7 * (← s.get "k2")) (lbda.npow 4)
  some (((n0 + n1 + n2 : ℝ) : ℂ) + I * ((k0 + k1 + k2 : ℝ) : ℂ))

/-- A set of repeated parameters of `CauchyCustomExponent` and `Polynomial`. -/
structure PowerSet where
  f : ℝ
  e : Expo

/-- The same set as dictionary. -/
def PowerSet.dict (c : PowerSet) : Dict ℝ := [("f", c.f), ("e", c.e.real)]

/-- `sum(c.get("f") * lbda ** c.get("e") for c in self.rep_params)`, `/repo/src/elli/dispersions/cauchy_custom.py:30`,
`/repo/src/elli/dispersions/polynomial.py:30`; the first exception ends the sum. -/
noncomputable def powerSumLam (lbda : Lam) : List PowerSet → Except PyErr (Option ℂ)
  | [] => .ok (some 0)
  | c :: cs =>
    match lbda.pow c.e with
    | .error e => .error e
    | .ok p =>
      match powerSumLam lbda cs with
      | .error e => .error e
      | .ok t => .ok (do
        let p ← p
        let t ← t
        some (((c.f * p : ℝ) : ℂ) + t))

/-- `CauchyCustomExponent.refractive_index` (`/repo/src/elli/dispersions/cauchy_custom.py:28-31`, `x0 = n0`) and
`Polynomial.dielectric_function` (`/repo/src/elli/dispersions/polynomial.py:28-31`, `x0 = e0`). -/
noncomputable def powerModelLam (x0 : ℝ) (cs : List PowerSet) (lbda : Lam) : Except PyErr (Option ℂ) :=
  match powerSumLam lbda cs with
  | .error e => .error e
  | .ok t => .ok (t.map fun t => (x0 : ℂ) + t)

/-- One summand of `LorentzLambda`, `/repo/src/elli/dispersions/lorentz_lambda.py:34-39`. -/
noncomputable def lorentzLambdaTermLam (lbda : Lam) (c : Dict ℝ) : Option ℂ := do
  let A ← c.get "A"
  let r ← c.get "lambda_r"
  let gamma ← c.get "gamma"
  divN ((A : ℂ) * (lbda.npow 2 : ℝ)) ((lbda.npow 2 : ℝ) - (r : ℂ) ^ 2 - I * gamma * lbda.real)

/-- `LorentzLambda.dielectric_function`, `/repo/src/elli/dispersions/lorentz_lambda.py:33-39`. -/
noncomputable def lorentzLambdaLam (rep : List (Dict ℝ)) (lbda : Lam) : Option ℂ := do
  let t ← sumN (rep.map (lorentzLambdaTermLam lbda))
  some (1 + t)

end PyElli
