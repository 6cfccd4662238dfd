import Verif.Model.Cody

/-!
# `CodyLorentz` with the special values of double precision

The same steps as in `Verif.Model.Cody`, with numbers that become infinite when they leave the range of doubles, and with the rules of IEEE 754 for infinities
and NaN. Simplifications: only the range is modelled, not the rounding (a number in range is exact; the range ends at `2 ^ 1024`, a relative `2 ^ -53` above
the number from which doubles round to infinity); zeros have no sign (a zero divisor counts as positive).
-/

namespace PyElli

/-- A double: a number, an infinity (`true`: negative) or NaN. -/
inductive Dbl
  | num (x : ℝ)
  | inf (neg : Bool)
  | nan

namespace Dbl

open Classical in
/-- An exact result stored as a double. -/
noncomputable def ofReal (x : ℝ) : Dbl := if |x| < 2 ^ 1024 then num x else inf (decide (x < 0))

/-- `-a`. -/
def neg : Dbl → Dbl
  | num x => num (-x)
  | inf b => inf (!b)
  | nan => nan

/-- `a + b`. -/
noncomputable def add : Dbl → Dbl → Dbl
  | num x, num y => ofReal (x + y)
  | num _, inf b => inf b
  | inf b, num _ => inf b
  | inf a, inf b => if a = b then inf a else nan
  | nan, _ => nan
  | _, nan => nan

/-- `a - b`. -/
noncomputable def sub (a b : Dbl) : Dbl := add a (neg b)

open Classical in
/-- `a * b`. -/
noncomputable def mul : Dbl → Dbl → Dbl
  | num x, num y => ofReal (x * y)
  | num x, inf b => if x = 0 then nan else inf (xor b (decide (x < 0)))
  | inf b, num x => if x = 0 then nan else inf (xor b (decide (x < 0)))
  | inf a, inf b => inf (xor a b)
  | nan, _ => nan
  | _, nan => nan

open Classical in
/-- `a / b`. -/
noncomputable def div : Dbl → Dbl → Dbl
  | num x, num y => if y = 0 then (if x = 0 then nan else inf (decide (x < 0))) else ofReal (x / y)
  | num _, inf _ => num 0
  | inf b, num x => inf (xor b (decide (x < 0)))
  | inf _, inf _ => nan
  | nan, _ => nan
  | _, nan => nan

/-- `np.exp`. -/
noncomputable def exp : Dbl → Dbl
  | num x => ofReal (Real.exp x)
  | inf false => inf false
  | inf true => num 0
  | nan => nan

/-- `np.heaviside`. -/
noncomputable def heaviside (a : Dbl) (v : ℝ) : Dbl :=
  match a with
  | num x => num (PyElli.heaviside x v)
  | inf false => num 1
  | inf true => num 0
  | nan => nan

/-- `a ** 2`; numpy multiplies. -/
noncomputable def sq (a : Dbl) : Dbl := mul a a

/-- `a == b`. -/
def Same : Dbl → Dbl → Prop
  | num x, num y => x = y
  | inf a, inf b => a = b
  | _, _ => False

end Dbl

open Dbl

/-- The single parameters, `cody_lorentz.py:38-46`. -/
structure CodyPars where
  Eg : ℝ
  A : ℝ
  Et : ℝ
  gamma : ℝ
  Ep : ℝ
  E0 : ℝ
  Eu : ℝ

/-- `self.single_params`. -/
def CodyPars.dict (p : CodyPars) : Dict ℝ := [("Eg", p.Eg), ("A", p.A), ("Et", p.Et), ("gamma", p.gamma), ("Ep", p.Ep), ("E0", p.E0), ("Eu", p.Eu)]

/-- `G(E)`, `cody_lorentz.py:54-55`. -/
noncomputable def codyGD (p : CodyPars) (E : Dbl) : Dbl :=
  div (sq (sub E (num p.Eg))) (add (sq (sub E (num p.Eg))) (sq (num p.Ep)))

/-- `L(E)`, `cody_lorentz.py:57-58`. -/
noncomputable def codyLD (p : CodyPars) (E : Dbl) : Dbl :=
  div (mul (mul (mul (num p.A) (num p.E0)) (num p.gamma)) E) (add (sq (sub (sq E) (sq (num p.E0)))) (mul (sq (num p.gamma)) (sq E)))

/-- `CodyLorentz.eps2`, `cody_lorentz.py:49-67`: both branches are computed everywhere and multiplied by a step function. -/
noncomputable def codyEps2D (p : CodyPars) (E : Dbl) : Dbl :=
  let E1 := mul (mul (num p.Et) (codyGD p (num p.Et))) (codyLD p (num p.Et))
  add (mul (mul (div E1 E) (exp (div (sub E (num p.Et)) (num p.Eu)))) (Dbl.heaviside (sub (num p.Et) E) 1))
    (mul (mul (codyGD p E) (codyLD p E)) (Dbl.heaviside (sub E (num p.Et)) 0))

/-- `conversion_wavelength_energy`, `/repo/src/elli/utils.py:201-213`. -/
noncomputable def energyD (K : PhysConst) (v : ℝ) : Dbl := div (num (K.c * K.h)) (mul (num v) (num 1e-9))

/-- Node `j` of `np.linspace(50, 10000, 1000)`, `cody_lorentz.py:72`. -/
noncomputable def codyNode (j : ℕ) : ℝ := 50 + j * (9950 / 999)

/-- One summand of `_integrate_im_reciprocal`, `/repo/src/elli/kkr/kkr.py:67`. -/
noncomputable def kkrTermD (im : Dbl) (x xi : ℝ) : Dbl :=
  div im (mul (num x) (sub (num 1) (div (mul (num x) (num x)) (mul (num xi) (num xi)))))

/-- `np.sum`; simplification: from the left. -/
noncomputable def sumD (l : List Dbl) : Dbl := l.foldl add (num 0)

/-- Entry `i` of `im2re_reciprocal(t, x)` with `n` points, `kkr.py:127-144`. -/
noncomputable def kkrPointD (t : ℕ → Dbl) (x : ℕ → ℝ) (n i : ℕ) : Dbl :=
  mul (mul (div (num 4) (num Real.pi)) (num (kkrInterval x i)))
    (sumD ((slice2 (if i % 2 = 0 then 1 else 0) n).map fun j => kkrTermD (t j) (x j) (x i)))

/-- `eps1` at node `i`, `cody_lorentz.py:73-76`. -/
noncomputable def codyEps1D (K : PhysConst) (p : CodyPars) (i : ℕ) : Dbl :=
  kkrPointD (fun j => codyEps2D p (energyD K (codyNode j))) codyNode 1000 i

open Classical in
/-- The chord of `np.interp` between two nodes: from the left, if that is NaN from the right, if that is NaN too and the values are equal their value. -/
noncomputable def chordD (x0 x1 : ℝ) (y0 y1 : Dbl) (v : ℝ) : Dbl :=
  let slope := div (sub y1 y0) (sub (num x1) (num x0))
  match add (mul slope (sub (num v) (num x0))) y0 with
  | nan => match add (mul slope (sub (num v) (num x1))) y1 with
    | nan => if Same y0 y1 then y0 else nan
    | r => r
  | r => r

open Classical in
/-- `interp1d(x, y)(v)` for real values: `scipy` raises `ValueError` outside the nodes and delegates to `np.interp` inside, which returns the value of
a node on the node and interpolates elsewhere (library behaviour). -/
noncomputable def interpD (x : ℕ → ℝ) (y : ℕ → Dbl) (n : ℕ) (v : ℝ) : Except PyErr Dbl :=
  if v < x 0 ∨ x (n - 1) < v then .error .valueError
  else
    let j := ((List.range n).filter fun i => x i ≤ v).length - 1
    .ok (if j = n - 1 then y j else if x j = v then y j else chordD (x j) (x (j + 1)) (y j) (y (j + 1)) v)

/-- `CodyLorentz.dielectric_function`, `cody_lorentz.py:69-79`: real and imaginary part of `eps1_interp + 1j * eps2`. The product with `1j` is numpy's
complex product `(0 * x - 1 * 0) + i (0 * 0 + 1 * x)`. -/
noncomputable def codyLorentzD (K : PhysConst) (p : CodyPars) (lbda : ℝ) : Except PyErr (Dbl × Dbl) :=
  let im := codyEps2D p (energyD K lbda)
  (interpD codyNode (codyEps1D K p) 1000 lbda).map fun re =>
    (add re (sub (mul (num 0) im) (mul (num 1) (num 0))), add (mul (num 0) (num 0)) (mul (num 1) im))

end PyElli
