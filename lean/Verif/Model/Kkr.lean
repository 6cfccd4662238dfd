import Verif.Model.Base
import Mathlib.Analysis.Real.Pi.Bounds

/-! # Kramers-Kronig transforms: `/repo/src/elli/kkr/kkr.py` -/

namespace PyElli

/-- Python/numpy `sum` of numbers of which some may be NaN or infinite (`none`); the result is then no number either. -/
def sumN {R : Type} [Zero R] [Add R] : List (Option R) → Option R
  | [] => some 0
  | none :: _ => none
  | some a :: l => (sumN l).map fun s => a + s

open Classical in
/-- Division; `none` for a zero divisor (numpy stores NaN or infinity, Python raises `ZeroDivisionError`). -/
noncomputable def divN {R : Type} [DivisionRing R] (a b : R) : Option R := if b = 0 then none else some (a / b)

/-- The four transforms, `/repo/src/elli/kkr/kkr.py:147-234`. -/
inductive KkrKind
  | re2im | im2re | re2imReciprocal | im2reReciprocal
  deriving DecidableEq

/-- One summand of `_integrate_im` (line 49), `_integrate_im_reciprocal` (line 67), `_integrate_re` (line 81) and
`_integrate_re_reciprocal` (line 98). -/
noncomputable def KkrKind.term : KkrKind → (t x xi : ℝ) → Option ℝ
  | .im2re, im, x, xi => divN (x * im) (x * x - xi * xi)
  | .im2reReciprocal, im, x, xi =>
    (divN (x * x) (xi * xi)).bind fun q => divN im (x * (1 - q))
  | .re2im, re, x, xi => divN (xi * re) (x * x - xi * xi)
  | .re2imReciprocal, re, x, xi =>
    (divN (x * x) xi).bind fun q => divN re (xi - q)

/-- Indices selected by `slice(start, None, 2)` in an array of length `n`. -/
def slice2 (start n : ℕ) : List ℕ := (List.range n).filter fun j => j % 2 = start

/-- `np.diff(x, prepend=x[1] - x[0])`, `kkr.py:128`. -/
def kkrInterval (x : ℕ → ℝ) (i : ℕ) : ℝ :=
  if i = 0 then x 0 - (x 1 - x 0) else x i - x (i - 1)

/-- Entry `i` of `integral`, `kkr.py:127-142`: even positions sum over the odd slice and the other way round. -/
noncomputable def kkrIntegral (k : KkrKind) (t x : ℕ → ℝ) (n i : ℕ) : Option ℝ :=
  if i % 2 = 0 then sumN ((slice2 1 n).map fun j => k.term (t j) (x j) (x i))
  else sumN ((slice2 0 n).map fun j => k.term (t j) (x j) (x i))

/-- Entry `i` of the result, `kkr.py:144`. -/
noncomputable def kkrPoint (k : KkrKind) (t x : ℕ → ℝ) (n i : ℕ) : Option ℝ :=
  (kkrIntegral k t x n i).map fun s => 4 / Real.pi * kkrInterval x i * s

/-- `_calc_kkr`, `kkr.py:101-144`; `x[1]` raises `IndexError` for fewer than two points. -/
noncomputable def calcKkr (k : KkrKind) (t x : List ℝ) : Except PyErr (List (Option ℝ)) :=
  if t.length ≠ x.length then .error .valueError
  else if x.length < 2 then .error .indexError
  else .ok ((List.range x.length).map (kkrPoint k (fun j => t.getD j 0) (fun j => x.getD j 0) x.length))

end PyElli
