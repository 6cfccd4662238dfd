import Verif.Model.Base
import Mathlib.Analysis.SpecialFunctions.Pow.Complex
import Verif.Lemmas.Sqrt

/-! # Dispersion objects and their addition: `/repo/src/elli/dispersions/base_dispersion.py`

Dispersions are Python objects that refer to each other: a sum holds a list of references, `as_index()` gives an object that calls
the original. The model is a memory of such objects, because `+` sometimes changes an operand instead of making a new object.

A concrete model (Cauchy, Lorentz, …) is a leaf: its class family and its value as a function of the wavelength (`Except` for
exceptions such as leaving a table's range, `none` for NaN). Numbers as operands are `int` or `float`. -/

namespace PyElli.Disp

/-- Value of a dispersion at a wavelength. -/
abbrev Val := Except PyErr (Option ℂ)

/-- The class families that `+` distinguishes. `eps`: subclasses of `Dispersion` with default parameters; `tableEps`: `TableEpsilon`;
`pseudo`: `PseudoDielectricFunction`; `index`: subclasses of `IndexDispersion`; `table`: `dispersions.Table`. -/
inductive Kind
  | eps | tableEps | pseudo | index | table
  deriving DecidableEq, Repr

/-- `isinstance(_, Dispersion)` for a leaf. -/
def Kind.isEps : Kind → Bool
  | .eps | .tableEps | .pseudo => true
  | .index | .table => false

/-- A dispersion object. -/
inductive Obj
  /-- a concrete model; the function is its own `dielectric_function` (`Dispersion`) or `refractive_index` (`IndexDispersion`) -/
  | leaf (kind : Kind) (value : ℝ → Val)
  /-- `DispersionSum`, the addresses in `self.dispersions` -/
  | epsSum (children : List ℕ)
  /-- `IndexDispersionSum`, the addresses in `self.index_dispersions` -/
  | idxSum (children : List ℕ)
  /-- the object made by `as_index()`, `base_dispersion.py:234-259`, with the original it calls -/
  | view (orig : ℕ)

/-- `isinstance(_, Dispersion)`; otherwise the object is an `IndexDispersion`. -/
def Obj.isEps : Obj → Bool
  | .leaf k _ => k.isEps
  | .epsSum _ => true
  | .idxSum _ => false
  | .view _ => false

/-- The memory: address `i` is the `i`-th object. -/
abbrev Mem := List Obj

/-- Addition of values (numpy: NaN spreads; the first exception is raised). -/
noncomputable def Val.add (x y : Val) : Val := do
  let a ← x
  let b ← y
  return do return (← a) + (← b)

/-- Python `sum(…)` over the children in order, starting from 0. -/
noncomputable def sumVals (f : ℕ → Val) (cs : List ℕ) : Val := cs.foldl (fun acc c => Val.add acc (f c)) (.ok (some 0))

/-- Applying a function to a value. -/
noncomputable def Val.app (g : ℂ → ℂ) (x : Val) : Val := x.map fun o => o.map g

/-- The method called on an object. -/
inductive Meth
  | dielectric | index
  deriving DecidableEq

/-- `obj.dielectric_function(lbda)` and `obj.refractive_index(lbda)`; the first argument is the remaining call depth.
* `IndexDispersion.dielectric_function`, `base_dispersion.py:310-311`: the square of the index;
* `DispersionSum.dielectric_function`, `base_dispersion.py:364-368`; `IndexDispersionSum.refractive_index`, `base_dispersion.py:409-413`;
* `as_index`: `dielectric_function` is the bound method of the original, `refractive_index` its root (`base_dispersion.py:242-253`). -/
noncomputable def call (m : Mem) (lbda : ℝ) : ℕ → Meth → ℕ → Val
  | 0, _, _ => .error .recursionError
  | k + 1, .dielectric, a =>
    match m[a]? with
    | none => .error .unboundLocal
    | some (.leaf kind v) => if kind.isEps then v lbda else Val.app (· ^ 2) (v lbda)
    | some (.epsSum cs) => sumVals (call m lbda k .dielectric) cs
    | some (.idxSum _) => Val.app (· ^ 2) (call m lbda k .index a)
    | some (.view o) => call m lbda k .dielectric o
  | k + 1, .index, a =>
    match m[a]? with
    | none => .error .unboundLocal
    | some (.leaf kind v) => if kind.isEps then .error .attributeError else v lbda
    | some (.epsSum _) => .error .attributeError
    | some (.idxSum cs) => sumVals (call m lbda k .index) cs
    | some (.view _) => Val.app Complex.sqrt (call m lbda k .dielectric a)

/-- `BaseDispersion.get_refractive_index`, `base_dispersion.py:118-125`. -/
noncomputable def getRefractiveIndex (m : Mem) (lbda : ℝ) (k : ℕ) (a : ℕ) : Val :=
  match m[a]? with
  | none => .error .unboundLocal
  | some o => if o.isEps then Val.app Complex.sqrt (call m lbda k .dielectric a) else call m lbda k .index a

/-- A new object at the end of the memory. -/
def alloc (m : Mem) (o : Obj) : Mem × ℕ := (m ++ [o], m.length)

/-- `DispersionSum.__add__`, `base_dispersion.py:350-362`, for an object as operand. -/
def addToEpsSum (m : Mem) (s b : ℕ) : Except PyErr Mem :=
  match m[s]?, m[b]? with
  | some (.epsSum cs), some ob =>
    if !ob.isEps then .error .typeError
    else match ob with
      | .epsSum cs' => .ok (m.set s (.epsSum (cs ++ cs')))
      | _ => .ok (m.set s (.epsSum (cs ++ [b])))
  | _, _ => .error .unboundLocal

/-- `IndexDispersionSum.__add__`, `base_dispersion.py:393-407`, for an object as operand. -/
def addToIdxSum (m : Mem) (s b : ℕ) : Except PyErr Mem :=
  match m[s]?, m[b]? with
  | some (.idxSum cs), some ob =>
    if ob.isEps then .error .typeError
    else match ob with
      | .idxSum cs' => .ok (m.set s (.idxSum (cs ++ cs')))
      | _ => .ok (m.set s (.idxSum (cs ++ [b])))
  | _, _ => .error .unboundLocal

/-- `DispersionSum(x, y)`, `base_dispersion.py:343-348`: an empty sum to which both are added with `+=`. -/
def newEpsSum (m : Mem) (x y : ℕ) : Except PyErr (Mem × ℕ) := do
  let (m0, s) := alloc m (.epsSum [])
  let m1 ← addToEpsSum m0 s x
  let m2 ← addToEpsSum m1 s y
  return (m2, s)

/-- `IndexDispersionSum(x, y)`, `base_dispersion.py:386-391`. -/
def newIdxSum (m : Mem) (x y : ℕ) : Except PyErr (Mem × ℕ) := do
  let (m0, s) := alloc m (.idxSum [])
  let m1 ← addToIdxSum m0 s x
  let m2 ← addToIdxSum m1 s y
  return (m2, s)

/-- `a + b` for two dispersion objects: `Dispersion.__add__` (`base_dispersion.py:214-232`), `TableEpsilon.__add__`
(`table_epsilon.py:57-75`), `PseudoDielectricFunction.__add__` (`pseudo_dielectric.py:63-64`), `IndexDispersion.__add__`
(`base_dispersion.py:288-308`), `Table.__add__` (`table_index.py:56-76`) and the `__add__` of the sums.
Since `DispersionSum` is a `Dispersion`, lines `table_epsilon.py:69-71` (and `table_index.py:70-72`) are never reached. -/
def addObj (m : Mem) (a b : ℕ) : Except PyErr (Mem × ℕ) :=
  match m[a]?, m[b]? with
  | some oa, some ob =>
    match oa with
    | .epsSum _ => (addToEpsSum m a b).map fun m' => (m', a)
    | .idxSum _ => (addToIdxSum m a b).map fun m' => (m', a)
    | .leaf .pseudo _ => .error .notImplemented
    | .leaf .tableEps _ =>
      match ob with
      | .leaf .tableEps _ => .error .notImplemented
      | _ => if ob.isEps then newEpsSum m a b else .error .typeError
    | .leaf .table _ =>
      match ob with
      | .leaf .table _ => .error .notImplemented
      | _ => if ob.isEps then .error .typeError else newIdxSum m a b
    | .leaf .eps _ =>
      if !ob.isEps then .error .typeError
      else match ob with
        | .leaf .tableEps _ => newEpsSum m b a
        | .epsSum cs => .ok (m.set b (.epsSum (cs ++ [a])), b)
        | _ => newEpsSum m a b
    | .leaf .index _ | .view _ =>
      if ob.isEps then .error .typeError
      else match ob with
        | .leaf .table _ => newIdxSum m b a
        | .idxSum cs => .ok (m.set b (.idxSum (cs ++ [a])), b)
        | _ => newIdxSum m a b
  | _, _ => .error .unboundLocal

/-- `EpsilonInf(x)` (`epsilon_inf.py:27-28`) and `ConstantRefractiveIndex(x)` (`constant_refractive_index.py:26-27`): the number at
every wavelength. -/
noncomputable def constLeaf (k : Kind) (x : ℝ) : Obj := .leaf k fun _ => .ok (some (x : ℂ))

/-- `a + x` and `x + a` for a number `x`: the same functions, and `__radd__` (`base_dispersion.py:210-212, 282-286`) which calls
`__add__`. In `Table.__add__` the number is passed as `ConstantRefractiveIndex(eps=other)`, a parameter that class does not have
(`table_index.py:60`). -/
noncomputable def addNum (m : Mem) (a : ℕ) (x : ℝ) : Except PyErr (Mem × ℕ) :=
  match m[a]? with
  | none => .error .unboundLocal
  | some (.epsSum cs) =>
    let (m1, e) := alloc m (constLeaf .eps x)
    .ok (m1.set a (.epsSum (cs ++ [e])), a)
  | some (.idxSum cs) =>
    let (m1, e) := alloc m (constLeaf .index x)
    .ok (m1.set a (.idxSum (cs ++ [e])), a)
  | some (.leaf .pseudo _) => .error .notImplemented
  | some (.leaf .table _) => .error .invalidParameters
  | some (.leaf .eps _) | some (.leaf .tableEps _) =>
    let (m1, e) := alloc m (constLeaf .eps x)
    newEpsSum m1 a e
  | some (.leaf .index _) | some (.view _) =>
    let (m1, e) := alloc m (constLeaf .index x)
    newIdxSum m1 a e

/-- `a.as_index()`, `base_dispersion.py:234-259`. Only `Dispersion` has it; the anonymous class is built without arguments, which fails
where the template has no defaults (`TableEpsilon`, `PseudoDielectricFunction`). -/
def asIndex (m : Mem) (a : ℕ) : Except PyErr (Mem × ℕ) :=
  match m[a]? with
  | none => .error .unboundLocal
  | some (.leaf .eps _) | some (.epsSum _) => .ok (alloc m (.view a))
  | some (.leaf .tableEps _) | some (.leaf .pseudo _) => .error .invalidParameters
  | some _ => .error .attributeError

/-- What a user does with dispersions. `change` stands for `add(…)` of a parameter set or editing parameters of a model: its function
becomes another one. -/
inductive Op
  | new (kind : Kind) (value : ℝ → Val)
  | add (a b : ℕ)
  | addNum (a : ℕ) (x : ℝ)
  | asIndex (a : ℕ)
  | change (a : ℕ) (value : ℝ → Val)

/-- One operation; a raised exception leaves the memory as it was. -/
noncomputable def step (m : Mem) : Op → Mem
  | .new k v => m ++ [.leaf k v]
  | .add a b => match addObj m a b with
    | .ok (m', _) => m'
    | .error _ => m
  | .addNum a x => match addNum m a x with
    | .ok (m', _) => m'
    | .error _ => m
  | .asIndex a => match asIndex m a with
    | .ok (m', _) => m'
    | .error _ => m
  | .change a v => match m[a]? with
    | some (.leaf k _) => m.set a (.leaf k v)
    | _ => m

/-- A whole history, starting without dispersions. -/
noncomputable def run (h : List Op) : Mem := h.foldl step []

end PyElli.Disp
