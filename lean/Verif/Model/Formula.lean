import Verif.Model.Grammar
import Verif.Model.Params

/-! # Formula dispersions: `/repo/src/elli/formula_parser/parser.py`, `/repo/src/elli/dispersions/formula.py`

Numbers are an arbitrary type `V` with arbitrary elementwise operations (numpy's `+`, `-`, `*`, `/`, `pow`, `sin`, …): nothing is assumed
about them, so the results hold for real and complex data, NaN and infinities included. Simplification: an operation acts on every array
element separately, in the same way for all elements (numpy chooses the data type of a whole array, e.g. `np.emath.sqrt` turns an
array complex as soon as one entry is negative; such dependence on other entries is not modelled).

Exceptions raised while the tree is evaluated reach the caller as lark's `VisitError` (library behaviour). -/

namespace PyElli.Formula

/-- Elementwise operations on numbers. -/
structure Ops (V : Type) where
  zero : V
  add : V → V → V
  sub : V → V → V
  mul : V → V → V
  div : V → V → V
  pow : V → V → V
  func : String → V → V
  number : String → V
  builtin : String → V

variable {V : Type}

/-- Arrays that occur: `N` wavelengths, `P` parameter sets. `row` has shape `(P,)`, `col` has shape `(N,)`, `mat` has shape `(N, P)`. -/
inductive Arr (N P : ℕ) (V : Type)
  | scalar (v : V)
  | row (f : Fin P → V)
  | col (f : Fin N → V)
  | mat (f : Fin N → Fin P → V)

variable {N P : ℕ}

/-- A binary operation with numpy broadcasting (the last axes are aligned). A `col` meets only scalars and other `col`s in trees of the
grammar, because brackets cannot be nested; the remaining combinations are an error here. -/
def Arr.op2 (f : V → V → V) : Arr N P V → Arr N P V → Except PyErr (Arr N P V)
  | .scalar a, .scalar b => .ok (.scalar (f a b))
  | .scalar a, .row b => .ok (.row fun j => f a (b j))
  | .scalar a, .col b => .ok (.col fun i => f a (b i))
  | .scalar a, .mat b => .ok (.mat fun i j => f a (b i j))
  | .row a, .scalar b => .ok (.row fun j => f (a j) b)
  | .row a, .row b => .ok (.row fun j => f (a j) (b j))
  | .row a, .mat b => .ok (.mat fun i j => f (a j) (b i j))
  | .col a, .scalar b => .ok (.col fun i => f (a i) b)
  | .col a, .col b => .ok (.col fun i => f (a i) (b i))
  | .mat a, .scalar b => .ok (.mat fun i j => f (a i j) b)
  | .mat a, .row b => .ok (.mat fun i j => f (a i j) (b j))
  | .mat a, .mat b => .ok (.mat fun i j => f (a i j) (b i j))
  | _, _ => .error .visitError

/-- A function of one argument, elementwise. -/
def Arr.op1 (f : V → V) : Arr N P V → Arr N P V
  | .scalar a => .scalar (f a)
  | .row a => .row fun j => f (a j)
  | .col a => .col fun i => f (a i)
  | .mat a => .mat fun i j => f (a i j)

/-- Parameters of the transformer, `parser.py:60-81`. -/
structure Env (N P : ℕ) (V : Type) where
  axisName : String
  axis : Fin N → V
  single : Dict V
  repeated : Dict (Fin P → V)

/-- `FormulaTransformer.func`, `parser.py:96-112`: known names. `np.heaviside` needs two arguments, so calling it with one raises
`TypeError`. -/
def funcNames : List String := ["sin", "cos", "tan", "sqrt", "dawsn", "ln", "log"]

/-- `FormulaTransformer.builtin`, `parser.py:114-128`: known names. -/
def builtinNames : List String := ["1j", "pi", "eps_0", "hbar", "h", "c"]

/-- `FormulaTransformer`: the callbacks of `parser.py:22-28, 83-157`, bottom up. -/
def transform (O : Ops V) (E : Env N P V) : Tree → Except PyErr (Arr N P V)
  | .add a b => do Arr.op2 O.add (← transform O E a) (← transform O E b)
  | .sub a b => do Arr.op2 O.sub (← transform O E a) (← transform O E b)
  | .mul a b => do Arr.op2 O.mul (← transform O E a) (← transform O E b)
  | .div a b => do Arr.op2 O.div (← transform O E a) (← transform O E b)
  | .power a b => do Arr.op2 O.pow (← transform O E a) (← transform O E b)
  | .func f a => do
    let x ← transform O E a
    if f ∈ funcNames then .ok (Arr.op1 (O.func f) x) else .error .visitError
  -- `sum_expr`, `parser.py:130-132`: `expr.sum(axis=1)` needs two axes
  | .sumExpr a => do
    match ← transform O E a with
    | .mat m => .ok (.col fun i => (List.ofFn (m i)).foldl O.add O.zero)
    | _ => .error .visitError
  -- `single_param_name`, `parser.py:134-142`
  | .singleParamName s =>
    if s = E.axisName then .ok (.col E.axis)
    else match Dict.get E.single s with
      | some v => .ok (.scalar v)
      | none => .error .visitError
  -- `param_name`, `parser.py:144-157`; `einsum("i,j->ij", axis, ones)` repeats the axis for every parameter set
  | .paramName s =>
    if s = E.axisName then .ok (.mat fun i _ => E.axis i)
    else match Dict.get E.single s with
      | some v => .ok (.scalar v)
      | none => match Dict.get E.repeated s with
        | some f => .ok (.row f)
        | none => .error .visitError
  | .number s => .ok (.scalar (O.number s))
  | .builtin s => if s ∈ builtinNames then .ok (.scalar (O.builtin s)) else .error .visitError

/-- The inner loop of `FormulaParser.__init__`, `formula.py:42-45`: one column of repeated parameters. -/
def setColumn (key : String) : List (Dict V) → List V → List (Dict V)
  | sets, [] => sets
  | [], v :: vs => [(key, v)] :: setColumn key [] vs
  | d :: sets, v :: vs => Dict.set d key v :: setColumn key sets vs

/-- The outer loop, `formula.py:37-55`. -/
def buildSets : Dict (List V) → Option ℕ → List (Dict V) → Except PyErr (List (Dict V))
  | [], _, sets => .ok sets
  | (key, values) :: rest, none, sets => buildSets rest (some values.length) (setColumn key sets values)
  | (key, values) :: rest, some n, sets =>
    if values.length ≠ n then .error .valueError else buildSets rest (some n) (setColumn key sets values)

/-- A formula object: its repeated parameter sets (`rep_params`, base class) and the columns used for evaluation (`rep_params_dl`). -/
structure Obj (V : Type) where
  tree : Tree
  axisName : String
  single : Dict V
  rep : RepState V
  columns : Dict (List V)

/-- `np.array([dic[k] for dic in self.rep_params])`. -/
def columnOf (params : List (Dict V)) (k : String) : Except PyErr (List V) :=
  params.mapM fun d => match Dict.get d k with
    | some v => .ok v
    | none => .error .keyError

/-- One call `self.add(**rep_params_set)` of the constructor, `formula.py:62-63`. -/
def addSet (s : RepState V) (d : Dict V) : Except PyErr (RepState V) :=
  match addRep 0 s [] d with
  | (.ok (), s') => .ok s'
  | (.error e, _) => .error e

/-- `FormulaParser.__init__`, `formula.py:24-78`, for repeated parameters given as lists; the formula is given by its tree, whose
kind (`eps` or `n`) was checked (`formula.py:98-109`). -/
def init (tree : Tree) (axisName : String) (single : Dict V) (rep : Dict (List V)) : Except PyErr (Obj V) := do
  let sets ← buildSets rep none []
  let s ← sets.foldlM (init := (⟨[sets.headD []], []⟩ : RepState V)) addSet
  match s.params with
  | [] => return ⟨tree, axisName, single, s, []⟩
  | d :: _ => do
    let cols ← d.keys.mapM fun k => do return (k, ← columnOf s.params k)
    return ⟨tree, axisName, single, s, cols⟩

/-- Unit conversion of the wavelength axis, `formula.py:80-96`: `length s` multiplies, `energy s` divides the scaling by the
wavelength. -/
inductive Unit (V : Type)
  | none
  | length (scaling : V)
  | energy (scaling : V)

def Unit.convert (O : Ops V) : Unit V → V → V
  | .none, x => x
  | .length s, x => O.mul s x
  | .energy s, x => O.div s x

/-- Length of the first column (`_check_and_set`, `parser.py:30-50`). -/
def setCount : Dict (List V) → ℕ
  | [] => 0
  | c :: _ => c.2.length

/-- `__dispersion_function`, `formula.py:111-117`, with `FormulaTransformer.__init__` (`parser.py:30-81`): the number of parameter sets is
the length of the first column, all columns must have it. -/
def evaluate (O : Ops V) (f : Obj V) (u : Unit V) (lbda : Fin N → V) :
    Except PyErr (Σ P, Arr N P V) :=
  if f.columns.any fun c => c.2.length ≠ setCount f.columns then .error .valueError
  else (transform O (P := setCount f.columns) ⟨f.axisName, fun i => u.convert O (lbda i), f.single,
    f.columns.map fun c => (c.1, fun j => c.2.getD j O.zero)⟩ f.tree).map fun a => ⟨setCount f.columns, a⟩

/-- The wavelength given to `get_dielectric(lbda)`: a number, or an array with one axis. -/
inductive Given (N : ℕ) (V : Type)
  | number (v : V)
  | array (lbda : Fin N → V)

/-- `Formula.dielectric_function` and `FormulaIndex.refractive_index`, `formula.py:80-96, 111-131`, with the check of the axis at the start
of `FormulaTransformer.__init__`, `parser.py:71-72`: a number is not an array, and multiplying or dividing a scaling by a number gives a
number. -/
def dispersionFunction (O : Ops V) (f : Obj V) (u : Unit V) : Given N V → Except PyErr (Σ P, Arr N P V)
  | .number _ => .error .typeError
  | .array lbda => evaluate O f u lbda

/-- `f.add(**params)` after construction: the inherited `BaseDispersion.add` (`base_dispersion.py:99-110`); `rep_params_dl` is not
touched. -/
def lateAdd (f : Obj V) (args : List V) (kwargs : Dict V) : Except PyErr PUnit × Obj V :=
  let r := addRep 0 f.rep args kwargs
  (r.1.map fun _ => ⟨⟩, { f with rep := r.2 })

end PyElli.Formula
