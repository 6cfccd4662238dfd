import Verif.Model.DispSum
import Verif.Model.Table
import Verif.Model.Formula
import Verif.Model.Importer

/-! # Materials of a NeXus file: `read_nexus_materials`, `/repo/src/elli/importer/nexus.py:160-273`

A file is given as the tree of groups `h5py` shows: the values of a group are visited in the order of their names (library behaviour). The
objects built from it are dispersion objects in the memory of `Model/DispSum.lean`; formulas are evaluated by `Model/Formula.lean`, tables
by `Model/Table.lean`. Numbers in formulas are complex or NaN (`none`) with arbitrary elementary functions. Texts are taken as already
decoded. -/

namespace PyElli.Nexus

open PyElli PyElli.Disp

/-- A number in a formula; `none` is NaN. -/
abbrev Num := Option ℂ

/-- The libraries behind formulas: numpy's operations, lark's parser (`parse_formula`, the kind `eps` or `n` of the formula and its tree)
and pint (`_set_unit_conversion`, `/repo/src/elli/dispersions/formula.py:80-96`). -/
structure Env where
  ops : Formula.Ops Num
  parse : String → Except PyErr (String × Formula.Tree)
  unit : String → Except PyErr (Formula.Unit Num)

/-- One item below a formula group, as `get_params` distinguishes them by their attribute `NX_class`. -/
inductive Item
  | single (name : String) (value : Num)
  | repeated (name : String) (values : List Num)
  | other

/-- A group of class `NXdispersion_function`. `none` where an entry is missing. -/
structure FuncGroup where
  wavelengthIdentifier : Option String
  /-- value and unit of `wavelength_unit`, as text -/
  wavelengthUnit : Option String
  hasEnergyIdentifier : Bool
  representation : Option String
  formula : Option String
  items : List Item

/-- A group of class `NXdispersion_table`. -/
structure TableGroup where
  wavelength : Option (List ℝ)
  energy : Option (List ℝ)
  refractiveIndex : Option (List ℂ)
  dielectricFunction : Option (List ℂ)

/-- The groups below `dispersion_x` and its like, by their attribute `NX_class`. -/
inductive Group
  | func (g : FuncGroup)
  | table (g : TableGroup)
  | other

/-- `get_params`, `nexus.py:171-178`, called by `visititems` for every item in turn. -/
def getParams : Dict Num × Dict (List Num) → Item → Dict Num × Dict (List Num)
  | (s, r), .single n v => (Dict.set s n v, r)
  | (s, r), .repeated n v => (s, Dict.set r n v)
  | p, .other => p

/-- An entry that must be there; `h5py` raises `KeyError`. -/
def entry {α : Type} : Option α → Except PyErr α
  | none => .error .keyError
  | some a => .ok a

/-- The value of a formula object at a wavelength, `formula.py:111-131`. No formula has a row or a matrix outside brackets. -/
noncomputable def formulaValue (E : Env) (f : Formula.Obj Num) (u : Formula.Unit Num) (l : ℝ) : Val :=
  match Formula.evaluate (N := 1) E.ops f u (fun _ => some (l : ℂ)) with
  | .error e => .error e
  | .ok ⟨_, .scalar v⟩ => .ok v
  | .ok ⟨_, .col v⟩ => .ok (v 0)
  | .ok _ => .error .visitError

/-- `Formula(formula, identifier, single, rep, unit)` and `FormulaIndex(…)`, `formula.py:24-131`: the value as function of the
wavelength. Checks in the order of the code: parameters, formula and its kind, unit. -/
noncomputable def buildFormula (E : Env) (isIndex : Bool) (formula ident : String) (single : Dict Num) (rep : Dict (List Num)) (unit : String) :
    Except PyErr (ℝ → Val) := do
  let f ← Formula.init (.number "") ident single rep
  let (kind, tree) ← E.parse formula
  if isIndex ∧ kind ≠ "n" then .error .valueError
  else if ¬ isIndex ∧ kind ≠ "eps" then .error .valueError
  else do
    let u ← E.unit unit
    return formulaValue E { f with tree := tree } u

/-- `identifier` and `unit`, `nexus.py:180-186`: the variable `unit` exists only where `wavelength_identifier` does. -/
def identUnit (g : FuncGroup) : Except PyErr (Option (String × String)) :=
  match g.wavelengthIdentifier with
  | none => .ok none
  | some i => (entry g.wavelengthUnit).map fun u => some (i, u)

/-- The call `Formula(…)` or `FormulaIndex(…)`, `nexus.py:197-201`; without `wavelength_identifier` its argument `unit` raises
`UnboundLocalError`. -/
noncomputable def construct (E : Env) (isIndex : Bool) (formula : String) (params : Dict Num × Dict (List Num)) :
    Option (String × String) → Except PyErr (Kind × (ℝ → Val))
  | none => .error .unboundLocal
  | some (i, u) => (buildFormula E isIndex formula i params.1 params.2 u).map fun v => (if isIndex then .index else .eps, v)

/-- `get_dispersion_function`, `nexus.py:167-203`: class family and value. -/
noncomputable def getFunction (E : Env) (g : FuncGroup) : Except PyErr (Kind × (ℝ → Val)) :=
  match identUnit g with
  | .error e => .error e
  | .ok ident =>
    if g.hasEnergyIdentifier then .error .notImplemented
    else match entry g.representation with
    | .error e => .error e
    | .ok representation =>
      match entry g.formula with
      | .error e => .error e
      | .ok formula =>
        if representation = "eps" then construct E false formula (g.items.foldl getParams ([], [])) ident
        else if representation = "n" then construct E true formula (g.items.foldl getParams ([], [])) ident
        else .error .valueError

/-- `get_dispersion_table`, `nexus.py:205-227`. `conversion_wavelength_energy(dataset["energy"])` computes `value * 1e-9`
(`/repo/src/elli/utils.py:213`) with an `h5py.Dataset`, which has no arithmetic: `TypeError` (library behaviour). -/
noncomputable def getTable (g : TableGroup) : Except PyErr (Kind × (ℝ → Val)) :=
  match g.energy with
  | some _ => .error .typeError
  | none =>
    match g.wavelength with
    | none => .error .valueError
    | some l =>
      match g.refractiveIndex with
      | some n => (mkTable l n).map fun t => (.table, t.value)
      | none =>
        match g.dielectricFunction with
        | some e => (mkTable l e).map fun t => (.tableEps, t.value)
        | none => .error .valueError

/-- The class and value of a group; `none` where the group is passed over. -/
noncomputable def load (E : Env) : Group → Option (Except PyErr (Kind × (ℝ → Val)))
  | .func g => some (getFunction E g)
  | .table g => some (getTable g)
  | .other => none

/-- `get_dispersion`, `nexus.py:229-246`: the loop over the groups, with the dispersion found so far. -/
noncomputable def getDispersion (E : Env) : Mem → Option ℕ → List Group → Except PyErr (Mem × Option ℕ)
  | m, d, [] => .ok (m, d)
  | m, d, g :: gs =>
    match load E g with
    | none => getDispersion E m d gs
    | some (.error e) => .error e
    | some (.ok (k, v)) =>
      let (m1, a) := alloc m (.leaf k v)
      match d with
      | none => getDispersion E m1 (some a) gs
      | some r =>
        match addObj m1 r a with
        | .error e => .error e
        | .ok (m2, r') => getDispersion E m2 (some r') gs

/-- One entry of the file: the groups `dispersion_x`, `dispersion_y`, `dispersion_z`, where present. -/
structure Entry where
  x : Option (List Group)
  y : Option (List Group)
  z : Option (List Group)

/-- One axis in the loop of `get_material`, `nexus.py:250-255`. -/
noncomputable def getAxis (E : Env) (m : Mem) : Option (List Group) → Except PyErr (Mem × Option (Option ℕ))
  | none => .ok (m, none)
  | some gs => (getDispersion E m none gs).map fun p => (p.1, some p.2)

/-- `get_material`, `nexus.py:248-266`. -/
noncomputable def readEntry (E : Env) (m : Mem) (e : Entry) : Except PyErr (Mem × Importer.Mat ℕ) :=
  match e.x with
  | none => .error .valueError
  | some gx =>
    match getAxis E m (some gx) with
    | .error err => .error err
    | .ok (m1, x) =>
      match getAxis E m1 e.y with
      | .error err => .error err
      | .ok (m2, y) =>
        match getAxis E m2 e.z with
        | .error err => .error err
        | .ok (m3, z) => (Importer.getMaterial x y z).map fun mat => (m3, mat)

/-- `read_nexus_materials`, `nexus.py:268-273`: the materials by the names of the entries. -/
noncomputable def readMaterials (E : Env) : Mem → List (String × Entry) → Except PyErr (Mem × List (String × Importer.Mat ℕ))
  | m, [] => .ok (m, [])
  | m, (name, e) :: rest =>
    match readEntry E m e with
    | .error err => .error err
    | .ok (m1, mat) =>
      match readMaterials E m1 rest with
      | .error err => .error err
      | .ok (m2, mats) => .ok (m2, (name, mat) :: mats)

end PyElli.Nexus
