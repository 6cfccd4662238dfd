import Verif.Model.Params
import Mathlib.Logic.Function.Basic

/-!
# `fitting/params_hist.py` and the buttons of `fitting/decorator.py`

`lmfit.Parameters` is a dictionary of mutable `Parameter` objects, so objects live in a heap: `heap a` is the value of the object at
address `a`, addresses from `next` on are free. The value stands for the attributes of the object; bounds and expressions of lmfit are
not modelled. Behaviour of lmfit (not in the repository): `copy`/`deepcopy` make new objects and, for `ParamsHist`, an empty history;
`update` stores the objects of the other dictionary (no copies) and removes no key; `add` stores a new object.
-/

namespace PyElli.Hist

open PyElli

variable {V : Type}

/-- A `ParamsHist` object together with the heap, `params_hist.py:18-24`. -/
structure State (V : Type) where
  heap : ℕ → V
  next : ℕ
  cur : Dict ℕ
  hist : List (Dict ℕ)
  max : ℕ

/-- The values of a dictionary of objects. -/
def view (heap : ℕ → V) (d : Dict ℕ) : Dict V := d.map fun p => (p.1, heap p.2)

/-- `copy.deepcopy` of lmfit parameters. -/
def copy : (ℕ → V) → ℕ → Dict ℕ → Dict ℕ × (ℕ → V) × ℕ
  | heap, next, [] => ([], heap, next)
  | heap, next, (k, a) :: d =>
    let r := copy (Function.update heap next (heap a)) (next + 1) d
    ((k, next) :: r.1, r.2)

/-- `Parameters.update`: the objects of `other` replace or extend the entries of `d`. -/
def merge {A : Type} (d other : Dict A) : Dict A := other.foldl (fun c p => Dict.set c p.1 p.2) d

/-- `Parameters.add(name, value)`. -/
def State.add (s : State V) (k : String) (v : V) : State V :=
  { s with heap := Function.update s.heap s.next v, next := s.next + 1, cur := Dict.set s.cur k s.next }

/-- `ParamsHist.__init__`, `params_hist.py:21-24`. -/
def State.init (heap : ℕ → V) (next : ℕ) : State V := ⟨heap, next, [], [], 50⟩

/-- `ParamsHist.commit`, `params_hist.py:122-127`. -/
def State.commit (s : State V) : State V :=
  let h := if s.max ≤ s.hist.length then s.hist.drop 1 else s.hist
  let c := copy s.heap s.next s.cur
  { s with heap := c.2.1, next := c.2.2, hist := h ++ [c.1] }

/-- `params[key].value = value`: a missing key raises `KeyError`. -/
def State.setValue (s : State V) (k : String) (v : V) : Except PyErr Unit × State V :=
  match Dict.get s.cur k with
  | some a => (.ok (), { s with heap := Function.update s.heap a v })
  | none => (.error .keyError, s)

/-- `ParamsHist.update_value`, `params_hist.py:97-105`: the commit comes first. -/
def State.updateValue (s : State V) (k : String) (v : V) : Except PyErr Unit × State V := s.commit.setValue k v

/-- `ParamsHist.update_params`, `params_hist.py:107-115`. -/
def State.updateParams (s : State V) (other : Dict ℕ) : State V :=
  let s' := s.commit
  { s' with cur := merge s'.cur other }

/-- `ParamsHist.tracked_add`, `params_hist.py:117-120`. -/
def State.trackedAdd (s : State V) (k : String) (v : V) : State V := s.commit.add k v

/-- `ParamsHist.clear_history`, `params_hist.py:35-37`. -/
def State.clear (s : State V) : State V := { s with hist := [] }

/-- The setter of `max_history_len`, `params_hist.py:57-76`; the argument is an `int` or not (`ValueError`). -/
def State.setMax (s : State V) (n : PyNum) : Except PyErr Unit × State V :=
  match n with
  | .int i => if i < 1 then (.error .valueError, s)
    else (.ok (), { s with hist := s.hist.drop (s.hist.length - i.toNat), max := i.toNat })
  | _ => (.error .valueError, s)

/-- Python list indexing with negative positions. -/
def pyIndex {A : Type} (l : List A) (i : ℤ) : Option A :=
  if 0 ≤ i then l[i.toNat]? else if -(l.length : ℤ) ≤ i then l[(i + l.length).toNat]? else none

/-- `ParamsHist.revert`, `params_hist.py:78-85`: `%` by the length of an empty history raises `ZeroDivisionError`; the Python remainder
is never negative. -/
def State.revert (s : State V) (i : ℤ) : Except PyErr Unit × State V :=
  if s.hist.length = 0 then (.error .zeroDivisionError, s)
  else if Int.emod i s.hist.length < s.hist.length then
    match pyIndex s.hist i with
    | some e => (.ok (), { s with cur := merge s.cur e })
    | none => (.error .indexError, s)
  else (.ok (), s)

/-- `ParamsHist.pop`, `params_hist.py:87-95`: the returned copy, if any. -/
def State.pop (s : State V) : Option (Dict ℕ) × State V :=
  match s.hist.getLast? with
  | some e =>
    let c := copy s.heap s.next s.cur
    (some c.1, { s with heap := c.2.1, next := c.2.2, cur := merge s.cur e, hist := s.hist.dropLast })
  | none => (none, s)

/-- Operations of a program on one `ParamsHist` object; `poke` writes the value of any object (of another `Parameters`, say the
fitted ones). -/
inductive Op (V : Type)
  | commit
  | updateValue (k : String) (v : V)
  | updateParams (other : Dict ℕ)
  | trackedAdd (k : String) (v : V)
  | add (k : String) (v : V)
  | setValue (k : String) (v : V)
  | poke (a : ℕ) (v : V)
  | clear
  | setMax (n : PyNum)
  | revert (i : ℤ)
  | pop

/-- The state after an operation, also when it raises. -/
def step (s : State V) : Op V → State V
  | .commit => s.commit
  | .updateValue k v => (s.updateValue k v).2
  | .updateParams o => s.updateParams o
  | .trackedAdd k v => s.trackedAdd k v
  | .add k v => s.add k v
  | .setValue k v => (s.setValue k v).2
  | .poke a v => { s with heap := Function.update s.heap a v }
  | .clear => s.clear
  | .setMax n => (s.setMax n).2
  | .revert i => (s.revert i).2
  | .pop => (s.pop).2

def run (s : State V) (ops : List (Op V)) : State V := ops.foldl step s

/-! ## The buttons -/

/-- `FitDecorator` as far as parameters are concerned, `decorator.py:44-50` and `decorator_psi_delta.py:391-401`. -/
structure Gui (V : Type) where
  params : State V
  fitted : Dict ℕ
  last : Option (Dict ℕ)
  initial : Dict ℕ

/-- `FitRho.__init__`, `decorator_psi_delta.py:391-401` (`FitMuellerMatrix.__init__`, `decorator_mmatrix.py:340-344`, keeps the empty
`last_params` of the base class instead of `None`). -/
def Gui.init (s : State V) : Gui V :=
  let c := copy s.heap s.next s.cur
  let d := copy c.2.1 c.2.2 s.cur
  ⟨{ s with heap := d.2.1, next := d.2.2 }, c.1, none, d.1⟩

/-- Undo, `re_undo_button_clicked`, `decorator.py:147-149`. -/
def Gui.undo (g : Gui V) : Gui V :=
  let r := g.params.pop
  { g with params := r.2, last := r.1 }

/-- Redo, `re_undo_button_clicked`, `decorator.py:150-153`. -/
def Gui.redo (g : Gui V) : Gui V :=
  match g.last with
  | some l => { g with params := g.params.updateParams l, last := none }
  | none => g

/-- A new value in a widget, `update_params`, `decorator.py:168-177`. -/
def Gui.edit (g : Gui V) (k : String) (v : V) : Gui V := { g with params := (g.params.commit.setValue k v).2 }

/-- The fit button, `decorator.py:122-132`. `minimize` (lmfit) returns new parameter objects with the same names; the new values `f k`
are arbitrary. -/
def Gui.fit (g : Gui V) (f : String → V) : Gui V :=
  let s := g.params
  let c := copy s.heap s.next s.cur
  let heap' := c.1.foldl (fun h p => Function.update h p.2 (f p.1)) c.2.1
  let s1 : State V := { s with heap := heap', next := c.2.2 }
  { g with params := s1.commit.updateParams c.1, fitted := c.1 }

/-- Set initial, `reset_to_init_params`, `decorator.py:157-164`: the copy has an empty history of the default length. -/
def Gui.reset (g : Gui V) : Gui V :=
  let r := g.params.pop
  let c := copy r.2.heap r.2.next g.initial
  { g with params := ⟨c.2.1, c.2.2, c.1, [], 50⟩, last := r.1 }

end PyElli.Hist
