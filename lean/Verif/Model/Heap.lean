import Mathlib.Data.List.Basic
import Mathlib.Tactic.Common

/-!
# Objects, references and `copy.deepcopy`

A small model of Python objects for the statements about aliasing: an object is a list of named fields, a field holds an immutable value
or a reference. Lists and arrays are objects whose field names are the indices.
-/

namespace PyElli.Heap

variable {V : Type}

/-- Content of a variable or of a field. -/
inductive Val (V : Type)
  | imm (v : V)
  | ref (a : ℕ)

/-- An object: its fields. -/
abbrev Obj (V : Type) := List (String × Val V)

/-- Memory: addresses below `next` are in use. -/
structure Mem (V : Type) where
  next : ℕ
  obj : ℕ → Obj V

/-- The tree of values reachable from a reference, cut off at some depth. -/
inductive View (V : Type)
  | cut
  | leaf (v : V)
  | node (children : List (String × View V))

/-- What a reader sees when it follows references up to the given depth. -/
def view : ℕ → Mem V → Val V → View V
  | 0, _, _ => .cut
  | _ + 1, _, .imm v => .leaf v
  | k + 1, m, .ref a => .node ((m.obj a).map fun f => (f.1, view k m f.2))

def Val.shift (n : ℕ) : Val V → Val V
  | .imm v => .imm v
  | .ref a => .ref (a + n)

/-- `copy.deepcopy` (library): every object gets a copy at a fresh address and the copies refer to copies. Simplification: objects that
are not reachable from the argument are copied too (their copies are unreachable); functions and numbers are immutable values and
shared, as in Python. -/
def deepcopy (m : Mem V) (a : ℕ) : Mem V × ℕ :=
  (⟨m.next + m.next, fun i =>
      if i < m.next then m.obj i else (m.obj (i - m.next)).map fun f => (f.1, f.2.shift m.next)⟩,
   a + m.next)

/-- A result object: the reference to the copied experiment (`result.py:361`) and what the solver computed eagerly. -/
structure ResultObj (Out : Type) where
  experiment : ℕ
  out : Out

/-- `Experiment.evaluate`, `/repo/src/elli/experiment.py:150-164`, with `Solver.__init__`, `/repo/src/elli/solver.py:29-35`: the solver works
on a deep copy of the experiment and the result keeps a reference to this copy. `solve` stands for `Solver.calculate`, which reads the
copy and nothing else. -/
def evaluate {Out : Type} (solve : (ℕ → View V) → Out) (m : Mem V) (experiment : ℕ) : Mem V × ResultObj Out :=
  let c := deepcopy m experiment
  (c.1, ⟨c.2, solve fun k => view k c.1 (.ref c.2)⟩)

/-- Statements of a client program over its variables: `x = v`, `x = y`, `x = Obj()`, `x = y.f`, `x.f = y`, and further evaluations whose
results the program keeps for itself. The setters of `Experiment`, `Structure`, `Layer` and `Material` are sequences of such
statements. -/
inductive Stmt (V : Type)
  | const (x : String) (v : V)
  | move (x y : String)
  | new (x : String)
  | load (x y field : String)
  | store (x field y : String)
  | evaluateAgain (x : String)

/-- Variables of the client. -/
abbrev Env (V : Type) := String → Val V

def Env.set (e : Env V) (x : String) (v : Val V) : Env V := fun y => if y = x then v else e y

/-- Field write: replaces the field or adds it. -/
def setField (o : Obj V) (f : String) (v : Val V) : Obj V :=
  (f, v) :: o.filter fun p => p.1 ≠ f

def getField (o : Obj V) (f : String) : Option (Val V) := (o.find? fun p => p.1 = f).map Prod.snd

/-- One statement; statements that would raise leave the state alone. -/
def step (s : Env V × Mem V) : Stmt V → Env V × Mem V
  | .const x v => (s.1.set x (.imm v), s.2)
  | .move x y => (s.1.set x (s.1 y), s.2)
  | .new x => (s.1.set x (.ref s.2.next), ⟨s.2.next + 1, Function.update s.2.obj s.2.next []⟩)
  | .load x y f =>
    match s.1 y with
    | .ref a => match getField (s.2.obj a) f with
      | some v => (s.1.set x v, s.2)
      | none => s
    | .imm _ => s
  | .store x f y =>
    match s.1 x with
    | .ref a => (s.1, ⟨s.2.next, Function.update s.2.obj a (setField (s.2.obj a) f (s.1 y))⟩)
    | .imm _ => s
  | .evaluateAgain x =>
    match s.1 x with
    | .ref a => (s.1, (deepcopy s.2 a).1)
    | .imm _ => s

/-- A client program. -/
def run (s : Env V × Mem V) (p : List (Stmt V)) : Env V × Mem V := p.foldl step s

end PyElli.Heap
