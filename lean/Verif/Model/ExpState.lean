import Verif.Model.Experiment

/-!
# The attributes of an experiment and the arrays of its caller: `experiment.py`

Arrays are objects in memory; the caller keeps references to the arrays it passed and may write into them.
-/

namespace PyElli.Exp

open Complex

/-- An array: shape and entries in C order. -/
structure Arr where
  shape : List ℕ
  data : List ℂ

/-- What the caller can pass for `vector` or `lbda`: `None`, a number, a (nested) list, for which `np.asarray` makes a new array, or an
array, which `np.asarray` returns itself. -/
inductive Arg
  | none
  | number (x : ℂ)
  | list (a : Arr)
  | array (addr : ℕ)

/-- The attributes of an `Experiment`; arrays by their address. -/
structure Attrs where
  structure_ : Option ℕ := Option.none
  jones : Option ℕ := Option.none
  stokes : Option ℕ := Option.none
  theta : Option ℝ := Option.none
  lbda : Option ℕ := Option.none

/-- Memory: the arrays and the first free address. -/
structure Mem where
  next : ℕ
  arr : ℕ → Arr

def Mem.alloc (m : Mem) (a : Arr) : Mem × ℕ := (⟨m.next + 1, Function.update m.arr m.next a⟩, m.next)

structure State where
  attrs : Attrs
  mem : Mem

/-- `np.asarray`; `None` has no place in the model (`set_vector` replaces it before, `lbda=None` gives an object array). -/
def asarray (m : Mem) : Arg → Mem × ℕ
  | .none => m.alloc ⟨[], []⟩
  | .number x => m.alloc ⟨[], [x]⟩
  | .list a => m.alloc a
  | .array k => (m, k)

/-- The Stokes vector of a Jones vector as an array, `experiment.py:92-107`. -/
noncomputable def stokesArr (a b : ℂ) : Arr :=
  let s := stokesOfJones a b
  ⟨[4], [s.1, s.2.1, s.2.2.1, s.2.2.2]⟩

/-- The Jones vector of a Stokes vector as an array, `experiment.py:112-131`; an empty list of entries stands for NaN. Stokes vectors have real
entries. -/
noncomputable def jonesArr (s0 s1 s2 s3 : ℂ) : Arr :=
  match jonesOfStokes s0.re s1.re s2.re s3.re with
  | .vec a b => ⟨[2], [a, b]⟩
  | _ => ⟨[2], []⟩

/-- `Experiment.set_vector`, `experiment.py:65-131`: `self.jones_vector = vector` and `self.stokes_vector = vector` store the array itself, the
other vector is a new array. -/
noncomputable def setVec (s : State) (arg : Arg) : State :=
  let arg := match arg with
    | .none => .list ⟨[4], [1, 0, 1, 0]⟩
    | a => a
  let (m, k) := asarray s.mem arg
  match m.arr k with
  | ⟨[2], [a, b]⟩ =>
    let (m, k') := m.alloc (stokesArr a b)
    ⟨{ s.attrs with jones := some k, stokes := some k' }, m⟩
  | ⟨[4], [s0, s1, s2, s3]⟩ =>
    let (m, k') := m.alloc (jonesArr s0 s1 s2 s3)
    ⟨{ s.attrs with stokes := some k, jones := some k' }, m⟩
  | _ => ⟨s.attrs, m⟩

/-- `Experiment.set_lbda`, `experiment.py:141-150`: a number or an array without dimensions is copied into an array of length one, everything else
is stored as `np.asarray` returns it. -/
def setLbda (s : State) (arg : Arg) : State :=
  let (m, k) := asarray s.mem arg
  if (m.arr k).shape = [] then
    let (m, k') := m.alloc ⟨[1], (m.arr k).data⟩
    ⟨{ s.attrs with lbda := some k' }, m⟩
  else ⟨{ s.attrs with lbda := some k }, m⟩

/-- Statements of a program that works with one experiment: the setters (`experiment.py:57-63`, `:65-131`, `:133-139`, `:141-150`), and the caller
making an array or assigning all entries of an array it knows (`a[:] = ..`, same shape). -/
inductive Op
  | setStructure (k : ℕ)
  | setVector (arg : Arg)
  | setTheta (x : ℝ)
  | setLbda (arg : Arg)
  | makeArray (a : Arr)
  | write (addr : ℕ) (data : List ℂ)

noncomputable def step (s : State) : Op → State
  | .setStructure k => ⟨{ s.attrs with structure_ := some k }, s.mem⟩
  | .setVector a => setVec s a
  | .setTheta x => ⟨{ s.attrs with theta := some x }, s.mem⟩
  | .setLbda a => Exp.setLbda s a
  | .makeArray a => ⟨s.attrs, (s.mem.alloc a).1⟩
  | .write k d => ⟨s.attrs, ⟨s.mem.next, Function.update s.mem.arr k ⟨(s.mem.arr k).shape, d⟩⟩⟩

noncomputable def run (s : State) (ops : List Op) : State := ops.foldl step s

/-- `Experiment.__init__`, `experiment.py:36-55`. -/
noncomputable def init (m : Mem) (structure_ : ℕ) (lbda : Arg) (theta : ℝ) (vector : Arg) : State :=
  run ⟨{}, m⟩ [.setStructure structure_, .setTheta theta, .setLbda lbda, .setVector vector]

/-- What a solver reads (`solver.py:29-35`): structure, wavelengths, angle, Jones vector, with the contents the arrays have now. -/
structure Seen where
  structure_ : Option ℕ
  lbda : Option Arr
  theta : Option ℝ
  jones : Option Arr
  stokes : Option Arr

def State.seen (s : State) : Seen :=
  ⟨s.attrs.structure_, s.attrs.lbda.map s.mem.arr, s.attrs.theta, s.attrs.jones.map s.mem.arr, s.attrs.stokes.map s.mem.arr⟩

/-- `Structure.evaluate`, `structure.py:488-507`: an experiment with the default vector; `solve` stands for the solver. -/
noncomputable def structureEvaluate {Out : Type} (solve : Seen → Out) (m : Mem) (structure_ : ℕ) (lbda : Arg) (theta : ℝ) : Out :=
  solve (init m structure_ lbda theta .none).seen

end PyElli.Exp
