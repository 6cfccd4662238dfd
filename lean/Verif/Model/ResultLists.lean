import Verif.Model.Lookup

/-! # Lists of results as objects: `ResultList` in `/repo/src/elli/result.py:458-544`

Results, Python lists and `ResultList` objects are mutable and shared, so they live in a memory and are named by their address (the
order of creation). `R` is the type of results and `read r name` the array that `getattr(result, name)` gives. -/

namespace PyElli.RList

open PyElli.Lookup

variable {R : Type}

/-- The memory. `rlists` holds the attribute `results` of every `ResultList` (or `AveragedResultList`) object, the address of a Python
list; `none` if the attribute does not exist yet (an object made without calling `__init__`). -/
structure World (R : Type) where
  results : List R
  lists : List (List ℕ)
  rlists : List (Option ℕ)

/-- What a program can do with results and lists of them. -/
inductive Op (R : Type)
  /-- a new result, for example by `Structure.evaluate` -/
  | result (r : R)
  /-- `as_delta_range(…)` of the result at address `i`: `change` gives the changed object or the exception -/
  | asDeltaRange (i : ℕ) (change : R → Except PyErr R)
  /-- a list display `[r1, r2, …]` of the program -/
  | list (is : List ℕ)
  /-- `l.append(r)` on a Python list -/
  | listAppend (l i : ℕ)
  /-- `ResultList()` or `ResultList(l)` -/
  | resultList (arg : Option ℕ)
  /-- `data.append(r)` -/
  | append (d i : ℕ)
  /-- `data.mean`, kept in a variable -/
  | mean (d : ℕ)

/-- `self.results` of an existing object whose `__init__` has run. -/
def World.listOf (w : World R) (d : ℕ) : Option ℕ := (w.rlists[d]?).join

/-- One operation. `ResultList.__init__`, `result.py:461-471`; `append`, `result.py:473-479`; `mean`, `result.py:509-510`;
`Result.as_delta_range`, `result.py:441-455`, which changes the object and returns it. An operation that raises leaves the memory as
it is. -/
def step (w : World R) : Op R → World R
  | .result r => { w with results := w.results ++ [r] }
  | .asDeltaRange i change =>
    match w.results[i]? with
    | none => w
    | some r =>
      match change r with
      | .error _ => w
      | .ok r' => { w with results := w.results.set i r' }
  | .list is => { w with lists := w.lists ++ [is] }
  | .listAppend l i => { w with lists := w.lists.modify l (· ++ [i]) }
  | .resultList none => { w with lists := w.lists ++ [[]], rlists := w.rlists ++ [some w.lists.length] }
  | .resultList (some l) => { w with rlists := w.rlists ++ [some l] }
  | .append d i =>
    match w.listOf d with
    | none => w
    | some l => { w with lists := w.lists.modify l (· ++ [i]) }
  | .mean d =>
    match w.listOf d with
    | none => w
    | some l => { w with rlists := w.rlists ++ [some l] }

/-- A program. -/
def run (w : World R) (ops : List (Op R)) : World R := ops.foldl step w

/-- The addresses in the list of a `ResultList`. -/
def World.entries (w : World R) (d : ℕ) : List ℕ := ((w.listOf d).bind fun l => w.lists[l]?).getD []

/-- The results in a `ResultList`, as they are now. -/
def World.held (w : World R) (d : ℕ) : List R := (w.entries d).filterMap fun i => w.results[i]?

/-- `len(data)`, `result.py:481-487`. -/
def World.len (w : World R) (d : ℕ) : ℕ := (w.entries d).length

/-- `[getattr(result, name) for result in results]`: the first exception is raised. -/
def readAll (read : R → String → Except PyErr Nd) (name : String) : List R → Except PyErr (List Nd)
  | [] => .ok []
  | r :: rs =>
    match read r name with
    | .error e => .error e
    | .ok a =>
      match readAll read name rs with
      | .error e => .error e
      | .ok as => .ok (a :: as)

/-- `data.name` for a name other than `mean`, `result.py:512`. -/
def World.attr (w : World R) (read : R → String → Except PyErr Nd) (d : ℕ) (name : String) : Except PyErr Nd :=
  match readAll read name (w.held d) with
  | .error e => .error e
  | .ok arrays => listAttr arrays

/-! ## Attribute access and copies -/

/-- What attribute access on a `ResultList` can give. -/
inductive Attr
  | list (l : ℕ)
  | view (l : ℕ)
  | array (a : Nd)
  | method

/-- Attribute access `data.name` within `depth` nested calls (Python's recursion limit): `results` is an instance attribute, if it
exists; `methods` are the names found on the class; everything else calls `__getattr__`, `result.py:489-512`, which reads
`self.results`. -/
def getattr (w : World R) (read : R → String → Except PyErr Nd) (methods : List String) (d : ℕ) : ℕ → String → Except PyErr Attr
  | 0, _ => .error .recursionError
  | depth + 1, name =>
    match (if name = "results" then w.listOf d else none) with
    | some l => .ok (.list l)
    | none =>
      if name ∈ methods then .ok .method
      else
        match getattr w read methods d depth "results" with
        | .error e => .error e
        | .ok (.list l) =>
          if name = "mean" then .ok (.view l)
          else
            match readAll read name ((w.lists[l]?.getD []).filterMap fun i => w.results[i]?) with
            | .error e => .error e
            | .ok arrays => (listAttr arrays).map .array
        | .ok _ => .error .typeError

/-- `copy.copy(data)`, also the end of `copy.deepcopy` and of unpickling (`copy._reconstruct`, Python 3.11 and later): make an object
without `__init__`, ask `hasattr(y, "__setstate__")` (only `AttributeError` counts as no), then copy the attributes. A
`__setstate__` that is found would be called; an array is not callable. -/
def copy (w : World R) (read : R → String → Except PyErr Nd) (methods : List String) (depth d : ℕ) : Except PyErr (World R) :=
  let w' : World R := { w with rlists := w.rlists ++ [none] }
  match getattr w' read methods w.rlists.length depth "__setstate__" with
  | .error .attributeError => .ok { w with rlists := w.rlists ++ [w.listOf d] }
  | .error e => .error e
  | .ok _ => .error .typeError

end PyElli.RList
