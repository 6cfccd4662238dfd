import Verif.Model.Result
import Verif.Model.Params

/-!
# `result.py`: attribute lookup, lists of results and their means

A result over `N` wavelengths is a function `Fin N → Result`. Real arrays are written as complex ones. Values that are undefined in the
code (NaN) are totalised by the scalar model (`Model/Result.lean`); the lookup does not look at values.
-/

namespace PyElli.Lookup

open PyElli

/-- Attribute values: arrays with one value, a 2×2 or a 4×4 matrix per wavelength; everything else is opaque. -/
inductive AVal (N : ℕ)
  | vec (f : Fin N → ℂ)
  | mat2 (f : Fin N → Matrix (Fin 2) (Fin 2) ℂ)
  | mat4 (f : Fin N → Matrix (Fin 4) (Fin 4) ℂ)
  | obj

variable {N : ℕ}

/-- The attributes of a `Result` object: the properties `result.py:57-342`, the methods, and the instance attributes
`result.py:361-368`. -/
noncomputable def attrs (res : Fin N → Result) : Dict (AVal N) :=
  [("rho", .vec fun k => (res k).rho),
   ("rho_t", .vec fun k => (res k).rhoT),
   ("psi", .vec fun k => (res k).psi),
   ("psi_t", .vec fun k => (res k).psiT),
   ("delta", .vec fun k => (res k).delta),
   ("delta_t", .vec fun k => (res k).deltaT),
   ("rho_matrix", .mat2 fun k => rhoMatrix (res k).jr),
   ("rho_matrix_t", .mat2 fun k => rhoMatrix (res k).jt),
   ("psi_matrix", .mat2 fun k i j => psiOf (rhoMatrix (res k).jr i j)),
   ("psi_matrix_t", .mat2 fun k i j => psiOf (rhoMatrix (res k).jt i j)),
   ("delta_matrix", .mat2 fun k i j => deltaOf (res k).range (rhoMatrix (res k).jr i j)),
   ("delta_matrix_t", .mat2 fun k i j => deltaOf (res k).range (rhoMatrix (res k).jt i j)),
   ("mueller_matrix", .mat4 fun k i j => muellerMatrix (res k).jr i j),
   ("jones_matrix_r", .mat2 fun k => (res k).jr),
   ("jones_matrix_t", .mat2 fun k => (res k).jt),
   ("jones_matrix_rc", .mat2 fun k => jonesRc (res k).jr),
   ("jones_matrix_tc", .mat2 fun k => jonesTc (res k).jt),
   ("R", .vec fun k => (res k).R),
   ("R_matrix", .mat2 fun k i j => (res k).RMatrix i j),
   ("T", .vec fun k => (res k).T),
   ("T_matrix", .mat2 fun k i j => (res k).TMatrix i j),
   ("Rc_matrix", .mat2 fun k i j => (res k).RcMatrix i j),
   ("Tc_matrix", .mat2 fun k i j => (res k).TcMatrix i j),
   ("get", .obj),
   ("as_delta_range", .obj),
   ("__init__", .obj),
   ("__getattr__", .obj),
   ("experiment", .obj),
   ("_jones_matrix_r", .mat2 fun k => (res k).jr),
   ("_jones_matrix_t", .mat2 fun k => (res k).jt),
   ("_delta_range", .obj),
   ("_power_correction", .vec fun k => (res k).power)]

/-- `__getattribute__`: an attribute of the object, or one of the names `other` every Python object has (`__class__`, `__doc__`, …),
whose values are opaque here. -/
noncomputable def getattribute (other : List String) (res : Fin N → Result) (name : String) : Except PyErr (AVal N) :=
  match Dict.get (attrs res) name with
  | some v => .ok v
  | none => if name ∈ other then .ok .obj else .error .attributeError

/-- `_convert_index`, `result.py:35-51`. -/
def convertIndex (c : Char) : Except PyErr ℕ :=
  if c = '1' then .ok 0
  else if c = '2' then .ok 1
  else if c = '3' then .ok 2
  else if c = '4' then .ok 3
  else if c = 'p' ∨ c = 'L' then .ok 0
  else if c = 's' ∨ c = 'R' then .ok 1
  else .error .valueError

/-- `(i, j) = map(_convert_index, names[1])`, `result.py:421-422`: unpacking anything but two values is a `ValueError`, and so is a
character without index. -/
def convertPair : List Char → Except PyErr (ℕ × ℕ)
  | [a, b] => do return (← convertIndex a, ← convertIndex b)
  | _ => .error .valueError

/-- `name.rsplit("_", 1)` on the characters: the part before the last underscore and, if there is one, the part after it. -/
def rsplit : List Char → List Char × Option (List Char)
  | [] => ([], none)
  | c :: cs =>
    match rsplit cs with
    | (a, some b) => (c :: a, some b)
    | (_, none) => if c = '_' then ([], some cs) else (c :: cs, none)

/-- Numpy indexing `x[:, i, j]`: too many indices or an index out of range is an `IndexError`; other objects are not indexable by
such a tuple (`TypeError`). -/
def AVal.elem (i j : ℕ) : AVal N → Except PyErr (AVal N)
  | .vec _ => .error .indexError
  | .mat2 f => if h : i < 2 ∧ j < 2 then .ok (.vec fun k => f k ⟨i, h.1⟩ ⟨j, h.2⟩) else .error .indexError
  | .mat4 f => if h : i < 4 ∧ j < 4 then .ok (.vec fun k => f k ⟨i, h.1⟩ ⟨j, h.2⟩) else .error .indexError
  | .obj => .error .typeError

/-- The Greek aliases, `result.py:408-413`. -/
def alias' (s : String) : String :=
  if s = "Ψ" then "psi" else if s = "Δ" then "delta" else if s = "ρ" then "rho" else s

/-- `Result.__getattr__`, `result.py:389-439`. A name without underscore and without special meaning ends in `names[0][:, i, j]` with
`i` unassigned. -/
noncomputable def fallback (other : List String) (res : Fin N → Result) (name : String) : Except PyErr (AVal N) :=
  let parts := rsplit name.toList
  let q := alias' (String.ofList parts.1)
  if ¬ (q ∈ ["psi", "delta", "rho", "r", "t", "rc", "tc", "Rc", "Tc"] ∨ q ∈ (attrs res).keys ∨ q ∈ other) then
    .error .attributeError
  else match parts.2 with
    | none =>
      if q ∈ ["psi", "delta", "rho", "R", "T"] then getattribute other res q
      else if q ∈ ["r", "rc", "t", "tc"] then getattribute other res ("jones_matrix_" ++ q)
      else if q ∈ ["Rc", "Tc"] then getattribute other res (q ++ "_matrix")
      else .error .unboundLocal
    | some ij => do
      let (i, j) ← convertPair ij
      if q ∈ ["psi", "delta", "rho", "R", "T"] then (← getattribute other res (q ++ "_matrix")).elem i j
      else if q ∈ ["r", "rc", "t", "tc"] then (← getattribute other res ("jones_matrix_" ++ q)).elem i j
      else if q ∈ ["Rc", "Tc"] then (← getattribute other res (q ++ "_matrix")).elem i j
      else (← getattribute other res q).elem i j

/-- Python attribute access `result.name`: `__getattribute__`, and `__getattr__` if that raises `AttributeError` (properties of the
model do not raise it themselves). -/
noncomputable def getattr (other : List String) (res : Fin N → Result) (name : String) : Except PyErr (AVal N) :=
  match getattribute other res name with
  | .ok v => .ok v
  | .error _ => fallback other res name

/-- Python subscription `x[k]` looks up `__getitem__` on the class (not through `__getattr__`); a class without it is not
subscriptable. What a `__getitem__` would do is the parameter `item`. -/
noncomputable def subscript (other : List String) (res : Fin N → Result)
    (item : (Fin N → Result) → String → Except PyErr (AVal N)) (name : String) : Except PyErr (AVal N) :=
  if "__getitem__" ∈ (attrs res).keys ∨ "__getitem__" ∈ other then item res name else .error .typeError

/-- `Result.get`, `result.py:370-387`. -/
noncomputable def get (other : List String) (res : Fin N → Result)
    (item : (Fin N → Result) → String → Except PyErr (AVal N)) (name : String) : Except PyErr (AVal N) :=
  subscript other res item name

/-! ## Lists of results -/

/-- A numpy array: shape and entries in row-major order. -/
structure Nd where
  shape : List ℕ
  data : List ℂ

/-- The numpy array of an attribute value. -/
def AVal.nd : AVal N → Option Nd
  | .vec f => some ⟨[N], List.ofFn f⟩
  | .mat2 f => some ⟨[N, 2, 2], (List.ofFn fun k => [f k 0 0, f k 0 1, f k 1 0, f k 1 1]).flatten⟩
  | .mat4 f => some ⟨[N, 4, 4], (List.ofFn fun k => (List.ofFn fun i => List.ofFn fun j => f k i j).flatten).flatten⟩
  | .obj => none

/-- `np.array([…])` of arrays: all must have one shape (`ValueError` otherwise); the empty list gives an empty array. -/
def stack : List Nd → Except PyErr Nd
  | [] => .ok ⟨[0], []⟩
  | a :: as => if ∀ b ∈ as, b.shape = a.shape then .ok ⟨(as.length + 1) :: a.shape, (a :: as).flatMap Nd.data⟩ else .error .valueError

/-- `np.squeeze`: drop axes of length one. -/
def squeeze (a : Nd) : Nd := ⟨a.shape.filter (· ≠ 1), a.data⟩

/-- `np.mean(x, axis=0)`: an array without axes raises `AxisError`; for a first axis of length zero the result is NaN (`none`). -/
noncomputable def mean0 (a : Nd) : Except PyErr (Option Nd) :=
  match a.shape with
  | [] => .error .axisError
  | m :: s => if m = 0 then .ok none else
    .ok (some ⟨s, (List.range s.prod).map fun k => (((List.range m).map fun r => a.data.getD (r * s.prod + k) 0).sum) / m⟩)

/-- `ResultList.__getattr__`, `result.py:489-512`, for a name other than `mean`; `arrays` are the values of the attribute for the
results of the list. -/
def listAttr (arrays : List Nd) : Except PyErr Nd := (stack arrays).map squeeze

/-- `AveragedResultList.__getattr__`, `result.py:521-544`; `name` is looked up in each result, which gives `arrays name`. -/
noncomputable def meanAttr (arrays : String → List Nd) (name : String) : Except PyErr (Option Nd) :=
  if name = "mean" then .error .valueError else (listAttr (arrays name)).bind mean0

end PyElli.Lookup
