import Verif.Model.Base

/-! # Parameters of dispersions: `/repo/src/elli/dispersions/base_dispersion.py`

Dictionaries are mutable objects in Python, so they live in a memory: a list of dictionaries, addressed by
position. `None` is `none`. -/

namespace PyElli

/-- A Python `dict` with string keys, in insertion order. -/
abbrev Dict (α : Type) := List (String × α)

namespace Dict

variable {α : Type}

/-- `list(d.keys())`. -/
def keys (d : Dict α) : List String := d.map Prod.fst

/-- `d.get(k)`; `none` when the key is missing. -/
def get : Dict α → String → Option α
  | [], _ => none
  | (k', v) :: d, k => if k' = k then some v else get d k

/-- `d[k] = v`: an existing key keeps its place, a new one is appended. -/
def set : Dict α → String → α → Dict α
  | [], k, v => [(k, v)]
  | (k', v') :: d, k, v => if k' = k then (k', v) :: d else (k', v') :: set d k v

end Dict

/-- The memory of dictionaries. -/
abbrev DictMem (α : Type) := List (Dict α)

variable {α : Type}

/-- `params[key] = value` for the dictionary at address `p`. -/
def store (m : DictMem α) (p : ℕ) (k : String) (v : α) : DictMem α := m.modify p fun d => d.set k v

/-- `_guard_invalid_params(params1, params2)`, `/repo/src/elli/dispersions/base_dispersion.py:38-44`. -/
def guardInvalidParams (params1 params2 : List String) : Except PyErr Unit :=
  if params1.filter (fun k => !params2.contains k) = [] then .ok () else .error .invalidParameters

/-- The loop over positional arguments, `base_dispersion.py:56-59`, starting at index `i`; `keys` is
`list(template.keys())`. Returns the set `pos_arguments`. -/
def posLoop (keys : List String) (p : ℕ) :
    ℕ → List α → DictMem α → List String → Except PyErr (List String) × DictMem α
  | _, [], m, pos => (.ok pos, m)
  | i, val :: args, m, pos =>
    match keys[i]? with
    | none => (.error .indexError, m)
    | some key => posLoop keys p (i + 1) args (store m p key val) (key :: pos)

/-- The loop over keyword arguments, `base_dispersion.py:61-66`. -/
def kwLoop (p : ℕ) (pos : List String) : Dict α → DictMem α → Except PyErr Unit × DictMem α
  | [], m => (.ok (), m)
  | (key, value) :: kwargs, m =>
    if key ∈ pos then (.error .invalidParameters, m)
    else kwLoop p pos kwargs (store m p key value)

/-- `_fill_params_dict`, `base_dispersion.py:46-68`: `t` is the address of the template (a class attribute), the result is the
address of the new dictionary. -/
def fillParams (m : DictMem α) (t : ℕ) (args : List α) (kwargs : Dict α) : Except PyErr ℕ × DictMem α :=
  let template := (m[t]?).getD []
  match guardInvalidParams kwargs.keys template.keys with
  | .error e => (.error e, m)
  | .ok () =>
    if kwargs.length + args.length > template.length then (.error .invalidParameters, m)
    else
      let p := m.length
      match posLoop template.keys p 0 args (m ++ [template]) [] with
      | (.error e, m') => (.error e, m')
      | (.ok pos, m') =>
        match kwLoop p pos kwargs m' with
        | (.error e, m'') => (.error e, m'')
        | (.ok (), m'') => (.ok p, m'')

/-- `BaseDispersion.__init__`, `base_dispersion.py:70-80`: fills `single_params` and refuses parameters that are still `None`.
`rep_params` starts empty. -/
def initDispersion (m : DictMem (Option α)) (t : ℕ) (args : List (Option α)) (kwargs : Dict (Option α)) :
    Except PyErr ℕ × DictMem (Option α) :=
  match fillParams m t args kwargs with
  | (.error e, m') => (.error e, m')
  | (.ok p, m') =>
    if ((m'[p]?).getD []).any (fun kv => kv.2.isNone) then (.error .invalidParameters, m') else (.ok p, m')

/-- The mutable part of a dispersion object that `add` touches: the memory of dictionaries and the list `rep_params` of
addresses. -/
structure RepState (α : Type) where
  mem : DictMem α
  rep : List ℕ

/-- `BaseDispersion.add`, `base_dispersion.py:99-110`; `t` is the address of `rep_params_template`. -/
def addRep (t : ℕ) (s : RepState α) (args : List α) (kwargs : Dict α) : Except PyErr Unit × RepState α :=
  match fillParams s.mem t args kwargs with
  | (.error e, m') => (.error e, { s with mem := m' })
  | (.ok p, m') => (.ok (), ⟨m', s.rep ++ [p]⟩)

/-- The parameter sets a dispersion sees in `self.rep_params`. -/
def RepState.params (s : RepState α) : List (Dict α) := s.rep.map fun p => (s.mem[p]?).getD []

end PyElli
