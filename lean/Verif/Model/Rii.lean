import Verif.Model.Dispersion
import Verif.Model.Table
import Verif.Model.DispSum

/-! # Loading entries of refractiveindex.info: `RII.get_dispersion`, `/repo/src/elli/database/refractive_index_info.py:279-423`

The YAML file is given as the list under `DATA`; reading files, YAML and the column parsing of pandas are not modelled. Coefficients are
the tokens of `coefficients.split(" ")`, `none` for a token that `float` refuses (an empty token from a double space among them). Powers and
sums are those of the dispersion classes. -/

namespace PyElli.Rii

open PyElli PyElli.Disp

/-- One item of `yml_file["DATA"]`. Wavelengths in micrometres. -/
inductive Entry
  | tabNK (rows : List (ℝ × ℝ × ℝ))
  | tabN (rows : List (ℝ × ℝ))
  | tabK (rows : List (ℝ × ℝ))
  | formula (type : String) (tokens : List (Option ℝ))

/-- Every `st`-th element, starting with the first. -/
def stride (st : ℕ) : List ℝ → List ℝ
  | [] => []
  | x :: xs => x :: stride st (xs.drop (st - 1))
termination_by l => l.length
decreasing_by simp

/-- `coeffs[slice(a, b, st)]` for nonnegative bounds. -/
def slice (l : List ℝ) (a b st : ℕ) : List ℝ := stride st ((l.take b).drop a)

/-- Calling `add` with the positional values of each row on a fresh object with this template
(`/repo/src/elli/dispersions/base_dispersion.py:99-110`): the parameter sets it then has. -/
def addAll (template : Dict ℝ) (rows : List (List ℝ)) : List (Dict ℝ) :=
  (rows.foldl (fun s r => (addRep 0 s r []).2) (⟨[template], []⟩ : RepState ℝ)).params

/-- `list(map(float, tokens))`. -/
def floats : List (Option ℝ) → Except PyErr (List ℝ)
  | [] => .ok []
  | none :: _ => .error .valueError
  | some x :: r => match floats r with
    | .error e => .error e
    | .ok l => .ok (x :: l)

/-- `coeffs[0]`. -/
def head (c : List ℝ) : Except PyErr ℝ :=
  match c with
  | [] => .error .indexError
  | x :: _ => .ok x

/-- `Sellmeier()` with the given oscillators (`/repo/src/elli/dispersions/sellmeier.py:27-34`). -/
noncomputable def sellObj (rows : List (List ℝ)) : Obj :=
  .leaf .eps fun l => .ok (sellmeier (addAll [("A", 0), ("B", 0)] rows) l)

/-- `Polynomial(e0)` with the given terms (`/repo/src/elli/dispersions/polynomial.py:28-31`). -/
noncomputable def polyObj (e0 : ℝ) (rows : List (List ℝ)) : Obj :=
  .leaf .eps fun l => .ok (polynomial [("e0", e0)] (addAll [("f", 0), ("e", 0)] rows) l)

/-- `SellmeierCustomExponent()` with the given terms (`/repo/src/elli/dispersions/sellmeier_custom.py:32-37`). -/
noncomputable def sellCustomObj (rows : List (List ℝ)) : Obj :=
  .leaf .eps fun l => .ok (sellmeierCustom (addAll [("A", 0), ("e_A", 1), ("B", 0), ("e_B", 1)] rows) l)

/-- `CauchyCustomExponent(n0)` with the given terms (`/repo/src/elli/dispersions/cauchy_custom.py:28-31`). -/
noncomputable def cauchyObj (n0 : ℝ) (rows : List (List ℝ)) : Obj :=
  .leaf .index fun l => .ok (cauchyCustomIndex [("n0", n0)] (addAll [("f", 0), ("e", 1)] rows) l)

/-- A table of wavelengths in micrometres and complex indices as `Table` object, `refractive_index_info.py:298-332`. -/
noncomputable def tableObj (m : Mem) (rows : List (ℝ × ℂ)) : Except PyErr (Mem × ℕ × Bool) :=
  match mkTable (rows.map fun r => r.1 * 1000) (rows.map Prod.snd) with
  | .error e => .error e
  | .ok t => .ok (m ++ [.leaf .table t.value], m.length, true)

/-- `f_i / 1e3**e_i, e_i` for `zip(f, e)`, `refractive_index_info.py:368-369, 390-391, 403-404`. -/
noncomputable def nmTerms (f e : List ℝ) : List (List ℝ) := (f.zip e).map fun p => [p.1 / (1000 : ℝ) ^ p.2, p.2]

/-- The branch for one formula, given the coefficients; the flag says that an index dispersion was made.
`refractive_index_info.py:334-410`. -/
noncomputable def loadFormula (m : Mem) (type : String) (c : List ℝ) : Except PyErr (Mem × ℕ × Bool) :=
  if type = "formula 1" then
    let rows := ((slice c 1 c.length 2).zip (slice c 2 c.length 2)).map fun p => [p.1, p.2 ^ 2]
    match head c with
    | .error e => .error e
    | .ok c0 =>
      match addObj (m ++ [sellObj rows, constLeaf .eps c0]) m.length (m.length + 1) with
      | .error e => .error e
      | .ok (m', a) => .ok (m', a, false)
  else if type = "formula 2" then
    let rows := ((slice c 1 c.length 2).zip (slice c 2 c.length 2)).map fun p => [p.1, p.2]
    match head c with
    | .error e => .error e
    | .ok c0 =>
      match addObj (m ++ [sellObj rows, constLeaf .eps c0]) m.length (m.length + 1) with
      | .error e => .error e
      | .ok (m', a) => .ok (m', a, false)
  else if type = "formula 3" then
    match head c with
    | .error e => .error e
    | .ok c0 => .ok (m ++ [polyObj c0 (nmTerms (slice c 1 c.length 2) (slice c 2 c.length 2))], m.length, false)
  else if type = "formula 4" then
    let rows := ((slice c 1 6 4).zip ((slice c 2 7 4).zip ((slice c 3 8 4).zip (slice c 4 9 4)))).map
      fun p => [p.1, p.2.1, p.2.2.1, p.2.2.2]
    match head c with
    | .error e => .error e
    | .ok c0 =>
      match addObj (m ++ [polyObj c0 (nmTerms (slice c 9 c.length 2) (slice c 10 c.length 2)), sellCustomObj rows])
          m.length (m.length + 1) with
      | .error e => .error e
      | .ok (m', a) => .ok (m', a, false)
  else if type = "formula 5" then
    match head c with
    | .error e => .error e
    | .ok c0 => .ok (m ++ [cauchyObj c0 (nmTerms (slice c 1 c.length 2) (slice c 2 c.length 2))], m.length, true)
  else .error .valueError

/-- The body of the loop, `refractive_index_info.py:298-412`: a new dispersion and whether `contains_index_dispersion` is set.
An unknown type is refused before its coefficients are looked at. -/
noncomputable def loadEntry (m : Mem) : Entry → Except PyErr (Mem × ℕ × Bool)
  | .tabNK rows => tableObj m (rows.map fun r => (r.1, (r.2.1 : ℂ) + Complex.I * r.2.2))
  | .tabN rows => tableObj m (rows.map fun r => (r.1, (r.2 : ℂ)))
  | .tabK rows => tableObj m (rows.map fun r => (r.1, 0 + Complex.I * (r.2 : ℂ)))
  | .formula type tokens =>
    if type ∈ ["formula 1", "formula 2", "formula 3", "formula 4", "formula 5"] then
      match floats tokens with
      | .error e => .error e
      | .ok c => loadFormula m type c
    else .error .valueError

/-- The loop over `yml_file["DATA"]`: the addresses in `dispersion_list` and the flag. -/
noncomputable def loadAll (m : Mem) : List Entry → Except PyErr (Mem × List ℕ × Bool)
  | [] => .ok (m, [], false)
  | e :: es =>
    match loadEntry m e with
    | .error x => .error x
    | .ok (m1, a, b) =>
      match loadAll m1 es with
      | .error x => .error x
      | .ok (m2, as, bs) => .ok (m2, a :: as, b || bs)

/-- The loop that replaces dielectric dispersions by their index view, `refractive_index_info.py:418-420`. -/
def toIndex (m : Mem) : List ℕ → Except PyErr (Mem × List ℕ)
  | [] => .ok (m, [])
  | a :: as =>
    match m[a]? with
    | none => .error .unboundLocal
    | some o =>
      match (if o.isEps then asIndex m a else .ok (m, a)) with
      | .error x => .error x
      | .ok (m1, a1) =>
        match toIndex m1 as with
        | .error x => .error x
        | .ok (m2, as') => .ok (m2, a1 :: as')

/-- `for d in dispersions: self += d` in `IndexDispersionSum.__init__`, `base_dispersion.py:386-391`. -/
def addAllIdx (m : Mem) (s : ℕ) : List ℕ → Except PyErr Mem
  | [] => .ok m
  | b :: bs =>
    match addToIdxSum m s b with
    | .error x => .error x
    | .ok m1 => addAllIdx m1 s bs

/-- `for d in dispersions: self += d` in `DispersionSum.__init__`, `base_dispersion.py:343-348`. -/
def addAllEps (m : Mem) (s : ℕ) : List ℕ → Except PyErr Mem
  | [] => .ok m
  | b :: bs =>
    match addToEpsSum m s b with
    | .error x => .error x
    | .ok m1 => addAllEps m1 s bs

/-- `IndexDispersionSum(*list)`. -/
def idxSumOf (m : Mem) (as : List ℕ) : Except PyErr (Mem × ℕ) :=
  (addAllIdx (m ++ [.idxSum []]) m.length as).map fun m' => (m', m.length)

/-- `DispersionSum(*list)`. -/
def epsSumOf (m : Mem) (as : List ℕ) : Except PyErr (Mem × ℕ) :=
  (addAllEps (m ++ [.epsSum []]) m.length as).map fun m' => (m', m.length)

/-- `RII.get_dispersion`, `refractive_index_info.py:279-423`, after the file was read. -/
noncomputable def getDispersion (m : Mem) (data : List Entry) : Except PyErr (Mem × ℕ) :=
  match loadAll m data with
  | .error x => .error x
  | .ok (m1, as, idx) =>
    match as with
    | [a] => .ok (m1, a)
    | _ =>
      if idx then
        match toIndex m1 as with
        | .error x => .error x
        | .ok (m2, as') => idxSumOf m2 as'
      else epsSumOf m1 as

end PyElli.Rii
