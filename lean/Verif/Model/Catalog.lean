import Verif.Model.Base
import Mathlib.Data.Real.Basic
import Mathlib.Order.Interval.Set.Defs
import Mathlib.Tactic.NormNum

/-! # Searching the catalog of refractiveindex.info: `/repo/src/elli/database/refractive_index_info.py:203-265, 454-490`

Reading the YAML catalog is not modelled; a catalog is the list of its rows. -/

namespace PyElli.Catalog

open PyElli

/-- A cell of the catalog data frame: missing, text, or a number (`year`, `lower_range`, `upper_range`). -/
inductive Cell
  | na
  | str (s : String)
  | num (x : ℝ)

/-- The columns of the catalog, `nt_entry`, `refractive_index_info.py:36-53`. -/
def columns : List String :=
  ["shelf", "shelf_longname", "book_divider", "book", "book_longname", "page", "page_type", "author", "year", "comment", "lower_range",
    "upper_range", "path"]

/-- Keys of `_filter_lists`, `refractive_index_info.py:194-201`. -/
def filterKeys : List String := ["book_divider", "book", "book_longname", "page", "author", "comment"]

/-- One row: the cell in each column. -/
abbrev Row := String → Cell

/-- How `np.logical_or` treats missing truth values of two nullable boolean columns (library behaviour): three-valued logic as pandas'
`|` operator does, or missing whenever one side is missing, as numpy functions on masked columns do. -/
inductive OrRule
  | kleene
  | propagate

/-- `np.logical_or` on one pair of truth values. -/
def OrRule.or : OrRule → Option Bool → Option Bool → Option Bool
  | _, some a, some b => some (a || b)
  | .kleene, some true, none => some true
  | .kleene, none, some true => some true
  | _, _, _ => none

open Classical in
/-- `catalog[col] == s` for one cell: missing if the cell is, false for numbers. -/
noncomputable def eqCell (c : Cell) (s : String) : Option Bool :=
  match c with
  | .na => none
  | .str t => some (decide (t = s))
  | .num _ => some false

/-- The texts in a column. -/
def Cell.text : Cell → Option String
  | .str s => some s
  | _ => none

/-- `catalog[col].drop_duplicates().dropna().values`, `refractive_index_info.py:187-192`. -/
def filterList (cat : List Row) (col : String) : List String := ((cat.map fun r => r col).filterMap Cell.text).eraseDups

/-- The argument `query`. -/
inductive Query
  | one (s : String)
  | many (l : List String)

/-- The argument `column`. -/
inductive ColumnArg
  | one (s : String)
  | many (l : List String)

/-- The argument `wavelength_filter`: nothing, a number, a sequence of numbers, or something else (numpy integers among them). -/
inductive WlArg
  | none
  | num (x : ℝ)
  | seq (xs : List ℝ)
  | other

/-- `if isinstance(query, str): query = [query]`. -/
def Query.list : Query → List String
  | .one s => [s]
  | .many l => l

/-- `refractive_index_info.py:223-229`. -/
def ColumnArg.list (fuzzy : Bool) : ColumnArg → List String
  | .one s => if s = "all" then (if fuzzy then filterKeys else columns) else [s]
  | .many l => l

/-- The body of the two loops for one column and query, `refractive_index_info.py:235-245`. `extract q choices` are the suggestions of
`rapidfuzz.process.extract` (at most ten choices with score 80 or more). -/
noncomputable def step (rule : OrRule) (extract : String → List String → List String) (cat : List Row) (fuzzy : Bool)
    (mask : Row → Option Bool) (col q : String) : Except PyErr (Row → Option Bool) :=
  if fuzzy then
    if col ∈ filterKeys then
      .ok ((extract q (filterList cat col)).foldl (fun m s r => rule.or (m r) (eqCell (r col) s)) mask)
    else .error .keyError
  else
    if col ∈ columns then .ok fun r => rule.or (mask r) (eqCell (r col) q)
    else .error .keyError

/-- Both loops, over the pairs of column and query. -/
noncomputable def loop (rule : OrRule) (extract : String → List String → List String) (cat : List Row) (fuzzy : Bool) :
    (Row → Option Bool) → List (String × String) → Except PyErr (Row → Option Bool)
  | mask, [] => .ok mask
  | mask, (col, q) :: rest =>
    match step rule extract cat fuzzy mask col q with
    | .error e => .error e
    | .ok mask' => loop rule extract cat fuzzy mask' rest

/-- `(lower_range <= wl) & (upper_range >= wl)`; comparisons with missing numbers are false. -/
def covers (r : Row) (wl : ℝ) : Prop := ∃ lo hi, r "lower_range" = .num lo ∧ r "upper_range" = .num hi ∧ lo ≤ wl ∧ wl ≤ hi

open Classical in
/-- `RII.search`, `refractive_index_info.py:203-265`. `.loc[index]` takes a missing truth value as false. -/
noncomputable def search (rule : OrRule) (extract : String → List String → List String) (cat : List Row) (query : Query)
    (column : ColumnArg) (wl : WlArg) (fuzzy : Bool) : Except PyErr (List Row) :=
  let pairs := (column.list fuzzy).flatMap fun col => query.list.map fun q => (col, q)
  match loop rule extract cat fuzzy (fun r => eqCell (r "shelf") "") pairs with
  | .error e => .error e
  | .ok mask =>
    let result := cat.filter fun r => decide (mask r = some true)
    match wl with
    | .none => .ok result
    | .num x => .ok (result.filter fun r => decide (covers r x))
    | .seq xs => .ok (xs.foldl (fun res x => res.filter fun r => decide (covers r x)) result)
    | .other => .error .valueError

/-- `if len(index) != 1: raise ValueError(…)`, `refractive_index_info.py:470-471`. -/
def only : List Row → Except PyErr Row
  | [r] => .ok r
  | _ => .error .valueError

open Classical in
/-- `RII._open_file`, `refractive_index_info.py:454-490`, up to the row whose file is read. The row labels of the catalog are
`0, 1, 2, …`, so the label found belongs to one row. -/
noncomputable def openFile (cat : List Row) (book page : String) : Except PyErr Row :=
  only (cat.filter fun r => decide (eqCell (r "book") book = some true ∧ eqCell (r "page") page = some true))

end PyElli.Catalog
