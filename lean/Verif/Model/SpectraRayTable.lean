import Verif.Model.Table
import Verif.Model.Dispersion

/-! # Tabulated dielectric functions of SpectraRay: `/repo/src/elli/dispersions/table_spectraray.py`

A file is the list of its lines; each line ends with its newline character (the last one may not), as `readline` returns it. Which
characters are white space, and how a field is read as a number, are parameters (library behaviour). -/

namespace PyElli.SpectraRay

open PyElli

/-- What the Python functions `str.strip`, `float` and pandas know about characters. -/
structure Text where
  space : Char → Bool
  float : List Char → Option ℝ

/-- `line.strip()`. -/
def Text.strip (T : Text) (l : List Char) : List Char := ((l.dropWhile T.space).reverse.dropWhile T.space).reverse

/-- The variables `start`, `stop` and `x_unit` (`none`: unbound) of `load_dispersion_table`. -/
structure Scan where
  start : ℕ
  stop : ℕ
  unit : Option (List Char)

/-- The two tests for the markers of the array, `/repo/src/elli/dispersions/table_spectraray.py:39-42`. -/
def Text.markers (T : Text) (cnt : ℕ) (line : List Char) (s : Scan) : Scan :=
  let s := if T.strip line = "Begin of array".toList then { s with start := cnt + 1 } else s
  if T.strip line = "End of array".toList then { s with stop := cnt } else s

/-- `line.split("=")[1].split(",")[0]`, for a line that contains an equals sign. -/
def unitText (line : List Char) : List Char := (((line.splitOn '=').getD 1 []).splitOn ',').headD []

/-- The test for the line of units, `/repo/src/elli/dispersions/table_spectraray.py:46-47`. -/
def unitLine (line : List Char) (s : Scan) : Scan :=
  if "Units=".toList.isPrefixOf line then { s with unit := some (unitText line) } else s

/-- The loop `/repo/src/elli/dispersions/table_spectraray.py:38-47`; the head of the list is the current `line`. The line of units is looked
for in the line that was just read, so never in the first line. -/
def Text.loop (T : Text) : ℕ → List (List Char) → Scan → Scan
  | _, [], s => s
  | cnt, line :: rest, s =>
    let s := T.markers cnt line s
    match rest with
    | [] => s
    | next :: _ => T.loop (cnt + 1) rest (unitLine next s)

/-- The fields of a line, separated by white space. -/
def Text.fields (T : Text) (l : List Char) : List (List Char) := (l.splitOnP T.space).filter fun f => !f.isEmpty

/-- The three columns of a line; `none` if one of the fields is not a number (then the column holds text). Simplification: for a line
with fewer than three fields pandas fills in NaN; here such a line has no numbers. -/
def Text.row (T : Text) (l : List Char) : Option (ℝ × ℝ × ℝ) :=
  match T.fields l with
  | a :: b :: c :: _ =>
    match T.float a, T.float b, T.float c with
    | some x, some y, some z => some (x, y, z)
    | _, _, _ => none
  | _ => none

/-- `pd.read_csv` with `skiprows`, `nrows`: blank lines are left out and do not count as rows (`skip_blank_lines=True`). -/
def Text.readCsv (T : Text) (lines : List (List Char)) (skip n : ℕ) : List (Option (ℝ × ℝ × ℝ)) :=
  (((lines.drop skip).filter fun l => !(T.fields l).isEmpty).take n).map T.row

/-- `TableSpectraRay.load_dispersion_table`, `/repo/src/elli/dispersions/table_spectraray.py:13-66`, for a file that can be opened.
`df.iloc[:, "ϵ2"]` raises `ValueError`; arithmetic with a column of text raises `TypeError`; an unassigned `x_unit` raises
`UnboundLocalError`; a negative `nrows` raises `ValueError`. Simplification: an energy of zero (infinite wavelength) is not modelled. -/
noncomputable def Text.load (T : Text) (K : PhysConst) (lines : List (List Char)) : Except PyErr Table :=
  let s := T.loop 0 lines ⟨0, 0, none⟩
  match s.unit with
  | none => .error .unboundLocal
  | some u =>
    if s.stop < s.start then .error .valueError
    else
      let df := T.readCsv lines s.start (s.stop - s.start)
      if u = "Wavelength".toList then .error .valueError
      else
        match df.mapM id with
        | none => .error .typeError
        | some rows =>
          mkTable (rows.map fun r => K.c * K.h / (r.1 * 1e-9)) (rows.map fun r => (r.2.1 : ℂ) + Complex.I * r.2.2)

end PyElli.SpectraRay
