import Verif.Model.Fit
import Verif.Model.MeasFile

/-! # Mueller matrix files and readers of ρ: `/repo/src/elli/importer/spectraray.py`, `nexus.py` -/

namespace PyElli.Importer

open PyElli

/-- A file split at the separator: the tokens of the first line and the values of the other lines; `none` is a cell that reads as NaN. -/
structure TokenFile where
  header : List String
  lines : List (List (Option ℝ))

/-- A data frame of floats with its index; `none` is NaN. -/
structure IndexedFrame where
  index : List (Option ℝ)
  columns : List String
  rows : List (List (Option ℝ))

/-- The cells of one line in a table of `n` columns: missing cells are NaN, a line with more cells than the header is refused (pandas). -/
def fillLine (n : ℕ) (line : List (Option ℝ)) : Except PyErr (List (Option ℝ)) :=
  if n < line.length then .error .parseError else .ok (line ++ List.replicate (n - line.length) none)

/-- All lines. -/
def fillLines (n : ℕ) : List (List (Option ℝ)) → Except PyErr (List (List (Option ℝ)))
  | [] => .ok []
  | l :: ls =>
    match fillLine n l with
    | .error e => .error e
    | .ok r =>
      match fillLines n ls with
      | .error e => .error e
      | .ok rs => .ok (r :: rs)

/-- `pd.read_csv(fname, sep=sep, decimal=decimal, index_col=0)`, `/repo/src/elli/importer/spectraray.py:88-90`: one column for each token of
the first line, the first of them is the index. Library behaviour. Simplifications: no blank lines among the others, all columns hold
numbers, every line with too many cells is refused (pandas takes the surplus cells as further index columns when the first line of
data has them), repeated names are kept (pandas numbers them; the names are replaced afterwards). -/
def readCsvIndexed (f : TokenFile) : Except PyErr IndexedFrame :=
  match f.header with
  | [] => .error .valueError
  | _ :: names =>
    match fillLines (names.length + 1) f.lines with
    | .error e => .error e
    | .ok rows => .ok ⟨rows.map fun r => r.headD none, names, rows.map List.tail⟩

/-- `l[-a:-b]` of Python. -/
def negSlice {α : Type} (l : List α) (a b : ℕ) : List α := (l.take (l.length - b)).drop (l.length - a)

/-- `read_spectraray_mmatrix`, `/repo/src/elli/importer/spectraray.py:70-111`, for a file that can be opened and decoded. pandas refuses a
list of names whose length is not the number of columns. -/
def readMMatrix (f : TokenFile) : Except PyErr IndexedFrame :=
  match readCsvIndexed f with
  | .error e => .error e
  | .ok df =>
    if (negSlice df.columns 17 1).length ≠ Fit.spectrarayColumns.length then .error .valueError
    else .ok ⟨df.index, Fit.spectrarayColumns, df.rows.map fun r => negSlice r 17 1⟩

/-- `calc_rho` on a frame, `/repo/src/elli/utils.py:87-105`: same index, one value for each row. -/
noncomputable def rhoRows (rows : List Meas) : List ((ℝ × ℝ) × ℂ) := rows.map fun m => (m.1, calcRho m.2.2 m.2.1)

/-- `read_spectraray_rho`, `/repo/src/elli/importer/spectraray.py:114-129`. -/
noncomputable def readSpectrarayRho (header : List (Option ℝ)) (rows : List (ℝ × List ℝ)) : Except PyErr (List ((ℝ × ℝ) × ℂ)) :=
  match readSpectraray header rows with
  | .error e => .error e
  | .ok ms => .ok (rhoRows ms)

/-- `read_nexus_rho`, `/repo/src/elli/importer/nexus.py:145-157`: names of the groups cannot be given. -/
noncomputable def readNexusRho (f : H5File) : Except PyErr (List ((ℝ × ℝ) × ℂ)) :=
  match readNexus f .none with
  | .error e => .error e
  | .ok ms => .ok (rhoRows ms)

end PyElli.Importer
