import Verif.Model.Angles
import Verif.Model.Params
import Mathlib.Data.Matrix.Basic

/-! # Residuals of the fitting classes: `/repo/src/elli/fitting/decorator_psi_delta.py`, `decorator_mmatrix.py`

Arrays are lists, values exact numbers. The user's model function is not modelled: its output (`result.rho`, `result.mueller_matrix`) is an
argument. lmfit flattens the residual array (library behaviour) and minimises the sum of its squares. -/

namespace PyElli.Fit

open PyElli

/-- A 4x4 matrix of reals. -/
abbrev M4 := Matrix (Fin 4) (Fin 4) ℝ

/-- `x - y` on arrays with broadcasting along the first axis (numpy): equal lengths, or one of the arrays has a single entry. -/
def npSub {α : Type} [Sub α] (x y : List α) : Except PyErr (List α) :=
  if x.length = y.length then .ok (List.zipWith (· - ·) x y)
  else match x, y with
    | [a], _ => .ok (y.map fun b => a - b)
    | _, [b] => .ok (x.map fun a => a - b)
    | _, _ => .error .valueError

/-- `FitRho.fit_function`, `/repo/src/elli/fitting/decorator_psi_delta.py:232-258`: `rho` is `result.rho` of the user's model. -/
def fitFunction (rhor rhoi : List ℝ) (rho : List ℂ) : Except PyErr (List ℝ) :=
  match npSub rhor (rho.map Complex.re) with
  | .error e => .error e
  | .ok residR =>
    match npSub rhoi (rho.map Complex.im) with
    | .error e => .error e
    | .ok residI => .ok (residR ++ residI)

/-- `FitRho.fit`, `decorator_psi_delta.py:260-280`: the residual as a function of what the model gives, for a data frame with the columns Ψ
and Δ (rows as pairs). `calc_rho`, `/repo/src/elli/utils.py:87-105`, row by row. -/
noncomputable def fitResidual (data : List (ℝ × ℝ)) (rho : List ℂ) : Except PyErr (List ℝ) :=
  let rhoExp := data.map fun r => calcRho r.1 r.2
  fitFunction (rhoExp.map Complex.re) (rhoExp.map Complex.im) rho

/-- A data frame of floats: column labels and rows. -/
structure Frame where
  columns : List String
  rows : List (List ℝ)

/-- Block `k` of an array read as 4x4 blocks (row-major). -/
def block (flat : List ℝ) (k : ℕ) : M4 := fun i j => flat.getD (16 * k + 4 * i.val + j.val) 0

/-- `df.values.reshape(-1, 4, 4)`: all values row by row, cut into 4x4 blocks; refused unless their number is a multiple of 16. -/
def reshape44 (rows : List (List ℝ)) : Except PyErr (List M4) :=
  if rows.flatten.length % 16 ≠ 0 then .error .valueError
  else .ok ((List.range (rows.flatten.length / 16)).map (block rows.flatten))

/-- One row of `mueller_matrix.reshape(-1, 16)`. -/
def row16 (m : M4) : List ℝ :=
  [m 0 0, m 0 1, m 0 2, m 0 3, m 1 0, m 1 1, m 1 2, m 1 3, m 2 0, m 2 1, m 2 2, m 2 3, m 3 0, m 3 1, m 3 2, m 3 3]

/-- `FitMuellerMatrix.fit_function`, `/repo/src/elli/fitting/decorator_mmatrix.py:163-180`, flattened as lmfit does; `mm` is
`mueller_matrix` of the user's model. -/
def mmFitFunction (exp : Frame) (mm : List M4) : Except PyErr (List ℝ) :=
  match reshape44 exp.rows with
  | .error e => .error e
  | .ok ms =>
    match npSub ms mm with
    | .error e => .error e
    | .ok ds => .ok (ds.map row16).flatten

/-- `mmatrix_to_dataframe`, `decorator_mmatrix.py:28-58`: the rows of the model with the labels of the experiment. pandas refuses a number
of labels other than 16 and an index of another length. -/
def mmToFrame (exp : Frame) (mm : List M4) (identifier : Option String) : Except PyErr Frame :=
  let columns := match identifier with
    | none => exp.columns
    | some s => exp.columns.map fun c => c ++ "_" ++ s
  if mm.length ≠ exp.rows.length then .error .valueError
  else if columns.length ≠ 16 then .error .valueError
  else .ok ⟨columns, mm.map row16⟩

/-- `df[label]` for one row: the value in the first column with that label. -/
def Frame.cell (f : Frame) (k : ℕ) (label : String) : Option ℝ :=
  match f.rows[k]? with
  | none => none
  | some r => Dict.get (f.columns.zip r) label

/-- The column names set by `read_spectraray_mmatrix`, `/repo/src/elli/importer/spectraray.py:92-109`. -/
def spectrarayColumns : List String :=
  ["M11", "M12", "M13", "M14", "M21", "M22", "M23", "M24", "M31", "M32", "M33", "M34", "M41", "M42", "M43", "M44"]

/-- The part of `FitMuellerMatrix.__init__`, `decorator_mmatrix.py:349-364`, that handles the display options: those given are stored as
attributes, then all three are read. Neither the class nor its base class sets them elsewhere. -/
def mmInitOptions (kwargs : Dict Bool) : Except PyErr (Bool × Bool × Bool) :=
  let attrs := kwargs.filter fun kv => kv.1 ∈ ["display_single", "sharex", "full_scale"]
  match Dict.get attrs "display_single", Dict.get attrs "sharex", Dict.get attrs "full_scale" with
  | some a, some b, some c => .ok (a, b, c)
  | _, _, _ => .error .attributeError

end PyElli.Fit
