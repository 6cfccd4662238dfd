import Verif.Model.FitWindow

/-! # Drawing Mueller matrices: `/repo/src/elli/plot/mueller_matrix.py`, and `FitMuellerMatrix.plot`, `plot_residual`

The figure is the list of its curves with names, colours and dashes, the fixed range of the y axes and whether the x axes are tied. Layout and
axis titles are left out. -/

namespace PyElli.MmPlot

open PyElli PyElli.Fit PyElli.FitWindow

/-- A `go.Scatter`, and its place (row, column) in the grid. -/
structure Curve where
  name : String
  color : String
  dash : String
  cell : Option (ℕ × ℕ)
  x : List ℝ
  y : List (Option ℝ)

structure Figure where
  curves : List Curve
  /-- `update_yaxes(range=[-1, 1])` was called. -/
  fullScale : Bool
  /-- `update_xaxes(matches="x")` was called. -/
  sharex : Bool

/-- `COLORS`, `mueller_matrix.py:18-29`. -/
def stdColors : List String :=
  ["#636EFA", "#EF553B", "#00CC96", "#AB63FA", "#FFA15A", "#19D3F3", "#FF6692", "#B6E880", "#FF97FF", "#FECB52"]

/-- `l[i % len(l)]`; an empty list gives `ZeroDivisionError`. -/
def cycled (l : List String) (i : ℕ) : Except PyErr String :=
  match l with
  | [] => .error .zeroDivisionError
  | a :: t => .ok ((a :: t).getD (i % (a :: t).length) "")

/-- The inner loop `mueller_matrix.py:82-104` for column number `i`, from frame number `j` on. In the grid, plotly raises an exception for a place
outside of the four rows (here `IndexError`). -/
def innerLoop (dashes names : List String) (single : Bool) (i : ℕ) (melem color : String) : ℕ → List (List ℝ × Frame) → Except PyErr (List Curve)
  | _, [] => .ok []
  | j, (index, df) :: dfs =>
    match cycled dashes j with
    | .error e => .error e
    | .ok dash =>
      match cycled names j with
      | .error e => .error e
      | .ok name =>
        if melem ∉ df.columns then .error .keyError
        else if single = false ∧ 4 < i / 4 + 1 then .error .indexError
        else
          match innerLoop dashes names single i melem color (j + 1) dfs with
          | .error e => .error e
          | .ok rest => .ok (⟨melem ++ " " ++ name, color, dash, if single then none else some (i / 4 + 1, i % 4 + 1), index, columnOf df melem⟩ :: rest)

/-- The outer loop `mueller_matrix.py:80-104`. -/
def outerLoop (colors dashes names : List String) (single : Bool) (dfs : List (List ℝ × Frame)) : ℕ → List String → Except PyErr (List Curve)
  | _, [] => .ok []
  | i, melem :: cs =>
    match cycled colors i with
    | .error e => .error e
    | .ok color =>
      match innerLoop dashes names single i melem color 0 dfs with
      | .error e => .error e
      | .ok cur =>
        match outerLoop colors dashes names single dfs (i + 1) cs with
        | .error e => .error e
        | .ok rest => .ok (cur ++ rest)

/-- `plot_mmatrix`, `mueller_matrix.py:32-107`; a single frame is a list of one (60-61). -/
def plotMmatrixFull (dfs : List (List ℝ × Frame)) (colors dashes names : Option (List String)) (single fullScale sharex : Bool) : Except PyErr Figure :=
  let colors := colors.getD stdColors
  let dashes := dashes.getD ["solid", "dash", "dot"]
  let names := names.getD ["", "theory"]
  let scaled := if single then false else if fullScale then true else false
  match dfs with
  | [] => .error .indexError
  | (_, df) :: _ =>
    match outerLoop colors dashes names single dfs 0 df.columns with
    | .error e => .error e
    | .ok cs => .ok ⟨cs, scaled, sharex⟩

/-- The attributes used for drawing. -/
structure Options where
  single : Bool
  sharex : Bool
  fullScale : Bool

/-- `FitMuellerMatrix.plot`, `decorator_mmatrix.py:244-277`; keyword arguments that are missing or `None` are taken from the object. -/
def mmPlot (s : MmSetup) (o : Options) (fitted : Dict ℝ) (single sharex fullScale : Option Bool) : Except PyErr Figure :=
  match mmToFrame s.exp (s.model s.index fitted) none with
  | .error e => .error e
  | .ok fit => plotMmatrixFull [(s.index, s.exp), (s.index, fit)] none none none (single.getD o.single) (fullScale.getD o.fullScale) (sharex.getD o.sharex)

/-- `FitMuellerMatrix.plot_residual`, `decorator_mmatrix.py:279-312`. -/
def mmPlotResidual (s : MmSetup) (o : Options) (fitted : Dict ℝ) (single sharex fullScale : Option Bool) : Except PyErr Figure :=
  match mmToFrame s.exp (s.model s.index fitted) none with
  | .error e => .error e
  | .ok fit => plotMmatrixFull [(s.index, frameSub fit s.exp)] none none none (single.getD o.single) (fullScale.getD o.fullScale) (sharex.getD o.sharex)

end PyElli.MmPlot
