import Verif.Model.Hist
import Verif.Model.Fit
import Verif.Model.Utils

/-! # The windows of the fitting classes: `/repo/src/elli/fitting/decorator.py`, `decorator_psi_delta.py`, `decorator_mmatrix.py`,
`/repo/src/elli/plot/mueller_matrix.py`

The parameters and their history are those of `Model/Hist.lean`; a value is a number. Plain `lmfit.Parameters` are not modelled (they have
no `update_params`, so that the fit button raises `AttributeError`). Check boxes (`set_vary_param`) do not change values
and are left out, like layout and colours. Behaviour of ipywidgets (library): a `BoundedFloatText` brings every number into its range, and
tells its observers only when its number has changed. Behaviour of plotly (library): a trace is drawn through the pairs of `x` and `y` as
far as both reach, NaN left out; `DataFrame.plot` makes one trace of each column, with the index as `x`. -/

namespace PyElli.FitWindow

open PyElli PyElli.Hist PyElli.Fit

/-! ## Boxes -/

/-- `sys.float_info.min`: the smallest positive normal number. -/
noncomputable def floatMin : ℝ := 2 ^ (-1022 : ℤ)

/-- `sys.float_info.max`. -/
noncomputable def floatMax : ℝ := (2 - 2 ^ (-52 : ℤ)) * 2 ^ (1023 : ℤ)

/-- Bounds of an lmfit parameter; `none` is infinite. -/
structure Bounds where
  lo : Option ℝ
  hi : Option ℝ

/-- `BoundedFloatText(min=…, max=…)`: the number shown for a given one; `none` where the bounds are in the wrong order and ipywidgets
raises `TraitError`. -/
noncomputable def boundedText (lo hi : Option ℝ) : Option (ℝ → ℝ) :=
  open Classical in
  match lo, hi with
  | none, none => some id
  | some l, none => some fun x => max x l
  | none, some h => some fun x => min x h
  | some l, some h => if l ≤ h then some fun x => min (max x l) h else none

/-- The box of a parameter in `FitRho.create_widgets`, `decorator_psi_delta.py:176-190`. -/
noncomputable def rhoBox (b : Bounds) : Option (ℝ → ℝ) :=
  boundedText (some (match b.lo with | none => floatMin | some l => l)) (some (match b.hi with | none => floatMax | some h => h))

/-- The box of a parameter in `FitMuellerMatrix.create_widgets`, `decorator_mmatrix.py:110-116`. -/
noncomputable def mmBox (b : Bounds) : Option (ℝ → ℝ) := boundedText b.lo b.hi

/-! ## Events -/

/-- A window: parameters, the numbers in the boxes, and what is displayed. -/
structure Window (F : Type) where
  gui : Gui ℝ
  boxes : Dict ℝ
  view : F

/-- What differs between the two classes: the boxes, and `update_selection` for the present parameters. -/
structure Class (F : Type) where
  box : String → ℝ → ℝ
  refresh : Dict ℝ → F → Except PyErr F

/-- The values of the present parameters. -/
def values {F : Type} (w : Window F) : Dict ℝ := Hist.view w.gui.params.heap w.gui.params.cur

/-- What the user does. `fit f`: the fit button, where the fit finds the values `f`; `choose`: the selector of the displayed quantity or the
check box for the residual. -/
inductive Event (F : Type)
  | type (name : String) (x : ℝ)
  | fit (f : String → ℝ)
  | undo
  | redo
  | setInitial
  | choose (f : F → F)

variable {F : Type}

/-- `update_widgets`, `decorator.py:181-191`. -/
def Class.updateWidgets (c : Class F) (w : Window F) : Window F :=
  { w with boxes := w.boxes.map fun p => match Dict.get (values w) p.1 with
    | some v => (p.1, c.box p.1 v)
    | none => p }

/-- `self.update_selection()`. -/
def Class.updateSelection (c : Class F) (w : Window F) : Except PyErr (Window F) :=
  match c.refresh (values w) w.view with
  | .error e => .error e
  | .ok v => .ok { w with view := v }

open Classical in
/-- The handlers of `decorator.py:122-179` for parameters of the class `ParamsHist`, together with the box that fires them, and
`update_residual` (`decorator_mmatrix.py:94-96`) and the selector (`decorator_psi_delta.py:143-154, 165`). -/
noncomputable def Class.event (c : Class F) (w : Window F) : Event F → Except PyErr (Window F)
  | .type k x =>
    match Dict.get w.boxes k with
    | none => .ok w
    | some old =>
      if c.box k x = old then .ok w
      else match Dict.get w.gui.params.cur k with
        | none => .error .keyError
        | some _ => c.updateSelection { w with boxes := Dict.set w.boxes k (c.box k x), gui := w.gui.edit k (c.box k x) }
  | .fit f => c.updateSelection (c.updateWidgets { w with gui := w.gui.fit f })
  | .undo => c.updateSelection (c.updateWidgets { w with gui := w.gui.undo })
  | .redo => match w.gui.last with
    | some _ => c.updateSelection (c.updateWidgets { w with gui := w.gui.redo })
    | none => c.updateSelection w
  | .setInitial => c.updateSelection (c.updateWidgets { w with gui := w.gui.reset })
  | .choose f => c.updateSelection { w with view := f w.view }

/-- A sequence of events. -/
noncomputable def Class.run (c : Class F) : Window F → List (Event F) → Except PyErr (Window F)
  | w, [] => .ok w
  | w, e :: es => match c.event w e with
    | .error e => .error e
    | .ok w' => c.run w' es

/-- The boxes when the window is made. -/
def Class.initBoxes (c : Class F) (values : Dict ℝ) : Dict ℝ := values.map fun p => (p.1, c.box p.1 p.2)

/-! ## `FitRho` -/

/-- A trace of a plotly figure. -/
structure Trace where
  name : String
  x : List ℝ
  y : List (Option ℝ)

/-- The points drawn. -/
def Trace.points (t : Trace) : List (ℝ × ℝ) := (t.x.zip t.y).filterMap fun p => p.2.map fun v => (p.1, v)

/-- What is used of the `Result` of the user's model. -/
structure Sim where
  psi : List ℝ
  delta : List ℝ
  rho : List ℂ

/-- The fixed attributes of a `FitRho` object, `decorator_psi_delta.py:391-401`: index and columns of the measurement, the angle, the model. -/
structure RhoSetup where
  index : List ℝ
  cols : Dict (List ℝ)
  angle : ℝ
  model : List ℝ → Dict ℝ → Sim

/-- The value of the selector and the figure: title of the ordinate and traces. -/
structure RhoView where
  selected : String
  title : String
  traces : List Trace

/-- `self.exp_data.loc[:, name]`. -/
def RhoSetup.loc (s : RhoSetup) (name : String) : Except PyErr (List ℝ) :=
  match Dict.get s.cols name with
  | some l => .ok l
  | none => .error .keyError

/-- `calc_rho(self.exp_data)`, `/repo/src/elli/utils.py:87-105`. -/
noncomputable def RhoSetup.expRho (s : RhoSetup) : Except PyErr (List ℂ) :=
  match s.loc "Ψ" with
  | .error e => .error e
  | .ok psi => match s.loc "Δ" with
    | .error e => .error e
    | .ok delta => .ok (List.zipWith calcRho psi delta)

/-- `series - array` of pandas. Simplification: a single number, which would be repeated, is refused like other lengths. -/
def sub (a b : List ℝ) : Except PyErr (List (Option ℝ)) :=
  if a.length = b.length then .ok (List.zipWith (fun x y => some (x - y)) a b) else .error .valueError

/-- The new title, and for the four traces the new names and values. -/
abbrev Update := String × List (String × List (Option ℝ))

/-- `set_psi_delta(True, True)`, `decorator_psi_delta.py:34-58`. -/
def setPsiDelta (s : RhoSetup) (p : Dict ℝ) : Except PyErr Update :=
  let data := s.model s.index p
  match s.loc "Ψ", s.loc "Δ" with
  | .ok psi, .ok delta =>
    .ok ("Ψ/Δ (°)", [("Ψ", psi.map some), ("Δ", delta.map some), ("Ψ_calc", data.psi.map some), ("Δ_calc", data.delta.map some)])
  | _, _ => .error .keyError

/-- `set_rho(True, True)`, `decorator_psi_delta.py:60-83`. -/
noncomputable def setRho (s : RhoSetup) (p : Dict ℝ) : Except PyErr Update :=
  let data := s.model s.index p
  match s.expRho with
  | .error e => .error e
  | .ok rho => .ok ("ρ", [("ρr", rho.map fun z => some z.re), ("ρi", rho.map fun z => some z.im),
      ("ρr_calc", data.rho.map fun z => some z.re), ("ρi_calc", data.rho.map fun z => some z.im)])

/-- `set_residual(True, True)`, `decorator_psi_delta.py:85-111`. -/
noncomputable def setResidual (s : RhoSetup) (p : Dict ℝ) : Except PyErr Update :=
  let data := s.model s.index p
  match s.expRho, s.loc "Ψ", s.loc "Δ" with
  | .ok rho, .ok psi, .ok delta =>
    match sub psi data.psi, sub delta data.delta, sub (rho.map Complex.re) (data.rho.map Complex.re),
      sub (rho.map Complex.im) (data.rho.map Complex.im) with
    | .ok a, .ok b, .ok c, .ok d => .ok ("Residual", [("Psi Res.", a), ("Delta Res.", b), ("ρr Res.", c), ("ρi Res.", d)])
    | _, _, _, _ => .error .valueError
  | _, _, _ => .error .keyError

/-- The columns `ϵ1` and `ϵ2` of `calc_pseudo_diel(rho, angle)`, `/repo/src/elli/utils.py:74-84`. -/
noncomputable def pseudoColumns (angle : ℝ) (rho : List ℂ) : List (Option ℝ) × List (Option ℝ) :=
  (rho.map fun z => (pseudoEps z angle).map Complex.re, rho.map fun z => (pseudoEps z angle).map Complex.im)

/-- `set_pseudo_diel(True, True)`, `decorator_psi_delta.py:113-141`. -/
noncomputable def setPseudoDiel (s : RhoSetup) (p : Dict ℝ) : Except PyErr Update :=
  let data := s.model s.index p
  if data.rho.length ≠ s.index.length then .error .valueError
  else match s.expRho with
    | .error e => .error e
    | .ok rho => .ok ("ϵ", [("ϵ1", (pseudoColumns s.angle rho).1), ("ϵ2", (pseudoColumns s.angle rho).2),
        ("ϵ1_calc", (pseudoColumns s.angle data.rho).1), ("ϵ2_calc", (pseudoColumns s.angle data.rho).2)])

/-- `self.update_dict.get(…)`, `decorator_psi_delta.py:418-423`. -/
noncomputable def updateDict (s : RhoSetup) (selected : String) : Option (Dict ℝ → Except PyErr Update) :=
  if selected = "Psi/Delta" then some (setPsiDelta s)
  else if selected = "Rho" then some (setRho s)
  else if selected = "Pseudo Diel." then some (setPseudoDiel s)
  else if selected = "Residual" then some (setResidual s)
  else none

/-- The assignments `self.fig.data[i].y = …` and `self.fig.data[i].name = …` for the first traces. -/
def assign : List Trace → List (String × List (Option ℝ)) → Except PyErr (List Trace)
  | ts, [] => .ok ts
  | [], _ :: _ => .error .indexError
  | t :: ts, u :: us => match assign ts us with
    | .error e => .error e
    | .ok ts' => .ok ({ t with name := u.1, y := u.2 } :: ts')

/-- `FitRho.update_selection`, `decorator_psi_delta.py:143-154`. -/
noncomputable def rhoRefresh (s : RhoSetup) (p : Dict ℝ) (v : RhoView) : Except PyErr RhoView :=
  match updateDict s v.selected with
  | none => .ok v
  | some f => match f p with
    | .error e => .error e
    | .ok (title, us) => match assign v.traces us with
      | .error e => .error e
      | .ok ts => .ok { v with title := title, traces := ts }

/-- `pd.concat([measured, calculated])` and its traces: the rows of the second frame follow those of the first, and what a frame does not
have is NaN. -/
def concatTraces (index : List ℝ) (measured calculated : Dict (List ℝ)) : List Trace :=
  measured.map (fun c => ⟨c.1, index ++ index, c.2.map some ++ index.map fun _ => none⟩) ++
    calculated.map fun c => ⟨c.1, index ++ index, (index.map fun _ => none) ++ c.2.map some⟩

/-- The figure made in `FitRho.__init__`, `decorator_psi_delta.py:402-416`, and the first value of the selector (161). -/
def rhoFigure (s : RhoSetup) (p : Dict ℝ) : Except PyErr RhoView :=
  let data := s.model s.index p
  if data.psi.length ≠ s.index.length ∨ data.delta.length ≠ s.index.length then .error .valueError
  else .ok ⟨"Psi/Delta", "Ψ/Δ (°)", concatTraces s.index s.cols [("Ψ_calc", data.psi), ("Δ_calc", data.delta)]⟩

/-- A `FitRho` object as a class of windows; `box` are the boxes of its parameters. -/
noncomputable def rhoClass (s : RhoSetup) (box : String → ℝ → ℝ) : Class RhoView := ⟨box, rhoRefresh s⟩

/-- `FitRho.__init__`, `decorator_psi_delta.py:367-425`. -/
noncomputable def rhoInit (s : RhoSetup) (box : String → ℝ → ℝ) (st : State ℝ) : Except PyErr (Window RhoView) :=
  match rhoFigure s (Hist.view st.heap st.cur) with
  | .error e => .error e
  | .ok v => .ok ⟨Gui.init st, (rhoClass s box).initBoxes (Hist.view st.heap st.cur), v⟩

/-- `FitRho.plot`, `decorator_psi_delta.py:282-296`: the traces. -/
def rhoPlot (s : RhoSetup) (fitted : Dict ℝ) : Except PyErr (List Trace) :=
  let data := s.model s.index fitted
  if data.psi.length ≠ s.index.length ∨ data.delta.length ≠ s.index.length then .error .valueError
  else .ok (concatTraces s.index s.cols [("Ψ_fit", data.psi), ("Δ_fit", data.delta)])

/-- `FitRho.plot_rho`, `decorator_psi_delta.py:298-313`: the traces. -/
noncomputable def rhoPlotRho (s : RhoSetup) (fitted : Dict ℝ) : Except PyErr (List Trace) :=
  match s.expRho with
  | .error e => .error e
  | .ok rho =>
    let data := s.model s.index fitted
    if data.rho.length ≠ s.index.length then .error .valueError
    else .ok [⟨"ρr", s.index, rho.map fun z => some z.re⟩, ⟨"ρi", s.index, rho.map fun z => some z.im⟩,
      ⟨"ρcr", s.index, data.rho.map fun z => some z.re⟩, ⟨"ρci", s.index, data.rho.map fun z => some z.im⟩]

/-! ## `get_model_data` and `to_csv` -/

/-- Values of a column of the frame returned. -/
inductive Column
  | real (l : List ℝ)
  | complex (l : List ℂ)

/-- What is handed over as `repr`: a text or a truth value. -/
inductive PyRepr
  | text (s : String)
  | bool (b : Bool)

/-- `FitRho.get_model_data`, `decorator_psi_delta.py:315-365`: the columns of the frame. The index is that of the measurement. The column of
`calc_rho` has no name; it is given the empty one here. -/
noncomputable def rhoModelData (s : RhoSetup) (fitted : Dict ℝ) (params : Option (Dict ℝ)) (repr : PyRepr) (append : Bool) :
    Except PyErr (Dict Column) :=
  match repr with
  | .bool _ => .error .valueError
  | .text r =>
    if r ≠ "psi-delta" ∧ r ≠ "rho" then .error .valueError
    else
      let data := s.model s.index (match params with | none => fitted | some p => p)
      let desc := match params with | none => "fit" | some _ => "model"
      match s.expRho with
      | .error e => .error e
      | .ok rho =>
        if data.psi.length ≠ s.index.length ∨ data.delta.length ≠ s.index.length ∨ data.rho.length ≠ s.index.length then .error .valueError
        else
          let exp := if r = "rho" then [("", Column.complex rho)] else s.cols.map fun c => (c.1, Column.real c.2)
          let sim := if r = "rho" then [("ρ_" ++ desc, Column.complex data.rho)]
            else [("Ψ_" ++ desc, Column.real data.psi), ("Δ_" ++ desc, Column.real data.delta)]
          .ok (if append then exp ++ sim else sim)

/-- `to_csv` of a `FitRho` object, `decorator.py:73-95`: `append_exp_data` is handed over as the second argument, which is `repr`. -/
noncomputable def rhoToCsv (s : RhoSetup) (fitted : Dict ℝ) (params : Option (Dict ℝ)) (append : Bool) : Except PyErr (Dict Column) :=
  rhoModelData s fitted params (.bool append) false

/-! ## `FitMuellerMatrix` -/

/-- A trace of the figure made by `plot_mmatrix`: also its place in the grid, if any. -/
structure MmTrace where
  name : String
  cell : Option (ℕ × ℕ)
  x : List ℝ
  y : List (Option ℝ)

/-- `df[label]`, values by row. -/
def columnOf (f : Frame) (label : String) : List (Option ℝ) := f.rows.map fun r => Dict.get (f.columns.zip r) label

/-- The traces of column number `i` in `plot_mmatrix`, `/repo/src/elli/plot/mueller_matrix.py:80-104`. -/
def mmTraces (single : Bool) (names : List String) (i : ℕ) (melem : String) : ℕ → List (List ℝ × Frame) → Except PyErr (List MmTrace)
  | _, [] => .ok []
  | j, (index, df) :: dfs =>
    if melem ∉ df.columns then .error .keyError
    else match mmTraces single names i melem (j + 1) dfs with
      | .error e => .error e
      | .ok ts => .ok (⟨melem ++ " " ++ names.getD (j % names.length) "", if single then none else some (i / 4 + 1, i % 4 + 1), index,
          columnOf df melem⟩ :: ts)

/-- The loop over the columns of the first frame. -/
def mmLoop (single : Bool) (names : List String) (dfs : List (List ℝ × Frame)) : ℕ → List String → Except PyErr (List MmTrace)
  | _, [] => .ok []
  | i, c :: cs => match mmTraces single names i c 0 dfs with
    | .error e => .error e
    | .ok ts => match mmLoop single names dfs (i + 1) cs with
      | .error e => .error e
      | .ok rest => .ok (ts ++ rest)

/-- `plot_mmatrix`, `mueller_matrix.py:32-107`, for a list of frames and the standard names (68). -/
def plotMmatrix (single : Bool) (dfs : List (List ℝ × Frame)) : Except PyErr (List MmTrace) :=
  match dfs with
  | [] => .error .indexError
  | (_, df) :: _ => mmLoop single ["", "theory"] dfs 0 df.columns

/-- The fixed attributes of a `FitMuellerMatrix` object. -/
structure MmSetup where
  index : List ℝ
  exp : Frame
  single : Bool
  model : List ℝ → Dict ℝ → List M4

/-- `show_residual` and the figure. -/
structure MmView where
  residual : Bool
  traces : List MmTrace

/-- `model_df - self.exp_mm` for frames with the same labels and rows. -/
def frameSub (a b : Frame) : Frame := ⟨a.columns, List.zipWith (List.zipWith (· - ·)) a.rows b.rows⟩

/-- The loop `decorator_mmatrix.py:87-92` from column number `i` on. -/
def mmAssign (residual : Bool) (df : Frame) : ℕ → List String → List MmTrace → Except PyErr (List MmTrace)
  | _, [], ts => .ok ts
  | i, c :: cs, ts =>
    if ts.length ≤ 2 * i + 1 then .error .indexError
    else mmAssign residual df (i + 1) cs (ts.modify (2 * i + 1) fun t =>
      { t with y := columnOf df c, name := c ++ (if residual then " Residual" else " theory") })

/-- `FitMuellerMatrix.update_selection`, `decorator_mmatrix.py:64-92`. -/
def mmRefresh (s : MmSetup) (p : Dict ℝ) (v : MmView) : Except PyErr MmView :=
  match mmToFrame s.exp (s.model s.index p) none with
  | .error e => .error e
  | .ok model =>
    let df := if v.residual then frameSub model s.exp else model
    match mmAssign v.residual df 0 df.columns v.traces with
    | .error e => .error e
    | .ok ts => .ok { v with traces := ts }

/-- A `FitMuellerMatrix` object as a class of windows. -/
def mmClass (s : MmSetup) (box : String → ℝ → ℝ) : Class MmView := ⟨box, mmRefresh s⟩

/-- `FitMuellerMatrix.__init__`, `decorator_mmatrix.py:340-366`, all display options given. `last_params` is the empty `ParamsHist` of
`FitDecorator.__init__`. -/
def mmInit (s : MmSetup) (box : String → ℝ → ℝ) (st : State ℝ) : Except PyErr (Window MmView) :=
  match mmToFrame s.exp (s.model s.index (Hist.view st.heap st.cur)) none with
  | .error e => .error e
  | .ok model => match plotMmatrix s.single [(s.index, s.exp), (s.index, model)] with
    | .error e => .error e
    | .ok ts => .ok ⟨{ Gui.init st with last := some [] }, (mmClass s box).initBoxes (Hist.view st.heap st.cur), ⟨false, ts⟩⟩

/-- `FitMuellerMatrix.get_model_data`, `decorator_mmatrix.py:203-242`. -/
def mmModelData (s : MmSetup) (fitted : Dict ℝ) (params : Option (Dict ℝ)) (append : Bool) : Except PyErr Frame :=
  match mmToFrame s.exp (s.model s.index (match params with | none => fitted | some p => p))
      (some (match params with | none => "fit" | some _ => "model")) with
  | .error e => .error e
  | .ok f => .ok (if append then ⟨s.exp.columns ++ f.columns, List.zipWith (· ++ ·) s.exp.rows f.rows⟩ else f)

/-- `to_csv` of a `FitMuellerMatrix` object, `decorator.py:73-95`. -/
def mmToCsv (s : MmSetup) (fitted : Dict ℝ) (params : Option (Dict ℝ)) (append : Bool) : Except PyErr Frame :=
  mmModelData s fitted params append

end PyElli.FitWindow
