import Verif.Model.Hist

/-!
# The check boxes of the fitting widgets: which parameters a fit varies

The parameter objects of `Model/Hist.lean` with two attributes, `value` and `vary`. Bounds and expressions of lmfit are not modelled.
-/

namespace PyElli.Vary

open PyElli PyElli.Hist

variable {R : Type}

/-- An `lmfit.Parameter`: its value and whether a fit varies it. -/
structure Par (R : Type) where
  value : R
  vary : Bool
deriving DecidableEq

/-- `FitDecorator.set_vary_param`, `decorator.py:118-120`: the flag of the starting parameters first, then that of the present ones. A
missing key raises `KeyError` there and leaves the rest undone. -/
def setVary (g : Gui (Par R)) (k : String) (b : Bool) : Gui (Par R) :=
  match Dict.get g.initial k with
  | none => g
  | some a =>
    let h := Function.update g.params.heap a { g.params.heap a with vary := b }
    match Dict.get g.params.cur k with
    | none => { g with params := { g.params with heap := h } }
    | some c => { g with params := { g.params with heap := Function.update h c { h c with vary := b } } }

/-- A new value in a widget, `update_params`, `decorator.py:168-179`: only the attribute `value` is assigned. The commit before it leaves
the object as it is. A missing key raises `KeyError` after the commit. -/
def typeValue (g : Gui (Par R)) (k : String) (x : R) : Gui (Par R) :=
  match Dict.get g.params.cur k with
  | some a => g.edit k { g.params.heap a with value := x }
  | none => { g with params := g.params.commit }

/-- The fit button, `decorator.py:122-135`, with `fit`, `decorator_psi_delta.py:260-280` and `decorator_mmatrix.py:182-201`: lmfit's `minimize` copies
the parameters and changes the values of those with `vary`; the new values `x` are arbitrary. -/
def fitVarying (g : Gui (Par R)) (x : String → R) : Gui (Par R) :=
  g.fit fun k => match Dict.get g.params.cur k with
    | some a => if (g.params.heap a).vary then { g.params.heap a with value := x k } else g.params.heap a
    | none => ⟨x k, true⟩

/-- The parameters and the check boxes of a window, by the name in their `description_tooltip`. -/
structure Boxes (R : Type) where
  gui : Gui (Par R)
  boxes : Dict Bool

/-- The check boxes made from the flags, `decorator_psi_delta.py:168-175` and `decorator_mmatrix.py:102-109`. -/
def Boxes.init (s : State (Par R)) : Boxes R := ⟨Gui.init s, (view s.heap s.cur).map fun p => (p.1, p.2.vary)⟩

/-- What the user does. -/
inductive Action (R : Type)
  | check (k : String) (b : Bool)
  | type (k : String) (x : R)
  | fit (x : String → R)
  | undo
  | redo
  | setInitial

/-- One action. A box that keeps its state sends no event. `update_widgets`, `decorator.py:181-191`, assigns to the boxes of the values only, so
no button changes a check box. -/
def Boxes.act (w : Boxes R) : Action R → Boxes R
  | .check k b => match Dict.get w.boxes k with
    | some c => if c = b then w else ⟨setVary w.gui k b, Dict.set w.boxes k b⟩
    | none => w
  | .type k x => { w with gui := typeValue w.gui k x }
  | .fit x => { w with gui := fitVarying w.gui x }
  | .undo => { w with gui := w.gui.undo }
  | .redo => { w with gui := w.gui.redo }
  | .setInitial => { w with gui := w.gui.reset }

end PyElli.Vary
