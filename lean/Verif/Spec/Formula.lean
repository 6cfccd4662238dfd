import Verif.Model.Formula

/-! # Written form of formula expressions (specification) -/

namespace Spec.Formula

open PyElli.Formula

/-- Expressions that can stand outside (`rep = false`) or inside (`rep = true`) `sum[…]`. -/
def WellFormed : Bool → Tree → Prop
  | r, .add a b | r, .sub a b | r, .mul a b | r, .div a b | r, .power a b => WellFormed r a ∧ WellFormed r b
  | r, .func _ a => WellFormed r a
  | r, .sumExpr a => r = false ∧ WellFormed true a
  | r, .singleParamName _ => r = false
  | r, .paramName _ => r = true
  | _, .number _ => True
  | _, .builtin _ => True

/-- Brackets around a text if needed. -/
def bracket (need : Bool) (u : List Tok) : List Tok := if need then .lpar :: u ++ [.rpar] else u

/-- Usual way to write an expression with as few brackets as possible. The level is 0 where a sum may stand, 1 where a product may
stand, 2 where a power may stand, 3 where only an atom may stand. -/
def print : ℕ → Tree → List Tok
  | l, .add a b => bracket (0 < l) (print 0 a ++ .plus :: print 1 b)
  | l, .sub a b => bracket (0 < l) (print 0 a ++ .minus :: print 1 b)
  | l, .mul a b => bracket (1 < l) (print 1 a ++ .star :: print 2 b)
  | l, .div a b => bracket (1 < l) (print 1 a ++ .slash :: print 2 b)
  | l, .power a b => bracket (2 < l) (print 3 a ++ .pow :: print 3 b)
  | _, .func f a => .func f :: .lpar :: print 0 a ++ [.rpar]
  | _, .sumExpr a => .kwSum :: .lbrk :: print 0 a ++ [.rbrk]
  | _, .singleParamName s => [.name s]
  | _, .paramName s => [.name s]
  | _, .number s => [.number s]
  | _, .builtin s => [.builtin s]

/-- Operators of a chain. -/
inductive AddOp | plus | minus
inductive MulOp | times | divided

def AddOp.tok : AddOp → Tok | .plus => .plus | .minus => .minus
def MulOp.tok : MulOp → Tok | .times => .star | .divided => .slash
def AddOp.node : AddOp → Tree → Tree → Tree | .plus => .add | .minus => .sub
def MulOp.node : MulOp → Tree → Tree → Tree | .times => .mul | .divided => .div

end Spec.Formula

namespace Spec.Formula

open PyElli.Formula

variable {V : Type}

/-- First entry with the given name. -/
def lookup (d : List (String × V)) (k : String) : Option V := (d.find? fun p => p.1 == k).map Prod.snd

/-- What a formula means at one value `x` of the axis, for single parameters and a list of parameter sets; `cur` is the parameter set
in use inside a bracket. `none` where a name is unknown. -/
def denote (O : Ops V) (axisName : String) (x : V) (single : List (String × V)) (sets : List (List (String × V)))
    (cur : List (String × V)) : Tree → Option V
  | .add a b => do return O.add (← denote O axisName x single sets cur a) (← denote O axisName x single sets cur b)
  | .sub a b => do return O.sub (← denote O axisName x single sets cur a) (← denote O axisName x single sets cur b)
  | .mul a b => do return O.mul (← denote O axisName x single sets cur a) (← denote O axisName x single sets cur b)
  | .div a b => do return O.div (← denote O axisName x single sets cur a) (← denote O axisName x single sets cur b)
  | .power a b => do return O.pow (← denote O axisName x single sets cur a) (← denote O axisName x single sets cur b)
  | .func f a => (denote O axisName x single sets cur a).map (O.func f)
  | .sumExpr a => do
    let terms ← sets.mapM fun d => denote O axisName x single sets d a
    return terms.foldl O.add O.zero
  | .singleParamName s => if s = axisName then some x else lookup single s
  | .paramName s => if s = axisName then some x else (lookup single s).orElse fun _ => lookup cur s
  | .number s => some (O.number s)
  | .builtin s => some (O.builtin s)

/-- The axis name occurs inside brackets. -/
def mentions (axisName : String) : Tree → Bool
  | .add a b | .sub a b | .mul a b | .div a b | .power a b => mentions axisName a || mentions axisName b
  | .func _ a => mentions axisName a
  | .paramName s => s = axisName
  | _ => false

/-- Formulas the code can evaluate: all names known, no `heaviside`, and every bracket mentions the axis. -/
def Evaluable (axisName : String) (single : List String) (rep : List String) : Tree → Prop
  | .add a b | .sub a b | .mul a b | .div a b | .power a b => Evaluable axisName single rep a ∧ Evaluable axisName single rep b
  | .func f a => f ∈ ["sin", "cos", "tan", "sqrt", "dawsn", "ln", "log"] ∧ Evaluable axisName single rep a
  | .sumExpr a => mentions axisName a = true ∧ Evaluable axisName single rep a
  | .singleParamName s => s = axisName ∨ s ∈ single
  | .paramName s => s = axisName ∨ s ∈ single ∨ s ∈ rep
  | .number _ => True
  | .builtin s => s ∈ ["1j", "pi", "eps_0", "hbar", "h", "c"]

end Spec.Formula
