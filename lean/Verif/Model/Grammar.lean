import Verif.Model.Base

/-! # The formula grammar: `/repo/src/elli/formula_parser/dispersion_function_grammar.lark`

Token sequences and derivations. The lexer is in `Verif/Model/Lexer.lean`; here a formula is the sequence of its tokens. That
lark's LALR parser accepts exactly the derivable sequences and returns the tree of the derivation is taken from the library. -/

namespace PyElli.Formula

/-- Terminals, `dispersion_function_grammar.lark:1-51`. -/
inductive Tok
  | plus | minus | star | slash | pow | lpar | rpar | lbrk | rbrk | eq
  | kwSum | kwEps | kwN | kkr | oneJ
  | func (name : String)
  | name (s : String)
  | number (s : String)
  | builtin (s : String)
  deriving DecidableEq, Repr

/-- Parse trees: one constructor per alias (`-> add`, …) of the grammar. Rules with a leading `?` and one child are inlined. -/
inductive Tree
  | add (a b : Tree) | sub (a b : Tree) | mul (a b : Tree) | div (a b : Tree) | power (a b : Tree)
  | func (name : String) (a : Tree)
  | sumExpr (a : Tree)
  | singleParamName (s : String)
  | paramName (s : String)
  | number (s : String)
  | builtin (s : String)
  deriving DecidableEq, Repr

/-- Nonterminals; the argument tells whether it is the `repeated_` version (inside `sum[…]`). -/
inductive NT
  | expression (rep : Bool) | term (rep : Bool) | factor (rep : Bool) | power (rep : Bool)
  deriving DecidableEq

/-- Derivations, `dispersion_function_grammar.lark:7-42`. -/
inductive D : NT → List Tok → Tree → Prop
  /-- `?expression: term` (7), `?repeated_expression: repeated_term` (26) -/
  | exprTerm {r u t} : D (.term r) u t → D (.expression r) u t
  /-- `expression "+" term -> add` (8, 27) -/
  | exprAdd {r u v a b} : D (.expression r) u a → D (.term r) v b → D (.expression r) (u ++ .plus :: v) (.add a b)
  /-- `expression "-" term -> sub` (9, 28) -/
  | exprSub {r u v a b} : D (.expression r) u a → D (.term r) v b → D (.expression r) (u ++ .minus :: v) (.sub a b)
  /-- `?term: factor` (11, 31) -/
  | termFactor {r u t} : D (.factor r) u t → D (.term r) u t
  /-- `term "*" factor -> mul` (12, 32) -/
  | termMul {r u v a b} : D (.term r) u a → D (.factor r) v b → D (.term r) (u ++ .star :: v) (.mul a b)
  /-- `term "/" factor -> div` (13, 33) -/
  | termDiv {r u v a b} : D (.term r) u a → D (.factor r) v b → D (.term r) (u ++ .slash :: v) (.div a b)
  /-- `?factor: power` (15, 35) -/
  | factorPower {r u t} : D (.power r) u t → D (.factor r) u t
  /-- `power "**" power -> power` (16, 36) -/
  | factorPow {r u v a b} : D (.power r) u a → D (.power r) v b → D (.factor r) (u ++ .pow :: v) (.power a b)
  /-- `"(" expression ")"` (19, 38) -/
  | powParen {r u t} : D (.expression r) u t → D (.power r) (.lpar :: u ++ [.rpar]) t
  /-- `FUNC "(" expression ")" -> func` (20, 39) -/
  | powFunc {r u t f} : D (.expression r) u t → D (.power r) (.func f :: .lpar :: u ++ [.rpar]) (.func f t)
  /-- `"sum" "[" repeated_expression "]" -> sum_expr` (21), only outside brackets -/
  | powSum {u t} : D (.expression true) u t → D (.power false) (.kwSum :: .lbrk :: u ++ [.rbrk]) (.sumExpr t)
  /-- `NAME -> single_param_name` (22) -/
  | powSingle {s} : D (.power false) [.name s] (.singleParamName s)
  /-- `NAME -> param_name` (41) -/
  | powParam {s} : D (.power true) [.name s] (.paramName s)
  /-- `SIGNED_NUMBER -> number` (23, 40) -/
  | powNumber {r s} : D (.power r) [.number s] (.number s)
  /-- `BUILTIN -> builtin` (24, 42) -/
  | powBuiltin {r s} : D (.power r) [.builtin s] (.builtin s)

/-- Right-hand sides, `?kkr_expression` (4-5). -/
inductive Rhs
  | expr (t : Tree)
  | kkrTerm (t : Tree)
  deriving DecidableEq, Repr

inductive DRhs : List Tok → Rhs → Prop
  | expr {u t} : D (.expression false) u t → DRhs u (.expr t)
  | kkr {u t} : D (.term false) u t → DRhs (.kkr :: .plus :: .oneJ :: .star :: u) (.kkrTerm t)

/-- Whole formulas, `?assignment` (1-2). -/
inductive Assignment
  | eps (r : Rhs)
  | n (r : Rhs)
  deriving DecidableEq, Repr

inductive DAssign : List Tok → Assignment → Prop
  | eps {u r} : DRhs u r → DAssign (.kwEps :: .eq :: u) (.eps r)
  | n {u r} : DRhs u r → DAssign (.kwN :: .eq :: u) (.n r)

end PyElli.Formula
