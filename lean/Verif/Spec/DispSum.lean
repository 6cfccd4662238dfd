import Mathlib.Data.Complex.Basic
import Mathlib.Data.Option.NAry

/-! # What adding dispersions means (specification, independent of the model)

A value is an exception, NaN (`ok none`) or a complex number. -/

namespace Spec

/-- `z` is the sum of `x` and `y`: it exists exactly when both exist, is NaN exactly when one of them is, and otherwise is their
arithmetic sum. -/
def SumOf {ε : Type} (z x y : Except ε (Option ℂ)) : Prop :=
  ∀ v, z = .ok v ↔ ∃ u w, x = .ok u ∧ y = .ok w ∧ v = Option.map₂ (· + ·) u w

/-- Expressions written with `+`: existing objects, numbers, sums. -/
inductive Expr
  | ref (a : ℕ)
  | num (x : ℝ)
  | add (e₁ e₂ : Expr)

/-- The objects an expression mentions. -/
def Expr.refs : Expr → List ℕ
  | .ref a => [a]
  | .num _ => []
  | .add e₁ e₂ => e₁.refs ++ e₂.refs

/-- The total of an expression for given values of the objects. -/
noncomputable def Expr.total (f : ℕ → Option ℂ) : Expr → Option ℂ
  | .ref a => f a
  | .num x => some (x : ℂ)
  | .add e₁ e₂ => Option.map₂ (· + ·) (e₁.total f) (e₂.total f)

end Spec
