import Mathlib.Data.List.Basic

/-! # Documented meaning of positional and keyword parameters

A template is a list of names with defaults. Positional value `i` goes to name `i`, keywords go to their names, everything
else keeps its default. -/

namespace Spec

variable {α : Type}

/-- Value bound to a keyword. -/
def keyword (kw : List (String × α)) (k : String) : Option α := (kw.find? fun p => p.1 == k).map Prod.snd

/-- The call is allowed: only known names, not too many values, no name set twice. -/
def CallAllowed (names : List String) (nargs : ℕ) (kw : List String) : Prop :=
  (∀ k ∈ kw, k ∈ names) ∧ kw.length + nargs ≤ names.length ∧ ∀ k ∈ kw, k ∉ names.take nargs

/-- The parameter set a call produces. -/
def filled (template : List (String × α)) (args : List α) (kw : List (String × α)) : List (String × α) :=
  template.mapIdx fun i p => (p.1, (args[i]?).getD ((keyword kw p.1).getD p.2))

end Spec
