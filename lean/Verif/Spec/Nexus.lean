import Mathlib.Data.Complex.Basic
import Mathlib.Data.Option.NAry

/-! # What the dispersion groups of one axis mean (specification, independent of the model) -/

namespace Spec.Nexus

/-- Sum of numbers, NaN as soon as one of them is. -/
noncomputable def total (us : List (Option ℂ)) : Option ℂ := us.foldr (Option.map₂ (· + ·)) (some 0)

/-- `z` is the sum of the values `xs`: it exists exactly when all of them do. -/
def Sums {ε : Type} (xs : List (Except ε (Option ℂ))) (z : Except ε (Option ℂ)) : Prop :=
  ∀ v, z = .ok v ↔ ∃ us, xs = us.map .ok ∧ v = total us

/-- The value of the last item with this name. -/
def lastNamed {V : Type} (name : String) (items : List (String × V)) : Option V :=
  (items.reverse.find? fun i => i.1 == name).map Prod.snd

end Spec.Nexus
