import Mathlib.Data.Real.Basic

/-! # Total amplitude at a resonance (specification of C162) -/

namespace PyElli.Spec

/-- The sum of the amplitudes of all oscillators of a list with the resonance `k`. Oscillators with the same resonance act as one. -/
noncomputable def totalAt {κ : Type} [DecidableEq κ] (L : List (ℝ × κ)) (k : κ) : ℝ :=
  ((L.filter fun o => o.2 = k).map Prod.fst).sum

end PyElli.Spec
