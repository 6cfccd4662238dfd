import Mathlib.Data.Real.Basic

/-! # What lies at a depth (specification) -/

namespace Spec.Plot

open Classical in
/-- The slab at depth `x ≥ 0` below the surface, or what is behind all slabs. -/
noncomputable def below {α : Type} : List (ℝ × α) → α → ℝ → α
  | [], back, _ => back
  | (d, a) :: rest, back, x => if x < d then a else below rest back (x - d)

open Classical in
/-- What lies at depth `x`: the front medium above the surface, then the slabs, then the back medium. -/
noncomputable def mediumAt {α : Type} (front : α) (slabs : List (ℝ × α)) (back : α) (x : ℝ) : α :=
  if x < 0 then front else below slabs back x

end Spec.Plot
