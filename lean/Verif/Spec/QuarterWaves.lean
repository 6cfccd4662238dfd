import Mathlib.Data.Real.Basic
import Mathlib.Algebra.Order.Field.Basic

/-! # Quarter-wave coatings (C156) -/

namespace Spec.QuarterWaves

/-- The rule of the optician: a quarter-wave layer of index `n` turns the admittance `Y` behind it into `n² / Y`. The layers are given from the
front, the substrate has index `ns`. -/
noncomputable def admittance (ns : ℝ) : List ℝ → ℝ
  | [] => ns
  | n :: L => n ^ 2 / admittance ns L

/-- The amplitude reflected at normal incidence by a medium of admittance `Y`, seen from index `n0`. -/
noncomputable def amplitude (n0 Y : ℝ) : ℝ := (n0 - Y) / (n0 + Y)

end Spec.QuarterWaves
