import Verif.Model.Catalog

/-! # What a catalog search should return -/

namespace Spec.Catalog

open PyElli.Catalog

/-- The row has one of the texts `qs` in one of the fields `cols`. -/
def Hit (cols qs : List String) (r : Row) : Prop := ∃ col ∈ cols, ∃ q ∈ qs, r col = .str q

/-- The wavelength range of the row contains `wl`. -/
def InRange (r : Row) (wl : ℝ) : Prop := ∃ lo hi, r "lower_range" = .num lo ∧ r "upper_range" = .num hi ∧ wl ∈ Set.Icc lo hi

/-- The wavelengths asked for. -/
def wanted : WlArg → List ℝ
  | .num x => [x]
  | .seq xs => xs
  | _ => []

end Spec.Catalog
