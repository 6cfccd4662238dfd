import Verif.Spec.Angles
import Mathlib.Data.Matrix.Basic

/-! # Specification of fitting: what a perfect model is -/

namespace Spec.Fit

/-- The model gives at every point the measured pair: the ellipsometric equation holds between the modelled ratio and the measured
angles (degrees). -/
noncomputable def Reproduces (data : List (ℝ × ℝ)) (rho : List ℂ) : Prop :=
  data.length = rho.length ∧
    ∀ k (hd : k < data.length) (hr : k < rho.length), Spec.EllipsometricEq rho[k] data[k].1 data[k].2

/-- The label of a Mueller matrix element in a data frame: `M12` is row 1, column 2. -/
def label (i j : Fin 4) : String := "M" ++ toString (i.val + 1) ++ toString (j.val + 1)

/-- The measured element `Mij` of row `k`, in a data frame given by labels and rows, found by its label. -/
def Cell (columns : List String) (rows : List (List ℝ)) (k : ℕ) (i j : Fin 4) (v : ℝ) : Prop :=
  ∃ c : ℕ, columns[c]? = some (label i j) ∧ ∃ r, rows[k]? = some r ∧ r[c]? = some v

end Spec.Fit
