import Verif.Spec.Maxwell

/-!
# Samples whose layers vary with depth (C85)

The scattering problem is `Spec.ScatteringIn` with the permittivity of the sample as a function of depth.
-/

namespace Spec

open Matrix Complex

/-- A sample: a transparent half space of index `n0` at `z < 0`, layers (thickness, permittivity as a function of the depth inside the layer), a half
space of permittivity `eb`. -/
structure Graded where
  n0 : ℝ
  layers : List (ℝ × (ℝ → Matrix (Fin 3) (Fin 3) ℂ))
  eb : ℂ

/-- Permittivity at depth `z` below the top of the layers. -/
noncomputable def gradedBelow (eb : ℂ) : List (ℝ × (ℝ → Matrix (Fin 3) (Fin 3) ℂ)) → ℝ → Matrix (Fin 3) (Fin 3) ℂ
  | [], _ => eb • 1
  | (d, e) :: ls, z => if z < d then e z else gradedBelow eb ls (z - d)

/-- Permittivity as a function of `z`. -/
noncomputable def Graded.medium (S : Graded) (z : ℝ) : Matrix (Fin 3) (Fin 3) ℂ :=
  if z < 0 then ((S.n0 ^ 2 : ℝ) : ℂ) • 1 else gradedBelow S.eb S.layers z

def Graded.interfaces (S : Graded) : List ℝ := interfacesFrom 0 S.layers

/-- Thickness of all layers. -/
def Graded.depth (S : Graded) : ℝ := (S.layers.map Prod.fst).sum

/-- The scattering problem of a sample whose layers vary with depth. -/
abbrev Graded.Scattering (S : Graded) (theta lbda : ℝ) (a r t : Fin 2 → ℂ) (E H : Field) : Prop :=
  ScatteringIn S.n0 S.eb S.depth S.medium S.interfaces theta lbda a r t E H

end Spec
