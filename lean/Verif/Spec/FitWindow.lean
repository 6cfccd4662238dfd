import Verif.Spec.Angles
import Verif.Spec.Fit

/-! # What a fit window should show (specification) -/

namespace Spec.FitWindow

/-- What can be displayed. -/
inductive Quantity
  | psiDelta | rho | pseudo | residual

/-- The entry of the selector. -/
def Quantity.name : Quantity → String
  | .psiDelta => "Psi/Delta"
  | .rho => "Rho"
  | .pseudo => "Pseudo Diel."
  | .residual => "Residual"

/-- The label of the ordinate. -/
def Quantity.title : Quantity → String
  | .psiDelta => "Ψ/Δ (°)"
  | .rho => "ρ"
  | .pseudo => "ϵ"
  | .residual => "Residual"

/-- The complex ratio `tan(psi) exp(-i delta)`, angles in degrees. -/
noncomputable def ratio (psi delta : ℝ) : ℂ :=
  (Real.tan (psi * Real.pi / 180) : ℂ) *
    ((Real.cos (delta * Real.pi / 180) : ℂ) - Complex.I * (Real.sin (delta * Real.pi / 180) : ℂ))

open Classical in
/-- The pseudo dielectric function at an angle of incidence in degrees, where it exists. -/
noncomputable def pseudoDiel (angle : ℝ) (r : ℂ) : Option ℂ :=
  if r = -1 ∨ Real.cos (angle * Real.pi / 180) = 0 then none
  else some ((Real.sin (angle * Real.pi / 180) : ℂ) ^ 2 +
    (Real.sin (angle * Real.pi / 180) : ℂ) ^ 2 * (Real.tan (angle * Real.pi / 180) : ℂ) ^ 2 * ((1 - r) / (1 + r)) ^ 2)

/-- Measured psi and delta of one wavelength. -/
abbrev Measured := ℝ × ℝ

/-- Modelled psi, delta and rho of one wavelength. -/
abbrev Modelled := ℝ × ℝ × ℂ

/-- The four curves of a quantity by their names: value at a wavelength from measurement and model there. -/
noncomputable def Quantity.curves (angle : ℝ) : Quantity → List (String × (Measured → Modelled → Option ℝ))
  | .psiDelta => [("Ψ", fun m _ => some m.1), ("Δ", fun m _ => some m.2), ("Ψ_calc", fun _ c => some c.1), ("Δ_calc", fun _ c => some c.2.1)]
  | .rho => [("ρr", fun m _ => some (ratio m.1 m.2).re), ("ρi", fun m _ => some (ratio m.1 m.2).im),
      ("ρr_calc", fun _ c => some c.2.2.re), ("ρi_calc", fun _ c => some c.2.2.im)]
  | .pseudo => [("ϵ1", fun m _ => (pseudoDiel angle (ratio m.1 m.2)).map Complex.re),
      ("ϵ2", fun m _ => (pseudoDiel angle (ratio m.1 m.2)).map Complex.im),
      ("ϵ1_calc", fun _ c => (pseudoDiel angle c.2.2).map Complex.re), ("ϵ2_calc", fun _ c => (pseudoDiel angle c.2.2).map Complex.im)]
  | .residual => [("Psi Res.", fun m c => some (m.1 - c.1)), ("Delta Res.", fun m c => some (m.2 - c.2.1)),
      ("ρr Res.", fun m c => some ((ratio m.1 m.2).re - c.2.2.re)), ("ρi Res.", fun m c => some ((ratio m.1 m.2).im - c.2.2.im))]

/-- The points of a curve: one for each wavelength where the value exists. -/
def points (f : Measured → Modelled → Option ℝ) (measured : List (ℝ × Measured)) (model : List Modelled) : List (ℝ × ℝ) :=
  (List.zipWith (fun m c => (f m.2 c).map fun v => (m.1, v)) measured model).filterMap id

/-- A named curve, with its place in a grid if there is one. -/
structure Curve where
  name : String
  cell : Option (ℕ × ℕ)
  points : List (ℝ × ℝ)

/-- The 32 curves of a Mueller matrix: for each element the measured one and the modelled one, or what is left of the model when the
measurement is taken off. -/
def muellerCurves (single residual : Bool) (measured : List (ℝ × Matrix (Fin 4) (Fin 4) ℝ)) (model : List (Matrix (Fin 4) (Fin 4) ℝ)) : List Curve :=
  (List.finRange 4).flatMap fun i => (List.finRange 4).flatMap fun j =>
    let cell := if single then none else some (i.val + 1, j.val + 1)
    [⟨Spec.Fit.label i j ++ " ", cell, measured.map fun m => (m.1, m.2 i j)⟩,
     ⟨Spec.Fit.label i j ++ (if residual then " Residual" else " theory"), cell,
      List.zipWith (fun m c => (m.1, if residual then c i j - m.2 i j else c i j)) measured model⟩]

end Spec.FitWindow
