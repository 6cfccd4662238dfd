import Verif.Model.Base
import Verif.Model.Rotation
import Mathlib.Analysis.RCLike.Sqrt
import Mathlib.Analysis.SpecialFunctions.Pow.Complex

/-! # Materials: `/repo/src/elli/materials.py`

The wavelength axis of the arrays is point-wise: a tensor is a function of one wavelength.  A
dispersion is represented by the function `get_dielectric` it provides. -/

namespace PyElli

open Matrix

/-- A complex permittivity tensor (one wavelength). -/
abbrev Tensor := Matrix (Fin 3) (Fin 3) ℂ

/-- A tensor computed by numpy: an entry is `none` when numpy divides by zero there and stores NaN
or infinity. -/
abbrev NumTensor := Matrix (Fin 3) (Fin 3) (Option ℂ)

/-- `SingleMaterial`, `/repo/src/elli/materials.py:64-84`. `rotation = none` is `rotated = False`.
Simplification: dispersions are represented by their dielectric functions. -/
structure SingleMaterial where
  dispersionX : ℝ → ℂ
  dispersionY : ℝ → ℂ
  dispersionZ : ℝ → ℂ
  rotation : Option Mat3 := none

/-- `IsotropicMaterial.__init__`/`set_dispersion`, `/repo/src/elli/materials.py:121-143`. -/
def isotropicMaterial (d : ℝ → ℂ) : SingleMaterial := ⟨d, d, d, none⟩

/-- `UniaxialMaterial`, `/repo/src/elli/materials.py:149-183`. -/
def uniaxialMaterial (o e : ℝ → ℂ) : SingleMaterial := ⟨o, o, e, none⟩

/-- `BiaxialMaterial`, `/repo/src/elli/materials.py:189-231`. -/
def biaxialMaterial (x y z : ℝ → ℂ) : SingleMaterial := ⟨x, y, z, none⟩

/-- `SingleMaterial.set_rotation`, `/repo/src/elli/materials.py:77-84`. -/
def SingleMaterial.setRotation (m : SingleMaterial) (r : Mat3) : SingleMaterial :=
  { m with rotation := some r }

/-- `SingleMaterial.get_tensor`, `/repo/src/elli/materials.py:86-115` (lines 108-110 diagonal,
lines 112-113 rotation with the plain transpose). -/
noncomputable def SingleMaterial.getTensor (m : SingleMaterial) (lbda : ℝ) : Tensor :=
  let epsilon : Tensor :=
    Matrix.diagonal ![m.dispersionX lbda, m.dispersionY lbda, m.dispersionZ lbda]
  match m.rotation with
  | none => epsilon
  | some r => r.map Complex.ofReal * epsilon * (r.map Complex.ofReal)ᵀ

/-- The four effective medium classes, `/repo/src/elli/materials.py:305-469`. -/
inductive EmaKind where
  | vca | looyenga | maxwellGarnett | bruggeman
  deriving DecidableEq

/-- One entry of `VCAMaterial.get_tensor_fraction`, `/repo/src/elli/materials.py:330-334`. -/
def vcaEntry (h g : ℂ) (f : ℝ) : ℂ := h * (1 - f) + g * f

/-- One entry of `LooyengaEMA.get_tensor_fraction`, `/repo/src/elli/materials.py:366-370`.
`x ** (1 / 3)` on complex arrays is the principal power. -/
noncomputable def looyengaEntry (h g : ℂ) (f : ℝ) : ℂ :=
  (h ^ (1 / 3 : ℂ) * (1 - f) + g ^ (1 / 3 : ℂ) * f) ^ 3

open Classical in
/-- One entry of `MaxwellGarnettEMA.get_tensor_fraction`, `/repo/src/elli/materials.py:401-418`;
`none` is NaN/inf. -/
noncomputable def maxwellGarnettEntry (h g : ℂ) (f : ℝ) : Option ℂ :=
  if h = 0 ∧ g = 0 then some h
  else
    let den := 2 * h + g - f * (g - h)
    if den = 0 then none
    else some (h * (2 * f * (g - h) + g + 2 * h) / den)

open Classical in
/-- One entry of `BruggemanEMA.get_tensor_fraction`, `/repo/src/elli/materials.py:452-469`;
`none` is NaN/inf: `p` divides by `sqrt(e_g)`, then `1 / p` divides by `p`. -/
noncomputable def bruggemanEntry (h g : ℂ) (f : ℝ) : Option ℂ :=
  if h = g then some h
  else
    let p := Complex.sqrt h / Complex.sqrt g
    if Complex.sqrt g = 0 ∨ p = 0 then none
    else
      let b : ℂ := 0.25 * ((3 * f - 1) * (1 / p - p) + p)
      let z := b + Complex.sqrt (b ^ 2 + 0.5)
      some (z * Complex.sqrt h * Complex.sqrt g)

/-- The entry formula of each class. -/
noncomputable def EmaKind.entry : EmaKind → ℂ → ℂ → ℝ → Option ℂ
  | .vca, h, g, f => some (vcaEntry h g f)
  | .looyenga, h, g, f => some (looyengaEntry h g f)
  | .maxwellGarnett, h, g, f => maxwellGarnettEntry h g f
  | .bruggeman, h, g, f => bruggemanEntry h g f

/-- `MixtureMaterial.get_tensor_fraction` on tensors that numpy computed without NaN: all formulas act
entry by entry, `/repo/src/elli/materials.py:330-469`. -/
noncomputable def EmaKind.tensor (k : EmaKind) (h g : Tensor) (f : ℝ) : NumTensor :=
  fun i j => k.entry (h i j) (g i j) f

/-- A fraction argument: a float, `none` for NaN. -/
abbrev FractionArg := Option ℝ

/-- A mixture object: class, constituents (as tensors per wavelength) and fraction,
`/repo/src/elli/materials.py:234-302`. -/
structure Mixture where
  kind : EmaKind
  host : ℝ → Tensor
  guest : ℝ → Tensor
  fraction : ℝ

open Classical in
/-- The check `not 0 <= fraction <= 1` of `set_fraction`, `/repo/src/elli/materials.py:277`;
comparisons with NaN are false, so NaN is refused. -/
noncomputable def checkFraction (f : FractionArg) : Except PyErr ℝ :=
  match f with
  | none => .error .valueError
  | some x => if ¬ (0 ≤ x ∧ x ≤ 1) then .error .valueError else .ok x

/-- `MixtureMaterial.set_fraction`, `/repo/src/elli/materials.py:271-280`: the new state and the
outcome of the call. -/
noncomputable def Mixture.setFraction (m : Mixture) (f : FractionArg) :
    Mixture × Except PyErr Unit :=
  match checkFraction f with
  | .error e => (m, .error e)
  | .ok x => ({ m with fraction := x }, .ok ())

/-- `MixtureMaterial.__init__`, `/repo/src/elli/materials.py:241-252`; constituents are already materials. -/
noncomputable def mkMixture (k : EmaKind) (h g : ℝ → Tensor) (f : FractionArg) :
    Except PyErr Mixture :=
  match checkFraction f with
  | .error e => .error e
  | .ok x => .ok ⟨k, h, g, x⟩

/-- `MixtureMaterial.get_tensor`, `/repo/src/elli/materials.py:295-302`. -/
noncomputable def Mixture.getTensor (m : Mixture) (lbda : ℝ) : NumTensor :=
  m.kind.tensor (m.host lbda) (m.guest lbda) m.fraction

end PyElli
