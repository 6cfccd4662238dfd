import Verif.Model.Materials
import Mathlib.Order.WithBot

/-! # Layers and structures: `/repo/src/elli/structure.py`

Tensors are `NumTensor`s (entries `none` = NaN/inf).  Thicknesses are exact reals; the half spaces
have thickness `⊤` (`np.inf`). -/

namespace PyElli

open Matrix

/-- Classes of `SingleMaterial` (`materials.py:118-231`). -/
inductive SingleClass where
  | isotropic | uniaxial | biaxial
  deriving DecidableEq

/-- A material object: `SingleMaterial` subclasses and (nested) mixtures,
`/repo/src/elli/materials.py:39-469`. -/
inductive Material where
  | single (cls : SingleClass) (m : SingleMaterial)
  | mixture (k : EmaKind) (host guest : Material) (fraction : ℝ)

/-- Entry formula for inputs and fractions that may be NaN (`none`): numpy propagates NaN, except that the masks of
Maxwell Garnett (`materials.py:417`) and Bruggeman (`materials.py:456-457`) bypass the formula. -/
noncomputable def EmaKind.entryNum (k : EmaKind) (h g : Option ℂ) (f : Option ℝ) : Option ℂ :=
  match h, g with
  | some a, some b =>
    match f with
    | some x => k.entry a b x
    | none =>
      open Classical in
      match k with
      | .vca => none
      | .looyenga => none
      | .maxwellGarnett => if a = 0 ∧ b = 0 then some a else none
      | .bruggeman => if a = b then some a else none
  | _, _ => none

/-- `get_tensor_fraction` of the four mixture classes on tensors that may contain NaN. -/
noncomputable def EmaKind.numTensor (k : EmaKind) (h g : NumTensor) (f : Option ℝ) : NumTensor :=
  fun i j => k.entryNum (h i j) (g i j) f

/-- `Material.get_tensor`: `materials.py:86-115` and `295-302`. -/
noncomputable def Material.getTensor : Material → ℝ → NumTensor
  | .single _ m, lbda => fun i j => some (m.getTensor lbda i j)
  | .mixture k h g f, lbda => k.numTensor (h.getTensor lbda) (g.getTensor lbda) (some f)

/-- `isinstance(material, IsotropicMaterial)`. -/
def Material.isIsotropicClass : Material → Bool
  | .single .isotropic _ => true
  | _ => false

/-- One slice of a profile: thickness and tensor. -/
structure Slice where
  d : ℝ
  eps : NumTensor

/-- Product `R @ eps @ R.T` on tensors that may contain NaN/inf. One non-finite entry makes its whole column non-finite in
`R @ eps` and then every entry of the product (`NaN * 0` and `inf * 0` are NaN), so the result is either
finite everywhere or nowhere. -/
noncomputable def rotateNum (R : Mat3) (e : NumTensor) : NumTensor :=
  open Classical in
  if h : ∀ i j, (e i j).isSome then
    let t : Tensor := fun i j => (e i j).get (h i j)
    let p : Tensor := R.map Complex.ofReal * t * (R.map Complex.ofReal)ᵀ
    fun i j => some (p i j)
  else fun _ _ => none

/-- The z axis `E_Z`, `/repo/src/elli/utils.py:198` (unit vector used by `TwistedLayer`). -/
def eZ : Fin 3 → ℝ := ![0, 0, 1]

/-- Layer objects. `repeated` is `RepeatedLayers` (`structure.py:53-144`), `layer` is `Layer`
(`147-198`), `twisted` is `TwistedLayer` (`277-317`), `varying` is `VaryingMixtureLayer` (`320-392`).
The modulation takes and returns floats, `none` being NaN. -/
inductive LayerObj where
  | layer (material : Material) (thickness : ℝ)
  | twisted (material : Material) (thickness : ℝ) (div : ℕ) (angle : ℝ)
  | varying (k : EmaKind) (host guest : Material) (thickness : ℝ) (div : ℕ)
      (modulation : Option ℝ → Option ℝ)
  | repeated (layers : List LayerObj) (repetitions before after : ℕ)

/-- `InhomogeneousLayer.get_slices`, `/repo/src/elli/structure.py:247-253`: `np.linspace(0, t, div + 1)`. -/
noncomputable def getSlices (thickness : ℝ) (div : ℕ) : List ℝ :=
  (List.range (div + 1)).map fun (k : ℕ) => (k : ℝ) * (thickness / div)

/-- `np.diff`. -/
def diffs : List ℝ → List ℝ
  | a :: b :: t => (b - a) :: diffs (b :: t)
  | _ => []

/-- `(z[:-1] + z[1:]) / 2.0`. -/
noncomputable def midpoints (z : List ℝ) : List ℝ :=
  List.zipWith (fun a b => (a + b) / 2) z.dropLast z.tail

/-- `InhomogeneousLayer.get_permittivity_profile`, `/repo/src/elli/structure.py:259-272`. -/
noncomputable def inhomogeneousProfile (thickness : ℝ) (div : ℕ) (tensor : ℝ → NumTensor) :
    List Slice :=
  let z := getSlices thickness div
  List.zipWith Slice.mk (diffs z) ((midpoints z).map tensor)

/-- Float division `x / t` where `t = 0` gives NaN or infinity (numpy scalars). -/
noncomputable def floatDiv (x t : ℝ) : Option ℝ :=
  open Classical in if t = 0 then none else some (x / t)

/-- `TwistedLayer.get_tensor`, `/repo/src/elli/structure.py:305-317`. -/
noncomputable def twistedTensor (material : Material) (thickness angle lbda z : ℝ) : NumTensor :=
  match floatDiv (angle * z) thickness with
  | none => fun _ _ => none
  | some a => rotateNum (rotationVTheta eZ a) (material.getTensor lbda)

/-- `VaryingMixtureLayer.get_tensor`, `/repo/src/elli/structure.py:379-392`. -/
noncomputable def varyingTensor (k : EmaKind) (host guest : Material) (thickness : ℝ)
    (modulation : Option ℝ → Option ℝ) (lbda z : ℝ) : NumTensor :=
  k.numTensor (host.getTensor lbda) (guest.getTensor lbda) (modulation (floatDiv z thickness))

/-- The list arithmetic at the end of `RepeatedLayers.get_permittivity_profile`,
`/repo/src/elli/structure.py:136-144`: `layers[-before:]` (only if `before > 0`), `repetitions * layers`,
`layers[:after]`. Python's `l[-k:]` with `k > len(l)` is the whole list. -/
def repeatedSlices {α : Type*} (layers : List α) (repetitions before after : ℕ) : List α :=
  let bef := if before > 0 then layers.drop (layers.length - before) else []
  bef ++ (List.replicate repetitions layers).flatten ++ layers.take after

mutual
/-- `get_permittivity_profile` of the layer classes. -/
noncomputable def LayerObj.profile : LayerObj → ℝ → List Slice
  | .layer m t, lbda => [⟨t, m.getTensor lbda⟩]
  | .twisted m t div angle, lbda => inhomogeneousProfile t div (twistedTensor m t angle lbda)
  | .varying k h g t div md, lbda => inhomogeneousProfile t div (varyingTensor k h g t md lbda)
  | .repeated ls n b a, lbda => repeatedSlices (profileList ls lbda) n b a

/-- The loop `for layer in self.layers: layers += layer.get_permittivity_profile(lbda)`,
`/repo/src/elli/structure.py:132-134` and `476-477`. -/
noncomputable def profileList : List LayerObj → ℝ → List Slice
  | [], _ => []
  | l :: ls, lbda => l.profile lbda ++ profileList ls lbda
end

/-- `Structure`, `/repo/src/elli/structure.py:399-424`. -/
structure Struct where
  front : Material
  layers : List LayerObj
  back : Material

/-- `Structure.get_permittivity_profile`, `/repo/src/elli/structure.py:468-486`. -/
noncomputable def Struct.profile (s : Struct) (lbda : ℝ) : List (WithTop ℝ × NumTensor) :=
  let p := [((⊤ : WithTop ℝ), s.front.getTensor lbda)]
  let p := p ++ (profileList s.layers lbda).map fun sl => ((sl.d : WithTop ℝ), sl.eps)
  p ++ [((⊤ : WithTop ℝ), s.back.getTensor lbda)]

/-! ## Setters -/

/-- A Python argument of a setter: a number (`none` is NaN), a material, a layer object, a list, or
anything else. -/
inductive PyArg where
  | num (x : Option ℝ)
  | material (m : Material)
  | layerObj (l : LayerObj)
  | list (xs : List PyArg)
  | other

/-- `x < bound` for a setter argument; comparing a non-number with a number raises `TypeError`. -/
noncomputable def PyArg.lt (x : PyArg) (bound : ℝ) : Except PyErr Bool :=
  open Classical in
  match x with
  | .num none => .ok false
  | .num (some v) => .ok (decide (v < bound))
  | _ => .error .typeError

/-- Mutable fields of all the classes in `structure.py`; a field is `none` before it is set. -/
structure ObjState where
  thickness : Option PyArg := none
  material : Option Material := none
  div : Option PyArg := none
  repetitions : Option PyArg := none
  before : Option PyArg := none
  after : Option PyArg := none
  layers : Option (List LayerObj) := none
  front : Option Material := none
  back : Option Material := none

/-- Setter calls. -/
inductive SetCall where
  | thickness (x : PyArg)
  | material (x : PyArg)
  | mixtureMaterial (x : PyArg)
  | divisions (x : PyArg)
  | repetitions (r b a : PyArg)
  | layers (x : PyArg)
  | front (x : PyArg)
  | back (x : PyArg)

/-- The loop over list items in `set_layers`, `/repo/src/elli/structure.py:114-122` and `459-466`. -/
def allLayers : List PyArg → Option (List LayerObj)
  | [] => some []
  | .layerObj l :: t => (allLayers t).map (l :: ·)
  | _ :: _ => none

/-- One setter call: new state and outcome. `set_thickness` `structure.py:162-171, 212-221`,
`set_material` `173-184, 223-234`, `VaryingMixtureLayer.set_material` `351-362`, `set_divisions` `236-245`,
`set_repetitions` `82-106`, `set_layers` `108-122, 452-466`, `set_front_material` `426-437`,
`set_back_material` `439-450`. -/
noncomputable def ObjState.call (s : ObjState) : SetCall → ObjState × Except PyErr Unit
  | .thickness x =>
    match x.lt 0 with
    | .error e => (s, .error e)
    | .ok true => (s, .error .valueError)
    | .ok false => ({ s with thickness := some x }, .ok ())
  | .material x =>
    match x with
    | .material m => ({ s with material := some m }, .ok ())
    | _ => (s, .error .typeError)
  | .mixtureMaterial x =>
    match x with
    | .material (.mixture k h g f) => ({ s with material := some (.mixture k h g f) }, .ok ())
    | _ => (s, .error .typeError)
  | .divisions x =>
    match x.lt 1 with
    | .error e => (s, .error e)
    | .ok true => (s, .error .valueError)
    | .ok false => ({ s with div := some x }, .ok ())
  | .repetitions r b a =>
    match r.lt 1 with
    | .error e => (s, .error e)
    | .ok true => (s, .error .valueError)
    | .ok false =>
      match b.lt 0 with
      | .error e => (s, .error e)
      | .ok true => (s, .error .valueError)
      | .ok false =>
        match a.lt 0 with
        | .error e => (s, .error e)
        | .ok true => (s, .error .valueError)
        | .ok false => ({ s with repetitions := some r, before := some b, after := some a }, .ok ())
  | .layers x =>
    match x with
    | .list xs =>
      match allLayers xs with
      | none => (s, .error .typeError)
      | some ls => ({ s with layers := some ls }, .ok ())
    | _ => (s, .error .typeError)
  | .front x =>
    match x with
    | .material m => ({ s with front := some m }, .ok ())
    | _ => (s, .error .typeError)
  | .back x =>
    match x with
    | .material m => ({ s with back := some m }, .ok ())
    | _ => (s, .error .typeError)

end PyElli
