import Verif.Model.ArraySolver
import Verif.Model.Solver

/-! # Exact arithmetic for the arrays, and the arrays of the objects of the other model files

`Model/Materials.lean`, `Model/Structure.lean`, `Model/Solver.lean` and `Model/Result.lean` describe one wavelength with exact numbers.
Here the arithmetic of `Model/NdArray.lean` is made exact, and it is said which material, layers and structure of `Model/ArraySolver.lean`
are the same object as one of those files. -/

namespace PyElli.Nd

open PyElli Matrix Complex

open Classical in
/-- Exact complex numbers. Numbers are compared by their real parts (comparisons are only made with real numbers). `eig` are the eigenvalues and
eigenvectors returned by `np.linalg.eig` for a matrix of four rows and `asin` is the complex arcsine. A singular matrix raises `LinAlgError`, a
kind of `ValueError`. NaN is the number 0 here, and division by zero gives 0: the theorems speak of results without NaN. -/
@[reducible] noncomputable def exact (asin : ℂ → ℂ) (eig : Mat4 → (Fin 4 → ℂ) × Mat4) : Arith ℂ where
  num q := (q : ℂ)
  I := Complex.I
  pi := (Real.pi : ℂ)
  add := (· + ·)
  sub := (· - ·)
  mul := (· * ·)
  div := (· / ·)
  neg := (- ·)
  pow := (· ^ ·)
  sqrt := Complex.sqrt
  sin := Complex.sin
  cos := Complex.cos
  arcsin := asin
  arctan z := (Real.arctan z.re : ℂ)
  exp := Complex.exp
  deg2rad z := z * ((Real.pi / 180 : ℝ) : ℂ)
  rad2deg z := z * ((180 / Real.pi : ℝ) : ℂ)
  abs z := (‖z‖ : ℂ)
  real z := (z.re : ℂ)
  imag z := (z.im : ℂ)
  conj := starRingEnd ℂ
  angleDeg z := (rad2deg (Complex.arg z) : ℂ)
  mod a b := ((a.re - b.re * ⌊a.re / b.re⌋ : ℝ) : ℂ)
  setImag a b := ⟨a.re, b.re⟩
  lt a b := decide (a.re < b.re)
  le a b := decide (a.re ≤ b.re)
  eq a b := decide (a = b)
  nan := 0
  sum := List.sum
  inv n M := if Matrix.det (Matrix.of M) = 0 then .error .valueError else .ok ((Matrix.of M)⁻¹ : Matrix (Fin n) (Fin n) ℂ)
  eig n M := match n, M with
    | 4, M => .ok (eig (Matrix.of M))
    | _, _ => .error .notImplemented
  expm n M := (NormedSpace.exp (Matrix.of M) : Matrix (Fin n) (Fin n) ℂ)

/-- A dispersion of the array model has the dielectric function `f`: where it returns a value, it is that of `f`. It may raise, as tables do outside
their range. -/
inductive DispIs : Disp ℂ → (ℝ → ℂ) → Prop
  | const {c : ℂ} {f : ℝ → ℂ} (h : ∀ l, f l = c) : DispIs (.const c) f
  | fn {g : ℂ → Except PyErr ℂ} {f : ℝ → ℂ} (h : ∀ (l : ℝ) v, g (l : ℂ) = .ok v → f l = v) : DispIs (.fn g) f

/-- A real matrix of rotation as used by numpy with complex arrays. -/
def castMat (r : Mat3) : Fin 3 → Fin 3 → ℂ := fun i j => (r i j : ℂ)

/-- A material of the array model is a material of `Model/Structure.lean`. -/
inductive MatIs : Mat ℂ → Material → Prop
  | single {cls : SingleClass} {x y z : Disp ℂ} {m : SingleMaterial} (hx : DispIs x m.dispersionX) (hy : DispIs y m.dispersionY)
      (hz : DispIs z m.dispersionZ) : MatIs (.single cls x y z (m.rotation.map castMat)) (.single cls m)
  | mixture {k : EmaKind} {h g : Mat ℂ} {h' g' : Material} {f : ℝ} (hh : MatIs h h') (hg : MatIs g g') :
      MatIs (.mixture k h g (f : ℂ)) (.mixture k h' g' f)

/-- The slices of a twisted layer, `structure.py:247-272, 305-317`: thickness and rotation matrix. -/
noncomputable def twistedSlices (thickness : ℝ) (div : ℕ) (angle : ℝ) : List (ℂ × (Fin 3 → Fin 3 → ℂ)) :=
  let z := getSlices thickness div
  List.zipWith (fun (d x : ℝ) => ((d : ℂ), castMat (rotationVTheta eZ (angle * x / thickness)))) (diffs z) (midpoints z)

/-- The slices of a layer with varying composition, `structure.py:247-272, 379-392`: thickness and fraction. -/
noncomputable def varyingSlices (thickness : ℝ) (div : ℕ) (modulation : Option ℝ → Option ℝ) : List (ℂ × ℂ) :=
  let z := getSlices thickness div
  List.zipWith (fun (d x : ℝ) => ((d : ℂ), (((modulation (floatDiv x thickness)).getD 0 : ℝ) : ℂ))) (diffs z) (midpoints z)

mutual
/-- A layer of the array model is a layer of `Model/Structure.lean`. -/
inductive LayIs : Lay ℂ → LayerObj → Prop
  | layer {m : Mat ℂ} {m' : Material} {d : ℝ} (h : MatIs m m') : LayIs (.layer m (d : ℂ)) (.layer m' d)
  | twisted {m : Mat ℂ} {m' : Material} {t angle : ℝ} {div : ℕ} (h : MatIs m m') :
      LayIs (.twisted m (twistedSlices t div angle)) (.twisted m' t div angle)
  | varying {k : EmaKind} {h g : Mat ℂ} {h' g' : Material} {t : ℝ} {div : ℕ} {md : Option ℝ → Option ℝ} (hh : MatIs h h') (hg : MatIs g g') :
      LayIs (.varying k h g (varyingSlices t div md)) (.varying k h' g' t div md)
  | repeated {ls : List (Lay ℂ)} {ls' : List LayerObj} {n b a : ℕ} (h : LaysAre ls ls') : LayIs (.repeated ls n b a) (.repeated ls' n b a)

/-- The same for lists. -/
inductive LaysAre : List (Lay ℂ) → List LayerObj → Prop
  | nil : LaysAre [] []
  | cons {l : Lay ℂ} {l' : LayerObj} {ls : List (Lay ℂ)} {ls' : List LayerObj} (h : LayIs l l') (hs : LaysAre ls ls') : LaysAre (l :: ls) (l' :: ls')
end

/-- A structure of the array model is a structure of `Model/Structure.lean`. -/
structure StructIs (s : StructArr ℂ) (s' : Struct) : Prop where
  front : MatIs s.front s'.front
  layers : LaysAre s.layers s'.layers
  back : MatIs s.back s'.back

/-- The propagators of `Model/Solver.lean`. -/
noncomputable def PropKind.propagator (eig : Mat4 → (Fin 4 → ℂ) × Mat4) : PropKind → Propagator
  | .linear => propLinear
  | .expm => propExpm
  | .eig => fun delta => propEig (eig delta).1 (eig delta).2

end PyElli.Nd
