import Verif.Model.Structure
import Verif.Model.Result
import Mathlib.Analysis.SpecialFunctions.Trigonometric.Basic
import Mathlib.Analysis.Normed.Algebra.MatrixExponential
import Mathlib.Analysis.RCLike.Sqrt

/-!
# The two solvers: `/repo/src/elli/solver2x2.py` and `/repo/src/elli/solver4x4.py`

Both are modelled at one wavelength (the code is vectorised point-wise over wavelengths). Numbers are exact. A division
by zero (numpy: inf/nan) is Lean's `0`; the predicates `Regular2x2` and `Regular4x4` list the denominators, and the theorems
either assume them or derive them.
-/

namespace PyElli

open Matrix Complex

/-- What a solver sees after `Solver.__init__` (`solver.py:29-35`): the permittivity profile at one wavelength split into
front tensor, interior slices and back tensor, and whether the back material is an `IsotropicMaterial`
(`solver4x4.py:342, 381`). -/
structure Stack where
  front : Tensor
  layers : List (ℝ × Tensor)
  back : Tensor
  backIsotropic : Bool

/-- The outputs handed to `Result` (`solver2x2.py:114`, `solver4x4.py:385-389`). -/
structure SolverOut where
  jr : Mat2
  jt : Mat2
  power : Option ℝ

/-- `sqrt(eps[:, 0, 0])` with `numpy.lib.scimath.sqrt`, the principal root (`solver2x2.py:40-58`, `solver4x4.py:275`). -/
noncomputable def nOf (eps : Tensor) : ℂ := Complex.sqrt (eps 0 0)

/-! ## `Solver2x2` -/

/-- One entry of `angles`, `solver2x2.py:20`. `asin` is the complex arcsine used by numpy; the model leaves its branch
open, theorems only use `sin (asin z) = z`. -/
noncomputable def snellAngle (asin : ℂ → ℂ) (n0 : ℂ) (theta : ℝ) (n : ℂ) : ℂ :=
  asin (n0 * (Real.sin (deg2rad theta) : ℂ) / n)

/-- `Solver2x2.is_forward_angle`, `solver2x2.py:143-147`. -/
def isForwardAngle (n th : ℂ) : Prop :=
  (|(n * Complex.cos th).im| > 1e-10 ∧ (n * Complex.cos th).im > 0) ∨
  (¬ |(n * Complex.cos th).im| > 1e-10 ∧ (n * Complex.cos th).re > 0)

open Classical in
/-- The `np.where(np.invert(is_forward_angle(..)), pi - angle, angle)` of `solver2x2.py:22-31`. -/
noncomputable def fixForward (n th : ℂ) : ℂ :=
  if ¬ isForwardAngle n th then Real.pi - th else th

/-- `Solver2x2.fresnel`, `solver2x2.py:117-140`, in the order `r_s, r_p, t_s, t_p`. -/
noncomputable def fresnel (ni nt thi tht : ℂ) : ℂ × ℂ × ℂ × ℂ :=
  let ci := Complex.cos thi
  let ct := Complex.cos tht
  ((ni * ci - nt * ct) / (ni * ci + nt * ct), (nt * ci - ni * ct) / (nt * ci + ni * ct),
    2 * ni * ci / (ni * ci + nt * ct), 2 * ni * ci / (nt * ci + ni * ct))

/-- Index and angle of one medium. -/
abbrev Medium := ℂ × ℂ

/-- `n_list[i + 1], th_list[i + 1]` for the medium before `rest`, where `rest` are the remaining interior layers. -/
def nextMedium (rest : List (ℝ × Medium)) (last : Medium) : Medium :=
  match rest with
  | [] => last
  | (_, m) :: _ => m

/-- The interface matrix `[[1, r], [r, 1]] / t`, `solver2x2.py:82-83`. -/
noncomputable def interfaceMatrix (r t : ℂ) : Mat2 := !![1 / t, r / t; r / t, 1 / t]

/-- The factor `[[em, r em], [r ep, ep]] / t` of one loop step, `solver2x2.py:89-97`. -/
noncomputable def layerMatrix (delta r t : ℂ) : Mat2 :=
  let em := Complex.exp (-I * delta)
  let ep := Complex.exp (I * delta)
  !![em / t, r * em / t; r * ep / t, ep / t]

/-- `delta` of one layer, `solver2x2.py:74-76`. -/
noncomputable def phase2x2 (lbda d n th : ℂ) : ℂ := 2 * Real.pi * n * Complex.cos th / lbda * d

/-- The loop `solver2x2.py:85-97`. -/
noncomputable def loop2x2 (lbda : ℝ) (last : Medium) : Mat2 → Mat2 → List (ℝ × Medium) → Mat2 × Mat2
  | Ms, Mp, [] => (Ms, Mp)
  | Ms, Mp, (d, n, th) :: rest =>
    let nx := nextMedium rest last
    let f := fresnel n nx.1 th nx.2
    let delta := phase2x2 lbda d n th
    loop2x2 lbda last (Ms * layerMatrix delta f.1 f.2.2.1) (Mp * layerMatrix delta f.2.1 f.2.2.2) rest

/-- The front medium with its corrected angle, `solver2x2.py:20-26`. -/
noncomputable def frontMedium (asin : ℂ → ℂ) (s : Stack) (theta : ℝ) : Medium :=
  (nOf s.front, fixForward (nOf s.front) (snellAngle asin (nOf s.front) theta (nOf s.front)))

/-- The back medium with its corrected angle, `solver2x2.py:20, 27-31`. -/
noncomputable def backMedium (asin : ℂ → ℂ) (s : Stack) (theta : ℝ) : Medium :=
  (nOf s.back, fixForward (nOf s.back) (snellAngle asin (nOf s.front) theta (nOf s.back)))

/-- The interior media, `solver2x2.py:20`, 38-48. -/
noncomputable def innerMedia (asin : ℂ → ℂ) (n0 : ℂ) (theta : ℝ) (layers : List (ℝ × Tensor)) : List (ℝ × Medium) :=
  layers.map fun l => (l.1, nOf l.2, snellAngle asin n0 theta (nOf l.2))

/-- `Ms` and `Mp` after the loop, `solver2x2.py:81-97`. -/
noncomputable def matrices2x2 (asin : ℂ → ℂ) (s : Stack) (theta lbda : ℝ) : Mat2 × Mat2 :=
  let first := frontMedium asin s theta
  let last := backMedium asin s theta
  let inner := innerMedia asin (nOf s.front) theta s.layers
  let nx := nextMedium inner last
  let f := fresnel first.1 nx.1 first.2 nx.2
  loop2x2 lbda last (interfaceMatrix f.1 f.2.2.1) (interfaceMatrix f.2.1 f.2.2.2) inner

/-- `Solver2x2.calculate`, `solver2x2.py:35-114` (the warnings are not modelled). -/
noncomputable def calculate2x2 (asin : ℂ → ℂ) (s : Stack) (theta lbda : ℝ) : SolverOut :=
  let M := matrices2x2 asin s theta lbda
  let first := frontMedium asin s theta
  let last := backMedium asin s theta
  { jr := !![M.2 1 0 / M.2 0 0, 0; 0, M.1 1 0 / M.1 0 0]
    jt := !![1 / M.2 0 0, 0; 0, 1 / M.1 0 0]
    power := some ((last.1 * Complex.cos last.2).re / (first.1 * Complex.cos first.2).re) }

/-! ## `Solver4x4` -/

abbrev Mat4 := Matrix (Fin 4) (Fin 4) ℂ

/-- `2 * sc.pi / lbda`, `solver4x4.py:60, 113, 146`. -/
noncomputable def wavenumber (lbda : ℝ) : ℝ := 2 * Real.pi / lbda

/-- `PropagatorLinear.calculate_propagation`, `solver4x4.py:46-62`. -/
noncomputable def propLinear (delta : Mat4) (thickness lbda : ℝ) : Mat4 :=
  1 + (I * thickness) • ((wavenumber lbda : ℂ) • delta)

/-- `PropagatorExpm.calculate_propagation`, `solver4x4.py:100-117`; both backends compute the matrix exponential. -/
noncomputable def propExpm (delta : Mat4) (thickness lbda : ℝ) : Mat4 :=
  NormedSpace.exp ((I * thickness) • ((wavenumber lbda : ℂ) • delta))

/-- The order in which `idx = np.argsort(keys)`/`np.lexsort` lists the positions: stable sort by a comparison. -/
def argsort {n : ℕ} (le : Fin n → Fin n → Bool) : List (Fin n) := (List.finRange n).mergeSort le

open Classical in
/-- Comparison used by `np.lexsort((-np.real(q), -np.imag(q)))`, `solver4x4.py:139, 222`: `-Im q` is the primary key, `-Re q` the
secondary one. -/
noncomputable def lexLe (q : Fin 4 → ℂ) (a b : Fin 4) : Bool :=
  decide (-(q a).im < -(q b).im ∨ (-(q a).im = -(q b).im ∧ -(q a).re ≤ -(q b).re))

lemma argsort_length {n : ℕ} (le : Fin n → Fin n → Bool) : (argsort le).length = n := by
  simp [argsort]

/-- Column permutation `np.take_along_axis(w, i[:, np.newaxis, :], axis=-1)`. -/
def takeIdx {n : ℕ} (l : List (Fin n)) (h : l.length = n) (i : Fin n) : Fin n := l[i.val]'(by omega)

/-- `PropagatorEig.calculate_propagation`, `solver4x4.py:123-152`, for the eigenvalues `q` and eigenvector matrix `w` that
`np.linalg.eig` returned. -/
noncomputable def propEig (q : Fin 4 → ℂ) (w : Mat4) (thickness lbda : ℝ) : Mat4 :=
  let i := takeIdx (argsort (lexLe q)) (argsort_length _)
  let q' : Fin 4 → ℂ := fun k => q (i k)
  let w' : Mat4 := fun a k => w a (i k)
  w' * Matrix.diagonal (fun k => Complex.exp (q' k * (2 * I) * thickness * Real.pi / lbda)) * w'⁻¹

/-- `Solver4x4.build_delta_matrix`, `solver4x4.py:159-202`. -/
noncomputable def buildDelta (kx : ℂ) (eps : Tensor) : Mat4 :=
  !![-kx * eps 2 0 / eps 2 2, -kx * eps 2 1 / eps 2 2, 0, 1 - kx ^ 2 / eps 2 2;
     0, 0, -1, 0;
     eps 1 2 * eps 2 0 / eps 2 2 - eps 1 0, kx ^ 2 - eps 1 1 + eps 1 2 * eps 2 1 / eps 2 2, 0,
       kx * eps 1 2 / eps 2 2;
     eps 0 0 - eps 0 2 * eps 2 0 / eps 2 2, eps 0 1 - eps 0 2 * eps 2 1 / eps 2 2, 0, -kx * eps 0 2 / eps 2 2]

/-- `cos_phi` of `transition_matrix_iso_halfspace`, `solver4x4.py:275-277`. -/
noncomputable def cosPhi (kx : ℂ) (eps : Tensor) : ℂ := Complex.sqrt (1 - (kx / nOf eps) ^ 2)

/-- `transition_matrix_iso_halfspace(.., inv=False)`, `solver4x4.py:295-304`. -/
noncomputable def isoHalf (kx : ℂ) (eps : Tensor) : Mat4 :=
  let n := nOf eps
  let c := cosPhi kx eps
  !![0, 0, c, -c; 1, 1, 0, 0; -n * c, n * c, 0, 0; 0, 0, n, n]

/-- `transition_matrix_iso_halfspace(.., inv=True)`, `solver4x4.py:283-293`. -/
noncomputable def isoHalfInv (kx : ℂ) (eps : Tensor) : Mat4 :=
  let n := nOf eps
  let c := cosPhi kx eps
  (0.5 : ℂ) • !![0, 1, -1 / c / n, 0; 0, 1, 1 / c / n, 0; 1 / c, 0, 0, 1 / n; -1 / c, 0, 0, 1 / n]

open Classical in
/-- Phase factor `c` of `solver4x4.py:244-247`. -/
noncomputable def unitPhase (e : ℂ) : ℂ := if ‖e‖ ≠ 0 then e / ‖e‖ else 1

open Classical in
/-- `i1`/`i2`, `solver4x4.py:229-230`: positions of two values by descending absolute value (stable). -/
noncomputable def descTwo (x y : ℂ) : Fin 2 → Fin 2 := if -‖x‖ ≤ -‖y‖ then ![0, 1] else ![1, 0]

/-- Eigenvectors in the order of line 223, `solver4x4.py:220-224`. -/
noncomputable def eigSorted (q : Fin 4 → ℂ) (w : Mat4) : Mat4 :=
  fun a k => w a (takeIdx (argsort (lexLe q)) (argsort_length _) k)

/-- Eigenvectors reordered and multiplied with phase factors, `solver4x4.py:226-249`. -/
noncomputable def eigPhased (q : Fin 4 → ℂ) (w : Mat4) : Mat4 :=
  let p := eigSorted q w
  let i1 := descTwo (p 1 0) (p 1 1)
  let i2 := descTwo (p 1 2) (p 1 3)
  let up : Fin 2 → Fin 4 := ![0, 1]
  let dn : Fin 2 → Fin 4 := ![2, 3]
  let i : Fin 4 → Fin 4 := ![up (i1 0), dn (i2 0), up (i1 1), dn (i2 1)]
  let p : Mat4 := fun a k => p a (i k)
  let e : Fin 4 → ℂ := ![p 1 0, p 1 1, p 0 2, p 0 3]
  fun a k => p a k * unitPhase (e k)

/-- Normalisation `c`, `solver4x4.py:254`. -/
noncomputable def eigNorm (q : Fin 4 → ℂ) (w : Mat4) : ℂ := eigPhased q w 1 0 + eigPhased q w 1 1

/-- `transition_matrix_halfspace`, `solver4x4.py:205-259`, for the eigenvalues and eigenvectors returned by `np.linalg.eig`. The
correction of a vanishing `c` in line 255 is not assigned in the code, so it has no effect here either (the code then returns NaN). -/
noncomputable def eigHalf (q : Fin 4 → ℂ) (w : Mat4) : Mat4 :=
  fun a k => 2 * eigPhased q w a k / eigNorm q w

/-- `get_k_z`, `solver4x4.py:307-322`; `get_refractive_index` is the principal root of the tensor entry. -/
noncomputable def getKz (eps : Tensor) (kx : ℂ) : ℂ := Complex.sqrt (nOf eps ^ 2 - kx ^ 2)

/-- `k_x`, `solver4x4.py:337-338`. -/
noncomputable def kxOf (s : Stack) (theta : ℝ) : ℂ := nOf s.front * (Real.sin (deg2rad theta) : ℂ)

/-- A propagator: delta matrix, thickness and wavelength to a propagation matrix. -/
abbrev Propagator := Mat4 → ℝ → ℝ → Mat4

/-- The loop over the reversed layers, `solver4x4.py:340, 351-355`, started with the exit matrix. -/
noncomputable def loop4x4 (prop : Propagator) (kx : ℂ) (lbda : ℝ) (layers : List (ℝ × Tensor)) (exit : Mat4) : Mat4 :=
  layers.reverse.foldl (fun m l => prop (buildDelta kx l.2) (-l.1) lbda * m) exit

/-- Exit matrix `m_t` before the loop, `solver4x4.py:342-349`. `exitEig` is the answer of `np.linalg.eig` for the back material's
delta matrix. -/
noncomputable def exitMatrix (s : Stack) (kx : ℂ) (exitEig : (Fin 4 → ℂ) × Mat4) : Mat4 :=
  if s.backIsotropic then isoHalf kx s.back else eigHalf exitEig.1 exitEig.2

/-- `m_t` after line 360 of `solver4x4.py`. -/
noncomputable def transfer4x4 (prop : Propagator) (s : Stack) (theta lbda : ℝ) (exitEig : (Fin 4 → ℂ) × Mat4) : Mat4 :=
  isoHalfInv (kxOf s theta) s.front *
    loop4x4 prop (kxOf s theta) lbda s.layers (exitMatrix s (kxOf s theta) exitEig)

/-- `m_t[:, 2::-2, 2::-2]`, `solver4x4.py:363`. -/
def tIt (m : Mat4) : Mat2 := !![m 2 2, m 2 0; m 0 2, m 0 0]

/-- `m_t[:, 3::-2, 2::-2]`, `solver4x4.py:368`. -/
def tRt (m : Mat4) : Mat2 := !![m 3 2, m 3 0; m 1 2, m 1 0]

/-- `Solver4x4.calculate`, `solver4x4.py:330-389`. -/
noncomputable def calculate4x4 (prop : Propagator) (s : Stack) (theta lbda : ℝ) (exitEig : (Fin 4 → ℂ) × Mat4) :
    SolverOut :=
  let m := transfer4x4 prop s theta lbda exitEig
  let kx := kxOf s theta
  { jr := tRt m * (tIt m)⁻¹
    jt := (tIt m)⁻¹
    power := if s.backIsotropic then some ((getKz s.back kx).re / (getKz s.front kx).re) else none }

/-! ## From a structure to a stack -/

/-- A slice whose tensor entries are all finite. -/
noncomputable def NumTensor.finite? (t : NumTensor) : Option Tensor :=
  open Classical in
  if h : ∀ i j, (t i j).isSome then some fun i j => (t i j).get (h i j) else none

/-- All slices of a profile, or `none` if a tensor contains NaN. -/
noncomputable def finiteSlices : List Slice → Option (List (ℝ × Tensor))
  | [] => some []
  | s :: rest => s.eps.finite?.bind fun e => (finiteSlices rest).map fun r => (s.d, e) :: r

/-- `Solver.__init__`, `solver.py:29-35`, and `Structure.get_permittivity_profile`, `structure.py:468-486`: the stack at one wavelength;
`none` if a tensor contains NaN. -/
noncomputable def Struct.stack (s : Struct) (lbda : ℝ) : Option Stack :=
  (s.front.getTensor lbda).finite?.bind fun f =>
    (finiteSlices (profileList s.layers lbda)).bind fun ls =>
      (s.back.getTensor lbda).finite?.map fun b => ⟨f, ls, b, s.back.isIsotropicClass⟩

end PyElli
