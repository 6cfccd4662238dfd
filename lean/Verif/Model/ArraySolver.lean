import Verif.Model.NdArray
import Verif.Model.Structure

/-! # Materials, structures and solvers on whole arrays: `/repo/src/elli/materials.py`, `structure.py`, `solver2x2.py`, `solver4x4.py`

The same code as in `Model/Materials.lean`, `Model/Structure.lean` and `Model/Solver.lean`, but with the arrays as they are: every
expression is an operation on arrays with a wavelength axis, as written in the code, over an arbitrary arithmetic. Not modelled here are the
warnings of `Solver2x2` and the numbers that do not depend on the wavelength (rotation matrices and fractions of the slices of an
inhomogeneous layer), which are given. -/

namespace PyElli.Nd

open PyElli

variable {V : Type} [Arith V]

/-- An array of wavelengths, `Experiment.set_lbda`, `experiment.py:141-150`. -/
def wavelengths (L : List V) : ND V := ⟨[L.length], fun idx => L.getD (idx.headD 0) Arith.nan⟩

/-! ## Dispersions and materials -/

/-- A dispersion as seen by `get_tensor`: `dielectric_function` returns a number for `ConstantRefractiveIndex` and `EpsilonInf`
(`dispersions/constant_refractive_index.py:36-37`, `epsilon_inf.py:27-28`) and otherwise works on every wavelength separately, where tables
raise `ValueError` outside their range (`table_index.py`, `table_epsilon.py`). -/
inductive Disp (V : Type)
  | const (c : V)
  | fn (f : V → Except PyErr V)

/-- `get_dielectric(lbda)`, `dispersions/base_dispersion.py:112-116`. -/
def Disp.eval (d : Disp V) (lbda : ND V) : Out V :=
  match d with
  | .const c => scalar c
  | .fn f => match traverseList (fun k => f (lbda.val [k])) (List.range (lbda.shape.headD 0)) with
    | .error e => .error e
    | .ok l => .ok ⟨lbda.shape, fun idx => l.getD (idx.headD 0) Arith.nan⟩

/-- Materials: `SingleMaterial` with its rotation matrix (`materials.py:64-84`) and mixtures (`234-302`). -/
inductive Mat (V : Type)
  | single (cls : SingleClass) (x y z : Disp V) (rotation : Option (Fin 3 → Fin 3 → V))
  | mixture (k : EmaKind) (host guest : Mat V) (fraction : V)

/-- `np.where(c, a, b)`. -/
def whereOp {α : Type} (c : Out Bool) (a b : Out α) : Out α := op2 (fun t p => if t then p.1 else p.2) c (op2 Prod.mk a b)

/-- `VCAMaterial.get_tensor_fraction`, `materials.py:330-334`. -/
def vcaArr (host guest : Out V) (f : V) : Out V := host * scalar (Arith.num 1 ⊖ f) + guest * scalar f

/-- `LooyengaEMA.get_tensor_fraction`, `materials.py:366-370`. -/
def looyengaArr (host guest : Out V) (f : V) : Out V :=
  op2 Arith.pow (op2 Arith.pow host (lit (1 / 3)) * scalar (Arith.num 1 ⊖ f) + op2 Arith.pow guest (lit (1 / 3)) * scalar f) (lit 3)

/-- `MaxwellGarnettEMA.get_tensor_fraction`, `materials.py:401-418`. -/
def maxwellGarnettArr (e_h e_g : Out V) (f : V) : Out V :=
  let maxwell_garnett := e_h * (scalar (Arith.num 2 ⊗ f) * (e_g - e_h) + e_g + lit 2 * e_h) / (lit 2 * e_h + e_g - scalar f * (e_g - e_h))
  whereOp (op2 (fun a b => a && b) (op2 Arith.eq e_h (lit 0)) (op2 Arith.eq e_g (lit 0))) e_h maxwell_garnett

/-- `BruggemanEMA.get_tensor_fraction`, `materials.py:452-469`. -/
def bruggemanArr (e_h e_g : Out V) (f : V) : Out V :=
  let mask_equal := nonzero (op2 Arith.eq e_h e_g)
  let mask_different := nonzero (op2 (fun a b => !Arith.eq a b) e_h e_g)
  let p := op1 Arith.sqrt (gather e_h mask_different) / op1 Arith.sqrt (gather e_g mask_different)
  let b := lit (1 / 4) * (scalar (Arith.num 3 ⊗ f ⊖ Arith.num 1) * (lit 1 / p - p) + p)
  let z := b + op1 Arith.sqrt (sq b + lit (1 / 2))
  let e_mix := op1 (fun _ => Arith.nan) e_h
  let e_mix := scatter e_mix mask_equal (gather e_h mask_equal)
  scatter e_mix mask_different (z * op1 Arith.sqrt (gather e_h mask_different) * op1 Arith.sqrt (gather e_g mask_different))

/-- `get_tensor_fraction` of the four classes. -/
def emaArr : EmaKind → Out V → Out V → V → Out V
  | .vca => vcaArr
  | .looyenga => looyengaArr
  | .maxwellGarnett => maxwellGarnettArr
  | .bruggeman => bruggemanArr

/-- `get_tensor(lbda)`, `materials.py:86-115` and `295-302`. -/
def Mat.getTensor : Mat V → ND V → Out V
  | .single _ x y z rotation, lbda =>
    let length := match lbda.shape with | [] => 1 | n :: _ => n
    let epsilon : Out V := .ok ⟨[length, 3, 3], fun _ => Arith.num 0⟩
    let epsilon := assign [.all, .at 0, .at 0] epsilon (x.eval lbda)
    let epsilon := assign [.all, .at 1, .at 1] epsilon (y.eval lbda)
    let epsilon := assign [.all, .at 2, .at 2] epsilon (z.eval lbda)
    match rotation with
    | none => epsilon
    | some r => matmul (matmul (ofMat r) epsilon) (transpose2 (ofMat r))
  | .mixture k h g f, lbda => emaArr k (h.getTensor lbda) (g.getTensor lbda) f

/-- `isinstance(material, IsotropicMaterial)`. -/
def Mat.isIsotropicClass : Mat V → Bool
  | .single .isotropic _ _ _ _ => true
  | _ => false

/-- `get_refractive_index(lbda)`, `materials.py:53-62`. -/
def Mat.refractiveIndex (m : Mat V) (lbda : ND V) : Out V := op1 Arith.sqrt (m.getTensor lbda)

/-! ## Layers -/

/-- Layers, `structure.py:53-392`. For the inhomogeneous ones the list of slices with their thickness and rotation matrix, or fraction. -/
inductive Lay (V : Type)
  | layer (material : Mat V) (thickness : V)
  | twisted (material : Mat V) (slices : List (V × (Fin 3 → Fin 3 → V)))
  | varying (k : EmaKind) (host guest : Mat V) (slices : List (V × V))
  | repeated (layers : List (Lay V)) (repetitions before after : ℕ)

/-- A permittivity profile: thicknesses and arrays of tensors. -/
abbrev ProfileArr (V : Type) := List (V × ND V)

/-- One slice of a profile. -/
def sliceOf (d : V) : Out V → Except PyErr (V × ND V)
  | .error e => .error e
  | .ok a => .ok (d, a)

/-- `TwistedLayer.get_tensor`, `structure.py:305-317`, for one slice. -/
def twistedArr (material : Mat V) (lbda : ND V) (s : V × (Fin 3 → Fin 3 → V)) : Except PyErr (V × ND V) :=
  sliceOf s.1 (matmul (matmul (ofMat s.2) (material.getTensor lbda)) (transpose2 (ofMat s.2)))

/-- `VaryingMixtureLayer.get_tensor`, `structure.py:379-392`, for one slice. -/
def varyingArr (k : EmaKind) (host guest : Mat V) (lbda : ND V) (s : V × V) : Except PyErr (V × ND V) :=
  sliceOf s.1 (emaArr k (host.getTensor lbda) (guest.getTensor lbda) s.2)

mutual
/-- `get_permittivity_profile`, `structure.py:124-144, 186-198, 259-272`. -/
def Lay.profile : Lay V → ND V → Except PyErr (ProfileArr V)
  | .layer m d, lbda => match sliceOf d (m.getTensor lbda) with
    | .error e => .error e
    | .ok s => .ok [s]
  | .twisted m slices, lbda => traverseList (twistedArr m lbda) slices
  | .varying k h g slices, lbda => traverseList (varyingArr k h g lbda) slices
  | .repeated ls n b a, lbda => match layProfile ls lbda with
    | .error e => .error e
    | .ok p => .ok (repeatedSlices p n b a)

/-- `for layer in self.layers: layers += layer.get_permittivity_profile(lbda)`, `structure.py:132-134` and `476-477`. -/
def layProfile : List (Lay V) → ND V → Except PyErr (ProfileArr V)
  | [], _ => .ok []
  | l :: ls, lbda => match l.profile lbda with
    | .error e => .error e
    | .ok p => match layProfile ls lbda with
      | .error e => .error e
      | .ok q => .ok (p ++ q)
end

/-- `Structure`, `structure.py:399-424`. -/
structure StructArr (V : Type) where
  front : Mat V
  layers : List (Lay V)
  back : Mat V

/-- What `Solver.__init__` (`solver.py:29-35`) takes from an experiment: the arrays of the permittivity profile
(`structure.py:468-486`), split into front, layers and back. -/
structure Setup (V : Type) where
  front : ND V
  layers : ProfileArr V
  back : ND V

/-- `Structure.get_permittivity_profile(lbda)`, `structure.py:468-486`. -/
def StructArr.setup (s : StructArr V) (lbda : ND V) : Except PyErr (Setup V) :=
  match s.front.getTensor lbda with
  | .error e => .error e
  | .ok f => match layProfile s.layers lbda with
    | .error e => .error e
    | .ok p => match s.back.getTensor lbda with
      | .error e => .error e
      | .ok b => .ok ⟨f, p, b⟩

/-- The attributes of a `Result` set by the solvers, `result.py:344-368`: the Jones matrices and the power correction. -/
structure ResArr (V : Type) where
  jr : ND V
  jt : ND V
  power : ND V

/-- `Result(experiment, jones_matrix_r, jones_matrix_t, power_correction)`. -/
def mkRes (jr jt power : Out V) : Except PyErr (ResArr V) :=
  match jr, jt, power with
  | .ok a, .ok b, .ok c => .ok ⟨a, b, c⟩
  | .error e, _, _ => .error e
  | .ok _, .error e, _ => .error e
  | .ok _, .ok _, .error e => .error e

/-! ## `Solver4x4` -/

/-- The length of the first axis, 1 for a number. -/
def lengthOf (a : Out V) : ℕ :=
  match a with
  | .ok ⟨n :: _, _⟩ => n
  | _ => 1

/-- `Solver4x4.build_delta_matrix`, `solver4x4.py:159-202`. -/
def buildDeltaArr (k_x eps : Out V) : Out V :=
  let zeros : Out V := tile 0 (lengthOf k_x)
  let ones : Out V := tile 1 (lengthOf k_x)
  let e := fun i j => index [.all, .at i, .at j] eps
  let delta :=
    stack (stack (-k_x * e 2 0 / e 2 2) [-k_x * e 2 1 / e 2 2, zeros, ones - sq k_x / e 2 2])
      [stack zeros [zeros, -ones, zeros],
       stack (e 1 2 * e 2 0 / e 2 2 - e 1 0) [sq k_x - e 1 1 + e 1 2 * e 2 1 / e 2 2, zeros, k_x * e 1 2 / e 2 2],
       stack (e 0 0 - e 0 2 * e 2 0 / e 2 2) [e 0 1 - e 0 2 * e 2 1 / e 2 2, zeros, -k_x * e 0 2 / e 2 2]]
  moveaxis 2 0 delta

/-- The comparison of `np.lexsort((a, b))`: the last key comes first. -/
def lexKey (x y : V × V) : Bool := Arith.lt x.2 y.2 || (Arith.eq x.2 y.2 && Arith.le x.1 y.1)

/-- `np.lexsort((-np.real(q), -np.imag(q)))`, `solver4x4.py:139, 222`. -/
def lexsortArr (q : Out V) : Out ℕ := argsort lexKey (op2 Prod.mk (-(op1 Arith.real q)) (-(op1 Arith.imag q)))

/-- `i[:, [1, 2]] = i[:, [2, 1]]`, `solver4x4.py:234`. -/
def swapCols : Out ℕ → Out ℕ
  | .error e => .error e
  | .ok i => .ok ⟨i.shape, fun idx => match idx with
    | [r, 1] => i.val [r, 2]
    | [r, 2] => i.val [r, 1]
    | idx => i.val idx⟩

/-- The sorting of the eigenvectors by the eigenvalues, `solver4x4.py:222-224`. -/
def sortModesArr (q p : Out V) : Out V := takeAlong p (index [.all, .new, .all] (lexsortArr q))

/-- The sorting of each pair of eigenvectors by the y component, `solver4x4.py:226-237`. -/
def pairModesArr (p : Out V) : Out V :=
  let i1 := argsort Arith.le (-(op1 Arith.abs (index [.all, .at 1, .slice none (some 2) 1] p)))
  let i2 := op1 (fun n => 2 + n) (argsort Arith.le (-(op1 Arith.abs (index [.all, .at 1, .slice (some 2) none 1] p))))
  let i := swapCols (hstack i1 i2)
  takeAlong p (index [.all, .new, .all] i)

/-- The phases of the components, `solver4x4.py:239-252`. -/
def phasesArr (e : Out V) : Out V :=
  let ne := op1 Arith.abs e
  let c := op1 (fun _ => Arith.num 1) e
  let i := nonzero (op1 (fun x => !Arith.eq x (Arith.num 0)) ne)
  scatter c i (gather e i / gather ne i)

/-- The normalisation of the eigenvectors, `solver4x4.py:239-259`. -/
def normModesArr (p : Out V) : Out V :=
  let e := hstack (index [.all, .at 1, .slice none (some 2) 1] p) (index [.all, .at 0, .slice (some 2) none 1] p)
  let p := p * index [.all, .new, .all] (phasesArr e)
  let c := index [.all, .at 1, .at 0] p + index [.all, .at 1, .at 1] p
  lit 2 * p / index [.all, .new, .new] c

/-- `Solver4x4.transition_matrix_halfspace`, `solver4x4.py:205-259`; `q` is not used after the sorting. -/
def halfspaceArr (delta : Out V) : Out V :=
  match linEig 4 delta with
  | .error e => .error e
  | .ok (q, p) => normModesArr (pairModesArr (sortModesArr (.ok q) (.ok p)))

/-- `Solver4x4.transition_matrix_iso_halfspace`, `solver4x4.py:262-304`. -/
def isoHalfArr (k_x epsilon : Out V) (inv : Bool) : Out V :=
  let n_x := op1 Arith.sqrt (index [.all, .at 0, .at 0] epsilon)
  let sin_phi := k_x / n_x
  let cos_phi := op1 Arith.sqrt (lit 1 - sq sin_phi)
  let zeros : Out V := tile 0 (lengthOf k_x)
  let ones : Out V := tile 1 (lengthOf k_x)
  if inv then
    moveaxis 2 0 (lit (1 / 2) *
      stack (stack zeros [ones, -ones / cos_phi / n_x, zeros])
        [stack zeros [ones, ones / cos_phi / n_x, zeros],
         stack (ones / cos_phi) [zeros, zeros, ones / n_x],
         stack (-ones / cos_phi) [zeros, zeros, ones / n_x]])
  else
    moveaxis 2 0
      (stack (stack zeros [zeros, cos_phi, -cos_phi])
        [stack ones [ones, zeros, zeros],
         stack (-n_x * cos_phi) [n_x * cos_phi, zeros, zeros],
         stack zeros [zeros, n_x, n_x]])

/-- The three propagators. -/
inductive PropKind
  | linear | expm | eig

/-- `np.einsum("nij,n->nij", delta, 2 * sc.pi / lbda)`, `solver4x4.py:59-61, 113`. -/
def scaledDelta (delta lbda : Out V) : Out V :=
  einsum "nij" delta [("n", scalar (Arith.num 2 ⊗ Arith.pi) / lbda)] "nij"

/-- `calculate_propagation` of the three propagators, `solver4x4.py:46-62, 100-117, 123-152`. -/
def propagateArr : PropKind → Out V → V → ND V → Out V
  | .linear, delta, thickness, lbda =>
    ofMat (fun i j : Fin 4 => if i = j then Arith.num 1 else Arith.num 0) +
      scalar (Arith.I ⊗ thickness) * scaledDelta delta (.ok lbda)
  | .expm, delta, thickness, lbda => linExpm 4 (scalar (Arith.I ⊗ thickness) * scaledDelta delta (.ok lbda))
  | .eig, delta, thickness, lbda =>
    match linEig 4 delta with
    | .error e => .error e
    | .ok (q, w) =>
      let i := lexsortArr (.ok q)
      let q := takeAlong (.ok q) i
      let w := takeAlong (.ok w) (index [.all, .new, .all] i)
      let w_i := linInv 4 w
      let q := op1 Arith.exp (q * scalar (Arith.num 2 ⊗ Arith.I) * scalar thickness * scalar Arith.pi / index [.all, .new] (.ok lbda))
      let p : Out V := .ok ⟨[lbda.shape.headD 0, 4, 4], fun _ => Arith.num 0⟩
      let p := assign [.all, .at 0, .at 0] p (index [.all, .at 0] q)
      let p := assign [.all, .at 1, .at 1] p (index [.all, .at 1] q)
      let p := assign [.all, .at 2, .at 2] p (index [.all, .at 2] q)
      let p := assign [.all, .at 3, .at 3] p (index [.all, .at 3] q)
      matmul (matmul w p) w_i

/-- `k_x`, `solver4x4.py:337-338`. -/
def kxArr (front : Mat V) (lbda : ND V) (theta : V) : Out V :=
  index [.all, .at 0, .at 0] (front.refractiveIndex lbda) * scalar (Arith.sin (Arith.deg2rad theta))

/-- `get_k_z`, `solver4x4.py:307-322`. -/
def kzArr (m : Mat V) (lbda : ND V) (k_x : Out V) : Out V :=
  op1 Arith.sqrt (sq (index [.all, .at 0, .at 0] (m.refractiveIndex lbda)) - sq k_x)

/-- The loop over the reversed layers, `solver4x4.py:340, 354-358`. -/
def loop4Arr (prop : PropKind) (k_x : Out V) (lbda : ND V) (layers : ProfileArr V) (m_t : Out V) : Out V :=
  layers.reverse.foldl (fun m_t l => matmul (propagateArr prop (buildDeltaArr k_x (.ok l.2)) (∼l.1) lbda) m_t) m_t

/-- `Solver4x4.calculate`, `solver4x4.py:330-392`, with `Solver.__init__`. -/
def calculate4Arr (prop : PropKind) (s : StructArr V) (theta : V) (lbda : ND V) : Except PyErr (ResArr V) :=
  match s.setup lbda with
  | .error e => .error e
  | .ok st =>
    let k_x := kxArr s.front lbda theta
    let m_t := if s.back.isIsotropicClass then isoHalfArr k_x (.ok st.back) false
      else halfspaceArr (buildDeltaArr k_x (.ok st.back))
    let m_t := loop4Arr prop k_x lbda st.layers m_t
    let m_lf := isoHalfArr k_x (.ok st.front) true
    let m_t := matmul m_lf m_t
    let t_it := index [.all, .slice (some 2) none (-2), .slice (some 2) none (-2)] m_t
    let t_ti := linInv 2 t_it
    let t_rt := index [.all, .slice (some 3) none (-2), .slice (some 2) none (-2)] m_t
    let t_ri := matmul t_rt t_ti
    let power := if s.back.isIsotropicClass then
        op1 Arith.real (kzArr s.back lbda k_x) / op1 Arith.real (kzArr s.front lbda k_x)
      else .ok ⟨lbda.shape, fun _ => Arith.num 1⟩
    mkRes t_ri t_ti power

/-! ## `Solver2x2` -/

/-- `Solver2x2.is_forward_angle`, `solver2x2.py:143-147`; `1e-10`. -/
def isForwardArr (n theta : Out V) : Out Bool :=
  let ncostheta := n * op1 Arith.cos theta
  whereOp (op1 (fun x => Arith.lt (Arith.num (1 / 10 ^ 10)) (Arith.abs x)) (op1 Arith.imag ncostheta))
    (op1 (fun x => Arith.lt (Arith.num 0) x) (op1 Arith.imag ncostheta)) (op1 (fun x => Arith.lt (Arith.num 0) x) (op1 Arith.real ncostheta))

/-- The number of the last row, written `-1`. -/
def lastRow (a : Out V) : ℕ := lengthOf a - 1

/-- One of the corrections `solver2x2.py:22-31`. -/
def fixRow (i : ℕ) (n_list angles : Out V) : Out V :=
  assign [.at i] angles (whereOp (op1 (fun b => !b) (isForwardArr (index [.at i] n_list) (index [.at i] angles)))
    (scalar Arith.pi - index [.at i] angles) (index [.at i] angles))

/-- `Solver2x2.list_snell`, `solver2x2.py:19-33`. -/
def listSnellArr (theta : V) (n_list : Out V) : Out V :=
  let angles := op1 Arith.arcsin (index [.at 0] n_list * scalar (Arith.sin (Arith.deg2rad theta)) / n_list)
  let angles := fixRow 0 n_list angles
  fixRow (lastRow angles) n_list angles

/-- `Solver2x2.fresnel`, `solver2x2.py:117-140`. -/
def fresnelArr (n_i n_t th_i th_t : Out V) : Out V × Out V × Out V × Out V :=
  let cos_i := op1 Arith.cos th_i
  let cos_t := op1 Arith.cos th_t
  ((n_i * cos_i - n_t * cos_t) / (n_i * cos_i + n_t * cos_t), (n_t * cos_i - n_i * cos_t) / (n_t * cos_i + n_i * cos_t),
    lit 2 * n_i * cos_i / (n_i * cos_i + n_t * cos_t), lit 2 * n_i * cos_i / (n_t * cos_i + n_i * cos_t))

/-- `n_list`, `solver2x2.py:37-58`. -/
def nListArr (st : Setup V) : Out V :=
  let f := index [.all, .at 0, .at 0] (.ok st.front)
  let b := index [.all, .at 0, .at 0] (.ok st.back)
  match st.layers with
  | [] => op1 Arith.sqrt (concat0 (atleast2 f) (atleast2 b))
  | l :: ls =>
    let eps := stack (.ok l.2) (ls.map fun p => .ok p.2)
    op1 Arith.sqrt (concat0 (concat0 (atleast2 f) (atleast2 (index [.all, .all, .at 0, .at 0] eps))) (atleast2 b))

/-- `n_list.shape[1]`, `solver2x2.py:79, 104`. -/
def pointsOf (n_list : Out V) : ℕ :=
  match n_list with
  | .ok ⟨[_, n], _⟩ => n
  | _ => 1

/-- `np.array([[a, b], [c, d]])` of vectors. -/
def array2 (a b c d : Out V) : Out V := stack (stack a [b]) [stack c [d]]

/-- One step of the loop `solver2x2.py:85-97`. -/
def step2Arr (n_list th_list delta : Out V) (m : Out V × Out V) (i : ℕ) : Out V × Out V :=
  let f := fresnelArr (index [.at i] n_list) (index [.at (i + 1)] n_list) (index [.at i] th_list) (index [.at (i + 1)] th_list)
  let em := op1 Arith.exp (scalar (∼Arith.I) * index [.at (i - 1)] delta)
  let ep := op1 Arith.exp (scalar Arith.I * index [.at (i - 1)] delta)
  (einsum "ijz" m.1 [("jkz", array2 em (f.1 * em) (f.1 * ep) ep / f.2.2.1)] "ikz",
    einsum "ijz" m.2 [("jkz", array2 em (f.2.1 * em) (f.2.1 * ep) ep / f.2.2.2)] "ikz")

/-- `Solver2x2.calculate`, `solver2x2.py:35-114`, with `Solver.__init__`. The ellipsis of the `einsum` is the axis `z`. -/
def calculate2Arr (s : StructArr V) (theta : V) (lbda : ND V) : Except PyErr (ResArr V) :=
  match s.setup lbda with
  | .error e => .error e
  | .ok st =>
    let d_list : Out V := .ok ⟨[st.layers.length], fun idx => (st.layers.map Prod.fst).getD (idx.headD 0) Arith.nan⟩
    let n_list := nListArr st
    let num_layers := lengthOf n_list
    let th_list := listSnellArr theta n_list
    let kz_list := scalar (Arith.num 2 ⊗ Arith.pi) * n_list * op1 Arith.cos th_list / .ok lbda
    let delta := index [.slice (some 1) (some (-1)) 1] kz_list * index [.all, .new] d_list
    let points := pointsOf n_list
    let ones : Out V := tile 1 points
    let f := fresnelArr (index [.at 0] n_list) (index [.at 1] n_list) (index [.at 0] th_list) (index [.at 1] th_list)
    let ms := array2 ones f.1 f.1 ones / f.2.2.1
    let mp := array2 ones f.2.1 f.2.1 ones / f.2.2.2
    let m := (List.range' 1 (num_layers - 2)).foldl (step2Arr n_list th_list delta) (ms, mp)
    let rtots := index [.at 1, .at 0] m.1 / index [.at 0, .at 0] m.1
    let ttots := lit 1 / index [.at 0, .at 0] m.1
    let rtotp := index [.at 1, .at 0] m.2 / index [.at 0, .at 0] m.2
    let ttotp := lit 1 / index [.at 0, .at 0] m.2
    let zeros : Out V := tile 0 points
    let jr := moveaxis 2 0 (array2 rtotp zeros zeros rtots)
    let jt := moveaxis 2 0 (array2 ttotp zeros zeros ttots)
    let power := op1 Arith.real (index [.at (lastRow n_list)] n_list * op1 Arith.cos (index [.at (lastRow n_list)] th_list)) /
      op1 Arith.real (index [.at 0] n_list * op1 Arith.cos (index [.at 0] th_list))
    mkRes jr jt power

end PyElli.Nd
