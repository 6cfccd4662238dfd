import Verif.Model.Base
import Mathlib.Data.List.Basic
import Mathlib.Data.Fin.VecNotation

/-! # Arrays of numpy

The operations of numpy used by `/repo/src/elli/materials.py`, `solver2x2.py`, `solver4x4.py` and `result.py` on whole arrays (library
behaviour, numpy's documentation: broadcasting, basic indexing, `moveaxis`, `matmul`, `einsum`, `take_along_axis`, `linalg`). An array is its
shape and its entries; entries at positions outside the shape have no meaning. Numbers are an arbitrary type `V` with arbitrary operations
(`Arith`), so that nothing depends on exact arithmetic: floating point numbers with their rounding, NaN and infinities are included.
Data types are left out: in these modules all arrays of numbers become `complex128` where it matters. Functions of numpy work on every
entry (every matrix, for linear algebra) separately; they are given by what they do to one entry. An array that could not be
computed is the exception raised, and every operation hands it on. -/

namespace PyElli.Nd

open PyElli

/-- An array. -/
structure ND (α : Type) where
  shape : List ℕ
  val : List ℕ → α

/-- An expression of Python with an array as its value: the array, or the exception raised. -/
abbrev Out (α : Type) := Except PyErr (ND α)

variable {α β γ : Type}

/-! ## Broadcasting -/

/-- Broadcasting of two shapes given from the last axis on. -/
def bcastRev : List ℕ → List ℕ → Option (List ℕ)
  | [], b => some b
  | x :: a, [] => some (x :: a)
  | x :: a, y :: b =>
    if x = y then (bcastRev a b).map (x :: ·)
    else if x = 1 then (bcastRev a b).map (y :: ·)
    else if y = 1 then (bcastRev a b).map (x :: ·)
    else none

/-- The shape of the result of an operation on two arrays; `none` where numpy raises `ValueError`. -/
def bcast (a b : List ℕ) : Option (List ℕ) := (bcastRev a.reverse b.reverse).map List.reverse

/-- The position in an array of shape `shape` that is used for the position `idx` of the result. -/
def project (shape idx : List ℕ) : List ℕ :=
  List.zipWith (fun n i => if n = 1 then 0 else i) shape (idx.drop (idx.length - shape.length))

/-- A number as array without axes. -/
def scalar (v : α) : Out α := .ok ⟨[], fun _ => v⟩

/-- A function applied to every entry. -/
def op1 (f : α → β) : Out α → Out β
  | .error e => .error e
  | .ok a => .ok ⟨a.shape, fun idx => f (a.val idx)⟩

/-- An operation on two arrays, with broadcasting. -/
def op2 (f : α → β → γ) : Out α → Out β → Out γ
  | .error e, _ => .error e
  | .ok _, .error e => .error e
  | .ok a, .ok b => match bcast a.shape b.shape with
    | none => .error .valueError
    | some s => .ok ⟨s, fun idx => f (a.val (project a.shape idx)) (b.val (project b.shape idx))⟩

/-! ## Indexing -/

/-- The positions of the slice `start:stop:step` on an axis of length `n`. -/
def pySlice (start stop : Option ℤ) (step : ℤ) (n : ℕ) : List ℕ :=
  let fix := fun (i : ℤ) => if i < 0 then i + n else i
  if 0 < step then
    let lo : ℤ := match start with | none => (0 : ℤ) | some i => max (0 : ℤ) (fix i)
    let hi : ℤ := match stop with | none => (n : ℤ) | some i => fix i
    (List.range n).filter fun i => decide (lo ≤ (i : ℤ) ∧ (i : ℤ) < hi ∧ ((i : ℤ) - lo) % step = 0)
  else
    let lo : ℤ := match start with | none => (n : ℤ) - 1 | some i => min ((n : ℤ) - 1) (fix i)
    let hi : ℤ := match stop with | none => (-1 : ℤ) | some i => fix i
    (List.range n).reverse.filter fun i => decide ((i : ℤ) ≤ lo ∧ hi < (i : ℤ) ∧ (lo - (i : ℤ)) % step = 0)

/-- What stands for one axis between the brackets: a number, `:`, `None`/`np.newaxis`, or a slice. -/
inductive Ix
  | at (i : ℕ)
  | all
  | new
  | slice (start stop : Option ℤ) (step : ℤ)

/-- The shape of `a[ix]`; `none` where numpy raises `IndexError`. -/
def shapeIx : List Ix → List ℕ → Option (List ℕ)
  | [], s => some s
  | .new :: r, s => (shapeIx r s).map (1 :: ·)
  | .all :: r, n :: s => (shapeIx r s).map (n :: ·)
  | .at i :: r, n :: s => if i < n then shapeIx r s else none
  | .slice a b c :: r, n :: s => (shapeIx r s).map ((pySlice a b c n).length :: ·)
  | _ :: _, [] => none

/-- The position in `a` of the position `idx` of `a[ix]`. -/
def pullIx : List Ix → List ℕ → List ℕ → List ℕ
  | [], _, idx => idx
  | .new :: r, s, idx => pullIx r s idx.tail
  | .all :: r, s, idx => idx.headD 0 :: pullIx r s.tail idx.tail
  | .at i :: r, s, idx => i :: pullIx r s.tail idx
  | .slice a b c :: r, s, idx => (pySlice a b c (s.headD 0)).getD (idx.headD 0) 0 :: pullIx r s.tail idx.tail

/-- `a[ix]`. -/
def index (ix : List Ix) : Out α → Out α
  | .error e => .error e
  | .ok a => match shapeIx ix a.shape with
    | none => .error .indexError
    | some s => .ok ⟨s, fun idx => a.val (pullIx ix a.shape idx)⟩

/-- The position in `a[ix]` of the position `idx` of `a`, if it is selected; for numbers and `:` only. -/
def pushIx : List Ix → List ℕ → Option (List ℕ)
  | [], idx => some idx
  | .all :: r, i :: idx => (pushIx r idx).map (i :: ·)
  | .at k :: r, i :: idx => if i = k then pushIx r idx else none
  | _ :: _, _ => none

/-- `a[ix] = b`, for numbers and `:` only: the array afterwards. -/
def assign (ix : List Ix) : Out α → Out α → Out α
  | .error e, _ => .error e
  | .ok _, .error e => .error e
  | .ok a, .ok b => match shapeIx ix a.shape with
    | none => .error .indexError
    | some s =>
      if bcast b.shape s = some s then
        .ok ⟨a.shape, fun idx => match pushIx ix idx with
          | some sub => b.val (project b.shape sub)
          | none => a.val idx⟩
      else .error .valueError

/-! ## Making and rearranging arrays -/

/-- The positions of an array in the order of its memory. -/
def allIdx : List ℕ → List (List ℕ)
  | [] => [[]]
  | n :: s => (List.range n).flatMap fun i => (allIdx s).map (i :: ·)

/-- The arrays of a list of expressions, evaluated from left to right. -/
def sequence : List (Out α) → Except PyErr (List (ND α))
  | [] => .ok []
  | .error e :: _ => .error e
  | .ok a :: r => match sequence r with
    | .error e => .error e
    | .ok l => .ok (a :: l)

/-- `np.array([a, …])` of arrays: they become the entries along a new first axis; other shapes than the first are refused. -/
def stack (x : Out α) (xs : List (Out α)) : Out α :=
  match x with
  | .error e => .error e
  | .ok a => match sequence xs with
    | .error e => .error e
    | .ok l =>
      if ∀ b ∈ l, b.shape = a.shape then
        .ok ⟨(l.length + 1) :: a.shape, fun idx => ((a :: l).getD (idx.headD 0) a).val idx.tail⟩
      else .error .valueError

/-- `np.hstack` of two arrays with at least two axes: one behind the other along axis 1. -/
def hstack : Out α → Out α → Out α
  | .error e, _ => .error e
  | .ok _, .error e => .error e
  | .ok a, .ok b => match a.shape, b.shape with
    | n :: p :: s, m :: q :: t =>
      if n = m ∧ s = t then .ok ⟨n :: (p + q) :: s, fun idx =>
        if idx.tail.headD 0 < p then a.val idx
        else b.val (idx.headD 0 :: (idx.tail.headD 0 - p) :: idx.tail.tail)⟩
      else .error .valueError
    | _, _ => .error .valueError

/-- `np.atleast_2d` of a vector or a matrix. -/
def atleast2 : Out α → Out α
  | .error e => .error e
  | .ok a => match a.shape with
    | [n] => .ok ⟨[1, n], fun idx => a.val idx.tail⟩
    | [_, _] => .ok a
    | _ => .error .valueError

/-- `np.concatenate((a, b))`: one behind the other along the first axis. -/
def concat0 : Out α → Out α → Out α
  | .error e, _ => .error e
  | .ok _, .error e => .error e
  | .ok a, .ok b => match a.shape, b.shape with
    | n :: s, m :: t =>
      if s = t then .ok ⟨(n + m) :: s, fun idx =>
        if idx.headD 0 < n then a.val idx else b.val ((idx.headD 0 - n) :: idx.tail)⟩
      else .error .valueError
    | _, _ => .error .valueError

/-- `np.moveaxis(a, src, dst)`. -/
def moveaxis (src dst : ℕ) : Out α → Out α
  | .error e => .error e
  | .ok a =>
    let order := ((List.range a.shape.length).filter (· ≠ src)).insertIdx dst src
    if src < a.shape.length ∧ dst < a.shape.length then
      .ok ⟨order.map fun p => a.shape.getD p 0, fun idx =>
        (List.range a.shape.length).map (fun p => idx.getD (order.idxOf p) 0) |> a.val⟩
    else .error .axisError

/-- The number of a position in the order of the memory. -/
def ravel : List ℕ → List ℕ → ℕ
  | n :: s, i :: idx => (i % n) * s.prod + ravel s idx
  | _, _ => 0

/-- `a.reshape(shape)`. -/
def reshape (shape : List ℕ) : Out α → Out α
  | .error e => .error e
  | .ok a =>
    if a.shape.prod = shape.prod then
      .ok ⟨shape, fun idx => a.val ((allIdx a.shape).getD (ravel shape idx) [])⟩
    else .error .valueError

/-! ## Selecting with masks -/

/-- `np.nonzero(mask)`: the positions selected. -/
def nonzero : Out Bool → Except PyErr (List (List ℕ))
  | .error e => .error e
  | .ok m => .ok ((allIdx m.shape).filter fun idx => m.val idx)

/-- `a[mask]`: the entries selected, one after the other. -/
def gather (a : Out α) (mask : Except PyErr (List (List ℕ))) : Out α :=
  match a, mask with
  | .error e, _ => .error e
  | .ok _, .error e => .error e
  | .ok a, .ok ps => .ok ⟨[ps.length], fun idx => a.val (ps.getD (idx.headD 0) [])⟩

/-- `a[mask] = b` for one value per position selected: the array afterwards. -/
def scatter (a : Out α) (mask : Except PyErr (List (List ℕ))) (b : Out α) : Out α :=
  match a, mask, b with
  | .error e, _, _ => .error e
  | .ok _, .error e, _ => .error e
  | .ok _, .ok _, .error e => .error e
  | .ok a, .ok ps, .ok b =>
    if b.shape = [ps.length] then
      .ok ⟨a.shape, fun idx => if idx ∈ ps then b.val [ps.idxOf idx] else a.val idx⟩
    else .error .valueError

/-! ## Sorting -/

/-- The positions `0, …, n - 1` sorted by a comparison of the entries of a row; equal ones stay in order (numpy sorts rows of up to 16
entries by insertion). -/
def rowOrder (le : α → α → Bool) (n : ℕ) (row : ℕ → α) : List ℕ := (List.range n).mergeSort fun a b => le (row a) (row b)

/-- `np.argsort(a)` along the last axis, for a comparison of entries. -/
def argsort (le : α → α → Bool) : Out α → Out ℕ
  | .error e => .error e
  | .ok a => match a.shape.getLast? with
    | none => .error .axisError
    | some n => .ok ⟨a.shape, fun idx =>
      (rowOrder le n fun j => a.val (idx.dropLast ++ [j])).getD (idx.getLastD 0) 0⟩

/-- `np.take_along_axis(a, i, axis=-1)`: the other axes are broadcast. -/
def takeAlong (a : Out α) (i : Out ℕ) : Out α :=
  match a, i with
  | .error e, _ => .error e
  | .ok _, .error e => .error e
  | .ok a, .ok i =>
    match a.shape.reverse, i.shape.reverse with
    | _ :: ra, m :: ri => match bcastRev ra ri with
      | none => .error .valueError
      | some r => .ok ⟨(m :: r).reverse, fun idx =>
        a.val (project ra.reverse idx.dropLast ++ [i.val (project ri.reverse idx.dropLast ++ [idx.getLastD 0])])⟩
    | _, _ => .error .axisError

/-! ## Arithmetic -/

/-- Numbers and the functions of numpy and scipy on single numbers and single matrices. -/
class Arith (V : Type) where
  num : ℚ → V
  I : V
  pi : V
  add : V → V → V
  sub : V → V → V
  mul : V → V → V
  div : V → V → V
  neg : V → V
  pow : V → V → V
  sqrt : V → V
  sin : V → V
  cos : V → V
  arcsin : V → V
  arctan : V → V
  exp : V → V
  deg2rad : V → V
  rad2deg : V → V
  abs : V → V
  real : V → V
  imag : V → V
  conj : V → V
  angleDeg : V → V
  mod : V → V → V
  /-- the number with the same real part as the first and the second as imaginary part (`rho.imag = …`) -/
  setImag : V → V → V
  lt : V → V → Bool
  le : V → V → Bool
  eq : V → V → Bool
  /-- NaN, `np.nan` -/
  nan : V
  /-- sum of several products in matrix products; the order is the library's -/
  sum : List V → V
  /-- `np.linalg.inv`; raises for a singular matrix -/
  inv : (n : ℕ) → (Fin n → Fin n → V) → Except PyErr (Fin n → Fin n → V)
  /-- `np.linalg.eig`: eigenvalues and eigenvectors -/
  eig : (n : ℕ) → (Fin n → Fin n → V) → Except PyErr ((Fin n → V) × (Fin n → Fin n → V))
  /-- the matrix exponential -/
  expm : (n : ℕ) → (Fin n → Fin n → V) → Fin n → Fin n → V

variable {V : Type} [Arith V]

scoped infixl:65 " ⊞ " => Arith.add
scoped infixl:65 " ⊖ " => Arith.sub
scoped infixl:70 " ⊗ " => Arith.mul
scoped infixl:70 " ⊘ " => Arith.div
scoped prefix:75 "∼" => Arith.neg

instance : Add (Out V) := ⟨op2 Arith.add⟩
instance : Sub (Out V) := ⟨op2 Arith.sub⟩
instance : Mul (Out V) := ⟨op2 Arith.mul⟩
instance : Div (Out V) := ⟨op2 Arith.div⟩
instance : Neg (Out V) := ⟨op1 Arith.neg⟩

/-- A literal number. -/
def lit (q : ℚ) : Out V := scalar (Arith.num q)

/-- `a ** 2`. -/
def sq (a : Out V) : Out V := op2 Arith.pow a (lit 2)

/-- `np.tile(q, length)` and `np.repeat(q, length)` of a number. -/
def tile (q : ℚ) (length : ℕ) : Out V := .ok ⟨[length], fun _ => Arith.num q⟩

/-- `a @ b` for arrays with at least two axes. -/
def matmul : Out V → Out V → Out V
  | .error e, _ => .error e
  | .ok _, .error e => .error e
  | .ok a, .ok b =>
    match a.shape.reverse, b.shape.reverse with
    | p :: m :: ra, n :: q :: rb =>
      if p = q then match bcastRev ra rb with
        | none => .error .valueError
        | some r => .ok ⟨(n :: m :: r).reverse, fun idx =>
          Arith.sum ((List.range p).map fun t =>
            a.val (project ra.reverse idx.dropLast.dropLast ++ [idx.dropLast.getLastD 0, t]) ⊗
              b.val (project rb.reverse idx.dropLast.dropLast ++ [t, idx.getLastD 0]))⟩
      else .error .valueError
    | _, _ => .error .valueError

/-- `a.T` of a matrix. -/
def transpose2 : Out α → Out α
  | .error e => .error e
  | .ok a => match a.shape with
    | [m, n] => .ok ⟨[n, m], fun idx => a.val idx.reverse⟩
    | _ => .error .axisError

/-- The lengths belonging to the letters of an `einsum`; `none` where they contradict each other. -/
def einDims : List (Char × ℕ) → Option (List (Char × ℕ))
  | [] => some []
  | (c, n) :: r => match einDims r with
    | none => none
    | some d => match d.lookup c with
      | none => some ((c, n) :: d)
      | some m => if n = m then some d else none

/-- All assignments of positions to letters. -/
def einEnvs (dims : List (Char × ℕ)) : List Char → List (List (Char × ℕ))
  | [] => [[]]
  | c :: r => (List.range ((dims.lookup c).getD 0)).flatMap fun i => (einEnvs dims r).map ((c, i) :: ·)

/-- The position of an operand for an assignment. -/
def einIdx (env : List (Char × ℕ)) (labels : List Char) : List ℕ := labels.map fun c => (env.lookup c).getD 0

/-- The product of the operands for an assignment, from left to right. -/
def einProd (env : List (Char × ℕ)) : V → List (List Char × ND V) → V
  | acc, [] => acc
  | acc, (l, a) :: r => einProd env (acc ⊗ a.val (einIdx env l)) r

/-- `np.einsum("…,…->…", a, …)` without ellipsis. -/
def einsum (la : String) (a : Out V) (rest : List (String × Out V)) (out : String) : Out V :=
  match a with
  | .error e => .error e
  | .ok a => match sequence (rest.map Prod.snd) with
    | .error e => .error e
    | .ok l =>
      let ops := (rest.map fun p => p.1.toList).zip l
      if la.toList.length = a.shape.length ∧ ∀ p ∈ ops, p.1.length = p.2.shape.length then
        match einDims (la.toList.zip a.shape ++ ops.flatMap fun p => p.1.zip p.2.shape) with
        | none => .error .valueError
        | some dims =>
          let summed := (dims.map Prod.fst).filter fun c => !out.toList.contains c
          .ok ⟨out.toList.map fun c => (dims.lookup c).getD 0, fun idx =>
            let terms := (einEnvs dims summed).map fun env =>
              einProd (out.toList.zip idx ++ env) (a.val (einIdx (out.toList.zip idx ++ env) la.toList)) ops
            match summed with
            | [] => terms.headD (Arith.num 0)
            | _ => Arith.sum terms⟩
      else .error .valueError

/-- `np.dot(a, v)` for an array of matrices and a vector: the last axis of `a` is summed. -/
def dotVec : Out V → Out V → Out V
  | .error e, _ => .error e
  | .ok _, .error e => .error e
  | .ok a, .ok v => match a.shape.reverse, v.shape with
    | n :: r, [m] =>
      if n = m then .ok ⟨r.reverse, fun idx => Arith.sum ((List.range n).map fun t => a.val (idx ++ [t]) ⊗ v.val [t])⟩
      else .error .valueError
    | _, _ => .error .valueError

/-- Read the matrix at the place `pre` of an array. -/
def readMat (a : ND V) (n : ℕ) (pre : List ℕ) : Fin n → Fin n → V := fun i j => a.val (pre ++ [i.val, j.val])

/-- An entry of a matrix at a position that may lie outside. -/
def entry {m n : ℕ} (M : Fin m → Fin n → V) (i j : ℕ) : V :=
  if h : i < m ∧ j < n then M ⟨i, h.1⟩ ⟨j, h.2⟩ else Arith.num 0

/-- An entry of a vector at a position that may lie outside. -/
def entry1 {n : ℕ} (v : Fin n → V) (i : ℕ) : V := if h : i < n then v ⟨i, h⟩ else Arith.num 0

/-- A matrix as array. -/
def ofMat {m n : ℕ} (M : Fin m → Fin n → V) : Out V := .ok ⟨[m, n], fun idx => entry M (idx.headD 0) (idx.tail.headD 0)⟩

/-- Call a function for every item of a list; the exceptions end the call. -/
def traverseList (f : β → Except PyErr γ) : List β → Except PyErr (List γ)
  | [] => .ok []
  | x :: r => match f x with
    | .error e => .error e
    | .ok y => match traverseList f r with
      | .error e => .error e
      | .ok l => .ok (y :: l)

/-- A function of `numpy.linalg` on the matrices of an array of shape `(N, n, n)`; one exception ends the call. -/
def onMats (n : ℕ) (f : (Fin n → Fin n → V) → Except PyErr γ) (a : ND V) : Except PyErr (List γ) :=
  match a.shape with
  | [N, p, q] =>
    if p = n ∧ q = n then traverseList (fun k => f (readMat a n [k])) (List.range N)
    else .error .valueError
  | _ => .error .valueError

/-- `np.linalg.inv(a)` for an array of shape `(N, n, n)`. -/
def linInv (n : ℕ) : Out V → Out V
  | .error e => .error e
  | .ok a => match onMats n (Arith.inv n) a with
    | .error e => .error e
    | .ok l => .ok ⟨a.shape, fun idx => match l[idx.headD 0]? with
      | some M => entry M (idx.tail.headD 0) (idx.tail.tail.headD 0)
      | none => Arith.num 0⟩

/-- `np.linalg.inv(a)` of one matrix. -/
def linInv2 (n : ℕ) (M : Fin n → Fin n → V) : Out V :=
  match Arith.inv n M with
  | .error e => .error e
  | .ok M' => ofMat M'

/-- `np.linalg.eig(a)` for an array of shape `(N, n, n)`: the arrays of eigenvalues and eigenvectors. -/
def linEig (n : ℕ) : Out V → Except PyErr (ND V × ND V)
  | .error e => .error e
  | .ok a => match onMats n (Arith.eig n) a with
    | .error e => .error e
    | .ok l => .ok (⟨[a.shape.headD 0, n], fun idx => match l[idx.headD 0]? with
        | some r => entry1 r.1 (idx.tail.headD 0)
        | none => Arith.num 0⟩,
      ⟨a.shape, fun idx => match l[idx.headD 0]? with
        | some r => entry r.2 (idx.tail.headD 0) (idx.tail.tail.headD 0)
        | none => Arith.num 0⟩)

/-- `expm(a)` for an array of shape `(N, n, n)`. -/
def linExpm (n : ℕ) : Out V → Out V
  | .error e => .error e
  | .ok a => match onMats n (fun M => .ok (Arith.expm n M)) a with
    | .error e => .error e
    | .ok l => .ok ⟨a.shape, fun idx => match l[idx.headD 0]? with
      | some M => entry M (idx.tail.headD 0) (idx.tail.tail.headD 0)
      | none => Arith.num 0⟩

end PyElli.Nd
