import Verif.Model.RoundedSolver

/-!
# `Solver4x4` in computer arithmetic

`solver4x4.py:46-117, 150-200, 270-304, 330-372` with every operation on complex numbers replaced by that of a machine. The numbers `k_x`
(`solver4x4.py:337-338`), `n_x` and `cos_phi` of isotropic half-spaces (`solver4x4.py:275-277`) and the exit matrix of an anisotropic one
(`solver4x4.py:204-258`) are taken as the numbers the code has at that point. Negation, multiplication by `1j` and by zero are exact in IEEE
arithmetic. Overflow and underflow are not modelled here (see `Model/Overflow.lean`).
-/

namespace PyElli

open Complex

/-- The operations of a machine and the library routines that `Solver4x4` calls: sums of products in whatever order `@` takes them, the matrix
exponential of scipy or torch, and `np.linalg.inv` (`none` for `LinAlgError`). -/
structure Machine4 extends Machine where
  dot : (n : ℕ) → (Fin n → ℂ) → (Fin n → ℂ) → ℂ
  expm : Mat4 → Mat4
  inv : Mat2 → Option Mat2

namespace Machine4

variable (m : Machine4)

/-- `A @ B`, `solver4x4.py:355, 360, 371`. -/
def matMul {n : ℕ} (A B : Matrix (Fin n) (Fin n) ℂ) : Matrix (Fin n) (Fin n) ℂ := fun i k => m.dot n (A i) fun j => B j k

/-- `Solver4x4.build_delta_matrix`, `solver4x4.py:150-200`; `k_x**2` is `k_x * k_x`. -/
def buildDelta (kx : ℂ) (eps : Tensor) : Mat4 :=
  !![m.div (m.mul (-kx) (eps 2 0)) (eps 2 2), m.div (m.mul (-kx) (eps 2 1)) (eps 2 2), 0, m.add 1 (-m.div (m.mul kx kx) (eps 2 2));
     0, 0, -1, 0;
     m.add (m.div (m.mul (eps 1 2) (eps 2 0)) (eps 2 2)) (-eps 1 0),
       m.add (m.add (m.mul kx kx) (-eps 1 1)) (m.div (m.mul (eps 1 2) (eps 2 1)) (eps 2 2)), 0, m.div (m.mul kx (eps 1 2)) (eps 2 2);
     m.add (eps 0 0) (-m.div (m.mul (eps 0 2) (eps 2 0)) (eps 2 2)), m.add (eps 0 1) (-m.div (m.mul (eps 0 2) (eps 2 1)) (eps 2 2)), 0,
       m.div (m.mul (-kx) (eps 0 2)) (eps 2 2)]

/-- `1j * thickness * np.einsum("nij,n->nij", delta, 2 * sc.pi / lbda)`, `solver4x4.py:59-61, 113`. -/
def mats (delta : Mat4) (thickness lbda : ℝ) : Mat4 := fun i j => m.mul (I * thickness) (m.mul (delta i j) (m.div m.twoPi lbda))

/-- `PropagatorLinear.calculate_propagation`, `solver4x4.py:46-62`. -/
def propLinear (delta : Mat4) (thickness lbda : ℝ) : Mat4 := fun i j => m.add ((1 : Mat4) i j) (m.mats delta thickness lbda i j)

/-- `PropagatorExpm.calculate_propagation`, `solver4x4.py:100-117`. -/
def propExpm (delta : Mat4) (thickness lbda : ℝ) : Mat4 := m.expm (m.mats delta thickness lbda)

/-- `transition_matrix_iso_halfspace(.., inv=False)`, `solver4x4.py:295-304`, from `n_x` and `cos_phi`. -/
def isoHalf (n c : ℂ) : Mat4 := !![0, 0, c, -c; 1, 1, 0, 0; m.mul (-n) c, m.mul n c, 0, 0; 0, 0, n, n]

/-- `transition_matrix_iso_halfspace(.., inv=True)`, `solver4x4.py:283-293`, from `n_x` and `cos_phi`. -/
noncomputable def isoHalfInv (n c : ℂ) : Mat4 := fun i j => m.mul 0.5
  ((!![0, 1, m.div (m.div (-1) c) n, 0; 0, 1, m.div (m.div 1 c) n, 0; m.div 1 c, 0, 0, m.div 1 n; m.div (-1) c, 0, 0, m.div 1 n] : Mat4) i j)

/-- The exit matrix before the loop, `solver4x4.py:342-349`: from `n_x` and `cos_phi` of an isotropic half-space, or as computed for any other. -/
def exit : (ℂ × ℂ) ⊕ Mat4 → Mat4
  | .inl b => m.isoHalf b.1 b.2
  | .inr L => L

/-- The loop over the reversed layers, `solver4x4.py:340, 351-355`. -/
def loop (prop : Propagator) (kx : ℂ) (lbda : ℝ) : List (ℝ × Tensor) → Mat4 → Mat4
  | [], L => L
  | l :: rest, L => m.matMul (prop (m.buildDelta kx l.2) (-l.1) lbda) (loop prop kx lbda rest L)

/-- `m_t` after line 360 of `solver4x4.py`. -/
noncomputable def transfer (prop : Propagator) (kx : ℂ) (lbda : ℝ) (front : ℂ × ℂ) (layers : List (ℝ × Tensor)) (back : (ℂ × ℂ) ⊕ Mat4) : Mat4 :=
  m.matMul (m.isoHalfInv front.1 front.2) (m.loop prop kx lbda layers (m.exit back))

/-- `jones_matrix_r` and `jones_matrix_t`, `solver4x4.py:362-374`. -/
noncomputable def jones (prop : Propagator) (kx : ℂ) (lbda : ℝ) (front : ℂ × ℂ) (layers : List (ℝ × Tensor)) (back : (ℂ × ℂ) ⊕ Mat4) : Option (Mat2 × Mat2) :=
  let M := m.transfer prop kx lbda front layers back
  (m.inv (tIt M)).map fun X => (m.matMul (tRt M) X, X)

end Machine4

/-- The exact matrix of an isotropic half-space, from `n_x` and `cos_phi`. -/
def isoHalfOf (n c : ℂ) : Mat4 := !![0, 0, c, -c; 1, 1, 0, 0; -n * c, n * c, 0, 0; 0, 0, n, n]

/-- The exact inverse, from `n_x` and `cos_phi`. -/
noncomputable def isoHalfInvOf (n c : ℂ) : Mat4 := (0.5 : ℂ) • !![0, 1, -1 / c / n, 0; 0, 1, 1 / c / n, 0; 1 / c, 0, 0, 1 / n; -1 / c, 0, 0, 1 / n]

/-- The exact exit matrix. -/
def exitOf : (ℂ × ℂ) ⊕ Mat4 → Mat4
  | .inl b => isoHalfOf b.1 b.2
  | .inr L => L

/-- The same in exact arithmetic, as in `calculate4x4`. -/
noncomputable def transferOf (prop : Propagator) (kx : ℂ) (lbda : ℝ) (front : ℂ × ℂ) (layers : List (ℝ × Tensor)) (back : (ℂ × ℂ) ⊕ Mat4) : Mat4 :=
  isoHalfInvOf front.1 front.2 * loop4x4 prop kx lbda layers (exitOf back)

end PyElli
