import Verif.Model.ArraySolver

/-! # Arrays of `result.py`

The properties of `Result` with their numpy operations, over any arithmetic. `Model/Result.lean` has the same quantities for one wavelength
with exact numbers. -/

namespace PyElli.Nd

open PyElli

variable {V : Type} [Arith V]

/-- A vector as array. -/
def ofVec {n : ℕ} (v : Fin n → V) : Out V := .ok ⟨[n], fun idx => entry1 v (idx.headD 0)⟩

/-- The attributes of a `Result`, `result.py:344-368`: the arrays of the solver, `experiment.jones_vector` and the bounds of the delta range. -/
structure ResultArr (V : Type) where
  arr : ResArr V
  jones : Fin 2 → V
  lower : V
  upper : V

/-- `rho_matrix`, `result.py:135-148`, and `rho_matrix_t`, `result.py:151-164`: all entries are divided by the entry ss. -/
def rhoMatrixArr (J : Out V) : Out V := J / index [.all, .new, .new] (index [.all, .at 1, .at 1] J)

/-- `rho.imag = -np.abs(rho.imag)` if the range is (0, 180), `result.py:71-73, 80-82`. -/
def foldRhoArr (r : ResultArr V) (rho : Out V) : Out V :=
  if Arith.eq r.lower (Arith.num 0) && Arith.eq r.upper (Arith.num 180) then
    op2 Arith.setImag rho (-(op1 Arith.abs (op1 Arith.imag rho)))
  else rho

/-- `rho`, `result.py:58-73`, and `rho_t`, `result.py:76-82`, from the Jones matrices. -/
def rhoArr (r : ResultArr V) (J : Out V) : Out V :=
  let rho := dotVec (rhoMatrixArr J) (ofVec r.jones)
  foldRhoArr r (index [.all, .at 0] rho / index [.all, .at 1] rho)

/-- `np.rad2deg(np.arctan(np.abs(rho)))`, `result.py:93, 104, 176, 188`. -/
def psiArr (rho : Out V) : Out V := op1 Arith.rad2deg (op1 Arith.arctan (op1 Arith.abs rho))

/-- `np.mod(-np.angle(rho, deg=True) + lower, 360) + lower`, `result.py:115-118, 129-132, 200-203, 215-220`. -/
def deltaArr (r : ResultArr V) (rho : Out V) : Out V :=
  op2 Arith.mod (-(op1 Arith.angleDeg rho) + scalar r.lower) (lit 360) + scalar r.lower

/-- The constant matrix `a`, `result.py:225`. -/
def muellerConst : Fin 4 → Fin 4 → V :=
  ![![Arith.num 1, Arith.num 0, Arith.num 0, Arith.num 1], ![Arith.num 1, Arith.num 0, Arith.num 0, Arith.num (-1)],
    ![Arith.num 0, Arith.num 1, Arith.num 1, Arith.num 0], ![Arith.num 0, Arith.I, ∼Arith.I, Arith.num 0]]

/-- The number of wavelengths, `self.rho_matrix.shape[0]`. -/
def firstLen : Out V → ℕ
  | .error _ => 0
  | .ok a => a.shape.headD 0

/-- `mueller_matrix`, `result.py:223-235`, from the Jones matrices for reflection. -/
def muellerArr (J : Out V) : Out V :=
  let rho := rhoMatrixArr J
  let kron := reshape [firstLen rho, 4, 4] (einsum "aij" rho [("akl", op1 Arith.conj rho)] "aikjl")
  let m := op1 Arith.real (matmul (matmul (ofMat muellerConst) kron) (linInv2 4 muellerConst))
  m / index [.all, .new, .new] (index [.all, .at 0, .at 0] m)

/-- `1 / sqrt(2) * np.array(...)` of a matrix. -/
def halfRoot (M : Fin 2 → Fin 2 → V) : Fin 2 → Fin 2 → V := fun i j => (Arith.num 1 ⊘ Arith.sqrt (Arith.num 2)) ⊗ M i j

/-- `c`, `result.py:269, 285`. -/
def circConstC : Fin 2 → Fin 2 → V := halfRoot ![![Arith.num 1, Arith.num 1], ![Arith.I, ∼Arith.I]]

/-- `d`, `result.py:270`. -/
def circConstD : Fin 2 → Fin 2 → V := halfRoot ![![Arith.num (-1), Arith.num (-1)], ![∼Arith.I, Arith.I]]

/-- `jones_matrix_rc`, `result.py:260-273`; the dots of the `einsum` are the wavelength axis, written `z`. -/
def jonesRcArr (J : Out V) : Out V := einsum "ij" (linInv2 2 circConstD) [("zjk", J), ("kl", ofMat circConstC)] "zil"

/-- `jones_matrix_tc`, `result.py:276-288`. -/
def jonesTcArr (J : Out V) : Out V := einsum "ij" (linInv2 2 circConstC) [("zjk", J), ("kl", ofMat circConstC)] "zil"

/-- `np.abs(J) ** 2`, `result.py:306, 333`. -/
def powerArr (J : Out V) : Out V := sq (op1 Arith.abs J)

/-- `np.abs(J) ** 2 * self._power_correction[:, None, None]`, `result.py:324, 342`. -/
def powerCorrectedArr (r : ResultArr V) (J : Out V) : Out V := powerArr J * index [.all, .new, .new] (.ok r.arr.power)

/-- `(M[:, 0, 0] + M[:, 1, 1]) / 2`, `result.py:297, 315`. -/
def meanArr (M : Out V) : Out V := (index [.all, .at 0, .at 0] M + index [.all, .at 1, .at 1] M) / lit 2

/-- The properties of `Result` that are numbers for every wavelength. -/
inductive ScalarQ | rho | rho_t | psi | psi_t | delta | delta_t | R | T

/-- The properties of `Result` that are matrices of two rows for every wavelength. -/
inductive MatrixQ
  | rho_matrix | rho_matrix_t | psi_matrix | psi_matrix_t | delta_matrix | delta_matrix_t
  | jones_matrix_r | jones_matrix_t | jones_matrix_rc | jones_matrix_tc | R_matrix | T_matrix | Rc_matrix | Tc_matrix

/-- The value of a property, `result.py:58-342`. -/
def ScalarQ.eval (r : ResultArr V) : ScalarQ → Out V
  | .rho => rhoArr r (.ok r.arr.jr)
  | .rho_t => rhoArr r (.ok r.arr.jt)
  | .psi => psiArr (rhoArr r (.ok r.arr.jr))
  | .psi_t => psiArr (rhoArr r (.ok r.arr.jt))
  | .delta => deltaArr r (rhoArr r (.ok r.arr.jr))
  | .delta_t => deltaArr r (rhoArr r (.ok r.arr.jt))
  | .R => meanArr (powerArr (.ok r.arr.jr))
  | .T => meanArr (powerCorrectedArr r (.ok r.arr.jt))

/-- The value of a property, `result.py:134-342`. -/
def MatrixQ.eval (r : ResultArr V) : MatrixQ → Out V
  | .rho_matrix => rhoMatrixArr (.ok r.arr.jr)
  | .rho_matrix_t => rhoMatrixArr (.ok r.arr.jt)
  | .psi_matrix => psiArr (rhoMatrixArr (.ok r.arr.jr))
  | .psi_matrix_t => psiArr (rhoMatrixArr (.ok r.arr.jt))
  | .delta_matrix => deltaArr r (rhoMatrixArr (.ok r.arr.jr))
  | .delta_matrix_t => deltaArr r (rhoMatrixArr (.ok r.arr.jt))
  | .jones_matrix_r => .ok r.arr.jr
  | .jones_matrix_t => .ok r.arr.jt
  | .jones_matrix_rc => jonesRcArr (.ok r.arr.jr)
  | .jones_matrix_tc => jonesTcArr (.ok r.arr.jt)
  | .R_matrix => powerArr (.ok r.arr.jr)
  | .T_matrix => powerCorrectedArr r (.ok r.arr.jt)
  | .Rc_matrix => powerArr (jonesRcArr (.ok r.arr.jr))
  | .Tc_matrix => powerCorrectedArr r (jonesTcArr (.ok r.arr.jt))

/-- `result.<quantity>_<ij>`, `result.py:413-440`: the entry `[:, i, j]` of the matrices, as reached by names like `R_ps`. -/
def MatrixQ.entryEval (r : ResultArr V) (q : MatrixQ) (i j : Fin 2) : Out V := index [.all, .at i, .at j] (q.eval r)

/-- `mueller_matrix`, `result.py:223-235`. -/
def ResultArr.mueller (r : ResultArr V) : Out V := muellerArr (.ok r.arr.jr)

end PyElli.Nd
