import Verif.Model.Angles
import Mathlib.Data.Matrix.Mul
import Mathlib.LinearAlgebra.Matrix.Notation
import Mathlib.LinearAlgebra.Matrix.NonsingularInverse
import Mathlib.Analysis.Complex.Basic

/-!
# `result.py`: quantities derived from the Jones matrices

Everything is modelled at one wavelength; the leading wavelength axis of the arrays is point-wise.
Index 0 is `p`, index 1 is `s`.
-/

namespace PyElli

open Complex Matrix

abbrev Mat2 := Matrix (Fin 2) (Fin 2) ℂ

/-- Attributes of a `Result` at one wavelength, `result.py:344-368`. `jones` is
`experiment.jones_vector` (finite), `power` the power correction factor. -/
structure Result where
  jr : Mat2
  jt : Mat2
  power : ℝ
  jones : Fin 2 → ℂ
  range : DeltaRange

/-- `Result.__init__`, `result.py:344-368`: the delta range is (-180, 180); without a power correction the
factor is one. -/
def Result.mk' (jr jt : Mat2) (power : Option ℝ) (jones : Fin 2 → ℂ) : Result :=
  ⟨jr, jt, power.getD 1, jones, ⟨-180, 180⟩⟩

/-- `Result.as_delta_range`, `result.py:441-455`. -/
noncomputable def Result.asDeltaRange (res : Result) (lower upper : PyNum) : Except PyErr Result :=
  (mkDeltaRange lower upper).map fun r => { res with range := r }

/-- `rho_matrix`, `result.py:135-148`, and `rho_matrix_t`, `result.py:151-164`, as a function of the
Jones matrix. The model divides by zero as `0`; statements assume `J 1 1 ≠ 0`. -/
noncomputable def rhoMatrix (J : Mat2) : Mat2 := fun i j => J i j / J 1 1

/-- The reduced ratio `np.dot(M, jones)[0] / np.dot(M, jones)[1]` without the folding,
`result.py:68-69, 78-79`. -/
noncomputable def ratioOf (M : Mat2) (jones : Fin 2 → ℂ) : ℂ :=
  M.mulVec jones 0 / M.mulVec jones 1

/-- `Result.rho`, `result.py:58-73`. -/
noncomputable def Result.rho (res : Result) : ℂ :=
  foldRho res.range (ratioOf (rhoMatrix res.jr) res.jones)

/-- `Result.rho_t`, `result.py:76-82`. -/
noncomputable def Result.rhoT (res : Result) : ℂ :=
  foldRho res.range (ratioOf (rhoMatrix res.jt) res.jones)

/-- `Result.psi`, `result.py:85-93`. -/
noncomputable def Result.psi (res : Result) : ℝ := psiOf res.rho

/-- `Result.psi_t`, `result.py:96-104`. -/
noncomputable def Result.psiT (res : Result) : ℝ := psiOf res.rhoT

/-- `Result.delta`, `result.py:107-118`. -/
noncomputable def Result.delta (res : Result) : ℝ := deltaOf res.range res.rho

/-- `Result.delta_t`, `result.py:121-132`. -/
noncomputable def Result.deltaT (res : Result) : ℝ := deltaOf res.range res.rhoT

/-- `Result.psi_matrix`, `result.py:167-176`. -/
noncomputable def Result.psiMatrix (res : Result) : Matrix (Fin 2) (Fin 2) ℝ :=
  fun i j => psiOf (rhoMatrix res.jr i j)

/-- `Result.delta_matrix`, `result.py:191-203`: no folding for the range (0, 180). -/
noncomputable def Result.deltaMatrix (res : Result) : Matrix (Fin 2) (Fin 2) ℝ :=
  fun i j => deltaOf res.range (rhoMatrix res.jr i j)

/-- The constant matrix `a`, `result.py:225`. -/
def muellerA : Matrix (Fin 4) (Fin 4) ℂ :=
  !![1, 0, 0, 1; 1, 0, 0, -1; 0, 1, 1, 0; 0, I, -I, 0]

/-- Row-major flattening used by `reshape([n, 4, 4])`: index `k` of the flattened axis is the pair
`(k / 2, k % 2)`. -/
def unflat (k : Fin 4) : Fin 2 × Fin 2 :=
  (⟨k.val / 2, by omega⟩, ⟨k.val % 2, by omega⟩)

/-- `np.einsum("aij,akl->aikjl", rho, conj(rho)).reshape([n, 4, 4])`, `result.py:228-230`. -/
noncomputable def kronStar (M : Mat2) : Matrix (Fin 4) (Fin 4) ℂ := fun a b =>
  let ik := unflat a
  let jl := unflat b
  M ik.1 jl.1 * (starRingEnd ℂ) (M ik.2 jl.2)

/-- The complex matrix `a @ s_kron_s_star @ inv(a)` before `np.real`, `result.py:232`. -/
noncomputable def muellerComplex (J : Mat2) : Matrix (Fin 4) (Fin 4) ℂ :=
  muellerA * kronStar (rhoMatrix J) * muellerA⁻¹

/-- `Result.mueller_matrix`, `result.py:223-235`, as a function of the reflection Jones matrix. -/
noncomputable def muellerMatrix (J : Mat2) : Matrix (Fin 4) (Fin 4) ℝ := fun i j =>
  (muellerComplex J i j).re / (muellerComplex J 0 0).re

/-- `c`, `result.py:269, 285`. -/
noncomputable def circC : Mat2 := (1 / (Real.sqrt 2 : ℂ)) • !![1, 1; I, -I]

/-- `d`, `result.py:270`. -/
noncomputable def circD : Mat2 := (1 / (Real.sqrt 2 : ℂ)) • !![-1, -1; -I, I]

/-- `Result.jones_matrix_rc`, `result.py:260-273`. -/
noncomputable def jonesRc (J : Mat2) : Mat2 := circD⁻¹ * J * circC

/-- `Result.jones_matrix_tc`, `result.py:276-288`. -/
noncomputable def jonesTc (J : Mat2) : Mat2 := circC⁻¹ * J * circC

/-- `Result.R_matrix`, `result.py:300-306`. -/
noncomputable def Result.RMatrix (res : Result) : Matrix (Fin 2) (Fin 2) ℝ :=
  fun i j => ‖res.jr i j‖ ^ 2

/-- `Result.T_matrix`, `result.py:318-324`. -/
noncomputable def Result.TMatrix (res : Result) : Matrix (Fin 2) (Fin 2) ℝ :=
  fun i j => ‖res.jt i j‖ ^ 2 * res.power

/-- `Result.R`, `result.py:291-297`. -/
noncomputable def Result.R (res : Result) : ℝ := (res.RMatrix 0 0 + res.RMatrix 1 1) / 2

/-- `Result.T`, `result.py:309-315`. -/
noncomputable def Result.T (res : Result) : ℝ := (res.TMatrix 0 0 + res.TMatrix 1 1) / 2

/-- `Result.Rc_matrix`, `result.py:327-333`. -/
noncomputable def Result.RcMatrix (res : Result) : Matrix (Fin 2) (Fin 2) ℝ :=
  fun i j => ‖jonesRc res.jr i j‖ ^ 2

/-- `Result.Tc_matrix`, `result.py:336-342`. -/
noncomputable def Result.TcMatrix (res : Result) : Matrix (Fin 2) (Fin 2) ℝ :=
  fun i j => ‖jonesTc res.jt i j‖ ^ 2 * res.power

/-- The sixteen entries written by `convert_psi_delta_to_isotropic_mueller_matrix`,
`utils.py:148-176`, for one row; `np.cos`/`np.sin` are applied to the numbers as given. -/
noncomputable def isoMuellerOfPsiDelta (psi delta : ℝ) : Matrix (Fin 4) (Fin 4) ℝ :=
  let N := Real.cos (2 * psi)
  let C := Real.sin (2 * psi) * Real.cos (2 * delta)
  let S := Real.sin (2 * psi) * Real.cos (2 * delta)
  !![1, -N, 0, 0; -N, 1, 0, 0; 0, 0, C, S; 0, 0, -S, C]

end PyElli
