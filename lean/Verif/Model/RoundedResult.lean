import Verif.Model.RoundedSolver
import Verif.Model.Result

/-!
# `psi` and `delta` in computer arithmetic

`result.py:58-118` with every operation replaced by that of a machine. The range (0, 180), where the sign of the imaginary part is changed
(exactly) between the two steps, is not included. Overflow and underflow are not modelled.
-/

namespace PyElli

/-- The operations of `numpy` on real numbers that `Result` needs besides those on complex numbers. -/
structure AngleMachine extends Machine where
  /-- `np.abs` of a complex number -/
  abs : ℂ → ℝ
  arctan : ℝ → ℝ
  /-- `np.rad2deg` -/
  deg : ℝ → ℝ
  /-- `np.angle(z, deg=True)` -/
  angle : ℂ → ℝ
  plus : ℝ → ℝ → ℝ
  /-- `np.mod(x, 360)` -/
  mod : ℝ → ℝ

namespace AngleMachine

variable (m : AngleMachine)

/-- Row `i` of `np.dot(self.rho_matrix, jones_vector)`, `result.py:68, 147-148`. -/
def row (J : Mat2) (E : Fin 2 → ℂ) (i : Fin 2) : ℂ :=
  m.add (m.mul (m.div (J i 0) (J 1 1)) (E 0)) (m.mul (m.div (J i 1) (J 1 1)) (E 1))

/-- `rho`, `result.py:68-69`. -/
def ratio (J : Mat2) (E : Fin 2 → ℂ) : ℂ := m.div (m.row J E 0) (m.row J E 1)

/-- `Result.psi`, `result.py:93`. -/
def psi (J : Mat2) (E : Fin 2 → ℂ) : ℝ := m.deg (m.arctan (m.abs (m.ratio J E)))

/-- `Result.delta`, `result.py:115-118`, for a range other than (0, 180). -/
def delta (q : DeltaRange) (J : Mat2) (E : Fin 2 → ℂ) : ℝ := m.plus (m.mod (m.plus (-m.angle (m.ratio J E)) q.lower)) q.lower

end AngleMachine

end PyElli
