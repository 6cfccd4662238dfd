import Mathlib.Analysis.Normed.Algebra.MatrixExponential
import Mathlib.Analysis.SpecialFunctions.Trigonometric.Basic
import Verif.Model.Angles

/-! # Rotation matrices: `/repo/src/elli/utils.py` lines 278-364 -/

namespace PyElli

open Matrix

/-- A real 3x3 matrix. -/
abbrev Mat3 := Matrix (Fin 3) (Fin 3) ℝ

/-- `rotation_euler`, `/repo/src/elli/utils.py:281-312` (angles in degrees). -/
noncomputable def rotationEuler (p n r : ℝ) : Mat3 :=
  let c1 := Real.cos (deg2rad p)
  let s1 := Real.sin (deg2rad p)
  let c2 := Real.cos (deg2rad n)
  let s2 := Real.sin (deg2rad n)
  let c3 := Real.cos (deg2rad r)
  let s3 := Real.sin (deg2rad r)
  !![c1 * c3 - s1 * c2 * s3, -c1 * s3 - s1 * c2 * c3, s1 * s2;
     s1 * c3 + c1 * c2 * s3, -s1 * s3 + c1 * c2 * c3, -c1 * s2;
     s2 * s3, s2 * c3, c2]

/-- The matrix `m_w` built in `rotation_v` and `rotation_v_theta`,
`/repo/src/elli/utils.py:334-336` and `355-357`. -/
def mW (v : Fin 3 → ℝ) : Mat3 :=
  !![0, -v 2, v 1; v 2, 0, -v 0; -v 1, v 0, 0]

/-- `rotation_v`, `/repo/src/elli/utils.py:315-339`. `scipy.linalg.expm` is the exact matrix
exponential. -/
noncomputable def rotationV (v : Fin 3 → ℝ) : Mat3 :=
  NormedSpace.exp (mW v)

/-- `rotation_v_theta`, `/repo/src/elli/utils.py:342-364` (`theta` in degrees). -/
noncomputable def rotationVTheta (v : Fin 3 → ℝ) (theta : ℝ) : Mat3 :=
  1 + Real.sin (deg2rad theta) • mW v + (1 - Real.cos (deg2rad theta)) • (mW v) ^ 2

end PyElli
