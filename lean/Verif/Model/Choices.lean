import Verif.Model.Solver

/-! # Warnings of `Solver2x2` and the choice of the matrix exponential in `PropagatorExpm` -/

namespace PyElli

open Complex

/-- The two warnings of `solver2x2.py:60-70`. -/
inductive Warning2x2
  | active
  | negativeIndex
  deriving DecidableEq

/-- `n_list`, `solver2x2.py:37-58`: one row per medium (front, layers, back), one entry per wavelength. The argument is the permittivity profile
with its tensors at the wavelengths. -/
noncomputable def nRows (profile : List (List Tensor)) : List (List ℂ) := profile.map fun row => row.map nOf

/-- The loop body `solver2x2.py:60-70` for one row. -/
noncomputable def rowWarning (layer : List ℂ) : Option Warning2x2 :=
  open Classical in
  if ∃ n ∈ layer, n.re > 0 ∧ n.im < 0 then some .active
  else if ∃ n ∈ layer, n.re < 0 ∧ n.im > 0 then some .negativeIndex
  else none

/-- The warnings raised by `Solver2x2.calculate`, `solver2x2.py:60-70`, in order (before the filter of the module `warnings`). -/
noncomputable def warnings2x2 (profile : List (List Tensor)) : List Warning2x2 := (nRows profile).filterMap rowWarning

/-- The permittivity profile of one stack at one wavelength, `structure.py:468-486`. -/
def Stack.rows (s : Stack) : List (List Tensor) := [s.front] :: (s.layers.map fun l => [l.2]) ++ [[s.back]]

/-- The functions in `backends`, `solver4x4.py:77-82`. -/
inductive Backend
  | torch
  | scipy
  deriving DecidableEq

/-- `PropagatorExpm.__init__`, `solver4x4.py:68-98`; `available` is `TORCH_AVAILABLE` (`solver4x4.py:9-14`). -/
def chooseBackend (available : Bool) (backend : String) : Except PyErr Backend :=
  if backend = "automatic" ∧ available then .ok .torch
  else if backend = "automatic" ∧ ¬ available then .ok .scipy
  else if backend = "torch" ∧ ¬ available then .error .importError
  else if backend ≠ "torch" ∧ backend ≠ "scipy" then .error .valueError
  else if backend = "torch" then .ok .torch else .ok .scipy

/-- `PropagatorExpm.calculate_propagation`, `solver4x4.py:100-117`, at one wavelength; `expm` are the functions of the two libraries. -/
noncomputable def propBackend (expm : Backend → Mat4 → Mat4) (b : Backend) (delta : Mat4) (thickness lbda : ℝ) : Mat4 :=
  expm b ((I * (thickness : ℂ)) • ((wavenumber lbda : ℂ) • delta))

end PyElli
