import Verif.Model.Result

/-! # What the attribute names of a result mean, as documented in `result.py:1-24, 35-51, 370-405` -/

namespace Spec.Lookup

open PyElli

/-- Index characters: polarisations `p`/`s` and `L`/`R`, or numbers. -/
def axes : List (Char × ℕ) := [('p', 0), ('s', 1), ('L', 0), ('R', 1), ('1', 0), ('2', 1), ('3', 2), ('4', 3)]

/-- An index character with its position. -/
def IsAxis (c : Char) (i : ℕ) : Prop := (c, i) ∈ axes

/-- The 2×2 matrices behind `quantity_ij`. -/
noncomputable def quantities : List (String × (Result → Matrix (Fin 2) (Fin 2) ℂ)) :=
  [("r", fun s => s.jr),
   ("t", fun s => s.jt),
   ("rc", fun s => jonesRc s.jr),
   ("tc", fun s => jonesTc s.jt),
   ("R", fun s i j => ((‖s.jr i j‖ ^ 2 : ℝ) : ℂ)),
   ("T", fun s i j => ((‖s.jt i j‖ ^ 2 * s.power : ℝ) : ℂ)),
   ("Rc", fun s i j => ((‖jonesRc s.jr i j‖ ^ 2 : ℝ) : ℂ)),
   ("Tc", fun s i j => ((‖jonesTc s.jt i j‖ ^ 2 * s.power : ℝ) : ℂ)),
   ("rho", fun s i j => s.jr i j / s.jr 1 1),
   ("psi", fun s i j => (psiOf (s.jr i j / s.jr 1 1) : ℝ)),
   ("delta", fun s i j => (deltaOf s.range (s.jr i j / s.jr 1 1) : ℝ)),
   ("ρ", fun s i j => s.jr i j / s.jr 1 1),
   ("Ψ", fun s i j => (psiOf (s.jr i j / s.jr 1 1) : ℝ)),
   ("Δ", fun s i j => (deltaOf s.range (s.jr i j / s.jr 1 1) : ℝ)),
   ("rho_matrix", fun s i j => s.jr i j / s.jr 1 1),
   ("rho_matrix_t", fun s i j => s.jt i j / s.jt 1 1),
   ("psi_matrix", fun s i j => (psiOf (s.jr i j / s.jr 1 1) : ℝ)),
   ("psi_matrix_t", fun s i j => (psiOf (s.jt i j / s.jt 1 1) : ℝ)),
   ("delta_matrix", fun s i j => (deltaOf s.range (s.jr i j / s.jr 1 1) : ℝ)),
   ("delta_matrix_t", fun s i j => (deltaOf s.range (s.jt i j / s.jt 1 1) : ℝ)),
   ("jones_matrix_r", fun s => s.jr),
   ("jones_matrix_t", fun s => s.jt),
   ("jones_matrix_rc", fun s => jonesRc s.jr),
   ("jones_matrix_tc", fun s => jonesTc s.jt),
   ("R_matrix", fun s i j => ((‖s.jr i j‖ ^ 2 : ℝ) : ℂ)),
   ("T_matrix", fun s i j => ((‖s.jt i j‖ ^ 2 * s.power : ℝ) : ℂ)),
   ("Rc_matrix", fun s i j => ((‖jonesRc s.jr i j‖ ^ 2 : ℝ) : ℂ)),
   ("Tc_matrix", fun s i j => ((‖jonesTc s.jt i j‖ ^ 2 * s.power : ℝ) : ℂ))]

/-- The amplitude of outgoing polarisation `out` for unit light of polarisation `inc`. -/
def amplitude (J : Matrix (Fin 2) (Fin 2) ℂ) (inc out : Fin 2) : ℂ := J.mulVec (Pi.single inc 1) out

end Spec.Lookup
