import Verif.Model.Result
import Verif.Spec.Polarisation
import Verif.Lemmas.Polarisation
import Verif.Lemmas.Angles
import Mathlib.Tactic

namespace PyElli

open Complex Matrix

/-- Explicit inverse of the constant matrix `a`. -/
noncomputable def muellerAinv : Matrix (Fin 4) (Fin 4) ℂ :=
  !![1/2, 1/2, 0, 0; 0, 0, 1/2, -I/2; 0, 0, 1/2, I/2; 1/2, -1/2, 0, 0]

lemma muellerA_inv : muellerA⁻¹ = muellerAinv := by
  apply Matrix.inv_eq_right_inv
  ext i j
  have hI : I * I = -1 := Complex.I_mul_I
  fin_cases i <;> fin_cases j <;>
    simp [muellerA, muellerAinv, Matrix.mul_apply, Fin.sum_univ_four] <;> ring_nf <;>
    simp <;> norm_num

/-- The unnormalised Mueller matrix in terms of the four (real and imaginary) entries. -/
noncomputable def muellerRaw (M : Mat2) : Matrix (Fin 4) (Fin 4) ℝ :=
  let a := M 0 0; let b := M 0 1; let c := M 1 0; let d := M 1 1
  let A := Complex.normSq a; let B := Complex.normSq b
  let C := Complex.normSq c; let D := Complex.normSq d
  let ab := a * (starRingEnd ℂ) b; let cd := c * (starRingEnd ℂ) d
  let ac := a * (starRingEnd ℂ) c; let bd := b * (starRingEnd ℂ) d
  let ad := a * (starRingEnd ℂ) d; let bc := b * (starRingEnd ℂ) c
  !![(A + B + C + D) / 2, (A - B + C - D) / 2, ab.re + cd.re, ab.im + cd.im;
     (A + B - C - D) / 2, (A - B - C + D) / 2, ab.re - cd.re, ab.im - cd.im;
     ac.re + bd.re, ac.re - bd.re, ad.re + bc.re, ad.im - bc.im;
     -(ac.im + bd.im), -(ac.im - bd.im), -(ad.im + bc.im), ad.re - bc.re]

lemma kronStar_explicit (M : Mat2) : kronStar M =
    !![M 0 0 * (starRingEnd ℂ) (M 0 0), M 0 0 * (starRingEnd ℂ) (M 0 1),
        M 0 1 * (starRingEnd ℂ) (M 0 0), M 0 1 * (starRingEnd ℂ) (M 0 1);
      M 0 0 * (starRingEnd ℂ) (M 1 0), M 0 0 * (starRingEnd ℂ) (M 1 1),
        M 0 1 * (starRingEnd ℂ) (M 1 0), M 0 1 * (starRingEnd ℂ) (M 1 1);
      M 1 0 * (starRingEnd ℂ) (M 0 0), M 1 0 * (starRingEnd ℂ) (M 0 1),
        M 1 1 * (starRingEnd ℂ) (M 0 0), M 1 1 * (starRingEnd ℂ) (M 0 1);
      M 1 0 * (starRingEnd ℂ) (M 1 0), M 1 0 * (starRingEnd ℂ) (M 1 1),
        M 1 1 * (starRingEnd ℂ) (M 1 0), M 1 1 * (starRingEnd ℂ) (M 1 1)] := by
  ext i j
  fin_cases i <;> fin_cases j <;> rfl

lemma muellerComplex_eq (J : Mat2) (i j : Fin 4) :
    muellerComplex J i j = ((muellerRaw (rhoMatrix J) i j : ℝ) : ℂ) := by
  unfold muellerComplex
  rw [muellerA_inv, kronStar_explicit]
  generalize rhoMatrix J = M
  fin_cases i <;> fin_cases j <;>
    (apply Complex.ext <;>
      simp [muellerA, muellerAinv, Matrix.mul_apply, Fin.sum_univ_four,
        muellerRaw, Complex.normSq_apply] <;> ring)

end PyElli
