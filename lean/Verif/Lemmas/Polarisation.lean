import Verif.Spec.Polarisation
import Verif.Model.Experiment
import Mathlib.Tactic

namespace PyElli

open Complex Spec

lemma isq2_sq : (1 / Real.sqrt 2) * (1 / Real.sqrt 2) = (1 / 2 : ℝ) := by
  have : Real.sqrt 2 * Real.sqrt 2 = 2 := Real.mul_self_sqrt (by norm_num)
  field_simp
  nlinarith [this]

/-- Explicit value of the specification in real and imaginary parts. -/
lemma stokes_explicit (a b : ℂ) :
    Spec.stokes a b = ![a.re ^ 2 + a.im ^ 2 + (b.re ^ 2 + b.im ^ 2),
      a.re ^ 2 + a.im ^ 2 - (b.re ^ 2 + b.im ^ 2),
      2 * (a.re * b.re + a.im * b.im), 2 * (a.re * b.im - a.im * b.re)] := by
  have hs := isq2_sq
  set s : ℝ := 1 / Real.sqrt 2 with hsd
  have e1 : s ^ 2 = 1 / 2 := by rw [pow_two]; exact hs
  unfold Spec.stokes Spec.intensity Spec.isq2
  rw [← hsd]
  ext i
  fin_cases i
  · simp [Complex.normSq_apply]; ring
  · simp [Complex.normSq_apply]; ring
  · simp [Complex.normSq_apply]
    linear_combination (4 * (a.re * b.re + a.im * b.im)) * e1
  · simp [Complex.normSq_apply]
    linear_combination (4 * (a.re * b.im - a.im * b.re)) * e1

lemma stokesOfJones_eq (a b : ℂ) :
    stokesOfJones a b = (Spec.stokes a b 0, Spec.stokes a b 1, Spec.stokes a b 2, Spec.stokes a b 3) := by
  rw [stokes_explicit]
  unfold stokesOfJones
  rw [← Complex.normSq_eq_norm_sq, ← Complex.normSq_eq_norm_sq, Complex.normSq_apply,
    Complex.normSq_apply]
  simp
  refine ⟨?_, ?_, ?_⟩ <;> ring

end PyElli
