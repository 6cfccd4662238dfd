import Verif.Model.Angles
import Verif.Spec.Angles
import Mathlib.Tactic

/-! Helper lemmas for the angle properties. -/

namespace PyElli

open Spec

lemma abs_span {lo up : ℝ} (h1 : lo ≤ 0) (h2 : 0 ≤ up) : |up - lo| = 360 ↔ up = lo + 360 := by
  rw [abs_of_nonneg (by linarith)]
  constructor <;> intro h <;> linarith

lemma validRange_iff (lo up : ℝ) : ((-360 ≤ lo ∧ lo ≤ 0) ∧ (0 ≤ up ∧ up ≤ 360) ∧
    ((lo = 0 ∧ up = 180) ∨ |up - lo| = 360)) ↔ ValidRange lo up := by
  unfold ValidRange
  constructor
  · rintro ⟨⟨h1, h2⟩, ⟨h3, h4⟩, h5 | h5⟩
    · exact Or.inl h5
    · exact Or.inr ⟨h1, h2, (abs_span h2 h3).1 h5⟩
  · rintro (⟨rfl, rfl⟩ | ⟨h1, h2, rfl⟩)
    · norm_num
    · exact ⟨⟨h1, h2⟩, ⟨by linarith, by linarith⟩, Or.inr ((abs_span h2 (by linarith)).2 rfl)⟩

open Classical in
lemma spanCheck_iff (lo up rl ru : ℝ) :
    ((if ¬ (-360 ≤ lo ∧ lo ≤ 0) then .error .valueError
      else if ¬ (0 ≤ up ∧ up ≤ 360) then .error .valueError
      else if ¬ ((lo = 0 ∧ up = 180) ∨ |up - lo| = 360) then .error .valueError
      else .ok ⟨lo, up⟩ : Except PyErr DeltaRange) = .ok ⟨rl, ru⟩) ↔
      rl = lo ∧ ru = up ∧ ValidRange rl ru := by
  have key := validRange_iff lo up
  by_cases h1 : (-360 ≤ lo ∧ lo ≤ 0)
  · by_cases h2 : (0 ≤ up ∧ up ≤ 360)
    · by_cases h3 : ((lo = 0 ∧ up = 180) ∨ |up - lo| = 360)
      · rw [if_neg (not_not.2 h1), if_neg (not_not.2 h2), if_neg (not_not.2 h3)]
        have hv := key.1 ⟨h1, h2, h3⟩
        constructor
        · intro h
          cases h
          exact ⟨rfl, rfl, hv⟩
        · rintro ⟨rfl, rfl, _⟩
          rfl
      · rw [if_neg (not_not.2 h1), if_neg (not_not.2 h2), if_pos h3]
        simp only [reduceCtorEq, false_iff]
        rintro ⟨rfl, rfl, h⟩
        exact h3 (key.2 h).2.2
    · rw [if_neg (not_not.2 h1), if_pos h2]
      simp only [reduceCtorEq, false_iff]
      rintro ⟨rfl, rfl, h⟩
      exact h2 (key.2 h).2.1
  · rw [if_pos h1]
    simp only [reduceCtorEq, false_iff]
    rintro ⟨rfl, rfl, h⟩
    exact h1 (key.2 h).1

lemma npMod_nonneg (x : ℝ) : 0 ≤ npMod x 360 := by
  unfold npMod
  have := Int.floor_le (x / 360)
  have h : 360 * (⌊x / 360⌋ : ℝ) ≤ 360 * (x / 360) := by linarith
  have h2 : 360 * (x / 360) = x := by ring
  linarith

lemma npMod_lt (x : ℝ) : npMod x 360 < 360 := by
  unfold npMod
  have := Int.lt_floor_add_one (x / 360)
  linarith [show 360 * (x / 360) = x by ring]

lemma deg2rad_rad2deg (x : ℝ) : deg2rad (rad2deg x) = x := by
  unfold deg2rad rad2deg
  field_simp [Real.pi_ne_zero]

lemma shiftDelta_eq (x : ℝ) (r : DeltaRange) :
    ∃ k : ℤ, shiftDelta x r = x + 2 * r.lower + 360 * k := by
  refine ⟨-⌊(x + r.lower) / 360⌋, ?_⟩
  unfold shiftDelta npMod
  push_cast
  ring

lemma shiftDelta_window (x : ℝ) (r : DeltaRange) : InWindow r.lower (shiftDelta x r) := by
  unfold InWindow shiftDelta
  have := npMod_nonneg (x + r.lower)
  have := npMod_lt (x + r.lower)
  constructor <;> linarith

lemma exp_deg_period (x y : ℝ) (k : ℤ) (h : y = x + 360 * k) :
    Complex.exp (-Complex.I * (deg2rad y : ℂ)) = Complex.exp (-Complex.I * (deg2rad x : ℂ)) := by
  have : (-Complex.I * (deg2rad y : ℂ)) =
      (-Complex.I * (deg2rad x : ℂ)) + ((-k : ℤ) : ℂ) * (2 * Real.pi * Complex.I) := by
    subst h
    unfold deg2rad
    push_cast
    ring
  rw [this, Complex.exp_add, Complex.exp_int_mul_two_pi_mul_I, mul_one]

lemma tan_psiOf (rho : ℂ) : Real.tan (deg2rad (psiOf rho)) = ‖rho‖ := by
  unfold psiOf
  rw [deg2rad_rad2deg, Real.tan_arctan]

lemma exp_neg_arg (rho : ℂ) :
    (‖rho‖ : ℂ) * Complex.exp (-Complex.I * (deg2rad (-(rad2deg (Complex.arg rho))) : ℂ)) = rho := by
  have h : deg2rad (-(rad2deg (Complex.arg rho))) = -Complex.arg rho := by
    have := deg2rad_rad2deg (Complex.arg rho)
    unfold deg2rad at *
    rw [neg_mul, this]
  rw [h]
  have : (-Complex.I * ((-Complex.arg rho : ℝ) : ℂ)) = Complex.arg rho * Complex.I := by
    push_cast
    ring
  rw [this, Complex.norm_mul_exp_arg_mul_I]

/-- The general law behind psi and delta: reconstructing `rho` gives an extra factor
`exp(-2 i lower)`. -/
lemma calcRho_psi_delta (r : DeltaRange) (rho : ℂ) :
    calcRho (psiOf rho) (deltaOf r rho) =
      rho * Complex.exp (-Complex.I * (deg2rad (2 * r.lower) : ℂ)) := by
  unfold calcRho deltaOf
  obtain ⟨k, hk⟩ := shiftDelta_eq (-(rad2deg (Complex.arg rho))) r
  rw [tan_psiOf, exp_deg_period _ _ k hk]
  have : (-Complex.I * (deg2rad (-(rad2deg (Complex.arg rho)) + 2 * r.lower) : ℂ)) =
      (-Complex.I * (deg2rad (-(rad2deg (Complex.arg rho))) : ℂ)) +
        (-Complex.I * (deg2rad (2 * r.lower) : ℂ)) := by
    unfold deg2rad
    push_cast
    ring
  rw [this, Complex.exp_add, ← mul_assoc, exp_neg_arg]

lemma exp_deg_eq_one_iff (x : ℝ) :
    Complex.exp (-Complex.I * (deg2rad (2 * x) : ℂ)) = 1 ↔ ∃ k : ℤ, x = 180 * k := by
  rw [Complex.exp_eq_one_iff]
  have hpi : (Real.pi : ℂ) ≠ 0 := by exact_mod_cast Real.pi_ne_zero
  constructor
  · rintro ⟨n, hn⟩
    refine ⟨-n, ?_⟩
    have h2 : (x : ℂ) = 180 * ((-n : ℤ) : ℂ) := by
      unfold deg2rad at hn
      push_cast at hn ⊢
      have : Complex.I * (Real.pi : ℂ) ≠ 0 := mul_ne_zero Complex.I_ne_zero hpi
      apply mul_left_cancel₀ this
      linear_combination (-90) * hn
    exact_mod_cast h2
  · rintro ⟨k, rfl⟩
    refine ⟨-k, ?_⟩
    unfold deg2rad
    push_cast
    ring

end PyElli
