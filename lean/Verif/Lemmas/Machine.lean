import Verif.Model.RoundedSolver
import Mathlib.Analysis.SpecialFunctions.Exp
import Mathlib.Analysis.SpecialFunctions.Complex.Log
import Mathlib.Tactic

/-! # Propagation of relative errors -/

namespace PyElli

open Complex

/-- A factor close to one, and its reciprocal as well. -/
def Near (t : ℝ) (w : ℂ) : Prop := w ≠ 0 ∧ ‖w - 1‖ ≤ t - 1 ∧ ‖w⁻¹ - 1‖ ≤ t - 1

namespace Near

variable {s t : ℝ} {v w : ℂ}

lemma one_le (h : Near t w) : 1 ≤ t := by
  have := (norm_nonneg _).trans h.2.1
  linarith

lemma norm_le (h : Near t w) : ‖w‖ ≤ t := by
  have := norm_add_le (w - 1) 1
  rw [sub_add_cancel, norm_one] at this
  linarith [h.2.1]

lemma inv (h : Near t w) : Near t w⁻¹ := ⟨inv_ne_zero h.1, h.2.2, by rw [inv_inv]; exact h.2.1⟩

lemma refl : Near 1 1 := ⟨one_ne_zero, by simp, by simp⟩

lemma mono (h : Near t w) (hs : t ≤ s) : Near s w := ⟨h.1, h.2.1.trans (by linarith), h.2.2.trans (by linarith)⟩

lemma mul_aux {a b : ℂ} (ha : ‖a‖ ≤ s) (ha' : ‖a - 1‖ ≤ s - 1) (hb : ‖b - 1‖ ≤ t - 1) : ‖a * b - 1‖ ≤ s * t - 1 := by
  have e : a * b - 1 = a * (b - 1) + (a - 1) := by ring
  rw [e]
  refine (norm_add_le _ _).trans ?_
  rw [norm_mul]
  have := mul_le_mul ha hb (norm_nonneg _) ((norm_nonneg _).trans ha)
  nlinarith

lemma mul (hv : Near s v) (hw : Near t w) : Near (s * t) (v * w) :=
  ⟨mul_ne_zero hv.1 hw.1, mul_aux hv.norm_le hv.2.1 hw.2.1, by rw [mul_inv]; exact mul_aux hv.inv.norm_le hv.2.2 hw.2.2⟩

lemma div (hv : Near s v) (hw : Near t w) : Near (s * t) (v / w) := by
  rw [div_eq_mul_inv]
  exact hv.mul hw.inv

/-- A relative error below one. -/
lemma of_rel {e : ℝ} (he : e < 1) (h : ‖w - 1‖ ≤ e) : Near (1 / (1 - e)) w := by
  have h0 : 0 ≤ e := (norm_nonneg _).trans h
  have hpos : 0 < 1 - e := by linarith
  have hw : 1 - e ≤ ‖w‖ := by
    have := norm_sub_norm_le (1 : ℂ) (1 - w)
    rw [sub_sub_cancel, norm_one, norm_sub_rev] at this
    linarith
  have hw0 : w ≠ 0 := fun h1 => by rw [h1, norm_zero] at hw; linarith
  have e1 : 1 / (1 - e) - 1 = e / (1 - e) := by field_simp; ring
  refine ⟨hw0, ?_, ?_⟩
  · rw [e1, le_div_iff₀ hpos]
    nlinarith
  · have e2 : w⁻¹ - 1 = (1 - w) / w := by field_simp
    rw [e1, e2, norm_div, norm_sub_rev]
    exact div_le_div₀ h0 h hpos hw

lemma exp {z : ℂ} : Near (Real.exp ‖z‖) (Complex.exp z) := by
  have key : ∀ z : ℂ, ‖Complex.exp z - 1‖ ≤ Real.exp ‖z‖ - 1 := fun z => by
    have := Complex.norm_exp_sub_sum_le_exp_norm_sub_sum z 1
    simpa using this
  refine ⟨exp_ne_zero z, key z, ?_⟩
  rw [← exp_neg]
  have := key (-z)
  rwa [norm_neg] at this

end Near

/-- The operations have a relative error below `τ - 1`. -/
structure Accurate (m : Machine) (τ : ℝ) : Prop where
  add : ∀ x y, ∃ w, Near τ w ∧ m.add x y = (x + y) * w
  mul : ∀ x y, ∃ w, Near τ w ∧ m.mul x y = x * y * w
  div : ∀ x y, y ≠ 0 → ∃ w, Near τ w ∧ m.div x y = x / y * w
  cos : ∀ x, ∃ w, Near τ w ∧ m.cos x = Complex.cos x * w
  exp : ∀ x, ∃ w, Near τ w ∧ m.exp x = Complex.exp x * w
  twoPi : ∃ w, Near τ w ∧ m.twoPi = 2 * Real.pi * w

end PyElli
