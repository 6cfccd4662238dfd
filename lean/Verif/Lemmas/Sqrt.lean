import Mathlib.Analysis.RCLike.Sqrt
import Mathlib.Tactic

/-! Facts about the principal complex square root. -/

namespace PyElli

open Complex

lemma csqrt_sq (z : ℂ) : Complex.sqrt z ^ 2 = z := by
  unfold Complex.sqrt
  have := Complex.cpow_nat_inv_pow z (n := 2) (by norm_num)
  simpa using this

lemma csqrt_mul_self (z : ℂ) : Complex.sqrt z * Complex.sqrt z = z := by
  rw [← pow_two, csqrt_sq]

lemma csqrt_re_nonneg (z : ℂ) : 0 ≤ (Complex.sqrt z).re := by
  unfold Complex.sqrt
  rw [Complex.cpow_inv_two_re]
  exact Real.sqrt_nonneg _

lemma csqrt_im_nonneg {z : ℂ} (h : 0 ≤ z.im) : 0 ≤ (Complex.sqrt z).im := by
  unfold Complex.sqrt
  rw [Complex.cpow_inv_two_im_eq_sqrt h]
  exact Real.sqrt_nonneg _

lemma csqrt_im_nonpos {z : ℂ} (h : z.im < 0) : (Complex.sqrt z).im ≤ 0 := by
  unfold Complex.sqrt
  rw [Complex.cpow_inv_two_im_eq_neg_sqrt h]
  linarith [Real.sqrt_nonneg ((‖z‖ - z.re) / 2)]

lemma csqrt_eq_zero {z : ℂ} : Complex.sqrt z = 0 ↔ z = 0 := by
  constructor
  · intro h
    rw [← csqrt_sq z, h]
    norm_num
  · rintro rfl
    simp

/-- The principal half plane: the range of the principal square root. -/
def Principal (w : ℂ) : Prop := 0 < w.re ∨ (w.re = 0 ∧ 0 ≤ w.im)

lemma csqrt_principal (z : ℂ) : Principal (Complex.sqrt z) := by
  unfold Principal
  rcases (csqrt_re_nonneg z).lt_or_eq with h | h
  · exact Or.inl h
  · right
    refine ⟨h.symm, ?_⟩
    by_contra hneg
    push Not at hneg
    have h2 := csqrt_sq z
    have him : z.im = 0 := by
      rw [← h2, pow_two, Complex.mul_im, ← h]
      ring
    have := csqrt_im_nonneg (z := z) him.ge
    linarith

lemma principal_sq_inj {a b : ℂ} (ha : Principal a) (hb : Principal b) (h : a ^ 2 = b ^ 2) :
    a = b := by
  rcases sq_eq_sq_iff_eq_or_eq_neg.1 h with h | h
  · exact h
  · rw [h] at ha
    unfold Principal at ha hb
    simp only [neg_re, neg_im] at ha
    rcases ha with ha | ⟨ha, ha'⟩ <;> rcases hb with hb | ⟨hb, hb'⟩
    · linarith
    · linarith
    · linarith
    · have : b = 0 := by
        apply Complex.ext
        · simpa using hb
        · simp; linarith
      rw [h, this]
      simp

lemma csqrt_eq_iff {z w : ℂ} : Complex.sqrt z = w ↔ Principal w ∧ w ^ 2 = z := by
  constructor
  · rintro rfl
    exact ⟨csqrt_principal z, csqrt_sq z⟩
  · rintro ⟨h, h'⟩
    exact principal_sq_inj (csqrt_principal z) h ((csqrt_sq z).trans h'.symm)

lemma csqrt_sq_eq {w : ℂ} (h : Principal w) : Complex.sqrt (w ^ 2) = w :=
  csqrt_eq_iff.2 ⟨h, rfl⟩

lemma csqrt_ofReal {x : ℝ} (h : 0 ≤ x) : Complex.sqrt (x : ℂ) = (Real.sqrt x : ℂ) := by
  rw [csqrt_eq_iff]
  refine ⟨?_, ?_⟩
  · unfold Principal
    rcases (Real.sqrt_nonneg x).lt_or_eq with h | h
    · exact Or.inl (by simpa using h)
    · exact Or.inr (by simp [← h])
  · rw [← Complex.ofReal_pow, Real.sq_sqrt h]

end PyElli
