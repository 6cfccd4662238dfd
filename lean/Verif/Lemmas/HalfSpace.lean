import Verif.Lemmas.Energy
import Mathlib.Tactic

/-! Branch analysis of the half spaces, and the energy balance of a whole stack. -/

namespace PyElli

open Matrix Complex Spec

/-- A z-wavenumber that `is_forward_angle` recognises as forward. -/
def ForwardOk (w : ℂ) : Prop := (0 < w.re ∧ -1e-10 ≤ w.im) ∨ 1e-10 < w.im

lemma fixForward_cos {n th c0 : ℂ} (hc : Complex.cos th ^ 2 = c0 ^ 2) (h : ForwardOk (n * c0)) :
    Complex.cos (fixForward n th) = c0 := by
  have hfwd : ∀ w : ℂ, ForwardOk w → (|w.im| > 1e-10 ∧ w.im > 0) ∨ (¬ |w.im| > 1e-10 ∧ w.re > 0) := by
    intro w hw
    rcases hw with ⟨h1, h2⟩ | h1
    · by_cases h3 : |w.im| > 1e-10
      · left
        refine ⟨h3, ?_⟩
        rcases lt_abs.1 h3 with h4 | h4
        · linarith
        · linarith
      · exact Or.inr ⟨h3, h1⟩
    · left
      exact ⟨lt_of_lt_of_le h1 (le_abs_self _), by linarith⟩
  have hbwd : ∀ w : ℂ, ForwardOk w → ¬ ((|(-w).im| > 1e-10 ∧ (-w).im > 0) ∨ (¬ |(-w).im| > 1e-10 ∧ (-w).re > 0)) := by
    intro w hw
    rw [neg_im, neg_re, abs_neg]
    rintro (⟨h3, h4⟩ | ⟨h3, h4⟩)
    · rcases hw with ⟨h1, h2⟩ | h1
      · rw [abs_of_neg (by linarith)] at h3
        linarith
      · linarith
    · rcases hw with ⟨h1, h2⟩ | h1
      · linarith
      · exact h3 (lt_of_lt_of_le h1 (le_abs_self _))
  unfold fixForward
  rcases sq_eq_sq_iff_eq_or_eq_neg.1 hc with h1 | h1
  · have : isForwardAngle n th := by
      unfold isForwardAngle
      rw [h1]
      exact hfwd _ h
    simp [this, h1]
  · have : ¬ isForwardAngle n th := by
      unfold isForwardAngle
      rw [h1, mul_neg]
      exact hbwd _ h
    rw [if_pos this, Complex.cos_pi_sub, h1, neg_neg]

lemma cos_sq_snell {asin : ℂ → ℂ} (hasin : ∀ z, Complex.sin (asin z) = z) (n0 : ℂ) (theta : ℝ) (eps : Tensor) :
    Complex.cos (snellAngle asin n0 theta (nOf eps)) ^ 2 =
      cosPhi (n0 * (Real.sin (deg2rad theta) : ℂ)) eps ^ 2 := by
  unfold snellAngle cosPhi
  rw [cos_sq_of_asin hasin, csqrt_sq]

/-- Both solvers use the same direction cosine in the exit medium. -/
lemma backMedium_cos {asin : ℂ → ℂ} (hasin : ∀ z, Complex.sin (asin z) = z) (s : Stack) (theta : ℝ)
    (h : ForwardOk (nOf s.back * cosPhi (kxOf s theta) s.back)) :
    Complex.cos (backMedium asin s theta).2 = cosPhi (kxOf s theta) s.back :=
  fixForward_cos (cos_sq_snell hasin _ _ _) h

/-- The front direction cosine of `Solver4x4` is the cosine of the angle of incidence. -/
lemma cosPhi_front (s : Stack) (theta : ℝ) (hn : nOf s.front ≠ 0) (hc : 0 < Real.cos (deg2rad theta)) :
    cosPhi (kxOf s theta) s.front = (Real.cos (deg2rad theta) : ℂ) := by
  unfold cosPhi kxOf
  rw [mul_div_cancel_left₀ _ hn]
  have : (1 : ℂ) - (Real.sin (deg2rad theta) : ℂ) ^ 2 = ((Real.cos (deg2rad theta) ^ 2 : ℝ) : ℂ) := by
    rw [Real.cos_sq']
    push_cast
    ring
  rw [this, csqrt_ofReal (by positivity), Real.sqrt_sq hc.le]

lemma frontMedium_cos {asin : ℂ → ℂ} (hasin : ∀ z, Complex.sin (asin z) = z) (s : Stack) (theta : ℝ)
    (h1 : 0 < (nOf s.front).re) (h2 : 0 ≤ (nOf s.front).im) (hc : 0 < Real.cos (deg2rad theta)) :
    Complex.cos (frontMedium asin s theta).2 = (Real.cos (deg2rad theta) : ℂ) := by
  have hn : nOf s.front ≠ 0 := by
    intro h
    rw [h] at h1
    simp at h1
  rw [← cosPhi_front s theta hn hc]
  apply fixForward_cos (cos_sq_snell hasin _ _ _)
  have : nOf s.front * (Real.sin (deg2rad theta) : ℂ) = kxOf s theta := rfl
  rw [this, cosPhi_front s theta hn hc]
  left
  constructor
  · simp only [Complex.re_mul_ofReal]
    positivity
  · simp only [Complex.im_mul_ofReal]
    have := mul_nonneg h2 hc.le
    have : (-1e-10 : ℝ) ≤ 0 := by norm_num
    linarith

/-- Passive exit media: index and direction cosine lie in the closed first quadrant. -/
lemma first_quadrant {e : ℂ} (kx : ℝ) (he : 0 ≤ e.im) :
    0 ≤ (Complex.sqrt e).re ∧ 0 ≤ (Complex.sqrt e).im ∧
    0 ≤ (Complex.sqrt (1 - (kx / Complex.sqrt e) ^ 2)).re ∧ 0 ≤ (Complex.sqrt (1 - (kx / Complex.sqrt e) ^ 2)).im := by
  refine ⟨csqrt_re_nonneg _, csqrt_im_nonneg he, csqrt_re_nonneg _, csqrt_im_nonneg ?_⟩
  rw [div_pow, csqrt_sq]
  simp only [Complex.sub_im, Complex.one_im, zero_sub]
  rw [← Complex.ofReal_pow, Complex.div_im]
  simp only [Complex.ofReal_im, Complex.ofReal_re, zero_mul, zero_div, zero_sub, neg_neg]
  have := Complex.normSq_nonneg e
  positivity

/-- For passive exit media `n cos φ` is the principal root of `ε - kx²`, i.e. `get_k_z`. -/
lemma kz_exit {e : ℂ} (kx : ℝ) (he0 : e ≠ 0) (he : 0 ≤ e.im) :
    Complex.sqrt (Complex.sqrt e ^ 2 - kx ^ 2) = Complex.sqrt e * Complex.sqrt (1 - (kx / Complex.sqrt e) ^ 2) := by
  rw [csqrt_eq_iff]
  have hn : Complex.sqrt e ≠ 0 := fun h => he0 (csqrt_eq_zero.1 h)
  obtain ⟨h1, h2, h3, h4⟩ := first_quadrant kx he
  have hsq : (Complex.sqrt e * Complex.sqrt (1 - (kx / Complex.sqrt e) ^ 2)) ^ 2 = Complex.sqrt e ^ 2 - kx ^ 2 := by
    rw [mul_pow, csqrt_sq (1 - _)]
    field_simp
  refine ⟨?_, hsq⟩
  rw [csqrt_sq] at hsq
  have hn2 := csqrt_sq e
  have hc2 := csqrt_sq (1 - (kx / Complex.sqrt e) ^ 2)
  rw [div_pow, hn2] at hc2
  rw [div_pow, hn2] at hsq h3 h4
  rw [div_pow, hn2]
  generalize hN : Complex.sqrt e = n at *
  generalize hC : Complex.sqrt (1 - kx ^ 2 / e) = c at *
  have him : 0 ≤ (n * c).im := by
    rw [Complex.mul_im]
    positivity
  by_contra hcon
  unfold Principal at hcon
  push Not at hcon
  obtain ⟨hc1, hc3⟩ := hcon
  rcases hc1.lt_or_eq with hlt | heq
  · -- (nc)^2 has imaginary part ≥ 0, so 2 re im ≥ 0
    have hI : ((n * c) ^ 2).im = e.im := by
      rw [hsq]
      simp [pow_two]
    rw [pow_two, Complex.mul_im] at hI
    have h0 : (n * c).im = 0 := by
      by_contra hne
      have : 0 < (n * c).im := lt_of_le_of_ne him (Ne.symm hne)
      nlinarith
    -- n c is a negative real number, both factors in the closed first quadrant: both purely imaginary
    have him0 : n.re * c.im + n.im * c.re = 0 := by rw [← Complex.mul_im]; exact h0
    have hre : n.re * c.re - n.im * c.im < 0 := by rw [← Complex.mul_re]; exact hlt
    have hA : n.re * c.im = 0 := by nlinarith [mul_nonneg h1 h4, mul_nonneg h2 h3]
    have hni : n.im ≠ 0 := by
      intro h; rw [h] at hre; nlinarith [mul_nonneg h1 h3]
    have hci : c.im ≠ 0 := by
      intro h; rw [h] at hre; nlinarith [mul_nonneg h1 h3]
    have hnr : n.re = 0 := by
      rcases mul_eq_zero.1 hA with h | h
      · exact h
      · exact absurd h hci
    have hcr : c.re = 0 := by
      rw [hnr] at him0
      simp at him0
      exact him0.resolve_left hni
    -- e is a negative real, c² = 1 - kx²/e > 0, but c² < 0
    have he' : e = ((-(n.im ^ 2) : ℝ) : ℂ) := by
      rw [← hn2]
      apply Complex.ext <;> simp [pow_two, hnr]
    have hcc : (c ^ 2).re = -(c.im ^ 2) := by simp [pow_two, hcr]
    rw [hc2, he', ← Complex.ofReal_pow, ← Complex.ofReal_div, Complex.sub_re, Complex.ofReal_re, Complex.one_re,
      div_neg, sub_neg_eq_add] at hcc
    have : 0 ≤ kx ^ 2 / n.im ^ 2 := by positivity
    nlinarith [sq_nonneg c.im]
  · have := hc3 heq
    linarith

lemma flux_blkC (n c : ℂ) (a : Fin 4 → ℂ) :
    flux (blkC (Ds n c) (Dp n c) *ᵥ a) =
      ((a 0 + a 1) * (starRingEnd ℂ) (n * c * (a 0 - a 1)) + c * (a 2 - a 3) * (starRingEnd ℂ) (n * (a 2 + a 3))).re := by
  have h : blkC (Ds n c) (Dp n c) *ᵥ a = ![c * (a 2 - a 3), a 0 + a 1, -(n * c * (a 0 - a 1)), n * (a 2 + a 3)] := by
    funext i
    fin_cases i <;> simp [blkC, Ds, Dp, Matrix.mulVec, dotProduct, Fin.sum_univ_four] <;> ring
  rw [h]
  unfold flux
  congr 1
  simp only [Matrix.cons_val, map_neg]
  ring

/-- Front half space with real index and real direction cosine. -/
lemma flux_front {n c : ℝ} (a : Fin 4 → ℂ) :
    flux (blkC (Ds n c) (Dp n c) *ᵥ a) = n * c * (‖a 0‖ ^ 2 - ‖a 1‖ ^ 2 + ‖a 2‖ ^ 2 - ‖a 3‖ ^ 2) := by
  rw [flux_blkC]
  simp only [← Complex.normSq_eq_norm_sq, Complex.normSq_apply]
  generalize a 0 = w
  generalize a 1 = x
  generalize a 2 = y
  generalize a 3 = z
  simp [Complex.mul_re, Complex.mul_im]
  ring

/-- Flux of the transmitted waves. -/
lemma flux_exit (n c : ℂ) (ts tp : ℂ) :
    flux (blkC (Ds n c) (Dp n c) *ᵥ ![ts, 0, tp, 0]) =
      (n * c).re * ‖ts‖ ^ 2 + (c * (starRingEnd ℂ) n).re * ‖tp‖ ^ 2 := by
  rw [flux_blkC]
  simp only [← Complex.normSq_eq_norm_sq, Complex.normSq_apply]
  simp [Complex.mul_re, Complex.mul_im]
  ring

end PyElli
