import Verif.Props.BulkAngles

/-! # Reflectance of a bulk sample and the angle of incidence (C147) -/

namespace PyElli

open Complex

/-- Total reflection: the sample is transparent and the angle beyond the critical one. -/
def Spec.TotalReflection (n0 : ℝ) (e : ℂ) (theta : ℝ) : Prop := e.im = 0 ∧ e.re ≤ (n0 * Real.sin (deg2rad theta)) ^ 2

section

variable {s : Stack} {n0 : ℝ}

/-- The normal component of the wave vector in the sample. -/
noncomputable def bulkW (n0 theta : ℝ) (e : ℂ) : ℂ := Complex.sqrt (e - ((n0 * Real.sin (deg2rad theta)) ^ 2 : ℝ))

lemma cos_pos_of_mem {theta : ℝ} (h1 : 0 ≤ theta) (h2 : theta < 90) : 0 < Real.cos (deg2rad theta) := cos_pos_of_angle (by rw [abs_of_nonneg h1]; exact h2)

lemma sinSq_lt' {t1 t2 : ℝ} (h1 : 0 ≤ t1) (h12 : t1 < t2) (h2 : t2 < 90) : Real.sin (deg2rad t1) ^ 2 < Real.sin (deg2rad t2) ^ 2 := by
  have hpi := Real.pi_pos
  have h0 : 0 ≤ Real.sin (deg2rad t1) := by
    apply Real.sin_nonneg_of_nonneg_of_le_pi <;> unfold deg2rad <;> nlinarith
  refine pow_lt_pow_left₀ (Real.sin_lt_sin_of_lt_of_le_pi_div_two ?_ ?_ ?_) h0 (by norm_num) <;> unfold deg2rad <;> nlinarith

lemma bulkW_quadrant (n0 theta : ℝ) {e : ℂ} (he : 0 ≤ e.im) : 0 ≤ (bulkW n0 theta e).re ∧ 0 ≤ (bulkW n0 theta e).im ∧
    bulkW n0 theta e ^ 2 = e - ((n0 * Real.sin (deg2rad theta)) ^ 2 : ℝ) :=
  ⟨csqrt_re_nonneg _, csqrt_im_nonneg (by rw [sub_im, ofReal_im, sub_zero]; exact he), csqrt_sq _⟩

/-- The two reflection coefficients. -/
lemma bulk_amplitudes (h : BulkSample s n0) {theta : ℝ} (h1 : 0 ≤ theta) (h2 : theta < 90) (lbda : ℝ) (ee) :
    (n0 * Real.cos (deg2rad theta) : ℂ) + bulkW n0 theta (s.back 0 0) ≠ 0 ∧
    s.back 0 0 * (Real.cos (deg2rad theta) : ℂ) + n0 * bulkW n0 theta (s.back 0 0) ≠ 0 ∧
    (calculate4x4 propExpm s theta lbda ee).jr 1 1 = ((n0 * Real.cos (deg2rad theta) : ℂ) - bulkW n0 theta (s.back 0 0)) / (n0 * Real.cos (deg2rad theta) + bulkW n0 theta (s.back 0 0)) ∧
    (calculate4x4 propExpm s theta lbda ee).jr 0 0 = (s.back 0 0 * (Real.cos (deg2rad theta) : ℂ) - n0 * bulkW n0 theta (s.back 0 0)) /
      (s.back 0 0 * (Real.cos (deg2rad theta) : ℂ) + n0 * bulkW n0 theta (s.back 0 0)) := by
  have hc := cos_pos_of_mem h1 h2
  have hn0 := h.index
  have hn0' : (n0 : ℂ) ≠ 0 := by exact_mod_cast hn0.ne'
  have hnf := nOf_front hn0 h.front
  have hcf := cosPhi_front s theta (by rw [hnf]; exact hn0') hc
  have hb0 : nOf s.back ≠ 0 := fun h' => h.nonzero (csqrt_eq_zero.1 h')
  have hnb : nOf s.back ^ 2 = s.back 0 0 := csqrt_sq _
  have hw : nOf s.back * cosPhi (kxOf s theta) s.back = bulkW n0 theta (s.back 0 0) := by
    have hk := kz_exit (n0 * Real.sin (deg2rad theta)) h.nonzero h.passive
    rw [csqrt_sq] at hk
    unfold bulkW cosPhi
    rw [kxOf_real hn0 h.front]
    push_cast at hk ⊢
    rw [hk]
    rfl
  obtain ⟨q1, q2, q3⟩ := bulkW_quadrant n0 theta h.passive
  set w := bulkW n0 theta (s.back 0 0) with hwd
  set c := Real.cos (deg2rad theta) with hcd
  set e := s.back 0 0 with hed
  have hS : (n0 * c : ℂ) + w ≠ 0 := by
    intro h0
    have := congrArg Complex.re h0
    simp at this
    nlinarith [mul_pos hn0 hc]
  have hP : e * (c : ℂ) + n0 * w ≠ 0 := by
    intro h0
    have hre := congrArg Complex.re h0
    have him := congrArg Complex.im h0
    simp only [add_re, add_im, re_mul_ofReal, im_mul_ofReal, re_ofReal_mul, im_ofReal_mul, zero_re, zero_im] at hre him
    have hei := h.passive
    have i1 : 0 ≤ e.im * c := mul_nonneg hei hc.le
    have i2 : 0 ≤ n0 * w.im := mul_nonneg hn0.le q2
    have w0 : w.im = 0 := by
      have : n0 * w.im = 0 := by linarith
      rcases mul_eq_zero.1 this with h' | h'
      · exact absurd h' hn0.ne'
      · exact h'
    have e0 : e.im = 0 := by
      have : e.im * c = 0 := by linarith
      rcases mul_eq_zero.1 this with h' | h'
      · exact h'
      · exact absurd h' hc.ne'
    have hq := congrArg Complex.re q3
    rw [sub_re, ofReal_re, pow_two, mul_re, w0] at hq
    have hneg : e.re ≤ 0 := by
      have : 0 ≤ n0 * w.re := mul_nonneg hn0.le q1
      nlinarith
    have hee : e.re = 0 := by nlinarith [sq_nonneg w.re, sq_nonneg (n0 * Real.sin (deg2rad theta))]
    exact h.nonzero (Complex.ext hee e0)
  have hds : nOf s.front * cosPhi (kxOf s theta) s.front + nOf s.back * cosPhi (kxOf s theta) s.back ≠ 0 := by
    rw [hnf, hcf, hw]; exact hS
  have hdp : nOf s.back * cosPhi (kxOf s theta) s.front + nOf s.front * cosPhi (kxOf s theta) s.back ≠ 0 := by
    intro h0
    apply hP
    rw [hnf, hcf] at h0
    rw [← hw, ← hnb]
    linear_combination nOf s.back * h0
  obtain ⟨⟨s1, s2⟩, ⟨p1, p2⟩⟩ := C32_fresnel_4x4 s theta lbda ee h.layers h.back (by rw [hnf]; exact hn0')
    (by rw [hcf]; exact_mod_cast hc.ne') hds hdp
  rw [hnf, hcf] at s2
  rw [hcf] at p1
  rw [hnf] at p2
  rw [hw] at s2
  refine ⟨hS, hP, ?_, ?_⟩
  · rw [eq_div_iff hS]
    linear_combination -s2 + w * s1
  · rw [eq_div_iff hP]
    linear_combination (-1 : ℂ) * (e * p1) + w * p2 - (calculate4x4 propExpm s theta lbda ee).jt 0 0 * (nOf s.back * hw - cosPhi (kxOf s theta) s.back * hnb)

/-- What decides the s reflection: it is the quotient of the contrast and `|n0 cos + w|²`. -/
lemma bulk_rs (h : BulkSample s n0) {theta : ℝ} (h1 : 0 ≤ theta) (h2 : theta < 90) (lbda : ℝ) (ee) :
    ‖(calculate4x4 propExpm s theta lbda ee).jr 1 1‖ * ‖(n0 * Real.cos (deg2rad theta) : ℂ) + bulkW n0 theta (s.back 0 0)‖ ^ 2 = ‖s.back 0 0 - (n0 : ℂ) ^ 2‖ := by
  obtain ⟨hS, -, hr, -⟩ := bulk_amplitudes h h1 h2 lbda ee
  obtain ⟨-, -, q3⟩ := bulkW_quadrant n0 theta h.passive
  have hcs : (Real.cos (deg2rad theta) : ℂ) ^ 2 + (Real.sin (deg2rad theta) : ℂ) ^ 2 = 1 := by exact_mod_cast Real.cos_sq_add_sin_sq _
  rw [← norm_pow, ← norm_mul, hr, norm_sub_rev]
  congr 1
  field_simp
  simp only [ofReal_mul, ofReal_pow] at q3
  linear_combination (n0 : ℂ) ^ 2 * hcs - q3

lemma normSq_add_real (c : ℝ) (w : ℂ) : ‖(c : ℂ) + w‖ ^ 2 = c ^ 2 + ‖w‖ ^ 2 + 2 * (c * w.re) := by
  rw [← normSq_eq_norm_sq, ← normSq_eq_norm_sq, normSq_apply, normSq_apply]
  simp
  ring

lemma re_sq_of (w : ℂ) : 2 * w.re ^ 2 = ‖w‖ ^ 2 + (w ^ 2).re := by
  rw [← normSq_eq_norm_sq, normSq_apply, pow_two w, mul_re]
  ring

/-- At a larger angle the normal component in the sample is smaller, in both senses needed. -/
lemma bulkW_mono (h : BulkSample s n0) {t1 t2 : ℝ} (h1 : 0 ≤ t1) (h12 : t1 < t2) (h2 : t2 < 90) :
    (n0 * Real.cos (deg2rad t2)) ^ 2 + ‖bulkW n0 t2 (s.back 0 0)‖ ^ 2 ≤ (n0 * Real.cos (deg2rad t1)) ^ 2 + ‖bulkW n0 t1 (s.back 0 0)‖ ^ 2 ∧
    (bulkW n0 t2 (s.back 0 0)).re ≤ (bulkW n0 t1 (s.back 0 0)).re := by
  obtain ⟨a1, a2, a3⟩ := bulkW_quadrant n0 t1 h.passive
  obtain ⟨b1, b2, b3⟩ := bulkW_quadrant n0 t2 h.passive
  have hs := sinSq_lt' h1 h12 h2
  have hc1 := Real.cos_sq_add_sin_sq (deg2rad t1)
  have hc2 := Real.cos_sq_add_sin_sq (deg2rad t2)
  have hn := h.index
  have hn2 : 0 < n0 ^ 2 := by positivity
  have e1 : ‖bulkW n0 t1 (s.back 0 0)‖ ^ 2 = ‖s.back 0 0 - ((n0 * Real.sin (deg2rad t1)) ^ 2 : ℝ)‖ := by rw [← norm_pow, a3]
  have e2 : ‖bulkW n0 t2 (s.back 0 0)‖ ^ 2 = ‖s.back 0 0 - ((n0 * Real.sin (deg2rad t2)) ^ 2 : ℝ)‖ := by rw [← norm_pow, b3]
  have htri : ‖s.back 0 0 - ((n0 * Real.sin (deg2rad t2)) ^ 2 : ℝ)‖ ≤ ‖s.back 0 0 - ((n0 * Real.sin (deg2rad t1)) ^ 2 : ℝ)‖ + n0 ^ 2 * (Real.sin (deg2rad t2) ^ 2 - Real.sin (deg2rad t1) ^ 2) := by
    have := norm_add_le (s.back 0 0 - ((n0 * Real.sin (deg2rad t1)) ^ 2 : ℝ)) ((-(n0 ^ 2 * (Real.sin (deg2rad t2) ^ 2 - Real.sin (deg2rad t1) ^ 2)) : ℝ) : ℂ)
    rw [norm_real, Real.norm_eq_abs, abs_neg, abs_of_nonneg (mul_nonneg hn2.le (by linarith))] at this
    refine le_trans (le_of_eq ?_) this
    congr 1
    push_cast
    ring
  have k1 : (n0 * Real.cos (deg2rad t2)) ^ 2 = n0 ^ 2 - n0 ^ 2 * Real.sin (deg2rad t2) ^ 2 := by rw [mul_pow]; linear_combination n0 ^ 2 * hc2
  have k2 : (n0 * Real.cos (deg2rad t1)) ^ 2 = n0 ^ 2 - n0 ^ 2 * Real.sin (deg2rad t1) ^ 2 := by rw [mul_pow]; linear_combination n0 ^ 2 * hc1
  refine ⟨by rw [e1, e2, k1, k2]; linarith, ?_⟩
  have r1 := re_sq_of (bulkW n0 t1 (s.back 0 0))
  have r2 := re_sq_of (bulkW n0 t2 (s.back 0 0))
  rw [a3, e1, sub_re, ofReal_re] at r1
  rw [b3, e2, sub_re, ofReal_re] at r2
  refine le_of_sq_le_sq ?_ a1
  nlinarith

/-- **C147.** R_s grows strictly with the angle of incidence, for every passive sample, until the reflection is total; there it stays one. -/
theorem C147_s (h : BulkSample s n0) {t1 t2 : ℝ} (h1 : 0 ≤ t1) (h12 : t1 < t2) (h2 : t2 < 90) (lbda : ℝ) (ee) (a : ℂ) :
    (¬ Spec.TotalReflection n0 (s.back 0 0) t1 → (measured s t1 lbda ee a).RMatrix 1 1 < (measured s t2 lbda ee a).RMatrix 1 1) ∧
    (Spec.TotalReflection n0 (s.back 0 0) t1 → (measured s t1 lbda ee a).RMatrix 1 1 = 1 ∧ (measured s t2 lbda ee a).RMatrix 1 1 = 1) := by
  have hn := h.index
  have hc1 := cos_pos_of_mem h1 (h12.trans h2)
  have hc2 := cos_pos_of_mem (h1.trans h12.le) h2
  have hs := sinSq_lt' h1 h12 h2
  obtain ⟨q1, q2, q3⟩ := bulkW_quadrant n0 t1 h.passive
  constructor
  · intro hT
    obtain ⟨m1, m2⟩ := bulkW_mono h h1 h12 h2
    have hpos : 0 < (bulkW n0 t1 (s.back 0 0)).re := by
      rcases q1.lt_or_eq with h' | h'
      · exact h'
      · exfalso
        apply hT
        have hre := congrArg Complex.re q3
        have him := congrArg Complex.im q3
        rw [pow_two, mul_re, sub_re, ofReal_re, ← h'] at hre
        rw [pow_two, mul_im, sub_im, ofReal_im, ← h'] at him
        constructor
        · linarith
        · nlinarith [mul_self_nonneg (bulkW n0 t1 (s.back 0 0)).im]
    have r1 := bulk_rs h h1 (h12.trans h2) lbda ee
    have r2 := bulk_rs h (h1.trans h12.le) h2 lbda ee
    have hP : 0 < ‖s.back 0 0 - (n0 : ℂ) ^ 2‖ := by
      rw [norm_pos_iff, sub_ne_zero]
      have := h.different
      rw [h.front] at this
      exact_mod_cast this
    have hcos : Real.cos (deg2rad t2) < Real.cos (deg2rad t1) := by
      have e1 := Real.cos_sq_add_sin_sq (deg2rad t1)
      have e2 := Real.cos_sq_add_sin_sq (deg2rad t2)
      exact lt_of_pow_lt_pow_left₀ 2 hc1.le (by linarith)
    have n1 := normSq_add_real (n0 * Real.cos (deg2rad t1)) (bulkW n0 t1 (s.back 0 0))
    have n2 := normSq_add_real (n0 * Real.cos (deg2rad t2)) (bulkW n0 t2 (s.back 0 0))
    simp only [ofReal_mul] at n1 n2
    rw [n1] at r1
    rw [n2] at r2
    have hlt : n0 * Real.cos (deg2rad t2) * (bulkW n0 t2 (s.back 0 0)).re < n0 * Real.cos (deg2rad t1) * (bulkW n0 t1 (s.back 0 0)).re := by
      have b1 := (bulkW_quadrant n0 t2 h.passive).1
      calc n0 * Real.cos (deg2rad t2) * (bulkW n0 t2 (s.back 0 0)).re ≤ n0 * Real.cos (deg2rad t2) * (bulkW n0 t1 (s.back 0 0)).re :=
            mul_le_mul_of_nonneg_left m2 (by positivity)
        _ < _ := mul_lt_mul_of_pos_right (mul_lt_mul_of_pos_left hcos hn) hpos
    show ‖(calculate4x4 propExpm s t1 lbda ee).jr 1 1‖ ^ 2 < ‖(calculate4x4 propExpm s t2 lbda ee).jr 1 1‖ ^ 2
    refine pow_lt_pow_left₀ ?_ (norm_nonneg _) (by norm_num)
    generalize ‖(calculate4x4 propExpm s t1 lbda ee).jr 1 1‖ = x at *
    generalize ‖(calculate4x4 propExpm s t2 lbda ee).jr 1 1‖ = y at *
    have hd2 : 0 ≤ (n0 * Real.cos (deg2rad t2)) ^ 2 + ‖bulkW n0 t2 (s.back 0 0)‖ ^ 2 + 2 * (n0 * Real.cos (deg2rad t2) * (bulkW n0 t2 (s.back 0 0)).re) := by
      have b1 := (bulkW_quadrant n0 t2 h.passive).1
      positivity
    by_contra hcon
    push Not at hcon
    have hy : 0 < y := by
      by_contra hy
      push Not at hy
      nlinarith
    nlinarith
  · intro hT
    have key : ∀ t, 0 ≤ t → t < 90 → Spec.TotalReflection n0 (s.back 0 0) t → (measured s t lbda ee a).RMatrix 1 1 = 1 := by
      intro t ht ht' hT
      obtain ⟨hS, -, hr, -⟩ := bulk_amplitudes h ht ht' lbda ee
      obtain ⟨q1, q2, q3⟩ := bulkW_quadrant n0 t h.passive
      have hw0 : (bulkW n0 t (s.back 0 0)).re = 0 := by
        have hre := congrArg Complex.re q3
        have him := congrArg Complex.im q3
        rw [pow_two, mul_re, sub_re, ofReal_re] at hre
        rw [pow_two, mul_im, sub_im, ofReal_im, hT.1] at him
        have : (bulkW n0 t (s.back 0 0)).re * (bulkW n0 t (s.back 0 0)).im = 0 := by linarith
        rcases mul_eq_zero.1 this with h' | h'
        · exact h'
        · have := hT.2
          rw [h'] at hre
          nlinarith [mul_self_nonneg (bulkW n0 t (s.back 0 0)).re]
      show ‖(calculate4x4 propExpm s t lbda ee).jr 1 1‖ ^ 2 = 1
      rw [hr, norm_div, div_pow]
      have n1 := normSq_add_real (n0 * Real.cos (deg2rad t)) (bulkW n0 t (s.back 0 0))
      have n2 := normSq_add_real (n0 * Real.cos (deg2rad t)) (-bulkW n0 t (s.back 0 0))
      rw [norm_neg, neg_re, hw0, ← sub_eq_add_neg] at n2
      rw [hw0] at n1
      simp only [ofReal_mul] at n1 n2
      rw [n2, show (n0 * Real.cos (deg2rad t)) ^ 2 + ‖bulkW n0 t (s.back 0 0)‖ ^ 2 + 2 * (n0 * Real.cos (deg2rad t) * -0) =
        ‖(n0 : ℂ) * Real.cos (deg2rad t) + bulkW n0 t (s.back 0 0)‖ ^ 2 by rw [n1]; ring]
      exact div_self (pow_ne_zero 2 (norm_ne_zero_iff.2 hS))
    have hT2 : Spec.TotalReflection n0 (s.back 0 0) t2 := ⟨hT.1, by
      have := hT.2
      rw [mul_pow] at this ⊢
      have hn2 : 0 < n0 ^ 2 := by positivity
      nlinarith⟩
    exact ⟨key t1 h1 (h12.trans h2) hT, key t2 (h1.trans h12.le) h2 hT2⟩

lemma cayley_below {x y : ℝ} (hx : 0 ≤ x) (hxy : x < y) (hy : y ≤ 1) : |(1 - y) / (1 + y)| < |(1 - x) / (1 + x)| := by
  rw [abs_of_nonneg (div_nonneg (by linarith) (by linarith)), abs_of_nonneg (div_nonneg (by linarith) (by linarith)), div_lt_div_iff₀ (by linarith) (by linarith)]
  nlinarith

lemma cayley_above {x y : ℝ} (hx : 1 ≤ x) (hxy : x < y) : |(1 - x) / (1 + x)| < |(1 - y) / (1 + y)| := by
  rw [abs_of_nonpos (div_nonpos_of_nonpos_of_nonneg (by linarith) (by linarith)), abs_of_nonpos (div_nonpos_of_nonpos_of_nonneg (by linarith) (by linarith)), neg_lt_neg_iff,
    div_lt_div_iff₀ (by linarith) (by linarith)]
  nlinarith

/-- The quotient that decides the p reflection of a transparent sample. -/
noncomputable def transparentV (n0 nb theta : ℝ) : ℝ := n0 * √(nb ^ 2 - (n0 * Real.sin (deg2rad theta)) ^ 2) / (nb ^ 2 * Real.cos (deg2rad theta))

lemma transparentV_sq {n0 nb theta : ℝ} (hc : 0 < Real.cos (deg2rad theta)) (hnb : 0 < nb) (hin : (n0 * Real.sin (deg2rad theta)) ^ 2 ≤ nb ^ 2) :
    transparentV n0 nb theta ^ 2 * (nb ^ 4 * (1 - Real.sin (deg2rad theta) ^ 2)) = n0 ^ 2 * (nb ^ 2 - n0 ^ 2 * Real.sin (deg2rad theta) ^ 2) := by
  have hcs := Real.cos_sq_add_sin_sq (deg2rad theta)
  unfold transparentV
  rw [div_pow, mul_pow, Real.sq_sqrt (by linarith), show 1 - Real.sin (deg2rad theta) ^ 2 = Real.cos (deg2rad theta) ^ 2 by linarith]
  field_simp

lemma transparent_rp (h : BulkSample s n0) {nb : ℝ} (hnb : 0 < nb) (he : s.back 0 0 = ((nb ^ 2 : ℝ) : ℂ)) {theta : ℝ} (h1 : 0 ≤ theta) (h2 : theta < 90)
    (hin : (n0 * Real.sin (deg2rad theta)) ^ 2 ≤ nb ^ 2) (lbda : ℝ) (ee) :
    (calculate4x4 propExpm s theta lbda ee).jr 0 0 = (((1 - transparentV n0 nb theta) / (1 + transparentV n0 nb theta) : ℝ) : ℂ) := by
  obtain ⟨-, hP, -, hr⟩ := bulk_amplitudes h h1 h2 lbda ee
  have hc := cos_pos_of_mem h1 h2
  have hw : bulkW n0 theta (s.back 0 0) = (√(nb ^ 2 - (n0 * Real.sin (deg2rad theta)) ^ 2) : ℝ) := by
    unfold bulkW
    rw [he, ← ofReal_sub, csqrt_ofReal (by linarith)]
  have hn := h.index
  have hV : 0 ≤ transparentV n0 nb theta := by unfold transparentV; positivity
  rw [hr, hw, he]
  rw [← ofReal_mul, ← ofReal_mul, ← ofReal_sub, ← ofReal_add, ← ofReal_div, ofReal_inj]
  unfold transparentV at *
  generalize √(nb ^ 2 - (n0 * Real.sin (deg2rad theta)) ^ 2) = w at *
  have hd : nb ^ 2 * Real.cos (deg2rad theta) ≠ 0 := by positivity
  generalize nb ^ 2 * Real.cos (deg2rad theta) = d at *
  have h3 : d + n0 * w ≠ 0 := by
    intro h0
    have : 1 + n0 * w / d = 0 := by field_simp; linarith
    linarith
  field_simp

lemma tan_sin {theta k : ℝ} (h1 : 0 ≤ theta) (h2 : theta < 90) (hk : 0 < k) :
    (Real.tan (deg2rad theta) ≤ k ↔ Real.sin (deg2rad theta) ^ 2 * (1 + k ^ 2) ≤ k ^ 2) ∧ (k ≤ Real.tan (deg2rad theta) ↔ k ^ 2 ≤ Real.sin (deg2rad theta) ^ 2 * (1 + k ^ 2)) := by
  have hc := cos_pos_of_mem h1 h2
  have hpi := Real.pi_pos
  have hs : 0 ≤ Real.sin (deg2rad theta) := by
    apply Real.sin_nonneg_of_nonneg_of_le_pi <;> unfold deg2rad <;> nlinarith
  have hcs := Real.cos_sq_add_sin_sq (deg2rad theta)
  rw [Real.tan_eq_sin_div_cos, div_le_iff₀ hc, le_div_iff₀ hc]
  have hkc : 0 ≤ k * Real.cos (deg2rad theta) := by positivity
  rw [← pow_le_pow_iff_left₀ hs hkc two_ne_zero, ← pow_le_pow_iff_left₀ hkc hs two_ne_zero, mul_pow]
  have e : Real.cos (deg2rad theta) ^ 2 = 1 - Real.sin (deg2rad theta) ^ 2 := by linarith
  rw [e]
  constructor <;> constructor <;> intro h <;> linarith

lemma brewster_core {x y S T k p q : ℝ} (v1 : 0 ≤ x) (v2 : 0 ≤ y) (hs : S < T) (hS1 : S < 1) (hS2 : T < 1) (hdiff : q ≠ p) (hdiv : k * p = q) (hn2 : 0 < p) (hnb2 : 0 < q)
    (e1 : x ^ 2 * (q ^ 2 * (1 - S)) = p * (q - p * S)) (e2 : y ^ 2 * (q ^ 2 * (1 - T)) = p * (q - p * T)) :
    (T * (1 + k) ≤ k → |(1 - y) / (1 + y)| ^ 2 < |(1 - x) / (1 + x)| ^ 2) ∧ (k ≤ S * (1 + k) → |(1 - x) / (1 + x)| ^ 2 < |(1 - y) / (1 + y)| ^ 2) := by
  have hS1' : 0 < 1 - S := by linarith
  have hT1' : 0 < 1 - T := by linarith
  have hq2 : 0 < q ^ 2 := by positivity
  -- both quotients with one denominator
  have cmp : (y ^ 2 - x ^ 2) * (q ^ 2 * ((1 - S) * (1 - T))) = p * ((q - p) * (T - S)) := by linear_combination (1 - S) * e2 - (1 - T) * e1
  have one1 : (x ^ 2 - 1) * (q ^ 2 * (1 - S)) = (q - p) * (S * (q + p) - q) := by linear_combination e1
  have one2 : (y ^ 2 - 1) * (q ^ 2 * (1 - T)) = (q - p) * (T * (q + p) - q) := by linear_combination e2
  have b2 : T * (1 + k) ≤ k → T * (q + p) ≤ q := fun h => by rw [← hdiv]; nlinarith
  have b1 : k ≤ S * (1 + k) → q ≤ S * (q + p) := fun h => by rw [← hdiv]; nlinarith
  have sqle : ∀ u : ℝ, 0 ≤ u → u ^ 2 ≤ 1 → u ≤ 1 := fun u hu h => by nlinarith
  have sqge : ∀ u : ℝ, 0 ≤ u → 1 ≤ u ^ 2 → 1 ≤ u := fun u hu h => by nlinarith
  have hpd : 0 < q ^ 2 * ((1 - S) * (1 - T)) := by positivity
  rcases lt_or_gt_of_ne hdiff with hlt | hgt
  · -- optically thinner sample
    have hyx : y < x := by
      have : 0 < (x ^ 2 - y ^ 2) * (q ^ 2 * ((1 - S) * (1 - T))) := by
        have : 0 < p * ((p - q) * (T - S)) := mul_pos hn2 (mul_pos (by linarith) (by linarith))
        nlinarith
      have := pos_of_mul_pos_left this hpd.le
      nlinarith
    constructor
    · intro hB
      have hy1 : 1 ≤ y := sqge y v2 (by
        have h0 : 0 ≤ (y ^ 2 - 1) * (q ^ 2 * (1 - T)) := by
          rw [one2]
          exact mul_nonneg_of_nonpos_of_nonpos (by linarith) (by linarith [b2 hB])
        have := nonneg_of_mul_nonneg_left h0 (by positivity)
        linarith)
      exact pow_lt_pow_left₀ (cayley_above hy1 hyx) (abs_nonneg _) (by norm_num)
    · intro hB
      have hx1 : x ≤ 1 := sqle x v1 (by
        have h0 : (x ^ 2 - 1) * (q ^ 2 * (1 - S)) ≤ 0 := by
          rw [one1]
          exact mul_nonpos_of_nonpos_of_nonneg (by linarith) (by linarith [b1 hB])
        by_contra hc
        push Not at hc
        have : 0 < (x ^ 2 - 1) * (q ^ 2 * (1 - S)) := mul_pos (by linarith) (by positivity)
        linarith)
      exact pow_lt_pow_left₀ (cayley_below v2 hyx hx1) (abs_nonneg _) (by norm_num)
  · have hxy : x < y := by
      have : 0 < (y ^ 2 - x ^ 2) * (q ^ 2 * ((1 - S) * (1 - T))) := by
        rw [cmp]
        exact mul_pos hn2 (mul_pos (by linarith) (by linarith))
      have := pos_of_mul_pos_left this hpd.le
      nlinarith
    constructor
    · intro hB
      have hy1 : y ≤ 1 := sqle y v2 (by
        have h0 : (y ^ 2 - 1) * (q ^ 2 * (1 - T)) ≤ 0 := by
          rw [one2]
          exact mul_nonpos_of_nonneg_of_nonpos (by linarith) (by linarith [b2 hB])
        by_contra hc
        push Not at hc
        have : 0 < (y ^ 2 - 1) * (q ^ 2 * (1 - T)) := mul_pos (by linarith) (by positivity)
        linarith)
      exact pow_lt_pow_left₀ (cayley_below v1 hxy hy1) (abs_nonneg _) (by norm_num)
    · intro hB
      have hx1 : 1 ≤ x := sqge x v1 (by
        have h0 : 0 ≤ (x ^ 2 - 1) * (q ^ 2 * (1 - S)) := by
          rw [one1]
          exact mul_nonneg (by linarith) (by linarith [b1 hB])
        have := nonneg_of_mul_nonneg_left h0 (by positivity)
        linarith)
      exact pow_lt_pow_left₀ (cayley_above hx1 hxy) (abs_nonneg _) (by norm_num)

/-- **C147.** A transparent sample below total reflection: R_p falls strictly until Brewster's angle and rises strictly after it. -/
theorem C147_p (h : BulkSample s n0) {nb : ℝ} (hnb : 0 < nb) (he : s.back 0 0 = ((nb ^ 2 : ℝ) : ℂ)) {t1 t2 : ℝ} (h1 : 0 ≤ t1) (h12 : t1 < t2) (h2 : t2 < 90)
    (hcrit : n0 * Real.sin (deg2rad t2) ≤ nb) (lbda : ℝ) (ee) (a : ℂ) :
    (Real.tan (deg2rad t2) ≤ nb / n0 → (measured s t2 lbda ee a).RMatrix 0 0 < (measured s t1 lbda ee a).RMatrix 0 0) ∧
    (nb / n0 ≤ Real.tan (deg2rad t1) → (measured s t1 lbda ee a).RMatrix 0 0 < (measured s t2 lbda ee a).RMatrix 0 0) := by
  have hn := h.index
  have hc1 := cos_pos_of_mem h1 (h12.trans h2)
  have hc2 := cos_pos_of_mem (h1.trans h12.le) h2
  have hs2 := sin_pos_of_angle (h1.trans_lt h12) h2
  have hs := sinSq_lt' h1 h12 h2
  have hi2 : (n0 * Real.sin (deg2rad t2)) ^ 2 ≤ nb ^ 2 := pow_le_pow_left₀ (by positivity) hcrit 2
  have hi1 : (n0 * Real.sin (deg2rad t1)) ^ 2 ≤ nb ^ 2 := by
    rw [mul_pow] at hi2 ⊢
    have : 0 < n0 ^ 2 := by positivity
    nlinarith
  have e1 := transparentV_sq hc1 hnb hi1
  have e2 := transparentV_sq hc2 hnb hi2
  have r1 := transparent_rp h hnb he h1 (h12.trans h2) hi1 lbda ee
  have r2 := transparent_rp h hnb he (h1.trans h12.le) h2 hi2 lbda ee
  have v1 : 0 ≤ transparentV n0 nb t1 := by unfold transparentV; positivity
  have v2 : 0 ≤ transparentV n0 nb t2 := by unfold transparentV; positivity
  have hS1 : Real.sin (deg2rad t1) ^ 2 < 1 := by have := Real.cos_sq_add_sin_sq (deg2rad t1); nlinarith
  have hS2 : Real.sin (deg2rad t2) ^ 2 < 1 := by have := Real.cos_sq_add_sin_sq (deg2rad t2); nlinarith
  have hS0 := sq_nonneg (Real.sin (deg2rad t1))
  have hdiff : nb ^ 2 ≠ n0 ^ 2 := fun h0 => h.different (by rw [he, h.front, h0])
  have hk : 0 < nb / n0 := by positivity
  have m1 : ‖(calculate4x4 propExpm s t1 lbda ee).jr 0 0‖ = |(1 - transparentV n0 nb t1) / (1 + transparentV n0 nb t1)| := by rw [r1, norm_real, Real.norm_eq_abs]
  have m2 : ‖(calculate4x4 propExpm s t2 lbda ee).jr 0 0‖ = |(1 - transparentV n0 nb t2) / (1 + transparentV n0 nb t2)| := by rw [r2, norm_real, Real.norm_eq_abs]
  have hb2 := (tan_sin (h1.trans h12.le) h2 hk).1
  have hb1 := (tan_sin h1 (h12.trans h2) hk).2
  have hdiv : (nb / n0) ^ 2 * n0 ^ 2 = nb ^ 2 := by field_simp
  have hn2 : 0 < n0 ^ 2 := by positivity
  have hnb2 : 0 < nb ^ 2 := by positivity
  show (_ → ‖(calculate4x4 propExpm s t2 lbda ee).jr 0 0‖ ^ 2 < ‖(calculate4x4 propExpm s t1 lbda ee).jr 0 0‖ ^ 2) ∧
    (_ → ‖(calculate4x4 propExpm s t1 lbda ee).jr 0 0‖ ^ 2 < ‖(calculate4x4 propExpm s t2 lbda ee).jr 0 0‖ ^ 2)
  rw [hb2, hb1, m1, m2]
  exact brewster_core v1 v2 hs hS1 hS2 hdiff hdiv hn2 hnb2 (by rw [← e1]; ring) (by rw [← e2]; ring)

lemma psi_core {x y S T k p q : ℝ} (v1 : 0 ≤ x) (v2 : 0 ≤ y) (hS0 : 0 < S) (hs : S < T) (hS2 : T < 1) (hdiv : k * p = q) (hn2 : 0 < p) (hin : p * T ≤ q)
    (e1 : x ^ 2 * (p * S ^ 2) = (1 - S) * (q - p * S)) (e2 : y ^ 2 * (p * T ^ 2) = (1 - T) * (q - p * T)) :
    (T * (1 + k) ≤ k → |(1 - y) / (1 + y)| < |(1 - x) / (1 + x)|) ∧ (k ≤ S * (1 + k) → |(1 - x) / (1 + x)| < |(1 - y) / (1 + y)|) := by
  have hlt : (1 - T) * (q - p * T) < (1 - S) * (q - p * S) := by
    have h1 : p * S < p * T := mul_lt_mul_of_pos_left hs hn2
    nlinarith
  have hyx : y < x := by
    have h1 : p * S ^ 2 ≤ p * T ^ 2 := mul_le_mul_of_nonneg_left (pow_le_pow_left₀ hS0.le hs.le 2) hn2.le
    have h2 : x ^ 2 * (p * S ^ 2) ≤ x ^ 2 * (p * T ^ 2) := mul_le_mul_of_nonneg_left h1 (sq_nonneg x)
    have h3 : 0 < (x ^ 2 - y ^ 2) * (p * T ^ 2) := by linarith
    have h4 := pos_of_mul_pos_left h3 (by positivity)
    nlinarith
  have b2 : T * (1 + k) ≤ k → T * (q + p) ≤ q := fun h => by rw [← hdiv]; nlinarith
  have b1 : k ≤ S * (1 + k) → q ≤ S * (q + p) := fun h => by rw [← hdiv]; nlinarith
  constructor
  · intro hB
    refine cayley_above ?_ hyx
    have h0 : 0 ≤ (y ^ 2 - 1) * (p * T ^ 2) := by nlinarith [b2 hB]
    have h1 := nonneg_of_mul_nonneg_left h0 (by have : 0 < T := hS0.trans hs; positivity)
    nlinarith
  · intro hB
    refine cayley_below v2 hyx ?_
    by_contra hc
    push Not at hc
    have h0 : 0 < (x ^ 2 - 1) * (p * S ^ 2) := mul_pos (by nlinarith) (by positivity)
    nlinarith [b1 hB]

/-- **C147.** A transparent sample below total reflection: psi falls strictly until Brewster's angle and rises strictly after it. -/
theorem C147_psi (h : BulkSample s n0) {nb : ℝ} (hnb : 0 < nb) (he : s.back 0 0 = ((nb ^ 2 : ℝ) : ℂ)) {t1 t2 : ℝ} (h1 : 0 < t1) (h12 : t1 < t2) (h2 : t2 < 90)
    (hcrit : n0 * Real.sin (deg2rad t2) ≤ nb) (lbda : ℝ) (ee) {a : ℂ} (ha : a ≠ 0) :
    (Real.tan (deg2rad t2) ≤ nb / n0 → (measured s t2 lbda ee a).psi < (measured s t1 lbda ee a).psi) ∧
    (nb / n0 ≤ Real.tan (deg2rad t1) → (measured s t1 lbda ee a).psi < (measured s t2 lbda ee a).psi) := by
  have hn := h.index
  have hn2 : 0 < n0 ^ 2 := by positivity
  have hs2 := sin_pos_of_angle (h1.trans h12) h2
  have hs1 := sin_pos_of_angle h1 (h12.trans h2)
  have hc1 := cos_pos_of_mem h1.le (h12.trans h2)
  have hc2 := cos_pos_of_mem (h1.trans h12).le h2
  have hs := sinSq_lt' h1.le h12 h2
  have hk : 0 < nb / n0 := by positivity
  have hi2 : (n0 * Real.sin (deg2rad t2)) ^ 2 ≤ nb ^ 2 := pow_le_pow_left₀ (by positivity) hcrit 2
  have hi1 : (n0 * Real.sin (deg2rad t1)) ^ 2 ≤ nb ^ 2 := by
    rw [mul_pow] at hi2 ⊢
    nlinarith
  have key : ∀ t, 0 < t → t < 90 → (n0 * Real.sin (deg2rad t)) ^ 2 ≤ nb ^ 2 → ∃ x : ℝ, 0 ≤ x ∧
      x ^ 2 * (n0 ^ 2 * (Real.sin (deg2rad t) ^ 2) ^ 2) = (1 - Real.sin (deg2rad t) ^ 2) * (nb ^ 2 - n0 ^ 2 * Real.sin (deg2rad t) ^ 2) ∧
      (measured s t lbda ee a).rho = (((1 - x) / (1 + x) : ℝ) : ℂ) := by
    intro t ht ht' hi
    have hst := sin_pos_of_angle ht ht'
    have hct := cos_pos_of_mem ht.le ht'
    have hcs := Real.cos_sq_add_sin_sq (deg2rad t)
    refine ⟨Real.cos (deg2rad t) / (n0 * Real.sin (deg2rad t) ^ 2) * √(nb ^ 2 - (n0 * Real.sin (deg2rad t)) ^ 2), by positivity, ?_, ?_⟩
    · rw [mul_pow, div_pow, Real.sq_sqrt (by linarith), show 1 - Real.sin (deg2rad t) ^ 2 = Real.cos (deg2rad t) ^ 2 by linarith]
      field_simp
    · rw [(bulk_rho h ht ht' lbda ee ha).2]
      have hV : bulkV n0 t (s.back 0 0) = ((Real.cos (deg2rad t) / (n0 * Real.sin (deg2rad t) ^ 2) * √(nb ^ 2 - (n0 * Real.sin (deg2rad t)) ^ 2) : ℝ) : ℂ) := by
        unfold bulkV
        rw [he, ← ofReal_sub, csqrt_ofReal (by linarith), ← ofReal_mul]
      rw [hV, ← ofReal_one, ← ofReal_sub, ← ofReal_add, ← ofReal_div]
  obtain ⟨x, x0, ex, rx⟩ := key t1 h1 (h12.trans h2) hi1
  obtain ⟨y, y0, ey, ry⟩ := key t2 (h1.trans h12) h2 hi2
  have hS2 : Real.sin (deg2rad t2) ^ 2 < 1 := by have := Real.cos_sq_add_sin_sq (deg2rad t2); nlinarith
  obtain ⟨c1, c2⟩ := psi_core x0 y0 (by positivity) hs hS2 (k := (nb / n0) ^ 2) (by field_simp) hn2 (by rw [← mul_pow]; exact hi2) ex ey
  have hpsi : ∀ u v : ℝ, |u| < |v| → psiOf (u : ℂ) < psiOf (v : ℂ) := by
    intro u v huv
    unfold psiOf rad2deg
    rw [norm_real, norm_real, Real.norm_eq_abs, Real.norm_eq_abs]
    have := Real.arctan_strictMono huv
    have hpi := Real.pi_pos
    exact mul_lt_mul_of_pos_right this (by positivity)
  constructor
  · intro hB
    have := hpsi _ _ (c1 ((tan_sin (h1.trans h12).le h2 hk).1.1 hB))
    rw [← rx, ← ry] at this
    exact this
  · intro hB
    have := hpsi _ _ (c2 ((tan_sin h1.le (h12.trans h2) hk).2.1 hB))
    rw [← rx, ← ry] at this
    exact this

lemma one_sub_cayley {a b : ℂ} (hab : 0 ≤ (a * (starRingEnd ℂ) b).re) (hb : b ≠ 0) : 1 - ‖(a - b) / (a + b)‖ ^ 2 ≤ 4 * ‖a‖ / ‖b‖ := by
  set X := (a * (starRingEnd ℂ) b).re with hX
  have h1 : ‖a - b‖ ^ 2 = ‖a‖ ^ 2 + ‖b‖ ^ 2 - 2 * X := by
    simp only [← normSq_eq_norm_sq, normSq_sub, hX]
  have h2 : ‖a + b‖ ^ 2 = ‖a‖ ^ 2 + ‖b‖ ^ 2 + 2 * X := by
    simp only [← normSq_eq_norm_sq, normSq_add, hX]
  have hbp : 0 < ‖b‖ := norm_pos_iff.2 hb
  have hXn : X ≤ ‖a‖ * ‖b‖ := by
    refine (re_le_norm _).trans (le_of_eq ?_)
    rw [norm_mul, RCLike.norm_conj]
  have hd : 0 < ‖a + b‖ ^ 2 := by rw [h2]; positivity
  rw [norm_div, div_pow, one_sub_div hd.ne', div_le_div_iff₀ hd hbp, h1, h2]
  have ha := norm_nonneg a
  have : 0 ≤ ‖a‖ * (‖a‖ ^ 2 + 2 * X) := by positivity
  nlinarith

/-- **C147.** Towards grazing incidence every sample reflects everything: what is missing is at most a constant times the cosine of the angle. -/
theorem C147_grazing (h : BulkSample s n0) : ∃ C : ℝ, ∀ theta, 0 ≤ theta → theta < 90 → ∀ lbda ee a,
    1 - (measured s theta lbda ee a).RMatrix 0 0 ≤ C * Real.cos (deg2rad theta) ∧ 1 - (measured s theta lbda ee a).RMatrix 1 1 ≤ C * Real.cos (deg2rad theta) := by
  have hn := h.index
  have hP : 0 < ‖s.back 0 0 - (n0 : ℂ) ^ 2‖ := by
    rw [norm_pos_iff, sub_ne_zero]
    have := h.different
    rw [h.front] at this
    exact_mod_cast this
  set P := ‖s.back 0 0 - (n0 : ℂ) ^ 2‖ with hPd
  set g := √(2 / P) with hg
  have hg0 : 0 < g := Real.sqrt_pos.2 (by positivity)
  have hgP : g ^ 2 * P = 2 := by rw [hg, Real.sq_sqrt (by positivity)]; field_simp
  refine ⟨g * (4 * n0 + 4 * ‖s.back 0 0‖ / n0), ?_⟩
  intro theta h1 h2 lbda ee a
  obtain ⟨hS, hPn, hrs, hrp⟩ := bulk_amplitudes h h1 h2 lbda ee
  obtain ⟨q1, q2, q3⟩ := bulkW_quadrant n0 theta h.passive
  have hc := cos_pos_of_mem h1 h2
  have hcs := Real.cos_sq_add_sin_sq (deg2rad theta)
  set w := bulkW n0 theta (s.back 0 0) with hw
  set c := Real.cos (deg2rad theta) with hcd
  set e := s.back 0 0 with hed
  have hw2 : ‖w‖ ^ 2 = ‖(e - (n0 : ℂ) ^ 2) + (((n0 * c) ^ 2 : ℝ) : ℂ)‖ := by
    rw [← norm_pow, q3]
    congr 1
    have : (n0 * Real.sin (deg2rad theta)) ^ 2 = n0 ^ 2 - (n0 * c) ^ 2 := by rw [mul_pow, mul_pow]; linear_combination n0 ^ 2 * hcs
    rw [this]
    push_cast
    ring
  show 1 - ‖(calculate4x4 propExpm s theta lbda ee).jr 0 0‖ ^ 2 ≤ _ ∧ 1 - ‖(calculate4x4 propExpm s theta lbda ee).jr 1 1‖ ^ 2 ≤ _
  have hen : 0 ≤ ‖e‖ / n0 := by positivity
  by_cases hsmall : P / 2 ≤ (n0 * c) ^ 2
  · have h1c : 1 ≤ g * (n0 * c) := by
      have : 1 ≤ (g * (n0 * c)) ^ 2 := by
        rw [mul_pow]
        have := mul_le_mul_of_nonneg_left hsmall (sq_nonneg g)
        nlinarith
      have hp : 0 ≤ g * (n0 * c) := by positivity
      nlinarith
    have hC : 1 ≤ g * (4 * n0 + 4 * ‖e‖ / n0) * c := by
      have : 0 ≤ g * (3 * n0 + 4 * ‖e‖ / n0) * c := by positivity
      nlinarith
    exact ⟨by nlinarith [sq_nonneg ‖(calculate4x4 propExpm s theta lbda ee).jr 0 0‖], by nlinarith [sq_nonneg ‖(calculate4x4 propExpm s theta lbda ee).jr 1 1‖]⟩
  · push Not at hsmall
    have hwlow : P / 2 ≤ ‖w‖ ^ 2 := by
      rw [hw2]
      have := norm_sub_le ((e - (n0 : ℂ) ^ 2) + (((n0 * c) ^ 2 : ℝ) : ℂ)) ((((n0 * c) ^ 2 : ℝ) : ℂ))
      rw [add_sub_cancel_right, norm_real, Real.norm_eq_abs, abs_of_nonneg (sq_nonneg (n0 * c))] at this
      linarith
    have hwp : 0 < ‖w‖ := by
      by_contra h0
      have : ‖w‖ = 0 := le_antisymm (not_lt.1 h0) (norm_nonneg _)
      rw [this] at hwlow
      linarith
    have hinv : 1 / ‖w‖ ≤ g := by
      rw [div_le_iff₀ hwp]
      have : 1 ≤ (g * ‖w‖) ^ 2 := by
        rw [mul_pow]
        have := mul_le_mul_of_nonneg_left hwlow (sq_nonneg g)
        nlinarith
      have hp : 0 ≤ g * ‖w‖ := by positivity
      nlinarith
    have hw0 : w ≠ 0 := norm_pos_iff.1 hwp
    constructor
    · have hX : 0 ≤ (e * (c : ℂ) * (starRingEnd ℂ) ((n0 : ℂ) * w)).re := by
        have e1 : e = w ^ 2 + ((n0 * Real.sin (deg2rad theta)) ^ 2 : ℝ) := by rw [q3]; ring
        have e2 : (e * (c : ℂ) * (starRingEnd ℂ) ((n0 : ℂ) * w)).re = c * n0 * ((w.re ^ 2 + w.im ^ 2 + (n0 * Real.sin (deg2rad theta)) ^ 2) * w.re) := by
          rw [e1, map_mul, conj_ofReal]
          simp only [pow_two, mul_re, add_re, add_im, mul_im, ofReal_re, ofReal_im, conj_re, conj_im, ofReal_mul]
          ring
        rw [e2]
        positivity
      have := one_sub_cayley hX (mul_ne_zero (by exact_mod_cast hn.ne') hw0)
      rw [← hrp, norm_mul, norm_mul, norm_real, norm_real, Real.norm_eq_abs, Real.norm_eq_abs, abs_of_pos hc, abs_of_pos hn] at this
      refine this.trans ?_
      have e3 : 4 * (‖e‖ * c) / (n0 * ‖w‖) = 4 * (‖e‖ / n0) * c * (1 / ‖w‖) := by field_simp
      rw [e3]
      have h5 := mul_le_mul_of_nonneg_left hinv (by positivity : 0 ≤ 4 * (‖e‖ / n0) * c)
      have h6 : 0 ≤ g * (4 * n0) * c := by positivity
      have h7 : g * (4 * n0 + 4 * ‖e‖ / n0) * c = g * (4 * n0) * c + 4 * (‖e‖ / n0) * c * g := by ring
      linarith
    · have hX : 0 ≤ (((n0 : ℂ) * (c : ℂ)) * (starRingEnd ℂ) w).re := by
        rw [← ofReal_mul, re_ofReal_mul, conj_re]
        positivity
      have := one_sub_cayley hX hw0
      rw [← hrs, norm_mul, norm_real, norm_real, Real.norm_eq_abs, Real.norm_eq_abs, abs_of_pos hc, abs_of_pos hn] at this
      refine this.trans ?_
      have e3 : 4 * (n0 * c) / ‖w‖ = 4 * (n0 * c) * (1 / ‖w‖) := by ring
      rw [e3]
      have h5 := mul_le_mul_of_nonneg_left hinv (by positivity : 0 ≤ 4 * (n0 * c))
      have h6 : 0 ≤ 4 * (‖e‖ / n0) * c * g := by positivity
      have h7 : g * (4 * n0 + 4 * ‖e‖ / n0) * c = 4 * (n0 * c) * g + 4 * (‖e‖ / n0) * c * g := by ring
      linarith

end

lemma glass_sample : BulkSample (bulkStack 4) 1 where
  index := one_pos
  front := by simp [bulkStack, isoTensor]
  layers := rfl
  back := rfl
  passive := by simp [bulkStack, isoTensor]
  nonzero := by simp [bulkStack, isoTensor]
  different := by simp [bulkStack, isoTensor]

/-- Glass in air: R_s grows between 10 and 70 degrees, R_p falls between 10 and 30 degrees. -/
example (lbda : ℝ) (ee) (a : ℂ) : (measured (bulkStack 4) 10 lbda ee a).RMatrix 1 1 < (measured (bulkStack 4) 70 lbda ee a).RMatrix 1 1 ∧
    (measured (bulkStack 4) 30 lbda ee a).RMatrix 0 0 < (measured (bulkStack 4) 10 lbda ee a).RMatrix 0 0 := by
  constructor
  · refine (C147_s glass_sample (by norm_num) (by norm_num) (by norm_num) lbda ee a).1 fun h => ?_
    have := h.2
    simp only [bulkStack, isoTensor, if_true, one_mul] at this
    have h4 : (4 : ℂ).re = 4 := rfl
    rw [h4] at this
    nlinarith [Real.sin_sq_le_one (deg2rad 10)]
  · refine (C147_p glass_sample (nb := 2) two_pos (by simp [bulkStack, isoTensor]; norm_num) (by norm_num) (by norm_num) (by norm_num) ?_ lbda ee a).1 ?_
    · linarith [Real.sin_le_one (deg2rad 30)]
    · rw [show deg2rad 30 = Real.pi / 6 by unfold deg2rad; ring, Real.tan_pi_div_six]
      rw [div_le_div_iff₀ (by positivity) (by norm_num)]
      have : (1 : ℝ) ≤ √3 := Real.one_le_sqrt.2 (by norm_num)
      linarith

end PyElli
