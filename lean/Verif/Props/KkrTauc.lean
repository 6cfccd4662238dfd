import Verif.Props.KkrDispersion
import Verif.Lemmas.TaucOver

/-! # Kramers-Kronig consistency of the Tauc-Lorentz model above and at critical damping (C91) -/

namespace PyElli

open Filter Topology MeasureTheory Complex

/-! ## The complex functions in `eps1` above critical damping -/

/-- `q + iE` in polar form. -/
lemma polar_arctan {q : ℝ} (E : ℝ) (hq : 0 < q) : (q : ℂ) + E * I = (√(q ^ 2 + E ^ 2) : ℝ) * Complex.exp ((Real.arctan (E / q) : ℝ) * I) := by
  have hs : 0 < √(q ^ 2 + E ^ 2) := Real.sqrt_pos.2 (by positivity)
  have h1 : √(1 + (E / q) ^ 2) = √(q ^ 2 + E ^ 2) / q := by
    rw [show 1 + (E / q) ^ 2 = (q ^ 2 + E ^ 2) / q ^ 2 by field_simp, Real.sqrt_div' _ (sq_nonneg q), Real.sqrt_sq hq.le]
  have hc : Real.cos (Real.arctan (E / q)) = q / √(q ^ 2 + E ^ 2) := by rw [Real.cos_arctan, h1, one_div_div]
  have hn : Real.sin (Real.arctan (E / q)) = E / √(q ^ 2 + E ^ 2) := by
    rw [Real.sin_arctan, h1]
    field_simp
  rw [Complex.exp_mul_I, ← Complex.ofReal_cos, ← Complex.ofReal_sin, hc, hn]
  have : ((√(q ^ 2 + E ^ 2) : ℝ) : ℂ) ≠ 0 := by exact_mod_cast hs.ne'
  push_cast
  field_simp

lemma polar_arctan_conj {q : ℝ} (E : ℝ) (hq : 0 < q) : (q : ℂ) - E * I = (√(q ^ 2 + E ^ 2) : ℝ) * Complex.exp (-((Real.arctan (E / q) : ℝ) * I)) := by
  have := polar_arctan (-E) hq
  rw [neg_div, Real.arctan_neg, neg_sq] at this
  push_cast at this ⊢
  rw [← neg_mul, ← this]
  ring

lemma log_polar {r th : ℝ} (hr : 0 < r) (h1 : -Real.pi < th) (h2 : th ≤ Real.pi) :
    Complex.log ((r : ℂ) * Complex.exp ((th : ℂ) * I)) = (Real.log r : ℝ) + th * I := by
  rw [Complex.log_ofReal_mul hr (Complex.exp_ne_zero _), Complex.log_exp (by simpa using h1) (by simpa using h2)]

/-- `log ((q + iE)/(p - iE))`. -/
lemma log_quot {p q E : ℝ} (hp : 0 < p) (hq : 0 < q) : Complex.log (((q : ℂ) + E * I) / (p - E * I)) =
    (Real.log (√(q ^ 2 + E ^ 2) / √(p ^ 2 + E ^ 2)) : ℝ) + ((Real.arctan (E / q) + Real.arctan (E / p) : ℝ) : ℂ) * I := by
  have hsq : 0 < √(q ^ 2 + E ^ 2) := Real.sqrt_pos.2 (by positivity)
  have hsp : 0 < √(p ^ 2 + E ^ 2) := Real.sqrt_pos.2 (by positivity)
  have a1 := Real.arctan_lt_pi_div_two (E / q)
  have a2 := Real.arctan_lt_pi_div_two (E / p)
  have a3 := Real.neg_pi_div_two_lt_arctan (E / q)
  have a4 := Real.neg_pi_div_two_lt_arctan (E / p)
  have e : ((q : ℂ) + E * I) / (p - E * I) = ((√(q ^ 2 + E ^ 2) / √(p ^ 2 + E ^ 2) : ℝ) : ℂ) *
      Complex.exp (((Real.arctan (E / q) + Real.arctan (E / p) : ℝ) : ℂ) * I) := by
    rw [polar_arctan E hq, polar_arctan_conj E hp]
    have : ((√(p ^ 2 + E ^ 2) : ℝ) : ℂ) ≠ 0 := by exact_mod_cast hsp.ne'
    rw [Complex.exp_neg]
    push_cast
    rw [add_mul, Complex.exp_add]
    have := Complex.exp_ne_zero ((Real.arctan (E / p) : ℝ) * I)
    push_cast at this
    field_simp
  rw [e, log_polar (div_pos hsq hsp) (by linarith) (by linarith)]

/-- `log ((q - iE)/(p + iE))`. -/
lemma log_quot' {p q E : ℝ} (hp : 0 < p) (hq : 0 < q) : Complex.log (((q : ℂ) - E * I) / (p + E * I)) =
    (Real.log (√(q ^ 2 + E ^ 2) / √(p ^ 2 + E ^ 2)) : ℝ) - ((Real.arctan (E / q) + Real.arctan (E / p) : ℝ) : ℂ) * I := by
  have := log_quot (E := -E) hp hq
  rw [neg_sq, neg_div, neg_div, Real.arctan_neg, Real.arctan_neg] at this
  push_cast at this ⊢
  rw [neg_mul, ← sub_eq_add_neg, sub_neg_eq_add] at this
  rw [this]
  ring

/-- The first logarithm of `eps1`. -/
lemma log_first {p q E : ℝ} (hp : 0 < p) (hq : 0 < q) (hqp : q < p) (hE : 0 ≤ E) :
    Complex.log (((q * p + E ^ 2 : ℝ) + I * ((p - q : ℝ) : ℂ) * E) / ((q * p + E ^ 2 : ℝ) - I * ((p - q : ℝ) : ℂ) * E)) =
      I * ((2 * (Real.arctan (E / q) - Real.arctan (E / p)) : ℝ) : ℂ) := by
  have hsq : 0 < √(q ^ 2 + E ^ 2) := Real.sqrt_pos.2 (by positivity)
  have hsp : 0 < √(p ^ 2 + E ^ 2) := Real.sqrt_pos.2 (by positivity)
  have a1 := Real.arctan_lt_pi_div_two (E / q)
  have a2 : 0 ≤ Real.arctan (E / p) := Real.arctan_nonneg.2 (by positivity)
  have a3 : Real.arctan (E / p) ≤ Real.arctan (E / q) := Real.arctan_mono (by gcongr)
  have n1 : ((q * p + E ^ 2 : ℝ) : ℂ) + I * ((p - q : ℝ) : ℂ) * E = (q + E * I) * (p - E * I) := by
    push_cast; ring_nf; rw [I_sq]; ring
  have n2 : ((q * p + E ^ 2 : ℝ) : ℂ) - I * ((p - q : ℝ) : ℂ) * E = (q - E * I) * (p + E * I) := by
    push_cast; ring_nf; rw [I_sq]; ring
  have e : (((q * p + E ^ 2 : ℝ) : ℂ) + I * ((p - q : ℝ) : ℂ) * E) / (((q * p + E ^ 2 : ℝ) : ℂ) - I * ((p - q : ℝ) : ℂ) * E) =
      Complex.exp (((2 * (Real.arctan (E / q) - Real.arctan (E / p)) : ℝ) : ℂ) * I) := by
    rw [n1, n2, polar_arctan E hq, polar_arctan_conj E hp, polar_arctan_conj E hq, polar_arctan E hp]
    generalize Real.arctan (E / q) = x
    generalize Real.arctan (E / p) = y
    have h1 : ((√(p ^ 2 + E ^ 2) : ℝ) : ℂ) ≠ 0 := by exact_mod_cast hsp.ne'
    have h2 : ((√(q ^ 2 + E ^ 2) : ℝ) : ℂ) ≠ 0 := by exact_mod_cast hsq.ne'
    rw [show ((2 * (x - y) : ℝ) : ℂ) * I = x * I + -(y * I) - (-(x * I) + y * I) by push_cast; ring, Complex.exp_sub, Complex.exp_add, Complex.exp_add]
    generalize ((√(p ^ 2 + E ^ 2) : ℝ) : ℂ) = u at *
    generalize ((√(q ^ 2 + E ^ 2) : ℝ) : ℂ) = v at *
    have h3 := Complex.exp_ne_zero (y * I)
    have h4 := Complex.exp_ne_zero (-(x * I))
    field_simp
  rw [e, Complex.log_exp]
  · ring
  · simp only [Complex.mul_im, Complex.ofReal_re, Complex.I_im, mul_one, Complex.ofReal_im, Complex.I_re, mul_zero, add_zero]
    linarith [Real.pi_pos]
  · simp only [Complex.mul_im, Complex.ofReal_re, Complex.I_im, mul_one, Complex.ofReal_im, Complex.I_re, mul_zero, add_zero]
    linarith

/-- The arctangents of the second term. -/
lemma arctan_second {p q E : ℝ} (hp : 0 < p) (hq : 0 < q) :
    -Complex.arctan ((2 * E + I * ((p - q : ℝ) : ℂ)) / ((p + q : ℝ) : ℂ)) + Complex.arctan ((I * ((p - q : ℝ) : ℂ) - 2 * E) / ((p + q : ℝ) : ℂ)) =
      ((-(Real.arctan (E / q) + Real.arctan (E / p)) : ℝ) : ℂ) := by
  have hC : ((p : ℂ) + q) ≠ 0 := by exact_mod_cast (add_pos hp hq).ne'
  have hden : ∀ {a : ℝ} (b : ℝ), 0 < a → (a : ℂ) + b * I ≠ 0 := by
    intro a b ha h
    have := congrArg Complex.re h
    simp at this
    exact ha.ne' this
  have d1 : (p : ℂ) - E * I ≠ 0 := by have := hden (-E) hp; push_cast at this; rwa [neg_mul, ← sub_eq_add_neg] at this
  have d2 : (p : ℂ) + E * I ≠ 0 := hden E hp
  have e1 : ((1 : ℂ) + (2 * E + I * ((p - q : ℝ) : ℂ)) / ((p + q : ℝ) : ℂ) * I) / (1 - (2 * E + I * ((p - q : ℝ) : ℂ)) / ((p + q : ℝ) : ℂ) * I) =
      (q + E * I) / (p - E * I) := by
    have h1 : (1 : ℂ) + (2 * E + I * ((p - q : ℝ) : ℂ)) / ((p + q : ℝ) : ℂ) * I = 2 * (q + E * I) / (p + q) := by
      push_cast; field_simp; ring_nf; rw [I_sq]; ring
    have h2 : (1 : ℂ) - (2 * E + I * ((p - q : ℝ) : ℂ)) / ((p + q : ℝ) : ℂ) * I = 2 * (p - E * I) / (p + q) := by
      push_cast; field_simp; ring_nf; rw [I_sq]; ring
    rw [h1, h2]
    field_simp
  have e2 : ((1 : ℂ) + (I * ((p - q : ℝ) : ℂ) - 2 * E) / ((p + q : ℝ) : ℂ) * I) / (1 - (I * ((p - q : ℝ) : ℂ) - 2 * E) / ((p + q : ℝ) : ℂ) * I) =
      (q - E * I) / (p + E * I) := by
    have h1 : (1 : ℂ) + (I * ((p - q : ℝ) : ℂ) - 2 * E) / ((p + q : ℝ) : ℂ) * I = 2 * (q - E * I) / (p + q) := by
      push_cast; field_simp; ring_nf; rw [I_sq]; ring
    have h2 : (1 : ℂ) - (I * ((p - q : ℝ) : ℂ) - 2 * E) / ((p + q : ℝ) : ℂ) * I = 2 * (p + E * I) / (p + q) := by
      push_cast; field_simp; ring_nf; rw [I_sq]; ring
    rw [h1, h2]
    field_simp
  rw [Complex.arctan, Complex.arctan, e1, e2, log_quot hp hq, log_quot' hp hq]
  push_cast
  ring_nf
  rw [I_sq]
  ring

/-- The value of `TaucLorentz.eps1` above critical damping: `E0² = p q`, `C = p + q`. -/
lemma taucEps1_over (E Eg A E0 p q : ℝ) (hE : 0 < E) (hEg : 0 ≤ Eg) (hE0 : 0 < E0) (hq : 0 < q) (hqp : q < p) (hpq : E0 ^ 2 = q * p) (hne : E ≠ Eg) :
    taucEps1 E Eg A E0 (p + q) = some (
      ((A * (p + q) * ((Eg ^ 2 - E0 ^ 2) * E ^ 2 + Eg ^ 2 * (p + q) ^ 2 - E0 ^ 2 * (E0 ^ 2 + 3 * Eg ^ 2)) / 2 / Real.pi / ((E ^ 2 + p ^ 2) * (E ^ 2 + q ^ 2)) / (p - q) / E0 *
          (2 * (Real.arctan (Eg / q) - Real.arctan (Eg / p)))
        - A * ((E ^ 2 - E0 ^ 2) * (E0 ^ 2 + Eg ^ 2) + Eg ^ 2 * (p + q) ^ 2) / Real.pi / ((E ^ 2 + p ^ 2) * (E ^ 2 + q ^ 2)) / E0 *
          (Real.pi - (Real.arctan (Eg / q) + Real.arctan (Eg / p)))
        - 2 * A * E0 * Eg / Real.pi / ((E ^ 2 + p ^ 2) * (E ^ 2 + q ^ 2)) / (p - q) * (E ^ 2 + (p ^ 2 + q ^ 2) / 2) *
          (Real.log (Eg ^ 2 + q ^ 2) - Real.log (Eg ^ 2 + p ^ 2))
        - A * E0 * (p + q) * (E ^ 2 + Eg ^ 2) / Real.pi / ((E ^ 2 + p ^ 2) * (E ^ 2 + q ^ 2)) / E * (Real.log |E - Eg| - Real.log (E + Eg))
        + 2 * A * E0 * (p + q) * Eg / Real.pi / ((E ^ 2 + p ^ 2) * (E ^ 2 + q ^ 2)) *
          (Real.log |E - Eg| + Real.log (E + Eg) - (Real.log (Eg ^ 2 + q ^ 2) + Real.log (Eg ^ 2 + p ^ 2)) / 2) : ℝ) : ℂ)
      + I * ((-(2 * A * E0 * Eg / (p - q)) * (1 / (E ^ 2 + p ^ 2) + 1 / (E ^ 2 + q ^ 2)) : ℝ) : ℂ)) := by
  have hp : 0 < p := hq.trans hqp
  have hC : 0 < p + q := by linarith
  have hb : 0 < p - q := by linarith
  have hal : Complex.sqrt ((4 * E0 ^ 2 - (p + q) ^ 2 : ℝ) : ℂ) = I * ((p - q : ℝ) : ℂ) := by
    rw [csqrt_eq_iff]
    refine ⟨Or.inr ⟨by simp, by simpa using hqp.le⟩, ?_⟩
    rw [mul_pow, I_sq, hpq]
    push_cast; ring
  have hz : 0 < (E ^ 2 + p ^ 2) * (E ^ 2 + q ^ 2) := by positivity
  have hzeta : ((E : ℂ) ^ 2 - ((E0 ^ 2 - (p + q) ^ 2 / 2 : ℝ) : ℂ)) ^ 2 + (I * ((p - q : ℝ) : ℂ)) ^ 2 * ((p + q : ℝ) : ℂ) ^ 2 / 4 =
      (((E ^ 2 + p ^ 2) * (E ^ 2 + q ^ 2) : ℝ) : ℂ) := by
    rw [mul_pow, I_sq, hpq]; push_cast; ring
  have hroot2 : (E0 ^ 2 - Eg ^ 2) ^ 2 + Eg ^ 2 * (p + q) ^ 2 = (Eg ^ 2 + q ^ 2) * (Eg ^ 2 + p ^ 2) := by rw [hpq]; ring
  have hq2 : 0 < Eg ^ 2 + q ^ 2 := by positivity
  have hp2 : 0 < Eg ^ 2 + p ^ 2 := by positivity
  have hroot : 0 < √((E0 ^ 2 - Eg ^ 2) ^ 2 + Eg ^ 2 * (p + q) ^ 2) := Real.sqrt_pos.2 (by rw [hroot2]; positivity)
  have habs : 0 < |E - Eg| := abs_pos.2 (sub_ne_zero.2 hne)
  have hsum : 0 < E + Eg := by linarith
  have hdenC : (E0 : ℂ) ^ 2 + (Eg : ℂ) ^ 2 - I * ((p - q : ℝ) : ℂ) * Eg ≠ 0 := by
    intro h
    have := congrArg Complex.re h
    simp [pow_two] at this
    nlinarith
  unfold taucEps1
  simp only [hal, csqrt_sq]
  rw [hzeta, if_neg]
  · have hth : Complex.log (((E0 : ℂ) ^ 2 + (Eg : ℂ) ^ 2 + I * ((p - q : ℝ) : ℂ) * Eg) / ((E0 : ℂ) ^ 2 + (Eg : ℂ) ^ 2 - I * ((p - q : ℝ) : ℂ) * Eg)) =
        I * ((2 * (Real.arctan (Eg / q) - Real.arctan (Eg / p)) : ℝ) : ℂ) := by
      rw [← log_first hp hq hqp hEg]
      have : (E0 : ℂ) ^ 2 + (Eg : ℂ) ^ 2 = ((q * p + Eg ^ 2 : ℝ) : ℂ) := by rw [← hpq]; push_cast; ring
      rw [this]
    have hr : (Real.pi : ℂ) - Complex.arctan ((2 * Eg + I * ((p - q : ℝ) : ℂ)) / ((p + q : ℝ) : ℂ)) + Complex.arctan ((I * ((p - q : ℝ) : ℂ) - 2 * Eg) / ((p + q : ℝ) : ℂ)) =
        ((Real.pi - (Real.arctan (Eg / q) + Real.arctan (Eg / p)) : ℝ) : ℂ) := by
      rw [sub_eq_add_neg, add_assoc, arctan_second hp hq]
      push_cast; ring
    have hy : (p ^ 2 + q ^ 2 + 2 * Eg ^ 2) / ((p - q) * (p + q)) - 1 = 2 * (Eg ^ 2 + q ^ 2) / ((p - q) * (p + q)) := by
      field_simp; ring
    have hy' : 1 + (p ^ 2 + q ^ 2 + 2 * Eg ^ 2) / ((p - q) * (p + q)) = 2 * (Eg ^ 2 + p ^ 2) / ((p - q) * (p + q)) := by
      field_simp; ring
    have hy1 : 1 < (p ^ 2 + q ^ 2 + 2 * Eg ^ 2) / ((p - q) * (p + q)) := by
      have : 0 < 2 * (Eg ^ 2 + q ^ 2) / ((p - q) * (p + q)) := by positivity
      linarith
    have hx : (2 : ℂ) / (I * ((p - q : ℝ) : ℂ)) / ((p + q : ℝ) : ℂ) * (((E0 ^ 2 - (p + q) ^ 2 / 2 : ℝ) : ℂ) - (Eg : ℂ) ^ 2) =
        I * (((p ^ 2 + q ^ 2 + 2 * Eg ^ 2) / ((p - q) * (p + q)) : ℝ) : ℂ) := by
      have hb' : (p : ℂ) - q ≠ 0 := by exact_mod_cast hb.ne'
      have hC' : (p : ℂ) + q ≠ 0 := by exact_mod_cast hC.ne'
      rw [hpq]
      push_cast
      field_simp
      rw [I_sq]
      ring
    have hl : Real.log (((p ^ 2 + q ^ 2 + 2 * Eg ^ 2) / ((p - q) * (p + q)) - 1) / (1 + (p ^ 2 + q ^ 2 + 2 * Eg ^ 2) / ((p - q) * (p + q)))) =
        Real.log (Eg ^ 2 + q ^ 2) - Real.log (Eg ^ 2 + p ^ 2) := by
      rw [hy, hy', ← Real.log_div hq2.ne' hp2.ne']
      congr 1
      field_simp
    have l2 : Real.log (|E - Eg| / (E + Eg)) = Real.log |E - Eg| - Real.log (E + Eg) := Real.log_div habs.ne' hsum.ne'
    have l3 : Real.log (|E - Eg| * (E + Eg) / √((E0 ^ 2 - Eg ^ 2) ^ 2 + Eg ^ 2 * (p + q) ^ 2)) =
        Real.log |E - Eg| + Real.log (E + Eg) - (Real.log (Eg ^ 2 + q ^ 2) + Real.log (Eg ^ 2 + p ^ 2)) / 2 := by
      rw [Real.log_div (mul_pos habs hsum).ne' hroot.ne', Real.log_mul habs.ne' hsum.ne', hroot2, Real.log_sqrt (mul_pos hq2 hp2).le,
        Real.log_mul hq2.ne' hp2.ne']
    rw [hth, hr, hx, arctan_I_mul hy1, hl, l2, l3]
    have hzz : (E ^ 2 + p ^ 2) * (E ^ 2 + q ^ 2) ≠ 0 := hz.ne'
    have him : -(2 * A * E0 * Eg / (p - q)) * (1 / (E ^ 2 + p ^ 2) + 1 / (E ^ 2 + q ^ 2)) =
        -(4 * A * E0 * Eg * (E ^ 2 + (p ^ 2 + q ^ 2) / 2)) / ((p - q) * ((E ^ 2 + p ^ 2) * (E ^ 2 + q ^ 2))) := by
      field_simp
      ring
    have hg : ((E : ℂ) ^ 2 - ((E0 ^ 2 - (p + q) ^ 2 / 2 : ℝ) : ℂ)) = ((E ^ 2 + (p ^ 2 + q ^ 2) / 2 : ℝ) : ℂ) := by
      rw [hpq]; push_cast; ring
    rw [him, hg]
    generalize Real.log (Eg ^ 2 + q ^ 2) = L1
    generalize Real.log (Eg ^ 2 + p ^ 2) = L2
    generalize Real.log |E - Eg| = L3
    generalize Real.log (E + Eg) = L4
    generalize Real.arctan (Eg / q) = a1
    generalize Real.arctan (Eg / p) = a2
    generalize (E ^ 2 + p ^ 2) * (E ^ 2 + q ^ 2) = Z at hz
    generalize E ^ 2 + (p ^ 2 + q ^ 2) / 2 = G
    generalize p - q = b at *
    generalize p + q = C at *
    have hb' : (b : ℂ) ≠ 0 := by exact_mod_cast hb.ne'
    have hZ' : (Z : ℂ) ≠ 0 := by exact_mod_cast hz.ne'
    have hpi' : (Real.pi : ℂ) ≠ 0 := by exact_mod_cast Real.pi_ne_zero
    have hEi' : (E0 : ℂ) ≠ 0 := by exact_mod_cast hE0.ne'
    have hE' : (E : ℂ) ≠ 0 := by exact_mod_cast hE.ne'
    generalize Real.pi = pi at *
    congr 1
    push_cast
    field_simp
    ring_nf
    simp only [I_sq]
    ring
  · rintro (h | h | h | h | h | h | h | h | h)
    · exact hz.ne' (by exact_mod_cast h)
    · rw [mul_eq_zero] at h
      rcases h with h | h
      · exact I_ne_zero h
      · exact hb.ne' (by exact_mod_cast h)
    · exact hE0.ne' h
    · exact hC.ne' h
    · exact hE.ne' h
    · exact hdenC h
    · exact hroot.ne' h
    · exact absurd (div_pos habs hsum) (not_lt.2 h)
    · exact absurd (mul_pos habs hsum) (not_lt.2 h)

/-! ## The integrals -/

lemma isPVHalf_smul {F : ℝ → ℝ} {w v : ℝ} (k : ℝ) (h : Spec.IsPVHalf F w v) : Spec.IsPVHalf (fun x => k * F x) w (k * v) := by
  obtain ⟨V, h1, h2⟩ := h
  refine ⟨fun a b => k * V a b, fun a b ha haw hwb => ?_, h2.const_mul k⟩
  have := (h1 a b ha haw hwb)
  unfold Spec.IsPV at *
  refine (this.const_mul k).congr fun d => ?_
  simp only [intervalIntegral.integral_const_mul]
  ring

/-- What `eps1` adds to the imaginary part above critical damping. -/
noncomputable def taucExcess (Eg A E0 p q E : ℝ) : ℝ := -(2 * A * E0 * Eg / (p - q)) * (1 / (E ^ 2 + p ^ 2) + 1 / (E ^ 2 + q ^ 2))

/-- Its transform. -/
noncomputable def taucExcessKk (Eg A E0 p q w : ℝ) : ℝ :=
  -(2 / Real.pi * (2 * A * E0 * Eg / (p - q))) * ((Real.log p - Real.log w) / (w ^ 2 + p ^ 2) + (Real.log q - Real.log w) / (w ^ 2 + q ^ 2))

lemma taucExcess_diff (Eg A E0 : ℝ) {p q : ℝ} (hp : 0 < p) (hq : 0 < q) : Differentiable ℝ (taucExcess Eg A E0 p q) := by
  unfold taucExcess
  intro x
  have h1 : x ^ 2 + p ^ 2 ≠ 0 := by positivity
  have h2 : x ^ 2 + q ^ 2 ≠ 0 := by positivity
  have d : ∀ r : ℝ, DifferentiableAt ℝ (fun x : ℝ => x ^ 2 + r ^ 2) x := fun r => by fun_prop
  exact DifferentiableAt.const_mul (((differentiableAt_const 1).div (d p) h1).add ((differentiableAt_const 1).div (d q) h2)) _

lemma taucExcess_kk (Eg A E0 : ℝ) {p q w : ℝ} (hp : 0 < p) (hq : 0 < q) (hw : 0 < w) :
    Kk (taucExcess Eg A E0 p q) w (taucExcessKk Eg A E0 p q w) := by
  have c : ∀ {p : ℝ}, 0 < p → ContinuousOn (fun x : ℝ => x * (1 / (x ^ 2 + p ^ 2)) / (x ^ 2 - w ^ 2)) (Set.Ioi 0 \ {w}) := by
    intro p hp
    refine frac_contOn (fun x => 1 / (x ^ 2 + p ^ 2)) w hw (Continuous.continuousOn ?_)
    exact Continuous.div (by fun_prop) (by fun_prop) fun x => by positivity
  have h := isPVHalf_smul (-(2 * A * E0 * Eg / (p - q))) (isPVHalf_add (c hp) (c hq) (lorentz_half hw hp) (lorentz_half hw hq))
  unfold Kk
  have e : Real.pi / 2 * taucExcessKk Eg A E0 p q w =
      -(2 * A * E0 * Eg / (p - q)) * ((Real.log p - Real.log w) / (w ^ 2 + p ^ 2) + (Real.log q - Real.log w) / (w ^ 2 + q ^ 2)) := by
    unfold taucExcessKk
    have := Real.pi_ne_zero
    generalize (Real.log p - Real.log w) / (w ^ 2 + p ^ 2) + (Real.log q - Real.log w) / (w ^ 2 + q ^ 2) = X
    field_simp
  rw [e]
  refine isPVHalf_congr (fun x _ _ => ?_) h
  unfold taucExcess
  ring

/-- The absorption above critical damping is the difference of two one-pole terms, and the real part of `eps1` is its transform. -/
lemma tauc_kk_over (Eg A : ℝ) {E0 p q w : ℝ} (hEg : 0 ≤ Eg) (hE0 : 0 < E0) (hq : 0 < q) (hqp : q < p) (hpq : E0 ^ 2 = q * p) (hw : 0 < w) (hne : w ≠ Eg) :
    ∃ r : ℝ, taucEps1 w Eg A E0 (p + q) = some ((r : ℂ) + I * (taucExcess Eg A E0 p q w : ℂ)) ∧
      Kk (fun x => Spec.taucAbsorption x Eg A E0 (p + q)) w r := by
  have hp : 0 < p := hq.trans hqp
  refine ⟨_, taucEps1_over w Eg A E0 p q hw hEg hE0 hq hqp hpq hne, ?_⟩
  have hb : 0 < p - q := by linarith
  have h := isPVHalf_add ((onePole_contOn Eg hw hq).const_smul (A * E0 / (p - q))) ((onePole_contOn Eg hw hp).const_smul (-(A * E0 / (p - q))))
    (isPVHalf_smul (A * E0 / (p - q)) (onePole_half hEg hw hq hne)) (isPVHalf_smul (-(A * E0 / (p - q))) (onePole_half hEg hw hp hne))
  unfold Kk
  have e1 : ∀ x, 0 < x → A * E0 / (p - q) * ((max (x - Eg) 0) ^ 2 / ((x ^ 2 + q ^ 2) * (x ^ 2 - w ^ 2))) +
      -(A * E0 / (p - q)) * ((max (x - Eg) 0) ^ 2 / ((x ^ 2 + p ^ 2) * (x ^ 2 - w ^ 2))) = x * Spec.taucAbsorption x Eg A E0 (p + q) / (x ^ 2 - w ^ 2) := by
    intro x hx
    have hd : (x ^ 2 - E0 ^ 2) ^ 2 + (p + q) ^ 2 * x ^ 2 = (x ^ 2 + p ^ 2) * (x ^ 2 + q ^ 2) := by rw [hpq]; ring
    unfold Spec.taucAbsorption
    rw [hd]
    have n1 : x ^ 2 + p ^ 2 ≠ 0 := by positivity
    have n2 : x ^ 2 + q ^ 2 ≠ 0 := by positivity
    have n3 := hx.ne'
    have n4 := hb.ne'
    split_ifs with hg
    · rw [max_eq_right (by linarith)]
      simp
    · rw [max_eq_left (by linarith)]
      rcases eq_or_ne (x ^ 2 - w ^ 2) 0 with h0 | h0
      · rw [h0]; simp
      · field_simp
        ring
  have fin := isPVHalf_congr (fun x hx _ => e1 x hx) h
  refine Eq.mp (congrArg (Spec.IsPVHalf _ w) ?_) fin
  unfold opVal opReg
  rw [show Eg + w = w + Eg by ring]
  have n0 : w ^ 2 + p ^ 2 ≠ 0 := by positivity
  have n1 : w ^ 2 + q ^ 2 ≠ 0 := by positivity
  generalize Real.log |w - Eg| = L1
  generalize Real.log (w + Eg) = L2
  generalize Real.log (Eg ^ 2 + q ^ 2) = L3
  generalize Real.log (Eg ^ 2 + p ^ 2) = L4
  generalize Real.arctan (Eg / q) = A1
  generalize Real.arctan (Eg / p) = A2
  have n2 := hE0.ne'
  have n3 := hb.ne'
  have n4 := hw.ne'
  have n5 := Real.pi_ne_zero
  have n6 := hp.ne'
  have n7 := hq.ne'
  generalize Real.pi = pi at n5 ⊢
  have hi : ∀ x : ℝ, x / E0 = x * E0 / (q * p) := by
    intro x
    rw [← hpq]
    field_simp
  simp only [hi]
  rw [hpq]
  clear hi hpq fin h e1
  field_simp
  ring

/-! ## Theorems -/

/-- The two relaxation rates of an overdamped oscillator. -/
lemma over_rates {E0 C : ℝ} (hE0 : 0 < E0) (h : 2 * E0 < C) : ∃ p q : ℝ, 0 < q ∧ q < p ∧ C = p + q ∧ E0 ^ 2 = q * p := by
  have h0 : 0 < C ^ 2 - 4 * E0 ^ 2 := by nlinarith
  have hs := Real.sqrt_pos.2 h0
  have h2 := Real.sq_sqrt h0.le
  have hlt : √(C ^ 2 - 4 * E0 ^ 2) < C := by
    rw [Real.sqrt_lt' (by linarith)]
    nlinarith
  refine ⟨(C + √(C ^ 2 - 4 * E0 ^ 2)) / 2, (C - √(C ^ 2 - 4 * E0 ^ 2)) / 2, by linarith, by linarith, by ring, ?_⟩
  linear_combination (1 / 4) * h2

lemma taucTerm_parts (E Eg A E0 C : ℝ) (hE : 0 < E) (hC : 0 < C) (z : ℂ) (h : taucEps1 E Eg A E0 C = some z) :
    taucTerm E Eg [("A", A), ("E", E0), ("C", C)] = some (I * (Spec.taucAbsorption E Eg A E0 C : ℝ) + z) := by
  have hden : (E ^ 2 - E0 ^ 2) ^ 2 + C ^ 2 * E ^ 2 ≠ 0 := by positivity
  unfold taucTerm
  simp only [Dict.get, if_true, if_false, reduceCtorEq, Option.bind_eq_bind, Option.bind_some, divN, if_neg hden, if_neg hE.ne', h, String.reduceEq, heaviside, Spec.taucAbsorption]
  congr 1
  congr 1
  rcases lt_trichotomy E Eg with hl | hl | hl
  · rw [if_pos (by linarith), if_pos hl.le]; simp
  · rw [if_neg (by linarith), if_pos (by linarith), if_pos hl.le]; simp
  · rw [if_neg (by linarith), if_neg (by linarith), if_neg (by linarith)]; simp

/-- C91 is false for a Tauc-Lorentz oscillator above critical damping (`C > 2E`) with a gap: the limit of `im2re_reciprocal` of the computed
imaginary part differs from the computed real part, at every photon energy up to `E²/C`. (The real part is the transform of the absorption of
Jellison and Modine; the imaginary part is not that absorption.) -/
theorem C91_tauc_overdamped_refuted (K : PhysConst) (Eg A E0 C : ℝ) (hEg : 0 < Eg) (hA : A ≠ 0) (hE0 : 0 < E0) (hC : 2 * E0 < C) :
    ∃ eps : ℝ → ℂ, (∀ l, 0 < l → photon K l ≠ Eg → taucLorentz K [("Eg", Eg)] [[("A", A), ("E", E0), ("C", C)]] l = some (eps l)) ∧
      (∀ l, 0 < l → photon K l ≠ Eg → CodeTendsto .im2reReciprocal (fun x => Spec.taucAbsorption (photon K x) Eg A E0 C) l (eps l).re) ∧
      ∀ l, 0 < l → photon K l ≠ Eg → photon K l ≤ E0 ^ 2 / C →
        ∃ v, CodeTendsto .im2reReciprocal (fun x => (eps x).im) l v ∧ v ≠ (eps l).re := by
  obtain ⟨p, q, hq, hqp, rfl, hpq⟩ := over_rates hE0 hC
  have hp : 0 < p := hq.trans hqp
  have hC0 : 0 < p + q := by linarith
  have hk := photon_const_pos K
  let r : ℝ → ℝ := fun w => ((taucEps1 w Eg A E0 (p + q)).getD 0).re
  have hr : ∀ w, 0 < w → w ≠ Eg → taucEps1 w Eg A E0 (p + q) = some ((r w : ℂ) + I * (taucExcess Eg A E0 p q w : ℂ)) ∧
      Kk (fun x => Spec.taucAbsorption x Eg A E0 (p + q)) w (r w) := by
    intro w hw hne
    obtain ⟨s, h4, h5⟩ := tauc_kk_over Eg A hEg.le hE0 hq hqp hpq hw hne
    have : r w = s := by simp [r, h4]
    rw [this]
    exact ⟨h4, h5⟩
  have hreg := taucAbs_regular Eg A (E0 := E0) hC0
  refine ⟨fun l => ⟨r (photon K l), Spec.taucAbsorption (photon K l) Eg A E0 (p + q) + taucExcess Eg A E0 p q (photon K l)⟩, fun l hl hne => ?_, fun l hl hne => ?_,
    fun l hl hne hle => ?_⟩
  · have hE : 0 < photon K l := by rw [photon_eq]; exact div_pos hk hl
    simp only [taucLorentz, energy_photon K hl.ne', Option.bind_eq_bind, Option.bind_some, Dict.get, if_true, List.map_cons, List.map_nil, sumN,
      taucTerm_parts _ Eg A E0 (p + q) hE hC0 _ (hr _ hE hne).1]
    apply congrArg some
    apply Complex.ext <;> simp
  · have hw : 0 < K.c * K.h / 1e-9 / l := div_pos hk hl
    rw [photon_eq] at hne
    simp only [photon_eq]
    exact kk_code hk hl hreg.1 (hreg.2 _ hw hne) (hr _ hw hne).2
  · have hw : 0 < K.c * K.h / 1e-9 / l := div_pos hk hl
    rw [photon_eq] at hne hle
    simp only [photon_eq]
    have hd := taucExcess_diff Eg A E0 hp hq
    refine ⟨r (K.c * K.h / 1e-9 / l) + taucExcessKk Eg A E0 p q (K.c * K.h / 1e-9 / l),
      kk_code (f := fun x => Spec.taucAbsorption x Eg A E0 (p + q) + taucExcess Eg A E0 p q x) hk hl (hreg.1.add hd.continuous.continuousOn)
        ((hreg.2 _ hw hne).add (hd _)) (kk_add hw hreg.1 hd.continuous.continuousOn (hr _ hw hne).2 (taucExcess_kk Eg A E0 hp hq hw)), ?_⟩
    generalize K.c * K.h / 1e-9 / l = w at hw hle
    have hwq : w < q := by
      refine lt_of_le_of_lt hle ?_
      rw [hpq, div_lt_iff₀ hC0]
      nlinarith
    have h1 : 0 < Real.log p - Real.log w := sub_pos.2 (Real.log_lt_log hw (hwq.trans hqp))
    have h2 : 0 < Real.log q - Real.log w := sub_pos.2 (Real.log_lt_log hw hwq)
    have hb : p - q ≠ 0 := (sub_pos.2 hqp).ne'
    intro h0
    have h3 : taucExcessKk Eg A E0 p q w = 0 := by linarith
    unfold taucExcessKk at h3
    have h4 : 0 < (Real.log p - Real.log w) / (w ^ 2 + p ^ 2) + (Real.log q - Real.log w) / (w ^ 2 + q ^ 2) := by positivity
    have h5 : 2 / Real.pi * (2 * A * E0 * Eg / (p - q)) ≠ 0 := by
      have := Real.pi_ne_zero
      have := hEg.ne'
      have := hE0.ne'
      positivity
    rcases mul_eq_zero.1 h3 with h | h
    · exact h5 (neg_eq_zero.1 h)
    · exact h4.ne' h

/-- C91: Tauc-Lorentz oscillators without a gap, below or above critical damping. -/
theorem C91_tauc_no_gap (K : PhysConst) (osc : List (ℝ × ℝ × ℝ)) (h : ∀ o ∈ osc, 0 < o.2.1 ∧ 0 < o.2.2 ∧ o.2.2 ≠ 2 * o.2.1) :
    ∃ eps : ℝ → ℂ, (∀ l, 0 < l → taucLorentz K [("Eg", 0)] (osc.map fun o => [("A", o.1), ("E", o.2.1), ("C", o.2.2)]) l = some (eps l)) ∧
      ∀ l, 0 < l → CodeTendsto .im2reReciprocal (fun x => (eps x).im) l (eps l).re := by
  have hk := photon_const_pos K
  let r : ℝ × ℝ × ℝ → ℝ → ℝ := fun o w => ((taucEps1 w 0 o.1 o.2.1 o.2.2).getD 0).re
  have hr : ∀ o ∈ osc, ∀ w, 0 < w → taucEps1 w 0 o.1 o.2.1 o.2.2 = some ((r o w : ℝ) : ℂ) ∧ Kk (fun x => Spec.taucAbsorption x 0 o.1 o.2.1 o.2.2) w (r o w) := by
    intro o ho w hw
    obtain ⟨h1, h2, h3⟩ := h o ho
    obtain ⟨s, h4, h5⟩ : ∃ s : ℝ, taucEps1 w 0 o.1 o.2.1 o.2.2 = some (s : ℂ) ∧ Kk (fun x => Spec.taucAbsorption x 0 o.1 o.2.1 o.2.2) w s := by
      rcases lt_or_gt_of_ne h3 with hu | hu
      · exact tauc_kk 0 o.1 le_rfl h1 h2 hu hw hw.ne'
      · obtain ⟨p, q, hq, hqp, he, hpq⟩ := over_rates h1 hu
        obtain ⟨s, h6, h7⟩ := tauc_kk_over 0 o.1 le_rfl h1 hq hqp hpq hw hw.ne'
        rw [he]
        refine ⟨s, ?_, h7⟩
        rw [h6]
        simp [taucExcess]
    have : r o w = s := by simp only [r, h4, Option.getD_some, Complex.ofReal_re]
    rw [this]
    exact ⟨h4, h5⟩
  refine ⟨fun l => ⟨(osc.map fun o => r o (photon K l)).sum, (osc.map fun o => Spec.taucAbsorption (photon K l) 0 o.1 o.2.1 o.2.2).sum⟩, fun l hl => ?_, fun l hl => ?_⟩
  · have hE : 0 < photon K l := by rw [photon_eq]; exact div_pos hk hl
    simp only [taucLorentz, energy_photon K hl.ne', Option.bind_eq_bind, Option.bind_some, Dict.get, if_true]
    generalize photon K l = E at *
    clear hk
    induction osc with
    | nil => rfl
    | cons o osc ih =>
      obtain ⟨h1, h2, h3⟩ := h o (by simp)
      simp only [List.map_cons, sumN, taucTerm_split E 0 o.1 o.2.1 o.2.2 hE h2 _ (hr o (by simp) E hE).1,
        ih (fun o ho => h o (List.mem_cons_of_mem _ ho)) (fun o ho => hr o (List.mem_cons_of_mem _ ho)), Option.map_some, List.sum_cons]
      congr 1
      apply Complex.ext <;> simp
  · have hw : 0 < K.c * K.h / 1e-9 / l := div_pos hk hl
    simp only [photon_eq]
    obtain ⟨h1, h2, h3⟩ := kk_sum osc (fun o x => Spec.taucAbsorption x 0 o.1 o.2.1 o.2.2) (fun o => r o (K.c * K.h / 1e-9 / l)) _ hw
      fun o ho => ⟨(taucAbs_regular _ _ (h o ho).2.1).1, (taucAbs_regular _ _ (h o ho).2.1).2 _ hw hw.ne', (hr o ho _ hw).2⟩
    exact kk_code hk hl h1 h2 h3

/-- At critical damping (`C = 2E`) the formula divides by zero at every wavelength, whatever the other oscillators. -/
theorem C91_tauc_critical_refuted (K : PhysConst) (Eg A E0 : ℝ) (pre post : List (Dict ℝ)) (l : ℝ) :
    taucLorentz K [("Eg", Eg)] (pre ++ [("A", A), ("E", E0), ("C", 2 * E0)] :: post) l = none := by
  have e1 : ∀ E, taucEps1 E Eg A E0 (2 * E0) = none := by
    intro E
    unfold taucEps1
    have : Complex.sqrt ((4 * E0 ^ 2 - (2 * E0) ^ 2 : ℝ) : ℂ) = 0 := by
      rw [show 4 * E0 ^ 2 - (2 * E0) ^ 2 = 0 by ring]
      simp
    simp only [this]
    rw [if_pos (Or.inr (Or.inl trivial))]
  have e2 : ∀ E, taucTerm E Eg [("A", A), ("E", E0), ("C", 2 * E0)] = none := by
    intro E
    unfold taucTerm
    simp only [Dict.get, if_true, if_false, Option.bind_eq_bind, Option.bind_some, e1, String.reduceEq, Option.bind_none]
    simp
  have e3 : ∀ (E : ℝ) (L : List (Option ℂ)), sumN (L ++ none :: (post.map (taucTerm E Eg))) = none := by
    intro E L
    induction L with
    | nil => simp [sumN]
    | cons x L ih =>
      cases x with
      | none => rfl
      | some x => rw [List.cons_append, sumN, ih]; rfl
  unfold taucLorentz
  cases conversionWavelengthEnergy K l with
  | none => rfl
  | some E =>
    simp only [Option.bind_eq_bind, Option.bind_some, Dict.get, if_true, List.map_append, List.map_cons, e2, e3]

/-- Non-vacuity: parameters meeting the hypotheses, with a wavelength in the range. -/
example (K : PhysConst) : (0 : ℝ) < 1 ∧ (20 : ℝ) ≠ 0 ∧ 2 * (1 : ℝ) < 4 ∧ ∃ l, 0 < l ∧ photon K l ≠ 1 ∧ photon K l ≤ (1 : ℝ) ^ 2 / 4 := by
  have hk := photon_const_pos K
  refine ⟨by norm_num, by norm_num, by norm_num, 4 * (K.c * K.h / 1e-9), by positivity, ?_, ?_⟩ <;> rw [photon_eq]
  · rw [div_mul_cancel_right₀ hk.ne']; norm_num
  · rw [div_mul_cancel_right₀ hk.ne']; norm_num

end PyElli
