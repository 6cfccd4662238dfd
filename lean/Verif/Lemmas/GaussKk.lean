import Verif.Props.KkrCausal
import Mathlib.Analysis.SpecialFunctions.Gaussian.GaussianIntegral

/-! # The half-line Fourier integral of a Gaussian

`∫₀^∞ e^(iyt) e^(-bt²) dt = e^(-y²/4b) (√(π/b)/2 + i/(2b) ∫₀^y e^(u²/4b) du)`. -/

namespace PyElli

open Filter Topology MeasureTheory Complex

lemma gauss_int {b : ℝ} (hb : 0 < b) : IntegrableOn (fun t : ℝ => Real.exp (-b * t ^ 2)) (Set.Ioi 0) := (integrable_exp_neg_mul_sq hb).integrableOn

lemma gauss_int' {b : ℝ} (hb : 0 < b) : IntegrableOn (fun t : ℝ => t * Real.exp (-b * t ^ 2)) (Set.Ioi 0) := (integrable_mul_exp_neg_mul_sq hb).integrableOn

/-- Differential equation of the integral. -/
lemma gauss_deriv {b : ℝ} (hb : 0 < b) (y : ℝ) : HasDerivAt (Spec.susceptibility fun t => Real.exp (-b * t ^ 2))
    ((I - y * Spec.susceptibility (fun t => Real.exp (-b * t ^ 2)) y) / (2 * b)) y := by
  refine (sus_hasDerivAt (gauss_int hb) (gauss_int' hb) y).congr_deriv ?_
  have i1 := sus_integrable (gauss_int hb) y
  have i2 : IntegrableOn (fun t : ℝ => Complex.exp (I * y * t) * (I * t) * ((Real.exp (-b * t ^ 2) : ℝ) : ℂ)) (Set.Ioi 0) := by
    have h := (sus_integrable (gauss_int' hb) y).const_mul I
    refine h.congr (Eventually.of_forall fun t => ?_)
    push_cast
    ring
  have hd : ∀ t ∈ Set.Ioi (0 : ℝ), HasDerivAt (fun t : ℝ => Complex.exp (I * y * t) * ((Real.exp (-b * t ^ 2) : ℝ) : ℂ))
      (I * y * (Complex.exp (I * y * t) * ((Real.exp (-b * t ^ 2) : ℝ) : ℂ)) + 2 * b * I * (Complex.exp (I * y * t) * (I * t) * ((Real.exp (-b * t ^ 2) : ℝ) : ℂ))) t := by
    intro t _
    have h1 : HasDerivAt (fun y : ℝ => (y : ℂ)) 1 t := Complex.ofRealCLM.hasDerivAt
    have h2 := (h1.const_mul (I * y)).cexp
    have h3 : HasDerivAt (fun t : ℝ => Real.exp (-b * t ^ 2)) (Real.exp (-b * t ^ 2) * (-b * (2 * t))) t := by
      have := (((hasDerivAt_id t).pow 2).const_mul (-b)).exp
      simpa using this
    refine (h2.mul h3.ofReal_comp).congr_deriv ?_
    push_cast
    linear_combination (-(2 * b * cexp (I * y * t) * t * cexp (-b * t ^ 2))) * I_sq
  have hlim : Tendsto (fun t : ℝ => Complex.exp (I * y * t) * ((Real.exp (-b * t ^ 2) : ℝ) : ℂ)) atTop (𝓝 0) := by
    rw [tendsto_zero_iff_norm_tendsto_zero]
    have : Tendsto (fun t : ℝ => Real.exp (-b * t ^ 2)) atTop (𝓝 0) := by
      refine Real.tendsto_exp_atBot.comp ?_
      exact (tendsto_pow_atTop two_ne_zero).const_mul_atTop_of_neg (neg_lt_zero.2 hb)
    refine this.congr fun t => ?_
    rw [show I * (y : ℂ) * t = ((y * t : ℝ) : ℂ) * I by push_cast; ring, norm_mul, Complex.norm_exp_ofReal_mul_I, one_mul, Complex.norm_real, Real.norm_eq_abs,
      abs_of_pos (Real.exp_pos _)]
  have key := integral_Ioi_of_hasDerivAt_of_tendsto (a := 0) (Continuous.continuousWithinAt (by fun_prop)) hd
    ((i1.const_mul (I * y)).add (i2.const_mul (2 * b * I))) hlim
  rw [integral_add (i1.const_mul (I * y)) (i2.const_mul (2 * b * I)), integral_const_mul, integral_const_mul] at key
  simp only [Complex.ofReal_zero, mul_zero, Complex.exp_zero] at key
  rw [show -b * (0 : ℝ) ^ 2 = 0 by ring, Real.exp_zero, Complex.ofReal_one, mul_one, zero_sub] at key
  have n : (2 * b : ℂ) ≠ 0 := by exact_mod_cast (by positivity : (2 * b : ℝ) ≠ 0)
  rw [eq_div_iff n]
  unfold Spec.susceptibility
  generalize (∫ t in Set.Ioi (0 : ℝ), Complex.exp (I * y * t) * (I * t) * ((Real.exp (-b * t ^ 2) : ℝ) : ℂ)) = p at *
  generalize (∫ t in Set.Ioi (0 : ℝ), Complex.exp (I * y * t) * ((Real.exp (-b * t ^ 2) : ℝ) : ℂ)) = q at *
  linear_combination (-I) * key + (2 * b * p + y * q) * I_sq

lemma gauss_zero {b : ℝ} : Spec.susceptibility (fun t => Real.exp (-b * t ^ 2)) 0 = ((√(Real.pi / b) / 2 : ℝ) : ℂ) := by
  unfold Spec.susceptibility
  rw [← integral_gaussian_Ioi, ← integral_complex_ofReal]
  refine integral_congr_ae (Eventually.of_forall fun t => ?_)
  simp

/-- Closed form. -/
lemma gauss_closed {b : ℝ} (hb : 0 < b) (y : ℝ) : Spec.susceptibility (fun t => Real.exp (-b * t ^ 2)) y =
    ((Real.exp (-(y ^ 2 / (4 * b))) : ℝ) : ℂ) * (((√(Real.pi / b) / 2 : ℝ) : ℂ) + I / (2 * b) * ((∫ u in (0 : ℝ)..y, Real.exp (u ^ 2 / (4 * b)) : ℝ) : ℂ)) := by
  have n : (b : ℂ) ≠ 0 := by exact_mod_cast hb.ne'
  have hc : Continuous fun u : ℝ => Real.exp (u ^ 2 / (4 * b)) := by fun_prop
  have he : ∀ z : ℝ, HasDerivAt (fun z : ℝ => Real.exp (z ^ 2 / (4 * b))) (Real.exp (z ^ 2 / (4 * b)) * (z / (2 * b))) z := by
    intro z
    have := (((hasDerivAt_id z).pow 2).div_const (4 * b)).exp
    refine this.congr_deriv ?_
    have e : (id ^ 2 : ℝ → ℝ) z = z ^ 2 := rfl
    rw [e]
    generalize Real.exp (z ^ 2 / (4 * b)) = p
    simp only [id, pow_one, Nat.cast_ofNat, mul_one, Nat.add_one_sub_one]
    field_simp
    ring
  let G : ℝ → ℂ := fun z => ((Real.exp (z ^ 2 / (4 * b)) : ℝ) : ℂ) * Spec.susceptibility (fun t => Real.exp (-b * t ^ 2)) z
    - I / (2 * b) * ((∫ u in (0 : ℝ)..z, Real.exp (u ^ 2 / (4 * b)) : ℝ) : ℂ)
  have hG : ∀ z, HasDerivAt G 0 z := by
    intro z
    have h1 := (he z).ofReal_comp.mul (gauss_deriv hb z)
    have h2 := ((intervalIntegral.integral_hasDerivAt_right (hc.intervalIntegrable 0 z) (hc.stronglyMeasurableAtFilter _ _) hc.continuousAt).ofReal_comp).const_mul (I / (2 * b))
    refine (h1.sub h2).congr_deriv ?_
    push_cast
    field_simp
    ring
  have hconst : G y = G 0 := is_const_of_deriv_eq_zero (fun z => (hG z).differentiableAt) (fun z => (hG z).deriv) y 0
  simp only [G, gauss_zero] at hconst
  rw [intervalIntegral.integral_same, zero_pow two_ne_zero, zero_div, Real.exp_zero, Complex.ofReal_one, one_mul, Complex.ofReal_zero, mul_zero, sub_zero, sub_eq_iff_eq_add] at hconst
  rw [← hconst, ← mul_assoc, ← Complex.ofReal_mul, ← Real.exp_add, neg_add_cancel, Real.exp_zero, Complex.ofReal_one, one_mul]

/-- The kernel `c e^(-bt²) sin(Et)` of a Gaussian absorption line. -/
noncomputable def gaussKernel (c b E t : ℝ) : ℝ := c * (Real.exp (-b * t ^ 2) * Real.sin (E * t))

lemma gaussKernel_int (c : ℝ) {b : ℝ} (hb : 0 < b) (E : ℝ) : IntegrableOn (gaussKernel c b E) (Set.Ioi 0) := by
  refine Integrable.const_mul (Integrable.mul_bdd (c := 1) (gauss_int hb) (Continuous.aestronglyMeasurable (by fun_prop)) (Eventually.of_forall fun t => ?_)) c
  exact Real.abs_sin_le_one _

lemma gaussKernel_int' (c : ℝ) {b : ℝ} (hb : 0 < b) (E : ℝ) : IntegrableOn (fun t => t * gaussKernel c b E t) (Set.Ioi 0) := by
  have h : IntegrableOn (fun t => c * (t * Real.exp (-b * t ^ 2) * Real.sin (E * t))) (Set.Ioi 0) := by
    refine Integrable.const_mul (Integrable.mul_bdd (c := 1) (gauss_int' hb) (Continuous.aestronglyMeasurable (by fun_prop)) (Eventually.of_forall fun t => ?_)) c
    exact Real.abs_sin_le_one _
  refine h.congr (Eventually.of_forall fun t => ?_)
  unfold gaussKernel
  ring

lemma gaussKernel_sus (c : ℝ) {b : ℝ} (hb : 0 < b) (E x : ℝ) : Spec.susceptibility (gaussKernel c b E) x =
    -(c * I) / 2 * (Spec.susceptibility (fun t => Real.exp (-b * t ^ 2)) (x + E) - Spec.susceptibility (fun t => Real.exp (-b * t ^ 2)) (x - E)) := by
  have i1 := sus_integrable (gauss_int hb) (x + E)
  have i2 := sus_integrable (gauss_int hb) (x - E)
  unfold Spec.susceptibility
  rw [← integral_sub i1 i2, ← integral_const_mul]
  refine integral_congr_ae (Eventually.of_forall fun t => ?_)
  simp only [gaussKernel]
  have e1 : cexp (I * ((x + E : ℝ) : ℂ) * t) = cexp (I * x * t) * (Complex.cos (E * t) + Complex.sin (E * t) * I) := by
    rw [← Complex.exp_mul_I, ← Complex.exp_add]; congr 1; push_cast; ring
  have e2 : cexp (I * ((x - E : ℝ) : ℂ) * t) = cexp (I * x * t) * (Complex.cos (E * t) - Complex.sin (E * t) * I) := by
    have : Complex.cos (E * t) - Complex.sin (E * t) * I = cexp (-(E * t) * I) := by
      rw [Complex.exp_mul_I, Complex.cos_neg, Complex.sin_neg]; ring
    rw [this, ← Complex.exp_add]; congr 1; push_cast; ring
  rw [e1, e2]
  push_cast
  generalize cexp (I * x * t) = p
  generalize Complex.sin (E * t) = q
  generalize cexp (-b * t ^ 2) = r
  linear_combination (c * p * q * r) * I_sq

/-- The two parts of `gauss_closed` in terms of `dawsn`. -/
lemma gauss_parts {D : ℝ → ℝ} (hD : ∀ x, D x = Real.exp (-x ^ 2) * ∫ u in (0 : ℝ)..x, Real.exp (u ^ 2)) {k : ℝ} (hk : 0 < k) (y : ℝ) :
    Spec.susceptibility (fun t => Real.exp (-(1 / (4 * k ^ 2)) * t ^ 2)) y = ⟨k * √Real.pi * Real.exp (-(k * y) ^ 2), 2 * k * D (k * y)⟩ := by
  rw [gauss_closed (by positivity)]
  have e1 : √(Real.pi / (1 / (4 * k ^ 2))) / 2 = k * √Real.pi := by
    rw [show Real.pi / (1 / (4 * k ^ 2)) = (2 * k) ^ 2 * Real.pi by field_simp; norm_num, Real.sqrt_mul (by positivity), Real.sqrt_sq (by positivity)]
    ring
  have e2 : ∀ u : ℝ, u ^ 2 / (4 * (1 / (4 * k ^ 2))) = (k * u) ^ 2 := fun u => by field_simp
  have e3 : (∫ u in (0 : ℝ)..y, Real.exp ((k * u) ^ 2)) = k⁻¹ * ∫ u in (0 : ℝ)..(k * y), Real.exp (u ^ 2) := by
    rw [intervalIntegral.integral_comp_mul_left (fun u => Real.exp (u ^ 2)) hk.ne', mul_zero, smul_eq_mul]
  rw [e1]
  simp only [e2, e3, hD]
  have nk := hk.ne'
  rw [show I / (2 * ((1 / (4 * k ^ 2) : ℝ) : ℂ)) = ((2 * k ^ 2 : ℝ) : ℂ) * I by
    have : (k : ℂ) ≠ 0 := by exact_mod_cast nk
    push_cast; field_simp; norm_num]
  apply Complex.ext
  · simp [-Complex.ofReal_exp, Complex.mul_re, Complex.mul_im, -Complex.ofReal_mul, -Complex.ofReal_pow, -ofReal_inv]
    ring
  · simp [-Complex.ofReal_exp, Complex.mul_re, Complex.mul_im, -Complex.ofReal_mul, -Complex.ofReal_pow, -ofReal_inv]
    field_simp

/-- A Gaussian line is the susceptibility of a causal response. -/
lemma gauss_line {D : ℝ → ℝ} (hD : ∀ x, D x = Real.exp (-x ^ 2) * ∫ u in (0 : ℝ)..x, Real.exp (u ^ 2)) (A E : ℝ) {k : ℝ} (hk : 0 < k) (x : ℝ) :
    Spec.susceptibility (gaussKernel (2 * A / (√Real.pi * k)) (1 / (4 * k ^ 2)) E) x =
      ⟨2 * A / √Real.pi * (D (k * (x + E)) - D (k * (x - E))), A * Real.exp (-(k * (x - E)) ^ 2) - A * Real.exp (-(k * (x + E)) ^ 2)⟩ := by
  have hp : √Real.pi ≠ 0 := (Real.sqrt_pos.2 Real.pi_pos).ne'
  have nk := hk.ne'
  rw [gaussKernel_sus _ (by positivity), gauss_parts hD hk, gauss_parts hD hk]
  rw [show -(((2 * A / (√Real.pi * k) : ℝ) : ℂ) * I) / 2 = ⟨0, -(A / (√Real.pi * k))⟩ by
    apply Complex.ext
    · simp [-ofReal_div, -ofReal_mul]
    · simp [-ofReal_div, -ofReal_mul]
      ring]
  apply Complex.ext
  · simp only [Complex.mul_re, Complex.sub_re, Complex.sub_im]
    field_simp
    ring
  · simp only [Complex.mul_im, Complex.sub_re, Complex.sub_im]
    field_simp
    ring

end PyElli
