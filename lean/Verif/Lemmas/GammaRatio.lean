import Mathlib.Analysis.SpecialFunctions.Gamma.Digamma
import Mathlib.Analysis.SpecialFunctions.Gamma.Beta
import Mathlib.Analysis.SpecialFunctions.Gamma.Deriv
import Mathlib.Analysis.SpecialFunctions.Trigonometric.Arctan
import Mathlib.Analysis.SpecialFunctions.Pow.Deriv
import Mathlib.Analysis.Calculus.Deriv.Star
import Mathlib.Tactic

/-! The quotient `ξ^(1-2a) Γ(a-ξ) / Γ(1-a-ξ)` of the exciton model of Tanguy: sign of its imaginary part for `ξ` in the upper half plane,
and its derivative with respect to `a`. -/

namespace PyElli.GammaRatio

open Complex Filter Topology ComplexConjugate

/-- `ξ^(1-2a) Γ(a-ξ) / Γ(1-a-ξ)`. -/
noncomputable def G (a xi : ℂ) : ℂ := xi ^ (1 - 2 * a) * (Gamma (a - xi) * (Gamma (1 - a - xi))⁻¹)

/-- The angle under which the real point `b` is seen from `x + i y`, between `-π` and `0`. -/
noncomputable def ang (x y b : ℝ) : ℝ := Real.arctan ((b - x) / y) - Real.pi / 2

lemma ang_mono {x y b c : ℝ} (hy : 0 < y) (h : b ≤ c) : ang x y b ≤ ang x y c := by
  unfold ang
  have : (b - x) / y ≤ (c - x) / y := by gcongr
  linarith [Real.arctan_strictMono.monotone this]

lemma ang_neg (x y b : ℝ) : ang x y b < 0 := by
  unfold ang
  linarith [Real.arctan_lt_pi_div_two ((b - x) / y)]

lemma ang_gt (x y b : ℝ) : -Real.pi < ang x y b := by
  unfold ang
  linarith [Real.neg_pi_div_two_lt_arctan ((b - x) / y)]

/-- A positive factor times a phase. -/
def Polar (z : ℂ) (t : ℝ) : Prop := ∃ r : ℝ, 0 < r ∧ z = r * cexp (t * I)

lemma Polar.mul {z w : ℂ} {s t : ℝ} (h : Polar z s) (h' : Polar w t) : Polar (z * w) (s + t) := by
  obtain ⟨r, hr, rfl⟩ := h
  obtain ⟨r', hr', rfl⟩ := h'
  refine ⟨r * r', mul_pos hr hr', ?_⟩
  push_cast
  rw [add_mul, Complex.exp_add]
  ring

lemma Polar.inv {z : ℂ} {s : ℝ} (h : Polar z s) : Polar z⁻¹ (-s) := by
  obtain ⟨r, hr, rfl⟩ := h
  refine ⟨r⁻¹, inv_pos.2 hr, ?_⟩
  push_cast
  rw [neg_mul, Complex.exp_neg, mul_inv]

lemma Polar.im {z : ℂ} {s : ℝ} (h : Polar z s) : ∃ r : ℝ, 0 < r ∧ z.im = r * Real.sin s := by
  obtain ⟨r, hr, rfl⟩ := h
  refine ⟨r, hr, ?_⟩
  rw [im_ofReal_mul, exp_ofReal_mul_I_im]

lemma polar_sub (x y b : ℝ) (hy : 0 < y) : Polar (b - (x + y * I)) (ang x y b) := by
  set t := (b - x) / y with ht
  have hb : b - x = y * t := by rw [ht]; field_simp
  have h0 : 0 < √(1 + t ^ 2) := Real.sqrt_pos.2 (by positivity)
  refine ⟨y * √(1 + t ^ 2), mul_pos hy h0, ?_⟩
  have hc : Real.cos (ang x y b) = t / √(1 + t ^ 2) := by
    rw [ang, Real.cos_sub_pi_div_two, Real.sin_arctan]
  have hs : Real.sin (ang x y b) = -(1 / √(1 + t ^ 2)) := by
    rw [ang, Real.sin_sub_pi_div_two, Real.cos_arctan]
  have hx : (b : ℂ) - (x + y * I) = ((b - x : ℝ) : ℂ) - y * I := by push_cast; ring
  have h0c : ((√(1 + t ^ 2) : ℝ) : ℂ) ≠ 0 := by exact_mod_cast h0.ne'
  rw [exp_mul_I, ← ofReal_cos, ← ofReal_sin, hc, hs, hx, hb]
  push_cast
  field_simp
  ring

lemma polar_self (x y : ℝ) (hy : 0 < y) : Polar (x + y * I) (ang x y 0 + Real.pi) := by
  obtain ⟨r, hr, h⟩ := polar_sub x y 0 hy
  refine ⟨r, hr, ?_⟩
  push_cast
  rw [add_mul, Complex.exp_add, exp_pi_mul_I]
  have : (x : ℂ) + y * I = -(((0 : ℝ) : ℂ) - (x + y * I)) := by push_cast; ring
  rw [this, h]
  ring

lemma Polar.arg {z : ℂ} {s : ℝ} (h : Polar z s) (h1 : -Real.pi < s) (h2 : s ≤ Real.pi) : arg z = s := by
  obtain ⟨r, hr, rfl⟩ := h
  rw [exp_mul_I]
  exact arg_mul_cos_add_sin_mul_I hr ⟨h1, h2⟩

lemma Polar.ne_zero {z : ℂ} {s : ℝ} (h : Polar z s) : z ≠ 0 := by
  obtain ⟨r, hr, rfl⟩ := h
  exact mul_ne_zero (by exact_mod_cast hr.ne') (Complex.exp_ne_zero _)

lemma Polar.cpow {z : ℂ} {s : ℝ} (h : Polar z s) (h1 : -Real.pi < s) (h2 : s ≤ Real.pi) (e : ℝ) : Polar (z ^ (e : ℂ)) (e * s) := by
  have h0 := h.ne_zero
  refine ⟨Real.exp (Real.log ‖z‖ * e), Real.exp_pos _, ?_⟩
  rw [cpow_def_of_ne_zero h0, Complex.log, h.arg h1 h2, add_mul, Complex.exp_add]
  push_cast
  congr 2
  ring

/-- The finite product of which the quotient of Gamma functions is the limit. -/
noncomputable def P (a xi : ℂ) (n : ℕ) : ℂ := ∏ k ∈ Finset.range (n + 1), ((1 - a - xi + k) * (a - xi + k)⁻¹)

/-- Its angle. -/
noncomputable def T (a x y : ℝ) (n : ℕ) : ℝ := ∑ k ∈ Finset.range (n + 1), (ang x y (1 - a + k) - ang x y (a + k))

lemma polar_P (a x y : ℝ) (hy : 0 < y) (n : ℕ) : Polar (P a (x + y * I) n) (T a x y n) := by
  have key : ∀ k : ℕ, Polar ((1 - (a : ℂ) - (x + y * I) + k) * ((a : ℂ) - (x + y * I) + k)⁻¹) (ang x y (1 - a + k) - ang x y (a + k)) := by
    intro k
    have h1 := polar_sub x y (1 - a + k) hy
    have h2 := polar_sub x y (a + k) hy
    rw [show (1 - (a : ℂ) - (x + y * I) + k) = ((1 - a + k : ℝ) : ℂ) - (x + y * I) by push_cast; ring,
      show ((a : ℂ) - (x + y * I) + k) = ((a + k : ℝ) : ℂ) - (x + y * I) by push_cast; ring, sub_eq_add_neg (ang _ _ _)]
    exact h1.mul h2.inv
  unfold P T
  induction n with
  | zero => simpa using key 0
  | succ n ih =>
    rw [Finset.prod_range_succ, Finset.sum_range_succ]
    exact ih.mul (key (n + 1))

lemma T_nonpos {a x y : ℝ} (hy : 0 < y) (ha : 1 / 2 ≤ a) (n : ℕ) : T a x y n ≤ 0 := by
  unfold T
  apply Finset.sum_nonpos
  intro k _
  have := ang_mono (x := x) hy (show 1 - a + k ≤ a + k by linarith)
  linarith

lemma T_ge {a x y : ℝ} (hy : 0 < y) (ha : a ≤ 1) (n : ℕ) : ang x y (1 - a) - ang x y (a + n) ≤ T a x y n := by
  unfold T
  induction n with
  | zero => simp
  | succ n ih =>
    rw [Finset.sum_range_succ]
    have := ang_mono (x := x) hy (show a + n ≤ 1 - a + ((n + 1 : ℕ) : ℝ) by push_cast; linarith)
    linarith

/-- Angle of the quotient for `1/2 ≤ a ≤ 1`: between `-π` and `0`. -/
lemma prod_im_nonpos {a x y : ℝ} (hy : 0 < y) (ha : 1 / 2 ≤ a) (ha' : a ≤ 1) (n : ℕ) :
    (((x + y * I : ℂ) ^ ((1 - 2 * a : ℝ) : ℂ)) * P a (x + y * I) n).im ≤ 0 := by
  have h1 := (polar_self x y hy).cpow (by linarith [ang_gt x y 0, Real.pi_pos]) (by linarith [ang_neg x y 0]) (1 - 2 * a)
  obtain ⟨r, hr, h2⟩ := (h1.mul (polar_P a x y hy n)).im
  rw [h2]
  apply mul_nonpos_of_nonneg_of_nonpos hr.le
  apply Real.sin_nonpos_of_nonpos_of_neg_pi_le
  · have := T_nonpos (x := x) hy ha n
    have : (1 - 2 * a) * (ang x y 0 + Real.pi) ≤ 0 := mul_nonpos_of_nonpos_of_nonneg (by linarith) (by linarith [ang_gt x y 0])
    linarith
  · have h3 := T_ge (x := x) hy ha' n
    have h4 := ang_neg x y (a + n)
    have h5 := ang_mono (x := x) hy (show 0 ≤ 1 - a by linarith)
    have h6 : -(ang x y 0 + Real.pi) ≤ (1 - 2 * a) * (ang x y 0 + Real.pi) := by nlinarith [ang_gt x y 0]
    linarith

lemma gammaSeq_ratio (a : ℝ) (xi : ℂ) (hxi : xi.im ≠ 0) (n : ℕ) (hn : n ≠ 0) :
    GammaSeq (a - xi) n * (GammaSeq (1 - a - xi) n)⁻¹ = (((n : ℝ) ^ (2 * a - 1) : ℝ) : ℂ) * P a xi n := by
  have hn0 : (n : ℂ) ≠ 0 := by exact_mod_cast hn
  have hf : ((Nat.factorial n : ℕ) : ℂ) ≠ 0 := by exact_mod_cast Nat.factorial_ne_zero n
  have hp : ∀ b : ℝ, ∏ k ∈ Finset.range (n + 1), ((b : ℂ) - xi + k) ≠ 0 := by
    intro b
    apply Finset.prod_ne_zero_iff.2
    intro k _ h
    have := congrArg im h
    simp at this
    exact hxi this
  have h1 := hp a
  have h2 := hp (1 - a)
  push_cast at h2
  have hpow : (n : ℂ) ^ ((a : ℂ) - xi) = (n : ℂ) ^ ((1 : ℂ) - a - xi) * (((n : ℝ) ^ (2 * a - 1) : ℝ) : ℂ) := by
    rw [ofReal_cpow (Nat.cast_nonneg n), ofReal_natCast, ← cpow_add _ _ hn0]
    congr 1
    push_cast
    ring
  have hpn : (n : ℂ) ^ ((1 : ℂ) - a - xi) ≠ 0 := by
    rw [Ne, cpow_eq_zero_iff]
    tauto
  rw [GammaSeq, GammaSeq, P, Finset.prod_mul_distrib, Finset.prod_inv_distrib, hpow]
  field_simp

lemma no_pole {s : ℂ} (h : s.im ≠ 0) (m : ℕ) : s ≠ -m := by
  rintro rfl
  simp at h

/-- The imaginary part of the quotient is not positive for `1/2 ≤ a ≤ 1`. -/
theorem G_im_nonpos {a : ℝ} {xi : ℂ} (hxi : 0 < xi.im) (ha : 1 / 2 ≤ a) (ha' : a ≤ 1) : (G a xi).im ≤ 0 := by
  have hne : Gamma (1 - a - xi) ≠ 0 := Gamma_ne_zero (no_pole (by simp; exact hxi.ne'))
  have hlim : Tendsto (fun n : ℕ => xi ^ (1 - 2 * (a : ℂ)) * (GammaSeq (a - xi) n * (GammaSeq (1 - a - xi) n)⁻¹)) atTop (𝓝 (G a xi)) :=
    ((GammaSeq_tendsto_Gamma _).mul ((GammaSeq_tendsto_Gamma _).inv₀ hne)).const_mul _
  refine le_of_tendsto ((continuous_im.tendsto _).comp hlim) ?_
  filter_upwards [eventually_ne_atTop 0] with n hn
  simp only [Function.comp_apply]
  rw [gammaSeq_ratio a xi hxi.ne' n hn, mul_left_comm, im_ofReal_mul]
  apply mul_nonpos_of_nonneg_of_nonpos (by positivity)
  have := prod_im_nonpos (x := xi.re) hxi ha ha' n
  rw [re_add_im] at this
  push_cast at this
  exact this

lemma G_inv (a xi : ℂ) : G (1 - a) xi = (G a xi)⁻¹ := by
  unfold G
  rw [mul_inv, mul_inv, inv_inv, ← cpow_neg]
  rw [show 1 - 2 * (1 - a) = -(1 - 2 * a) by ring, show 1 - (1 - a) - xi = a - xi by ring]
  ring

/-- The imaginary part of the quotient is not negative for `0 ≤ a ≤ 1/2`. -/
theorem G_im_nonneg {a : ℝ} {xi : ℂ} (hxi : 0 < xi.im) (ha : 0 ≤ a) (ha' : a ≤ 1 / 2) : 0 ≤ (G a xi).im := by
  have h := G_im_nonpos (a := 1 - a) hxi (by linarith) (by linarith)
  have h2 : G a xi = (G ((1 - a : ℝ) : ℂ) xi)⁻¹ := by
    push_cast
    rw [← G_inv]
    congr 1
    ring
  rw [h2, inv_im]
  exact div_nonneg (by linarith) (normSq_nonneg _)

/-! ## The derivative with respect to `a` -/

lemma hasDerivAt_Gamma {s : ℂ} (hs : ∀ m : ℕ, s ≠ -m) : HasDerivAt Gamma (digamma s * Gamma s) s := by
  have h := (differentiableAt_Gamma s hs).hasDerivAt
  have : digamma s * Gamma s = deriv Gamma s := by
    rw [digamma_def, logDeriv_apply, div_mul_cancel₀ _ (Gamma_ne_zero hs)]
  rw [this]
  exact h

/-- The logarithmic derivative of the quotient. -/
noncomputable def slopeG (a xi : ℂ) : ℂ := -2 * log xi + digamma (a - xi) + digamma (1 - a - xi)

lemma hasDerivAt_G {a xi : ℂ} (hxi : xi ≠ 0) (h1 : ∀ m : ℕ, a - xi ≠ -m) (h2 : ∀ m : ℕ, 1 - a - xi ≠ -m) :
    HasDerivAt (fun a => G a xi) (G a xi * slopeG a xi) a := by
  have d1 : HasDerivAt (fun a : ℂ => xi ^ (1 - 2 * a)) (xi ^ (1 - 2 * a) * log xi * (-2)) a := by
    have : HasDerivAt (fun a : ℂ => 1 - 2 * a) (-2) a := by
      simpa using ((hasDerivAt_id a).const_mul 2).const_sub 1
    exact this.const_cpow (Or.inl hxi)
  have d2 : HasDerivAt (fun a : ℂ => Gamma (a - xi)) (digamma (a - xi) * Gamma (a - xi)) a := by
    have := HasDerivAt.comp (h := fun a => a - xi) a (hasDerivAt_Gamma h1) ((hasDerivAt_id a).sub_const xi)
    rw [mul_one] at this
    exact this
  have d3 : HasDerivAt (fun a : ℂ => Gamma (1 - a - xi)) (-(digamma (1 - a - xi) * Gamma (1 - a - xi))) a := by
    have := HasDerivAt.comp (h := fun a => 1 - a - xi) a (hasDerivAt_Gamma h2) (((hasDerivAt_id a).const_sub 1).sub_const xi)
    rw [mul_neg_one] at this
    exact this
  have hne := Gamma_ne_zero h2
  have d4 := d1.mul (d2.mul (d3.inv hne))
  refine d4.congr_deriv ?_
  simp only [G, slopeG, Pi.mul_apply, Pi.inv_apply]
  field_simp
  ring

lemma G_one {xi : ℂ} (h : ∀ m : ℕ, xi ≠ m) : G 1 xi = -1 := by
  have h0 : xi ≠ 0 := by simpa using h 0
  have h2 : Gamma (-xi) ≠ 0 := Gamma_ne_zero fun m hm => h m (neg_injective hm)
  unfold G
  rw [show (1 : ℂ) - 1 - xi = -xi by ring, show (1 : ℂ) - xi = -xi + 1 by ring, Gamma_add_one _ (neg_ne_zero.2 h0),
    show (1 : ℂ) - 2 * 1 = -1 by norm_num, cpow_neg_one]
  field_simp

lemma G_half {xi : ℂ} (h : ∀ m : ℕ, 1 / 2 - xi ≠ -m) : G (1 / 2) xi = 1 := by
  have h2 := Gamma_ne_zero h
  unfold G
  rw [show (1 : ℂ) - 2 * (1 / 2) = 0 by norm_num, cpow_zero, show (1 : ℂ) - 1 / 2 - xi = 1 / 2 - xi by ring, mul_inv_cancel₀ h2, one_mul]

lemma digamma_neg {xi : ℂ} (h : ∀ m : ℕ, xi ≠ m) : digamma (-xi) = digamma (1 - xi) + 1 / xi := by
  have := digamma_apply_add_one (-xi) fun m hm => h m (neg_injective hm)
  rw [show (1 : ℂ) - xi = -xi + 1 by ring, this]
  rw [inv_neg]
  ring

lemma slopeG_one {xi : ℂ} (h : ∀ m : ℕ, xi ≠ m) : slopeG 1 xi = -(2 * log xi - 2 * digamma (1 - xi) - 1 / xi) := by
  unfold slopeG
  rw [show (1 : ℂ) - 1 - xi = -xi by ring, digamma_neg h]
  ring

lemma slopeG_half (xi : ℂ) : slopeG (1 / 2) xi = -(2 * log xi - 2 * digamma (1 / 2 - xi)) := by
  unfold slopeG
  rw [show (1 : ℂ) - 1 / 2 - xi = 1 / 2 - xi by ring]
  ring

/-- The imaginary part of `2 ln ξ - 2 ψ(1-ξ) - 1/ξ` is not negative in the upper half plane. -/
theorem three_im_nonneg {xi : ℂ} (hxi : 0 < xi.im) : 0 ≤ (2 * log xi - 2 * digamma (1 - xi) - 1 / xi).im := by
  have hm : ∀ m : ℕ, xi ≠ m := by rintro m rfl; simp at hxi
  have h0 : xi ≠ 0 := by simpa using hm 0
  have hd := hasDerivAt_G (a := 1) h0 (no_pole (by simp; exact hxi.ne')) (no_pole (by simp; exact hxi.ne'))
  rw [G_one hm, slopeG_one hm, neg_mul_neg, one_mul] at hd
  have hd' : HasDerivAt (fun a : ℝ => (G a xi).im) (2 * log xi - 2 * digamma (1 - xi) - 1 / xi).im 1 := by
    have h1 : HasDerivAt (fun a : ℝ => G a xi) (2 * log xi - 2 * digamma (1 - xi) - 1 / xi) 1 := by
      apply HasDerivAt.comp_ofReal (e := fun a => G a xi)
      simpa using hd
    exact (imCLM.hasFDerivAt.comp_hasDerivAt (1 : ℝ) h1)
  have hs := hd'.tendsto_slope.mono_left (nhdsWithin_mono (1 : ℝ) (show Set.Iio (1 : ℝ) ⊆ {1}ᶜ from fun x hx => ne_of_lt hx))
  refine ge_of_tendsto hs ?_
  filter_upwards [Ioo_mem_nhdsLT (show (1 / 2 : ℝ) < 1 by norm_num)] with a ha
  have h2 := G_im_nonpos hxi ha.1.le ha.2.le
  have h3 : (G ((1 : ℝ) : ℂ) xi).im = 0 := by push_cast; rw [G_one hm]; simp
  rw [slope_def_field, h3]
  exact div_nonneg_of_nonpos (by linarith) (by linarith [ha.2])

/-- The imaginary part of `2 ln ξ - 2 ψ(1/2-ξ)` is not negative in the upper half plane. -/
theorem two_im_nonneg {xi : ℂ} (hxi : 0 < xi.im) : 0 ≤ (2 * log xi - 2 * digamma (1 / 2 - xi)).im := by
  have h0 : xi ≠ 0 := by rintro rfl; simp at hxi
  have hp : ∀ m : ℕ, 1 / 2 - xi ≠ -m := no_pole (by simp; exact hxi.ne')
  have hd := hasDerivAt_G (a := 1 / 2) h0 hp (no_pole (by simp; exact hxi.ne'))
  rw [G_half hp, slopeG_half, one_mul] at hd
  have hd' : HasDerivAt (fun a : ℝ => (G a xi).im) (-(2 * log xi - 2 * digamma (1 / 2 - xi))).im (1 / 2) := by
    have h1 : HasDerivAt (fun a : ℝ => G a xi) (-(2 * log xi - 2 * digamma (1 / 2 - xi))) (1 / 2) := by
      apply HasDerivAt.comp_ofReal (e := fun a => G a xi)
      push_cast
      exact hd
    exact (imCLM.hasFDerivAt.comp_hasDerivAt (1 / 2 : ℝ) h1)
  have hs := hd'.tendsto_slope.mono_left (nhdsWithin_mono (1 / 2 : ℝ) (show Set.Ioi (1 / 2 : ℝ) ⊆ {1 / 2}ᶜ from fun x hx => ne_of_gt hx))
  have : (-(2 * log xi - 2 * digamma (1 / 2 - xi))).im ≤ 0 := by
    refine le_of_tendsto hs ?_
    filter_upwards [Ioo_mem_nhdsGT (show (1 / 2 : ℝ) < 1 by norm_num)] with a ha
    have h2 := G_im_nonpos hxi ha.1.le ha.2.le
    have h3 : (G ((1 / 2 : ℝ) : ℂ) xi).im = 0 := by push_cast; rw [G_half hp]; simp
    rw [slope_def_field, h3]
    exact div_nonpos_of_nonpos_of_nonneg (by linarith) (by linarith [ha.1])
  rw [neg_im] at this
  linarith

/-! ## The digamma function -/

lemma isOpen_no_pole : IsOpen {s : ℂ | ∀ m : ℕ, s ≠ -m} := by
  have : {s : ℂ | ∀ m : ℕ, s ≠ -m} = {s : ℂ | (Gamma s)⁻¹ ≠ 0} := by
    ext s
    simp only [Set.mem_setOf_eq, Ne, inv_eq_zero, Gamma_eq_zero_iff, not_exists]
  rw [this]
  exact isOpen_ne_fun differentiable_one_div_Gamma.continuous continuous_const

lemma differentiableAt_digamma {s : ℂ} (hs : ∀ m : ℕ, s ≠ -m) : DifferentiableAt ℂ digamma s := by
  have h1 : DifferentiableOn ℂ Gamma {s : ℂ | ∀ m : ℕ, s ≠ -m} := fun z hz => (differentiableAt_Gamma z hz).differentiableWithinAt
  have h2 := (h1.deriv isOpen_no_pole).differentiableAt (isOpen_no_pole.mem_nhds hs)
  have h3 : digamma = fun z => deriv Gamma z / Gamma z := by
    funext z
    rw [digamma_def, logDeriv_apply]
  rw [h3]
  exact h2.div (differentiableAt_Gamma s hs) (Gamma_ne_zero hs)

lemma digamma_conj (s : ℂ) : digamma (conj s) = conj (digamma s) := by
  have h : (conj ∘ Gamma ∘ conj : ℂ → ℂ) = Gamma := by
    funext z
    simp [Gamma_conj]
  have h2 : deriv Gamma (conj s) = conj (deriv Gamma s) := by
    have h3 := deriv_conj_conj (f := Gamma) (𝕜 := ℂ)
    rw [h] at h3
    have := congrFun h3 (conj s)
    simpa using this
  rw [digamma_def, logDeriv_apply, logDeriv_apply, h2, Gamma_conj, map_div₀]

end PyElli.GammaRatio
