import Verif.Model.Materials
import Verif.Lemmas.Sqrt
import Mathlib.Analysis.SpecialFunctions.Pow.Real
import Mathlib.Tactic

/-! Lemmas about the effective medium formulas. -/

namespace PyElli

open Complex

lemma cbrt_cube (z : ℂ) : (z ^ (1 / 3 : ℂ)) ^ 3 = z := by
  have := Complex.cpow_nat_inv_pow z (n := 3) (by norm_num)
  simpa using this

/-- Unfolded Bruggeman entry for `h ≠ g`, both non-zero. -/
lemma bruggeman_some {h g : ℂ} (hh : h ≠ 0) (hg : g ≠ 0) (hne : h ≠ g) (f : ℝ) :
    ∃ p z : ℂ, p = Complex.sqrt h / Complex.sqrt g ∧ p ≠ 0 ∧ 0 ≤ z.re ∧ z ≠ 0 ∧
      2 * z ^ 2 - ((3 * f - 1) * (1 / p - p) + p) * z - 1 = 0 ∧
      bruggemanEntry h g f = some (z * Complex.sqrt h * Complex.sqrt g) := by
  have sh : Complex.sqrt h ≠ 0 := fun h0 => hh (csqrt_eq_zero.1 h0)
  have sg : Complex.sqrt g ≠ 0 := fun h0 => hg (csqrt_eq_zero.1 h0)
  set p := Complex.sqrt h / Complex.sqrt g with hp
  have hp0 : p ≠ 0 := div_ne_zero sh sg
  set b : ℂ := 0.25 * ((3 * f - 1) * (1 / p - p) + p) with hb
  set q := Complex.sqrt (b ^ 2 + 0.5) with hq
  have hq2 : q ^ 2 = b ^ 2 + 0.5 := csqrt_sq _
  have hqr : 0 ≤ q.re := csqrt_re_nonneg _
  have heq : 2 * (b + q) ^ 2 - ((3 * f - 1) * (1 / p - p) + p) * (b + q) - 1 = 0 := by
    have h4 : (3 * f - 1) * (1 / p - p) + p = 4 * b := by rw [hb]; ring
    rw [h4]
    linear_combination 2 * hq2 + (0 : ℂ)
  have hz0 : b + q ≠ 0 := by
    intro h0
    rw [h0] at heq
    norm_num at heq
  have hzz : (b + q) * (q - b) = 0.5 := by linear_combination hq2
  refine ⟨p, b + q, hp, hp0, ?_, hz0, heq, ?_⟩
  · -- `2 q = z + (q - b)` with `q - b = 1 / (2 z)`
    by_contra hneg
    push Not at hneg
    set z := b + q with hz
    have h1 : q - b = 0.5 / z := by
      rw [eq_div_iff hz0]
      linear_combination hzz
    have h2 : 2 * q.re = z.re + (0.5 / z).re := by
      rw [← h1, hz]
      simp
      ring
    have h3 : (0.5 / z : ℂ).re = 0.5 * z.re / Complex.normSq z := by
      rw [Complex.div_re]
      norm_num
    have hpos : 0 < Complex.normSq z := Complex.normSq_pos.2 hz0
    have : 0.5 * z.re / Complex.normSq z < 0 := div_neg_of_neg_of_pos (by linarith) hpos
    linarith
  · unfold bruggemanEntry
    rw [if_neg hne]
    simp only
    rw [if_neg (by
      rintro (h0 | h0)
      · exact sg h0
      · exact hp0 h0)]

/-- The Bruggeman entry solves the quadratic equation in the docstring (with `a` the host `h` and fraction of
the guest `f`). -/
lemma bruggeman_quadratic {h g e : ℂ} {f : ℝ} (he : bruggemanEntry h g f = some e) :
    2 * e ^ 2 + ((3 * f - 2) * h + (1 - 3 * f) * g) * e - h * g = 0 := by
  by_cases hne : h = g
  · subst hne
    unfold bruggemanEntry at he
    rw [if_pos rfl] at he
    cases he
    ring
  · by_cases hh : h = 0
    · subst hh
      unfold bruggemanEntry at he
      rw [if_neg hne] at he
      simp at he
    · by_cases hg : g = 0
      · subst hg
        unfold bruggemanEntry at he
        rw [if_neg hne] at he
        simp at he
      · obtain ⟨p, z, hp, hp0, -, hz0, hq, hs⟩ := bruggeman_some hh hg hne f
        rw [hs] at he
        cases he
        have sg : Complex.sqrt g ≠ 0 := fun h0 => hg (csqrt_eq_zero.1 h0)
        set u := Complex.sqrt h with hu
        set v := Complex.sqrt g with hv
        have e1 : h = u ^ 2 := (csqrt_sq h).symm
        have e2 : g = v ^ 2 := (csqrt_sq g).symm
        have hu0 : u = p * v := by rw [hp]; field_simp
        rw [e1, e2, hu0]
        have hq' : p * (2 * z ^ 2 - 1) = ((3 * f - 1) * (1 - p ^ 2) + p ^ 2) * z := by
          have hr : p * ((3 * (f : ℂ) - 1) * (1 / p - p) + p) = (3 * f - 1) * (1 - p ^ 2) + p ^ 2 := by
            field_simp
          linear_combination p * hq + z * hr
        linear_combination (p * v ^ 4) * hq'

lemma bruggeman_balance {h g e : ℂ} {f : ℝ} (he : bruggemanEntry h g f = some e) :
    f * (g - e) * (h + 2 * e) + (1 - f) * (h - e) * (g + 2 * e) = 0 := by
  linear_combination -(bruggeman_quadratic he)

/-- Real square root form for positive constituents. -/
lemma bruggeman_real {h g : ℝ} (hh : 0 < h) (hg : 0 < g) (hne : h ≠ g) (f : ℝ) :
    ∃ e : ℝ, 0 < e ∧ bruggemanEntry h g f = some (e : ℂ) := by
  set p : ℝ := Real.sqrt h / Real.sqrt g with hp
  set b : ℝ := 0.25 * ((3 * f - 1) * (1 / p - p) + p) with hb
  have hsh := Real.sqrt_pos.2 hh
  have hsg := Real.sqrt_pos.2 hg
  have hp0 : 0 < p := div_pos hsh hsg
  have hz : 0 < b + Real.sqrt (b ^ 2 + 0.5) := by
    have h1 : Real.sqrt (b ^ 2) < Real.sqrt (b ^ 2 + 0.5) :=
      Real.sqrt_lt_sqrt (sq_nonneg b) (by linarith)
    rw [Real.sqrt_sq_eq_abs] at h1
    have := neg_abs_le b
    linarith
  refine ⟨(b + Real.sqrt (b ^ 2 + 0.5)) * Real.sqrt h * Real.sqrt g, by positivity, ?_⟩
  unfold bruggemanEntry
  have hne' : (h : ℂ) ≠ (g : ℂ) := fun h0 => hne (by exact_mod_cast h0)
  rw [if_neg hne']
  simp only
  rw [csqrt_ofReal hh.le, csqrt_ofReal hg.le]
  have ep : (Real.sqrt h : ℂ) / (Real.sqrt g : ℂ) = (p : ℂ) := by rw [hp]; push_cast; rfl
  rw [ep]
  have hpc : (p : ℂ) ≠ 0 := by exact_mod_cast hp0.ne'
  have hgc : (Real.sqrt g : ℂ) ≠ 0 := by exact_mod_cast hsg.ne'
  rw [if_neg (by
    rintro (h0 | h0)
    · exact hgc h0
    · exact hpc h0)]
  have eb : (0.25 : ℂ) * ((3 * (f : ℂ) - 1) * (1 / (p : ℂ) - p) + p) = ((b : ℝ) : ℂ) := by
    rw [hb]
    push_cast
    norm_num
  rw [eb]
  have es : ((b : ℝ) : ℂ) ^ 2 + 0.5 = ((b ^ 2 + 0.5 : ℝ) : ℂ) := by
    push_cast
    norm_num
  rw [es, csqrt_ofReal (by positivity)]
  push_cast
  rfl

/-- Sector of angles `[0, π/3]`. -/
def Sector3 (z : ℂ) : Prop := 0 ≤ z.im ∧ z.im ≤ Real.sqrt 3 * z.re

lemma cbrt_sector {z : ℂ} (h : 0 ≤ z.im) : Sector3 (z ^ (1 / 3 : ℂ)) := by
  by_cases hz : z = 0
  · subst hz
    unfold Sector3
    rw [Complex.zero_cpow (by norm_num)]
    simp
  · have harg0 : 0 ≤ z.arg := Complex.arg_nonneg_iff.2 h
    have hargpi : z.arg ≤ Real.pi := Complex.arg_le_pi z
    set r := ‖z‖ ^ (1 / 3 : ℝ) with hr
    set a := z.arg / 3 with ha
    have hform : z ^ (1 / 3 : ℂ) = (r : ℂ) * (Complex.cos a + Complex.sin a * I) := by
      rw [Complex.cpow_def_of_ne_zero hz]
      have hlog : Complex.log z * (1 / 3) = ((Real.log ‖z‖ * (1 / 3) : ℝ) : ℂ) + (a : ℂ) * I := by
        rw [Complex.log, ha]
        push_cast
        ring
      rw [hlog, Complex.exp_add, Complex.exp_mul_I, ← Complex.ofReal_exp]
      congr 2
      rw [hr, Real.rpow_def_of_pos (norm_pos_iff.2 hz)]
    have hr0 : 0 ≤ r := Real.rpow_nonneg (norm_nonneg z) _
    have hre : (z ^ (1 / 3 : ℂ)).re = r * Real.cos a := by
      rw [hform, ← Complex.ofReal_cos, ← Complex.ofReal_sin]
      generalize Real.cos a = c
      generalize Real.sin a = s
      simp
    have him : (z ^ (1 / 3 : ℂ)).im = r * Real.sin a := by
      rw [hform, ← Complex.ofReal_cos, ← Complex.ofReal_sin]
      generalize Real.cos a = c
      generalize Real.sin a = s
      simp
    have hpi := Real.pi_pos
    have hsin : 0 ≤ Real.sin a := Real.sin_nonneg_of_nonneg_of_le_pi (by positivity) (by rw [ha]; linarith)
    have hdiff : Real.sin a ≤ Real.sqrt 3 * Real.cos a := by
      have h1 : 0 ≤ Real.sin (Real.pi / 3 - a) :=
        Real.sin_nonneg_of_nonneg_of_le_pi (by rw [ha]; linarith) (by linarith [show 0 ≤ a by positivity])
      rw [Real.sin_sub, Real.sin_pi_div_three, Real.cos_pi_div_three] at h1
      linarith
    unfold Sector3
    rw [hre, him]
    constructor
    · positivity
    · nlinarith

lemma sector_comb {x y : ℂ} (hx : Sector3 x) (hy : Sector3 y) {f : ℝ} (h0 : 0 ≤ f) (h1 : f ≤ 1) :
    Sector3 (x * (1 - f) + y * f) := by
  unfold Sector3 at *
  obtain ⟨a, b⟩ := hx
  obtain ⟨c, d⟩ := hy
  have e1 : (x * (1 - f) + y * f).im = x.im * (1 - f) + y.im * f := by simp
  have e2 : (x * (1 - f) + y * f).re = x.re * (1 - f) + y.re * f := by simp
  rw [e1, e2]
  have : 0 ≤ 1 - f := by linarith
  constructor
  · positivity
  · nlinarith

lemma sector_cube {x : ℂ} (hx : Sector3 x) : 0 ≤ (x ^ 3).im := by
  obtain ⟨a, b⟩ := hx
  have e : (x ^ 3).im = x.im * (3 * x.re ^ 2 - x.im ^ 2) := by
    rw [pow_succ, pow_two]
    simp
    ring
  rw [e]
  have s3 : Real.sqrt 3 ^ 2 = 3 := Real.sq_sqrt (by norm_num)
  have h2 : x.im ^ 2 ≤ (Real.sqrt 3 * x.re) ^ 2 := by
    apply pow_le_pow_left₀ a b
  rw [mul_pow, s3] at h2
  exact mul_nonneg a (by linarith)

/-- `w = 1 / A` with `Im A ≥ c ≥ 0`. -/
lemma inv_halfplane {A : ℂ} (hA : A ≠ 0) {c : ℝ} (h : c ≤ A.im) :
    c * Complex.normSq A⁻¹ ≤ -(A⁻¹).im := by
  have hpos := Complex.normSq_pos.2 hA
  rw [Complex.inv_im, Complex.normSq_inv]
  rw [← sub_nonneg]
  have : -(-A.im / Complex.normSq A) - c * (Complex.normSq A)⁻¹ = (A.im - c) / Complex.normSq A := by
    field_simp
  rw [this]
  exact div_nonneg (by linarith) hpos.le

lemma halfplane_inv {w : ℂ} (hw : w ≠ 0) {c : ℝ} (h : c * Complex.normSq w ≤ -w.im) :
    c ≤ (w⁻¹).im := by
  have hpos := Complex.normSq_pos.2 hw
  rw [Complex.inv_im, le_div_iff₀ hpos]
  exact h

/-- Weighted harmonic means preserve the half plane `Im ≥ c`, `c ≥ 0`. -/
lemma harmonic_halfplane {A B : ℂ} (hA : A ≠ 0) (hB : B ≠ 0) {c f : ℝ} (hc : 0 ≤ c)
    (h1 : c ≤ A.im) (h2 : c ≤ B.im) (hf0 : 0 ≤ f) (hf1 : f ≤ 1)
    (hw : f * A⁻¹ + (1 - f) * B⁻¹ ≠ 0) :
    c ≤ ((f * A⁻¹ + (1 - f) * B⁻¹)⁻¹).im := by
  apply halfplane_inv hw
  have a := inv_halfplane hA h1
  have b := inv_halfplane hB h2
  set x := A⁻¹
  set y := B⁻¹
  have e1 : ((f : ℂ) * x + (1 - f) * y).im = f * x.im + (1 - f) * y.im := by simp
  have e2 : Complex.normSq ((f : ℂ) * x + (1 - f) * y) ≤
      f * Complex.normSq x + (1 - f) * Complex.normSq y := by
    simp only [Complex.normSq_apply]
    simp
    nlinarith [mul_nonneg (mul_nonneg hf0 (sub_nonneg.2 hf1)) (sq_nonneg (x.re - y.re)),
      mul_nonneg (mul_nonneg hf0 (sub_nonneg.2 hf1)) (sq_nonneg (x.im - y.im))]
  rw [e1]
  have hf1' : 0 ≤ 1 - f := by linarith
  nlinarith [mul_le_mul_of_nonneg_left e2 hc, mul_le_mul_of_nonneg_left a hf0,
    mul_le_mul_of_nonneg_left b hf1']

end PyElli
