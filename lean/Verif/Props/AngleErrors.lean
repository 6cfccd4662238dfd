import Verif.Props.ReflectedLight
import Verif.Props.RoundedSolverDouble
import Mathlib.Analysis.SpecialFunctions.Trigonometric.Bounds

/-! # C141: errors of the Jones matrices in psi and delta -/

namespace PyElli

open Complex Spec

/-- A degree is `π / 180`. -/
lemma rad2deg_sub (x y : ℝ) : rad2deg x - rad2deg y = rad2deg (x - y) := by unfold rad2deg; ring

lemma abs_rad2deg (x : ℝ) : |rad2deg x| = rad2deg |x| := by
  unfold rad2deg
  have h : 0 < 180 / Real.pi := by have := Real.pi_pos; positivity
  rw [abs_mul, abs_of_pos h]

/-- An angle of at most 90 degrees is at most 90 times its sine. -/
lemma rad2deg_le_sin {x b : ℝ} (hx : |x| ≤ Real.pi / 2) (h : |Real.sin x| ≤ b) : rad2deg |x| ≤ 90 * b := by
  have h1 := (Real.mul_abs_le_abs_sin hx).trans h
  have hp := Real.pi_pos
  unfold rad2deg
  rw [show |x| * (180 / Real.pi) = 90 * (2 / Real.pi * |x|) by field_simp; ring]
  linarith

lemma cauchy_two (a b x y : ℝ) : a * x + b * y ≤ Real.sqrt (a ^ 2 + b ^ 2) * Real.sqrt (x ^ 2 + y ^ 2) := by
  rw [← Real.sqrt_mul (by positivity)]
  refine Real.le_sqrt_of_sq_le ?_
  nlinarith [sq_nonneg (a * y - b * x)]

/-- The angle between two vectors in the first quadrant. -/
lemma arctan_error {u v u' v' a b : ℝ} (hu : 0 < u) (hv : 0 ≤ v) (hu' : 0 < u') (hv' : 0 ≤ v') (ha : |v' - v| ≤ a) (hb : |u' - u| ≤ b) :
    |Real.sin (Real.arctan (v' / u') - Real.arctan (v / u))| ≤ Real.sqrt (a ^ 2 + b ^ 2) / Real.sqrt (v ^ 2 + u ^ 2) := by
  have hn : ∀ {x y : ℝ}, 0 < x → Real.sqrt (1 + (y / x) ^ 2) = Real.sqrt (y ^ 2 + x ^ 2) / x := fun {x y} hx => by
    rw [show 1 + (y / x) ^ 2 = (y ^ 2 + x ^ 2) / x ^ 2 by field_simp; ring, Real.sqrt_div (by positivity), Real.sqrt_sq hx.le]
  rw [Real.sin_sub, Real.sin_arctan, Real.sin_arctan, Real.cos_arctan, Real.cos_arctan, hn hu, hn hu']
  have hN : 0 < Real.sqrt (v ^ 2 + u ^ 2) := Real.sqrt_pos.2 (by positivity)
  have hN' : 0 < Real.sqrt (v' ^ 2 + u' ^ 2) := Real.sqrt_pos.2 (by positivity)
  have hc := cauchy_two a b u' v'
  rw [add_comm (u' ^ 2)] at hc
  set N := Real.sqrt (v ^ 2 + u ^ 2)
  set N' := Real.sqrt (v' ^ 2 + u' ^ 2)
  have e : v' / u' / (N' / u') * (1 / (N / u)) - 1 / (N' / u') * (v / u / (N / u)) = ((v' - v) * u' - (u' - u) * v') / (N * N') := by
    field_simp
    ring
  rw [e, abs_div, abs_of_pos (mul_pos hN hN'), div_le_div_iff₀ (mul_pos hN hN') hN]
  have h1 : |(v' - v) * u' - (u' - u) * v'| ≤ a * u' + b * v' := by
    refine (abs_sub _ _).trans ?_
    rw [abs_mul, abs_mul, abs_of_pos hu', abs_of_nonneg hv']
    exact add_le_add (mul_le_mul_of_nonneg_right ha hu'.le) (mul_le_mul_of_nonneg_right hb hv')
  calc _ ≤ Real.sqrt (a ^ 2 + b ^ 2) * N' * N := mul_le_mul_of_nonneg_right (h1.trans hc) hN.le
    _ = _ := by ring

/-- The direction of a complex number with an error. -/
lemma arg_error {z z' : ℂ} {a : ℝ} (h : ‖z' - z‖ ≤ a) (ha : a < ‖z‖) :
    ∃ t : ℝ, (arg z' : Real.Angle) = arg z + t ∧ rad2deg |t| ≤ 90 * (a / ‖z‖) := by
  have hz : 0 < ‖z‖ := (norm_nonneg _).trans_lt (h.trans_lt ha)
  have hz0 : z ≠ 0 := norm_pos_iff.1 hz
  have hw : ‖z' / z - 1‖ ≤ a / ‖z‖ := by
    rw [show z' / z - 1 = (z' - z) / z by field_simp, norm_div]
    exact div_le_div_of_nonneg_right h hz.le
  have h1 : a / ‖z‖ < 1 := (div_lt_one hz).2 ha
  have hzz : z' = z * (z' / z) := by field_simp
  generalize z' / z = w at hw hzz
  have hre : 0 < w.re := by
    have := (Complex.abs_re_le_norm (w - 1)).trans (hw.trans h1.le)
    have h3 := (abs_lt.1 ((Complex.abs_re_le_norm (w - 1)).trans_lt (hw.trans_lt h1))).1
    simp only [sub_re, one_re] at h3
    linarith
  have hw0 : w ≠ 0 := by
    rintro rfl
    simp at hre
  refine ⟨arg w, ?_, rad2deg_le_sin (Complex.abs_arg_lt_pi_div_two_iff.2 (Or.inl hre)).le ?_⟩
  · rw [hzz, Complex.arg_mul_coe_angle hz0 hw0]
  · rw [Complex.sin_arg, abs_div, abs_of_nonneg (norm_nonneg w)]
    refine le_trans ?_ hw
    rw [div_le_iff₀ (norm_pos_iff.2 hw0)]
    have e : (starRingEnd ℂ w * (w - 1)).im = w.im := by
      simp only [mul_im, conj_re, conj_im, sub_re, sub_im, one_re, one_im]
      ring
    calc |w.im| = |(starRingEnd ℂ w * (w - 1)).im| := by rw [e]
      _ ≤ ‖starRingEnd ℂ w * (w - 1)‖ := Complex.abs_im_le_norm _
      _ = _ := by rw [norm_mul, Complex.norm_conj, mul_comm]

/-- What a result makes of the reflected light: psi is the angle of the moduli. -/
lemma psi_behind (r : Result) (h : r.jr 1 1 ≠ 0) :
    r.psi = rad2deg (Real.arctan (‖(behind r.jr r.jones).1‖ / ‖(behind r.jr r.jones).2‖)) := by
  have hn : ∀ (q : DeltaRange) (z : ℂ), ‖foldRho q z‖ = ‖z‖ := by
    intro q z
    unfold foldRho
    split_ifs
    · rw [← sq_eq_sq₀ (norm_nonneg _) (norm_nonneg _), ← Complex.normSq_eq_norm_sq,
        ← Complex.normSq_eq_norm_sq, Complex.normSq_apply, Complex.normSq_apply]
      simp
    · rfl
  unfold Result.psi psiOf Result.rho
  rw [hn, ratioOf_behind _ _ h, norm_div]

/-- **C141.** Errors in psi: for any two samples, light and ranges of delta, psi changes by at most 90 degrees times the change of the reflected
amplitudes relative to the reflected amplitude. This includes samples that reflect no p light. -/
theorem C141_psi (r r' : Result) (h : r.jr 1 1 ≠ 0) (h' : r'.jr 1 1 ≠ 0) {p s p' s' : ℂ} (hps : behind r.jr r.jones = (p, s))
    (hps' : behind r'.jr r'.jones = (p', s')) (hs : s ≠ 0) (hs' : s' ≠ 0) (a b : ℝ) (ha : ‖p' - p‖ ≤ a) (hb : ‖s' - s‖ ≤ b) :
    |r'.psi - r.psi| ≤ 90 * (Real.sqrt (a ^ 2 + b ^ 2) / Real.sqrt (‖p‖ ^ 2 + ‖s‖ ^ 2)) := by
  rw [psi_behind r h, psi_behind r' h', hps, hps', rad2deg_sub, abs_rad2deg]
  refine rad2deg_le_sin ?_ (arctan_error (norm_pos_iff.2 hs) (norm_nonneg _) (norm_pos_iff.2 hs') (norm_nonneg _)
    ((abs_norm_sub_norm_le _ _).trans ha) ((abs_norm_sub_norm_le _ _).trans hb))
  have h1 : ∀ x : ℝ, 0 ≤ x → 0 ≤ Real.arctan x ∧ Real.arctan x < Real.pi / 2 := fun x hx =>
    ⟨Real.arctan_nonneg.2 hx, Real.arctan_lt_pi_div_two x⟩
  have h2 := h1 (‖p‖ / ‖s‖) (by positivity)
  have h3 := h1 (‖p'‖ / ‖s'‖) (by positivity)
  rw [abs_le]
  constructor <;> linarith [h2.1, h2.2, h3.1, h3.2]

/-- The direction of a quotient with errors. -/
lemma arg_div_error {p s p' s' : ℂ} {a b : ℝ} (ha : ‖p' - p‖ ≤ a) (hb : ‖s' - s‖ ≤ b) (hap : a < ‖p‖) (hbs : b < ‖s‖) :
    ∃ (t : ℝ) (k : ℤ), arg (p' / s') = arg (p / s) + t + 2 * Real.pi * k ∧ rad2deg |t| ≤ 90 * (a / ‖p‖ + b / ‖s‖) := by
  obtain ⟨t, ht, ht'⟩ := arg_error ha hap
  obtain ⟨q, hq, hq'⟩ := arg_error hb hbs
  have hp0 : p ≠ 0 := norm_pos_iff.1 ((norm_nonneg _).trans_lt (ha.trans_lt hap))
  have hs0 : s ≠ 0 := norm_pos_iff.1 ((norm_nonneg _).trans_lt (hb.trans_lt hbs))
  have hp1 : p' ≠ 0 := by
    rintro rfl
    rw [zero_sub, norm_neg] at ha
    linarith
  have hs1 : s' ≠ 0 := by
    rintro rfl
    rw [zero_sub, norm_neg] at hb
    linarith
  have e : ((arg (p' / s') : ℝ) : Real.Angle) = ((arg (p / s) + (t - q) : ℝ) : Real.Angle) := by
    rw [Real.Angle.coe_add, Real.Angle.coe_sub, Complex.arg_div_coe_angle hp1 hs1, Complex.arg_div_coe_angle hp0 hs0, ht, hq]
    abel
  obtain ⟨k, hk⟩ := Real.Angle.angle_eq_iff_two_pi_dvd_sub.1 e
  refine ⟨t - q, k, by linarith, ?_⟩
  have hd : ∀ x y : ℝ, x ≤ y → rad2deg x ≤ rad2deg y := fun x y hxy =>
    mul_le_mul_of_nonneg_right hxy (by have := Real.pi_pos; positivity)
  have := hd _ _ (abs_sub t q)
  have e2 : rad2deg (|t| + |q|) = rad2deg |t| + rad2deg |q| := by unfold rad2deg; ring
  linarith

/-- `delta` is the direction of the ratio up to whole turns and the lower end of the range. -/
lemma deltaOf_turn (q : DeltaRange) (z : ℂ) : ∃ n : ℤ, deltaOf q z = -rad2deg (arg z) + 2 * q.lower + 360 * n := by
  refine ⟨-⌊(-rad2deg (arg z) + q.lower) / 360⌋, ?_⟩
  unfold deltaOf shiftDelta npMod
  push_cast
  ring

/-- **C141.** Errors in delta: with a range of 360 degrees, delta changes by at most 90 degrees times the sum of the relative changes of the two
amplitudes, up to a whole turn. -/
theorem C141_delta (r r' : Result) (hr : r'.range = r.range) (hf : ¬ (r.range.lower = 0 ∧ r.range.upper = 180)) (h : r.jr 1 1 ≠ 0) (h' : r'.jr 1 1 ≠ 0)
    {p s p' s' : ℂ} (hps : behind r.jr r.jones = (p, s)) (hps' : behind r'.jr r'.jones = (p', s')) (a b : ℝ) (ha : ‖p' - p‖ ≤ a)
    (hb : ‖s' - s‖ ≤ b) (hap : a < ‖p‖) (hbs : b < ‖s‖) :
    ∃ n : ℤ, |r'.delta - r.delta - 360 * n| ≤ 90 * (a / ‖p‖ + b / ‖s‖) := by
  obtain ⟨t, k, ht, hle⟩ := arg_div_error ha hb hap hbs
  have e : r.rho = p / s := by rw [Result.rho, foldRho, if_neg hf, ratioOf_behind _ _ h, hps]
  have e' : r'.rho = p' / s' := by rw [Result.rho, foldRho, hr, if_neg hf, ratioOf_behind _ _ h', hps']
  obtain ⟨n, hn⟩ := deltaOf_turn r.range (p / s)
  obtain ⟨n', hn'⟩ := deltaOf_turn r.range (p' / s')
  refine ⟨n' - n - k, ?_⟩
  unfold Result.delta
  rw [hr, e, e', hn, hn', ht]
  have hp := Real.pi_pos
  have : -rad2deg (arg (p / s) + t + 2 * Real.pi * k) + 2 * r.range.lower + 360 * n' - (-rad2deg (arg (p / s)) + 2 * r.range.lower + 360 * n) -
      360 * ((n' - n - k : ℤ) : ℝ) = -rad2deg t := by
    unfold rad2deg
    push_cast
    field_simp
    ring
  rw [this, abs_neg, abs_rad2deg]
  exact hle

/-- With the range (0, 180) delta is the angle without its sign. -/
lemma deltaOf_folded (q : DeltaRange) (h0 : q.lower = 0) (h1 : q.upper = 180) (z : ℂ) : deltaOf q (foldRho q z) = rad2deg |arg z| := by
  have hp := Real.pi_pos
  unfold foldRho
  rw [if_pos ⟨h0, h1⟩]
  have key : ∀ x : ℝ, 0 ≤ x → x ≤ Real.pi → shiftDelta (rad2deg x) q = rad2deg x := fun x hx hxp => by
    have hb : 0 ≤ rad2deg x := mul_nonneg hx (by positivity)
    have hb' : rad2deg x ≤ 180 := by
      unfold rad2deg
      rw [mul_div_assoc', div_le_iff₀ hp]
      nlinarith
    unfold shiftDelta npMod
    rw [h0, add_zero, add_zero, Int.floor_eq_zero_iff.2 ⟨by positivity, by rw [div_lt_one (by norm_num)]; linarith⟩]
    simp
  unfold deltaOf
  by_cases him : 0 < z.im
  · have e : (⟨z.re, -|z.im|⟩ : ℂ) = starRingEnd ℂ z := by
      apply Complex.ext <;> simp [abs_of_pos him]
    have ha : arg z ≠ Real.pi := by
      intro h
      have := (Complex.arg_eq_pi_iff.1 h).2
      linarith
    have hpos : 0 ≤ arg z := Complex.arg_nonneg_iff.2 him.le
    rw [e, Complex.arg_conj, if_neg ha, show -rad2deg (-arg z) = rad2deg (arg z) by unfold rad2deg; ring, abs_of_nonneg hpos]
    exact key _ hpos (Complex.arg_le_pi z)
  · have e : (⟨z.re, -|z.im|⟩ : ℂ) = z := by
      apply Complex.ext <;> simp [abs_of_nonpos (not_lt.1 him)]
    rw [e]
    by_cases ha : arg z = Real.pi
    · rw [ha, abs_of_pos hp]
      have e1 : rad2deg Real.pi = 180 := by unfold rad2deg; field_simp
      have hfl : ⌊(-180 / 360 : ℝ)⌋ = -1 := by
        rw [Int.floor_eq_iff]
        norm_num
      unfold shiftDelta npMod
      rw [e1, h0, add_zero, add_zero, hfl]
      norm_num
    · have hneg : arg z ≤ 0 := by
        rcases (not_lt.1 him).lt_or_eq with hlt | heq
        · exact (Complex.arg_neg_iff.2 hlt).le
        · by_cases hre : 0 ≤ z.re
          · exact (Complex.arg_eq_zero_iff.2 ⟨hre, heq⟩).le
          · exact (ha (Complex.arg_eq_pi_iff.2 ⟨not_le.1 hre, heq⟩)).elim
      rw [abs_of_nonpos hneg, show -rad2deg (arg z) = rad2deg (-arg z) by unfold rad2deg; ring]
      exact key _ (by linarith) (by linarith [Complex.neg_pi_lt_arg z])

/-- **C141.** With the range (0, 180) delta does not jump: it changes by at most that much, without turns. -/
theorem C141_delta_folded (r r' : Result) (hr : r'.range = r.range) (h0 : r.range.lower = 0) (h1 : r.range.upper = 180) (h : r.jr 1 1 ≠ 0)
    (h' : r'.jr 1 1 ≠ 0) {p s p' s' : ℂ} (hps : behind r.jr r.jones = (p, s)) (hps' : behind r'.jr r'.jones = (p', s')) (a b : ℝ)
    (ha : ‖p' - p‖ ≤ a) (hb : ‖s' - s‖ ≤ b) (hap : a < ‖p‖) (hbs : b < ‖s‖) :
    |r'.delta - r.delta| ≤ 90 * (a / ‖p‖ + b / ‖s‖) := by
  obtain ⟨t, k, ht, hle⟩ := arg_div_error ha hb hap hbs
  unfold Result.delta Result.rho
  rw [hr, ratioOf_behind _ _ h, hps, ratioOf_behind _ _ h', hps', deltaOf_folded _ h0 h1, deltaOf_folded _ h0 h1, rad2deg_sub, abs_rad2deg]
  refine le_trans (mul_le_mul_of_nonneg_right ?_ (by have := Real.pi_pos; positivity)) hle
  have hp := Real.pi_pos
  have b1 := Complex.neg_pi_lt_arg (p / s)
  have b2 := Complex.arg_le_pi (p / s)
  have b3 := Complex.neg_pi_lt_arg (p' / s')
  have b4 := Complex.arg_le_pi (p' / s')
  simp only at ht ⊢
  generalize arg (p / s) = x at *
  generalize arg (p' / s') = y at *
  have hk : k = 0 ∨ (1 : ℝ) ≤ k ∨ (k : ℝ) ≤ -1 := by
    rcases lt_trichotomy k 0 with hk | hk | hk
    · exact Or.inr (Or.inr (by exact_mod_cast (show k ≤ -1 by omega)))
    · exact Or.inl hk
    · exact Or.inr (Or.inl (by exact_mod_cast (show 1 ≤ k by omega)))
  rcases hk with rfl | hk | hk
  · rw [show t = y - x by rw [ht]; push_cast; ring]
    exact abs_abs_sub_abs_le y x
  · have hm : 2 * Real.pi ≤ 2 * Real.pi * k := by nlinarith
    rw [abs_le]
    constructor <;> rcases abs_cases x with hx | hx <;> rcases abs_cases y with hy | hy <;> rcases abs_cases t with hz | hz <;> linarith
  · have hm : 2 * Real.pi * k ≤ -(2 * Real.pi) := by nlinarith
    rw [abs_le]
    constructor <;> rcases abs_cases x with hx | hx <;> rcases abs_cases y with hy | hy <;> rcases abs_cases t with hz | hz <;> linarith

/-- The hypotheses are met: a sample with mode conversion and one whose p amplitude is off by a tenth. -/
example (jt : Mat2) (q : DeltaRange) : |(⟨!![I + 1 / 10, 1; 1, 1], jt, 1, ![1, 1], q⟩ : Result).psi - (⟨!![I, 1; 1, 1], jt, 1, ![1, 1], q⟩ : Result).psi| ≤ 4 ∧
    (¬ (q.lower = 0 ∧ q.upper = 180) →
      ∃ n : ℤ, |(⟨!![I + 1 / 10, 1; 1, 1], jt, 1, ![1, 1], q⟩ : Result).delta - (⟨!![I, 1; 1, 1], jt, 1, ![1, 1], q⟩ : Result).delta - 360 * n| ≤ 9) ∧
    (q.lower = 0 → q.upper = 180 →
      |(⟨!![I + 1 / 10, 1; 1, 1], jt, 1, ![1, 1], q⟩ : Result).delta - (⟨!![I, 1; 1, 1], jt, 1, ![1, 1], q⟩ : Result).delta| ≤ 9) := by
  have b : behind !![I, 1; 1, 1] ![1, 1] = (I + 1, 2) := by simp [behind]; norm_num
  have b' : behind !![I + 1 / 10, 1; 1, 1] ![1, 1] = (I + 1 / 10 + 1, 2) := by simp [behind]; norm_num
  have ha : ‖I + 1 / 10 + 1 - (I + 1)‖ ≤ 1 / 10 := by rw [show I + 1 / 10 + 1 - (I + 1) = 1 / 10 by ring]; simp
  have hb : ‖(2 : ℂ) - 2‖ ≤ 0 := by simp
  have hn : ‖I + 1‖ ^ 2 = 2 := by rw [← Complex.normSq_eq_norm_sq, Complex.normSq_apply]; simp; norm_num
  have h1 : 1 ≤ ‖I + 1‖ := by nlinarith [norm_nonneg (I + 1)]
  have hd : 90 * (1 / 10 / ‖I + 1‖ + 0 / ‖(2 : ℂ)‖) ≤ 9 := by
    rw [zero_div, add_zero, div_div, mul_one_div, div_le_iff₀ (by linarith)]
    linarith
  refine ⟨?_, fun hf => ?_, fun h0 h180 => ?_⟩
  · refine (C141_psi ⟨!![I, 1; 1, 1], jt, 1, ![1, 1], q⟩ ⟨!![I + 1 / 10, 1; 1, 1], jt, 1, ![1, 1], q⟩ (by simp) (by simp) b b' two_ne_zero two_ne_zero
      _ _ ha hb).trans ?_
    have h6 : (9 / 4 : ℝ) ≤ Real.sqrt (‖I + 1‖ ^ 2 + ‖(2 : ℂ)‖ ^ 2) := Real.le_sqrt_of_sq_le (by rw [hn]; simp; norm_num)
    rw [show ((1 : ℝ) / 10) ^ 2 + 0 ^ 2 = (1 / 10) ^ 2 by norm_num, Real.sqrt_sq (by norm_num), ← mul_div_assoc, div_le_iff₀ (by linarith)]
    linarith
  · obtain ⟨n, h⟩ := C141_delta ⟨!![I, 1; 1, 1], jt, 1, ![1, 1], q⟩ ⟨!![I + 1 / 10, 1; 1, 1], jt, 1, ![1, 1], q⟩ rfl hf (by simp) (by simp) b b'
      _ _ ha hb (by linarith) (by simp)
    exact ⟨n, h.trans hd⟩
  · exact (C141_delta_folded ⟨!![I, 1; 1, 1], jt, 1, ![1, 1], q⟩ ⟨!![I + 1 / 10, 1; 1, 1], jt, 1, ![1, 1], q⟩ rfl h0 h180 (by simp) (by simp) b b'
      _ _ ha hb (by linarith) (by simp)).trans hd

end PyElli
