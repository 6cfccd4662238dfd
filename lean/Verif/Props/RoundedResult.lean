import Verif.Model.RoundedResult
import Verif.Props.AngleErrors

/-! # C141: rounding errors of psi and delta -/

namespace PyElli

open Complex Spec

/-- The operations have a relative error below `τ - 1`. The angle of a negative number may have either sign (signed zero). -/
structure AccurateAngles (m : AngleMachine) (τ : ℝ) : Prop where
  base : Accurate m.toMachine τ
  abs : ∀ z, |m.abs z - ‖z‖| ≤ (τ - 1) * ‖z‖
  arctan : ∀ x, |m.arctan x - Real.arctan x| ≤ (τ - 1) * |Real.arctan x|
  deg : ∀ x, |m.deg x - x * 180 / Real.pi| ≤ (τ - 1) * |x * 180 / Real.pi|
  angle : ∀ z, |m.angle z| ≤ 180 * τ ∧ ∃ n : ℤ, |m.angle z - arg z * 180 / Real.pi - 360 * n| ≤ (τ - 1) * 180
  plus : ∀ x y, |m.plus x y - (x + y)| ≤ (τ - 1) * |x + y|
  mod : ∀ x : ℝ, ∃ n : ℤ, 0 ≤ x - 360 * n ∧ x - 360 * n < 360 ∧ |m.mod x - (x - 360 * n)| ≤ (τ - 1) * 360

section

variable {m : AngleMachine} {τ : ℝ} (hm : AccurateAngles m τ)

include hm

lemma acc_row (J : Mat2) (E : Fin 2 → ℂ) (h : J 1 1 ≠ 0) (i : Fin 2) :
    Rel (τ ^ 3) ((‖J i 0‖ * ‖E 0‖ + ‖J i 1‖ * ‖E 1‖) / ‖J 1 1‖) (m.row J E i) ((J i 0 * E 0 + J i 1 * E 1) / J 1 1) := by
  have hd : ∀ z : ℂ, Rel τ (‖z‖ / ‖J 1 1‖) (m.div z (J 1 1)) (z / J 1 1) := fun z => by
    have := acc_div hm.base (Rel.of_eq z) h Near.refl
    rw [mul_one] at this
    simpa using this
  have hp : ∀ z e : ℂ, Rel (τ ^ 2) (‖z‖ / ‖J 1 1‖ * ‖e‖) (m.mul (m.div z (J 1 1)) e) (z / J 1 1 * e) := fun z e => by
    have := acc_mul hm.base (hd z) (Rel.of_eq e)
    convert this using 1
    ring
  have := acc_add hm.base (hp (J i 0) (E 0)) (hp (J i 1) (E 1))
  rw [show τ ^ 3 = τ ^ 2 * τ by ring, show (‖J i 0‖ * ‖E 0‖ + ‖J i 1‖ * ‖E 1‖) / ‖J 1 1‖ = ‖J i 0‖ / ‖J 1 1‖ * ‖E 0‖ + ‖J i 1‖ / ‖J 1 1‖ * ‖E 1‖ by ring,
    show (J i 0 * E 0 + J i 1 * E 1) / J 1 1 = J i 0 / J 1 1 * E 0 + J i 1 / J 1 1 * E 1 by ring]
  exact this

/-- **C141.** Rounding errors in psi, for every Jones matrix and every light: few roundoffs, times the cancellation in the reflected amplitudes. -/
theorem C141_rounded_psi (r : Result) (h : r.jr 1 1 ≠ 0) {p s : ℂ} (hps : behind r.jr r.jones = (p, s)) (P S : ℝ)
    (hP : P = ‖r.jr 0 0‖ * ‖r.jones 0‖ + ‖r.jr 0 1‖ * ‖r.jones 1‖) (hS : S = ‖r.jr 1 0‖ * ‖r.jones 0‖ + ‖r.jr 1 1‖ * ‖r.jones 1‖)
    (hs : (τ ^ 3 - 1) * S < ‖s‖) :
    |m.psi r.jr r.jones - r.psi| ≤
      90 * (Real.sqrt (((τ ^ 5 - 1) * P) ^ 2 + ((τ ^ 3 - 1) * S) ^ 2) / Real.sqrt (‖p‖ ^ 2 + ‖s‖ ^ 2) + τ ^ 2 - 1) := by
  have hτ := acc_one hm.base
  have e0 : p = r.jr 0 0 * r.jones 0 + r.jr 0 1 * r.jones 1 := (congrArg Prod.fst hps).symm
  have e1 : s = r.jr 1 0 * r.jones 0 + r.jr 1 1 * r.jones 1 := (congrArg Prod.snd hps).symm
  have r0 := acc_row hm r.jr r.jones h 0
  have r1 := acc_row hm r.jr r.jones h 1
  rw [← e0, ← hP] at r0
  rw [← e1, ← hS] at r1
  have hj : 0 < ‖r.jr 1 1‖ := norm_pos_iff.2 h
  have hsn : 0 ≤ (τ ^ 3 - 1) * S := by
    have h1 : 1 ≤ τ ^ 3 := one_le_pow₀ hτ
    have h2 : 0 ≤ S := by rw [hS]; positivity
    exact mul_nonneg (by linarith) h2
  have hs0 : s ≠ 0 := norm_pos_iff.1 (hsn.trans_lt hs)
  have hsS : ‖s‖ ≤ S := by
    rw [e1, hS]
    exact (norm_add_le _ _).trans (by rw [norm_mul, norm_mul])
  have hτ2 : τ ≤ 2 := by
    have hSp : 0 < S := (norm_pos_iff.2 hs0).trans_le hsS
    have : τ ^ 3 - 1 < 1 := by
      by_contra hc
      nlinarith
    nlinarith [sq_nonneg (τ - 1), mul_nonneg (sub_nonneg.2 hτ) (sq_nonneg τ)]
  have hb : ‖m.row r.jr r.jones 1 - s / r.jr 1 1‖ ≤ (τ ^ 3 - 1) * S / ‖r.jr 1 1‖ := by
    have := r1.2.2
    rwa [← mul_div_assoc] at this
  have hR : m.row r.jr r.jones 1 ≠ 0 := by
    intro h0
    rw [h0, zero_sub, norm_neg, norm_div, div_le_div_iff_of_pos_right hj] at hb
    linarith
  have hR' : 0 < ‖m.row r.jr r.jones 1‖ := norm_pos_iff.2 hR
  obtain ⟨w, hw, ew⟩ := hm.base.div (m.row r.jr r.jones 0) _ hR
  have r0w := r0.near hw
  rw [← pow_succ] at r0w
  have hab := hm.abs (m.ratio r.jr r.jones)
  have hnr : ‖m.ratio r.jr r.jones‖ = ‖m.row r.jr r.jones 0 * w‖ / ‖m.row r.jr r.jones 1‖ := by
    unfold AngleMachine.ratio
    rw [ew, norm_mul, norm_div, norm_mul]
    ring
  rw [hnr] at hab
  set x := m.abs (m.ratio r.jr r.jones) with hx
  have hx0 : 0 ≤ x := by
    have h1 := (abs_le.1 hab).1
    have h2 : 0 ≤ ‖m.row r.jr r.jones 0 * w‖ / ‖m.row r.jr r.jones 1‖ := by positivity
    nlinarith
  have ha : |x * ‖m.row r.jr r.jones 1‖ - ‖p / r.jr 1 1‖| ≤ (τ ^ 5 - 1) * P / ‖r.jr 1 1‖ := by
    have h1 : |x * ‖m.row r.jr r.jones 1‖ - ‖m.row r.jr r.jones 0 * w‖| ≤ (τ - 1) * ‖m.row r.jr r.jones 0 * w‖ := by
      have e : x * ‖m.row r.jr r.jones 1‖ - ‖m.row r.jr r.jones 0 * w‖ =
          (x - ‖m.row r.jr r.jones 0 * w‖ / ‖m.row r.jr r.jones 1‖) * ‖m.row r.jr r.jones 1‖ := by field_simp
      rw [e, abs_mul, abs_of_pos hR']
      calc _ ≤ (τ - 1) * (‖m.row r.jr r.jones 0 * w‖ / ‖m.row r.jr r.jones 1‖) * ‖m.row r.jr r.jones 1‖ := mul_le_mul_of_nonneg_right hab hR'.le
        _ = _ := by field_simp
    have h2 : |‖m.row r.jr r.jones 0 * w‖ - ‖p / r.jr 1 1‖| ≤ (τ ^ 4 - 1) * (P / ‖r.jr 1 1‖) := (abs_norm_sub_norm_le _ _).trans r0w.2.2
    have h3 := r0w.norm_le
    have h4 := abs_sub_le (x * ‖m.row r.jr r.jones 1‖) ‖m.row r.jr r.jones 0 * w‖ ‖p / r.jr 1 1‖
    have h5 : (τ - 1) * ‖m.row r.jr r.jones 0 * w‖ ≤ (τ - 1) * (τ ^ 4 * (P / ‖r.jr 1 1‖)) := mul_le_mul_of_nonneg_left h3 (by linarith)
    rw [mul_div_assoc]
    calc _ ≤ (τ - 1) * (τ ^ 4 * (P / ‖r.jr 1 1‖)) + (τ ^ 4 - 1) * (P / ‖r.jr 1 1‖) := by linarith
      _ = _ := by ring
  have hA := arctan_error (u := ‖s / r.jr 1 1‖) (v := ‖p / r.jr 1 1‖) (u' := ‖m.row r.jr r.jones 1‖) (v' := x * ‖m.row r.jr r.jones 1‖)
    (norm_pos_iff.2 (div_ne_zero hs0 h)) (norm_nonneg _) hR' (by positivity) ha ((abs_norm_sub_norm_le _ _).trans hb)
  rw [mul_div_assoc x, div_self hR'.ne', mul_one, norm_div, norm_div, div_div_div_cancel_right₀ hj.ne'] at hA
  have eS : Real.sqrt (((τ ^ 5 - 1) * P / ‖r.jr 1 1‖) ^ 2 + ((τ ^ 3 - 1) * S / ‖r.jr 1 1‖) ^ 2) / Real.sqrt ((‖p‖ / ‖r.jr 1 1‖) ^ 2 + (‖s‖ / ‖r.jr 1 1‖) ^ 2) =
      Real.sqrt (((τ ^ 5 - 1) * P) ^ 2 + ((τ ^ 3 - 1) * S) ^ 2) / Real.sqrt (‖p‖ ^ 2 + ‖s‖ ^ 2) := by
    rw [show ((τ ^ 5 - 1) * P / ‖r.jr 1 1‖) ^ 2 + ((τ ^ 3 - 1) * S / ‖r.jr 1 1‖) ^ 2 =
        (((τ ^ 5 - 1) * P) ^ 2 + ((τ ^ 3 - 1) * S) ^ 2) / ‖r.jr 1 1‖ ^ 2 by ring,
      show (‖p‖ / ‖r.jr 1 1‖) ^ 2 + (‖s‖ / ‖r.jr 1 1‖) ^ 2 = (‖p‖ ^ 2 + ‖s‖ ^ 2) / ‖r.jr 1 1‖ ^ 2 by ring,
      Real.sqrt_div (by positivity), Real.sqrt_div (by positivity), Real.sqrt_sq hj.le, div_div_div_cancel_right₀ hj.ne']
  rw [eS] at hA
  have q1 : 0 ≤ Real.arctan x ∧ Real.arctan x < Real.pi / 2 := ⟨Real.arctan_nonneg.2 hx0, Real.arctan_lt_pi_div_two x⟩
  have q2 : 0 ≤ Real.arctan (‖p‖ / ‖s‖) ∧ Real.arctan (‖p‖ / ‖s‖) < Real.pi / 2 :=
    ⟨Real.arctan_nonneg.2 (by positivity), Real.arctan_lt_pi_div_two _⟩
  have hB := rad2deg_le_sin (abs_le.2 ⟨by linarith [q1.1, q2.2], by linarith [q1.2, q2.1]⟩) hA
  rw [← abs_rad2deg, ← rad2deg_sub] at hB
  rw [psi_behind r h, hps]
  simp only [AngleMachine.psi, ← hx]
  have hpi := Real.pi_pos
  have ed : ∀ y : ℝ, y * 180 / Real.pi = rad2deg y := fun y => by unfold rad2deg; ring
  have a1 := hm.arctan x
  have a2 := hm.deg (m.arctan x)
  rw [ed] at a2
  rw [abs_of_nonneg q1.1] at a1
  have hle : ∀ y z : ℝ, y ≤ z → rad2deg y ≤ rad2deg z := fun y z hyz => mul_le_mul_of_nonneg_right hyz (by positivity)
  have h90 : rad2deg (Real.pi / 2) = 90 := by unfold rad2deg; field_simp; norm_num
  have a3 : |rad2deg (m.arctan x) - rad2deg (Real.arctan x)| ≤ (τ - 1) * 90 := by
    rw [rad2deg_sub, abs_rad2deg]
    refine (hle _ _ (a1.trans (mul_le_mul_of_nonneg_left q1.2.le (by linarith)))).trans (le_of_eq ?_)
    rw [show rad2deg ((τ - 1) * (Real.pi / 2)) = (τ - 1) * rad2deg (Real.pi / 2) by unfold rad2deg; ring, h90]
  have a4 : |rad2deg (Real.arctan x)| ≤ 90 := by
    rw [abs_rad2deg, abs_of_nonneg q1.1, ← h90]
    exact hle _ _ q1.2.le
  have a5 : |rad2deg (m.arctan x)| ≤ 90 * τ := by
    have := abs_sub_abs_le_abs_sub (rad2deg (m.arctan x)) (rad2deg (Real.arctan x))
    linarith
  have a6 : |m.deg (m.arctan x) - rad2deg (m.arctan x)| ≤ (τ - 1) * (90 * τ) := a2.trans (mul_le_mul_of_nonneg_left a5 (by linarith))
  have t1 := abs_sub_le (m.deg (m.arctan x)) (rad2deg (m.arctan x)) (rad2deg (Real.arctan (‖p‖ / ‖s‖)))
  have t2 := abs_sub_le (rad2deg (m.arctan x)) (rad2deg (Real.arctan x)) (rad2deg (Real.arctan (‖p‖ / ‖s‖)))
  nlinarith

/-- **C141.** Rounding errors in delta, up to a whole turn, for every range of 360 degrees. -/
theorem C141_rounded_delta (r : Result) (hf : ¬ (r.range.lower = 0 ∧ r.range.upper = 180)) (hl : |r.range.lower| ≤ 360) (h : r.jr 1 1 ≠ 0) {p s : ℂ}
    (hps : behind r.jr r.jones = (p, s)) (P S : ℝ)
    (hP : P = ‖r.jr 0 0‖ * ‖r.jones 0‖ + ‖r.jr 0 1‖ * ‖r.jones 1‖) (hS : S = ‖r.jr 1 0‖ * ‖r.jones 0‖ + ‖r.jr 1 1‖ * ‖r.jones 1‖)
    (hp : (τ ^ 4 - 1) * P < ‖p‖) (hs : (τ ^ 3 - 1) * S < ‖s‖) :
    ∃ n : ℤ, |m.delta r.range r.jr r.jones - r.delta - 360 * n| ≤
      90 * ((τ ^ 4 - 1) * P / ‖p‖ + (τ ^ 3 - 1) * S / ‖s‖) + (τ - 1) * (540 * τ + 1260) := by
  have hτ := acc_one hm.base
  have e0 : p = r.jr 0 0 * r.jones 0 + r.jr 0 1 * r.jones 1 := (congrArg Prod.fst hps).symm
  have e1 : s = r.jr 1 0 * r.jones 0 + r.jr 1 1 * r.jones 1 := (congrArg Prod.snd hps).symm
  have r0 := acc_row hm r.jr r.jones h 0
  have r1 := acc_row hm r.jr r.jones h 1
  rw [← e0, ← hP] at r0
  rw [← e1, ← hS] at r1
  have hj : 0 < ‖r.jr 1 1‖ := norm_pos_iff.2 h
  have hb : ‖m.row r.jr r.jones 1 - s / r.jr 1 1‖ ≤ (τ ^ 3 - 1) * S / ‖r.jr 1 1‖ := by
    have := r1.2.2
    rwa [← mul_div_assoc] at this
  have hR : m.row r.jr r.jones 1 ≠ 0 := by
    intro h0
    rw [h0, zero_sub, norm_neg, norm_div, div_le_div_iff_of_pos_right hj] at hb
    linarith
  obtain ⟨w, hw, ew⟩ := hm.base.div (m.row r.jr r.jones 0) _ hR
  have r0w := r0.near hw
  rw [← pow_succ] at r0w
  have ha := r0w.2.2
  rw [← mul_div_assoc] at ha
  obtain ⟨t, k, ht, hle⟩ := arg_div_error ha hb (by rw [norm_div, div_lt_div_iff_of_pos_right hj]; exact hp)
    (by rw [norm_div, div_lt_div_iff_of_pos_right hj]; exact hs)
  rw [div_div_div_cancel_right₀ h, norm_div, norm_div, div_div_div_cancel_right₀ hj.ne', div_div_div_cancel_right₀ hj.ne'] at *
  have hrat : m.ratio r.jr r.jones = m.row r.jr r.jones 0 * w / m.row r.jr r.jones 1 := by
    unfold AngleMachine.ratio
    rw [ew]
    ring
  rw [← hrat] at ht
  obtain ⟨z0, n0, hn0⟩ := hm.angle (m.ratio r.jr r.jones)
  have hrho : r.rho = p / s := by rw [Result.rho, foldRho, if_neg hf, ratioOf_behind _ _ h, hps]
  obtain ⟨n1, hn1⟩ := deltaOf_turn r.range (p / s)
  unfold Result.delta AngleMachine.delta
  rw [hrho, hn1]
  set x0 := m.angle (m.ratio r.jr r.jones) with hx0
  set L := r.range.lower
  have p1 := hm.plus (-x0) L
  set x1 := m.plus (-x0) L
  obtain ⟨n2, hn2, hn2', hn3⟩ := hm.mod x1
  set x2 := m.mod x1
  have p2 := hm.plus x2 L
  set x3 := m.plus x2 L
  have hpi := Real.pi_pos
  refine ⟨-n0 - n2 - k - n1, ?_⟩
  have ed : arg (m.ratio r.jr r.jones) * 180 / Real.pi = rad2deg (arg (p / s)) + rad2deg t + 360 * k := by
    rw [ht]
    unfold rad2deg
    field_simp
    ring
  rw [ed] at hn0
  have b1 : |x1 - (-x0 + L)| ≤ (τ - 1) * (180 * τ + 360) := by
    refine p1.trans (mul_le_mul_of_nonneg_left ?_ (by linarith))
    have := abs_add_le (-x0) L
    rw [abs_neg] at this
    linarith
  have b2 : |x2 + L| ≤ 360 * (τ + 1) := by
    have h1 := abs_add_le x2 L
    have h2 := abs_sub_abs_le_abs_sub x2 (x1 - 360 * n2)
    rw [abs_of_nonneg hn2] at h2
    linarith
  have b3 : |x3 - (x2 + L)| ≤ (τ - 1) * (360 * (τ + 1)) := p2.trans (mul_le_mul_of_nonneg_left b2 (by linarith))
  rw [← abs_rad2deg] at hle
  have e : x3 - (-rad2deg (arg (p / s)) + 2 * L + 360 * n1) - 360 * ((-n0 - n2 - k - n1 : ℤ) : ℝ) =
      (x3 - (x2 + L)) + (x2 - (x1 - 360 * n2)) + (x1 - (-x0 + L)) - (x0 - (rad2deg (arg (p / s)) + rad2deg t + 360 * k) - 360 * n0) - rad2deg t := by
    push_cast
    ring
  rw [e]
  have t1 := abs_sub ((x3 - (x2 + L)) + (x2 - (x1 - 360 * n2)) + (x1 - (-x0 + L)) - (x0 - (rad2deg (arg (p / s)) + rad2deg t + 360 * k) - 360 * n0)) (rad2deg t)
  have t2 := abs_sub ((x3 - (x2 + L)) + (x2 - (x1 - 360 * n2)) + (x1 - (-x0 + L))) (x0 - (rad2deg (arg (p / s)) + rad2deg t + 360 * k) - 360 * n0)
  have t3 := abs_add_le ((x3 - (x2 + L)) + (x2 - (x1 - 360 * n2))) (x1 - (-x0 + L))
  have t4 := abs_add_le (x3 - (x2 + L)) (x2 - (x1 - 360 * n2))
  nlinarith

end

end PyElli
