import Verif.Props.ThinFilm
import Verif.Props.Angles
import Mathlib.Analysis.SpecialFunctions.Trigonometric.Inverse
import Mathlib.Topology.Order.IntermediateValue

/-! # C139: ellipsometric angles of a bulk sample -/

namespace PyElli

open Complex

/-- The simulated measurement of a stack with incident light `(a, a)`, the light of a default experiment. -/
noncomputable def measured (s : Stack) (theta lbda : ℝ) (ee : (Fin 4 → ℂ) × Mat4) (a : ℂ) : Result :=
  let out := calculate4x4 propExpm s theta lbda ee
  Result.mk' out.jr out.jt out.power ![a, a]

/-- A sample without layers under a transparent medium of index `n0`. -/
structure BulkSample (s : Stack) (n0 : ℝ) : Prop where
  index : 0 < n0
  front : s.front 0 0 = ((n0 ^ 2 : ℝ) : ℂ)
  layers : s.layers = []
  back : s.backIsotropic = true
  passive : 0 ≤ (s.back 0 0).im
  nonzero : s.back 0 0 ≠ 0
  different : s.back 0 0 ≠ s.front 0 0

/-- The quotient that decides the angles. -/
noncomputable def bulkV (n0 theta : ℝ) (e : ℂ) : ℂ :=
  ((Real.cos (deg2rad theta) / (n0 * Real.sin (deg2rad theta) ^ 2) : ℝ) : ℂ) * Complex.sqrt (e - ((n0 * Real.sin (deg2rad theta)) ^ 2 : ℝ))

section

variable {s : Stack} {n0 theta : ℝ}

lemma bulk_rho (h : BulkSample s n0) (h1 : 0 < theta) (h2 : theta < 90) (lbda : ℝ) (ee) {a : ℂ} (ha : a ≠ 0) :
    1 + bulkV n0 theta (s.back 0 0) ≠ 0 ∧ (measured s theta lbda ee a).rho = (1 - bulkV n0 theta (s.back 0 0)) / (1 + bulkV n0 theta (s.back 0 0)) := by
  obtain ⟨r1, -, r3⟩ := bulk_ratio s n0 theta lbda ee h.index h.front h.layers h.back h1 h2 h.nonzero h.different ha
  have hv : bulkV n0 theta (s.back 0 0) = Real.cos (deg2rad theta) * (nOf s.back * cosPhi (kxOf s theta) s.back) / (n0 * Real.sin (deg2rad theta) ^ 2) := by
    have hk := kz_exit (n0 * Real.sin (deg2rad theta)) h.nonzero h.passive
    have e2 : nOf s.back * cosPhi (kxOf s theta) s.back = Complex.sqrt (s.back 0 0) * Complex.sqrt (1 - ((n0 * Real.sin (deg2rad theta) : ℝ) / Complex.sqrt (s.back 0 0)) ^ 2) := by
      unfold cosPhi nOf
      rw [kxOf_real h.index h.front]
    rw [e2, ← hk, csqrt_sq]
    unfold bulkV
    push_cast
    ring
  have hr : (1 - (measured s theta lbda ee a).rho) / (1 + (measured s theta lbda ee a).rho) = bulkV n0 theta (s.back 0 0) := by rw [hv]; exact r3
  have r1' : 1 + (measured s theta lbda ee a).rho ≠ 0 := r1
  generalize (measured s theta lbda ee a).rho = rho at *
  generalize bulkV n0 theta (s.back 0 0) = v at *
  have h1v : 1 + v = 2 / (1 + rho) := by rw [← hr]; field_simp; ring
  have hne : 1 + v ≠ 0 := by rw [h1v]; exact div_ne_zero two_ne_zero r1'
  refine ⟨hne, ?_⟩
  rw [eq_div_iff hne, ← hr]
  field_simp
  ring

lemma bulkV_quadrant (hn0 : 0 < n0) (h1 : 0 < theta) (h2 : theta < 90) {e : ℂ} (he : 0 ≤ e.im) : 0 ≤ (bulkV n0 theta e).re ∧ 0 ≤ (bulkV n0 theta e).im := by
  have hc : 0 < Real.cos (deg2rad theta) := cos_pos_of_angle (by rw [abs_of_pos h1]; exact h2)
  have hs := sin_pos_of_angle h1 h2
  have hk : 0 ≤ Real.cos (deg2rad theta) / (n0 * Real.sin (deg2rad theta) ^ 2) := by positivity
  unfold bulkV
  rw [re_ofReal_mul, im_ofReal_mul]
  exact ⟨mul_nonneg hk (csqrt_re_nonneg _), mul_nonneg hk (csqrt_im_nonneg (by rw [sub_im, ofReal_im, sub_zero]; exact he))⟩

lemma bulkV_strict (hn0 : 0 < n0) (h1 : 0 < theta) (h2 : theta < 90) {e : ℂ} (he : 0 < e.im) : 0 < (bulkV n0 theta e).re ∧ 0 < (bulkV n0 theta e).im := by
  have hc : 0 < Real.cos (deg2rad theta) := cos_pos_of_angle (by rw [abs_of_pos h1]; exact h2)
  have hs := sin_pos_of_angle h1 h2
  have hk : 0 < Real.cos (deg2rad theta) / (n0 * Real.sin (deg2rad theta) ^ 2) := by positivity
  have him : 0 < (e - ((n0 * Real.sin (deg2rad theta)) ^ 2 : ℝ)).im := by rw [sub_im, ofReal_im, sub_zero]; exact he
  have hsq := csqrt_sq (e - ((n0 * Real.sin (deg2rad theta)) ^ 2 : ℝ))
  have hre := csqrt_re_nonneg (e - ((n0 * Real.sin (deg2rad theta)) ^ 2 : ℝ))
  have hin := csqrt_im_nonneg him.le
  unfold bulkV
  rw [re_ofReal_mul, im_ofReal_mul]
  generalize Complex.sqrt (e - ((n0 * Real.sin (deg2rad theta)) ^ 2 : ℝ)) = w at *
  rw [← hsq, pow_two, mul_im] at him
  have hp : 0 < w.re * w.im := by linarith [mul_comm w.re w.im]
  have h3 : 0 < w.re := lt_of_le_of_ne hre (fun h => by rw [← h] at hp; simp at hp)
  have h4 : 0 < w.im := lt_of_le_of_ne hin (fun h => by rw [← h] at hp; simp at hp)
  exact ⟨mul_pos hk h3, mul_pos hk h4⟩

lemma bulkV_norm (hn0 : 0 < n0) (h1 : 0 < theta) (h2 : theta < 90) (e : ℂ) :
    ‖bulkV n0 theta e‖ ^ 2 = Real.cos (deg2rad theta) ^ 2 * ‖e - ((n0 * Real.sin (deg2rad theta)) ^ 2 : ℝ)‖ / (n0 ^ 2 * Real.sin (deg2rad theta) ^ 4) := by
  unfold bulkV
  have hw : ‖Complex.sqrt (e - ((n0 * Real.sin (deg2rad theta)) ^ 2 : ℝ))‖ ^ 2 = ‖e - ((n0 * Real.sin (deg2rad theta)) ^ 2 : ℝ)‖ := by
    rw [← norm_pow, csqrt_sq]
  rw [norm_mul, mul_pow, hw, norm_real, Real.norm_eq_abs, sq_abs]
  ring

end

/-! ## The Cayley transform -/

lemma cayley_parts {v : ℂ} (hv : 1 + v ≠ 0) :
    ((1 - v) / (1 + v)).re = (1 - ‖v‖ ^ 2) / normSq (1 + v) ∧ ((1 - v) / (1 + v)).im = -(2 * v.im) / normSq (1 + v) := by
  have hn : normSq (1 + v) ≠ 0 := fun h => hv (normSq_eq_zero.mp h)
  have e2 : ‖v‖ ^ 2 = v.re ^ 2 + v.im ^ 2 := by rw [Complex.sq_norm, normSq_apply]; ring
  constructor
  · rw [div_re, e2]
    simp only [sub_re, add_re, one_re, sub_im, add_im, one_im]
    field_simp
    ring
  · rw [div_im]
    simp only [sub_re, add_re, one_re, sub_im, add_im, one_im]
    field_simp
    ring

lemma cayley_norm {v : ℂ} (hv : 1 + v ≠ 0) : ‖(1 - v) / (1 + v)‖ ^ 2 = 1 - 4 * v.re / normSq (1 + v) := by
  have hn : normSq (1 + v) ≠ 0 := fun h => hv (normSq_eq_zero.mp h)
  rw [norm_div, div_pow, Complex.sq_norm, Complex.sq_norm]
  rw [eq_sub_iff_add_eq, ← add_div, div_eq_one_iff_eq hn, normSq_apply, normSq_apply]
  simp only [sub_re, add_re, one_re, sub_im, add_im, one_im]
  ring

/-! ## Angles from rho -/

lemma psiOf_le {rho : ℂ} (h : ‖rho‖ ≤ 1) : psiOf rho ≤ 45 := by
  have hpi := Real.pi_pos
  unfold psiOf rad2deg
  have h1 : Real.arctan ‖rho‖ ≤ Real.pi / 4 := by rw [← Real.arctan_one]; exact Real.arctan_mono h
  calc Real.arctan ‖rho‖ * (180 / Real.pi) ≤ Real.pi / 4 * (180 / Real.pi) := mul_le_mul_of_nonneg_right h1 (by positivity)
    _ = 45 := by field_simp; norm_num

lemma psiOf_lt {rho : ℂ} (h : ‖rho‖ < 1) : psiOf rho < 45 := by
  have hpi := Real.pi_pos
  unfold psiOf rad2deg
  have h1 : Real.arctan ‖rho‖ < Real.pi / 4 := by rw [← Real.arctan_one]; exact Real.arctan_strictMono h
  calc Real.arctan ‖rho‖ * (180 / Real.pi) < Real.pi / 4 * (180 / Real.pi) := mul_lt_mul_of_pos_right h1 (by positivity)
    _ = 45 := by field_simp; norm_num

lemma psiOf_one {rho : ℂ} (h : ‖rho‖ = 1) : psiOf rho = 45 := by
  have hpi := Real.pi_pos
  unfold psiOf rad2deg
  rw [h, Real.arctan_one]
  field_simp
  norm_num

lemma psiOf_pos {rho : ℂ} (h : rho ≠ 0) : 0 < psiOf rho := by
  have hpi := Real.pi_pos
  unfold psiOf rad2deg
  have h1 : 0 < Real.arctan ‖rho‖ := by rw [← Real.arctan_zero]; exact Real.arctan_strictMono (norm_pos_iff.mpr h)
  positivity

lemma delta_of_arg {rho : ℂ} (h : arg rho ≠ Real.pi) : deltaOf ⟨-180, 180⟩ rho = -(arg rho * 180 / Real.pi) := by
  have hpi := Real.pi_pos
  have h1 : arg rho < Real.pi := lt_of_le_of_ne (arg_le_pi _) h
  have h0 := neg_pi_lt_arg rho
  have hlt : arg rho * 180 / Real.pi < 180 := by rw [div_lt_iff₀ hpi]; nlinarith
  have hgt : -180 < arg rho * 180 / Real.pi := by rw [lt_div_iff₀ hpi]; nlinarith
  unfold deltaOf shiftDelta npMod rad2deg
  have e : arg rho * (180 / Real.pi) = arg rho * 180 / Real.pi := by ring
  rw [e]
  have hf : ⌊(-(arg rho * 180 / Real.pi) + -180) / 360⌋ = -1 := by
    rw [Int.floor_eq_iff]
    constructor <;> push_cast <;> linarith
  rw [hf]
  push_cast
  ring

lemma delta_of_pi {rho : ℂ} (h : arg rho = Real.pi) : deltaOf ⟨-180, 180⟩ rho = -180 := by
  have hpi := Real.pi_pos
  unfold deltaOf shiftDelta npMod rad2deg
  rw [h]
  have e : Real.pi * (180 / Real.pi) = 180 := by field_simp
  rw [e]
  norm_num

/-- In the lower half plane delta is between 0 and 180, and 90 on the imaginary axis. -/
lemma delta_lower {rho : ℂ} (h : rho.im < 0) :
    0 < deltaOf ⟨-180, 180⟩ rho ∧ deltaOf ⟨-180, 180⟩ rho < 180 ∧ (deltaOf ⟨-180, 180⟩ rho = 90 ↔ rho.re = 0) ∧ (90 < deltaOf ⟨-180, 180⟩ rho ↔ rho.re < 0) ∧
      (deltaOf ⟨-180, 180⟩ rho < 90 ↔ 0 < rho.re) := by
  have hpi := Real.pi_pos
  have hneg : arg rho < 0 := arg_neg_iff.mpr h
  have hlow := neg_pi_lt_arg rho
  rw [delta_of_arg (by linarith)]
  have key : -(Real.pi / 2) ≤ arg rho ↔ 0 ≤ rho.re := by
    rw [neg_pi_div_two_le_arg_iff]
    constructor
    · rintro (h1 | h1)
      · exact h1
      · linarith
    · exact Or.inl
  have key2 : -(Real.pi / 2) = arg rho ↔ rho.re = 0 := by
    rw [eq_comm, arg_eq_neg_pi_div_two_iff]
    exact ⟨fun h1 => h1.1, fun h1 => ⟨h1, h⟩⟩
  have e90 : ∀ x : ℝ, (-(x * 180 / Real.pi) = 90 ↔ -(Real.pi / 2) = x) := fun x => by
    constructor
    · intro h1
      field_simp at h1
      linarith
    · rintro rfl
      field_simp
      norm_num
  have egt : ∀ x : ℝ, (90 < -(x * 180 / Real.pi) ↔ x < -(Real.pi / 2)) := fun x => by
    rw [← neg_div, lt_div_iff₀ hpi]
    constructor <;> intro h1 <;> linarith
  have elt : ∀ x : ℝ, (-(x * 180 / Real.pi) < 90 ↔ -(Real.pi / 2) < x) := fun x => by
    rw [← neg_div, div_lt_iff₀ hpi]
    constructor <;> intro h1 <;> linarith
  refine ⟨?_, ?_, ?_, ?_, ?_⟩
  · rw [← neg_div]; apply div_pos _ hpi; linarith
  · rw [← neg_div, div_lt_iff₀ hpi]; linarith
  · rw [e90, key2]
  · rw [egt, ← not_le, key, not_le]
  · rw [elt, lt_iff_le_and_ne, key, lt_iff_le_and_ne, Ne, key2, ne_comm, Ne]

/-! ## The properties -/

section

variable {s : Stack} {n0 theta : ℝ}

/-- **C139.** A bulk sample never has psi above 45 degrees, and delta is not negative (the boundary 180 is reported as -180). -/
theorem C139_window (h : BulkSample s n0) (h1 : 0 < theta) (h2 : theta < 90) (lbda : ℝ) (ee) {a : ℂ} (ha : a ≠ 0) :
    (measured s theta lbda ee a).psi ≤ 45 ∧ (0 ≤ (measured s theta lbda ee a).delta ∨ (measured s theta lbda ee a).delta = -180) := by
  obtain ⟨hv, hr⟩ := bulk_rho h h1 h2 lbda ee ha
  obtain ⟨q1, q2⟩ := bulkV_quadrant h.index h1 h2 h.passive
  have hpos : 0 < normSq (1 + bulkV n0 theta (s.back 0 0)) := normSq_pos.mpr hv
  constructor
  · refine psiOf_le ?_
    rw [hr]
    have := cayley_norm hv
    have h3 : 0 ≤ 4 * (bulkV n0 theta (s.back 0 0)).re / normSq (1 + bulkV n0 theta (s.back 0 0)) := by positivity
    nlinarith [norm_nonneg ((1 - bulkV n0 theta (s.back 0 0)) / (1 + bulkV n0 theta (s.back 0 0)))]
  · have him : (measured s theta lbda ee a).rho.im ≤ 0 := by
      rw [hr, (cayley_parts hv).2]
      exact div_nonpos_of_nonpos_of_nonneg (by linarith) hpos.le
    by_cases hp : arg (measured s theta lbda ee a).rho = Real.pi
    · exact Or.inr (delta_of_pi hp)
    · left
      show 0 ≤ deltaOf ⟨-180, 180⟩ _
      rw [delta_of_arg hp]
      have hle : arg (measured s theta lbda ee a).rho ≤ 0 := by
        rcases him.lt_or_eq with h3 | h3
        · exact (arg_neg_iff.mpr h3).le
        · by_contra hc
          have hnn := arg_nonneg_iff.mpr h3.ge
          have hz : arg (measured s theta lbda ee a).rho = 0 := by
            rw [arg_eq_zero_iff]
            refine ⟨?_, h3⟩
            by_contra hre
            exact hp (arg_eq_pi_iff.mpr ⟨not_le.mp hre, h3⟩)
          exact hc hz.le
      rw [← neg_div]
      exact div_nonneg (by linarith) Real.pi_pos.le

/-- **C139.** An absorbing sample has psi strictly between 0 and 45 and delta strictly between 0 and 180; delta is 90 exactly at the angles with
`cos² |ε - n0² sin²| = n0² sin⁴`, and larger (smaller) where the left side is larger (smaller). -/
theorem C139_absorbing (h : BulkSample s n0) (hab : 0 < (s.back 0 0).im) (h1 : 0 < theta) (h2 : theta < 90) (lbda : ℝ) (ee) {a : ℂ} (ha : a ≠ 0) :
    let m := measured s theta lbda ee a
    let L := Real.cos (deg2rad theta) ^ 2 * ‖s.back 0 0 - ((n0 * Real.sin (deg2rad theta)) ^ 2 : ℝ)‖
    let R := n0 ^ 2 * Real.sin (deg2rad theta) ^ 4
    0 < m.psi ∧ m.psi < 45 ∧ 0 < m.delta ∧ m.delta < 180 ∧ (m.delta = 90 ↔ L = R) ∧ (90 < m.delta ↔ R < L) ∧ (m.delta < 90 ↔ L < R) := by
  intro m L R
  obtain ⟨hv, hr⟩ := bulk_rho h h1 h2 lbda ee ha
  obtain ⟨q1, q2⟩ := bulkV_strict h.index h1 h2 hab
  have hpos : 0 < normSq (1 + bulkV n0 theta (s.back 0 0)) := normSq_pos.mpr hv
  have hnorm := bulkV_norm h.index h1 h2 (s.back 0 0)
  have hR : 0 < R := by
    have := sin_pos_of_angle h1 h2
    have := h.index
    positivity
  have hnorm' : ‖bulkV n0 theta (s.back 0 0)‖ ^ 2 = L / R := hnorm
  have him : m.rho.im < 0 := by
    show (measured s theta lbda ee a).rho.im < 0
    rw [hr, (cayley_parts hv).2]
    exact div_neg_of_neg_of_pos (by linarith) hpos
  have hre : m.rho.re = (1 - L / R) / normSq (1 + bulkV n0 theta (s.back 0 0)) := by
    show (measured s theta lbda ee a).rho.re = _
    rw [hr, (cayley_parts hv).1, hnorm']
  obtain ⟨d1, d2, d3, d4, d5⟩ := delta_lower him
  refine ⟨psiOf_pos (fun h3 => by rw [h3] at him; simp at him), psiOf_lt ?_, d1, d2, d3.trans ?_, d4.trans ?_, d5.trans ?_⟩
  · show ‖(measured s theta lbda ee a).rho‖ < 1
    rw [hr]
    have := cayley_norm hv
    have h3 : 0 < 4 * (bulkV n0 theta (s.back 0 0)).re / normSq (1 + bulkV n0 theta (s.back 0 0)) := by positivity
    nlinarith [norm_nonneg ((1 - bulkV n0 theta (s.back 0 0)) / (1 + bulkV n0 theta (s.back 0 0)))]
  · rw [hre, div_eq_zero_iff, or_iff_left hpos.ne', sub_eq_zero, eq_comm, div_eq_one_iff_eq hR.ne']
  · rw [hre, div_lt_iff₀ hpos, zero_mul, sub_neg, one_lt_div hR]
  · rw [hre, lt_div_iff₀ hpos, zero_mul, sub_pos, div_lt_one hR]

/-- **C139.** A transparent sample below total reflection: psi below 45 and delta jumps from 180 (reported as -180) to 0 at Brewster's angle, where psi is 0. -/
theorem C139_transparent (h : BulkSample s n0) {nb : ℝ} (hnb : 0 < nb) (he : s.back 0 0 = ((nb ^ 2 : ℝ) : ℂ)) (h1 : 0 < theta) (h2 : theta < 90)
    (hcrit : n0 * Real.sin (deg2rad theta) < nb) (lbda : ℝ) (ee) {a : ℂ} (ha : a ≠ 0) :
    let m := measured s theta lbda ee a
    m.psi < 45 ∧ (m.psi = 0 ↔ Real.tan (deg2rad theta) = nb / n0) ∧ (Real.tan (deg2rad theta) < nb / n0 → m.delta = -180) ∧ (nb / n0 ≤ Real.tan (deg2rad theta) → m.delta = 0) := by
  intro m
  obtain ⟨hv, hr⟩ := bulk_rho h h1 h2 lbda ee ha
  have hc : 0 < Real.cos (deg2rad theta) := cos_pos_of_angle (by rw [abs_of_pos h1]; exact h2)
  have hs := sin_pos_of_angle h1 h2
  have hcs : Real.cos (deg2rad theta) ^ 2 + Real.sin (deg2rad theta) ^ 2 = 1 := Real.cos_sq_add_sin_sq _
  have hn0 := h.index
  have hin : 0 < nb ^ 2 - (n0 * Real.sin (deg2rad theta)) ^ 2 := by
    have : (n0 * Real.sin (deg2rad theta)) ^ 2 < nb ^ 2 := pow_lt_pow_left₀ hcrit (by positivity) (by norm_num)
    linarith
  obtain ⟨x, hx⟩ : ∃ x, x = Real.cos (deg2rad theta) / (n0 * Real.sin (deg2rad theta) ^ 2) * √(nb ^ 2 - (n0 * Real.sin (deg2rad theta)) ^ 2) := ⟨_, rfl⟩
  have hvx : bulkV n0 theta (s.back 0 0) = x := by
    unfold bulkV
    rw [he, ← ofReal_sub, csqrt_ofReal hin.le, hx]
    push_cast
    rfl
  have hx0 : 0 < x := by rw [hx]; positivity
  have hx2 : x ^ 2 * (n0 * Real.sin (deg2rad theta) ^ 2) ^ 2 = Real.cos (deg2rad theta) ^ 2 * (nb ^ 2 - (n0 * Real.sin (deg2rad theta)) ^ 2) := by
    rw [hx, mul_pow, Real.sq_sqrt hin.le, div_pow]
    field_simp
  have htan : Real.tan (deg2rad theta) = Real.sin (deg2rad theta) / Real.cos (deg2rad theta) := Real.tan_eq_sin_div_cos _
  have hrho : m.rho = ((1 - x) / (1 + x) : ℝ) := by
    show (measured s theta lbda ee a).rho = _
    rw [hr, hvx]
    push_cast
    rfl
  generalize Real.cos (deg2rad theta) = c at *
  generalize Real.sin (deg2rad theta) = sn at *
  have key : (x ^ 2 - 1) * (n0 * sn ^ 2) ^ 2 = (c * nb - n0 * sn) * (c * nb + n0 * sn) := by
    have : n0 ^ 2 * sn ^ 2 * (c ^ 2 + sn ^ 2) = n0 ^ 2 * sn ^ 2 := by rw [hcs, mul_one]
    linear_combination hx2 - this
  have hp1 : 0 < (n0 * sn ^ 2) ^ 2 := by positivity
  have hp2 : 0 < c * nb + n0 * sn := by positivity
  have big : sn / c < nb / n0 → 1 < x := by
    intro h3
    rw [div_lt_div_iff₀ hc hn0] at h3
    have : 0 < (x ^ 2 - 1) * (n0 * sn ^ 2) ^ 2 := by rw [key]; exact mul_pos (by linarith) hp2
    have := (mul_pos_iff_of_pos_right hp1).mp this
    nlinarith
  have small : nb / n0 ≤ sn / c → x ≤ 1 := by
    intro h3
    rw [div_le_div_iff₀ hn0 hc] at h3
    have : (x ^ 2 - 1) * (n0 * sn ^ 2) ^ 2 ≤ 0 := by rw [key]; exact mul_nonpos_of_nonpos_of_nonneg (by linarith) hp2.le
    have := nonpos_of_mul_nonpos_left this hp1
    nlinarith
  have eqv : sn / c = nb / n0 ↔ x = 1 := by
    rw [div_eq_div_iff hc.ne' hn0.ne']
    constructor
    · intro h3
      have : (x ^ 2 - 1) * (n0 * sn ^ 2) ^ 2 = 0 := by rw [key]; linear_combination (-(c * nb + n0 * sn)) * h3
      have := (mul_eq_zero.mp this).resolve_right hp1.ne'
      have : (x - 1) * (x + 1) = 0 := by linear_combination this
      have := (mul_eq_zero.mp this).resolve_right (by linarith)
      linarith
    · intro h3
      rw [h3] at key
      have : (c * nb - n0 * sn) * (c * nb + n0 * sn) = 0 := by rw [← key]; ring
      have := (mul_eq_zero.mp this).resolve_right hp2.ne'
      linarith
  refine ⟨psiOf_lt ?_, ?_, ?_, ?_⟩
  · rw [hrho, norm_real, Real.norm_eq_abs, abs_lt]
    constructor
    · rw [lt_div_iff₀ (by linarith)]; linarith
    · rw [div_lt_one (by linarith)]; linarith
  · rw [htan, eqv]
    constructor
    · intro h3
      by_contra h4
      have : m.rho ≠ 0 := by
        rw [hrho]
        exact_mod_cast div_ne_zero (sub_ne_zero.mpr (Ne.symm h4)) (by linarith : (1 + x) ≠ 0)
      exact (psiOf_pos this).ne' h3
    · intro h3
      show psiOf m.rho = 0
      rw [hrho, h3]
      simp [psiOf, rad2deg]
  · intro h3
    rw [htan] at h3
    have := big h3
    refine delta_of_pi (rho := m.rho) ?_
    rw [hrho]
    exact arg_ofReal_of_neg (div_neg_of_neg_of_pos (by linarith) (by linarith))
  · intro h3
    rw [htan] at h3
    have := small h3
    have ha0 : arg m.rho = 0 := by
      rw [hrho]
      exact arg_ofReal_of_nonneg (div_nonneg (by linarith) (by linarith))
    show deltaOf ⟨-180, 180⟩ m.rho = 0
    rw [delta_of_arg (by rw [ha0]; exact Real.pi_pos.ne), ha0]
    simp

/-- **C139.** Total reflection at a transparent sample: psi is 45 and delta is twice the arcus tangens of `cos √(n0² sin² - nb²) / (n0 sin²)`. -/
theorem C139_total_reflection (h : BulkSample s n0) {nb : ℝ} (he : s.back 0 0 = ((nb ^ 2 : ℝ) : ℂ)) (h1 : 0 < theta) (h2 : theta < 90)
    (hcrit : nb ^ 2 ≤ (n0 * Real.sin (deg2rad theta)) ^ 2) (lbda : ℝ) (ee) {a : ℂ} (ha : a ≠ 0) :
    let m := measured s theta lbda ee a
    m.psi = 45 ∧
    m.delta = 2 * rad2deg (Real.arctan (Real.cos (deg2rad theta) * √((n0 * Real.sin (deg2rad theta)) ^ 2 - nb ^ 2) / (n0 * Real.sin (deg2rad theta) ^ 2))) := by
  intro m
  obtain ⟨hv, hr⟩ := bulk_rho h h1 h2 lbda ee ha
  have hc : 0 < Real.cos (deg2rad theta) := cos_pos_of_angle (by rw [abs_of_pos h1]; exact h2)
  have hs := sin_pos_of_angle h1 h2
  have hn0 := h.index
  obtain ⟨y, hy⟩ : ∃ y, y = Real.cos (deg2rad theta) * √((n0 * Real.sin (deg2rad theta)) ^ 2 - nb ^ 2) / (n0 * Real.sin (deg2rad theta) ^ 2) := ⟨_, rfl⟩
  have hy0 : 0 ≤ y := by rw [hy]; positivity
  have hvy : bulkV n0 theta (s.back 0 0) = y * I := by
    have hroot : Complex.sqrt (s.back 0 0 - ((n0 * Real.sin (deg2rad theta)) ^ 2 : ℝ)) = √((n0 * Real.sin (deg2rad theta)) ^ 2 - nb ^ 2) * I := by
      rw [csqrt_eq_iff]
      refine ⟨?_, ?_⟩
      · by_cases hz : √((n0 * Real.sin (deg2rad theta)) ^ 2 - nb ^ 2) = 0
        · rw [hz]; simp [Principal]
        · right
          simp only [mul_re, mul_im, ofReal_re, ofReal_im, I_re, I_im]
          refine ⟨by ring, ?_⟩
          have := Real.sqrt_nonneg ((n0 * Real.sin (deg2rad theta)) ^ 2 - nb ^ 2)
          linarith
      · rw [mul_pow, I_sq, ← ofReal_pow, Real.sq_sqrt (by linarith), he]
        push_cast
        ring
    unfold bulkV
    rw [hroot, hy]
    push_cast
    ring
  rw [← hy]
  have hsq : (0 : ℝ) < 1 + y ^ 2 := by positivity
  have hrho : m.rho = exp ((-(2 * Real.arctan y) : ℝ) * I) := by
    show (measured s theta lbda ee a).rho = _
    rw [hvy] at hv hr
    rw [hr]
    have e1 : exp ((-(2 * Real.arctan y) : ℝ) * I) = (Real.cos (Real.arctan y) - Real.sin (Real.arctan y) * I) ^ 2 := by
      have : ((-(2 * Real.arctan y) : ℝ) : ℂ) * I = (2 : ℕ) * (((-Real.arctan y : ℝ) : ℂ) * I) := by push_cast; ring
      rw [this, exp_nat_mul, exp_mul_I, ← ofReal_cos, ← ofReal_sin, Real.cos_neg, Real.sin_neg]
      push_cast
      ring
    rw [e1, Real.cos_arctan, Real.sin_arctan]
    have hroot : ((√(1 + y ^ 2) : ℝ) : ℂ) ^ 2 = 1 + (y : ℂ) ^ 2 := by rw [← ofReal_pow, Real.sq_sqrt hsq.le]; push_cast; ring
    have hne : ((√(1 + y ^ 2) : ℝ) : ℂ) ≠ 0 := by exact_mod_cast (Real.sqrt_pos.mpr hsq).ne'
    have e2 : (((1 / √(1 + y ^ 2) : ℝ) : ℂ) - ((y / √(1 + y ^ 2) : ℝ) : ℂ) * I) ^ 2 = (1 - y * I) ^ 2 / ((√(1 + y ^ 2) : ℝ) : ℂ) ^ 2 := by
      push_cast
      field_simp
    rw [e2, hroot, div_eq_div_iff hv (by rw [← hroot]; exact pow_ne_zero 2 hne)]
    linear_combination ((1 - y * I) * y ^ 2) * I_sq
  have hat := Real.arctan_lt_pi_div_two y
  have hat0 : 0 ≤ Real.arctan y := Real.arctan_nonneg.mpr hy0
  constructor
  · refine psiOf_one (rho := m.rho) ?_
    rw [hrho, norm_exp_ofReal_mul_I]
  · have harg : arg m.rho = -(2 * Real.arctan y) := by
      rw [hrho, arg_exp_mul_I, toIocMod_eq_self]
      constructor <;> linarith
    show deltaOf ⟨-180, 180⟩ m.rho = _
    rw [delta_of_arg (by rw [harg]; linarith [Real.pi_pos]), harg]
    unfold rad2deg
    ring

/-! ## Principal angles -/

/-- Which side of 90 degrees delta is on, as a function of `x = sin²` and `ε / n0² = p + i q`. -/
def principalSide (p q x : ℝ) : ℝ := x ^ 4 - (1 - x) ^ 2 * ((p - x) ^ 2 + q ^ 2)

lemma side_step {p q x y : ℝ} (hq : q ≠ 0) (hx0 : 1 / 3 ≤ x) (hpx : p ≤ x) (hxy : x < y) (hy : y < 1) (h : 0 ≤ principalSide p q x) : 0 < principalSide p q y := by
  have hq2 : 0 < q ^ 2 := by positivity
  have hx1 : 0 < 1 - x := by linarith
  have hy1 : 0 < 1 - y := by linarith
  obtain ⟨G, hG⟩ : ∃ G, G = x ^ 2 / (1 - x) := ⟨_, rfl⟩
  obtain ⟨H, hH⟩ : ∃ H, H = y ^ 2 / (1 - y) := ⟨_, rfl⟩
  have eG : x ^ 2 = G * (1 - x) := by rw [hG]; field_simp
  have eH : y ^ 2 = H * (1 - y) := by rw [hH]; field_simp
  have hG0 : 0 ≤ G := by rw [hG]; positivity
  have s1 : principalSide p q x = (1 - x) ^ 2 * (G ^ 2 - (x - p) ^ 2 - q ^ 2) := by
    unfold principalSide
    linear_combination (x ^ 2 + G * (1 - x)) * eG
  have s2 : principalSide p q y = (1 - y) ^ 2 * (H ^ 2 - (y - p) ^ 2 - q ^ 2) := by
    unfold principalSide
    linear_combination (y ^ 2 + H * (1 - y)) * eH
  rw [s1] at h
  rw [s2]
  have h3 := nonneg_of_mul_nonneg_right h (by positivity)
  refine mul_pos (by positivity) ?_
  have hGp : x - p < G := by nlinarith
  have hstep : y - x ≤ H - G := by
    have e : (H - G) * ((1 - x) * (1 - y)) = (y - x) * (x + y - x * y) := by
      linear_combination (1 - y) * eG - (1 - x) * eH
    have hle : (1 - x) * (1 - y) ≤ x + y - x * y := by nlinarith
    have hpos : 0 < (1 - x) * (1 - y) := mul_pos hx1 hy1
    by_contra hlt
    push Not at hlt
    have h5 : (H - G) * ((1 - x) * (1 - y)) < (y - x) * ((1 - x) * (1 - y)) := mul_lt_mul_of_pos_right hlt hpos
    have h6 : (y - x) * ((1 - x) * (1 - y)) ≤ (y - x) * (x + y - x * y) := mul_le_mul_of_nonneg_left hle (by linarith)
    linarith
  nlinarith

lemma side_step_below {p q x y : ℝ} (hx0 : 0 < x) (hxy : x < y) (hyp : y ≤ p) (hy : y < 1) (h : 0 ≤ principalSide p q x) : 0 < principalSide p q y := by
  unfold principalSide at *
  have h1 : x ^ 4 < y ^ 4 := pow_lt_pow_left₀ hxy hx0.le (by norm_num)
  have h2 : (1 - y) ^ 2 ≤ (1 - x) ^ 2 := pow_le_pow_left₀ (by linarith) (by linarith) 2
  have h3 : (p - y) ^ 2 ≤ (p - x) ^ 2 := pow_le_pow_left₀ (by linarith) (by linarith) 2
  have h4 : (1 - y) ^ 2 * ((p - y) ^ 2 + q ^ 2) ≤ (1 - x) ^ 2 * ((p - x) ^ 2 + q ^ 2) := mul_le_mul h2 (by linarith) (by positivity) (by positivity)
  linarith

lemma side_mono {p q x y : ℝ} (hq : q ≠ 0) (hp : p ≤ 0 ∨ 1 / 3 ≤ p) (hx0 : 0 < x) (hxy : x < y) (hy : y < 1) (h : 0 ≤ principalSide p q x) : 0 < principalSide p q y := by
  rcases hp with hp | hp
  · refine side_step hq ?_ (by linarith) hxy hy h
    by_contra hlt
    push Not at hlt
    unfold principalSide at h
    have hq2 : 0 < q ^ 2 := by positivity
    have h1 : 0 < (1 - x) ^ 2 * q ^ 2 := by have : 0 < 1 - x := by linarith
                                            positivity
    have h2 : x ^ 2 ≤ (p - x) ^ 2 := by nlinarith
    have h3 : x ^ 2 ≤ (1 - x) ^ 2 := by nlinarith
    have h4 : x ^ 2 * x ^ 2 ≤ (1 - x) ^ 2 * (p - x) ^ 2 := mul_le_mul h3 h2 (by positivity) (by positivity)
    nlinarith
  · rcases le_or_gt y p with hyp | hyp
    · exact side_step_below hx0 hxy hyp hy h
    · rcases le_or_gt p x with hpx | hpx
      · exact side_step hq (by linarith) hpx hxy hy h
      · have h1 := side_step_below hx0 hpx le_rfl (by linarith) h
        exact side_step hq hp le_rfl hyp hy h1.le

/-- The angle in degrees with `sin² = x`. -/
noncomputable def angleOf (x : ℝ) : ℝ := rad2deg (Real.arcsin √x)

lemma angleOf_spec {x : ℝ} (h0 : 0 < x) (h1 : x < 1) : 0 < angleOf x ∧ angleOf x < 90 ∧ Real.sin (deg2rad (angleOf x)) ^ 2 = x := by
  have hpi := Real.pi_pos
  have hr0 : 0 < √x := Real.sqrt_pos.mpr h0
  have hr1 : √x < 1 := by rw [Real.sqrt_lt' one_pos]; simpa using h1
  have ha : 0 < Real.arcsin √x := Real.arcsin_pos.mpr hr0
  have hb : Real.arcsin √x < Real.pi / 2 := Real.arcsin_lt_pi_div_two.mpr hr1
  refine ⟨?_, ?_, ?_⟩
  · unfold angleOf rad2deg; positivity
  · unfold angleOf rad2deg
    calc Real.arcsin √x * (180 / Real.pi) < Real.pi / 2 * (180 / Real.pi) := mul_lt_mul_of_pos_right hb (by positivity)
      _ = 90 := by field_simp; norm_num
  · unfold angleOf
    rw [deg2rad_rad2deg, Real.sin_arcsin (by linarith) hr1.le, Real.sq_sqrt h0.le]

lemma sinSq_mem (h1 : 0 < theta) (h2 : theta < 90) : 0 < Real.sin (deg2rad theta) ^ 2 ∧ Real.sin (deg2rad theta) ^ 2 < 1 := by
  have hc : 0 < Real.cos (deg2rad theta) := cos_pos_of_angle (by rw [abs_of_pos h1]; exact h2)
  have hs := sin_pos_of_angle h1 h2
  have := Real.cos_sq_add_sin_sq (deg2rad theta)
  exact ⟨by positivity, by nlinarith⟩

lemma sinSq_lt {theta' : ℝ} (h1 : 0 < theta) (h12 : theta < theta') (h2 : theta' < 90) : Real.sin (deg2rad theta) ^ 2 < Real.sin (deg2rad theta') ^ 2 := by
  have hpi := Real.pi_pos
  refine pow_lt_pow_left₀ ?_ (sin_pos_of_angle h1 (h12.trans h2)).le (by norm_num)
  refine Real.sin_lt_sin_of_lt_of_le_pi_div_two ?_ ?_ ?_ <;> unfold deg2rad <;> nlinarith

/-- Delta against 90 in terms of `principalSide`. -/
lemma side_of_delta (h : BulkSample s n0) (hab : 0 < (s.back 0 0).im) (h1 : 0 < theta) (h2 : theta < 90) (lbda : ℝ) (ee) {a : ℂ} (ha : a ≠ 0) :
    let S := principalSide ((s.back 0 0).re / n0 ^ 2) ((s.back 0 0).im / n0 ^ 2) (Real.sin (deg2rad theta) ^ 2)
    ((measured s theta lbda ee a).delta = 90 ↔ S = 0) ∧ (90 < (measured s theta lbda ee a).delta ↔ S < 0) ∧ ((measured s theta lbda ee a).delta < 90 ↔ 0 < S) := by
  intro S
  have hSdef : S = principalSide ((s.back 0 0).re / n0 ^ 2) ((s.back 0 0).im / n0 ^ 2) (Real.sin (deg2rad theta) ^ 2) := rfl
  clear_value S
  obtain ⟨-, -, -, -, k1, k2, k3⟩ := C139_absorbing h hab h1 h2 lbda ee ha
  have hn0 := h.index
  have hc : 0 < Real.cos (deg2rad theta) := cos_pos_of_angle (by rw [abs_of_pos h1]; exact h2)
  have hs := sin_pos_of_angle h1 h2
  have hcs : Real.cos (deg2rad theta) ^ 2 + Real.sin (deg2rad theta) ^ 2 = 1 := Real.cos_sq_add_sin_sq _
  have hnorm : ‖s.back 0 0 - ((n0 * Real.sin (deg2rad theta)) ^ 2 : ℝ)‖ ^ 2 = ((s.back 0 0).re - (n0 * Real.sin (deg2rad theta)) ^ 2) ^ 2 + (s.back 0 0).im ^ 2 := by
    rw [Complex.sq_norm, normSq_apply, sub_re, sub_im, ofReal_re, ofReal_im]
    ring
  have hN := norm_nonneg (s.back 0 0 - ((n0 * Real.sin (deg2rad theta)) ^ 2 : ℝ))
  rw [k1, k2, k3]
  generalize ‖s.back 0 0 - ((n0 * Real.sin (deg2rad theta)) ^ 2 : ℝ)‖ = N at *
  generalize Real.cos (deg2rad theta) = c at *
  generalize hsn : Real.sin (deg2rad theta) = sn at *
  have hS : n0 ^ 4 * S = (n0 ^ 2 * sn ^ 4 - c ^ 2 * N) * (n0 ^ 2 * sn ^ 4 + c ^ 2 * N) := by
    have e1 : (1 - sn ^ 2) = c ^ 2 := by linarith
    rw [hSdef]
    unfold principalSide
    rw [e1]
    have e2 : (n0 ^ 2 * sn ^ 4 - c ^ 2 * N) * (n0 ^ 2 * sn ^ 4 + c ^ 2 * N) = n0 ^ 4 * sn ^ 8 - c ^ 4 * N ^ 2 := by ring
    rw [e2, hnorm]
    field_simp
  have hR : 0 < n0 ^ 2 * sn ^ 4 + c ^ 2 * N := by positivity
  have hn4 : 0 < n0 ^ 4 := by positivity
  refine ⟨?_, ?_, ?_⟩
  · rw [show S = 0 ↔ n0 ^ 4 * S = 0 from ⟨fun h => by rw [h, mul_zero], fun h => (mul_eq_zero.mp h).resolve_left hn4.ne'⟩, hS, mul_eq_zero, or_iff_left hR.ne', sub_eq_zero, eq_comm]
  · rw [← neg_pos (a := S), ← mul_pos_iff_of_pos_left hn4, mul_neg, hS, ← neg_mul, mul_pos_iff_of_pos_right hR, neg_pos, sub_neg]
  · rw [← mul_pos_iff_of_pos_left hn4, hS, mul_pos_iff_of_pos_right hR, sub_pos]

lemma side_root {p q l r : ℝ} (hlr : l < r) (hl : principalSide p q l < 0 ∧ 0 < principalSide p q r ∨ 0 < principalSide p q l ∧ principalSide p q r < 0) :
    ∃ x, l < x ∧ x < r ∧ principalSide p q x = 0 := by
  have hcont : ContinuousOn (principalSide p q) (Set.Icc l r) := by unfold principalSide; fun_prop
  rcases hl with hl | hl
  · obtain ⟨x, hx, hx0⟩ := intermediate_value_Ioo hlr.le hcont (show (0 : ℝ) ∈ Set.Ioo _ _ from hl)
    exact ⟨x, hx.1, hx.2, hx0⟩
  · obtain ⟨x, hx, hx0⟩ := intermediate_value_Ioo' hlr.le hcont (show (0 : ℝ) ∈ Set.Ioo _ _ from ⟨hl.2, hl.1⟩)
    exact ⟨x, hx.1, hx.2, hx0⟩

/-- **C139.** An absorbing sample that is metallic (`Re ε ≤ 0`) or not too close to zero (`n0² ≤ 3 Re ε`) has exactly one principal angle: delta is 90 there,
larger at all smaller angles and smaller at all larger ones, for every wavelength. -/
theorem C139_principal_angle (h : BulkSample s n0) (hab : 0 < (s.back 0 0).im) (hp : (s.back 0 0).re ≤ 0 ∨ n0 ^ 2 ≤ 3 * (s.back 0 0).re) :
    ∃ theta0, 0 < theta0 ∧ theta0 < 90 ∧ ∀ theta lbda ee, ∀ a : ℂ, 0 < theta → theta < 90 → a ≠ 0 →
      ((measured s theta lbda ee a).delta = 90 ↔ theta = theta0) ∧ (90 < (measured s theta lbda ee a).delta ↔ theta < theta0) ∧
      ((measured s theta lbda ee a).delta < 90 ↔ theta0 < theta) := by
  have hn0 := h.index
  have hn2 : 0 < n0 ^ 2 := by positivity
  have hq : (s.back 0 0).im / n0 ^ 2 ≠ 0 := (div_pos hab hn2).ne'
  have hp' : (s.back 0 0).re / n0 ^ 2 ≤ 0 ∨ 1 / 3 ≤ (s.back 0 0).re / n0 ^ 2 := by
    rcases hp with hp | hp
    · exact Or.inl (div_nonpos_of_nonpos_of_nonneg hp hn2.le)
    · right; rw [le_div_iff₀ hn2]; linarith
  obtain ⟨x0, hx0, hx1, hroot⟩ := side_root (p := (s.back 0 0).re / n0 ^ 2) (q := (s.back 0 0).im / n0 ^ 2) (l := 0) (r := 1) one_pos (Or.inl (by
    unfold principalSide
    have : 0 < ((s.back 0 0).im / n0 ^ 2) ^ 2 := by positivity
    constructor
    · nlinarith [sq_nonneg ((s.back 0 0).re / n0 ^ 2)]
    · norm_num))
  obtain ⟨a1, a2, a3⟩ := angleOf_spec hx0 hx1
  refine ⟨angleOf x0, a1, a2, ?_⟩
  intro theta lbda ee a h1 h2 ha
  obtain ⟨k1, k2, k3⟩ := side_of_delta h hab h1 h2 lbda ee ha
  rw [k1, k2, k3]
  obtain ⟨m1, m2⟩ := sinSq_mem h1 h2
  have lower : theta < angleOf x0 → principalSide ((s.back 0 0).re / n0 ^ 2) ((s.back 0 0).im / n0 ^ 2) (Real.sin (deg2rad theta) ^ 2) < 0 := by
    intro hlt
    have h5 := sinSq_lt h1 hlt a2
    rw [a3] at h5
    by_contra hc
    have := side_mono hq hp' m1 h5 hx1 (not_lt.mp hc)
    linarith
  have upper : angleOf x0 < theta → 0 < principalSide ((s.back 0 0).re / n0 ^ 2) ((s.back 0 0).im / n0 ^ 2) (Real.sin (deg2rad theta) ^ 2) := by
    intro hlt
    have h5 := sinSq_lt a1 hlt h2
    rw [a3] at h5
    exact side_mono hq hp' hx0 h5 m2 hroot.ge
  have equal : theta = angleOf x0 → principalSide ((s.back 0 0).re / n0 ^ 2) ((s.back 0 0).im / n0 ^ 2) (Real.sin (deg2rad theta) ^ 2) = 0 := by
    rintro rfl
    rw [a3]
    exact hroot
  rcases lt_trichotomy theta (angleOf x0) with h3 | h3 | h3
  · have := lower h3
    exact ⟨⟨fun h => absurd h this.ne, fun h => absurd h h3.ne⟩, ⟨fun _ => h3, fun _ => this⟩, ⟨fun h => absurd h this.not_gt, fun h => absurd h h3.not_gt⟩⟩
  · have := equal h3
    exact ⟨⟨fun _ => h3, fun _ => this⟩, ⟨fun h => absurd this h.ne, fun h => absurd h3 h.ne⟩, ⟨fun h => absurd this h.ne', fun h => absurd h3 h.ne'⟩⟩
  · have := upper h3
    exact ⟨⟨fun h => absurd h this.ne', fun h => absurd h h3.ne'⟩, ⟨fun h => absurd h this.not_gt, fun h => absurd h h3.not_gt⟩, ⟨fun _ => h3, fun _ => this⟩⟩

end

/-- A sample of permittivity `e` in air. -/
noncomputable def bulkStack (e : ℂ) : Stack := ⟨isoTensor 1, [], isoTensor e, true⟩

lemma bulkStack_sample {e : ℂ} (he : 0 < e.im) : BulkSample (bulkStack e) 1 where
  index := one_pos
  front := by simp [bulkStack, isoTensor]
  layers := rfl
  back := rfl
  passive := by simpa [bulkStack, isoTensor] using he.le
  nonzero := fun h => by
    have : e = 0 := by simpa [bulkStack, isoTensor] using h
    rw [this] at he
    simp at he
  different := fun h => by
    have : e = 1 := by simpa [bulkStack, isoTensor] using h
    rw [this] at he
    simp at he

/-- **C139.** Close to `ε = 0` there may be three principal angles: the restriction in `C139_principal_angle` is needed. -/
theorem C139_three_principal_angles :
    ∃ t1 t2 t3, 0 < t1 ∧ t1 < t2 ∧ t2 < t3 ∧ t3 < 90 ∧ ∀ lbda ee, ∀ a : ℂ, a ≠ 0 → ∀ t ∈ [t1, t2, t3], (measured (bulkStack ⟨9 / 100, 7 / 1000⟩) t lbda ee a).delta = 90 := by
  have hs : BulkSample (bulkStack ⟨9 / 100, 7 / 1000⟩) 1 := bulkStack_sample (by norm_num)
  have him : 0 < ((bulkStack ⟨9 / 100, 7 / 1000⟩).back 0 0).im := by simp [bulkStack, isoTensor]
  have ere : ((bulkStack ⟨9 / 100, 7 / 1000⟩).back 0 0).re / 1 ^ 2 = 9 / 100 := by simp [bulkStack, isoTensor]
  have eim : ((bulkStack ⟨9 / 100, 7 / 1000⟩).back 0 0).im / 1 ^ 2 = 7 / 1000 := by simp [bulkStack, isoTensor]
  obtain ⟨x1, l1, r1, z1⟩ := side_root (p := 9 / 100) (q := 7 / 1000) (l := 0) (r := 9 / 100) (by norm_num) (Or.inl (by unfold principalSide; norm_num))
  obtain ⟨x2, l2, r2, z2⟩ := side_root (p := 9 / 100) (q := 7 / 1000) (l := 9 / 100) (r := 11 / 100) (by norm_num) (Or.inr (by unfold principalSide; norm_num))
  obtain ⟨x3, l3, r3, z3⟩ := side_root (p := 9 / 100) (q := 7 / 1000) (l := 11 / 100) (r := 1) (by norm_num) (Or.inl (by unfold principalSide; norm_num))
  have key : ∀ x, 0 < x → x < 1 → principalSide (9 / 100) (7 / 1000) x = 0 → ∀ lbda ee, ∀ a : ℂ, a ≠ 0 → (measured (bulkStack ⟨9 / 100, 7 / 1000⟩) (angleOf x) lbda ee a).delta = 90 := by
    intro x h0 h1 hz lbda ee a ha
    obtain ⟨a1, a2, a3⟩ := angleOf_spec h0 h1
    rw [(side_of_delta hs him a1 a2 lbda ee ha).1, ere, eim, a3]
    exact hz
  have mono : ∀ x y, 0 < x → x < y → y < 1 → angleOf x < angleOf y := by
    intro x y h0 hxy h1
    obtain ⟨a1, a2, a3⟩ := angleOf_spec h0 (hxy.trans h1)
    obtain ⟨b1, b2, b3⟩ := angleOf_spec (h0.trans hxy) h1
    by_contra hc
    rcases (not_lt.mp hc).lt_or_eq with h | h
    · have := sinSq_lt b1 h a2
      rw [a3, b3] at this
      linarith
    · rw [← h, b3] at a3
      linarith
  refine ⟨angleOf x1, angleOf x2, angleOf x3, (angleOf_spec l1 (by linarith)).1, mono _ _ l1 (by linarith) (by linarith), mono _ _ (by linarith) (by linarith) (by linarith),
    (angleOf_spec (by linarith) r3).2.1, ?_⟩
  intro lbda ee a ha t ht
  simp only [List.mem_cons, List.not_mem_nil, or_false] at ht
  rcases ht with rfl | rfl | rfl
  · exact key _ l1 (by linarith) z1 _ _ _ ha
  · exact key _ (by linarith) (by linarith) z2 _ _ _ ha
  · exact key _ (by linarith) r3 z3 _ _ _ ha

/-- Silicon in the visible is such a sample, with one principal angle. -/
example : BulkSample (bulkStack (15 + I)) 1 ∧ 0 < ((bulkStack (15 + I)).back 0 0).im ∧ (1 : ℝ) ^ 2 ≤ 3 * ((bulkStack (15 + I)).back 0 0).re :=
  ⟨bulkStack_sample (by simp), by simp [bulkStack, isoTensor], by simp [bulkStack, isoTensor]; norm_num⟩

/-- Glass in air at 60 degrees. -/
example : BulkSample ⟨isoTensor 1, [], isoTensor (((3 / 2) ^ 2 : ℝ) : ℂ), true⟩ 1 ∧ (1 : ℝ) * Real.sin (deg2rad 60) < 3 / 2 := by
  refine ⟨⟨one_pos, by simp [isoTensor], rfl, rfl, by simp only [isoTensor, if_true, ofReal_im]; exact le_rfl, ?_, ?_⟩, ?_⟩
  · simp [isoTensor]
  · simp only [isoTensor, if_true]
    norm_num
  · linarith [Real.sin_le_one (deg2rad 60)]

/-- Glass seen from the inside at 60 degrees reflects totally; from the outside it does not. -/
example : BulkSample ⟨isoTensor 4, [], isoTensor 1, true⟩ 2 ∧ (1 : ℝ) ^ 2 ≤ (2 * Real.sin (deg2rad 60)) ^ 2 := by
  refine ⟨⟨two_pos, by simp [isoTensor]; norm_num, rfl, rfl, by simp [isoTensor], by simp [isoTensor], by simp [isoTensor]⟩, ?_⟩
  have : deg2rad 60 = Real.pi / 3 := by unfold deg2rad; ring
  rw [this, Real.sin_pi_div_three, mul_pow, div_pow, Real.sq_sqrt (by norm_num)]
  norm_num

end PyElli
