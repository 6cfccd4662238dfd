import Verif.Props.RoundedSolver
import Mathlib.Data.Int.Log
import Mathlib.Analysis.SpecialFunctions.Exponential

/-! # Rounding errors of `Solver2x2` to first order, and a machine with 53 bits -/

namespace PyElli

open Complex

/-! ## First-order bounds -/

/-- First-order size of the growth: unit roundoff times twenty-odd operations per layer and seven per unit of phase. -/
noncomputable def growthOrder (u Q : ℝ) (layers : ℕ) (phase : ℝ) : ℝ := u * ((12 * Q + 15) * (layers + 1) + 7 * phase)

lemma growth_le {u τ Q phase : ℝ} {layers : ℕ} (hτ1 : 1 ≤ τ) (hτ : τ ≤ 1 + u) (hu : u ≤ 1 / 100) (hQ : 0 ≤ Q) (hphase : 0 ≤ phase)
    (he : growthOrder u Q layers phase ≤ 1 / 8) :
    (τ ^ 2 - 1) * Q < 1 ∧ Spec.growth τ Q layers phase ≤ 1 + 2 * growthOrder u Q layers phase := by
  have hu0 : 0 ≤ u := by linarith
  have h2 : τ ^ 2 - 1 ≤ 3 * u := by nlinarith
  have h6 : τ ^ 6 - 1 ≤ 7 * u := by
    have h3 : τ ^ 3 ≤ 1 + 3.1 * u := by
      have : τ ^ 3 ≤ (1 + u) ^ 3 := pow_le_pow_left₀ (by linarith) hτ 3
      nlinarith [mul_nonneg hu0 hu0]
    have : τ ^ 6 = τ ^ 3 * τ ^ 3 := by ring
    have hp : 0 ≤ τ ^ 3 := by positivity
    nlinarith
  have hn : (1 : ℝ) ≤ layers + 1 := by have : (0 : ℝ) ≤ layers := Nat.cast_nonneg _; linarith
  have he' : u * (12 * Q) ≤ 1 / 8 := by
    unfold growthOrder at he
    have h1 : u * (12 * Q) ≤ u * ((12 * Q + 15) * (layers + 1) + 7 * phase) := by
      refine mul_le_mul_of_nonneg_left ?_ hu0
      nlinarith
    linarith
  have hsQ : (τ ^ 2 - 1) * Q ≤ 3 * u * Q := mul_le_mul_of_nonneg_right h2 hQ
  have hs : (τ ^ 2 - 1) * Q ≤ 1 / 2 := by nlinarith
  refine ⟨by linarith, ?_⟩
  have hs0 : 0 ≤ (τ ^ 2 - 1) * Q := mul_nonneg (by nlinarith) hQ
  have hsig : 1 / (1 - (τ ^ 2 - 1) * Q) ≤ Real.exp (6 * u * Q) := by
    rw [div_le_iff₀ (by linarith)]
    have h1 : 1 + 2 * ((τ ^ 2 - 1) * Q) ≤ Real.exp (6 * u * Q) := by
      have := Real.add_one_le_exp (6 * u * Q)
      linarith
    nlinarith
  have htau : τ ≤ Real.exp u := by have := Real.add_one_le_exp u; linarith
  have hsig0 : 0 ≤ 1 / (1 - (τ ^ 2 - 1) * Q) := by
    apply div_nonneg zero_le_one; linarith
  have hfac : (1 / (1 - (τ ^ 2 - 1) * Q)) ^ 2 * τ ^ 15 ≤ Real.exp (u * (12 * Q + 15)) := by
    have h1 := pow_le_pow_left₀ hsig0 hsig 2
    have h2 := pow_le_pow_left₀ (by linarith : (0 : ℝ) ≤ τ) htau 15
    have h3 := mul_le_mul h1 h2 (by positivity) (by positivity)
    refine h3.trans (le_of_eq ?_)
    rw [← Real.exp_nat_mul, ← Real.exp_nat_mul, ← Real.exp_add]
    congr 1
    push_cast
    ring
  have hG : Spec.growth τ Q layers phase ≤ Real.exp (growthOrder u Q layers phase) := by
    unfold Spec.growth growthOrder
    have h1 := pow_le_pow_left₀ (by positivity) hfac (layers + 1)
    have h2 : Real.exp ((τ ^ 6 - 1) * phase) ≤ Real.exp (7 * u * phase) := Real.exp_le_exp.mpr (mul_le_mul_of_nonneg_right h6 hphase)
    have h3 := mul_le_mul h1 h2 (Real.exp_pos _).le (by positivity)
    refine h3.trans (le_of_eq ?_)
    rw [← Real.exp_nat_mul, ← Real.exp_add]
    congr 1
    push_cast
    ring
  refine hG.trans ?_
  have h0 : 0 ≤ growthOrder u Q layers phase := by unfold growthOrder; positivity
  set e := growthOrder u Q layers phase
  have := Real.add_one_le_exp (-e)
  have h4 : Real.exp e * Real.exp (-e) = 1 := by rw [← Real.exp_add]; simp
  nlinarith [Real.exp_pos e]

lemma bound_order {τ u e G K : ℝ} (hτ : τ ≤ 1 + u) (hτ1 : 1 ≤ τ) (hue : 15 * u ≤ e) (he : e ≤ 1 / 8) (hG1 : 1 ≤ G) (hG : G ≤ 1 + 2 * e) (hK0 : 0 ≤ K) (hK : 8 * e * K ≤ 1) :
    (G - 1) * K < 1 ∧ G * τ / (1 - (G - 1) * K) - 1 ≤ 4 * e * (1 + K) ∧ τ / (1 - (G - 1) * K) - 1 ≤ 4 * e * (1 + K) := by
  have h1 : (G - 1) * K ≤ 2 * e * K := mul_le_mul_of_nonneg_right (by linarith) hK0
  have h2 : (G - 1) * K ≤ 1 / 4 := by linarith
  have hu0 : 0 ≤ u := by linarith
  have he0 : 0 ≤ e := by linarith
  have hpos : 0 < 1 - (G - 1) * K := by linarith
  have hGt : G * τ ≤ 1 + 2.2 * e := by nlinarith
  have hbig : 0 ≤ e * K := mul_nonneg he0 hK0
  have main : (1 + 2.2 * e) ≤ (4 * e * (1 + K) + 1) * (1 - (G - 1) * K) := by
    have h3 : 1 - 2 * (e * K) ≤ 1 - (G - 1) * K := by linarith
    have h4 : (4 * e * (1 + K) + 1) * (1 - 2 * (e * K)) ≤ (4 * e * (1 + K) + 1) * (1 - (G - 1) * K) :=
      mul_le_mul_of_nonneg_left h3 (by nlinarith)
    have h5 : e * K ≤ 1 / 8 := by linarith
    nlinarith [mul_nonneg he0 (sub_nonneg.mpr h5), mul_nonneg hbig (sub_nonneg.mpr h5)]
  refine ⟨by linarith, ?_, ?_⟩
  · rw [sub_le_iff_le_add, div_le_iff₀ hpos]
    linarith
  · rw [sub_le_iff_le_add, div_le_iff₀ hpos]
    have : τ ≤ 1 + 2.2 * e := by linarith
    linarith

lemma totalPhase_nonneg (lbda : ℝ) (inner : List (ℝ × Medium)) : 0 ≤ Spec.totalPhase lbda inner :=
  List.sum_nonneg (by simp only [List.mem_map]; rintro x ⟨l, -, rfl⟩; exact norm_nonneg _)

lemma wholeSizes_nonneg_entry {m : Machine} {τ Q lbda : ℝ} {pol : Spec.Pol} {sel : ℂ × ℂ × ℂ × ℂ → ℂ × ℂ} (hm : Accurate m τ) (hp : PolOk m τ pol sel) (hl : lbda ≠ 0)
    (hs : (τ ^ 2 - 1) * Q < 1) (first last : Medium) (inner : List (ℝ × Medium)) (hc : Spec.Conditioned pol Q (Spec.media first last inner)) :
    1 ≤ Spec.growth τ Q inner.length (Spec.totalPhase lbda inner) ∧ ∀ i j, 0 ≤ Spec.wholeSizes pol lbda first last inner i j :=
  ⟨(acc_matrix hm hp hl hs first last inner hc _ _ rfl rfl 0 0).1, fun i j => (acc_matrix hm hp hl hs first last inner hc _ _ rfl rfl i j).size_nonneg⟩

/-- **C138.** First order: with unit roundoff `u`, the error is a small number of roundoffs per layer and per unit of phase, times the conditioning of the stack. -/
theorem C138_first_order {m : Machine} {τ u Q lbda : ℝ} (hm : Accurate m τ) (hτ : τ ≤ 1 + u) (hu : u ≤ 1 / 100) (hl : lbda ≠ 0) (hQ : 0 ≤ Q)
    (first last : Medium) (inner : List (ℝ × Medium)) (e : ℝ) (he : e = u * ((12 * Q + 15) * (inner.length + 1) + 7 * Spec.totalPhase lbda inner)) (he8 : e ≤ 1 / 8)
    (rp rs tp ts : ℂ) (hcoeff : coefficients2x2 lbda first last inner = (rp, rs, tp, ts)) :
    (∀ K K', Spec.Conditioned Spec.sPol Q (Spec.media first last inner) → ts ≠ 0 → K = Spec.wholeSizes Spec.sPol lbda first last inner 0 0 * ‖ts‖ →
      K' = Spec.wholeSizes Spec.sPol lbda first last inner 1 0 * ‖ts‖ → 8 * e * K ≤ 1 →
      ‖(m.coefficients lbda first last inner).2.1 - rs‖ ≤ 4 * e * (1 + K) * K' ∧ ‖(m.coefficients lbda first last inner).2.2.2 - ts‖ ≤ 4 * e * (1 + K) * ‖ts‖) ∧
    (∀ K K', Spec.Conditioned Spec.pPol Q (Spec.media first last inner) → tp ≠ 0 → K = Spec.wholeSizes Spec.pPol lbda first last inner 0 0 * ‖tp‖ →
      K' = Spec.wholeSizes Spec.pPol lbda first last inner 1 0 * ‖tp‖ → 8 * e * K ≤ 1 →
      ‖(m.coefficients lbda first last inner).1 - rp‖ ≤ 4 * e * (1 + K) * K' ∧ ‖(m.coefficients lbda first last inner).2.2.1 - tp‖ ≤ 4 * e * (1 + K) * ‖tp‖) := by
  have hτ1 := acc_one hm
  have hu0 : 0 ≤ u := by linarith
  have hph := totalPhase_nonneg lbda inner
  have he' : growthOrder u Q inner.length (Spec.totalPhase lbda inner) ≤ 1 / 8 := by unfold growthOrder; rw [← he]; exact he8
  obtain ⟨hs, hG⟩ := growth_le hτ1 hτ hu hQ hph he'
  have heq : growthOrder u Q inner.length (Spec.totalPhase lbda inner) = e := by rw [he]; rfl
  rw [heq] at hG
  have hue : 15 * u ≤ e := by
    have hn : (0 : ℝ) ≤ inner.length := Nat.cast_nonneg _
    rw [he, mul_comm]
    refine mul_le_mul_of_nonneg_left ?_ hu0
    nlinarith
  constructor
  · intro K K' hc ht0 hK hK' hb
    obtain ⟨hG1, hnn⟩ := wholeSizes_nonneg_entry hm (polOk_s hm) hl hs first last inner hc
    have hK0 : 0 ≤ K := by rw [hK]; exact mul_nonneg (hnn 0 0) (norm_nonneg _)
    have hK0' : 0 ≤ K' := by rw [hK']; exact mul_nonneg (hnn 1 0) (norm_nonneg _)
    obtain ⟨b1, b2, b3⟩ := bound_order hτ hτ1 hue he8 hG1 hG hK0 hb
    obtain ⟨c1, c2⟩ := C138_s_polarisation hm hl hs first last inner hc rs ts (by rw [hcoeff]) (by rw [hcoeff]) ht0 _ K K' rfl hK hK' b1
    exact ⟨c1.trans (mul_le_mul_of_nonneg_right b2 hK0'), c2.trans (mul_le_mul_of_nonneg_right b3 (norm_nonneg _))⟩
  · intro K K' hc ht0 hK hK' hb
    obtain ⟨hG1, hnn⟩ := wholeSizes_nonneg_entry hm (polOk_p hm) hl hs first last inner hc
    have hK0 : 0 ≤ K := by rw [hK]; exact mul_nonneg (hnn 0 0) (norm_nonneg _)
    have hK0' : 0 ≤ K' := by rw [hK']; exact mul_nonneg (hnn 1 0) (norm_nonneg _)
    obtain ⟨b1, b2, b3⟩ := bound_order hτ hτ1 hue he8 hG1 hG hK0 hb
    obtain ⟨c1, c2⟩ := C138_p_polarisation hm hl hs first last inner hc rp tp (by rw [hcoeff]) (by rw [hcoeff]) ht0 _ K K' rfl hK hK' b1
    exact ⟨c1.trans (mul_le_mul_of_nonneg_right b2 hK0'), c2.trans (mul_le_mul_of_nonneg_right b3 (norm_nonneg _))⟩

/-! ## A machine -/

/-- Rounding of both components. -/
def rdC (rd : ℝ → ℝ) (z : ℂ) : ℂ := ⟨rd z.re, rd z.im⟩

/-- A machine built on a rounding of real numbers: complex sums and products as numpy computes them from real sums and products,
quotients and library functions rounded once per component. -/
noncomputable def roundedMachine (rd : ℝ → ℝ) : Machine where
  add x y := ⟨rd (x.re + y.re), rd (x.im + y.im)⟩
  mul x y := ⟨rd (rd (x.re * y.re) - rd (x.im * y.im)), rd (rd (x.re * y.im) + rd (x.im * y.re))⟩
  div x y := rdC rd (x / y)
  cos x := rdC rd (Complex.cos x)
  exp x := rdC rd (Complex.exp x)
  twoPi := rdC rd (2 * Real.pi)

lemma near_of_norm {e : ℝ} (he : e < 1) {x x' : ℂ} (h : ‖x' - x‖ ≤ e * ‖x‖) (he0 : 0 ≤ e) : ∃ w, Near (1 / (1 - e)) w ∧ x' = x * w := by
  by_cases hx : x = 0
  · have h1 : x' = 0 := by
      rw [hx] at h
      simpa using h
    refine ⟨1, Near.refl.mono ?_, by rw [h1, hx]; simp⟩
    rw [le_div_iff₀ (by linarith)]; linarith
  · have hr : Rel (1 + e) ‖x‖ x' x := ⟨by linarith, le_rfl, by simpa using h⟩
    have hn : ‖x‖ ≠ 0 := norm_ne_zero_iff.mpr hx
    have e1 : (1 + e - 1) * ‖x‖ / ‖x‖ = e := by field_simp; ring
    have := hr.to_near hx (by rw [e1]; exact he)
    rwa [e1] at this

lemma rdC_norm {rd : ℝ → ℝ} {u : ℝ} (hrd : ∀ x, |rd x - x| ≤ u * |x|) (hu : 0 ≤ u) (z : ℂ) : ‖rdC rd z - z‖ ≤ u * ‖z‖ := by
  have h1 := hrd z.re
  have h2 := hrd z.im
  have key : ‖rdC rd z - z‖ ^ 2 ≤ (u * ‖z‖) ^ 2 := by
    rw [mul_pow, Complex.sq_norm, Complex.sq_norm, normSq_apply, normSq_apply]
    have e1 : (rdC rd z - z).re = rd z.re - z.re := rfl
    have e2 : (rdC rd z - z).im = rd z.im - z.im := rfl
    rw [e1, e2, ← pow_two, ← pow_two, ← sq_abs (rd z.re - z.re), ← sq_abs (rd z.im - z.im), ← pow_two, ← pow_two, ← sq_abs z.re, ← sq_abs z.im]
    have k1 := pow_le_pow_left₀ (abs_nonneg _) h1 2
    have k2 := pow_le_pow_left₀ (abs_nonneg _) h2 2
    nlinarith
  exact le_of_sq_le_sq key (by positivity)

lemma rd_two {rd : ℝ → ℝ} {u : ℝ} (hrd : ∀ x, |rd x - x| ≤ u * |x|) (hu : 0 ≤ u) (p q : ℝ) : |rd (rd p + rd q) - (p + q)| ≤ (2 * u + u ^ 2) * (|p| + |q|) := by
  have h1 := hrd p
  have h2 := hrd q
  have h3 := hrd (rd p + rd q)
  have h4 : |rd p + rd q| ≤ (1 + u) * (|p| + |q|) := by
    have a1 : |rd p| ≤ (1 + u) * |p| := by
      have := abs_add_le (rd p - p) p
      rw [sub_add_cancel] at this
      linarith
    have a2 : |rd q| ≤ (1 + u) * |q| := by
      have := abs_add_le (rd q - q) q
      rw [sub_add_cancel] at this
      linarith
    have := abs_add_le (rd p) (rd q)
    linarith
  have h5 : rd (rd p + rd q) - (p + q) = (rd (rd p + rd q) - (rd p + rd q)) + ((rd p - p) + (rd q - q)) := by ring
  rw [h5]
  have h6 := abs_add_le (rd (rd p + rd q) - (rd p + rd q)) ((rd p - p) + (rd q - q))
  have h7 := abs_add_le (rd p - p) (rd q - q)
  nlinarith

lemma cross_le (a b c d : ℝ) (x y : ℂ) (h : ‖x‖ ^ 2 = a ^ 2 + b ^ 2) (k : ‖y‖ ^ 2 = c ^ 2 + d ^ 2) : |a * c| + |b * d| ≤ ‖x‖ * ‖y‖ := by
  rw [abs_mul, abs_mul]
  refine le_of_sq_le_sq ?_ (by positivity)
  rw [mul_pow, h, k, ← sq_abs a, ← sq_abs b, ← sq_abs c, ← sq_abs d]
  nlinarith [sq_nonneg (|a| * |d| - |b| * |c|)]

/-- **C138.** The machine meets the hypothesis: if real numbers are rounded with relative error `u`, sign by sign, its complex operations are accurate to `6 u`. -/
theorem C138_machine {rd : ℝ → ℝ} {u : ℝ} (hrd : ∀ x, |rd x - x| ≤ u * |x|) (hodd : ∀ x, rd (-x) = -rd x) (hu : u ≤ 1 / 30) : Accurate (roundedMachine rd) (1 + 6 * u) := by
  have hu0 : 0 ≤ u := by
    have := (abs_nonneg _).trans (hrd 1)
    simpa using this
  have hτ : 1 / (1 - 5 * u) ≤ 1 + 6 * u := by
    rw [div_le_iff₀ (by linarith)]
    nlinarith
  have one : ∀ x' x : ℂ, ‖x' - x‖ ≤ 5 * u * ‖x‖ → ∃ w, Near (1 + 6 * u) w ∧ x' = x * w := fun x' x h => by
    obtain ⟨w, hw, e⟩ := near_of_norm (by linarith) h (by linarith)
    exact ⟨w, hw.mono hτ, e⟩
  have comp : ∀ z, ‖rdC rd z - z‖ ≤ 5 * u * ‖z‖ := fun z => (rdC_norm hrd hu0 z).trans (mul_le_mul_of_nonneg_right (by linarith) (norm_nonneg _))
  refine ⟨fun x y => one _ _ (comp (x + y)), fun x y => one _ _ ?_, fun x y _ => one _ _ (comp _), fun x => one _ _ (comp _), fun x => one _ _ (comp _), one _ _ (comp _)⟩
  have nx : ‖x‖ ^ 2 = x.re ^ 2 + x.im ^ 2 := by rw [Complex.sq_norm, normSq_apply]; ring
  have ny : ‖y‖ ^ 2 = y.re ^ 2 + y.im ^ 2 := by rw [Complex.sq_norm, normSq_apply]; ring
  have ny' : ‖y‖ ^ 2 = y.im ^ 2 + y.re ^ 2 := by rw [ny]; ring
  have c1 := cross_le x.re x.im y.re y.im x y nx ny
  have c2 := cross_le x.re x.im y.im y.re x y nx ny'
  have r1 := rd_two hrd hu0 (x.re * y.re) (-(x.im * y.im))
  have r2 := rd_two hrd hu0 (x.re * y.im) (x.im * y.re)
  rw [hodd, abs_neg, ← sub_eq_add_neg, ← sub_eq_add_neg] at r1
  have k0 : 0 ≤ 2 * u + u ^ 2 := by positivity
  have k1 := r1.trans (mul_le_mul_of_nonneg_left c1 k0)
  have k2 := r2.trans (mul_le_mul_of_nonneg_left c2 k0)
  have hb : 2 * (2 * u + u ^ 2) ≤ 5 * u := by nlinarith
  refine (Complex.norm_le_abs_re_add_abs_im _).trans ?_
  rw [norm_mul]
  have e1 : ((roundedMachine rd).mul x y - x * y).re = rd (rd (x.re * y.re) - rd (x.im * y.im)) - (x.re * y.re - x.im * y.im) := rfl
  have e2 : ((roundedMachine rd).mul x y - x * y).im = rd (rd (x.re * y.im) + rd (x.im * y.re)) - (x.re * y.im + x.im * y.re) := rfl
  rw [e1, e2]
  have := mul_le_mul_of_nonneg_right hb (mul_nonneg (norm_nonneg x) (norm_nonneg y))
  linarith

/-- Rounding to 53 significant bits, without limits of the exponent; halves go away from zero. -/
noncomputable def round53 (x : ℝ) : ℝ := SignType.sign x * ((2 : ℝ) ^ (Int.log 2 |x| - 52) * round (|x| / (2 : ℝ) ^ (Int.log 2 |x| - 52)))

lemma round53_rel (x : ℝ) : |round53 x - x| ≤ 2 ^ (-53 : ℤ) * |x| := by
  by_cases hx : x = 0
  · simp [hx, round53]
  · have hp : 0 < |x| := abs_pos.mpr hx
    have hq : (0 : ℝ) < (2 : ℝ) ^ (Int.log 2 |x| - 52) := by positivity
    have hlog := Int.zpow_log_le_self (b := 2) (by norm_num) hp
    have hr := abs_sub_round (|x| / (2 : ℝ) ^ (Int.log 2 |x| - 52))
    have e : x = SignType.sign x * |x| := (sign_mul_abs x).symm
    have e2 : round53 x - x = SignType.sign x * (-((2 : ℝ) ^ (Int.log 2 |x| - 52) * (|x| / (2 : ℝ) ^ (Int.log 2 |x| - 52) - round (|x| / (2 : ℝ) ^ (Int.log 2 |x| - 52))))) := by
      conv_lhs => rw [round53]
      conv_lhs => arg 2; rw [e]
      rw [mul_sub, mul_div_cancel₀ _ hq.ne']
      ring
    have hsign : |((SignType.sign x : SignType) : ℝ)| = 1 := by
      rcases lt_or_gt_of_ne hx with h | h
      · simp [sign_neg h]
      · simp [sign_pos h]
    rw [e2, abs_mul, hsign, one_mul, abs_neg, abs_mul, abs_of_pos hq]
    have h2 : (2 : ℝ) ^ (-53 : ℤ) * (2 : ℝ) ^ (Int.log 2 |x|) = (2 : ℝ) ^ (Int.log 2 |x| - 52) * (1 / 2) := by
      rw [← zpow_add₀ (by norm_num), show (-53 + Int.log 2 |x| : ℤ) = (Int.log 2 |x| - 52) + (-1) by ring, zpow_add₀ (by norm_num)]
      norm_num
    have h3 : (2 : ℝ) ^ (-53 : ℤ) * (2 : ℝ) ^ (Int.log 2 |x|) ≤ 2 ^ (-53 : ℤ) * |x| :=
      mul_le_mul_of_nonneg_left (by exact_mod_cast hlog) (by positivity)
    exact (mul_le_mul_of_nonneg_left hr hq.le).trans (h2 ▸ h3)

lemma round53_odd (x : ℝ) : round53 (-x) = -round53 x := by
  unfold round53
  rw [abs_neg, Left.sign_neg]
  simp

/-- **C138.** The machine with 53 bits: at most 99 layers, a total phase of at most ten thousand, interfaces conditioned within two. -/
theorem C138_double {lbda : ℝ} (hl : lbda ≠ 0) (first last : Medium) (inner : List (ℝ × Medium)) (hn : inner.length ≤ 99) (hph : Spec.totalPhase lbda inner ≤ 10 ^ 4)
    (rp rs tp ts : ℂ) (hcoeff : coefficients2x2 lbda first last inner = (rp, rs, tp, ts)) :
    (∀ K K', Spec.Conditioned Spec.sPol 2 (Spec.media first last inner) → ts ≠ 0 → K = Spec.wholeSizes Spec.sPol lbda first last inner 0 0 * ‖ts‖ →
      K' = Spec.wholeSizes Spec.sPol lbda first last inner 1 0 * ‖ts‖ → K ≤ 2 * 10 ^ 9 →
      ‖((roundedMachine round53).coefficients lbda first last inner).2.1 - rs‖ ≤ 2 / 10 ^ 10 * (1 + K) * K' ∧
      ‖((roundedMachine round53).coefficients lbda first last inner).2.2.2 - ts‖ ≤ 2 / 10 ^ 10 * (1 + K) * ‖ts‖) ∧
    (∀ K K', Spec.Conditioned Spec.pPol 2 (Spec.media first last inner) → tp ≠ 0 → K = Spec.wholeSizes Spec.pPol lbda first last inner 0 0 * ‖tp‖ →
      K' = Spec.wholeSizes Spec.pPol lbda first last inner 1 0 * ‖tp‖ → K ≤ 2 * 10 ^ 9 →
      ‖((roundedMachine round53).coefficients lbda first last inner).1 - rp‖ ≤ 2 / 10 ^ 10 * (1 + K) * K' ∧
      ‖((roundedMachine round53).coefficients lbda first last inner).2.2.1 - tp‖ ≤ 2 / 10 ^ 10 * (1 + K) * ‖tp‖) := by
  have hm := C138_machine round53_rel round53_odd (by norm_num)
  have hph0 := totalPhase_nonneg lbda inner
  have hn' : (inner.length : ℝ) ≤ 99 := by exact_mod_cast hn
  have hn0 : (0 : ℝ) ≤ inner.length := Nat.cast_nonneg _
  obtain ⟨e, he⟩ : ∃ e, e = 6 * (2 : ℝ) ^ (-53 : ℤ) * ((12 * 2 + 15) * (inner.length + 1) + 7 * Spec.totalPhase lbda inner) := ⟨_, rfl⟩
  have hu0 : (0 : ℝ) ≤ 6 * (2 : ℝ) ^ (-53 : ℤ) := by positivity
  have he0 : 0 ≤ e := by rw [he]; positivity
  have hle : e ≤ 1 / 20000000000 := by
    have h1 : e ≤ 6 * (2 : ℝ) ^ (-53 : ℤ) * 73900 := by
      rw [he]
      exact mul_le_mul_of_nonneg_left (by linarith) hu0
    refine h1.trans ?_
    norm_num
  obtain ⟨f1, f2⟩ := C138_first_order hm le_rfl (by norm_num) hl (by norm_num) first last inner e he (by linarith) rp rs tp ts hcoeff
  have hnn : ∀ (pol : Spec.Pol) (sel : ℂ × ℂ × ℂ × ℂ → ℂ × ℂ), PolOk (roundedMachine round53) _ pol sel → Spec.Conditioned pol 2 (Spec.media first last inner) →
      ∀ i j, 0 ≤ Spec.wholeSizes pol lbda first last inner i j := fun pol sel hp hc =>
    (wholeSizes_nonneg_entry hm hp hl (by norm_num) first last inner hc).2
  constructor
  · intro K K' hc ht0 hK hK' hb
    have n := hnn _ _ (polOk_s hm) hc
    have hK0 : 0 ≤ K := by rw [hK]; exact mul_nonneg (n 0 0) (norm_nonneg _)
    have hK0' : 0 ≤ K' := by rw [hK']; exact mul_nonneg (n 1 0) (norm_nonneg _)
    obtain ⟨g1, g2⟩ := f1 K K' hc ht0 hK hK' (by nlinarith)
    have h4 : 4 * e ≤ 2 / 10 ^ 10 := by linarith
    exact ⟨g1.trans (by gcongr), g2.trans (by gcongr)⟩
  · intro K K' hc ht0 hK hK' hb
    have n := hnn _ _ (polOk_p hm) hc
    have hK0 : 0 ≤ K := by rw [hK]; exact mul_nonneg (n 0 0) (norm_nonneg _)
    have hK0' : 0 ≤ K' := by rw [hK']; exact mul_nonneg (n 1 0) (norm_nonneg _)
    obtain ⟨g1, g2⟩ := f2 K K' hc ht0 hK hK' (by nlinarith)
    have h4 : 4 * e ≤ 2 / 10 ^ 10 := by linarith
    exact ⟨g1.trans (by gcongr), g2.trans (by gcongr)⟩

/-! ## Conditioning -/

/-- **C138.** Passive media: if both terms at an interface lie in the first quadrant, its conditioning is below two. -/
theorem C138_quadrant (pol : Spec.Pol) (i t : Medium) (ha : 0 ≤ (pol i t).1.re ∧ 0 ≤ (pol i t).1.im) (hb : 0 ≤ (pol i t).2.re ∧ 0 ≤ (pol i t).2.im) :
    Spec.interfaceCond pol i t ≤ 2 := by
  unfold Spec.interfaceCond
  set a := (pol i t).1
  set b := (pol i t).2
  refine div_le_of_le_mul₀ (norm_nonneg _) (by norm_num) ?_
  refine le_of_sq_le_sq ?_ (by positivity)
  have h1 : ‖a‖ ^ 2 = a.re ^ 2 + a.im ^ 2 := by rw [Complex.sq_norm, normSq_apply]; ring
  have h2 : ‖b‖ ^ 2 = b.re ^ 2 + b.im ^ 2 := by rw [Complex.sq_norm, normSq_apply]; ring
  have h3 : ‖a + b‖ ^ 2 = (a.re + b.re) ^ 2 + (a.im + b.im) ^ 2 := by rw [Complex.sq_norm, normSq_apply, add_re, add_im]; ring
  rw [mul_pow, h3]
  nlinarith [sq_nonneg (‖a‖ - ‖b‖), mul_nonneg ha.1 hb.1, mul_nonneg ha.2 hb.2]

/-- **C138.** A bare interface: the conditioning of the stack is one for the transmission and that of the quotient for the reflection. -/
theorem C138_interface (lbda : ℝ) (first last : Medium) (h0 : first.1 * cos first.2 ≠ 0) :
    ((Spec.sPol first last).1 + (Spec.sPol first last).2 ≠ 0 →
      Spec.wholeSizes Spec.sPol lbda first last [] 0 0 * ‖(coefficients2x2 lbda first last []).2.2.2‖ = 1 ∧
      Spec.wholeSizes Spec.sPol lbda first last [] 1 0 * ‖(coefficients2x2 lbda first last []).2.2.2‖ = Spec.interfaceCond Spec.sPol first last) ∧
    ((Spec.pPol first last).1 + (Spec.pPol first last).2 ≠ 0 →
      Spec.wholeSizes Spec.pPol lbda first last [] 0 0 * ‖(coefficients2x2 lbda first last []).2.2.1‖ = 1 ∧
      Spec.wholeSizes Spec.pPol lbda first last [] 1 0 * ‖(coefficients2x2 lbda first last []).2.2.1‖ = Spec.interfaceCond Spec.pPol first last) := by
  have key : ∀ (pol : Spec.Pol) (t : ℂ), t = 2 * first.1 * cos first.2 / ((pol first last).1 + (pol first last).2) → (pol first last).1 + (pol first last).2 ≠ 0 →
      Spec.wholeSizes pol lbda first last [] 0 0 * ‖1 / (1 / t)‖ = 1 ∧ Spec.wholeSizes pol lbda first last [] 1 0 * ‖1 / (1 / t)‖ = Spec.interfaceCond pol first last := by
    intro pol t et hs
    have ht : t ≠ 0 := by
      rw [et, mul_assoc]
      exact div_ne_zero (mul_ne_zero two_ne_zero h0) hs
    have hn : ‖t‖ ≠ 0 := norm_ne_zero_iff.mpr ht
    have e : Spec.transSize pol first last = ‖t‖ := by rw [et, norm_div]; rfl
    rw [one_div_one_div]
    unfold Spec.wholeSizes Spec.stackSizes Spec.factorSize
    simp only [List.map_nil, List.headD_nil, e]
    constructor <;> simp [hn]
  exact ⟨fun hs => key Spec.sPol _ rfl hs, fun hs => key Spec.pPol _ rfl hs⟩

/-! ## A half-wave film -/

/-- Index 3/2 between air, thickness 1 at wavelength 3, normal incidence: it reflects nothing, and the machine reports less than `2e-9`. -/
example : ‖((roundedMachine round53).coefficients 3 (1, 0) (1, 0) [(1, (3 / 2, 0))]).2.1‖ ≤ 2 / 10 ^ 9 := by
  have hph : phase2x2 (3 : ℝ) (1 : ℝ) (3 / 2) 0 = Real.pi := by simp [phase2x2]; ring
  have hlp : Spec.layerPhase 3 1 (3 / 2, 0) = Real.pi := hph
  have em : exp (-I * Real.pi) = -1 := by rw [neg_mul, exp_neg, mul_comm, exp_pi_mul_I]; norm_num
  have ep : exp (I * Real.pi) = -1 := by rw [mul_comm, exp_pi_mul_I]
  have hM : coefficients2x2 3 (1, 0) (1, 0) [(1, (3 / 2, 0))] = ((coefficients2x2 3 (1, 0) (1, 0) [(1, (3 / 2, 0))]).1, 0, (coefficients2x2 3 (1, 0) (1, 0) [(1, (3 / 2, 0))]).2.2.1, -1) := by
    have : (coefficients2x2 3 (1, 0) (1, 0) [(1, (3 / 2, 0))]).2.1 = 0 ∧ (coefficients2x2 3 (1, 0) (1, 0) [(1, (3 / 2, 0))]).2.2.2 = -1 := by
      unfold coefficients2x2 loop2x2 loop2x2 nextMedium
      dsimp only
      rw [hph]
      unfold layerMatrix interfaceMatrix fresnel
      dsimp only
      rw [em, ep]
      constructor
      · simp [Matrix.mul_apply, Fin.sum_univ_two]
        left
        norm_num
      · simp [Matrix.mul_apply, Fin.sum_univ_two]
        norm_num
    exact Prod.ext rfl (Prod.ext this.1 (Prod.ext rfl this.2))
  have hc : Spec.Conditioned Spec.sPol 2 (Spec.media (1, 0) (1, 0) [(1, (3 / 2, 0))]) := by
    unfold Spec.Conditioned Spec.media
    simp only [List.map_cons, List.map_nil, List.cons_append, List.nil_append, List.isChain_cons_cons, List.isChain_singleton, and_true]
    refine ⟨⟨by simp, by simp [Spec.sPol]; norm_num, C138_quadrant _ _ _ ?_ ?_⟩, ⟨by simp, by simp [Spec.sPol]; norm_num, C138_quadrant _ _ _ ?_ ?_⟩⟩ <;>
      (simp [Spec.sPol]; try norm_num)
  have hsz : ∀ i, Spec.wholeSizes Spec.sPol 3 (1, 0) (1, 0) [(1, (3 / 2, 0))] i 0 = 25 / 12 := by
    intro i
    unfold Spec.wholeSizes Spec.stackSizes
    rw [hlp]
    have c1 : Spec.interfaceCond Spec.sPol (1, 0) (3 / 2, 0) = 1 := by
      simp [Spec.interfaceCond, Spec.sPol]
      rw [show (1 + 3 / 2 : ℂ) = ((5 / 2 : ℝ) : ℂ) by push_cast; norm_num, norm_real]
      norm_num
    have c2 : Spec.interfaceCond Spec.sPol (3 / 2, 0) (1, 0) = 1 := by
      simp [Spec.interfaceCond, Spec.sPol]
      rw [show (3 / 2 + 1 : ℂ) = ((5 / 2 : ℝ) : ℂ) by push_cast; norm_num, norm_real]
      norm_num
    have t1 : Spec.transSize Spec.sPol (1, 0) (3 / 2, 0) = 4 / 5 := by
      simp [Spec.transSize, Spec.sPol]
      rw [show (1 + 3 / 2 : ℂ) = ((5 / 2 : ℝ) : ℂ) by push_cast; norm_num, norm_real]
      norm_num
    have t2 : Spec.transSize Spec.sPol (3 / 2, 0) (1, 0) = 6 / 5 := by
      simp [Spec.transSize, Spec.sPol]
      rw [show (3 / 2 + 1 : ℂ) = ((5 / 2 : ℝ) : ℂ) by push_cast; norm_num, norm_real]
      norm_num
    simp only [Spec.factorSize, List.map_cons, List.map_nil, List.headD_cons, c1, c2, t1, t2]
    fin_cases i <;> simp [Matrix.mul_apply, Fin.sum_univ_two] <;> norm_num
  have htot : Spec.totalPhase 3 [(1, (3 / 2, 0))] ≤ 10 ^ 4 := by
    have e : Spec.totalPhase 3 [(1, (3 / 2, 0))] = Real.pi := by
      simp only [Spec.totalPhase, List.map_cons, List.map_nil, List.sum_cons, List.sum_nil, add_zero, hlp]
      rw [norm_real, Real.norm_of_nonneg Real.pi_pos.le]
    rw [e]
    linarith [Real.pi_le_four]
  have := (C138_double (by norm_num) (1, 0) (1, 0) [(1, (3 / 2, 0))] (by simp) htot _ 0 _ (-1) hM).1 (25 / 12) (25 / 12) hc (by norm_num)
    (by rw [hsz]; simp) (by rw [hsz]; simp) (by norm_num)
  rw [sub_zero] at this
  refine this.1.trans ?_
  norm_num

end PyElli
