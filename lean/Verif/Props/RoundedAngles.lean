import Verif.Props.RoundedResult

/-! # C141: from the media to psi and delta in double precision -/

namespace PyElli

open Complex Spec

/-- **C141.** With the default range (-180, 180) whole turns do occur: where the ratio is real and negative, delta is -180, and above 90 for any
further sample with a smaller imaginary part, however close. -/
theorem C141_turns (eps : ℝ) (h : 0 < eps) (jt : Mat2) :
    (Result.mk' !![-1, 0; 0, 1] jt none ![1, 1]).delta = -180 ∧ 90 < (Result.mk' !![-1 - eps * I, 0; 0, 1] jt none ![1, 1]).delta := by
  have hpi := Real.pi_pos
  have hq : ∀ z : ℂ, (Result.mk' !![z, 0; 0, 1] jt none ![1, 1]).delta = shiftDelta (-rad2deg (arg z)) ⟨-180, 180⟩ := fun z => by
    have e : (Result.mk' !![z, 0; 0, 1] jt none ![1, 1]).rho = z := by
      rw [Result.rho, foldRho, if_neg (by norm_num [Result.mk'])]
      simp [Result.mk', ratioOf, rhoMatrix, Matrix.mulVec, dotProduct, Fin.sum_univ_two]
    unfold Result.delta deltaOf
    rw [e]
    rfl
  constructor
  · rw [hq, Complex.arg_neg_one]
    have e1 : rad2deg Real.pi = 180 := by unfold rad2deg; field_simp
    have hfl : ⌊((-180 + -180) / 360 : ℝ)⌋ = -1 := by
      rw [Int.floor_eq_iff]
      norm_num
    unfold shiftDelta npMod
    rw [e1]
    simp only
    rw [hfl]
    norm_num
  · rw [hq]
    set z : ℂ := -1 - eps * I with hz
    have hre : z.re = -1 := by simp [hz]
    have him : z.im = -eps := by simp [hz]
    have h1 : arg z < -(Real.pi / 2) := by
      by_contra hc
      rw [not_lt, Complex.neg_pi_div_two_le_arg_iff, hre, him] at hc
      rcases hc with hc | hc <;> linarith
    have h2 := Complex.neg_pi_lt_arg z
    have b1 : rad2deg (arg z) < -90 := by
      unfold rad2deg
      rw [mul_div_assoc', div_lt_iff₀ hpi]
      linarith
    have b2 : -180 < rad2deg (arg z) := by
      unfold rad2deg
      rw [mul_div_assoc', lt_div_iff₀ hpi]
      linarith
    have hfl : ⌊((-rad2deg (arg z) + -180) / 360 : ℝ)⌋ = -1 := by
      rw [Int.floor_eq_iff]
      push_cast
      constructor
      · rw [le_div_iff₀ (by norm_num)]
        linarith
      · rw [div_lt_iff₀ (by norm_num)]
        linarith
    unfold shiftDelta npMod
    simp only
    rw [hfl]
    push_cast
    linarith

/-- **C141.** The whole way for samples without mode conversion: the angles computed from computed coefficients differ from the exact ones by the
relative errors of the coefficients and a few roundoffs. -/
theorem C141_isotropic {m : AngleMachine} {τ : ℝ} (hm : AccurateAngles m τ) (hτ : τ ^ 4 < 2) (r : Result) {rp rs rp' rs' x y : ℂ}
    (hJ : r.jr = !![rp, 0; 0, rs]) (hE : r.jones = ![x, y]) (hx : x ≠ 0) (hy : y ≠ 0) (α β : ℝ) (hα : ‖rp' - rp‖ ≤ α) (hβ : ‖rs' - rs‖ ≤ β) (hs : β < ‖rs‖) :
    |m.psi !![rp', 0; 0, rs'] r.jones - r.psi| ≤
      90 * (Real.sqrt ((α * ‖x‖) ^ 2 + (β * ‖y‖) ^ 2) / Real.sqrt (‖rp * x‖ ^ 2 + ‖rs * y‖ ^ 2) + (τ ^ 5 + τ ^ 2 - 2)) ∧
    (α < ‖rp‖ → ¬ (r.range.lower = 0 ∧ r.range.upper = 180) → |r.range.lower| ≤ 360 →
      ∃ n : ℤ, |m.delta r.range !![rp', 0; 0, rs'] r.jones - r.delta - 360 * n| ≤
        90 * (α / ‖rp‖ + β / ‖rs‖ + (τ ^ 4 + τ ^ 3 - 2)) + (τ - 1) * (540 * τ + 1260)) := by
  have h1 := acc_one hm.base
  have hτ3 : τ ^ 3 ≤ τ ^ 4 := pow_le_pow_right₀ h1 (by norm_num)
  have hτ1 : 1 ≤ τ ^ 3 := one_le_pow₀ h1
  have hrs : rs ≠ 0 := norm_pos_iff.1 ((norm_nonneg _).trans_lt (hβ.trans_lt hs))
  have hrs' : rs' ≠ 0 := by
    rintro rfl
    rw [zero_sub, norm_neg] at hβ
    linarith
  obtain ⟨r', hr'⟩ : ∃ r' : Result, r' = { r with jr := !![rp', 0; 0, rs'] } := ⟨_, rfl⟩
  have e1 : r'.jr = !![rp', 0; 0, rs'] := by rw [hr']
  have e2 : r'.jones = ![x, y] := by rw [hr', ← hE]
  have e3 : r'.range = r.range := by rw [hr']
  have b : behind r.jr r.jones = (rp * x, rs * y) := by rw [hJ, hE]; simp [behind]
  have b' : behind r'.jr r'.jones = (rp' * x, rs' * y) := by rw [e1, e2]; simp [behind]
  have j : r.jr 1 1 ≠ 0 := by rw [hJ]; exact hrs
  have j' : r'.jr 1 1 ≠ 0 := by rw [e1]; exact hrs'
  have dx : ‖rp' * x - rp * x‖ ≤ α * ‖x‖ := by
    rw [← sub_mul, norm_mul]
    exact mul_le_mul_of_nonneg_right hα (norm_nonneg _)
  have dy : ‖rs' * y - rs * y‖ ≤ β * ‖y‖ := by
    rw [← sub_mul, norm_mul]
    exact mul_le_mul_of_nonneg_right hβ (norm_nonneg _)
  have hy' := norm_pos_iff.2 hy
  have hx' := norm_pos_iff.2 hx
  have hP : ‖rp' * x‖ = ‖r'.jr 0 0‖ * ‖r'.jones 0‖ + ‖r'.jr 0 1‖ * ‖r'.jones 1‖ := by rw [e1, e2]; simp
  have hS : ‖rs' * y‖ = ‖r'.jr 1 0‖ * ‖r'.jones 0‖ + ‖r'.jr 1 1‖ * ‖r'.jones 1‖ := by rw [e1, e2]; simp
  have hsy : 0 < ‖rs' * y‖ := norm_pos_iff.2 (mul_ne_zero hrs' hy)
  rw [show r.jones = r'.jones by rw [hE, e2], ← e1]
  constructor
  · have k1 := C141_psi r r' j j' b b' (mul_ne_zero hrs hy) (mul_ne_zero hrs' hy) _ _ dx dy
    have k2 := C141_rounded_psi hm r' j' b' _ _ hP hS (by nlinarith)
    have hN : 0 < Real.sqrt (‖rp' * x‖ ^ 2 + ‖rs' * y‖ ^ 2) := Real.sqrt_pos.2 (by positivity)
    have hτ5 : τ ^ 3 ≤ τ ^ 5 := pow_le_pow_right₀ h1 (by norm_num)
    have k3 : Real.sqrt (((τ ^ 5 - 1) * ‖rp' * x‖) ^ 2 + ((τ ^ 3 - 1) * ‖rs' * y‖) ^ 2) / Real.sqrt (‖rp' * x‖ ^ 2 + ‖rs' * y‖ ^ 2) ≤ τ ^ 5 - 1 := by
      rw [div_le_iff₀ hN]
      refine Real.sqrt_le_iff.2 ⟨mul_nonneg (by linarith) hN.le, ?_⟩
      rw [mul_pow, mul_pow, mul_pow, Real.sq_sqrt (by positivity)]
      have : (τ ^ 3 - 1) ^ 2 ≤ (τ ^ 5 - 1) ^ 2 := pow_le_pow_left₀ (by linarith) (by linarith) 2
      nlinarith [sq_nonneg ‖rs' * y‖]
    have k4 := abs_sub_le (m.psi r'.jr r'.jones) r'.psi r.psi
    linarith
  · intro hp hf hl
    have hrp : rp ≠ 0 := norm_pos_iff.1 ((norm_nonneg _).trans_lt (hα.trans_lt hp))
    have hrp' : rp' ≠ 0 := by
      rintro rfl
      rw [zero_sub, norm_neg] at hα
      linarith
    have hpx : 0 < ‖rp' * x‖ := norm_pos_iff.2 (mul_ne_zero hrp' hx)
    obtain ⟨n1, k1⟩ := C141_delta r r' e3 hf j j' b b' _ _ dx dy (by rw [norm_mul]; exact mul_lt_mul_of_pos_right hp hx')
      (by rw [norm_mul]; exact mul_lt_mul_of_pos_right hs hy')
    obtain ⟨n2, k2⟩ := C141_rounded_delta hm r' (by rwa [e3]) (by rwa [e3]) j' b' _ _ hP hS (by nlinarith) (by nlinarith)
    refine ⟨n1 + n2, ?_⟩
    rw [norm_mul, norm_mul, mul_div_mul_right _ _ hx'.ne', mul_div_mul_right _ _ hy'.ne'] at k1
    rw [mul_div_assoc, mul_div_assoc, div_self hpx.ne', div_self hsy.ne', e3] at k2
    have k3 := abs_add_le (m.delta r.range r'.jr r'.jones - r'.delta - 360 * n2) (r'.delta - r.delta - 360 * n1)
    rw [show m.delta r.range r'.jr r'.jones - r.delta - 360 * ((n1 + n2 : ℤ) : ℝ) =
      (m.delta r.range r'.jr r'.jones - r'.delta - 360 * n2) + (r'.delta - r.delta - 360 * n1) by push_cast; ring]
    linarith

/-- The angles of a machine that rounds every real number it computes. -/
noncomputable def roundedAngles (rd : ℝ → ℝ) : AngleMachine where
  toMachine := roundedMachine rd
  abs z := rd ‖z‖
  arctan x := rd (Real.arctan x)
  deg x := rd (x * 180 / Real.pi)
  angle z := rd (arg z * 180 / Real.pi)
  plus x y := rd (x + y)
  mod x := rd (x - 360 * ⌊x / 360⌋)

/-- **C141.** Such a machine meets the hypotheses. -/
theorem C141_machine {rd : ℝ → ℝ} {u : ℝ} (hrd : ∀ x, |rd x - x| ≤ u * |x|) (hodd : ∀ x, rd (-x) = -rd x) (hu : u ≤ 1 / 30) :
    AccurateAngles (roundedAngles rd) (1 + 6 * u) := by
  have hu0 : 0 ≤ u := by
    have := (abs_nonneg _).trans (hrd 1)
    simpa using this
  have hpi := Real.pi_pos
  have k : ∀ x, |rd x - x| ≤ (1 + 6 * u - 1) * |x| := fun x => (hrd x).trans (mul_le_mul_of_nonneg_right (by linarith) (abs_nonneg _))
  refine ⟨C138_machine hrd hodd hu, fun z => ?_, fun x => k _, fun x => k _, fun z => ?_, fun x y => k _, fun x => ⟨⌊x / 360⌋, ?_, ?_, ?_⟩⟩
  · have := k ‖z‖
    rwa [abs_norm] at this
  · have hz : |arg z * 180 / Real.pi| ≤ 180 := by
      rw [abs_div, abs_mul, abs_of_pos hpi, div_le_iff₀ hpi]
      have := Complex.abs_arg_le_pi z
      norm_num
      linarith
    have h1 := k (arg z * 180 / Real.pi)
    have h2 := h1.trans (mul_le_mul_of_nonneg_left hz (by linarith))
    refine ⟨?_, 0, by simpa [roundedAngles] using h2⟩
    have h3 := abs_sub_abs_le_abs_sub (rd (arg z * 180 / Real.pi)) (arg z * 180 / Real.pi)
    change |rd (arg z * 180 / Real.pi)| ≤ _
    linarith
  · have := Int.floor_le (x / 360)
    rw [le_div_iff₀ (by norm_num)] at this
    linarith
  · have := Int.lt_floor_add_one (x / 360)
    rw [div_lt_iff₀ (by norm_num)] at this
    linarith
  · have h1 := Int.floor_le (x / 360)
    have h2 := Int.lt_floor_add_one (x / 360)
    rw [le_div_iff₀ (by norm_num)] at h1
    rw [div_lt_iff₀ (by norm_num)] at h2
    refine (k _).trans (mul_le_mul_of_nonneg_left ?_ (by linarith))
    rw [abs_le]
    constructor <;> linarith

/-- The hypotheses of the rounded theorems are met in double precision by a sample with mode conversion. -/
example : |(roundedAngles round53).psi !![I, 1; 1, 1] ![1, 1] - (Result.mk' !![I, 1; 1, 1] 0 none ![1, 1]).psi| ≤ 1 / 10 ^ 10 ∧
    ∃ n : ℤ, |(roundedAngles round53).delta ⟨-180, 180⟩ !![I, 1; 1, 1] ![1, 1] - (Result.mk' !![I, 1; 1, 1] 0 none ![1, 1]).delta - 360 * n| ≤ 1 / 10 ^ 10 := by
  have hm := C141_machine round53_rel round53_odd (by norm_num)
  have b : behind !![I, 1; 1, 1] ![1, 1] = (I + 1, 2) := by simp [behind]; norm_num
  have hn : ‖I + 1‖ ^ 2 = 2 := by rw [← Complex.normSq_eq_norm_sq, Complex.normSq_apply]; simp; norm_num
  have h1 : 1 ≤ ‖I + 1‖ := by nlinarith [norm_nonneg (I + 1)]
  have h2 : ‖(2 : ℂ)‖ = 2 := by simp
  constructor
  · refine (C141_rounded_psi hm (Result.mk' !![I, 1; 1, 1] 0 none ![1, 1]) (by simp [Result.mk']) b 2 2 (by simp [Result.mk']; norm_num)
      (by simp [Result.mk']; norm_num) (by rw [h2]; norm_num)).trans ?_
    have h3 : (1 : ℝ) ≤ Real.sqrt (‖I + 1‖ ^ 2 + ‖(2 : ℂ)‖ ^ 2) := Real.le_sqrt_of_sq_le (by rw [hn, h2]; norm_num)
    refine (mul_le_mul_of_nonneg_left (sub_le_sub_right (add_le_add_left ((div_le_self (Real.sqrt_nonneg _) h3).trans
      (Real.sqrt_le_iff.2 ⟨(by norm_num : (0 : ℝ) ≤ 1 / 10 ^ 13), by norm_num⟩)) _) _) (by norm_num)).trans ?_
    norm_num
  · obtain ⟨n, h⟩ := C141_rounded_delta hm (Result.mk' !![I, 1; 1, 1] 0 none ![1, 1]) (by norm_num [Result.mk']) (by norm_num [Result.mk'])
      (by simp [Result.mk']) b 2 2 (by simp [Result.mk']; norm_num) (by simp [Result.mk']; norm_num) (lt_of_lt_of_le (by norm_num) h1) (by rw [h2]; norm_num)
    refine ⟨n, h.trans ?_⟩
    rw [h2]
    refine (add_le_add_left (mul_le_mul_of_nonneg_left (add_le_add_left (div_le_self (by norm_num) h1) _) (by norm_num)) _).trans ?_
    norm_num

/-- **C141.** Double precision from the media to the angles: `Solver2x2` and `Result` with 53 bits, at most 99 layers, a total phase of at most ten thousand
and interfaces conditioned within two. -/
theorem C141_double {lbda : ℝ} (hl : lbda ≠ 0) (first last : Medium) (inner : List (ℝ × Medium)) (hn : inner.length ≤ 99) (hph : Spec.totalPhase lbda inner ≤ 10 ^ 4)
    (rp rs tp ts : ℂ) (hcoeff : coefficients2x2 lbda first last inner = (rp, rs, tp, ts)) (htp : tp ≠ 0) (hts : ts ≠ 0)
    (hcs : Spec.Conditioned Spec.sPol 2 (Spec.media first last inner)) (hcp : Spec.Conditioned Spec.pPol 2 (Spec.media first last inner))
    (Kp Kp' Ks Ks' : ℝ) (hKp : Kp = Spec.wholeSizes Spec.pPol lbda first last inner 0 0 * ‖tp‖) (hKp' : Kp' = Spec.wholeSizes Spec.pPol lbda first last inner 1 0 * ‖tp‖)
    (hKs : Ks = Spec.wholeSizes Spec.sPol lbda first last inner 0 0 * ‖ts‖) (hKs' : Ks' = Spec.wholeSizes Spec.sPol lbda first last inner 1 0 * ‖ts‖)
    (hbp : Kp ≤ 2 * 10 ^ 9) (hbs : Ks ≤ 2 * 10 ^ 9) (α β : ℝ) (hα : α = 2 / 10 ^ 10 * (1 + Kp) * Kp') (hβ : β = 2 / 10 ^ 10 * (1 + Ks) * Ks') (hs : β < ‖rs‖)
    (r : Result) {x y : ℂ} (hJ : r.jr = !![rp, 0; 0, rs]) (hE : r.jones = ![x, y]) (hx : x ≠ 0) (hy : y ≠ 0) (J : Mat2)
    (hJ' : J = !![((roundedMachine round53).coefficients lbda first last inner).1, 0; 0, ((roundedMachine round53).coefficients lbda first last inner).2.1]) :
    |(roundedAngles round53).psi J r.jones - r.psi| ≤
      90 * (Real.sqrt ((α * ‖x‖) ^ 2 + (β * ‖y‖) ^ 2) / Real.sqrt (‖rp * x‖ ^ 2 + ‖rs * y‖ ^ 2)) + 1 / 10 ^ 12 ∧
    (α < ‖rp‖ → ¬ (r.range.lower = 0 ∧ r.range.upper = 180) → |r.range.lower| ≤ 360 →
      ∃ n : ℤ, |(roundedAngles round53).delta r.range J r.jones - r.delta - 360 * n| ≤ 90 * (α / ‖rp‖ + β / ‖rs‖) + 1 / 10 ^ 11) := by
  obtain ⟨c1, c2⟩ := C138_double hl first last inner hn hph rp rs tp ts hcoeff
  have d1 := (c1 Ks Ks' hcs hts hKs hKs' hbs).1
  have d2 := (c2 Kp Kp' hcp htp hKp hKp' hbp).1
  rw [← hα] at d2
  rw [← hβ] at d1
  obtain ⟨f1, f2⟩ := C141_isotropic (C141_machine round53_rel round53_odd (by norm_num)) (by norm_num) r hJ hE hx hy α β d2 d1 hs
  rw [hJ']
  constructor
  · refine f1.trans ?_
    rw [mul_add]
    gcongr
    norm_num
  · intro g1 g2 g3
    obtain ⟨n, hn⟩ := f2 g1 g2 g3
    refine ⟨n, hn.trans ?_⟩
    rw [mul_add, add_assoc]
    gcongr
    norm_num

/-- The hypotheses are met: light at 45 degrees falls straight on glass. Psi is 45 degrees, and double precision gives it within a millionth. -/
example : |(roundedAngles round53).psi !![((roundedMachine round53).coefficients 3 (1, 0) (3 / 2, 0) []).1, 0;
      0, ((roundedMachine round53).coefficients 3 (1, 0) (3 / 2, 0) []).2.1] ![1, 1] - 45| ≤ 1 / 10 ^ 6 := by
  have hM : coefficients2x2 3 (1, 0) (3 / 2, 0) [] = (1 / 5, -1 / 5, 4 / 5, 4 / 5) := by
    unfold coefficients2x2 loop2x2 nextMedium interfaceMatrix fresnel
    ext <;> simp <;> norm_num
  have hc : ∀ pol : Spec.Pol, pol = Spec.sPol ∨ pol = Spec.pPol → Spec.Conditioned pol 2 (Spec.media (1, 0) (3 / 2, 0) []) ∧
      Spec.interfaceCond pol (1, 0) (3 / 2, 0) = 1 := by
    rintro pol (rfl | rfl) <;> constructor
    · unfold Spec.Conditioned Spec.media
      simp only [List.map_nil, List.nil_append, List.cons_append, List.isChain_cons_cons, List.isChain_singleton, and_true]
      refine ⟨by simp, by simp [Spec.sPol]; norm_num, C138_quadrant _ _ _ ?_ ?_⟩ <;> (simp [Spec.sPol]; try norm_num)
    · simp [Spec.interfaceCond, Spec.sPol]
      rw [show (1 + 3 / 2 : ℂ) = ((5 / 2 : ℝ) : ℂ) by push_cast; norm_num, norm_real]
      norm_num
    · unfold Spec.Conditioned Spec.media
      simp only [List.map_nil, List.nil_append, List.cons_append, List.isChain_cons_cons, List.isChain_singleton, and_true]
      refine ⟨by simp, by simp [Spec.pPol]; norm_num, C138_quadrant _ _ _ ?_ ?_⟩ <;> (simp [Spec.pPol]; try norm_num)
    · simp [Spec.interfaceCond, Spec.pPol]
      rw [show (3 / 2 + 1 : ℂ) = ((5 / 2 : ℝ) : ℂ) by push_cast; norm_num, norm_real]
      norm_num
  obtain ⟨i1, i2⟩ := C138_interface 3 (1, 0) (3 / 2, 0) (by simp)
  rw [hM, (hc _ (Or.inl rfl)).2] at i1
  rw [hM, (hc _ (Or.inr rfl)).2] at i2
  obtain ⟨s1, s2⟩ := i1 (by simp [Spec.sPol]; norm_num)
  obtain ⟨p1, p2⟩ := i2 (by simp [Spec.pPol]; norm_num)
  obtain ⟨r, hr⟩ : ∃ r : Result, r = Result.mk' !![1 / 5, 0; 0, -1 / 5] 0 none ![1, 1] := ⟨_, rfl⟩
  have hJ : r.jr = !![1 / 5, 0; 0, -1 / 5] := by rw [hr]; rfl
  have hE : r.jones = ![1, 1] := by rw [hr]; rfl
  have n1 : ‖(1 / 5 : ℂ)‖ = 1 / 5 := by simp
  have n2 : ‖(-1 / 5 : ℂ)‖ = 1 / 5 := by simp
  have key := (C141_double (lbda := 3) (by norm_num) (1, 0) (3 / 2, 0) [] (by simp) (by simp [Spec.totalPhase]) _ _ _ _ hM (by norm_num) (by norm_num)
    (hc _ (Or.inl rfl)).1 (hc _ (Or.inr rfl)).1 1 1 1 1 p1.symm p2.symm s1.symm s2.symm (by norm_num) (by norm_num) (4 / 10 ^ 10) (4 / 10 ^ 10)
    (by norm_num) (by norm_num) (by rw [n2]; norm_num) r hJ hE one_ne_zero one_ne_zero _ rfl).1
  have hpsi : r.psi = 45 := by
    rw [psi_behind r (by rw [hJ]; simp), hJ, hE]
    simp [behind, rad2deg]
    field_simp
    norm_num
  rw [hpsi, hE] at key
  refine key.trans ?_
  rw [mul_one, mul_one, n1, n2, norm_one, mul_one, ← two_mul, ← two_mul, Real.sqrt_mul (by norm_num), Real.sqrt_mul (by norm_num),
    mul_div_mul_left _ _ (by norm_num), Real.sqrt_sq (by norm_num), Real.sqrt_sq (by norm_num)]
  norm_num

end PyElli
