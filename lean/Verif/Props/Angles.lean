import Verif.Model.Angles
import Verif.Model.Result
import Verif.Spec.Angles
import Verif.Lemmas.Angles
import Mathlib.Tactic

/-! # Delta ranges and ellipsometric angles (C01 - C04) -/

namespace PyElli

open Spec

/-- The numeric value denoted by a Python number, if it is one. -/
def Denotes : PyNum → ℝ → Prop
  | .int i, x => x = i
  | .float y, x => x = y
  | .other, _ => False

/-! ## C01: which delta ranges are accepted -/

/-- C01: exactly the documented ranges are accepted (with at least one `int` among the bounds). -/
theorem C01_delta_range_accepts_iff (lower upper : PyNum) (r : DeltaRange) :
    mkDeltaRange lower upper = .ok r ↔
      (lower.isInt = true ∨ upper.isInt = true) ∧ Denotes lower r.lower ∧ Denotes upper r.upper ∧
        ValidRange r.lower r.upper := by
  obtain ⟨rl, ru⟩ := r
  cases lower <;> cases upper <;>
    simp only [mkDeltaRange, PyNum.isInt, PyNum.toReal, Except.bind, Denotes, Bool.or_true,
      Bool.or_false, Bool.not_true, Bool.not_false, if_true, if_false, Bool.false_eq_true,
      spanCheck_iff, reduceCtorEq, false_and, and_false, true_and, or_true, true_or, or_self]
  split_ifs <;> simp

/-- C01: every accepted range has integer bounds, whatever the Python types were. -/
theorem C01_accepted_bounds_are_integers (lower upper : PyNum) (r : DeltaRange)
    (h : mkDeltaRange lower upper = .ok r) : ∃ a b : ℤ, r.lower = a ∧ r.upper = b := by
  obtain ⟨hi, hl, hu, hv⟩ := (C01_delta_range_accepts_iff _ _ _).1 h
  rcases hv with ⟨h1, h2⟩ | ⟨_, _, h3⟩
  · exact ⟨0, 180, by simpa using h1, by simpa using h2⟩
  · rcases hi with hi | hi
    · cases lower <;> simp [PyNum.isInt] at hi
      rename_i i
      exact ⟨i, i + 360, hl, by rw [h3, hl]; push_cast; ring⟩
    · cases upper <;> simp [PyNum.isInt] at hi
      rename_i i
      refine ⟨i - 360, i, ?_, hu⟩
      have : r.upper = i := hu
      push_cast
      linarith

/-- C01: rejected bounds raise `TypeError` exactly when no bound is an `int` or a needed comparison meets a
non-number; every other rejection is a `ValueError`. -/
theorem C01_delta_range_type_error_iff (lower upper : PyNum) :
    mkDeltaRange lower upper = .error .typeError ↔
      (lower.isInt = false ∧ upper.isInt = false) ∨ lower = .other ∨
        (upper = .other ∧ ∃ x, Denotes lower x ∧ -360 ≤ x ∧ x ≤ 0) := by
  cases lower <;> cases upper <;>
    simp only [mkDeltaRange, PyNum.isInt, PyNum.toReal, Except.bind, Denotes] <;>
    split_ifs <;> simp_all <;> grind

/-- C01: a refused range raises `TypeError` or `ValueError`, nothing else. -/
theorem C01_delta_range_error_kinds (lower upper : PyNum) (e : PyErr)
    (h : mkDeltaRange lower upper = .error e) : e = .typeError ∨ e = .valueError := by
  revert h
  cases lower <;> cases upper <;>
    simp only [mkDeltaRange, PyNum.isInt, PyNum.toReal, Except.bind] <;>
    split_ifs <;> simp_all <;> grind

/-- Documentation claims a `TypeError` as soon as *either* bound is not an `int`
(`result.py:448`); the code accepts `DeltaRange(0, 360.0)`. -/
theorem C01_type_error_documentation_refuted :
    ¬ ∀ lower upper, (lower.isInt = false ∨ upper.isInt = false) →
      mkDeltaRange lower upper = .error .typeError := by
  intro h
  have h1 := h (.int 0) (.float 360) (Or.inr rfl)
  have h2 : mkDeltaRange (.int 0) (.float 360) = .ok ⟨0, 360⟩ := by
    rw [C01_delta_range_accepts_iff]
    refine ⟨Or.inl rfl, by simp [Denotes], rfl, Or.inr ⟨by norm_num, by norm_num, by norm_num⟩⟩
  rw [h2] at h1
  cases h1

example : mkDeltaRange (.int (-90)) (.int 270) = .ok ⟨-90, 270⟩ := by
  rw [C01_delta_range_accepts_iff]
  exact ⟨Or.inl rfl, by norm_num [Denotes], by norm_num [Denotes],
    Or.inr ⟨by norm_num, by norm_num, by norm_num⟩⟩

/-! ## C02: `convert_delta_range` -/

/-- C02: conversion fails exactly when the range is rejected, with the same error. -/
theorem C02_convert_errors (d : ℝ) (lower upper : PyNum) (e : PyErr) :
    convertDeltaRange d lower upper = .error e ↔ mkDeltaRange lower upper = .error e := by
  unfold convertDeltaRange
  cases mkDeltaRange lower upper <;> simp [Except.map]

/-- C02: the result lies in the requested window. -/
theorem C02_convert_in_window (d y : ℝ) (lower upper : PyNum) (r : DeltaRange)
    (hr : mkDeltaRange lower upper = .ok r) (h : convertDeltaRange d lower upper = .ok y) :
    InWindow r.lower y := by
  unfold convertDeltaRange at h
  rw [hr] at h
  cases h
  exact shiftDelta_window d r

/-- C02: the result is the input angle shifted by twice the lower bound, for every range. -/
theorem C02_convert_shift (d y : ℝ) (lower upper : PyNum) (r : DeltaRange)
    (hr : mkDeltaRange lower upper = .ok r) (h : convertDeltaRange d lower upper = .ok y) :
    SameAngle y (d + 2 * r.lower) := by
  unfold convertDeltaRange at h
  rw [hr] at h
  cases h
  exact shiftDelta_eq d r

/-- C02: the angle is preserved exactly for the lower bounds that are multiples of 180 degrees. -/
theorem C02_convert_same_angle_iff (d y : ℝ) (lower upper : PyNum) (r : DeltaRange)
    (hr : mkDeltaRange lower upper = .ok r) (h : convertDeltaRange d lower upper = .ok y) :
    SameAngle y d ↔ (r.lower = 0 ∨ r.lower = -180 ∨ r.lower = -360) := by
  obtain ⟨k, hk⟩ := C02_convert_shift d y lower upper r hr h
  have hv := ((C01_delta_range_accepts_iff _ _ _).1 hr).2.2.2
  have hb : -360 ≤ r.lower ∧ r.lower ≤ 0 := by
    rcases hv with ⟨h1, _⟩ | ⟨h1, h2, _⟩
    · rw [h1]; norm_num
    · exact ⟨h1, h2⟩
  constructor
  · rintro ⟨m, hm⟩
    have e : r.lower = 180 * ((m - k : ℤ) : ℝ) := by
      push_cast
      linarith
    have l1 : (-2 : ℝ) ≤ ((m - k : ℤ) : ℝ) := by linarith [hb.1]
    have l2 : ((m - k : ℤ) : ℝ) ≤ 0 := by linarith [hb.2]
    have l1' : -2 ≤ m - k := by exact_mod_cast l1
    have l2' : m - k ≤ 0 := by exact_mod_cast l2
    have : m - k = 0 ∨ m - k = -1 ∨ m - k = -2 := by omega
    rcases this with h0 | h0 | h0 <;> rw [h0] at e <;> norm_num at e <;> tauto
  · rintro (h0 | h0 | h0)
    · exact ⟨k, by rw [hk, h0]; ring⟩
    · exact ⟨k - 1, by rw [hk, h0]; push_cast; ring⟩
    · exact ⟨k - 2, by rw [hk, h0]; push_cast; ring⟩

/-- C02, the claim for the ranges whose lower bound is 0, -180 or -360. Missing: every other valid
lower bound, where the claim is false (`C02_convert_same_angle_refuted`). -/
theorem C02_convert_same_angle_partial (d : ℝ) (lower upper : PyNum) (r : DeltaRange)
    (hr : mkDeltaRange lower upper = .ok r)
    (hl : r.lower = 0 ∨ r.lower = -180 ∨ r.lower = -360) :
    ∃ y, convertDeltaRange d lower upper = .ok y ∧ InWindow r.lower y ∧ SameAngle y d := by
  have h : convertDeltaRange d lower upper = .ok (shiftDelta d r) := by
    unfold convertDeltaRange
    rw [hr]
    rfl
  exact ⟨_, h, C02_convert_in_window d _ _ _ r hr h,
    (C02_convert_same_angle_iff d _ _ _ r hr h).2 hl⟩

example : mkDeltaRange (.int (-180)) (.int 180) = .ok ⟨-180, 180⟩ ∧
    ((⟨-180, 180⟩ : DeltaRange).lower = 0 ∨ (⟨-180, 180⟩ : DeltaRange).lower = -180 ∨
      (⟨-180, 180⟩ : DeltaRange).lower = -360) := by
  refine ⟨?_, Or.inr (Or.inl rfl)⟩
  rw [C01_delta_range_accepts_iff]
  exact ⟨Or.inl rfl, by norm_num [Denotes], by norm_num [Denotes],
    Or.inr ⟨by norm_num, by norm_num, by norm_num⟩⟩

lemma range_m90 : mkDeltaRange (.int (-90)) (.int 270) = .ok ⟨-90, 270⟩ := by
  rw [C01_delta_range_accepts_iff]
  exact ⟨Or.inl rfl, by norm_num [Denotes], by norm_num [Denotes],
    Or.inr ⟨by norm_num, by norm_num, by norm_num⟩⟩

/-- C02 is false in general: with the range (-90, 270) *every* angle is turned by 180 degrees. -/
theorem C02_convert_same_angle_refuted :
    ∀ d : ℝ, ∃ y, convertDeltaRange d (.int (-90)) (.int 270) = .ok y ∧ ¬ SameAngle y d ∧
      SameAngle y (d + 180) := by
  intro d
  have h : convertDeltaRange d (.int (-90)) (.int 270) = .ok (shiftDelta d ⟨-90, 270⟩) := by
    unfold convertDeltaRange
    rw [range_m90]
    rfl
  refine ⟨_, h, ?_, ?_⟩
  · rw [C02_convert_same_angle_iff d _ _ _ _ range_m90 h]
    norm_num
  · obtain ⟨k, hk⟩ := C02_convert_shift d _ _ _ _ range_m90 h
    exact ⟨k - 1, by rw [hk]; push_cast; ring⟩

/-! ## C03: psi and delta reproduce rho -/

/-- `calc_rho` solves the ellipsometric equation. -/
theorem C03_calc_rho_spec (rho : ℂ) (psi delta : ℝ) :
    calcRho psi delta = rho ↔ EllipsometricEq rho psi delta := by
  have e : Complex.exp (-Complex.I * (deg2rad delta : ℂ)) =
      Complex.ofReal (Real.cos (delta * Real.pi / 180)) -
        Complex.I * Complex.ofReal (Real.sin (delta * Real.pi / 180)) := by
    have h : (-Complex.I * (deg2rad delta : ℂ)) =
        ((-(delta * Real.pi / 180) : ℝ) : ℂ) * Complex.I := by
      unfold deg2rad
      push_cast
      ring
    rw [h, Complex.exp_mul_I, ← Complex.ofReal_cos, ← Complex.ofReal_sin, Real.cos_neg, Real.sin_neg]
    push_cast
    ring
  unfold calcRho EllipsometricEq
  rw [e]
  have h2 : deg2rad psi = psi * Real.pi / 180 := by unfold deg2rad; ring
  rw [h2]
  exact eq_comm

/-- C03, general law: for every result and every range, `calc_rho(psi, delta)` is `rho` times
`exp(-2 i lower)`. -/
theorem C03_round_trip_factor (res' : Result) :
    calcRho res'.psi res'.delta =
      res'.rho * Complex.exp (-Complex.I * ((2 * res'.range.lower * Real.pi / 180 : ℝ) : ℂ)) := by
  have := calcRho_psi_delta res'.range res'.rho
  rw [show deg2rad (2 * res'.range.lower) = 2 * res'.range.lower * Real.pi / 180 by
    unfold deg2rad; ring] at this
  exact this

/-- C03 for every range whose lower bound is a multiple of 180 degrees, in particular (0, 180), (0, 360)
and the default (-180, 180). Missing: the other lower bounds, where the claim is false
(`C03_round_trip_refuted`). -/
theorem C03_round_trip_partial (res : Result) (k : ℤ) (h : res.range.lower = 180 * k) :
    EllipsometricEq res.rho res.psi res.delta := by
  rw [← C03_calc_rho_spec]
  have := calcRho_psi_delta res.range res.rho
  rw [(exp_deg_eq_one_iff _).2 ⟨k, h⟩, mul_one] at this
  exact this

/-- The default range of a fresh result satisfies the hypothesis of `C03_round_trip_partial`. -/
theorem C03_round_trip_default (jr jt : Mat2) (power : Option ℝ) (jones : Fin 2 → ℂ) :
    let res := Result.mk' jr jt power jones
    EllipsometricEq res.rho res.psi res.delta :=
  C03_round_trip_partial _ (-1) (by simp [Result.mk'])

/-- C03: for a nonzero ratio the round trip holds *only* for those ranges. -/
theorem C03_round_trip_iff (res : Result) (hz : res.rho ≠ 0) :
    EllipsometricEq res.rho res.psi res.delta ↔ ∃ k : ℤ, res.range.lower = 180 * k := by
  rw [← C03_calc_rho_spec, ← exp_deg_eq_one_iff]
  have := calcRho_psi_delta res.range res.rho
  change calcRho res.psi res.delta = _ at this
  rw [this]
  constructor
  · intro h
    exact mul_left_cancel₀ hz (by rw [h, mul_one])
  · intro h
    rw [h, mul_one]

/-- A concrete sample: `r_pp = 2, r_ss = 1`, diagonal light. -/
noncomputable def sampleResult : Result := Result.mk' !![2, 0; 0, 1] 1 none ![1, 1]

lemma sample_ratio : ratioOf (rhoMatrix sampleResult.jr) sampleResult.jones = 2 := by
  simp [ratioOf, rhoMatrix, sampleResult, Result.mk', Matrix.mulVec, dotProduct, Fin.sum_univ_two]

/-- C03 is false for (-90, 270): `calc_rho(psi, delta)` is `-rho`. -/
theorem C03_round_trip_refuted :
    ∃ res', sampleResult.asDeltaRange (.int (-90)) (.int 270) = .ok res' ∧ res'.rho = 2 ∧
      calcRho res'.psi res'.delta = -2 ∧ ¬ EllipsometricEq res'.rho res'.psi res'.delta := by
  refine ⟨{ sampleResult with range := ⟨-90, 270⟩ }, ?_, ?_, ?_⟩
  · unfold Result.asDeltaRange
    rw [range_m90]
    rfl
  · have := sample_ratio
    simp only [Result.rho, foldRho]
    rw [if_neg (by norm_num)]
    exact this
  · set res' : Result := { sampleResult with range := ⟨-90, 270⟩ } with hres
    have hr : res'.rho = 2 := by
      have := sample_ratio
      simp only [Result.rho, foldRho, hres]
      rw [if_neg (by norm_num)]
      exact this
    have h := calcRho_psi_delta res'.range res'.rho
    change calcRho res'.psi res'.delta = _ at h
    have he : Complex.exp (-Complex.I * (deg2rad (2 * res'.range.lower) : ℂ)) = -1 := by
      have : (-Complex.I * (deg2rad (2 * res'.range.lower) : ℂ)) = Real.pi * Complex.I := by
        simp only [hres, deg2rad]
        push_cast
        ring
      rw [this, Complex.exp_pi_mul_I]
    rw [he, hr] at h
    have h2 : calcRho res'.psi res'.delta = -2 := by rw [h]; ring
    refine ⟨h2, ?_⟩
    rw [← C03_calc_rho_spec, h2, hr]
    norm_num

/-! ## C04: windows of psi and delta -/

/-- C04: `psi` lies in [0, 90) and its tangent is `|rho|`. -/
theorem C04_psi_window (res : Result) :
    0 ≤ res.psi ∧ res.psi < 90 ∧ Real.tan (res.psi * Real.pi / 180) = ‖res.rho‖ := by
  have hpi := Real.pi_pos
  refine ⟨?_, ?_, ?_⟩
  · unfold Result.psi psiOf rad2deg
    exact mul_nonneg (Real.arctan_nonneg.2 (norm_nonneg _)) (by positivity)
  · unfold Result.psi psiOf rad2deg
    have := Real.arctan_lt_pi_div_two ‖res.rho‖
    calc Real.arctan ‖res.rho‖ * (180 / Real.pi) < Real.pi / 2 * (180 / Real.pi) := by
          apply mul_lt_mul_of_pos_right this (by positivity)
      _ = 90 := by field_simp; norm_num
  · have := tan_psiOf res.rho
    unfold Result.psi
    rw [← this]
    unfold deg2rad
    ring_nf

/-- C04: `delta` lies in the window of the chosen range. -/
theorem C04_delta_window (res : Result) : InWindow res.range.lower res.delta :=
  shiftDelta_window _ _

/-- C04: with the range (0, 180), `delta` lies in [0, 180]. -/
theorem C04_delta_folded (res : Result) (h0 : res.range.lower = 0) (h1 : res.range.upper = 180) :
    0 ≤ res.delta ∧ res.delta ≤ 180 := by
  have hpi := Real.pi_pos
  refine ⟨by have := (C04_delta_window res).1; rwa [h0] at this, ?_⟩
  have him : res.rho.im ≤ 0 := by
    unfold Result.rho foldRho
    rw [if_pos ⟨h0, h1⟩]
    simp
  unfold Result.delta deltaOf shiftDelta npMod
  rw [h0, add_zero, add_zero]
  set a := Complex.arg res.rho with ha
  have hcase : (-Real.pi < a ∧ a ≤ 0) ∨ a = Real.pi := by
    by_cases hz : res.rho.im < 0
    · left
      exact ⟨Complex.neg_pi_lt_arg _, (Complex.arg_neg_iff.2 hz).le⟩
    · have hz0 : res.rho.im = 0 := le_antisymm him (not_lt.1 hz)
      by_cases hre : 0 ≤ res.rho.re
      · left
        have : a = 0 := Complex.arg_eq_zero_iff.2 ⟨hre, hz0⟩
        rw [this]
        exact ⟨by linarith, le_refl _⟩
      · right
        exact Complex.arg_eq_pi_iff.2 ⟨not_le.1 hre, hz0⟩
  rcases hcase with ⟨hl, hu⟩ | hp
  · have h1 : 0 ≤ -(rad2deg a) := by
      unfold rad2deg
      have : a * (180 / Real.pi) ≤ 0 := mul_nonpos_of_nonpos_of_nonneg hu (by positivity)
      linarith
    have h2 : -(rad2deg a) < 180 := by
      unfold rad2deg
      have : -Real.pi * (180 / Real.pi) < a * (180 / Real.pi) :=
        mul_lt_mul_of_pos_right hl (by positivity)
      have e : -Real.pi * (180 / Real.pi) = -180 := by field_simp
      linarith
    have hf : ⌊-(rad2deg a) / 360⌋ = 0 := by
      rw [Int.floor_eq_zero_iff]
      constructor
      · positivity
      · rw [div_lt_one (by norm_num)]
        linarith
    rw [hf]
    push_cast
    linarith
  · have e : rad2deg a = 180 := by
      rw [hp]
      unfold rad2deg
      field_simp
    have hf : ⌊-(rad2deg a) / 360⌋ = -1 := by
      rw [e, Int.floor_eq_iff]
      constructor <;> norm_num
    rw [hf, e]
    norm_num

/-- C04: choosing another delta range never changes `psi`. -/
theorem C04_psi_independent_of_range (res res' : Result) (lower upper : PyNum)
    (h : res.asDeltaRange lower upper = .ok res') : res'.psi = res.psi := by
  have hn : ∀ (r : DeltaRange) (z : ℂ), ‖foldRho r z‖ = ‖z‖ := by
    intro r z
    unfold foldRho
    split_ifs
    · rw [← sq_eq_sq₀ (norm_nonneg _) (norm_nonneg _), ← Complex.normSq_eq_norm_sq,
        ← Complex.normSq_eq_norm_sq, Complex.normSq_apply, Complex.normSq_apply]
      simp
    · rfl
  unfold Result.asDeltaRange at h
  cases hm : mkDeltaRange lower upper with
  | error e => rw [hm] at h; cases h
  | ok r =>
    rw [hm] at h
    cases h
    unfold Result.psi psiOf Result.rho
    rw [hn, hn]

/-- C04: the `ss` entries of the matrices are 45 degrees and 0 degrees (default range), as
documented in `result.py:173, 197`. -/
theorem C04_matrix_ss (jr jt : Mat2) (power : Option ℝ) (jones : Fin 2 → ℂ) (h : jr 1 1 ≠ 0) :
    (Result.mk' jr jt power jones).psiMatrix 1 1 = 45 ∧
      (Result.mk' jr jt power jones).deltaMatrix 1 1 = 0 := by
  have hpi := Real.pi_pos
  constructor
  · simp only [Result.psiMatrix, Result.mk', rhoMatrix, div_self h, psiOf, norm_one,
      Real.arctan_one, rad2deg]
    field_simp
    norm_num
  · simp only [Result.deltaMatrix, Result.mk', rhoMatrix, div_self h, deltaOf, Complex.arg_one,
      rad2deg, shiftDelta, npMod]
    have : ⌊((-(0 * (180 / Real.pi)) + -180) / 360 : ℝ)⌋ = -1 := by
      rw [Int.floor_eq_iff]
      constructor <;> norm_num
    rw [this]
    norm_num

/-- C04: every entry of `psi_matrix` is in [0, 90) and every entry of `delta_matrix` in the 360 degree
window. Missing: folding of `delta_matrix` for (0, 180), which the code does not do. -/
theorem C04_matrix_windows_partial (res : Result) (i j : Fin 2) :
    0 ≤ res.psiMatrix i j ∧ res.psiMatrix i j < 90 ∧
      InWindow res.range.lower (res.deltaMatrix i j) := by
  have hpi := Real.pi_pos
  refine ⟨?_, ?_, shiftDelta_window _ _⟩
  · unfold Result.psiMatrix psiOf rad2deg
    exact mul_nonneg (Real.arctan_nonneg.2 (norm_nonneg _)) (by positivity)
  · unfold Result.psiMatrix psiOf rad2deg
    have := Real.arctan_lt_pi_div_two ‖rhoMatrix res.jr i j‖
    calc Real.arctan ‖rhoMatrix res.jr i j‖ * (180 / Real.pi) < Real.pi / 2 * (180 / Real.pi) := by
          apply mul_lt_mul_of_pos_right this (by positivity)
      _ = 90 := by field_simp; norm_num

/-- C04 is false for `delta_matrix` with the range (0, 180): `r_pp = i, r_ss = 1` gives
`delta_pp = 270` while `delta = 90`. -/
theorem C04_delta_matrix_refuted :
    let res : Result := ⟨!![Complex.I, 0; 0, 1], 1, 1, ![1, 1], ⟨0, 180⟩⟩
    res.deltaMatrix 0 0 = 270 ∧ res.delta = 90 := by
  intro res
  have hpi := Real.pi_pos
  have e1 : rad2deg (Real.pi / 2) = 90 := by
    unfold rad2deg
    field_simp
    norm_num
  have e2 : rad2deg (-(Real.pi / 2)) = -90 := by
    have := e1
    unfold rad2deg at *
    linarith
  constructor
  · simp only [res, Result.deltaMatrix, rhoMatrix, deltaOf]
    simp only [Matrix.of_apply, Matrix.cons_val', Matrix.cons_val_zero, Matrix.cons_val_one,
      Matrix.cons_val_fin_one, div_one, Complex.arg_I, e1, shiftDelta, npMod]
    have : ⌊((-90 + 0) / 360 : ℝ)⌋ = -1 := by
      rw [Int.floor_eq_iff]
      constructor <;> norm_num
    rw [this]
    norm_num
  · have hr : res.rho = -Complex.I := by
      unfold Result.rho foldRho
      rw [if_pos ⟨rfl, rfl⟩]
      have : ratioOf (rhoMatrix res.jr) res.jones = Complex.I := by
        simp [res, ratioOf, rhoMatrix, Matrix.mulVec, dotProduct, Fin.sum_univ_two]
      rw [this]
      apply Complex.ext <;> simp
    unfold Result.delta deltaOf
    rw [hr, Complex.arg_neg_I, e2]
    simp only [res, shiftDelta, npMod]
    have : ⌊((- -90 + 0) / 360 : ℝ)⌋ = 0 := by
      rw [Int.floor_eq_iff]
      constructor <;> norm_num
    rw [this]
    norm_num

end PyElli
