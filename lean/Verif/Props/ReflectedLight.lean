import Verif.Props.Mueller
import Verif.Props.Polarisation

/-! # C115: ψ and Δ describe the polarisation of the reflected or transmitted light -/

namespace Spec

/-- The Stokes parameters, for intensity one, of fully polarised light whose amplitudes satisfy `E_p / E_s = tan ψ exp(-i Δ)`; angles in
degrees. -/
noncomputable def ellipse (psi delta : ℝ) : Fin 4 → ℝ :=
  ![1, -Real.cos (2 * (psi * Real.pi / 180)), Real.sin (2 * (psi * Real.pi / 180)) * Real.cos (delta * Real.pi / 180),
    Real.sin (2 * (psi * Real.pi / 180)) * Real.sin (delta * Real.pi / 180)]

/-- The amplitudes behind the sample: its Jones matrix applied to those of the incident light. -/
noncomputable def behind (J : Matrix (Fin 2) (Fin 2) ℂ) (E : Fin 2 → ℂ) : ℂ × ℂ :=
  (J 0 0 * E 0 + J 0 1 * E 1, J 1 0 * E 0 + J 1 1 * E 1)

end Spec

namespace PyElli

open Complex Matrix Spec

/-- The ratio of the reduced matrix is that of the amplitudes. -/
lemma ratioOf_behind (J : Mat2) (E : Fin 2 → ℂ) (h : J 1 1 ≠ 0) : ratioOf (rhoMatrix J) E = (behind J E).1 / (behind J E).2 := by
  simp only [ratioOf, rhoMatrix, Matrix.mulVec, dotProduct, Fin.sum_univ_two, behind]
  rw [show J 0 0 / J 1 1 * E 0 + J 0 1 / J 1 1 * E 1 = (J 0 0 * E 0 + J 0 1 * E 1) / J 1 1 by ring,
    show J 1 0 / J 1 1 * E 0 + J 1 1 / J 1 1 * E 1 = (J 1 0 * E 0 + J 1 1 * E 1) / J 1 1 by ring, div_div_div_cancel_right₀ h]

lemma cos_psi_pos {psi : ℝ} (h0 : 0 ≤ psi) (h1 : psi < 90) : 0 < Real.cos (psi * Real.pi / 180) := by
  have hpi := Real.pi_pos
  apply Real.cos_pos_of_mem_Ioo
  constructor
  · have : 0 ≤ psi * Real.pi / 180 := by positivity
    linarith
  · nlinarith

/-- Stokes parameters of amplitudes with a given ratio. -/
lemma stokes_of_ratio {x y rho : ℂ} {psi delta : ℝ} (hy : y ≠ 0) (hrho : rho = x / y) (h0 : 0 ≤ psi) (h1 : psi < 90)
    (hE : EllipsometricEq rho psi delta) (i : Fin 4) : Spec.stokes x y i = Spec.stokes x y 0 * ellipse psi delta i := by
  have hc := cos_psi_pos h0 h1
  have hx : x = y * rho := by rw [hrho]; field_simp
  unfold EllipsometricEq at hE
  rw [Real.tan_eq_sin_div_cos] at hE
  have hc2 := Real.sin_sq_add_cos_sq (psi * Real.pi / 180)
  have hd2 := Real.sin_sq_add_cos_sq (delta * Real.pi / 180)
  have e1 := Real.cos_two_mul (psi * Real.pi / 180)
  have e2 := Real.sin_two_mul (psi * Real.pi / 180)
  rw [stokes_explicit]
  simp only [ellipse, e1, e2]
  clear e1 e2
  generalize Real.sin (psi * Real.pi / 180) = s at hE hc2 ⊢
  generalize Real.cos (psi * Real.pi / 180) = c at hE hc2 hc ⊢
  generalize Real.sin (delta * Real.pi / 180) = sd at hE hd2 ⊢
  generalize Real.cos (delta * Real.pi / 180) = cd at hE hd2 ⊢
  have hne : c ≠ 0 := hc.ne'
  obtain ⟨u, hu⟩ : ∃ u, y.re = c * u := ⟨y.re / c, by field_simp⟩
  obtain ⟨v, hv⟩ : ∃ v, y.im = c * v := ⟨y.im / c, by field_simp⟩
  have hre : x.re = s * (u * cd + v * sd) := by
    rw [hx, hE]
    simp [hu, hv]
    field_simp
  have him : x.im = s * (v * cd - u * sd) := by
    rw [hx, hE]
    simp [hu, hv]
    field_simp
    ring
  rw [hre, him, hu, hv]
  have hsum : (s * (u * cd + v * sd)) ^ 2 + (s * (v * cd - u * sd)) ^ 2 = s ^ 2 * (u ^ 2 + v ^ 2) := by
    linear_combination (s ^ 2 * (u ^ 2 + v ^ 2)) * hd2
  have hall : (s * (u * cd + v * sd)) ^ 2 + (s * (v * cd - u * sd)) ^ 2 + ((c * u) ^ 2 + (c * v) ^ 2) = u ^ 2 + v ^ 2 := by
    rw [hsum]
    linear_combination (u ^ 2 + v ^ 2) * hc2
  fin_cases i
  · simp
  · simp only [Fin.mk_one, cons_val_one, cons_val_zero]
    rw [hall, hsum]
    linear_combination (u ^ 2 + v ^ 2) * hc2
  · simp
    rw [hall]
    ring
  · simp
    rw [hall]
    ring

/-- Stokes parameters in terms of the ratio. -/
lemma stokes_ratio (r y : ℂ) : Spec.stokes (y * r) y =
    ![(y.re ^ 2 + y.im ^ 2) * (r.re ^ 2 + r.im ^ 2 + 1), (y.re ^ 2 + y.im ^ 2) * (r.re ^ 2 + r.im ^ 2 - 1), (y.re ^ 2 + y.im ^ 2) * (2 * r.re),
      (y.re ^ 2 + y.im ^ 2) * (-2 * r.im)] := by
  rw [stokes_explicit]
  ext i
  fin_cases i <;> simp <;> ring

/-- C115: the reflected light. For every sample and every incident light, and every range of Δ that starts at a multiple of 180 degrees other
than (0, 180): the Stokes parameters of the reflected light (differences of intensities behind analysers) are those of the ellipse given
by `psi` and `delta`, times the intensity. Reflected light without s component has no ratio. Missing: the other ranges, where it is false
(`C115_range_refuted`); for (0, 180) see `C115_folded`. -/
theorem C115_reflected_partial (res : Result) (k : ℤ) (hk : res.range.lower = 180 * k) (hf : ¬ (res.range.lower = 0 ∧ res.range.upper = 180))
    (hss : res.jr 1 1 ≠ 0) (hs : (behind res.jr res.jones).2 ≠ 0) (i : Fin 4) :
    Spec.stokes (behind res.jr res.jones).1 (behind res.jr res.jones).2 i =
      Spec.stokes (behind res.jr res.jones).1 (behind res.jr res.jones).2 0 * ellipse res.psi res.delta i := by
  obtain ⟨h0, h1, -⟩ := C04_psi_window res
  refine stokes_of_ratio hs ?_ h0 h1 (C03_round_trip_partial res k hk) i
  rw [Result.rho, foldRho, if_neg hf, ratioOf_behind _ _ hss]

/-- The same for the transmitted light. -/
theorem C115_transmitted_partial (res : Result) (k : ℤ) (hk : res.range.lower = 180 * k) (hf : ¬ (res.range.lower = 0 ∧ res.range.upper = 180))
    (hss : res.jt 1 1 ≠ 0) (hs : (behind res.jt res.jones).2 ≠ 0) (i : Fin 4) :
    Spec.stokes (behind res.jt res.jones).1 (behind res.jt res.jones).2 i =
      Spec.stokes (behind res.jt res.jones).1 (behind res.jt res.jones).2 0 * ellipse res.psiT res.deltaT i :=
  C115_reflected_partial { res with jr := res.jt } k hk hf hss hs i

/-- C115: with the range (0, 180) the handedness is dropped, as documented; everything else is the same. -/
theorem C115_folded (res : Result) (h0 : res.range.lower = 0) (h1 : res.range.upper = 180)
    (hss : res.jr 1 1 ≠ 0) (hs : (behind res.jr res.jones).2 ≠ 0) (i : Fin 4) :
    (if i = 3 then |Spec.stokes (behind res.jr res.jones).1 (behind res.jr res.jones).2 3|
      else Spec.stokes (behind res.jr res.jones).1 (behind res.jr res.jones).2 i) =
      Spec.stokes (behind res.jr res.jones).1 (behind res.jr res.jones).2 0 * ellipse res.psi res.delta i := by
  obtain ⟨p0, p1, -⟩ := C04_psi_window res
  generalize hx : (behind res.jr res.jones).1 = x
  generalize hy : (behind res.jr res.jones).2 = y at hs
  have hrho : res.rho = ⟨(x / y).re, -|(x / y).im|⟩ := by
    rw [Result.rho, foldRho, if_pos ⟨h0, h1⟩, ratioOf_behind _ _ hss, hx, hy]
  have hE := C03_round_trip_partial res 0 (by rw [h0]; simp)
  have hxy : x = y * (x / y) := by field_simp
  generalize x / y = r at hrho hxy
  have h := stokes_of_ratio (x := y * res.rho) hs (by field_simp) p0 p1 hE i
  rw [stokes_ratio, hrho] at h
  rw [hxy, stokes_ratio]
  have hn : 0 ≤ y.re ^ 2 + y.im ^ 2 := by positivity
  simp only [neg_sq, sq_abs, cons_val_zero] at h
  simp only [cons_val_zero]
  rw [← h]
  fin_cases i
  · simp
  · simp
  · simp
  · simp [abs_mul, abs_of_nonneg hn]

/-- C115: the same with the Mueller matrix of the sample: applied to the Stokes vector of the incident light it gives a multiple of the
Stokes vector of the ellipse. -/
theorem C115_mueller (jr jt : Mat2) (power : Option ℝ) (a b : ℂ) (hss : jr 1 1 ≠ 0) (hs : jr 1 0 * a + jr 1 1 * b ≠ 0) (i : Fin 4) :
    (muellerMatrix jr).mulVec (Spec.stokes a b) i =
      (muellerMatrix jr).mulVec (Spec.stokes a b) 0 *
        ellipse (Result.mk' jr jt power ![a, b]).psi (Result.mk' jr jt power ![a, b]).delta i := by
  have h := C115_reflected_partial (Result.mk' jr jt power ![a, b]) (-1) (by simp [Result.mk']) (by norm_num [Result.mk']) hss hs i
  simp only [behind, Result.mk', cons_val_zero, cons_val_one] at h
  rw [C11_mueller_acts jr hss, C11_mueller_acts jr hss, h, Result.mk']
  ring

/-- C115 for light given by its Stokes vector: `psi` and `delta` are those of the light that the sample makes of the polarised part. -/
theorem C115_stokes (st : Pol) (s0 s1 s2 s3 : ℝ) (h0 : s0 ≠ 0) (hp : s1 ≠ 0 ∨ s2 ≠ 0 ∨ s3 ≠ 0) (jr jt : Mat2) (power : Option ℝ) (hss : jr 1 1 ≠ 0) :
    ∃ a b, (setVector st (.stokes s0 s1 s2 s3)).jones = .vec a b ∧ (jr 1 0 * a + jr 1 1 * b ≠ 0 → ∃ c : ℝ, ∀ i,
      (muellerMatrix jr).mulVec ![Real.sqrt (s1 ^ 2 + s2 ^ 2 + s3 ^ 2), s1, s2, s3] i =
        c * ellipse (Result.mk' jr jt power ![a, b]).psi (Result.mk' jr jt power ![a, b]).delta i) := by
  obtain ⟨-, a, b, h1, h2⟩ := C06_stokes_round_trip st s0 s1 s2 s3 h0 hp
  refine ⟨a, b, h1, fun hs => ⟨Real.sqrt (s1 ^ 2 + s2 ^ 2 + s3 ^ 2) * (muellerMatrix jr).mulVec (Spec.stokes a b) 0, fun i => ?_⟩⟩
  have hpos : Real.sqrt (s1 ^ 2 + s2 ^ 2 + s3 ^ 2) ≠ 0 := by
    refine (Real.sqrt_pos.2 ?_).ne'
    rcases hp with h | h | h <;> positivity
  have e : ![Real.sqrt (s1 ^ 2 + s2 ^ 2 + s3 ^ 2), s1, s2, s3] = Real.sqrt (s1 ^ 2 + s2 ^ 2 + s3 ^ 2) • Spec.stokes a b := by
    rw [h2]
    ext i
    fin_cases i <;> simp <;> field_simp
  rw [e, Matrix.mulVec_smul, Pi.smul_apply, smul_eq_mul, C115_mueller jr jt power a b hss hs i]
  ring

/-- C115, what a rotating analyser sees: the reflected intensity behind an analyser at the angle `A` (radians) from the p direction. -/
theorem C115_rotating_analyser (jr jt : Mat2) (power : Option ℝ) (a b : ℂ) (hss : jr 1 1 ≠ 0) (hs : jr 1 0 * a + jr 1 1 * b ≠ 0) (A : ℝ) :
    let res := Result.mk' jr jt power ![a, b]
    let psi := res.psi * Real.pi / 180
    let delta := res.delta * Real.pi / 180
    Spec.intensity (Real.cos A) (Real.sin A) (jr 0 0 * a + jr 0 1 * b) (jr 1 0 * a + jr 1 1 * b) =
      (normSq (jr 0 0 * a + jr 0 1 * b) + normSq (jr 1 0 * a + jr 1 1 * b)) / 2 *
        (1 - Real.cos (2 * psi) * Real.cos (2 * A) + Real.sin (2 * psi) * Real.cos delta * Real.sin (2 * A)) := by
  intro res psi delta
  have h := fun i => C115_reflected_partial res (-1) (by simp [res, Result.mk']) (by norm_num [res, Result.mk']) hss hs i
  simp only [behind, res, Result.mk', cons_val_zero, cons_val_one] at h
  generalize jr 0 0 * a + jr 0 1 * b = x at h ⊢
  generalize jr 1 0 * a + jr 1 1 * b = y at h ⊢
  rw [stokes_explicit] at h
  have h1 := h 1
  have h2 := h 2
  simp only [cons_val_one, cons_val_zero, ellipse, cons_val] at h1 h2
  have ep : psi = (Result.psi ⟨jr, jt, power.getD 1, ![a, b], ⟨-180, 180⟩⟩) * Real.pi / 180 := rfl
  have ed : delta = (Result.delta ⟨jr, jt, power.getD 1, ![a, b], ⟨-180, 180⟩⟩) * Real.pi / 180 := rfl
  rw [← ep] at h1 h2
  rw [← ed] at h2
  have hi : Spec.intensity (Real.cos A) (Real.sin A) x y = (Real.cos A * x.re + Real.sin A * y.re) ^ 2 + (Real.cos A * x.im + Real.sin A * y.im) ^ 2 := by
    simp only [Spec.intensity, Complex.conj_ofReal, Complex.normSq_apply, Complex.add_re, Complex.add_im, Complex.re_ofReal_mul, Complex.im_ofReal_mul]
    ring
  rw [hi, Real.cos_two_mul A, Real.sin_two_mul A, Complex.normSq_apply, Complex.normSq_apply]
  have hA := Real.sin_sq_add_cos_sq A
  linear_combination (y.re ^ 2 + y.im ^ 2) * hA + (Real.cos A ^ 2 - 1 / 2) * h1 + (Real.sin A * Real.cos A) * h2

/-- C115: only the state of polarisation of the incident light matters, not its amplitude and phase. -/
theorem C115_same_state (jr jt : Mat2) (power : Option ℝ) (range : DeltaRange) (a b a' b' : ℂ) (h : SameState a b a' b') :
    (Result.mk jr jt (power.getD 1) ![a', b'] range).rho = (Result.mk jr jt (power.getD 1) ![a, b] range).rho ∧
    (Result.mk jr jt (power.getD 1) ![a', b'] range).rhoT = (Result.mk jr jt (power.getD 1) ![a, b] range).rhoT := by
  obtain ⟨c, hc, rfl, rfl⟩ := h
  have key : ∀ M : Mat2, ratioOf M ![c * a, c * b] = ratioOf M ![a, b] := by
    intro M
    simp only [ratioOf, Matrix.mulVec, dotProduct, Fin.sum_univ_two, cons_val_zero, cons_val_one]
    rw [show M 0 0 * (c * a) + M 0 1 * (c * b) = c * (M 0 0 * a + M 0 1 * b) by ring,
      show M 1 0 * (c * a) + M 1 1 * (c * b) = c * (M 1 0 * a + M 1 1 * b) by ring, mul_div_mul_left _ _ hc]
  simp only [Result.rho, Result.rhoT, key, and_self]

/-- C115 without cross polarisation: the ratio of the sample times the ratio of the incident light. -/
theorem C115_isotropic (jr jt : Mat2) (power : Option ℝ) (a b : ℂ) (hss : jr 1 1 ≠ 0) (hps : jr 0 1 = 0) (hsp : jr 1 0 = 0) (hb : b ≠ 0) :
    (Result.mk' jr jt power ![a, b]).rho = jr 0 0 / jr 1 1 * (a / b) := by
  rw [Result.rho, foldRho, if_neg (by norm_num [Result.mk']), Result.mk', ratioOf_behind _ _ hss]
  simp only [behind, cons_val_zero, cons_val_one, hps, hsp, zero_mul, add_zero, zero_add]
  field_simp

/-- Linearly polarised light on a sample with cross polarisation: hypotheses of the theorems above. -/
example : let jr : Mat2 := !![1, 2; 3, 4]
    jr 1 1 ≠ 0 ∧ jr 1 0 * (1 : ℂ) + jr 1 1 * 0 ≠ 0 ∧ (behind jr ![1, 0]).2 ≠ 0 ∧ (-180 : ℝ) = 180 * ((-1 : ℤ) : ℝ) := by
  simp [behind]

/-- C115 fails for ranges that start elsewhere, for example (-90, 270): a mirror with `r_pp = 2 r_ss` and light with `E_p = E_s` gives `Δ = 180`
instead of 0, so that the third Stokes parameter has the wrong sign. -/
theorem C115_range_refuted : ∃ res' : Result, sampleResult.asDeltaRange (.int (-90)) (.int 270) = .ok res' ∧
    behind res'.jr res'.jones = (2, 1) ∧ Spec.stokes (behind res'.jr res'.jones).1 (behind res'.jr res'.jones).2 2 = 4 ∧
    Spec.stokes (behind res'.jr res'.jones).1 (behind res'.jr res'.jones).2 0 * ellipse res'.psi res'.delta 2 = -4 := by
  obtain ⟨res', h1, -, h3, -⟩ := C03_round_trip_refuted
  have hb : behind res'.jr res'.jones = (2, 1) := by
    unfold Result.asDeltaRange at h1
    rw [range_m90] at h1
    cases h1
    simp [behind, sampleResult, Result.mk']
  obtain ⟨p0, p1, -⟩ := C04_psi_window res'
  have h := stokes_of_ratio (x := -2) (y := 1) one_ne_zero (by norm_num) p0 p1 ((C03_calc_rho_spec (-2) _ _).1 h3) 2
  refine ⟨res', h1, hb, ?_, ?_⟩
  · rw [hb, stokes_explicit]
    norm_num
    rfl
  · rw [hb]
    have e : Spec.stokes 2 1 0 = Spec.stokes (-2) 1 0 := by
      rw [stokes_explicit, stokes_explicit]
      norm_num
    simp only
    rw [e, ← h, stokes_explicit]
    norm_num
    rfl

end PyElli
