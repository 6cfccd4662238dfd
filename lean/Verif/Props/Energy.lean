import Verif.Lemmas.Balance
import Mathlib.Tactic

/-! # Solver agreement, Fresnel limit, no cross polarisation, energy (C32, C35 - C38) -/

namespace PyElli

open Matrix Complex Spec

/-- A complex arcsine: any branch. -/
def IsArcsin (asin : ℂ → ℂ) : Prop := ∀ z, Complex.sin (asin z) = z

/-- The textbook arcsine `-i log(i z + sqrt(1 - z^2))` is one. -/
theorem exists_arcsin : IsArcsin fun z => -I * Complex.log (I * z + Complex.sqrt (1 - z ^ 2)) := by
  intro z
  set w := I * z + Complex.sqrt (1 - z ^ 2) with hw
  have hs := csqrt_sq (1 - z ^ 2)
  have hne : w ≠ 0 := by
    intro h0
    have h1 : Complex.sqrt (1 - z ^ 2) = -(I * z) := by linear_combination h0 - hw
    rw [h1] at hs
    have h2 : (-(I * z)) ^ 2 = -z ^ 2 := by
      rw [neg_sq, mul_pow, I_sq]; ring
    rw [h2] at hs
    have : (1 : ℂ) = 0 := by linear_combination -hs
    exact one_ne_zero this
  have hinv : w⁻¹ = Complex.sqrt (1 - z ^ 2) - I * z := by
    rw [inv_eq_iff_eq_inv, eq_comm, inv_eq_iff_eq_inv, ← mul_eq_one_iff_eq_inv₀ hne, hw]
    have := I_sq
    linear_combination hs - z ^ 2 * this
  simp only
  rw [Complex.sin, show -(-I * Complex.log w) * I = -Complex.log w by linear_combination Complex.log w * I_sq,
    show -I * Complex.log w * I = Complex.log w by linear_combination -Complex.log w * I_sq,
    Complex.exp_neg, Complex.exp_log hne, hinv, hw]
  linear_combination -z * I_sq

/-! ## C37, C38 -/

lemma calc4x4_of_blkD (s : Stack) (theta lbda : ℝ) (ee) (S P : Mat2) (h : transfer4x4 propExpm s theta lbda ee = blkD S P)
    (hS : S 0 0 ≠ 0) (hP : P 0 0 ≠ 0) :
    (calculate4x4 propExpm s theta lbda ee).jr = !![P 1 0 / P 0 0, 0; 0, S 1 0 / S 0 0] ∧
    (calculate4x4 propExpm s theta lbda ee).jt = !![1 / P 0 0, 0; 0, 1 / S 0 0] := by
  simp only [calculate4x4]
  rw [h, tIt_blkD, tRt_blkD, inv_diag_two hP hS]
  refine ⟨?_, rfl⟩
  rw [Matrix.mul_fin_two]
  simp [div_eq_mul_inv]

/-- C37: for every isotropic stack both solvers return the same Jones matrices, whatever branch of the complex arcsine numpy uses.
Hypotheses: the front index has positive real and non-negative imaginary part, the angle is below 90 degrees, the transmitted wave is recognised as forward
by `is_forward_angle`, and no quotient formed by `Solver2x2` has a zero denominator. -/
theorem C37_solvers_agree (asin : ℂ → ℂ) (hasin : IsArcsin asin) (s : Stack) (theta lbda : ℝ) (ee)
    (hiso : IsoLayers s.layers) (hb : s.backIsotropic = true)
    (hf1 : 0 < (nOf s.front).re) (hf2 : 0 ≤ (nOf s.front).im) (hang : |theta| < 90)
    (hfw : ForwardOk (nOf s.back * cosPhi (kxOf s theta) s.back))
    (hreg : Regular2x2 asin s theta)
    (hs0 : (matrices2x2 asin s theta lbda).1 0 0 ≠ 0) (hp0 : (matrices2x2 asin s theta lbda).2 0 0 ≠ 0) :
    (calculate2x2 asin s theta lbda).jr = (calculate4x4 propExpm s theta lbda ee).jr ∧
    (calculate2x2 asin s theta lbda).jt = (calculate4x4 propExpm s theta lbda ee).jt := by
  have hc := cos_pos_of_angle hang
  have hn : nOf s.front ≠ 0 := by
    intro h
    rw [h] at hf1
    simp at hf1
  have hT := transfer4x4_iso s theta lbda ee hiso hb
  have hM := matrices2x2_eq asin hasin s theta lbda hreg
  rw [frontMedium_cos hasin s theta hf1 hf2 hc, backMedium_cos hasin s theta hfw, ← cosPhi_front s theta hn hc] at hM
  change _ = (DsInv (nOf s.front) _ * _ * Ds (nOf s.back) _, DpInv (nOf s.front) _ * _ * Dp (nOf s.back) _) at hM
  have := calc4x4_of_blkD s theta lbda ee (matrices2x2 asin s theta lbda).1 (matrices2x2 asin s theta lbda).2
    (by rw [hM]; exact hT) hs0 hp0
  exact ⟨this.1.symm, this.2.symm⟩

lemma getKz_back (s : Stack) (theta lbda : ℝ) (h : PassiveStack s theta lbda) :
    getKz s.back (kxOf s theta) = nOf s.back * cosPhi (kxOf s theta) s.back := by
  obtain ⟨n0, hn0, hf⟩ := h.front
  rw [kxOf_real hn0 hf]
  exact kz_exit _ h.back_ne h.back_passive

lemma getKz_front (s : Stack) (theta lbda : ℝ) (h : PassiveStack s theta lbda) :
    getKz s.front (kxOf s theta) = nOf s.front * cosPhi (kxOf s theta) s.front := by
  obtain ⟨n0, hn0, hf⟩ := h.front
  rw [kxOf_real hn0 hf]
  refine kz_exit _ ?_ ?_
  · rw [hf]
    exact_mod_cast (pow_pos hn0 2).ne'
  · rw [hf, Complex.ofReal_im]

lemma transfer_diag_ne (s : Stack) (theta lbda : ℝ) (h : PassiveStack s theta lbda) (ee) (S P : Mat2)
    (hT : transfer4x4 propExpm s theta lbda ee = blkD S P) : S 0 0 ≠ 0 ∧ P 0 0 ≠ 0 := by
  have := tIt_det_ne_zero s theta lbda h ee
  rw [hT, tIt_blkD, Matrix.det_fin_two_of] at this
  constructor
  · intro h0; apply this; rw [h0]; ring
  · intro h0; apply this; rw [h0]; ring

/-- C37 for passive stacks: no assumption on the final divisions is needed, and the power correction agrees too. -/
theorem C37_solvers_agree_passive (asin : ℂ → ℂ) (hasin : IsArcsin asin) (s : Stack) (theta lbda : ℝ) (ee)
    (h : PassiveStack s theta lbda) (hiso : IsoLayers s.layers)
    (hfw : ForwardOk (nOf s.back * cosPhi (kxOf s theta) s.back))
    (hreg : Regular2x2 asin s theta) :
    calculate2x2 asin s theta lbda = calculate4x4 propExpm s theta lbda ee := by
  obtain ⟨n0, hn0, hf⟩ := h.front
  have hnf := nOf_front hn0 hf
  have hf1 : 0 < (nOf s.front).re := by rw [hnf]; simpa using hn0
  have hf2 : 0 ≤ (nOf s.front).im := by rw [hnf]; simp
  have hc := cos_pos_of_angle h.angle
  have hn : nOf s.front ≠ 0 := by rw [hnf]; exact_mod_cast hn0.ne'
  have hT := transfer4x4_iso s theta lbda ee hiso h.iso
  have hM := matrices2x2_eq asin hasin s theta lbda hreg
  rw [frontMedium_cos hasin s theta hf1 hf2 hc, backMedium_cos hasin s theta hfw, ← cosPhi_front s theta hn hc] at hM
  change _ = (DsInv (nOf s.front) _ * _ * Ds (nOf s.back) _, DpInv (nOf s.front) _ * _ * Dp (nOf s.back) _) at hM
  have hne := transfer_diag_ne s theta lbda h ee (matrices2x2 asin s theta lbda).1 (matrices2x2 asin s theta lbda).2
    (by rw [hM]; exact hT)
  obtain ⟨e1, e2⟩ := C37_solvers_agree asin hasin s theta lbda ee hiso h.iso hf1 hf2 h.angle hfw hreg hne.1 hne.2
  have e3 : (calculate2x2 asin s theta lbda).power = (calculate4x4 propExpm s theta lbda ee).power := by
    simp only [calculate2x2, calculate4x4, h.iso, if_true]
    rw [getKz_back s theta lbda h, getKz_front s theta lbda h, frontMedium_cos hasin s theta hf1 hf2 hc,
      backMedium_cos hasin s theta hfw, ← cosPhi_front s theta hn hc]
    rfl
  cases h1 : calculate2x2 asin s theta lbda
  cases h2 : calculate4x4 propExpm s theta lbda ee
  rw [h1, h2] at e1 e2 e3
  simp only at e1 e2 e3
  rw [e1, e2, e3]

/-- C38: `Solver4x4` returns diagonal Jones matrices for every isotropic stack (no regularity assumption). -/
theorem C38_no_cross_polarisation (s : Stack) (theta lbda : ℝ) (ee) (hiso : IsoLayers s.layers)
    (hb : s.backIsotropic = true) (i j : Fin 2) (hij : i ≠ j) :
    (calculate4x4 propExpm s theta lbda ee).jr i j = 0 ∧ (calculate4x4 propExpm s theta lbda ee).jt i j = 0 := by
  have hT := transfer4x4_iso s theta lbda ee hiso hb
  simp only [calculate4x4]
  rw [hT, tIt_blkD, tRt_blkD]
  generalize (DsInv (nOf s.front) _ * _ * Ds (nOf s.back) _ : Mat2) = S
  generalize (DpInv (nOf s.front) _ * _ * Dp (nOf s.back) _ : Mat2) = P
  have hinv : ∀ k l : Fin 2, k ≠ l → (!![P 0 0, 0; 0, S 0 0] : Mat2)⁻¹ k l = 0 := by
    intro k l hkl
    rw [Matrix.inv_def, Matrix.adjugate_fin_two_of]
    fin_cases k <;> fin_cases l <;> simp at hkl ⊢
  refine ⟨?_, hinv i j hij⟩
  rw [Matrix.mul_apply, Fin.sum_univ_two]
  fin_cases i <;> fin_cases j <;> simp at hij ⊢
  · right; exact hinv 0 1 (by decide)
  · right; exact hinv 1 0 (by decide)

/-! ## C32 -/

/-- C32: without layers `Solver4x4` returns the solution of the interface conditions (continuity of the tangential fields) for s and p waves, no
cross polarisation. The two denominators are the Fresnel denominators. -/
theorem C32_fresnel_4x4 (s : Stack) (theta lbda : ℝ) (ee) (hl : s.layers = []) (hb : s.backIsotropic = true)
    (hn : nOf s.front ≠ 0) (hc : cosPhi (kxOf s theta) s.front ≠ 0)
    (hds : nOf s.front * cosPhi (kxOf s theta) s.front + nOf s.back * cosPhi (kxOf s theta) s.back ≠ 0)
    (hdp : nOf s.back * cosPhi (kxOf s theta) s.front + nOf s.front * cosPhi (kxOf s theta) s.back ≠ 0) :
    let out := calculate4x4 propExpm s theta lbda ee
    InterfaceS (nOf s.front) (cosPhi (kxOf s theta) s.front) (nOf s.back) (cosPhi (kxOf s theta) s.back)
      (out.jr 1 1) (out.jt 1 1) ∧
    InterfaceP (nOf s.front) (cosPhi (kxOf s theta) s.front) (nOf s.back) (cosPhi (kxOf s theta) s.back)
      (out.jr 0 0) (out.jt 0 0) := by
  have hT := transfer4x4_iso s theta lbda ee (by rw [hl]; intro l h; simp at h) hb
  rw [hl] at hT
  simp only [prodS, prodP, List.map_nil, List.prod_nil, Matrix.mul_one] at hT
  generalize hN : nOf s.front = n at *
  generalize hC : cosPhi (kxOf s theta) s.front = c at *
  generalize hN' : nOf s.back = n' at *
  generalize hC' : cosPhi (kxOf s theta) s.back = c' at *
  have hdp' : c * n' + n * c' ≠ 0 := by rwa [mul_comm c]
  have hS00 : (DsInv n c * Ds n' c') 0 0 = (n * c + n' * c') / (2 * (n * c)) := by
    simp [DsInv, Ds, Matrix.mul_apply, Fin.sum_univ_two]
    field_simp
  have hS10 : (DsInv n c * Ds n' c') 1 0 = (n * c - n' * c') / (2 * (n * c)) := by
    simp [DsInv, Ds, Matrix.mul_apply, Fin.sum_univ_two]
    field_simp
    ring
  have hP00 : (DpInv n c * Dp n' c') 0 0 = (n' * c + n * c') / (2 * (n * c)) := by
    simp [DpInv, Dp, Matrix.mul_apply, Fin.sum_univ_two]
    field_simp
    ring
  have hP10 : (DpInv n c * Dp n' c') 1 0 = (n' * c - n * c') / (2 * (n * c)) := by
    simp [DpInv, Dp, Matrix.mul_apply, Fin.sum_univ_two]
    field_simp
    ring
  obtain ⟨e1, e2⟩ := calc4x4_of_blkD s theta lbda ee _ _ hT
    (by rw [hS00]; exact div_ne_zero hds (by simp [hn, hc])) (by rw [hP00]; exact div_ne_zero hdp (by simp [hn, hc]))
  simp only
  rw [e1, e2]
  unfold InterfaceS InterfaceP
  simp only [Matrix.of_apply, Matrix.cons_val, hS00, hS10, hP00, hP10]
  refine ⟨⟨?_, ?_⟩, ⟨?_, ?_⟩⟩ <;> field_simp <;> ring

/-- The interface conditions determine the coefficients: with C32 the solver's answer is the only one. -/
theorem C32_interface_unique {n c n' c' r t r' t' : ℂ}
    (hds : n * c + n' * c' ≠ 0) (hdp : n' * c + n * c' ≠ 0) :
    (InterfaceS n c n' c' r t → InterfaceS n c n' c' r' t' → r = r' ∧ t = t') ∧
    (InterfaceP n c n' c' r t → InterfaceP n c n' c' r' t' → r = r' ∧ t = t') := by
  constructor
  · rintro ⟨h1, h2⟩ ⟨h3, h4⟩
    have : r = r' := by
      apply mul_left_cancel₀ hds
      linear_combination -h2 + h4 + n' * c' * h1 - n' * c' * h3
    exact ⟨this, by rw [← h1, ← h3, this]⟩
  · rintro ⟨h1, h2⟩ ⟨h3, h4⟩
    have ht : t = t' := by
      apply mul_left_cancel₀ hdp
      linear_combination -n * h1 + n * h3 - c * h2 + c * h4
    refine ⟨?_, ht⟩
    apply mul_left_cancel₀ hdp
    linear_combination -n' * h1 + n' * h3 + c' * h2 - c' * h4

/-- C32 for `Solver2x2`. -/
theorem C32_fresnel_2x2 (asin : ℂ → ℂ) (s : Stack) (theta lbda : ℝ) (hl : s.layers = [])
    (hreg : Regular2x2 asin s theta) :
    let out := calculate2x2 asin s theta lbda
    let f := frontMedium asin s theta
    let b := backMedium asin s theta
    InterfaceS f.1 (Complex.cos f.2) b.1 (Complex.cos b.2) (out.jr 1 1) (out.jt 1 1) ∧
    InterfaceP f.1 (Complex.cos f.2) b.1 (Complex.cos b.2) (out.jr 0 0) (out.jt 0 0) := by
  unfold Regular2x2 innerMedia at hreg
  rw [hl] at hreg
  simp only [List.map_nil, List.nil_append, RegularChain] at hreg
  obtain ⟨h1, h2, h3, -⟩ := hreg
  have hn := left_ne_zero_of_mul h1
  have hc := right_ne_zero_of_mul h1
  simp only [calculate2x2, matrices2x2, innerMedia, hl, List.map_nil, nextMedium, loop2x2, interfaceMatrix, fresnel]
  generalize (frontMedium asin s theta).1 = n at *
  generalize Complex.cos (frontMedium asin s theta).2 = c at *
  generalize (backMedium asin s theta).1 = n' at *
  generalize Complex.cos (backMedium asin s theta).2 = c' at *
  have hdp' : c * n' + n * c' ≠ 0 := by rwa [mul_comm c]
  unfold InterfaceS InterfaceP
  simp only [Matrix.of_apply, Matrix.cons_val]
  refine ⟨⟨?_, ?_⟩, ⟨?_, ?_⟩⟩ <;> field_simp <;> ring

/-! ## C35, C36 -/

lemma columns (m : Mat4) (hdet : (tIt m).det ≠ 0) (j : Fin 2) :
    tIt m *ᵥ (fun i => (tIt m)⁻¹ i j) = Pi.single j 1 ∧
    tRt m *ᵥ (fun i => (tIt m)⁻¹ i j) = fun i => (tRt m * (tIt m)⁻¹) i j := by
  have hu : IsUnit (tIt m).det := isUnit_iff_ne_zero.2 hdet
  constructor
  · have := congrArg (fun M : Mat2 => fun i => M i j) (Matrix.mul_nonsing_inv (tIt m) hu)
    funext i
    have h := congrFun this i
    simp only [Matrix.mul_apply, Matrix.one_apply] at h
    simp only [Matrix.mulVec, dotProduct, Pi.single_apply]
    exact h
  · rfl

/-- C36: for every stack of passive, possibly anisotropic slices the powers of the reflected and transmitted waves, summed over the outgoing
polarisations, do not exceed the incident power; the matrix inverted by the solver is never singular. -/
theorem C36_no_gain (s : Stack) (theta lbda : ℝ) (h : PassiveStack s theta lbda) (ee) (jones : Fin 2 → ℂ) :
    let out := calculate4x4 propExpm s theta lbda ee
    let res := Result.mk' out.jr out.jt out.power jones
    (tIt (transfer4x4 propExpm s theta lbda ee)).det ≠ 0 ∧
    ∀ j, res.RMatrix 0 j + res.RMatrix 1 j + (res.TMatrix 0 j + res.TMatrix 1 j) ≤ 1 := by
  have hdet := tIt_det_ne_zero s theta lbda h ee
  refine ⟨hdet, ?_⟩
  intro j
  obtain ⟨c1, c2⟩ := columns _ hdet j
  have hb := balance_ge s theta lbda h ee (fun i => (tIt (transfer4x4 propExpm s theta lbda ee))⁻¹ i j)
  rw [c1, c2, ← getKz_back s theta lbda h, ← getKz_front s theta lbda h] at hb
  have hone : ‖(Pi.single j 1 : Fin 2 → ℂ) 0‖ ^ 2 + ‖(Pi.single j 1 : Fin 2 → ℂ) 1‖ ^ 2 = 1 := by
    fin_cases j <;> simp
  rw [hone] at hb
  simp only [calculate4x4, Result.mk', Result.RMatrix, Result.TMatrix, h.iso, if_true, Option.getD_some]
  linarith

/-- C35: for lossless slices (Hermitian tensors) and a real exit permittivity the balance is an equality; this includes total
reflection and metals with real negative permittivity. -/
theorem C35_energy_conservation (s : Stack) (theta lbda : ℝ) (h : PassiveStack s theta lbda)
    (hl : ∀ l ∈ s.layers, Lossless l.2) (hb : (s.back 0 0).im = 0) (ee) (jones : Fin 2 → ℂ) :
    let out := calculate4x4 propExpm s theta lbda ee
    let res := Result.mk' out.jr out.jt out.power jones
    ∀ j, res.RMatrix 0 j + res.RMatrix 1 j + (res.TMatrix 0 j + res.TMatrix 1 j) = 1 := by
  have hdet := tIt_det_ne_zero s theta lbda h ee
  intro out res j
  obtain ⟨c1, c2⟩ := columns _ hdet j
  have hbal := balance_eq s theta lbda h hl hb ee (fun i => (tIt (transfer4x4 propExpm s theta lbda ee))⁻¹ i j)
  rw [c1, c2, ← getKz_back s theta lbda h, ← getKz_front s theta lbda h] at hbal
  have hone : ‖(Pi.single j 1 : Fin 2 → ℂ) 0‖ ^ 2 + ‖(Pi.single j 1 : Fin 2 → ℂ) 1‖ ^ 2 = 1 := by
    fin_cases j <;> simp
  rw [hone] at hbal
  simp only [out, res, calculate4x4, Result.mk', Result.RMatrix, Result.TMatrix, h.iso, if_true, Option.getD_some]
  linarith

/-- C35/C36 for the unpolarised `R` and `T` attributes of an isotropic stack: they use the diagonal elements only. -/
theorem C35_R_plus_T (s : Stack) (theta lbda : ℝ) (h : PassiveStack s theta lbda) (hiso : IsoLayers s.layers)
    (hl : ∀ l ∈ s.layers, Lossless l.2) (hb : (s.back 0 0).im = 0) (ee) (jones : Fin 2 → ℂ) :
    let out := calculate4x4 propExpm s theta lbda ee
    let res := Result.mk' out.jr out.jt out.power jones
    res.R + res.T = 1 := by
  intro out res
  have h0 := C35_energy_conservation s theta lbda h hl hb ee jones 0
  have h1 := C35_energy_conservation s theta lbda h hl hb ee jones 1
  have x1 := C38_no_cross_polarisation s theta lbda ee hiso h.iso 0 1 (by decide)
  have x2 := C38_no_cross_polarisation s theta lbda ee hiso h.iso 1 0 (by decide)
  simp only [Result.mk', Result.RMatrix, Result.TMatrix, x1.1, x1.2, x2.1, x2.2, norm_zero] at h0 h1
  simp only [out, res, Result.R, Result.T, Result.mk', Result.RMatrix, Result.TMatrix]
  linarith

/-- C36 for the attributes `R` and `T`: never more than one. -/
theorem C36_R_plus_T_le (s : Stack) (theta lbda : ℝ) (h : PassiveStack s theta lbda) (ee) (jones : Fin 2 → ℂ) :
    let out := calculate4x4 propExpm s theta lbda ee
    let res := Result.mk' out.jr out.jt out.power jones
    res.R + res.T ≤ 1 ∧ 0 ≤ res.R ∧ 0 ≤ res.T := by
  intro out res
  have h0 := (C36_no_gain s theta lbda h ee jones).2 0
  have h1 := (C36_no_gain s theta lbda h ee jones).2 1
  have hpow : 0 ≤ (getKz s.back (kxOf s theta)).re / (getKz s.front (kxOf s theta)).re :=
    div_nonneg (csqrt_re_nonneg _) (csqrt_re_nonneg _)
  simp only [calculate4x4, Result.mk', Result.RMatrix, Result.TMatrix, h.iso, if_true, Option.getD_some] at h0 h1
  simp only [out, res, calculate4x4, Result.R, Result.T, Result.mk', Result.RMatrix, Result.TMatrix, h.iso, if_true,
    Option.getD_some]
  have a1 := mul_nonneg (sq_nonneg ‖(tIt (transfer4x4 propExpm s theta lbda ee))⁻¹ 1 0‖) hpow
  have a2 := mul_nonneg (sq_nonneg ‖(tIt (transfer4x4 propExpm s theta lbda ee))⁻¹ 0 1‖) hpow
  have a3 := mul_nonneg (sq_nonneg ‖(tIt (transfer4x4 propExpm s theta lbda ee))⁻¹ 0 0‖) hpow
  have a4 := mul_nonneg (sq_nonneg ‖(tIt (transfer4x4 propExpm s theta lbda ee))⁻¹ 1 1‖) hpow
  refine ⟨?_, by positivity, by linarith⟩
  have b1 := sq_nonneg ‖(tRt (transfer4x4 propExpm s theta lbda ee) * (tIt (transfer4x4 propExpm s theta lbda ee))⁻¹) 1 0‖
  have b2 := sq_nonneg ‖(tRt (transfer4x4 propExpm s theta lbda ee) * (tIt (transfer4x4 propExpm s theta lbda ee))⁻¹) 0 1‖
  linarith

/-- C35 for `Solver2x2`. -/
theorem C35_energy_conservation_2x2 (asin : ℂ → ℂ) (hasin : IsArcsin asin) (s : Stack) (theta lbda : ℝ)
    (h : PassiveStack s theta lbda) (hiso : IsoLayers s.layers) (hl : ∀ l ∈ s.layers, Lossless l.2)
    (hb : (s.back 0 0).im = 0) (hfw : ForwardOk (nOf s.back * cosPhi (kxOf s theta) s.back))
    (hreg : Regular2x2 asin s theta) (jones : Fin 2 → ℂ) :
    let out := calculate2x2 asin s theta lbda
    let res := Result.mk' out.jr out.jt out.power jones
    res.RMatrix 0 0 + res.TMatrix 0 0 = 1 ∧ res.RMatrix 1 1 + res.TMatrix 1 1 = 1 := by
  intro out res
  have e := C37_solvers_agree_passive asin hasin s theta lbda (0, 0) h hiso hfw hreg
  have h0 := C35_energy_conservation s theta lbda h hl hb (0, 0) jones 0
  have h1 := C35_energy_conservation s theta lbda h hl hb (0, 0) jones 1
  have x1 := C38_no_cross_polarisation s theta lbda (0, 0) hiso h.iso 0 1 (by decide)
  have x2 := C38_no_cross_polarisation s theta lbda (0, 0) hiso h.iso 1 0 (by decide)
  simp only [out, res, e]
  simp only [Result.mk', Result.RMatrix, Result.TMatrix, x1.1, x1.2, x2.1, x2.2, norm_zero] at h0 h1 ⊢
  constructor <;> linarith

/-- C36 for `Solver2x2`. -/
theorem C36_no_gain_2x2 (asin : ℂ → ℂ) (hasin : IsArcsin asin) (s : Stack) (theta lbda : ℝ)
    (h : PassiveStack s theta lbda) (hiso : IsoLayers s.layers)
    (hfw : ForwardOk (nOf s.back * cosPhi (kxOf s theta) s.back))
    (hreg : Regular2x2 asin s theta) (jones : Fin 2 → ℂ) :
    let out := calculate2x2 asin s theta lbda
    let res := Result.mk' out.jr out.jt out.power jones
    res.RMatrix 0 0 + res.TMatrix 0 0 ≤ 1 ∧ res.RMatrix 1 1 + res.TMatrix 1 1 ≤ 1 := by
  intro out res
  have e := C37_solvers_agree_passive asin hasin s theta lbda (0, 0) h hiso hfw hreg
  have h0 := (C36_no_gain s theta lbda h (0, 0) jones).2 0
  have h1 := (C36_no_gain s theta lbda h (0, 0) jones).2 1
  have x1 := C38_no_cross_polarisation s theta lbda (0, 0) hiso h.iso 0 1 (by decide)
  have x2 := C38_no_cross_polarisation s theta lbda (0, 0) hiso h.iso 1 0 (by decide)
  simp only [out, res, e]
  simp only [Result.mk', Result.RMatrix, Result.TMatrix, x1.1, x1.2, x2.1, x2.2, norm_zero] at h0 h1 ⊢
  constructor <;> linarith

/-! ## The hypotheses are met by ordinary materials -/

lemma getTensor_rot (m : SingleMaterial) (lbda : ℝ) : ∃ R : Mat3, m.getTensor lbda =
    R.map Complex.ofReal * Matrix.diagonal ![m.dispersionX lbda, m.dispersionY lbda, m.dispersionZ lbda] *
      (R.map Complex.ofReal)ᵀ := by
  unfold SingleMaterial.getTensor
  cases h : m.rotation with
  | none =>
    refine ⟨1, ?_⟩
    have h1 : (1 : Mat3).map Complex.ofReal = (1 : Tensor) := by
      ext i j
      by_cases hij : i = j <;> simp [Matrix.one_apply, hij]
    rw [h1]
    simp
  | some r => exact ⟨r, rfl⟩

/-- C36: every single material (isotropic, uniaxial, biaxial) with passive dispersions and any real rotation matrix has a passive tensor. -/
theorem C36_material_passive (m : SingleMaterial) (lbda : ℝ) (hx : 0 ≤ (m.dispersionX lbda).im)
    (hy : 0 ≤ (m.dispersionY lbda).im) (hz : 0 ≤ (m.dispersionZ lbda).im) : Passive (m.getTensor lbda) := by
  intro E
  obtain ⟨r, hr⟩ := getTensor_rot m lbda
  rw [hr]
  generalize m.dispersionX lbda = x at *
  generalize m.dispersionY lbda = y at *
  generalize m.dispersionZ lbda = z at *
  set R := r.map Complex.ofReal with hR
  have hstar : star (Rᵀ *ᵥ E) = star E ᵥ* R := by
    rw [Matrix.star_mulVec]
    congr 1
    ext i j
    simp [hR, Matrix.conjTranspose]
  have key : star E ⬝ᵥ (R * Matrix.diagonal ![x, y, z] * Rᵀ) *ᵥ E =
      star (Rᵀ *ᵥ E) ⬝ᵥ Matrix.diagonal ![x, y, z] *ᵥ (Rᵀ *ᵥ E) := by
    rw [hstar, ← Matrix.mulVec_mulVec, ← Matrix.mulVec_mulVec, Matrix.dotProduct_mulVec]
  have goal : ∀ F : Fin 3 → ℂ, 0 ≤ (star F ⬝ᵥ Matrix.diagonal ![x, y, z] *ᵥ F).im := by
    intro F
    have : star F ⬝ᵥ Matrix.diagonal ![x, y, z] *ᵥ F =
        ((normSq (F 0) : ℝ) : ℂ) * x + ((normSq (F 1) : ℝ) : ℂ) * y + ((normSq (F 2) : ℝ) : ℂ) * z := by
      simp only [dotProduct, Fin.sum_univ_three, Matrix.mulVec_diagonal, Complex.normSq_eq_conj_mul_self]
      simp
      ring
    rw [this]
    simp only [Complex.add_im, Complex.im_ofReal_mul]
    have := Complex.normSq_nonneg (F 0)
    have := Complex.normSq_nonneg (F 1)
    have := Complex.normSq_nonneg (F 2)
    positivity
  have := goal (Rᵀ *ᵥ E)
  rw [← key] at this
  exact this

/-- C35: a single material with real dispersions is lossless, whatever its orientation. -/
theorem C35_material_lossless (m : SingleMaterial) (lbda : ℝ) (hx : (m.dispersionX lbda).im = 0)
    (hy : (m.dispersionY lbda).im = 0) (hz : (m.dispersionZ lbda).im = 0) : Lossless (m.getTensor lbda) := by
  have conj_eq : ∀ {z : ℂ}, z.im = 0 → (starRingEnd ℂ) z = z := fun h => Complex.conj_eq_iff_im.2 h
  obtain ⟨r, hr⟩ := getTensor_rot m lbda
  unfold Lossless
  rw [hr]
  have hR : (r.map Complex.ofReal)ᴴ = (r.map Complex.ofReal)ᵀ := by
    ext i j
    simp [Matrix.conjTranspose]
  have hD : (Matrix.diagonal ![m.dispersionX lbda, m.dispersionY lbda, m.dispersionZ lbda] : Tensor)ᴴ =
      Matrix.diagonal ![m.dispersionX lbda, m.dispersionY lbda, m.dispersionZ lbda] := by
    rw [Matrix.diagonal_conjTranspose]
    congr 1
    funext i
    fin_cases i <;> simp [conj_eq hx, conj_eq hy, conj_eq hz]
  unfold Matrix.IsHermitian
  rw [Matrix.conjTranspose_mul, Matrix.conjTranspose_mul, hD]
  have hR' : ((r.map Complex.ofReal)ᵀ)ᴴ = r.map Complex.ofReal := by
    rw [← hR, Matrix.conjTranspose_conjTranspose]
  rw [hR', hR, Matrix.mul_assoc]

lemma passive_isoTensor {e : ℂ} (h : 0 ≤ e.im) : Passive (isoTensor e) := by
  have := C36_material_passive (isotropicMaterial fun _ => e) 1 h h h
  have e1 : (isotropicMaterial fun _ => e).getTensor 1 = isoTensor e := by
    unfold isotropicMaterial SingleMaterial.getTensor isoTensor
    ext i j
    fin_cases i <;> fin_cases j <;> simp
  rwa [e1] at this

lemma lossless_isoTensor {e : ℂ} (h : e.im = 0) : Lossless (isoTensor e) := by
  have := C35_material_lossless (isotropicMaterial fun _ => e) 1 h h h
  have e1 : (isotropicMaterial fun _ => e).getTensor 1 = isoTensor e := by
    unfold isotropicMaterial SingleMaterial.getTensor isoTensor
    ext i j
    fin_cases i <;> fin_cases j <;> simp
  rwa [e1] at this

/-- A coated absorber: air, 100 nm of index 1.5, substrate of permittivity 4 + i. -/
noncomputable def demoStack (eb : ℂ) : Stack := ⟨isoTensor 1, [(100, isoTensor (9 / 4))], isoTensor eb, true⟩

lemma demo_passive (eb : ℂ) (h0 : eb ≠ 0) (h1 : 0 ≤ eb.im) (theta : ℝ) (hth : |theta| < 90) :
    PassiveStack (demoStack eb) theta 500 where
  front := ⟨1, one_pos, by simp [demoStack, isoTensor]⟩
  angle := hth
  lbda_pos := by norm_num
  layers := by
    intro l hl
    simp only [demoStack, List.mem_singleton] at hl
    subst hl
    exact ⟨by norm_num, by simp [isoTensor], passive_isoTensor (by norm_num)⟩
  back_ne := by simpa [demoStack, isoTensor] using h0
  back_passive := by simpa [demoStack, isoTensor] using h1
  iso := rfl

example : PassiveStack (demoStack (4 + I)) 45 500 :=
  demo_passive _ (by intro h; have := congrArg Complex.im h; simp at this) (by simp) 45 (by norm_num)

example : PassiveStack (demoStack 4) 45 500 ∧ (∀ l ∈ (demoStack 4).layers, Lossless l.2) ∧ ((demoStack 4).back 0 0).im = 0 ∧
    IsoLayers (demoStack 4).layers := by
  refine ⟨demo_passive _ (by norm_num) (by simp) 45 (by norm_num), ?_, ?_, ?_⟩
  · intro l hl
    simp only [demoStack, List.mem_singleton] at hl
    subst hl
    exact lossless_isoTensor (by norm_num)
  · simp [demoStack, isoTensor]
  · intro l hl
    simp only [demoStack, List.mem_singleton] at hl
    subst hl
    ext i j
    simp [isoTensor]

lemma nOf_iso_sq {x : ℝ} (h : 0 ≤ x) : nOf (isoTensor ((x ^ 2 : ℝ) : ℂ)) = x := by
  unfold nOf
  simp only [isoTensor, if_true]
  rw [csqrt_ofReal (by positivity), Real.sqrt_sq h]

/-- The regularity hypotheses hold for the coated substrate at normal incidence, for every branch of the arcsine. -/
lemma demo_regular (asin : ℂ → ℂ) (hasin : IsArcsin asin) :
    Regular2x2 asin (demoStack 4) 0 ∧ ForwardOk (nOf (demoStack 4).back * cosPhi (kxOf (demoStack 4) 0) (demoStack 4).back) := by
  have n1 : nOf (demoStack 4).front = 1 := by
    have := nOf_iso_sq (x := 1) (by norm_num)
    simpa [demoStack] using this
  have n2 : nOf (isoTensor (9 / 4)) = 3 / 2 := by
    have := nOf_iso_sq (x := 3 / 2) (by norm_num)
    norm_num at this
    exact this
  have n3 : nOf (demoStack 4).back = 2 := by
    have := nOf_iso_sq (x := 2) (by norm_num)
    norm_num at this
    exact this
  have hk : kxOf (demoStack 4) 0 = 0 := by simp [kxOf, deg2rad]
  have hcb : cosPhi (kxOf (demoStack 4) 0) (demoStack 4).back = 1 := by
    rw [hk]
    unfold cosPhi
    have := csqrt_ofReal (x := 1) (by norm_num)
    simpa using this
  have hfw : ForwardOk (nOf (demoStack 4).back * cosPhi (kxOf (demoStack 4) 0) (demoStack 4).back) := by
    rw [hcb, n3]
    left
    constructor <;> norm_num
  refine ⟨?_, hfw⟩
  have hf := frontMedium_cos hasin (demoStack 4) 0 (by rw [n1]; simp) (by rw [n1]; simp) (by simp [deg2rad])
  have hb := backMedium_cos hasin (demoStack 4) 0 hfw
  rw [hcb] at hb
  simp only [deg2rad, zero_mul, Real.cos_zero, Complex.ofReal_one] at hf
  have hm := cos_sq_snell hasin (nOf (demoStack 4).front) 0 (isoTensor (9 / 4))
  have hz : nOf (demoStack 4).front * (Real.sin (deg2rad 0) : ℂ) = 0 := by simp [deg2rad]
  have hc1 : cosPhi 0 (isoTensor (9 / 4)) = 1 := by
    unfold cosPhi
    have := csqrt_ofReal (x := 1) (by norm_num)
    simpa using this
  rw [hz, hc1] at hm
  replace hm := sq_eq_sq_iff_eq_or_eq_neg.1 hm
  · unfold Regular2x2
    simp only [demoStack, innerMedia, List.map_cons, List.map_nil, List.cons_append, List.nil_append]
    change RegularChain (frontMedium asin (demoStack 4) 0) [(nOf (isoTensor (9 / 4)), snellAngle asin (nOf (demoStack 4).front) 0 (nOf (isoTensor (9 / 4)))), backMedium asin (demoStack 4) 0]
    simp only [RegularChain, hf, hb]
    change nOf (demoStack 4).front * 1 ≠ 0 ∧ nOf (demoStack 4).front * 1 + _ ≠ 0 ∧ _ + nOf (demoStack 4).front * _ ≠ 0 ∧ _ ≠ 0 ∧ _ + nOf (demoStack 4).back * 1 ≠ 0 ∧ nOf (demoStack 4).back * _ + _ * 1 ≠ 0 ∧ True
    rw [n1, n2, n3]
    rcases hm with hm | hm <;> rw [n1, n2] at hm <;> rw [hm] <;> norm_num

end PyElli
