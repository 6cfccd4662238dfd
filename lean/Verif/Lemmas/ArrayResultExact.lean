import Verif.Lemmas.ArrayResult
import Verif.Lemmas.ArrayExact4
import Verif.Lemmas.Mueller
import Verif.Props.Mueller
import Verif.Model.Lookup

/-! # The arrays of `result.py` with exact numbers -/

namespace PyElli.Nd

open PyElli Matrix Complex

variable {asin : ℂ → ℂ} {eig : Mat4 → (Fin 4 → ℂ) × Mat4}

local notation "𝔼" => exact asin eig

lemma exact_rhoMatrix (J : Mat2) : @pRhoMatrix ℂ 𝔼 J = rhoMatrix J := rfl

lemma exact_matVec (A : Mat2) (v : Fin 2 → ℂ) : @matVec ℂ 𝔼 2 2 A v = A.mulVec v := by
  funext i
  simp [matVec, Matrix.mulVec, dotProduct, List.finRange_succ]

/-- The settings of a result with exact numbers. -/
noncomputable def realSetting (jones : Fin 2 → ℂ) (r : DeltaRange) : Setting ℂ := ⟨jones, (r.lower : ℂ), (r.upper : ℂ)⟩

lemma exact_fold (jones : Fin 2 → ℂ) (r : DeltaRange) (x : ℂ) : @pFold ℂ 𝔼 (realSetting jones r) x = foldRho r x := by
  have e0 : ((0 : ℚ) : ℂ) = ((0 : ℝ) : ℂ) := by norm_num
  have e1 : ((180 : ℚ) : ℂ) = ((180 : ℝ) : ℂ) := by norm_num
  by_cases h : r.lower = 0 ∧ r.upper = 180
  · have h' : (@Arith.eq ℂ 𝔼 (realSetting jones r).lower (@Arith.num ℂ 𝔼 0) && @Arith.eq ℂ 𝔼 (realSetting jones r).upper (@Arith.num ℂ 𝔼 180)) = true := by
      simp only [exact_eq, exact_num, realSetting, e0, e1, Complex.ofReal_inj, h.1, h.2]
      simp
    have e2 : @pFold ℂ 𝔼 (realSetting jones r) x = @Arith.setImag ℂ 𝔼 x (@Arith.neg ℂ 𝔼 (@Arith.abs ℂ 𝔼 (@Arith.imag ℂ 𝔼 x))) := if_pos h'
    rw [e2, foldRho, if_pos h]
    simp
  · have h' : ¬ (@Arith.eq ℂ 𝔼 (realSetting jones r).lower (@Arith.num ℂ 𝔼 0) && @Arith.eq ℂ 𝔼 (realSetting jones r).upper (@Arith.num ℂ 𝔼 180)) = true := by
      simp only [exact_eq, exact_num, realSetting, e0, e1, Complex.ofReal_inj, Bool.and_eq_true, decide_eq_true_eq]
      exact h
    have e2 : @pFold ℂ 𝔼 (realSetting jones r) x = x := if_neg h'
    rw [e2, foldRho, if_neg h]

lemma exact_rho (jones : Fin 2 → ℂ) (r : DeltaRange) (J : Mat2) :
    @pRho ℂ 𝔼 (realSetting jones r) J = foldRho r (ratioOf (rhoMatrix J) jones) := by
  have h : @matVec ℂ 𝔼 2 2 (@pRhoMatrix ℂ 𝔼 J) (realSetting jones r).jones = (rhoMatrix J).mulVec jones := exact_matVec _ _
  have e : @pRho ℂ 𝔼 (realSetting jones r) J = @pFold ℂ 𝔼 (realSetting jones r)
      (@matVec ℂ 𝔼 2 2 (@pRhoMatrix ℂ 𝔼 J) (realSetting jones r).jones 0 / @matVec ℂ 𝔼 2 2 (@pRhoMatrix ℂ 𝔼 J) (realSetting jones r).jones 1) := rfl
  rw [e, h, exact_fold]
  rfl

lemma exact_psi (x : ℂ) : @pPsi ℂ 𝔼 x = ((psiOf x : ℝ) : ℂ) := by
  simp [pPsi, psiOf, rad2deg]

lemma exact_deltaAngle (jones : Fin 2 → ℂ) (r : DeltaRange) (x : ℂ) :
    @pDeltaAngle ℂ 𝔼 (realSetting jones r) x = ((deltaOf r x : ℝ) : ℂ) := by
  have e : ((360 : ℚ) : ℂ).re = 360 := by
    have : ((360 : ℚ) : ℂ) = ((360 : ℝ) : ℂ) := by norm_num
    rw [this, ofReal_re]
  simp only [pDeltaAngle, deltaOf, shiftDelta, npMod, realSetting, exact_mod, exact_num, e, exact_add, exact_neg, exact_angle]
  simp only [add_re, neg_re, ofReal_re]
  push_cast
  ring

lemma exact_abs2 (x : ℂ) : @pAbs2 ℂ 𝔼 x = ((‖x‖ ^ 2 : ℝ) : ℂ) := by
  simp [pAbs2]

lemma exact_muellerConst : @muellerConst ℂ 𝔼 = muellerA := by
  funext i j
  fin_cases i <;> fin_cases j <;> simp [muellerConst, muellerA]

lemma complex_sqrt_two : Complex.sqrt 2 = (Real.sqrt 2 : ℂ) := by
  have : (2 : ℂ) = ((2 : ℝ) : ℂ) := by norm_num
  rw [this, csqrt_ofReal (by norm_num)]

lemma exact_circC : @circConstC ℂ 𝔼 = circC := by
  funext i j
  fin_cases i <;> fin_cases j <;> simp [circConstC, circC, halfRoot, complex_sqrt_two]

lemma exact_circD : @circConstD ℂ 𝔼 = circD := by
  funext i j
  fin_cases i <;> fin_cases j <;> simp [circConstD, circD, halfRoot, complex_sqrt_two]

lemma circC_det : circC.det ≠ 0 := by
  intro h
  have h1 : circC * ((1 / (Real.sqrt 2 : ℂ)) • !![1, -I; 1, I]) = 1 := by
    unfold circC
    rw [Matrix.smul_mul, Matrix.mul_smul, smul_smul, isqrt2]
    ext i j
    fin_cases i <;> fin_cases j <;> simp [Matrix.mul_apply, Fin.sum_univ_two] <;> norm_num
  have := congrArg Matrix.det h1
  simp [Matrix.det_mul, h] at this

lemma circD_neg : circD = -circC := by
  ext i j
  fin_cases i <;> fin_cases j <;> simp [circC, circD]

lemma circD_det : circD.det ≠ 0 := by
  rw [circD_neg, Matrix.det_neg]
  simpa using circC_det

lemma muellerA_det : muellerA.det ≠ 0 := by
  intro h
  have h1 : muellerA⁻¹ = 0 := Matrix.nonsing_inv_apply_not_isUnit _ (by simp [h])
  rw [muellerA_inv] at h1
  have := congrFun (congrFun h1 0) 0
  simp [muellerAinv] at this

/-- The inverses of the constant matrices with exact numbers. -/
noncomputable def exactInverses (asin : ℂ → ℂ) (eig : Mat4 → (Fin 4 → ℂ) × Mat4) : @Inverses ℂ (exact asin eig) :=
  @Inverses.mk ℂ (exact asin eig) (muellerA⁻¹ : Matrix _ _ ℂ) (circC⁻¹ : Matrix _ _ ℂ) (circD⁻¹ : Matrix _ _ ℂ)
    (by rw [exact_muellerConst]; exact (exact_inv 4 muellerA).trans (if_neg muellerA_det))
    (by rw [exact_circC]; exact (exact_inv 2 circC).trans (if_neg circC_det))
    (by rw [exact_circD]; exact (exact_inv 2 circD).trans (if_neg circD_det))

lemma exact_sandwich (A J C : Mat2) : @pSandwich ℂ 𝔼 A J C = A * J * C := by
  funext i l
  simp [pSandwich, Matrix.mul_apply, Fin.sum_univ_two]
  ring

lemma exact_kron (A : Mat2) : (@pKron ℂ 𝔼 A fun i j => @Arith.conj ℂ 𝔼 (A i j)) = kronStar A := rfl

lemma exact_muellerRaw (J : Mat2) (i j : Fin 4) :
    @pMuellerRaw ℂ 𝔼 (exactInverses asin eig) J i j = ((muellerComplex J i j).re : ℂ) := by
  have e : @matMul ℂ 4 4 4 𝔼 (@matMul ℂ 4 4 4 𝔼 (@muellerConst ℂ 𝔼) (@pKron ℂ 𝔼 (@pRhoMatrix ℂ 𝔼 J) fun i j => @Arith.conj ℂ 𝔼 (@pRhoMatrix ℂ 𝔼 J i j)))
      (@Inverses.a ℂ 𝔼 (exactInverses asin eig)) = muellerComplex J := by
    rw [exact_matMul, exact_matMul, exact_muellerConst]
    rfl
  exact congrArg (fun M : Fin 4 → Fin 4 → ℂ => ((M i j).re : ℂ)) e

lemma exact_mueller (J : Mat2) (i j : Fin 4) : @pMueller ℂ 𝔼 (exactInverses asin eig) J i j = ((muellerMatrix J i j : ℝ) : ℂ) := by
  have h : @pMueller ℂ 𝔼 (exactInverses asin eig) J i j =
      @pMuellerRaw ℂ 𝔼 (exactInverses asin eig) J i j / @pMuellerRaw ℂ 𝔼 (exactInverses asin eig) J 0 0 := rfl
  rw [h, exact_muellerRaw, exact_muellerRaw, muellerMatrix]
  simp

end PyElli.Nd
