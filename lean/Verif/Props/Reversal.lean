import Verif.Props.MuellerSymmetry

/-! # Reflected powers of reversed and turned samples (C164) -/

namespace PyElli

open Complex Matrix Spec

lemma jonesRc_entries (J : Mat2) : jonesRc J = (-(1 / 2) : ℂ) • (!![1, -I; 1, I] * J * !![1, 1; I, -I]) := by
  rw [jonesRc, circD_inv, circC, Matrix.neg_mul, Matrix.neg_mul, Matrix.smul_mul, Matrix.smul_mul, Matrix.mul_smul, smul_smul, isqrt2, neg_smul]

lemma jonesRc_transposed (J J' : Mat2) (h00 : J' 0 0 = J 0 0) (h11 : J' 1 1 = J 1 1) (h01 : J' 0 1 = -J 1 0) (h10 : J' 1 0 = -J 0 1) :
    jonesRc J' = (jonesRc J)ᵀ := by
  rw [jonesRc_entries, jonesRc_entries]
  ext i j
  fin_cases i <;> fin_cases j <;> simp [Matrix.mul_apply, Fin.sum_univ_two, Matrix.vecMul, dotProduct, h00, h11, h01, h10] <;> ring

/-- With the beam reversed, or the sample turned by 180 degrees, `R_matrix` and `Rc_matrix` are the transposed ones and `R` is the same. -/
theorem C164_power (s : Stack) (theta lbda : ℝ) (h : PassiveStack s theta lbda) (hs : Symmetric s) (ee ee') (jones jones' : Fin 2 → ℂ) (jt jt' : Mat2) (p p' : Option ℝ) :
    let res := Result.mk' (calculate4x4 propExpm s theta lbda ee).jr jt p jones
    ∀ r' ∈ [(calculate4x4 propExpm s (-theta) lbda ee').jr, (calculate4x4 propExpm (moved (Rz Real.pi) s) theta lbda ee').jr],
      let res' := Result.mk' r' jt' p' jones'
      res'.RMatrix = res.RMatrixᵀ ∧ res'.RcMatrix = res.RcMatrixᵀ ∧ res'.R = res.R := by
  intro res r' hr'
  have key : r' 0 0 = (calculate4x4 propExpm s theta lbda ee).jr 0 0 ∧ r' 1 1 = (calculate4x4 propExpm s theta lbda ee).jr 1 1 ∧
      r' 0 1 = -(calculate4x4 propExpm s theta lbda ee).jr 1 0 ∧ r' 1 0 = -(calculate4x4 propExpm s theta lbda ee).jr 0 1 := by
    simp only [List.mem_cons, List.not_mem_nil, or_false] at hr'
    rcases hr' with rfl | rfl
    · exact C78_reciprocity s theta lbda h hs ee ee'
    · exact C78_half_turn s theta lbda h hs ee ee'
  obtain ⟨h00, h11, h01, h10⟩ := key
  refine ⟨?_, ?_, ?_⟩
  · ext i j
    fin_cases i <;> fin_cases j <;> simp [res, Result.RMatrix, Result.mk', h00, h11, h01, h10]
  · ext i j
    simp only [res, Result.RcMatrix, Result.mk', jonesRc_transposed _ _ h00 h11 h01 h10, Matrix.transpose_apply]
  · simp [res, Result.R, Result.RMatrix, Result.mk', h00, h11]

/-- At normal incidence a sample converts s into p light as much as p into s, and left into right circular light as much as right into left. -/
theorem C164_normal_power (s : Stack) (lbda : ℝ) (h : PassiveStack s 0 lbda) (hs : Symmetric s) (ee) (jones : Fin 2 → ℂ) (jt : Mat2) (p : Option ℝ) :
    let res := Result.mk' (calculate4x4 propExpm s 0 lbda ee).jr jt p jones
    res.RMatrix 0 1 = res.RMatrix 1 0 ∧ res.RcMatrix 0 1 = res.RcMatrix 1 0 := by
  intro res
  obtain ⟨h1, h2, -⟩ := C164_power s 0 lbda h hs ee ee jones jones jt jt p p _ (List.mem_cons_self ..)
  rw [neg_zero] at h1 h2
  exact ⟨congrFun (congrFun h1 0) 1, congrFun (congrFun h2 0) 1⟩

/-- A turned crystal on an absorbing substrate meets the hypotheses. -/
example : PassiveStack (tiltedStack (4 + I)) 0 500 ∧ Symmetric (tiltedStack (4 + I)) ∧ (tiltedStack (4 + I)).layers ≠ [] := by
  refine ⟨⟨⟨1, one_pos, by simp [tiltedStack, isoTensor]⟩, by norm_num, by norm_num, ?_, ?_, ?_, rfl⟩, tilted_symm _, by simp [tiltedStack]⟩
  · intro l hl
    simp only [tiltedStack, List.mem_singleton] at hl
    subst hl
    exact ⟨by norm_num, by simp [tilted], lossless_passive tilted_lossless⟩
  · intro h
    have := congrArg Complex.im h
    simp [tiltedStack, isoTensor] at this
  · simp [tiltedStack, isoTensor]

end PyElli
