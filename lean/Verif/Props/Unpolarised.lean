import Verif.Spec.Unpolarised
import Verif.Props.Symmetry
import Verif.Props.ThinFilm
import Verif.Props.Energy

/-!
# C88: `Result.R` and `Result.T` and unpolarised light
-/

namespace PyElli

open Matrix Complex Spec

lemma ortho_sum (J : Mat2) (f : ℝ) (a b : Fin 2 → ℂ) (h : OrthoPair a b) :
    powerOut J f a + powerOut J f b = f * (‖J 0 0‖ ^ 2 + ‖J 0 1‖ ^ 2 + ‖J 1 0‖ ^ 2 + ‖J 1 1‖ ^ 2) := by
  obtain ⟨h1, h2, h3⟩ := h
  set U : Mat2 := !![a 0, b 0; a 1, b 1] with hU
  have h3' : star b ⬝ᵥ a = 0 := by
    have := congrArg star h3
    simpa [dotProduct, Fin.sum_univ_two, mul_comm] using this
  have hUU : Uᴴ * U = 1 := by
    ext i j
    simp only [dotProduct, Fin.sum_univ_two, Pi.star_apply] at h1 h2 h3 h3'
    fin_cases i <;> fin_cases j <;> simp [hU, Matrix.mul_apply, Fin.sum_univ_two] <;> assumption
  have hUU' : U * Uᴴ = 1 := mul_eq_one_comm.1 hUU
  have key : (J * U) * (J * U)ᴴ = J * Jᴴ := by
    rw [Matrix.conjTranspose_mul, Matrix.mul_assoc, ← Matrix.mul_assoc U, hUU', Matrix.one_mul]
  have sq : ∀ z : ℂ, z * star z = ((‖z‖ ^ 2 : ℝ) : ℂ) := fun z => by
    rw [Complex.star_def, Complex.mul_conj, Complex.normSq_eq_norm_sq]
  have e0 := congrFun (congrFun key 0) 0
  have e1 := congrFun (congrFun key 1) 1
  simp only [Matrix.mul_apply, Matrix.conjTranspose_apply, Fin.sum_univ_two, hU, Matrix.of_apply, Matrix.cons_val', Matrix.cons_val_zero,
    Matrix.cons_val_one, Matrix.cons_val_fin_one, sq, ← Complex.ofReal_add] at e0 e1
  have e0' := Complex.ofReal_injective e0
  have e1' := Complex.ofReal_injective e1
  simp only [powerOut, Matrix.mulVec, dotProduct, Fin.sum_univ_two]
  rw [← mul_add]
  congr 1
  linarith

/-- C88: the power that comes out for unpolarised light is half the sum of all four entries of `R_matrix` (`T_matrix`), and the attribute `R` (`T`)
agrees with it exactly when the sample does not convert p into s. -/
theorem C88_R_partial (res : Result) :
    IsUnpolarised res.jr 1 ((res.RMatrix 0 0 + res.RMatrix 0 1 + res.RMatrix 1 0 + res.RMatrix 1 1) / 2) ∧
    IsUnpolarised res.jt res.power ((res.TMatrix 0 0 + res.TMatrix 0 1 + res.TMatrix 1 0 + res.TMatrix 1 1) / 2) ∧
    (IsUnpolarised res.jr 1 res.R ↔ res.jr 0 1 = 0 ∧ res.jr 1 0 = 0) ∧
    (res.power ≠ 0 → (IsUnpolarised res.jt res.power res.T ↔ res.jt 0 1 = 0 ∧ res.jt 1 0 = 0)) := by
  have hpair : OrthoPair ![1, 0] ![0, 1] := by simp [OrthoPair, dotProduct, Fin.sum_univ_two]
  have zero : ∀ {x y : ℂ}, ‖x‖ ^ 2 + ‖y‖ ^ 2 = 0 → x = 0 ∧ y = 0 := by
    intro x y h
    have h1 := sq_nonneg ‖x‖
    have h2 := sq_nonneg ‖y‖
    exact ⟨norm_eq_zero.1 (pow_eq_zero_iff two_ne_zero |>.1 (by linarith)), norm_eq_zero.1 (pow_eq_zero_iff two_ne_zero |>.1 (by linarith))⟩
  have hR : ∀ v, IsUnpolarised res.jr 1 v ↔ v = (res.RMatrix 0 0 + res.RMatrix 0 1 + res.RMatrix 1 0 + res.RMatrix 1 1) / 2 := by
    intro v
    constructor
    · intro h
      have := h _ _ hpair
      rw [ortho_sum _ _ _ _ hpair] at this
      rw [← this]
      simp [Result.RMatrix]
    · rintro rfl a b hab
      rw [ortho_sum _ _ _ _ hab]
      simp [Result.RMatrix]
  have hT : ∀ v, IsUnpolarised res.jt res.power v ↔ v = (res.TMatrix 0 0 + res.TMatrix 0 1 + res.TMatrix 1 0 + res.TMatrix 1 1) / 2 := by
    intro v
    constructor
    · intro h
      have := h _ _ hpair
      rw [ortho_sum _ _ _ _ hpair] at this
      rw [← this]
      simp only [Result.TMatrix]
      ring
    · rintro rfl a b hab
      rw [ortho_sum _ _ _ _ hab]
      simp only [Result.TMatrix]
      ring
  refine ⟨(hR _).2 rfl, (hT _).2 rfl, ?_, fun hp => ?_⟩
  · rw [hR]
    simp only [Result.R, Result.RMatrix]
    constructor
    · intro h
      exact zero (by linarith)
    · rintro ⟨h1, h2⟩
      rw [h1, h2]
      simp
  · rw [hT]
    simp only [Result.T, Result.TMatrix]
    constructor
    · intro h
      have h' : res.power * (‖res.jt 0 1‖ ^ 2 + ‖res.jt 1 0‖ ^ 2) = 0 := by linarith
      exact zero ((mul_eq_zero.1 h').resolve_left hp)
    · rintro ⟨h1, h2⟩
      rw [h1, h2]
      simp

/-- A crystal plate in vacuum at normal incidence, axes along p and s: `ε = diag(1, 4, 1)`, thickness half a wavelength. -/
noncomputable def plate (lbda : ℝ) : Stack := ⟨isoTensor 1, [(lbda / 2, !![1, 0, 0; 0, 4, 0; 0, 0, 1])], isoTensor 1, true⟩

lemma plate_jones (lbda : ℝ) (hl : 0 < lbda) (ee) :
    (calculate4x4 propExpm (plate lbda) 0 lbda ee).jr = 0 ∧ (calculate4x4 propExpm (plate lbda) 0 lbda ee).jt = !![-1, 0; 0, 1] := by
  have hk : kxOf (plate lbda) 0 = 0 := by simp [kxOf, deg2rad]
  have hcos : ∀ e, cosPhi 0 (isoTensor e) = 1 := by
    intro e
    unfold cosPhi
    have := csqrt_ofReal (x := 1) (by norm_num)
    simpa using this
  have n1 : nOf (isoTensor 1) = 1 := by
    have := nOf_iso_sq (x := 1) (by norm_num)
    norm_num at this
    exact this
  have n2 : nOf (isoTensor 4) = 2 := by
    have := nOf_iso_sq (x := 2) (by norm_num)
    norm_num at this
    exact this
  have p1 := half_wave 0 1 (lbda / 2) lbda 1 hl.ne' one_ne_zero (by rw [hcos]; exact one_ne_zero) (by rw [hcos, n1]; push_cast; ring)
  have p2 := half_wave 0 4 (lbda / 2) lbda 2 hl.ne' (by norm_num) (by rw [hcos]; exact one_ne_zero) (by rw [hcos, n2]; push_cast; ring)
  rw [propExpm_iso] at p1 p2
  have hd : buildDelta 0 !![1, 0, 0; 0, 4, 0; 0, 0, 1] = blk (deltaS 0 4) (deltaP 0 1) := by
    unfold buildDelta blk deltaS deltaP
    ext i j
    fin_cases i <;> fin_cases j <;> simp
  have hprop : propExpm (buildDelta 0 !![1, 0, 0; 0, 4, 0; 0, 0, 1]) (-(lbda / 2)) lbda = blk 1 (-1) := by
    have : propExpm (buildDelta 0 !![1, 0, 0; 0, 4, 0; 0, 0, 1]) (-(lbda / 2)) lbda =
        blk (charMat (deltaS 0 4) lbda (lbda / 2)) (charMat (deltaP 0 1) lbda (lbda / 2)) := by
      unfold propExpm charMat
      rw [hd, smul_smul, blk_smul, exp_blk]
    rw [this]
    have q1 : charMat (deltaP 0 1) lbda (lbda / 2) = -1 := by
      have a00 := congrFun (congrFun p1 0) 0
      have a03 := congrFun (congrFun p1 0) 3
      have a30 := congrFun (congrFun p1 3) 0
      have a33 := congrFun (congrFun p1 3) 3
      simp [blk] at a00 a03 a30 a33
      ext i j
      fin_cases i <;> fin_cases j <;> simp [a00, a03, a30, a33]
    have q2 : charMat (deltaS 0 4) lbda (lbda / 2) = 1 := by
      have a00 := congrFun (congrFun p2 1) 1
      have a03 := congrFun (congrFun p2 1) 2
      have a30 := congrFun (congrFun p2 2) 1
      have a33 := congrFun (congrFun p2 2) 2
      simp [blk] at a00 a03 a30 a33
      ext i j
      fin_cases i <;> fin_cases j <;> simp [a00, a03, a30, a33]
    rw [q1, q2]
  have ht : transfer4x4 propExpm (plate lbda) 0 lbda ee = blkD 1 (-1) := by
    unfold transfer4x4
    rw [loop4x4_eq, hk]
    simp only [plate, List.map_cons, List.map_nil, List.prod_cons, List.prod_nil, mul_one, exitMatrix, if_true]
    rw [hprop, isoHalf_eq, isoHalfInv_eq, hcos, n1, blk_mul_blkC, blkR_mul_blkC, Matrix.one_mul, neg_mul, Matrix.one_mul, Matrix.mul_neg]
    congr 1
    · ext i j
      fin_cases i <;> fin_cases j <;> simp [DsInv, Ds, Matrix.mul_apply, Fin.sum_univ_two] <;> norm_num
    · congr 1
      ext i j
      fin_cases i <;> fin_cases j <;> simp [DpInv, Dp, Matrix.mul_apply, Fin.sum_univ_two] <;> norm_num
  simp only [calculate4x4, ht, tIt_blkD, tRt_blkD]
  have hinv : (!![(-1 : Mat2) 0 0, 0; 0, (1 : Mat2) 0 0] : Mat2)⁻¹ = !![-1, 0; 0, 1] := by
    have := inv_diag_two (a := -1) (b := 1) (by norm_num) one_ne_zero
    simpa using this
  rw [hinv]
  refine ⟨?_, rfl⟩
  ext i j
  fin_cases i <;> fin_cases j <;> simp

/-- C88 is false: a half-wave plate with its axes at 45 degrees to the plane of incidence, in vacuum at normal incidence. It is lossless and reflects nothing, all
unpolarised light passes, but both `R` and `T` are zero. -/
theorem C88_half_wave_plate_refuted (lbda : ℝ) (hl : 0 < lbda) (ee) (jones : Fin 2 → ℂ) :
    let s := moved (Spec.Rz (Real.pi / 4)) (plate lbda)
    let out := calculate4x4 propExpm s 0 lbda ee
    let res := Result.mk' out.jr out.jt out.power jones
    (∀ l ∈ s.layers, Lossless l.2) ∧ res.R = 0 ∧ res.T = 0 ∧ IsUnpolarised res.jr 1 0 ∧ IsUnpolarised res.jt res.power 1 := by
  intro s out res
  obtain ⟨r0, t0⟩ := plate_jones lbda hl ee
  have hn : nOf (plate lbda).front ≠ 0 := by
    have := nOf_iso_sq (x := 1) (by norm_num)
    norm_num at this
    change nOf (isoTensor 1) ≠ 0
    rw [this]
    exact one_ne_zero
  obtain ⟨hT, hR⟩ := C80_azimuth (plate lbda) rfl hn (Real.pi / 4) lbda ee ee
  rw [r0] at hR
  rw [t0] at hT
  have hs2 : ((Real.sqrt 2 : ℝ) : ℂ) ^ 2 = 2 := by
    rw [← Complex.ofReal_pow, Real.sq_sqrt (by norm_num)]
    norm_num
  have hjr : res.jr = 0 := by
    change (calculate4x4 propExpm s 0 lbda ee).jr = 0
    rw [hR]
    simp
  have hjt : res.jt = !![0, -1; -1, 0] := by
    change (calculate4x4 propExpm s 0 lbda ee).jt = _
    rw [hT]
    ext i j
    fin_cases i <;> fin_cases j <;> simp [turn2, Matrix.mul_apply, Fin.sum_univ_two] <;>
      first | ring1 | linear_combination (1 / 2 : ℂ) * hs2 | linear_combination (-1 / 2 : ℂ) * hs2
  have hpow : res.power = 1 := by
    change ((calculate4x4 propExpm s 0 lbda ee).power).getD 1 = 1
    have hk : kxOf s 0 = 0 := by simp [kxOf, deg2rad]
    have n1 : nOf (isoTensor 1) = 1 := by
      have := nOf_iso_sq (x := 1) (by norm_num)
      norm_num at this
      exact this
    have hone : Complex.sqrt 1 = 1 := by
      have := csqrt_ofReal (x := 1) (by norm_num)
      simpa using this
    simp only [calculate4x4, hk, getKz]
    change ((if true then some ((Complex.sqrt (nOf (isoTensor 1) ^ 2 - 0 ^ 2)).re / (Complex.sqrt (nOf (isoTensor 1) ^ 2 - 0 ^ 2)).re) else none : Option ℝ)).getD 1 = 1
    rw [n1]
    simp [hone]
  have hsum := C88_R_partial res
  refine ⟨?_, ?_, ?_, ?_, ?_⟩
  · intro l hl
    obtain ⟨m, hm, rfl⟩ := List.mem_map.1 hl
    rw [List.mem_singleton.1 hm]
    have hA : (!![1, 0, 0; 0, 4, 0; 0, 0, 1] : Tensor).IsHermitian := by
      ext i j
      fin_cases i <;> fin_cases j <;> simp
    have hR : ((Spec.Rz (Real.pi / 4)).map Complex.ofReal)ᵀ = ((Spec.Rz (Real.pi / 4)).map Complex.ofReal)ᴴ := by
      ext i j
      simp
    change (_ * _ * _ : Tensor).IsHermitian
    rw [hR]
    exact Matrix.isHermitian_mul_mul_conjTranspose _ hA
  · simp [Result.R, Result.RMatrix, hjr]
  · simp [Result.T, Result.TMatrix, hjt]
  · have := hsum.1
    simpa [Result.RMatrix, hjr] using this
  · have := hsum.2.1
    simpa [Result.TMatrix, hjt, hpow] using this

/-- C88: for samples of isotropic layers `R` and `T` are the values for unpolarised light. -/
theorem C88_isotropic (s : Stack) (theta lbda : ℝ) (ee) (hiso : IsoLayers s.layers) (hb : s.backIsotropic = true) (jones : Fin 2 → ℂ) :
    let out := calculate4x4 propExpm s theta lbda ee
    let res := Result.mk' out.jr out.jt out.power jones
    IsUnpolarised res.jr 1 res.R ∧ IsUnpolarised res.jt res.power res.T := by
  intro out res
  have x1 := C38_no_cross_polarisation s theta lbda ee hiso hb 0 1 (by decide)
  have x2 := C38_no_cross_polarisation s theta lbda ee hiso hb 1 0 (by decide)
  have h := C88_R_partial res
  refine ⟨h.2.2.1.2 ⟨x1.1, x2.1⟩, ?_⟩
  have e : res.T = (res.TMatrix 0 0 + res.TMatrix 0 1 + res.TMatrix 1 0 + res.TMatrix 1 1) / 2 := by
    have y1 : res.jt 0 1 = 0 := x1.2
    have y2 : res.jt 1 0 = 0 := x2.2
    simp [Result.T, Result.TMatrix, y1, y2]
  rw [e]
  exact h.2.1

example : IsoLayers (demoStack 4).layers ∧ (demoStack 4).backIsotropic = true := ⟨by simp [demoStack, IsoLayers, isoTensor], rfl⟩

end PyElli
