import Verif.Model.Result
import Verif.Spec.Polarisation
import Verif.Lemmas.Mueller
import Verif.Props.Angles
import Mathlib.Tactic

/-! # Mueller matrices and circular polarisation (C10 - C14) -/

namespace PyElli

open Complex Matrix Spec

lemma raw00_pos (J : Mat2) (h : J 1 1 ≠ 0) : 0 < muellerRaw (rhoMatrix J) 0 0 := by
  have h1 : rhoMatrix J 1 1 = 1 := by simp [rhoMatrix, h]
  simp only [muellerRaw]
  simp only [h1]
  simp
  have := Complex.normSq_nonneg (rhoMatrix J 0 0)
  have := Complex.normSq_nonneg (rhoMatrix J 0 1)
  have := Complex.normSq_nonneg (rhoMatrix J 1 0)
  linarith

lemma muellerMatrix_eq (J : Mat2) (i j : Fin 4) :
    muellerMatrix J i j = muellerRaw (rhoMatrix J) i j / muellerRaw (rhoMatrix J) 0 0 := by
  simp only [muellerMatrix, muellerComplex_eq, Complex.ofReal_re]

lemma raw_bound (M : Mat2) (i j : Fin 4) : |muellerRaw M i j| ≤ muellerRaw M 0 0 := by
  have sq : ∀ x y : ℝ, 0 ≤ x ^ 2 + y ^ 2 - 2 * (x * y) ∧ 0 ≤ x ^ 2 + y ^ 2 + 2 * (x * y) := by
    intro x y
    constructor
    · nlinarith [sq_nonneg (x - y)]
    · nlinarith [sq_nonneg (x + y)]
  rw [abs_le]
  generalize ha : M 0 0 = a
  generalize hb : M 0 1 = b
  generalize hc : M 1 0 = c
  generalize hd : M 1 1 = d
  obtain ⟨s1, s1'⟩ := sq a.re b.re
  obtain ⟨s2, s2'⟩ := sq a.im b.im
  obtain ⟨s3, s3'⟩ := sq c.re d.re
  obtain ⟨s4, s4'⟩ := sq c.im d.im
  obtain ⟨s5, s5'⟩ := sq a.re b.im
  obtain ⟨s6, s6'⟩ := sq a.im b.re
  obtain ⟨s7, s7'⟩ := sq c.re d.im
  obtain ⟨s8, s8'⟩ := sq c.im d.re
  obtain ⟨t1, t1'⟩ := sq a.re c.re
  obtain ⟨t2, t2'⟩ := sq a.im c.im
  obtain ⟨t3, t3'⟩ := sq b.re d.re
  obtain ⟨t4, t4'⟩ := sq b.im d.im
  obtain ⟨t5, t5'⟩ := sq a.re c.im
  obtain ⟨t6, t6'⟩ := sq a.im c.re
  obtain ⟨t7, t7'⟩ := sq b.re d.im
  obtain ⟨t8, t8'⟩ := sq b.im d.re
  obtain ⟨u1, u1'⟩ := sq a.re d.re
  obtain ⟨u2, u2'⟩ := sq a.im d.im
  obtain ⟨u3, u3'⟩ := sq b.re c.re
  obtain ⟨u4, u4'⟩ := sq b.im c.im
  obtain ⟨u5, u5'⟩ := sq a.re d.im
  obtain ⟨u6, u6'⟩ := sq a.im d.re
  obtain ⟨u7, u7'⟩ := sq b.re c.im
  obtain ⟨u8, u8'⟩ := sq b.im c.re
  have p1 := sq_nonneg a.re
  have p2 := sq_nonneg a.im
  have p3 := sq_nonneg b.re
  have p4 := sq_nonneg b.im
  have p5 := sq_nonneg c.re
  have p6 := sq_nonneg c.im
  have p7 := sq_nonneg d.re
  have p8 := sq_nonneg d.im
  refine ⟨?_, ?_⟩ <;> fin_cases i <;> fin_cases j <;>
    simp [muellerRaw, ha, hb, hc, hd, Complex.normSq_apply] <;> linarith

/-! ## C10 -/

/-- C10: the imaginary part discarded by `np.real` is zero, `M11 = 1`, and all entries lie in [-1, 1]. -/
theorem C10_mueller_normalised (J : Mat2) (h : J 1 1 ≠ 0) (i j : Fin 4) :
    (muellerComplex J i j).im = 0 ∧ muellerMatrix J 0 0 = 1 ∧
      -1 ≤ muellerMatrix J i j ∧ muellerMatrix J i j ≤ 1 := by
  have hpos := raw00_pos J h
  have hb := abs_le.1 (raw_bound (rhoMatrix J) i j)
  refine ⟨?_, ?_, ?_, ?_⟩
  · rw [muellerComplex_eq, Complex.ofReal_im]
  · rw [muellerMatrix_eq, div_self hpos.ne']
  · rw [muellerMatrix_eq, le_div_iff₀ hpos]
    linarith [hb.1]
  · rw [muellerMatrix_eq, div_le_one hpos]
    exact hb.2

example : (!![1, 2; I, 3] : Mat2) 1 1 ≠ 0 := by simp

/-! ## C11 -/

lemma raw_mulVec (M : Mat2) (a b : ℂ) :
    (muellerRaw M).mulVec (Spec.stokes a b) =
      Spec.stokes (M 0 0 * a + M 0 1 * b) (M 1 0 * a + M 1 1 * b) := by
  rw [stokes_explicit, stokes_explicit]
  ext i
  fin_cases i <;>
    simp [muellerRaw, Matrix.mulVec, dotProduct, Fin.sum_univ_four, Complex.normSq_apply] <;> ring

lemma raw_rho (J : Mat2) (i j : Fin 4) :
    muellerRaw (rhoMatrix J) i j = muellerRaw J i j / Complex.normSq (J 1 1) := by
  have key : ∀ x y : ℂ, (x / J 1 1) * (starRingEnd ℂ) (y / J 1 1) =
      (x * (starRingEnd ℂ) y) / ((Complex.normSq (J 1 1) : ℝ) : ℂ) := by
    intro x y
    rw [map_div₀, div_mul_div_comm, Complex.mul_conj]
  fin_cases i <;> fin_cases j <;>
    simp only [muellerRaw, rhoMatrix, key, Complex.normSq_div, Complex.div_ofReal_re,
      Complex.div_ofReal_im] <;> simp <;> ring

lemma mueller_eq_raw (J : Mat2) (h : J 1 1 ≠ 0) (i j : Fin 4) :
    muellerMatrix J i j = muellerRaw J i j / muellerRaw J 0 0 := by
  rw [muellerMatrix_eq, raw_rho, raw_rho]
  have : Complex.normSq (J 1 1) ≠ 0 := by simpa using h
  field_simp

/-- C11: applying the Mueller matrix to the Stokes vector (intensities behind analysers) of any
incident Jones vector gives the Stokes vector of the reflected Jones vector `J v`, divided by the mean power
reflectance `(|rpp|² + |rps|² + |rsp|² + |rss|²)/2`. -/
theorem C11_mueller_acts (J : Mat2) (h : J 1 1 ≠ 0) (a b : ℂ) (i : Fin 4) :
    (muellerMatrix J).mulVec (Spec.stokes a b) i =
      Spec.stokes (J 0 0 * a + J 0 1 * b) (J 1 0 * a + J 1 1 * b) i /
        ((normSq (J 0 0) + normSq (J 0 1) + normSq (J 1 0) + normSq (J 1 1)) / 2) := by
  have e := congrFun (raw_mulVec J a b) i
  have h0 : muellerRaw J 0 0 =
      (normSq (J 0 0) + normSq (J 0 1) + normSq (J 1 0) + normSq (J 1 1)) / 2 := by
    simp [muellerRaw]
  rw [← e, ← h0]
  simp only [Matrix.mulVec, dotProduct, Finset.sum_div]
  apply Finset.sum_congr rfl
  intro k _
  rw [mueller_eq_raw J h]
  ring

/-- C11 in terms of the model's `set_vector`: the Stokes vector stored for the reflected Jones
vector is the Mueller matrix applied to the stored Stokes vector of the incident one, times the mean
reflectance. -/
theorem C11_mueller_matches_set_vector (st : Pol) (J : Mat2) (h : J 1 1 ≠ 0) (a b : ℂ) (i : Fin 4)
    (s s' : ℝ × ℝ × ℝ × ℝ) (hs : (setVector st (.jones a b)).stokes = some s)
    (hs' : (setVector st (.jones (J 0 0 * a + J 0 1 * b) (J 1 0 * a + J 1 1 * b))).stokes = some s') :
    (![s'.1, s'.2.1, s'.2.2.1, s'.2.2.2] : Fin 4 → ℝ) i =
      (muellerMatrix J).mulVec ![s.1, s.2.1, s.2.2.1, s.2.2.2] i *
        ((normSq (J 0 0) + normSq (J 0 1) + normSq (J 1 0) + normSq (J 1 1)) / 2) := by
  have vec : ∀ x y : ℂ, (![(stokesOfJones x y).1, (stokesOfJones x y).2.1, (stokesOfJones x y).2.2.1,
      (stokesOfJones x y).2.2.2] : Fin 4 → ℝ) = Spec.stokes x y := by
    intro x y
    rw [stokesOfJones_eq]
    ext k
    fin_cases k <;> simp
  simp only [setVector, Option.some.injEq] at hs hs'
  rw [← hs, ← hs', vec, vec, C11_mueller_acts J h]
  have hpos : 0 < normSq (J 1 1) := Complex.normSq_pos.2 h
  have := Complex.normSq_nonneg (J 0 0)
  have := Complex.normSq_nonneg (J 0 1)
  have := Complex.normSq_nonneg (J 1 0)
  field_simp

/-! ## C12 -/

lemma cos_sin_two {psi t : ℝ} (h0 : 0 < Real.cos psi) (ht : Real.tan psi = t) :
    Real.cos (2 * psi) = (1 - t ^ 2) / (1 + t ^ 2) ∧ Real.sin (2 * psi) = 2 * t / (1 + t ^ 2) := by
  have hc := h0.ne'
  have hs : Real.sin psi = t * Real.cos psi := by
    rw [← ht, Real.tan_eq_sin_div_cos]
    field_simp
  have h1 : (1 + t ^ 2) * Real.cos psi ^ 2 = 1 := by
    have := Real.sin_sq_add_cos_sq psi
    rw [hs] at this
    nlinarith
  have hpos : 0 < 1 + t ^ 2 := by positivity
  constructor
  · rw [eq_div_iff hpos.ne', Real.cos_two_mul]
    nlinarith
  · rw [eq_div_iff hpos.ne', Real.sin_two_mul, hs]
    linear_combination 2 * t * h1

/-- C12: for a sample without cross polarisation illuminated with diagonal light, the Mueller matrix
has the N/C/S form in terms of the `psi` and `delta` of the same result. In the code's sign
convention the lower right block is `[[C, -S], [S, C]]`. -/
theorem C12_isotropic_mueller (jr jt : Mat2) (power : Option ℝ) (v : ℂ) (hv : v ≠ 0)
    (hss : jr 1 1 ≠ 0) (hps : jr 0 1 = 0) (hsp : jr 1 0 = 0) :
    let res := Result.mk' jr jt power ![v, v]
    let psi := res.psi * Real.pi / 180
    let delta := res.delta * Real.pi / 180
    muellerMatrix jr = isoMueller (Real.cos (2 * psi)) (Real.sin (2 * psi) * Real.cos delta)
      (-(Real.sin (2 * psi) * Real.sin delta)) := by
  intro res psi delta
  have hrho : res.rho = jr 0 0 / jr 1 1 := by
    simp only [res, Result.rho, foldRho, Result.mk']
    rw [if_neg (by norm_num)]
    simp only [ratioOf, rhoMatrix, Matrix.mulVec, dotProduct, Fin.sum_univ_two]
    simp [hps, hsp, hss]
    field_simp
  have hE : EllipsometricEq res.rho res.psi res.delta := C03_round_trip_default jr jt power _
  obtain ⟨hp0, hp90, htan⟩ := C04_psi_window res
  have hcos : 0 < Real.cos psi := by
    apply Real.cos_pos_of_mem_Ioo
    have hpi := Real.pi_pos
    constructor
    · have : 0 ≤ psi := by positivity
      linarith
    · have : psi = res.psi * (Real.pi / 180) := by simp only [psi]; ring
      rw [this]
      nlinarith
  obtain ⟨hc2, hs2⟩ := cos_sin_two hcos htan
  set t := ‖res.rho‖ with ht
  have hre : res.rho.re = t * Real.cos delta ∧ res.rho.im = -(t * Real.sin delta) := by
    unfold EllipsometricEq at hE
    rw [htan] at hE
    have hd : res.delta * Real.pi / 180 = delta := rfl
    rw [hd] at hE
    generalize Real.cos delta = c at hE ⊢
    generalize Real.sin delta = s at hE ⊢
    constructor
    · rw [hE]
      simp
    · rw [hE]
      simp
  have hsq : t ^ 2 = normSq res.rho := by rw [ht, Complex.normSq_eq_norm_sq]
  have hz : rhoMatrix jr = !![res.rho, 0; 0, 1] := by
    ext i j
    fin_cases i <;> fin_cases j <;> simp [rhoMatrix, hps, hsp, hss, hrho]
  have hpos : (1 + t ^ 2) ≠ 0 := by positivity
  have hpos' : (t ^ 2 + 1) ≠ 0 := by positivity
  ext i j
  rw [muellerMatrix_eq, hz]
  fin_cases i <;> fin_cases j <;>
    simp [muellerRaw, isoMueller, hc2, hs2, ← hsq, hre.1, hre.2] <;>
    first | exact hpos' | (field_simp; done) | (field_simp; ring)

example : (!![1, 0; 0, 2] : Mat2) 1 1 ≠ 0 ∧ (!![1, 0; 0, 2] : Mat2) 0 1 = 0 ∧
    (!![1, 0; 0, 2] : Mat2) 1 0 = 0 ∧ (1 : ℂ) ≠ 0 := by simp

/-! ## C13 -/

/-- C13 is false: the matrix produced for any `psi, delta` has `C = S`; for `psi = pi/4, delta = 0` it is not
the matrix of any isotropic sample, in any unit or sign convention (`N² + C² + S² = 2`), and for
`psi = 45, delta = 90` (degrees) it differs from the correct one. -/
theorem C13_converter_refuted :
    (∀ psi delta, isoMuellerOfPsiDelta psi delta 2 2 = isoMuellerOfPsiDelta psi delta 2 3) ∧
    (isoMuellerOfPsiDelta (Real.pi / 4) 0 0 1) ^ 2 + (isoMuellerOfPsiDelta (Real.pi / 4) 0 2 2) ^ 2 +
      (isoMuellerOfPsiDelta (Real.pi / 4) 0 2 3) ^ 2 = 2 ∧
    ¬ ∃ psi delta : ℝ, isoMuellerOfPsiDelta (Real.pi / 4) 0 =
      isoMueller (Real.cos psi) (Real.sin psi * Real.cos delta) (Real.sin psi * Real.sin delta) := by
  have e : 2 * (Real.pi / 4) = Real.pi / 2 := by ring
  refine ⟨?_, ?_, ?_⟩
  · intro psi delta
    simp [isoMuellerOfPsiDelta]
  · simp [isoMuellerOfPsiDelta, e]
    norm_num
  · rintro ⟨psi, delta, h⟩
    have h1 := congrFun (congrFun h 0) 1
    have h2 := congrFun (congrFun h 2) 2
    have h3 := congrFun (congrFun h 2) 3
    simp [isoMuellerOfPsiDelta, isoMueller, e] at h1 h2 h3
    have := Real.sin_sq_add_cos_sq psi
    have := Real.sin_sq_add_cos_sq delta
    have hs : (Real.sin psi * Real.cos delta) ^ 2 + (Real.sin psi * Real.sin delta) ^ 2 =
        Real.sin psi ^ 2 := by
      have : (Real.sin psi * Real.cos delta) ^ 2 + (Real.sin psi * Real.sin delta) ^ 2 =
        Real.sin psi ^ 2 * (Real.sin delta ^ 2 + Real.cos delta ^ 2) := by ring
      rw [this, Real.sin_sq_add_cos_sq, mul_one]
    rw [← h2, ← h3] at hs
    nlinarith [sq_nonneg (Real.cos psi)]

/-- C13: what does hold. The upper left block and the zero blocks are right when `psi` is read in
radians. Missing: C and S, and the conversion from degrees. -/
theorem C13_converter_partial (psi delta : ℝ) (i j : Fin 4) (h : i.val < 2 ∨ j.val < 2) :
    isoMuellerOfPsiDelta psi delta i j =
      isoMueller (Real.cos (2 * psi)) (Real.sin (2 * psi) * Real.cos delta)
        (Real.sin (2 * psi) * Real.sin delta) i j := by
  fin_cases i <;> fin_cases j <;> simp [isoMuellerOfPsiDelta, isoMueller] at * 

example : (0 : Fin 4).val < 2 ∨ (3 : Fin 4).val < 2 := Or.inl (by norm_num)

/-! ## C14 -/

lemma isqrt2 : (1 / (Real.sqrt 2 : ℂ)) * (1 / (Real.sqrt 2 : ℂ)) = 1 / 2 := by
  have := isq2_sq
  have h2 : ((1 / Real.sqrt 2 : ℝ) : ℂ) * ((1 / Real.sqrt 2 : ℝ) : ℂ) = ((1 / 2 : ℝ) : ℂ) := by
    rw [← Complex.ofReal_mul, this]
  push_cast at h2
  exact h2

lemma circC_inv : circC⁻¹ = (1 / (Real.sqrt 2 : ℂ)) • !![1, -I; 1, I] := by
  apply Matrix.inv_eq_right_inv
  unfold circC
  rw [Matrix.smul_mul, Matrix.mul_smul, smul_smul, isqrt2]
  ext i j
  fin_cases i <;> fin_cases j <;> simp [Matrix.mul_apply, Fin.sum_univ_two] <;> norm_num

lemma circD_inv : circD⁻¹ = -((1 / (Real.sqrt 2 : ℂ)) • !![1, -I; 1, I]) := by
  apply Matrix.inv_eq_right_inv
  unfold circD
  rw [Matrix.mul_neg, Matrix.smul_mul, Matrix.mul_smul, smul_smul, isqrt2]
  ext i j
  fin_cases i <;> fin_cases j <;> simp [Matrix.mul_apply, Fin.sum_univ_two] <;> norm_num

lemma jonesTc_explicit (J : Mat2) : jonesTc J = (1 / 2 : ℂ) •
    !![J 0 0 + I * J 0 1 - I * J 1 0 + J 1 1, J 0 0 - I * J 0 1 - I * J 1 0 - J 1 1;
       J 0 0 + I * J 0 1 + I * J 1 0 - J 1 1, J 0 0 - I * J 0 1 + I * J 1 0 + J 1 1] := by
  unfold jonesTc
  rw [circC_inv]
  unfold circC
  rw [Matrix.smul_mul, Matrix.mul_smul, Matrix.smul_mul, smul_smul, isqrt2]
  have hI : I ^ 2 = -1 := Complex.I_sq
  rw [Matrix.eta_fin_two J]
  generalize J 0 0 = a
  generalize J 0 1 = b
  generalize J 1 0 = c
  generalize J 1 1 = d
  ext i j
  fin_cases i <;> fin_cases j <;> simp [Matrix.mul_apply, Fin.sum_univ_two] <;>
    ring_nf <;> rw [hI] <;> ring

lemma jonesRc_explicit (J : Mat2) : jonesRc J = -jonesTc J := by
  unfold jonesRc jonesTc
  rw [circC_inv, circD_inv, Matrix.neg_mul, Matrix.neg_mul]

/-- C14: the change to the circular basis keeps the total reflectance and the total
transmittance. -/
theorem C14_circular_power (res : Result) :
    (∑ i, ∑ j, res.RcMatrix i j = ∑ i, ∑ j, res.RMatrix i j) ∧
      (∑ i, ∑ j, res.TcMatrix i j = ∑ i, ∑ j, res.TMatrix i j) := by
  have key : ∀ J : Mat2, ∑ i, ∑ j, ‖jonesTc J i j‖ ^ 2 = ∑ i, ∑ j, ‖J i j‖ ^ 2 := by
    intro J
    rw [jonesTc_explicit]
    simp only [Fin.sum_univ_two, ← Complex.normSq_eq_norm_sq, Complex.normSq_apply]
    simp
    ring
  constructor
  · simp only [Result.RcMatrix, Result.RMatrix, jonesRc_explicit, Matrix.neg_apply, norm_neg, key]
  · simp only [Result.TcMatrix, Result.TMatrix, ← Finset.sum_mul, key]

/-- C14: an isotropic mirror at normal incidence (`r_pp = -r_ss`, no cross terms) changes the
handedness: co-polarised circular reflectances vanish, cross-polarised ones equal `|r|²`. -/
theorem C14_mirror_flips_handedness (res : Result) (r : ℂ) (h : res.jr = !![-r, 0; 0, r]) :
    res.RcMatrix 0 0 = 0 ∧ res.RcMatrix 1 1 = 0 ∧ res.RcMatrix 0 1 = ‖r‖ ^ 2 ∧
      res.RcMatrix 1 0 = ‖r‖ ^ 2 := by
  simp only [Result.RcMatrix, jonesRc_explicit, jonesTc_explicit, h]
  have : -r - r = -(2 * r) := by ring
  simp [this]

/-- C14: a sample that transmits both polarisations alike keeps the handedness. -/
theorem C14_window_keeps_handedness (res : Result) (t : ℂ) (h : res.jt = !![t, 0; 0, t]) :
    res.TcMatrix 0 1 = 0 ∧ res.TcMatrix 1 0 = 0 ∧ res.TcMatrix 0 0 = ‖t‖ ^ 2 * res.power ∧
      res.TcMatrix 1 1 = ‖t‖ ^ 2 * res.power := by
  simp only [Result.TcMatrix, jonesTc_explicit, h]
  have : t + t = 2 * t := by ring
  simp [this]

example : (Result.mk' !![-(1/2), 0; 0, 1/2] 1 none ![1, 1]).jr = !![-(1/2 : ℂ), 0; 0, 1/2] := rfl

end PyElli
