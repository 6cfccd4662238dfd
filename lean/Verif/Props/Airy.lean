import Verif.Props.Bragg
import Verif.Spec.Film

/-!
# C94: single films and total reflection in closed form
-/

namespace PyElli

open Matrix Complex Spec

/-- Two interfaces and a phase. -/
lemma film_matrix {r t r' t' b : ℂ} (ht : t ≠ 0) (ht' : t' ≠ 0) (M : Mat2)
    (hM : M = interfaceMatrix r t * !![Complex.exp (-I * b), 0; 0, Complex.exp (I * b)] * interfaceMatrix r' t') (h0 : M 0 0 ≠ 0) :
    M 1 0 / M 0 0 = airyR r r' b ∧ 1 / M 0 0 = airyT r r' t t' b ∧ 1 + r * r' * Complex.exp (2 * I * b) ≠ 0 := by
  have e1 : Complex.exp (2 * I * b) = Complex.exp (I * b) ^ 2 := by rw [← Complex.exp_nat_mul]; congr 1; push_cast; ring
  have e2 : Complex.exp (-I * b) = (Complex.exp (I * b))⁻¹ := by rw [← Complex.exp_neg]; congr 1; ring
  have e3 : Complex.exp (I * b) ≠ 0 := Complex.exp_ne_zero _
  unfold airyR airyT
  rw [e1]
  rw [e2] at hM
  generalize Complex.exp (I * b) = u at *
  have m0 : M 0 0 = (1 + r * r' * u ^ 2) / (t * t' * u) := by
    rw [hM]
    simp [interfaceMatrix, Matrix.mul_apply, Fin.sum_univ_two]
    field_simp
  have m1 : M 1 0 = (r + r' * u ^ 2) / (t * t' * u) := by
    rw [hM]
    simp [interfaceMatrix, Matrix.mul_apply, Fin.sum_univ_two]
    field_simp
  have hd : 1 + r * r' * u ^ 2 ≠ 0 := by
    intro h
    apply h0
    rw [m0, h, zero_div]
  refine ⟨?_, ?_, hd⟩
  · rw [m0, m1]
    field_simp
  · rw [m0]
    field_simp

lemma fresnelS_eq (n c n' c' : ℂ) : (n * c - n' * c') / (n * c + n' * c') = rS (n * c) (n' * c') ∧ 2 * n * c / (n * c + n' * c') = tS (n * c) (n' * c') := by
  unfold rS tS
  exact ⟨rfl, by rw [mul_assoc]⟩

lemma fresnelP_eq {n c n' c' : ℂ} (hn : n ≠ 0) (hn' : n' ≠ 0) :
    (n' * c - n * c') / (n' * c + n * c') = rP (n ^ 2) (n * c) (n' ^ 2) (n' * c') ∧
    2 * n * c / (n' * c + n * c') = tP n (n * c) n' (n' * c') := by
  unfold rP tP
  have h1 : n' ^ 2 * (n * c) + n ^ 2 * (n' * c') = (n * n') * (n' * c + n * c') := by ring
  have h2 : n' ^ 2 * (n * c) - n ^ 2 * (n' * c') = (n * n') * (n' * c - n * c') := by ring
  have h3 : 2 * n * n' * (n * c) = (n * n') * (2 * n * c) := by ring
  have h0 : n * n' ≠ 0 := mul_ne_zero hn hn'
  rw [h1, h2, h3, mul_div_mul_left _ _ h0, mul_div_mul_left _ _ h0]
  exact ⟨rfl, rfl⟩

/-- `n cos φ` of a passive medium. -/
lemma kz_medium {e : ℂ} (kx : ℝ) (he0 : e ≠ 0) (he : 0 ≤ e.im) :
    nOf (isoTensor e) = Complex.sqrt e ∧ nOf (isoTensor e) * cosPhi kx (isoTensor e) = Complex.sqrt (e - (kx : ℂ) ^ 2) ∧
      nOf (isoTensor e) ^ 2 = e ∧ nOf (isoTensor e) ≠ 0 ∧ cosPhi kx (isoTensor e) ^ 2 = 1 - ((kx : ℂ) / nOf (isoTensor e)) ^ 2 := by
  have h1 : nOf (isoTensor e) = Complex.sqrt e := by simp [nOf, isoTensor]
  have h2 := kz_exit kx he0 he
  refine ⟨h1, ?_, by rw [h1, csqrt_sq], by rw [h1]; exact fun h => he0 (csqrt_eq_zero.1 h), ?_⟩
  · unfold cosPhi
    rw [h1, ← h2, csqrt_sq]
  · unfold cosPhi
    rw [csqrt_sq]

lemma film_assoc {D0 D0i D1 D1i Db E I1 I2 : Mat2} (h0 : D0i * D0 = 1) (h1 : D1i * D1 = 1) (i1 : D0 * I1 = D1) (i2 : D1 * I2 = Db) :
    D0i * (D1 * E * D1i) * Db = I1 * E * I2 := by
  have a : D0i * D1 = I1 := by rw [← i1, ← Matrix.mul_assoc, h0, Matrix.one_mul]
  have b : D1i * Db = I2 := by rw [← i2, ← Matrix.mul_assoc, h1, Matrix.one_mul]
  rw [← a, ← b]
  simp only [Matrix.mul_assoc]

/-- C94, Airy's formulas: a film of any passive isotropic material on any passive isotropic substrate. The two Fresnel denominators of the
p wave are assumed not to vanish at the lower interface (a vanishing one is a surface plasmon of a lossless interface). -/
theorem C94_airy (n0 theta lbda d : ℝ) (e1 eb : ℂ) (ee) (hn0 : 0 < n0) (hth : |theta| < 90) (hl : 0 < lbda) (hd : 0 ≤ d)
    (h1 : e1 ≠ 0) (h1' : 0 ≤ e1.im) (hb : eb ≠ 0) (hb' : 0 ≤ eb.im) :
    let kx : ℝ := n0 * Real.sin (deg2rad theta)
    let q0 : ℂ := n0 * (Real.cos (deg2rad theta) : ℝ)
    let q1 := Complex.sqrt (e1 - kx ^ 2)
    let qb := Complex.sqrt (eb - kx ^ 2)
    let b := 2 * Real.pi * q1 * d / lbda
    let out := calculate4x4 propExpm ⟨isoTensor ((n0 ^ 2 : ℝ) : ℂ), [(d, isoTensor e1)], isoTensor eb, true⟩ theta lbda ee
    q1 ≠ 0 →
    (out.jr 1 1 = airyR (rS q0 q1) (rS q1 qb) b ∧ out.jt 1 1 = airyT (rS q0 q1) (rS q1 qb) (tS q0 q1) (tS q1 qb) b ∧
      1 + rS q0 q1 * rS q1 qb * Complex.exp (2 * I * b) ≠ 0) ∧
    (eb * q1 + e1 * qb ≠ 0 →
      out.jr 0 0 = airyR (rP (n0 ^ 2) q0 e1 q1) (rP e1 q1 eb qb) b ∧
      out.jt 0 0 = airyT (rP (n0 ^ 2) q0 e1 q1) (rP e1 q1 eb qb) (tP n0 q0 (Complex.sqrt e1) q1) (tP (Complex.sqrt e1) q1 (Complex.sqrt eb) qb) b ∧
      1 + rP (n0 ^ 2) q0 e1 q1 * rP e1 q1 eb qb * Complex.exp (2 * I * b) ≠ 0) := by
  intro kx q0 q1 qb b out hq1
  set s : Stack := ⟨isoTensor ((n0 ^ 2 : ℝ) : ℂ), [(d, isoTensor e1)], isoTensor eb, true⟩ with hs
  have hf : s.front 0 0 = ((n0 ^ 2 : ℝ) : ℂ) := by simp [hs, isoTensor]
  have hpass : PassiveStack s theta lbda :=
    { front := ⟨n0, hn0, hf⟩
      angle := hth
      lbda_pos := hl
      layers := by
        intro l hl
        simp only [hs, List.mem_singleton] at hl
        subst hl
        exact ⟨hd, by simpa [isoTensor] using h1, passive_isoTensor h1'⟩
      back_ne := by simpa [hs, isoTensor] using hb
      back_passive := by simpa [hs, isoTensor] using hb'
      iso := rfl }
  have hiso : IsoLayers s.layers := by
    intro l hl
    simp only [hs, List.mem_singleton] at hl
    subst hl
    ext i j
    simp [isoTensor]
  have hT := transfer4x4_iso s theta lbda ee hiso rfl
  obtain ⟨hS, hP⟩ := transfer_diag_ne s theta lbda hpass ee _ _ hT
  obtain ⟨hr, ht⟩ := calc4x4_of_blkD s theta lbda ee _ _ hT hS hP
  have hkx : kxOf s theta = ((kx : ℝ) : ℂ) := kxOf_real hn0 hf theta
  have hcos := cos_pos_of_angle hth
  have hnf : nOf s.front = n0 := nOf_front hn0 hf
  have n0' : (n0 : ℂ) ≠ 0 := by exact_mod_cast hn0.ne'
  have c0' : ((Real.cos (deg2rad theta) : ℝ) : ℂ) ≠ 0 := by exact_mod_cast hcos.ne'
  have hcf : cosPhi (kxOf s theta) s.front = (Real.cos (deg2rad theta) : ℝ) := cosPhi_front s theta (by rw [hnf]; exact n0') hcos
  obtain ⟨a1, a2, a3, a4, a5⟩ := kz_medium kx h1 h1'
  obtain ⟨b1, b2, b3, b4, b5⟩ := kz_medium kx hb hb'
  rw [hcf, hnf, hkx] at hS hP hr ht
  have hback : s.back = isoTensor eb := rfl
  rw [hback] at hS hP hr ht
  set n1 := nOf (isoTensor e1) with hn1
  set c1 := cosPhi (kx : ℂ) (isoTensor e1) with hc1
  set nb := nOf (isoTensor eb) with hnb
  set cb := cosPhi (kx : ℂ) (isoTensor eb) with hcb
  set c0 := ((Real.cos (deg2rad theta) : ℝ) : ℂ) with hc0
  have hq1' : n1 * c1 ≠ 0 := by rw [a2]; exact hq1
  have c1' := right_ne_zero_of_mul hq1'
  have eS : charMat (deltaS kx e1) lbda d = Ds n1 c1 * !![Complex.exp (-I * b), 0; 0, Complex.exp (I * b)] * DsInv n1 c1 := by
    have h := congrArg (fun A => A * DsInv n1 c1) (charS_mul a4 c1' a3 a5 lbda d)
    simp only [Matrix.mul_assoc] at h
    rw [Ds_mul_inv a4 c1', Matrix.mul_one] at h
    rw [h, Matrix.mul_assoc]
    have : 2 * Real.pi * n1 * c1 / lbda * d = b := by simp only [b]; rw [mul_assoc _ n1, a2]; ring
    rw [this]
  have eP : charMat (deltaP kx e1) lbda d = Dp n1 c1 * !![Complex.exp (-I * b), 0; 0, Complex.exp (I * b)] * DpInv n1 c1 := by
    have h := congrArg (fun A => A * DpInv n1 c1) (charP_mul a4 c1' a3 a5 lbda d)
    simp only [Matrix.mul_assoc] at h
    rw [Dp_mul_inv a4 c1', Matrix.mul_one] at h
    rw [h, Matrix.mul_assoc]
    have : 2 * Real.pi * n1 * c1 / lbda * d = b := by simp only [b]; rw [mul_assoc _ n1, a2]; ring
    rw [this]
  have pS : prodS kx lbda s.layers = charMat (deltaS kx e1) lbda d := by simp [prodS, hs, isoTensor]
  have pP : prodP kx lbda s.layers = charMat (deltaP kx e1) lbda d := by simp [prodP, hs, isoTensor]
  rw [pS] at hS
  rw [pP] at hP
  rw [pS, pP] at hr ht
  have hq0 : (n0 : ℂ) * c0 = q0 := rfl
  -- first quadrant
  have q1re : 0 ≤ q1.re := csqrt_re_nonneg _
  have q1im : 0 ≤ q1.im := csqrt_im_nonneg (by rw [← Complex.ofReal_pow, Complex.sub_im, Complex.ofReal_im, sub_zero]; exact h1')
  have qbre : 0 ≤ qb.re := csqrt_re_nonneg _
  have qbim : 0 ≤ qb.im := csqrt_im_nonneg (by rw [← Complex.ofReal_pow, Complex.sub_im, Complex.ofReal_im, sub_zero]; exact hb')
  have q0re : q0.re = n0 * Real.cos (deg2rad theta) := by
    simp only [q0]
    rw [← Complex.ofReal_mul, Complex.ofReal_re]
  have hds : (n0 : ℂ) * c0 + n1 * c1 ≠ 0 := by
    rw [hq0, a2]
    intro h
    have := congrArg Complex.re h
    simp only [Complex.add_re, Complex.zero_re, q0re] at this
    have hp : 0 < n0 * Real.cos (deg2rad theta) := by positivity
    have : 0 ≤ (Complex.sqrt (e1 - (kx : ℂ) ^ 2)).re := q1re
    linarith
  have hds' : n1 * c1 + nb * cb ≠ 0 := by
    rw [a2, b2]
    intro h
    have x1 := congrArg Complex.re h
    have x2 := congrArg Complex.im h
    simp only [Complex.add_re, Complex.zero_re, Complex.add_im, Complex.zero_im] at x1 x2
    apply hq1
    have y1 : 0 ≤ (Complex.sqrt (e1 - (kx : ℂ) ^ 2)).re := q1re
    have y2 : 0 ≤ (Complex.sqrt (e1 - (kx : ℂ) ^ 2)).im := q1im
    have y3 : 0 ≤ (Complex.sqrt (eb - (kx : ℂ) ^ 2)).re := qbre
    have y4 : 0 ≤ (Complex.sqrt (eb - (kx : ℂ) ^ 2)).im := qbim
    apply Complex.ext
    · simp only [q1, Complex.zero_re]; linarith
    · simp only [q1, Complex.zero_im]; linarith
  have hdp : n1 * c0 + (n0 : ℂ) * c1 ≠ 0 := by
    obtain ⟨f1, f2, f3, f4⟩ := first_quadrant kx h1'
    have g1 : 0 ≤ n1.re := by rw [a1]; exact f1
    have g2 : 0 ≤ n1.im := by rw [a1]; exact f2
    have gc : c1 = Complex.sqrt (1 - (kx / Complex.sqrt e1) ^ 2) := by rw [hc1]; unfold cosPhi; rw [← hn1, a1]
    have g3 : 0 ≤ c1.re := by rw [gc]; exact f3
    have g4 : 0 ≤ c1.im := by rw [gc]; exact f4
    intro h
    have x1 := congrArg Complex.re h
    have x2 := congrArg Complex.im h
    simp only [hc0, Complex.add_re, Complex.zero_re, Complex.add_im, Complex.zero_im, Complex.mul_re, Complex.mul_im, Complex.ofReal_re, Complex.ofReal_im,
      mul_zero, zero_mul, sub_zero, add_zero, zero_add] at x1 x2
    apply a4
    have z1 : n1.re * Real.cos (deg2rad theta) = 0 := by nlinarith [mul_nonneg g1 hcos.le, mul_nonneg hn0.le g3]
    have z2 : n1.im * Real.cos (deg2rad theta) = 0 := by nlinarith [mul_nonneg g2 hcos.le, mul_nonneg hn0.le g4]
    apply Complex.ext
    · simpa [hcos.ne'] using z1
    · simpa [hcos.ne'] using z2
  have mS : DsInv (n0 : ℂ) c0 * charMat (deltaS kx e1) lbda d * Ds nb cb =
      interfaceMatrix (rS q0 q1) (tS q0 q1) * !![Complex.exp (-I * b), 0; 0, Complex.exp (I * b)] * interfaceMatrix (rS q1 qb) (tS q1 qb) := by
    have i1 := Ds_interface n0' c0' hds
    have i2 := Ds_interface a4 c1' hds'
    rw [(fresnelS_eq _ _ _ _).1, (fresnelS_eq _ _ _ _).2] at i1 i2
    rw [a2, b2] at i2
    rw [hq0, a2] at i1
    rw [eS]
    exact film_assoc (DsInv_mul n0' c0') (DsInv_mul a4 c1') i1 i2
  obtain ⟨f1, f2, f3⟩ := film_matrix (t := tS q0 q1) (t' := tS q1 qb) (div_ne_zero (mul_ne_zero two_ne_zero (mul_ne_zero n0' c0')) (by rw [hq0, a2] at hds; exact hds))
    (div_ne_zero (mul_ne_zero two_ne_zero hq1) (by rw [a2, b2] at hds'; exact hds')) _ mS hS
  refine ⟨⟨?_, ?_, f3⟩, fun hpl => ?_⟩
  · rw [← f1]
    simp only [out]
    rw [hr]
    rfl
  · rw [← f2]
    simp only [out]
    rw [ht]
    rfl
  · have hdp' : nb * c1 + n1 * cb ≠ 0 := by
      intro h
      apply hpl
      have : eb * (n1 * c1) + e1 * (nb * cb) = 0 := by
        rw [← a3, ← b3]
        linear_combination (n1 * nb) * h
      rw [a2, b2] at this
      exact this
    have mP : DpInv (n0 : ℂ) c0 * charMat (deltaP kx e1) lbda d * Dp nb cb =
        interfaceMatrix (rP (n0 ^ 2) q0 e1 q1) (tP n0 q0 (Complex.sqrt e1) q1) * !![Complex.exp (-I * b), 0; 0, Complex.exp (I * b)] *
          interfaceMatrix (rP e1 q1 eb qb) (tP (Complex.sqrt e1) q1 (Complex.sqrt eb) qb) := by
      have i1 := Dp_interface n0' c0' hdp
      have i2 := Dp_interface a4 c1' hdp'
      rw [(fresnelP_eq n0' a4).1, (fresnelP_eq n0' a4).2, hq0, a2, a3] at i1
      rw [(fresnelP_eq a4 b4).1, (fresnelP_eq a4 b4).2, b2, a2, a3, b3] at i2
      rw [a1] at i1
      rw [eP, ← a1, ← b1]
      rw [← a1] at i1
      exact film_assoc (DpInv_mul n0' c0') (DpInv_mul a4 c1') i1 i2
    have t1 : tP n0 q0 (Complex.sqrt e1) q1 ≠ 0 := by
      rw [← a1]
      have := (fresnelP_eq (c := c0) (c' := c1) n0' a4).2
      rw [hq0, a2] at this
      rw [← this]
      exact div_ne_zero (mul_ne_zero (mul_ne_zero two_ne_zero n0') c0') hdp
    have t2 : tP (Complex.sqrt e1) q1 (Complex.sqrt eb) qb ≠ 0 := by
      rw [← a1, ← b1]
      have := (fresnelP_eq (c := c1) (c' := cb) a4 b4).2
      rw [b2, a2] at this
      rw [← this]
      exact div_ne_zero (mul_ne_zero (mul_ne_zero two_ne_zero a4) c1') hdp'
    obtain ⟨g1, g2, g3⟩ := film_matrix t1 t2 _ mP hP
    refine ⟨?_, ?_, g3⟩
    · rw [← g1]
      simp only [out]
      rw [hr]
      rfl
    · rw [← g2]
      simp only [out]
      rw [ht]
      rfl

/-- Airy's formulas apply to 50 nm of a metal on glass at 60 degrees. -/
example : (0 : ℝ) ≤ (-10 + I : ℂ).im ∧ Complex.sqrt ((-10 + I : ℂ) - ((1 * Real.sin (deg2rad 60) : ℝ) : ℂ) ^ 2) ≠ 0 := by
  refine ⟨by simp, fun h => ?_⟩
  have := congrArg Complex.im (csqrt_eq_zero.1 h)
  rw [← Complex.ofReal_pow, Complex.sub_im, Complex.ofReal_im] at this
  simp at this

/-- A number over its conjugate is a phase. -/
lemma phase_of_ratio {x y : ℝ} (hx : 0 < x) : ((x : ℂ) - I * y) / (x + I * y) = Complex.exp (-(2 * Real.arctan (y / x) : ℝ) * I) := by
  have h : (x : ℂ) + I * y = Real.sqrt (x ^ 2 + y ^ 2) * Complex.exp ((Real.arctan (y / x) : ℝ) * I) := by
    rw [Complex.exp_mul_I, ← Complex.ofReal_cos, ← Complex.ofReal_sin, Real.cos_arctan, Real.sin_arctan]
    have h1 : Real.sqrt (1 + (y / x) ^ 2) = Real.sqrt (x ^ 2 + y ^ 2) / x := by
      rw [show 1 + (y / x) ^ 2 = (x ^ 2 + y ^ 2) / x ^ 2 by field_simp, Real.sqrt_div (by positivity), Real.sqrt_sq hx.le]
    have h2 : 0 < Real.sqrt (x ^ 2 + y ^ 2) := Real.sqrt_pos.2 (by positivity)
    rw [h1]
    have h3 : ((Real.sqrt (x ^ 2 + y ^ 2) : ℝ) : ℂ) ≠ 0 := by exact_mod_cast h2.ne'
    have h4 : (x : ℂ) ≠ 0 := by exact_mod_cast hx.ne'
    push_cast
    field_simp
  have h' : (x : ℂ) - I * y = Real.sqrt (x ^ 2 + y ^ 2) * Complex.exp (-(Real.arctan (y / x) : ℝ) * I) := by
    have := congrArg (starRingEnd ℂ) h
    rw [map_mul, ← Complex.exp_conj, Complex.conj_ofReal] at this
    simp only [map_add, map_mul, Complex.conj_ofReal, Complex.conj_I] at this
    rw [show (x : ℂ) - I * y = x + -I * y by ring, this]
    congr 2
    ring
  have h2 : ((Real.sqrt (x ^ 2 + y ^ 2) : ℝ) : ℂ) ≠ 0 := by
    have : 0 < Real.sqrt (x ^ 2 + y ^ 2) := Real.sqrt_pos.2 (by positivity)
    exact_mod_cast this.ne'
  rw [h, h', mul_div_mul_left _ _ h2, ← Complex.exp_sub]
  congr 1
  push_cast
  ring

/-- C94, total reflection: beyond the critical angle of a transparent substrate the two reflection coefficients are the phases of Fresnel's
formulas, so `|rho| = 1` and the phase difference is the one of the Fresnel rhomb. -/
theorem C94_total_reflection_phase (n0 theta lbda eb : ℝ) (ee) (hn0 : 0 < n0) (hth : |theta| < 90) (heb : 0 < eb)
    (hcrit : eb < (n0 * Real.sin (deg2rad theta)) ^ 2) :
    let q0 : ℝ := n0 * Real.cos (deg2rad theta)
    let κ : ℝ := Real.sqrt ((n0 * Real.sin (deg2rad theta)) ^ 2 - eb)
    let out := calculate4x4 propExpm ⟨isoTensor ((n0 ^ 2 : ℝ) : ℂ), [], isoTensor (eb : ℂ), true⟩ theta lbda ee
    out.jr 1 1 = Complex.exp (-(2 * Real.arctan (κ / q0) : ℝ) * I) ∧
    out.jr 0 0 = Complex.exp (-(2 * Real.arctan (n0 ^ 2 * κ / (eb * q0)) : ℝ) * I) ∧
    out.jr 0 0 / out.jr 1 1 = Complex.exp ((2 * Real.arctan (κ / q0) - 2 * Real.arctan (n0 ^ 2 * κ / (eb * q0)) : ℝ) * I) := by
  intro q0 κ out
  set s : Stack := ⟨isoTensor ((n0 ^ 2 : ℝ) : ℂ), [], isoTensor (eb : ℂ), true⟩ with hs
  set kx : ℝ := n0 * Real.sin (deg2rad theta) with hkxd
  have hf : s.front 0 0 = ((n0 ^ 2 : ℝ) : ℂ) := by simp [hs, isoTensor]
  have hkx : kxOf s theta = ((kx : ℝ) : ℂ) := kxOf_real hn0 hf theta
  have hcos := cos_pos_of_angle hth
  have hnf : nOf s.front = n0 := nOf_front hn0 hf
  have n0' : (n0 : ℂ) ≠ 0 := by exact_mod_cast hn0.ne'
  have c0' : ((Real.cos (deg2rad theta) : ℝ) : ℂ) ≠ 0 := by exact_mod_cast hcos.ne'
  have hcf : cosPhi (kxOf s theta) s.front = (Real.cos (deg2rad theta) : ℝ) := cosPhi_front s theta (by rw [hnf]; exact n0') hcos
  obtain ⟨b1, b2, b3, b4, b5⟩ := kz_medium (e := (eb : ℂ)) kx (by exact_mod_cast heb.ne') (by simp)
  have hκ : 0 < κ := Real.sqrt_pos.2 (by linarith)
  have hκ2 : κ ^ 2 = kx ^ 2 - eb := Real.sq_sqrt (by linarith)
  have hqb : Complex.sqrt ((eb : ℂ) - (kx : ℂ) ^ 2) = I * κ := by
    rw [csqrt_eq_iff]
    constructor
    · right
      refine ⟨by simp, by simpa using hκ.le⟩
    · rw [mul_pow, I_sq, ← Complex.ofReal_pow, hκ2]
      push_cast
      ring
  have hT := transfer4x4_iso s theta lbda ee (by intro l hl; simp [hs] at hl) rfl
  have hback : s.back = isoTensor (eb : ℂ) := rfl
  have eS : prodS (kxOf s theta) lbda s.layers = 1 := rfl
  have eP : prodP (kxOf s theta) lbda s.layers = 1 := rfl
  rw [eS, eP, Matrix.mul_one, Matrix.mul_one, hcf, hnf, hkx, hback] at hT
  set nb := nOf (isoTensor (eb : ℂ)) with hnb
  set cb := cosPhi (kx : ℂ) (isoTensor (eb : ℂ)) with hcb
  set c0 := ((Real.cos (deg2rad theta) : ℝ) : ℂ) with hc0
  rw [hqb] at b2
  have q0p : 0 < q0 := by positivity
  have hq0 : (n0 : ℂ) * c0 = (q0 : ℝ) := by simp only [q0, hc0]; push_cast; rfl
  have hds : (n0 : ℂ) * c0 + nb * cb ≠ 0 := by
    rw [hq0, b2]
    intro h
    have := congrArg Complex.re h
    simp at this
    linarith
  have hdp : nb * c0 + (n0 : ℂ) * cb ≠ 0 := by
    intro h
    have h2 : (eb : ℂ) * ((n0 : ℂ) * c0) + (n0 : ℂ) ^ 2 * (nb * cb) = 0 := by
      rw [← b3]
      linear_combination ((n0 : ℂ) * nb) * h
    rw [hq0, b2] at h2
    have := congrArg Complex.re h2
    rw [← Complex.ofReal_mul, ← Complex.ofReal_pow, Complex.add_re, Complex.ofReal_re, Complex.re_ofReal_mul] at this
    simp at this
    rcases this with h | h
    · exact heb.ne' h
    · exact q0p.ne' h
  have iS : DsInv (n0 : ℂ) c0 * Ds nb cb = interfaceMatrix (rS (n0 * c0) (nb * cb)) (tS (n0 * c0) (nb * cb)) := by
    have := Ds_interface n0' c0' hds
    rw [(fresnelS_eq _ _ _ _).1, (fresnelS_eq _ _ _ _).2] at this
    rw [← this, ← Matrix.mul_assoc, DsInv_mul n0' c0', Matrix.one_mul]
  have iP : DpInv (n0 : ℂ) c0 * Dp nb cb = interfaceMatrix (rP (n0 ^ 2) (n0 * c0) (nb ^ 2) (nb * cb)) (tP n0 (n0 * c0) nb (nb * cb)) := by
    have := Dp_interface n0' c0' hdp
    rw [(fresnelP_eq n0' b4).1, (fresnelP_eq n0' b4).2] at this
    rw [← this, ← Matrix.mul_assoc, DpInv_mul n0' c0', Matrix.one_mul]
  rw [iS, iP] at hT
  have tSn : tS (n0 * c0) (nb * cb) ≠ 0 := by
    rw [← (fresnelS_eq _ _ _ _).2]
    exact div_ne_zero (mul_ne_zero (mul_ne_zero two_ne_zero n0') c0') hds
  have tPn : tP n0 (n0 * c0) nb (nb * cb) ≠ 0 := by
    rw [← (fresnelP_eq n0' b4).2]
    exact div_ne_zero (mul_ne_zero (mul_ne_zero two_ne_zero n0') c0') hdp
  obtain ⟨hr, _⟩ := calc4x4_of_blkD s theta lbda ee _ _ hT (by simpa [interfaceMatrix] using tSn) (by simpa [interfaceMatrix] using tPn)
  have r1 : out.jr 1 1 = Complex.exp (-(2 * Real.arctan (κ / q0) : ℝ) * I) := by
    rw [← phase_of_ratio q0p]
    simp only [out]
    rw [hr]
    simp only [interfaceMatrix, Matrix.of_apply, Matrix.cons_val', Matrix.cons_val_zero, Matrix.cons_val_one, Matrix.cons_val_fin_one]
    rw [div_div_div_cancel_right₀ tSn, div_one, rS, hq0, b2]
  have r0 : out.jr 0 0 = Complex.exp (-(2 * Real.arctan (n0 ^ 2 * κ / (eb * q0)) : ℝ) * I) := by
    rw [← phase_of_ratio (mul_pos heb q0p)]
    simp only [out]
    rw [hr]
    simp only [interfaceMatrix, Matrix.of_apply, Matrix.cons_val', Matrix.cons_val_zero, Matrix.cons_val_one, Matrix.cons_val_fin_one]
    rw [div_div_div_cancel_right₀ tPn, div_one, rP, hq0, b2, b3]
    push_cast
    congr 1 <;> ring
  refine ⟨r1, r0, ?_⟩
  rw [r0, r1, ← Complex.exp_sub]
  congr 1
  push_cast
  ring

/-- Glass to air at 60 degrees: `1 < (1.5 sin 60°)² = 27/16`. -/
example : (1 : ℝ) < (3 / 2 * Real.sin (deg2rad 60)) ^ 2 := by
  have h : deg2rad 60 = Real.pi / 3 := by unfold deg2rad; ring
  rw [h, Real.sin_pi_div_three]
  have := Real.sq_sqrt (show (0 : ℝ) ≤ 3 by norm_num)
  nlinarith

end PyElli
