import Verif.Props.BulkIndex
import Verif.Props.Mueller

/-! # The absolute reflectance of a bulk sample from its ellipsometric angles (C153) -/

namespace PyElli

open Complex

/-- The reflectance for s light that belongs to the angles `psi` and `delta` of a bulk sample at the angle of incidence `theta` (all in degrees). -/
noncomputable def Spec.absoluteRs (theta psi delta : ℝ) : ℝ :=
  let c := Real.cos (2 * (theta * Real.pi / 180))
  let t := Real.tan (psi * Real.pi / 180)
  let d := Real.cos (delta * Real.pi / 180)
  (t ^ 2 + 2 * c * t * d + c ^ 2) / (1 + 2 * c * t * d + c ^ 2 * t ^ 2)

/-- The algebra of the relation. -/
lemma relation_algebra {e n x y w rho c : ℂ} (hn : n ≠ 0) (hx : x ≠ 0) (hy : y ≠ 0) (hxy : x ^ 2 + y ^ 2 = 1) (hw : w ^ 2 = e - (n * y) ^ 2) (hc : c = 2 * x ^ 2 - 1)
    (hS : n * x + w ≠ 0) (hv : 1 + x / (n * y ^ 2) * w ≠ 0) (hr : rho = (1 - x / (n * y ^ 2) * w) / (1 + x / (n * y ^ 2) * w)) :
    1 + c * rho ≠ 0 ∧ (n * x - w) / (n * x + w) = (rho + c) / (1 + c * rho) ∧ (e * x - n * w) / (e * x + n * w) = rho * ((n * x - w) / (n * x + w)) := by
  have hq : n * y ^ 2 ≠ 0 := mul_ne_zero hn (pow_ne_zero 2 hy)
  have hv' : n * y ^ 2 + x * w ≠ 0 := by
    intro h0
    apply hv
    rw [div_mul_eq_mul_div, one_add_div hq, h0, zero_div]
  have hr' : rho = (n * y ^ 2 - x * w) / (n * y ^ 2 + x * w) := by
    rw [hr, div_mul_eq_mul_div, one_sub_div hq, one_add_div hq, div_div_div_cancel_right₀ hq]
  have key : (1 + c * rho) * (n * y ^ 2 + x * w) = 2 * x * y ^ 2 * (n * x + w) := by
    rw [hr', hc, add_mul, mul_assoc, div_mul_cancel₀ _ hv']
    linear_combination (-(2 * x * w)) * hxy
  have key2 : (rho + c) * (n * y ^ 2 + x * w) = 2 * x * y ^ 2 * (n * x - w) := by
    rw [hr', hc, add_mul, div_mul_cancel₀ _ hv']
    linear_combination (2 * x * w) * hxy
  have hne : 1 + c * rho ≠ 0 := by
    intro h0
    rw [h0, zero_mul] at key
    exact mul_ne_zero (mul_ne_zero (mul_ne_zero two_ne_zero hx) (pow_ne_zero 2 hy)) hS key.symm
  refine ⟨hne, ?_, ?_⟩
  · rw [div_eq_div_iff hS hne]
    have : (n * y ^ 2 + x * w) * ((n * x - w) * (1 + c * rho)) = (n * y ^ 2 + x * w) * ((rho + c) * (n * x + w)) := by
      linear_combination (n * x - w) * key - (n * x + w) * key2
    exact mul_left_cancel₀ hv' this
  · rw [hr', div_mul_div_comm]
    congr 1
    · linear_combination (-x) * hw + (n * w) * hxy
    · linear_combination (-x) * hw - (n * w) * hxy

section

variable {s : Stack} {n0 : ℝ}

/-- The relation of the two amplitudes, whatever the index of the sample. -/
lemma bulk_relation (h : BulkSample s n0) {theta : ℝ} (h1 : 0 < theta) (h2 : theta < 90) (lbda : ℝ) (ee) {a : ℂ} (ha : a ≠ 0) :
    let rho := (measured s theta lbda ee a).rho
    let c : ℂ := (Real.cos (2 * (theta * Real.pi / 180)) : ℝ)
    1 + c * rho ≠ 0 ∧ (calculate4x4 propExpm s theta lbda ee).jr 1 1 = (rho + c) / (1 + c * rho) ∧
      (calculate4x4 propExpm s theta lbda ee).jr 0 0 = rho * (calculate4x4 propExpm s theta lbda ee).jr 1 1 := by
  intro rho c
  obtain ⟨hS, -, hs, hp⟩ := bulk_amplitudes h h1.le h2 lbda ee
  obtain ⟨hv, hr⟩ := bulk_rho h h1 h2 lbda ee ha
  obtain ⟨-, -, hsq⟩ := bulkW_quadrant n0 theta h.passive
  change rho = _ at hr
  have hc := cos_pos_of_mem h1.le h2
  have hsn := sin_pos_of_angle h1 h2
  have hcs : Real.cos (deg2rad theta) ^ 2 + Real.sin (deg2rad theta) ^ 2 = 1 := Real.cos_sq_add_sin_sq _
  have hc2 : c = 2 * (Real.cos (deg2rad theta) : ℂ) ^ 2 - 1 := by
    simp only [c]
    rw [show theta * Real.pi / 180 = deg2rad theta by unfold deg2rad; ring, Real.cos_two_mul]
    push_cast
    ring
  have hV : bulkV n0 theta (s.back 0 0) = ((Real.cos (deg2rad theta) / (n0 * Real.sin (deg2rad theta) ^ 2) : ℝ) : ℂ) * bulkW n0 theta (s.back 0 0) := rfl
  rw [hs, hp]
  rw [hV] at hv hr
  have hn0 : (n0 : ℂ) ≠ 0 := by exact_mod_cast h.index.ne'
  have hx : (Real.cos (deg2rad theta) : ℂ) ≠ 0 := by exact_mod_cast hc.ne'
  have hy : (Real.sin (deg2rad theta) : ℂ) ≠ 0 := by exact_mod_cast hsn.ne'
  have hxy : (Real.cos (deg2rad theta) : ℂ) ^ 2 + (Real.sin (deg2rad theta) : ℂ) ^ 2 = 1 := by exact_mod_cast hcs
  rw [ofReal_div, ofReal_mul, ofReal_pow] at hv hr
  rw [ofReal_pow, ofReal_mul] at hsq
  exact relation_algebra hn0 hx hy hxy hsq hc2 hS hv hr

/-- Squared absolute values in terms of the angles. -/
lemma absolute_algebra {rho : ℂ} {t d e c : ℝ} (h : rho = (t : ℂ) * ((d : ℂ) - I * e)) (hde : d ^ 2 + e ^ 2 = 1) :
    ‖(rho + c) / (1 + c * rho)‖ ^ 2 = (t ^ 2 + 2 * c * t * d + c ^ 2) / (1 + 2 * c * t * d + c ^ 2 * t ^ 2) ∧ ‖rho‖ ^ 2 = t ^ 2 := by
  have hre : rho.re = t * d := by rw [h]; simp
  have him : rho.im = -(t * e) := by rw [h]; simp
  constructor
  · rw [norm_div, div_pow, ← normSq_eq_norm_sq, ← normSq_eq_norm_sq, normSq_apply, normSq_apply]
    simp only [add_re, add_im, mul_re, mul_im, one_re, one_im, ofReal_re, ofReal_im, hre, him]
    congr 1
    · linear_combination t ^ 2 * hde
    · linear_combination c ^ 2 * t ^ 2 * hde
  · rw [← normSq_eq_norm_sq, normSq_apply, hre, him]
    linear_combination t ^ 2 * hde

/-- **C153.** The angles psi and delta of a bulk sample fix its reflectances for s and p light, whatever the indices of sample and medium. -/
theorem C153_absolute (h : BulkSample s n0) {theta : ℝ} (h1 : 0 < theta) (h2 : theta < 90) (lbda : ℝ) (ee) {a : ℂ} (ha : a ≠ 0) :
    let m := measured s theta lbda ee a
    m.RMatrix 1 1 = Spec.absoluteRs theta m.psi m.delta ∧ m.RMatrix 0 0 = Real.tan (m.psi * Real.pi / 180) ^ 2 * m.RMatrix 1 1 ∧
      m.R = (1 + Real.tan (m.psi * Real.pi / 180) ^ 2) / 2 * Spec.absoluteRs theta m.psi m.delta := by
  intro m
  obtain ⟨-, hs, hp⟩ := bulk_relation h h1 h2 lbda ee ha
  have hE : _root_.Spec.EllipsometricEq m.rho m.psi m.delta := C03_round_trip_default _ _ _ _
  obtain ⟨e1, e2⟩ := absolute_algebra (c := Real.cos (2 * (theta * Real.pi / 180))) hE (Real.cos_sq_add_sin_sq _)
  have r1 : m.RMatrix 1 1 = Spec.absoluteRs theta m.psi m.delta := by
    show ‖(calculate4x4 propExpm s theta lbda ee).jr 1 1‖ ^ 2 = _
    rw [hs]
    exact e1
  have r2 : m.RMatrix 0 0 = Real.tan (m.psi * Real.pi / 180) ^ 2 * m.RMatrix 1 1 := by
    show ‖(calculate4x4 propExpm s theta lbda ee).jr 0 0‖ ^ 2 = _ * ‖(calculate4x4 propExpm s theta lbda ee).jr 1 1‖ ^ 2
    rw [hp, norm_mul, mul_pow]
    congr 1
  refine ⟨r1, r2, ?_⟩
  have : m.R = (m.RMatrix 0 0 + m.RMatrix 1 1) / 2 := rfl
  rw [this, r2, r1]
  ring

/-- **C153.** At 45 degrees the reflectance for p light is the square of that for s light and psi alone gives both. -/
theorem C153_abeles (h : BulkSample s n0) (lbda : ℝ) (ee) {a : ℂ} (ha : a ≠ 0) :
    let m := measured s 45 lbda ee a
    (calculate4x4 propExpm s 45 lbda ee).jr 0 0 = (calculate4x4 propExpm s 45 lbda ee).jr 1 1 ^ 2 ∧ m.RMatrix 0 0 = m.RMatrix 1 1 ^ 2 ∧
      m.RMatrix 1 1 = Real.tan (m.psi * Real.pi / 180) ^ 2 := by
  intro m
  have hc : Real.cos (2 * (45 * Real.pi / 180)) = 0 := by rw [show 2 * (45 * Real.pi / 180) = Real.pi / 2 by ring, Real.cos_pi_div_two]
  obtain ⟨-, hs, hp⟩ := bulk_relation h (by norm_num : (0 : ℝ) < 45) (by norm_num) lbda ee ha
  obtain ⟨r1, -, -⟩ := C153_absolute h (by norm_num : (0 : ℝ) < 45) (by norm_num) lbda ee ha
  rw [hc, ofReal_zero, zero_mul, add_zero, add_zero, div_one] at hs
  have hA : (calculate4x4 propExpm s 45 lbda ee).jr 0 0 = (calculate4x4 propExpm s 45 lbda ee).jr 1 1 ^ 2 := by rw [hp, ← hs, pow_two]
  refine ⟨hA, ?_, ?_⟩
  · show ‖(calculate4x4 propExpm s 45 lbda ee).jr 0 0‖ ^ 2 = (‖(calculate4x4 propExpm s 45 lbda ee).jr 1 1‖ ^ 2) ^ 2
    rw [hA, norm_pow]
  · rw [r1]
    unfold Spec.absoluteRs
    simp only [hc]
    simp
    rfl

end

/-- An absorbing sample in air at 70 degrees. -/
example (lbda : ℝ) (ee) : let m := measured (bulkStack ⟨8, 6⟩) 70 lbda ee 1
    m.RMatrix 1 1 = Spec.absoluteRs 70 m.psi m.delta :=
  (C153_absolute (bulkStack_sample (e := ⟨8, 6⟩) (by norm_num)) (by norm_num) (by norm_num) lbda ee one_ne_zero).1

/-- Glass of index 2 in air at 45 degrees. -/
example (lbda : ℝ) (ee) : (measured (bulkStack 4) 45 lbda ee 1).RMatrix 0 0 = (measured (bulkStack 4) 45 lbda ee 1).RMatrix 1 1 ^ 2 :=
  (C153_abeles glass_sample lbda ee one_ne_zero).2.1

end PyElli
