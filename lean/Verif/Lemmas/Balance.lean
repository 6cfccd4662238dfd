import Verif.Lemmas.HalfSpace
import Mathlib.LinearAlgebra.Matrix.ToLinearEquiv
import Mathlib.Tactic

/-! Energy balance of a whole stack between isotropic half spaces. -/

namespace PyElli

open Matrix Complex Spec

/-- The situation in which energy statements make sense: transparent front medium, angle of incidence below 90 degrees, positive
wavelength, isotropic passive exit medium, passive interior slices of non-negative thickness. -/
structure PassiveStack (s : Stack) (theta lbda : ℝ) : Prop where
  front : ∃ n0 : ℝ, 0 < n0 ∧ s.front 0 0 = ((n0 ^ 2 : ℝ) : ℂ)
  angle : |theta| < 90
  lbda_pos : 0 < lbda
  layers : ∀ l ∈ s.layers, 0 ≤ l.1 ∧ l.2 2 2 ≠ 0 ∧ Passive l.2
  back_ne : s.back 0 0 ≠ 0
  back_passive : 0 ≤ (s.back 0 0).im
  iso : s.backIsotropic = true

lemma cos_pos_of_angle {theta : ℝ} (h : |theta| < 90) : 0 < Real.cos (deg2rad theta) := by
  obtain ⟨h1, h2⟩ := abs_lt.1 h
  apply Real.cos_pos_of_mem_Ioo
  unfold deg2rad
  have := Real.pi_pos
  constructor <;> nlinarith

lemma nOf_front {s : Stack} {n0 : ℝ} (h0 : 0 < n0) (h : s.front 0 0 = ((n0 ^ 2 : ℝ) : ℂ)) : nOf s.front = (n0 : ℂ) := by
  unfold nOf
  rw [h, csqrt_ofReal (by positivity), Real.sqrt_sq h0.le]

lemma kxOf_real {s : Stack} {n0 : ℝ} (h0 : 0 < n0) (h : s.front 0 0 = ((n0 ^ 2 : ℝ) : ℂ)) (theta : ℝ) :
    kxOf s theta = ((n0 * Real.sin (deg2rad theta) : ℝ) : ℂ) := by
  unfold kxOf
  rw [nOf_front h0 h]
  push_cast
  rfl

/-- Amplitudes: the 4x4 matrix applied to transmitted amplitudes gives incident (`tIt`) and reflected (`tRt`) amplitudes. -/
lemma transfer_split (m : Mat4) (x : Fin 2 → ℂ) :
    m *ᵥ ![x 1, 0, x 0, 0] = ![(tIt m *ᵥ x) 1, (tRt m *ᵥ x) 1, (tIt m *ᵥ x) 0, (tRt m *ᵥ x) 0] := by
  funext i
  fin_cases i <;> simp [tIt, tRt, Matrix.mulVec, dotProduct, Fin.sum_univ_four, Fin.sum_univ_two] <;> ring

/-- Front fields from transmitted amplitudes. -/
lemma front_fields (s : Stack) (theta lbda : ℝ) (ee) (hn : nOf s.front ≠ 0) (hc : cosPhi (kxOf s theta) s.front ≠ 0)
    (hiso : s.backIsotropic = true) (a : Fin 4 → ℂ) :
    blkC (Ds (nOf s.front) (cosPhi (kxOf s theta) s.front)) (Dp (nOf s.front) (cosPhi (kxOf s theta) s.front)) *ᵥ
      (transfer4x4 propExpm s theta lbda ee *ᵥ a) =
    (s.layers.map fun l => propExpm (buildDelta (kxOf s theta) l.2) (-l.1) lbda).prod *ᵥ
      (blkC (Ds (nOf s.back) (cosPhi (kxOf s theta) s.back)) (Dp (nOf s.back) (cosPhi (kxOf s theta) s.back)) *ᵥ a) := by
  unfold transfer4x4
  rw [loop4x4_eq, exitMatrix, if_pos hiso, isoHalf_eq, isoHalfInv_eq, Matrix.mulVec_mulVec, ← Matrix.mul_assoc,
    blkC_mul_blkR, Ds_mul_inv hn hc, Dp_mul_inv hn hc, blk_one, Matrix.one_mul, Matrix.mulVec_mulVec]

lemma two_norms (s : Stack) (theta lbda : ℝ) (h : PassiveStack s theta lbda) (ee) :
    ∃ n0 c0 : ℝ, 0 < n0 ∧ 0 < c0 ∧ nOf s.front = n0 ∧ cosPhi (kxOf s theta) s.front = c0 ∧
      (∃ kx : ℝ, kxOf s theta = kx) ∧
      ∀ x : Fin 2 → ℂ,
        n0 * c0 * (‖(tIt (transfer4x4 propExpm s theta lbda ee) *ᵥ x) 1‖ ^ 2 -
            ‖(tRt (transfer4x4 propExpm s theta lbda ee) *ᵥ x) 1‖ ^ 2 +
            ‖(tIt (transfer4x4 propExpm s theta lbda ee) *ᵥ x) 0‖ ^ 2 -
            ‖(tRt (transfer4x4 propExpm s theta lbda ee) *ᵥ x) 0‖ ^ 2) =
          flux ((s.layers.map fun l => propExpm (buildDelta (kxOf s theta) l.2) (-l.1) lbda).prod *ᵥ
            (blkC (Ds (nOf s.back) (cosPhi (kxOf s theta) s.back))
              (Dp (nOf s.back) (cosPhi (kxOf s theta) s.back)) *ᵥ ![x 1, 0, x 0, 0])) := by
  obtain ⟨n0, hn0, hf⟩ := h.front
  have hc := cos_pos_of_angle h.angle
  have hn : nOf s.front = n0 := nOf_front hn0 hf
  have hn' : nOf s.front ≠ 0 := by rw [hn]; exact_mod_cast hn0.ne'
  have hcp := cosPhi_front s theta hn' hc
  refine ⟨n0, _, hn0, hc, hn, hcp, ⟨_, kxOf_real hn0 hf theta⟩, ?_⟩
  intro x
  rw [← front_fields s theta lbda ee hn' (by rw [hcp]; exact_mod_cast hc.ne') h.iso, transfer_split, hcp, hn, flux_front]
  simp

/-- Re(c n*) ≥ Re(n c) ≥ 0 for passive exit media, with equality for real permittivity. -/
lemma exit_flux_ge {e : ℂ} (kx : ℝ) (he : 0 ≤ e.im) :
    (Complex.sqrt e * Complex.sqrt (1 - (kx / Complex.sqrt e) ^ 2)).re ≤
      (Complex.sqrt (1 - (kx / Complex.sqrt e) ^ 2) * (starRingEnd ℂ) (Complex.sqrt e)).re := by
  obtain ⟨h1, h2, h3, h4⟩ := first_quadrant kx he
  generalize Complex.sqrt (1 - (kx / Complex.sqrt e) ^ 2) = c at *
  generalize Complex.sqrt e = n at *
  simp only [Complex.mul_re, Complex.conj_re, Complex.conj_im]
  nlinarith [mul_nonneg h2 h4]

lemma exit_flux_eq {e : ℂ} (kx : ℝ) (he : e.im = 0) :
    (Complex.sqrt (1 - (kx / Complex.sqrt e) ^ 2) * (starRingEnd ℂ) (Complex.sqrt e)).re =
      (Complex.sqrt e * Complex.sqrt (1 - (kx / Complex.sqrt e) ^ 2)).re := by
  have hsq := csqrt_sq e
  have hc2 := csqrt_sq (1 - (kx / Complex.sqrt e) ^ 2)
  have hp := csqrt_principal (1 - (kx / Complex.sqrt e) ^ 2)
  have he' : e = ((e.re : ℝ) : ℂ) := by apply Complex.ext <;> simp [he]
  rw [div_pow, hsq] at hc2 hp ⊢
  by_cases hneg : e.re < 0
  · have hcim : (Complex.sqrt (1 - kx ^ 2 / e)).im = 0 := by
      have : (1 : ℂ) - kx ^ 2 / e = ((1 - kx ^ 2 / e.re : ℝ) : ℂ) := by
        rw [he']
        push_cast
        simp
      rw [this, csqrt_ofReal]
      · simp
      · have : kx ^ 2 / e.re ≤ 0 := div_nonpos_of_nonneg_of_nonpos (by positivity) hneg.le
        linarith
    simp only [Complex.mul_re, Complex.conj_re, Complex.conj_im, hcim]
    ring
  · push Not at hneg
    have hni : (Complex.sqrt e).im = 0 := by
      rw [he', csqrt_ofReal hneg]
      simp
    simp only [Complex.mul_re, Complex.conj_re, Complex.conj_im, hni]
    ring

lemma exit_re_nonneg {e : ℂ} (kx : ℝ) (he0 : e ≠ 0) (he : 0 ≤ e.im) :
    0 ≤ (Complex.sqrt e * Complex.sqrt (1 - (kx / Complex.sqrt e) ^ 2)).re := by
  rw [← kz_exit kx he0 he]
  exact csqrt_re_nonneg _

/-- Main inequality: incident minus reflected power is at least the transmitted power. -/
lemma balance_ge (s : Stack) (theta lbda : ℝ) (h : PassiveStack s theta lbda) (ee) (x : Fin 2 → ℂ) :
    ((nOf s.back * cosPhi (kxOf s theta) s.back).re / (nOf s.front * cosPhi (kxOf s theta) s.front).re) *
        (‖x 0‖ ^ 2 + ‖x 1‖ ^ 2) ≤
      ‖(tIt (transfer4x4 propExpm s theta lbda ee) *ᵥ x) 0‖ ^ 2 +
        ‖(tIt (transfer4x4 propExpm s theta lbda ee) *ᵥ x) 1‖ ^ 2 -
      (‖(tRt (transfer4x4 propExpm s theta lbda ee) *ᵥ x) 0‖ ^ 2 +
        ‖(tRt (transfer4x4 propExpm s theta lbda ee) *ᵥ x) 1‖ ^ 2) := by
  obtain ⟨n0, c0, hn0, hc0, hn, hc, ⟨kx, hkx⟩, key⟩ := two_norms s theta lbda h ee
  have k1 := key x
  have k2 := flux_stack_ge kx h.lbda_pos s.layers h.layers
    (blkC (Ds (nOf s.back) (cosPhi (kxOf s theta) s.back)) (Dp (nOf s.back) (cosPhi (kxOf s theta) s.back)) *ᵥ
      ![x 1, 0, x 0, 0])
  rw [hkx] at k1 k2
  rw [← k1, flux_exit] at k2
  have k3 : (nOf s.back * cosPhi kx s.back).re ≤ (cosPhi kx s.back * (starRingEnd ℂ) (nOf s.back)).re :=
    exit_flux_ge (e := s.back 0 0) kx h.back_passive
  rw [hn, hc, hkx, ← Complex.ofReal_mul, Complex.ofReal_re, div_mul_eq_mul_div, div_le_iff₀ (by positivity)]
  have := mul_le_mul_of_nonneg_right k3 (sq_nonneg ‖x 0‖)
  linarith

/-- Equality for lossless slices and a real exit permittivity. -/
lemma balance_eq (s : Stack) (theta lbda : ℝ) (h : PassiveStack s theta lbda) (hl : ∀ l ∈ s.layers, Lossless l.2)
    (hb : (s.back 0 0).im = 0) (ee) (x : Fin 2 → ℂ) :
    ((nOf s.back * cosPhi (kxOf s theta) s.back).re / (nOf s.front * cosPhi (kxOf s theta) s.front).re) *
        (‖x 0‖ ^ 2 + ‖x 1‖ ^ 2) =
      ‖(tIt (transfer4x4 propExpm s theta lbda ee) *ᵥ x) 0‖ ^ 2 +
        ‖(tIt (transfer4x4 propExpm s theta lbda ee) *ᵥ x) 1‖ ^ 2 -
      (‖(tRt (transfer4x4 propExpm s theta lbda ee) *ᵥ x) 0‖ ^ 2 +
        ‖(tRt (transfer4x4 propExpm s theta lbda ee) *ᵥ x) 1‖ ^ 2) := by
  obtain ⟨n0, c0, hn0, hc0, hn, hc, ⟨kx, hkx⟩, key⟩ := two_norms s theta lbda h ee
  have k1 := key x
  have k2 := flux_stack_eq kx lbda s.layers (fun l m => ⟨(h.layers l m).2.1, hl l m⟩)
    (blkC (Ds (nOf s.back) (cosPhi (kxOf s theta) s.back)) (Dp (nOf s.back) (cosPhi (kxOf s theta) s.back)) *ᵥ
      ![x 1, 0, x 0, 0])
  rw [hkx] at k1 k2
  rw [← k1, flux_exit] at k2
  have k3 : (cosPhi kx s.back * (starRingEnd ℂ) (nOf s.back)).re = (nOf s.back * cosPhi kx s.back).re :=
    exit_flux_eq (e := s.back 0 0) kx hb
  rw [hn, hc, hkx, ← Complex.ofReal_mul, Complex.ofReal_re, div_mul_eq_mul_div, div_eq_iff (by positivity)]
  rw [k3] at k2
  linarith

/-- The matrix that `Solver4x4` inverts is invertible for every passive stack. -/
lemma tIt_det_ne_zero (s : Stack) (theta lbda : ℝ) (h : PassiveStack s theta lbda) (ee) :
    (tIt (transfer4x4 propExpm s theta lbda ee)).det ≠ 0 := by
  intro hdet
  obtain ⟨x, hx, hx0⟩ := Matrix.exists_mulVec_eq_zero_iff.2 hdet
  obtain ⟨n0, c0, hn0, hc0, hn, hc, ⟨kx, hkx⟩, -⟩ := two_norms s theta lbda h ee
  have hbal := balance_ge s theta lbda h ee x
  rw [hx0] at hbal
  have hpow : 0 ≤ (nOf s.back * cosPhi (kxOf s theta) s.back).re / (nOf s.front * cosPhi (kxOf s theta) s.front).re := by
    rw [hn, hc, ← Complex.ofReal_mul, Complex.ofReal_re]
    apply div_nonneg _ (by positivity)
    have := exit_re_nonneg (e := s.back 0 0) kx h.back_ne h.back_passive
    simp only [cosPhi, nOf]
    rw [hkx]
    exact this
  have h0 := mul_nonneg hpow (show 0 ≤ ‖x 0‖ ^ 2 + ‖x 1‖ ^ 2 by positivity)
  simp only [Pi.zero_apply, norm_zero] at hbal
  have r0 : (tRt (transfer4x4 propExpm s theta lbda ee) *ᵥ x) 0 = 0 := by
    rw [← norm_eq_zero, ← sq_eq_zero_iff]
    nlinarith [sq_nonneg ‖(tRt (transfer4x4 propExpm s theta lbda ee) *ᵥ x) 0‖,
      sq_nonneg ‖(tRt (transfer4x4 propExpm s theta lbda ee) *ᵥ x) 1‖]
  have r1 : (tRt (transfer4x4 propExpm s theta lbda ee) *ᵥ x) 1 = 0 := by
    rw [← norm_eq_zero, ← sq_eq_zero_iff]
    nlinarith [sq_nonneg ‖(tRt (transfer4x4 propExpm s theta lbda ee) *ᵥ x) 0‖,
      sq_nonneg ‖(tRt (transfer4x4 propExpm s theta lbda ee) *ᵥ x) 1‖]
  have hz : transfer4x4 propExpm s theta lbda ee *ᵥ ![x 1, 0, x 0, 0] = 0 := by
    rw [transfer_split, hx0, r0, r1]
    funext i
    fin_cases i <;> simp
  have hfr := front_fields s theta lbda ee (by rw [hn]; exact_mod_cast hn0.ne') (by rw [hc]; exact_mod_cast hc0.ne') h.iso
    ![x 1, 0, x 0, 0]
  rw [hz, Matrix.mulVec_zero] at hfr
  have hunit : IsUnit (s.layers.map fun l => propExpm (buildDelta (kxOf s theta) l.2) (-l.1) lbda).prod := by
    generalize s.layers = L
    induction L with
    | nil => simp
    | cons l rest ih =>
      simp only [List.map_cons, List.prod_cons]
      exact (Matrix.isUnit_exp _).mul ih
  have hexit : blkC (Ds (nOf s.back) (cosPhi (kxOf s theta) s.back)) (Dp (nOf s.back) (cosPhi (kxOf s theta) s.back)) *ᵥ
      ![x 1, 0, x 0, 0] = 0 := by
    obtain ⟨u, hu⟩ := hunit
    rw [← hu] at hfr
    have := congrArg (fun v => (↑u⁻¹ : Mat4) *ᵥ v) hfr
    simp only [Matrix.mulVec_zero, Matrix.mulVec_mulVec] at this
    rw [← Matrix.mul_assoc, Units.inv_mul, Matrix.one_mul] at this
    exact this.symm
  have e1 := congrFun hexit 1
  have e3 := congrFun hexit 3
  have hnb : nOf s.back ≠ 0 := fun hh => h.back_ne (csqrt_eq_zero.1 hh)
  simp [blkC, Ds, Dp, Matrix.mulVec, dotProduct, Fin.sum_univ_four] at e1 e3
  apply hx
  funext i
  fin_cases i
  · simpa [hnb] using e3
  · simpa using e1

end PyElli
