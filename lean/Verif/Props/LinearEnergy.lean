import Verif.Props.Energy
import Mathlib.Analysis.SpecialFunctions.Exp
import Mathlib.Tactic

/-! # Energy balance with `PropagatorLinear` (C160) -/

namespace Spec

/-- Transparent isotropic layers: thickness and real permittivity. -/
abbrev ClearLayers := List (ℝ × ℝ)

/-- The product of `1 + (2 pi d / lbda)² (eps - kx²)` over the layers. -/
noncomputable def linearFactor (kx lbda : ℝ) (L : ClearLayers) : ℝ :=
  (L.map fun l => 1 + (2 * Real.pi / lbda * l.1) ^ 2 * (l.2 - kx ^ 2)).prod

end Spec

namespace PyElli

open Matrix Complex Spec

/-- The layers as they are handed to the solver. -/
noncomputable def clearStack (n0 : ℝ) (L : ClearLayers) (eb : ℝ) : Stack :=
  ⟨isoTensor ((n0 ^ 2 : ℝ) : ℂ), L.map fun l => (l.1, isoTensor (l.2 : ℂ)), isoTensor (eb : ℂ), true⟩

lemma linear_apply (kx d lbda e : ℝ) (v : Fin 4 → ℂ) :
    propLinear (buildDelta kx (isoTensor (e : ℂ))) (-d) lbda *ᵥ v =
      ![v 0 - I * ((2 * Real.pi / lbda * d * (1 - kx ^ 2 / e) : ℝ) : ℂ) * v 3, v 1 + I * ((2 * Real.pi / lbda * d : ℝ) : ℂ) * v 2,
        v 2 - I * ((2 * Real.pi / lbda * d * (kx ^ 2 - e) : ℝ) : ℂ) * v 1, v 3 - I * ((2 * Real.pi / lbda * d * e : ℝ) : ℂ) * v 0] := by
  funext i
  fin_cases i <;> simp [propLinear, buildDelta, isoTensor, wavenumber, Matrix.mulVec, dotProduct, Fin.sum_univ_four] <;>
    first | ring1 | (left; ring1)

lemma flux_linear (kx d lbda e : ℝ) (he : e ≠ 0) (v : Fin 4 → ℂ) :
    flux (propLinear (buildDelta kx (isoTensor (e : ℂ))) (-d) lbda *ᵥ v) =
      (1 + (2 * Real.pi / lbda * d) ^ 2 * (e - kx ^ 2)) * flux v := by
  rw [linear_apply]
  obtain ⟨a, ha⟩ : ∃ a, a = 1 - kx ^ 2 / e := ⟨_, rfl⟩
  have hae : a * e = e - kx ^ 2 := by rw [ha]; field_simp
  rw [← ha, ← hae]
  have hk : kx ^ 2 - e = -(a * e) := by rw [hae]; ring
  rw [hk]
  generalize 2 * Real.pi / lbda * d = t
  simp only [flux, Matrix.cons_val_zero, Matrix.cons_val_one, Matrix.cons_val]
  simp [Complex.mul_re, Complex.mul_im]
  ring

lemma flux_linear_stack (kx lbda : ℝ) (L : ClearLayers) (hL : ∀ l ∈ L, l.2 ≠ 0) (v : Fin 4 → ℂ) :
    flux (((L.map fun l => ((l.1, isoTensor (l.2 : ℂ)) : ℝ × Tensor)).map fun l => propLinear (buildDelta kx l.2) (-l.1) lbda).prod *ᵥ v) =
      linearFactor kx lbda L * flux v := by
  induction L with
  | nil => simp [linearFactor]
  | cons l rest ih =>
    simp only [List.map_cons, List.prod_cons, linearFactor] at ih ⊢
    rw [← Matrix.mulVec_mulVec, flux_linear _ _ _ _ (hL l (by simp)), ih fun l h => hL l (by simp [h]), mul_assoc]

lemma linear_unit (kx d lbda e : ℝ) (he : e ≠ 0) (h : 1 + (2 * Real.pi / lbda * d) ^ 2 * (e - kx ^ 2) ≠ 0) :
    IsUnit (propLinear (buildDelta kx (isoTensor (e : ℂ))) (-d) lbda) := by
  rw [Matrix.isUnit_iff_isUnit_det, isUnit_iff_ne_zero]
  intro hdet
  obtain ⟨v, hv, hv0⟩ := Matrix.exists_mulVec_eq_zero_iff.2 hdet
  apply hv
  rw [linear_apply] at hv0
  have h' : (1 + ((2 * Real.pi / lbda * d : ℝ) : ℂ) ^ 2 * ((e : ℂ) - kx ^ 2)) ≠ 0 := by exact_mod_cast h
  have he' : (e : ℂ) ≠ 0 := by exact_mod_cast he
  have e0 := congrFun hv0 0
  have e1 := congrFun hv0 1
  have e2 := congrFun hv0 2
  have e3 := congrFun hv0 3
  simp only [Matrix.cons_val_zero, Matrix.cons_val_one, Matrix.cons_val, Pi.zero_apply, Complex.ofReal_mul, Complex.ofReal_sub, Complex.ofReal_div,
    Complex.ofReal_pow, Complex.ofReal_one] at e0 e1 e2 e3 h'
  generalize hT : ((2 : ℝ) : ℂ) * (Real.pi : ℂ) / (lbda : ℂ) * (d : ℂ) = t at *
  have hI := Complex.I_sq
  obtain ⟨a, ha⟩ : ∃ a, a = 1 - (kx : ℂ) ^ 2 / e := ⟨_, rfl⟩
  have hae : a * e = e - (kx : ℂ) ^ 2 := by rw [ha]; field_simp
  rw [← ha] at e0
  rw [← hae] at h'
  have hk : (kx : ℂ) ^ 2 - e = -(a * e) := by rw [hae]; ring
  rw [hk] at e2
  have v0 : v 0 = 0 := by
    have : (1 + t ^ 2 * (a * e)) * v 0 = 0 := by linear_combination e0 + I * t * a * e3 + t ^ 2 * a * e * v 0 * hI
    exact (mul_eq_zero.1 this).resolve_left h'
  have v1 : v 1 = 0 := by
    have : (1 + t ^ 2 * (a * e)) * v 1 = 0 := by linear_combination e1 - I * t * e2 + t ^ 2 * a * e * v 1 * hI
    exact (mul_eq_zero.1 this).resolve_left h'
  funext i
  fin_cases i
  · exact v0
  · exact v1
  · simp only [v1, mul_zero, sub_zero] at e2
    exact e2
  · simp only [v0, mul_zero, sub_zero] at e3
    exact e3

lemma linear_stack_unit (kx lbda : ℝ) (L : ClearLayers) (hL : ∀ l ∈ L, l.2 ≠ 0) (h : linearFactor kx lbda L ≠ 0) :
    IsUnit ((L.map fun l => ((l.1, isoTensor (l.2 : ℂ)) : ℝ × Tensor)).map fun l => propLinear (buildDelta kx l.2) (-l.1) lbda).prod := by
  induction L with
  | nil => simp
  | cons l rest ih =>
    simp only [List.map_cons, List.prod_cons, linearFactor] at ih h ⊢
    exact (linear_unit _ _ _ _ (hL l (by simp)) (left_ne_zero_of_mul h)).mul (ih (fun l h => hL l (by simp [h])) (right_ne_zero_of_mul h))

/-- Incident minus reflected power is the factor times the transmitted power. -/
lemma linear_balance (n0 : ℝ) (hn0 : 0 < n0) (L : ClearLayers) (hL : ∀ l ∈ L, l.2 ≠ 0) (eb : ℝ) (theta lbda : ℝ) (ht : |theta| < 90) (ee)
    (x : Fin 2 → ℂ) :
    let s := clearStack n0 L eb
    let m := transfer4x4 propLinear s theta lbda ee
    linearFactor (n0 * Real.sin (deg2rad theta)) lbda L *
        (((nOf s.back * cosPhi (kxOf s theta) s.back).re / (nOf s.front * cosPhi (kxOf s theta) s.front).re) * (‖x 0‖ ^ 2 + ‖x 1‖ ^ 2)) =
      ‖(tIt m *ᵥ x) 0‖ ^ 2 + ‖(tIt m *ᵥ x) 1‖ ^ 2 - (‖(tRt m *ᵥ x) 0‖ ^ 2 + ‖(tRt m *ᵥ x) 1‖ ^ 2) ∧
    (linearFactor (n0 * Real.sin (deg2rad theta)) lbda L ≠ 0 → eb ≠ 0 → m *ᵥ ![x 1, 0, x 0, 0] = 0 → x = 0) := by
  intro s m
  have hf : s.front 0 0 = ((n0 ^ 2 : ℝ) : ℂ) := by simp [s, clearStack, isoTensor]
  have hb : s.back 0 0 = (eb : ℂ) := by simp [s, clearStack, isoTensor]
  have hkx := kxOf_real hn0 hf theta
  have hc := cos_pos_of_angle ht
  have hn : nOf s.front = n0 := nOf_front hn0 hf
  have hn' : nOf s.front ≠ 0 := by rw [hn]; exact_mod_cast hn0.ne'
  have hcp := cosPhi_front s theta hn' hc
  have hc' : cosPhi (kxOf s theta) s.front ≠ 0 := by rw [hcp]; exact_mod_cast hc.ne'
  have hff : blkC (Ds (nOf s.front) (cosPhi (kxOf s theta) s.front)) (Dp (nOf s.front) (cosPhi (kxOf s theta) s.front)) *ᵥ
      (m *ᵥ ![x 1, 0, x 0, 0]) =
      (s.layers.map fun l => propLinear (buildDelta (kxOf s theta) l.2) (-l.1) lbda).prod *ᵥ
        (blkC (Ds (nOf s.back) (cosPhi (kxOf s theta) s.back)) (Dp (nOf s.back) (cosPhi (kxOf s theta) s.back)) *ᵥ ![x 1, 0, x 0, 0]) := by
    simp only [m]
    unfold transfer4x4
    rw [loop4x4_eq, exitMatrix, if_pos (show s.backIsotropic = true from rfl), isoHalf_eq, isoHalfInv_eq, Matrix.mulVec_mulVec, ← Matrix.mul_assoc,
      blkC_mul_blkR, Ds_mul_inv hn' hc', Dp_mul_inv hn' hc', blk_one, Matrix.one_mul, Matrix.mulVec_mulVec]
  constructor
  · have h1 := congrArg flux hff
    rw [show s.layers = L.map fun l => (l.1, isoTensor (l.2 : ℂ)) from rfl, hkx, flux_linear_stack _ _ _ hL, flux_exit, transfer_split, ← hkx, hcp, hn,
      flux_front] at h1
    have k3 : (cosPhi (kxOf s theta) s.back * (starRingEnd ℂ) (nOf s.back)).re = (nOf s.back * cosPhi (kxOf s theta) s.back).re := by
      rw [hkx]
      exact exit_flux_eq (e := s.back 0 0) _ (by rw [hb, Complex.ofReal_im])
    rw [k3] at h1
    rw [hcp, hn, ← Complex.ofReal_mul, Complex.ofReal_re]
    have hpos : 0 < n0 * Real.cos (deg2rad theta) := by positivity
    simp only [Matrix.cons_val_zero, Matrix.cons_val_one, Matrix.cons_val] at h1
    generalize (nOf s.back * cosPhi (kxOf s theta) s.back).re = B at *
    generalize linearFactor (n0 * Real.sin (deg2rad theta)) lbda L = F at *
    generalize n0 * Real.cos (deg2rad theta) = N at *
    field_simp
    linarith
  · intro hF heb hz
    rw [hz, Matrix.mulVec_zero] at hff
    have hu := linear_stack_unit (n0 * Real.sin (deg2rad theta)) lbda L hL hF
    rw [show s.layers = L.map fun l => (l.1, isoTensor (l.2 : ℂ)) from rfl, hkx] at hff
    obtain ⟨u, hu⟩ := hu
    rw [← hu] at hff
    have hexit := congrArg (fun v => (↑u⁻¹ : Mat4) *ᵥ v) hff
    simp only [Matrix.mulVec_zero, Matrix.mulVec_mulVec] at hexit
    rw [← Matrix.mul_assoc, Units.inv_mul, Matrix.one_mul] at hexit
    have e1 := congrFun hexit 1
    have e3 := congrFun hexit 3
    have hnb : nOf s.back ≠ 0 := fun hh => heb (by
      have := csqrt_eq_zero.1 hh
      rw [hb] at this
      exact_mod_cast this)
    simp [blkC, Ds, Dp, Matrix.mulVec, dotProduct, Fin.sum_univ_four] at e1 e3
    funext i
    fin_cases i
    · simpa [hnb, eq_comm] using e3
    · simpa using e1.symm

lemma linear_det (n0 : ℝ) (hn0 : 0 < n0) (L : ClearLayers) (hL : ∀ l ∈ L, l.2 ≠ 0) (eb : ℝ) (heb : eb ≠ 0) (theta lbda : ℝ) (ht : |theta| < 90) (ee)
    (hF : 0 < linearFactor (n0 * Real.sin (deg2rad theta)) lbda L) :
    (tIt (transfer4x4 propLinear (clearStack n0 L eb) theta lbda ee)).det ≠ 0 ∧
    ∃ P, 0 ≤ P ∧ (calculate4x4 propLinear (clearStack n0 L eb) theta lbda ee).power = some P ∧
      P = (nOf (clearStack n0 L eb).back * cosPhi (kxOf (clearStack n0 L eb) theta) (clearStack n0 L eb).back).re /
        (nOf (clearStack n0 L eb).front * cosPhi (kxOf (clearStack n0 L eb) theta) (clearStack n0 L eb).front).re := by
  set s := clearStack n0 L eb with hs
  have hf : s.front 0 0 = ((n0 ^ 2 : ℝ) : ℂ) := by simp [s, clearStack, isoTensor]
  have hb : s.back 0 0 = (eb : ℂ) := by simp [s, clearStack, isoTensor]
  have hb0 : s.back 0 0 ≠ 0 := by rw [hb]; exact_mod_cast heb
  have hbi : 0 ≤ (s.back 0 0).im := by rw [hb, Complex.ofReal_im]
  have hkx := kxOf_real hn0 hf theta
  have hc := cos_pos_of_angle ht
  have hn : nOf s.front = n0 := nOf_front hn0 hf
  have hn' : nOf s.front ≠ 0 := by rw [hn]; exact_mod_cast hn0.ne'
  have hcp := cosPhi_front s theta hn' hc
  have kb : getKz s.back (kxOf s theta) = nOf s.back * cosPhi (kxOf s theta) s.back := by
    rw [hkx]
    exact kz_exit _ hb0 hbi
  have kf : getKz s.front (kxOf s theta) = nOf s.front * cosPhi (kxOf s theta) s.front := by
    rw [hkx]
    refine kz_exit _ ?_ ?_
    · rw [hf]
      exact_mod_cast (pow_pos hn0 2).ne'
    · rw [hf, Complex.ofReal_im]
  have hP : 0 ≤ (nOf s.back * cosPhi (kxOf s theta) s.back).re / (nOf s.front * cosPhi (kxOf s theta) s.front).re := by
    rw [hn, hcp, ← Complex.ofReal_mul, Complex.ofReal_re]
    apply div_nonneg _ (by positivity)
    have := exit_re_nonneg (e := s.back 0 0) (n0 * Real.sin (deg2rad theta)) hb0 hbi
    simp only [cosPhi, nOf]
    rw [hkx]
    exact this
  refine ⟨?_, _, hP, ?_, rfl⟩
  · intro hdet
    obtain ⟨x, hx, hx0⟩ := Matrix.exists_mulVec_eq_zero_iff.2 hdet
    obtain ⟨h1, h2⟩ := linear_balance n0 hn0 L hL eb theta lbda ht ee x
    simp only [← hs] at h1 h2
    rw [hx0] at h1
    have h0 := mul_nonneg hF.le (mul_nonneg hP (show 0 ≤ ‖x 0‖ ^ 2 + ‖x 1‖ ^ 2 by positivity))
    simp only [Pi.zero_apply, norm_zero] at h1
    rw [h1] at h0
    have r0 : (tRt (transfer4x4 propLinear s theta lbda ee) *ᵥ x) 0 = 0 := by
      rw [← norm_eq_zero, ← sq_eq_zero_iff]
      nlinarith [sq_nonneg ‖(tRt (transfer4x4 propLinear s theta lbda ee) *ᵥ x) 0‖, sq_nonneg ‖(tRt (transfer4x4 propLinear s theta lbda ee) *ᵥ x) 1‖]
    have r1 : (tRt (transfer4x4 propLinear s theta lbda ee) *ᵥ x) 1 = 0 := by
      rw [← norm_eq_zero, ← sq_eq_zero_iff]
      nlinarith [sq_nonneg ‖(tRt (transfer4x4 propLinear s theta lbda ee) *ᵥ x) 0‖, sq_nonneg ‖(tRt (transfer4x4 propLinear s theta lbda ee) *ᵥ x) 1‖]
    apply hx
    apply h2 hF.ne' heb
    rw [transfer_split, hx0, r0, r1]
    funext i
    fin_cases i <;> simp
  · simp only [calculate4x4]
    rw [if_pos (show s.backIsotropic = true from rfl), kb, kf]

/-- Reflected power of light with the Jones vector `v`. -/
noncomputable def reflectedPower (out : SolverOut) (v : Fin 2 → ℂ) : ℝ := ‖(out.jr *ᵥ v) 0‖ ^ 2 + ‖(out.jr *ᵥ v) 1‖ ^ 2

/-- Transmitted power of light with the Jones vector `v`, for the power correction `P` of the solver. -/
noncomputable def transmittedPower (out : SolverOut) (P : ℝ) (v : Fin 2 → ℂ) : ℝ := P * (‖(out.jt *ᵥ v) 0‖ ^ 2 + ‖(out.jt *ᵥ v) 1‖ ^ 2)

/-- C160: transparent isotropic layers with `PropagatorLinear`: the reflected power and the transmitted power times the product of
`1 + (2 pi d / lbda)² (eps - kx²)` over the layers give the incident power, for light of every polarisation. -/
theorem C160_balance (n0 : ℝ) (hn0 : 0 < n0) (L : ClearLayers) (hL : ∀ l ∈ L, l.2 ≠ 0) (eb : ℝ) (heb : eb ≠ 0) (theta lbda : ℝ) (ht : |theta| < 90) (ee)
    (hF : 0 < linearFactor (n0 * Real.sin (deg2rad theta)) lbda L) :
    let out := calculate4x4 propLinear (clearStack n0 L eb) theta lbda ee
    ∃ P, 0 ≤ P ∧ out.power = some P ∧ ∀ v : Fin 2 → ℂ,
      reflectedPower out v + linearFactor (n0 * Real.sin (deg2rad theta)) lbda L * transmittedPower out P v = ‖v 0‖ ^ 2 + ‖v 1‖ ^ 2 := by
  intro out
  obtain ⟨hdet, P, hP, e, hPe⟩ := linear_det n0 hn0 L hL eb heb theta lbda ht ee hF
  refine ⟨P, hP, e, fun v => ?_⟩
  have hu : IsUnit (tIt (transfer4x4 propLinear (clearStack n0 L eb) theta lbda ee)).det := isUnit_iff_ne_zero.2 hdet
  obtain ⟨h1, -⟩ := linear_balance n0 hn0 L hL eb theta lbda ht ee ((tIt (transfer4x4 propLinear (clearStack n0 L eb) theta lbda ee))⁻¹ *ᵥ v)
  rw [Matrix.mulVec_mulVec, Matrix.mul_nonsing_inv _ hu, Matrix.one_mulVec, Matrix.mulVec_mulVec, ← hPe] at h1
  simp only [reflectedPower, transmittedPower, out, calculate4x4]
  linarith

/-- C160: below the critical angles of the layers a transparent sample seems to absorb: nothing is gained, and the power found again is at least the incident
power over the product. -/
theorem C160_loss (n0 : ℝ) (hn0 : 0 < n0) (L : ClearLayers) (eb : ℝ) (heb : eb ≠ 0) (theta lbda : ℝ) (ht : |theta| < 90) (ee)
    (hL : ∀ l ∈ L, l.2 ≠ 0 ∧ (n0 * Real.sin (deg2rad theta)) ^ 2 ≤ l.2) :
    let out := calculate4x4 propLinear (clearStack n0 L eb) theta lbda ee
    ∃ P, 0 ≤ P ∧ out.power = some P ∧ ∀ v : Fin 2 → ℂ,
      reflectedPower out v + transmittedPower out P v ≤ ‖v 0‖ ^ 2 + ‖v 1‖ ^ 2 ∧
      ‖v 0‖ ^ 2 + ‖v 1‖ ^ 2 ≤ linearFactor (n0 * Real.sin (deg2rad theta)) lbda L * (reflectedPower out v + transmittedPower out P v) := by
  intro out
  have hF : 1 ≤ linearFactor (n0 * Real.sin (deg2rad theta)) lbda L := by
    unfold linearFactor
    generalize n0 * Real.sin (deg2rad theta) = kx at *
    clear out
    induction L with
    | nil => simp
    | cons l rest ih =>
      simp only [List.map_cons, List.prod_cons]
      have h1 := ih fun l h => hL l (by simp [h])
      have h2 := mul_nonneg (sq_nonneg (2 * Real.pi / lbda * l.1)) (sub_nonneg.2 (hL l (by simp)).2)
      nlinarith
  obtain ⟨P, hP, e, h⟩ := C160_balance n0 hn0 L (fun l h => (hL l h).1) eb heb theta lbda ht ee (by linarith)
  refine ⟨P, hP, e, fun v => ?_⟩
  have h1 := h v
  have hR : 0 ≤ reflectedPower out v := by unfold reflectedPower; positivity
  have hT : 0 ≤ transmittedPower out P v := by unfold transmittedPower; positivity
  change reflectedPower out v + _ * transmittedPower out P v = _ at h1
  constructor <;> nlinarith

lemma linearFactor_slices (kx lbda : ℝ) (L : ClearLayers) (N : ℕ) (hN : N ≠ 0) (hL : ∀ l ∈ L, kx ^ 2 ≤ l.2) :
    linearFactor kx lbda (L.flatMap fun l => List.replicate N (l.1 / N, l.2)) ≤
      Real.exp ((L.map fun l => (2 * Real.pi / lbda * l.1) ^ 2 * (l.2 - kx ^ 2)).sum / N) := by
  have hN' : (N : ℝ) ≠ 0 := by exact_mod_cast hN
  induction L with
  | nil => simp [linearFactor]
  | cons l rest ih =>
    have h1 := ih fun l h => hL l (by simp [h])
    have hx := mul_nonneg (sq_nonneg (2 * Real.pi / lbda * (l.1 / N))) (sub_nonneg.2 (hL l (by simp)))
    simp only [linearFactor, List.flatMap_cons, List.map_append, List.prod_append, List.map_replicate, List.prod_replicate, List.map_cons, List.sum_cons] at h1 ⊢
    rw [add_div, Real.exp_add]
    have h2 : (1 + (2 * Real.pi / lbda * (l.1 / N)) ^ 2 * (l.2 - kx ^ 2)) ^ N ≤ Real.exp ((2 * Real.pi / lbda * l.1) ^ 2 * (l.2 - kx ^ 2) / N) := by
      have h3 := Real.add_one_le_exp ((2 * Real.pi / lbda * (l.1 / N)) ^ 2 * (l.2 - kx ^ 2))
      calc (1 + (2 * Real.pi / lbda * (l.1 / N)) ^ 2 * (l.2 - kx ^ 2)) ^ N
          ≤ (Real.exp ((2 * Real.pi / lbda * (l.1 / N)) ^ 2 * (l.2 - kx ^ 2))) ^ N := pow_le_pow_left₀ (by linarith) (by linarith) N
        _ = Real.exp ((2 * Real.pi / lbda * l.1) ^ 2 * (l.2 - kx ^ 2) / N) := by
          rw [← Real.exp_nat_mul]
          congr 1
          field_simp
    refine mul_le_mul h2 h1 ?_ (Real.exp_pos _).le
    apply List.prod_nonneg
    intro y hy
    simp only [List.mem_map, List.mem_flatMap, List.mem_replicate] at hy
    obtain ⟨a, ⟨b, hb, -, rfl⟩, rfl⟩ := hy
    have := mul_nonneg (sq_nonneg (2 * Real.pi / lbda * (b.1 / N))) (sub_nonneg.2 (hL b (by simp [hb])))
    simp only
    linarith

/-- C160: with every layer cut into `N` equal slices the missing part of the power is at most the sum of the squared phases of the layers over `N`. -/
theorem C160_slices (n0 : ℝ) (hn0 : 0 < n0) (L : ClearLayers) (eb : ℝ) (heb : eb ≠ 0) (theta lbda : ℝ) (ht : |theta| < 90) (ee) (N : ℕ) (hN : N ≠ 0)
    (hL : ∀ l ∈ L, l.2 ≠ 0 ∧ (n0 * Real.sin (deg2rad theta)) ^ 2 ≤ l.2) :
    let out := calculate4x4 propLinear (clearStack n0 (L.flatMap fun l => List.replicate N (l.1 / N, l.2)) eb) theta lbda ee
    ∃ P, 0 ≤ P ∧ out.power = some P ∧ ∀ v : Fin 2 → ℂ,
      (‖v 0‖ ^ 2 + ‖v 1‖ ^ 2) * (1 - (L.map fun l => (2 * Real.pi / lbda * l.1) ^ 2 * (l.2 - (n0 * Real.sin (deg2rad theta)) ^ 2)).sum / N) ≤
        reflectedPower out v + transmittedPower out P v ∧
      reflectedPower out v + transmittedPower out P v ≤ ‖v 0‖ ^ 2 + ‖v 1‖ ^ 2 := by
  intro out
  obtain ⟨P, hP, e, h⟩ := C160_loss n0 hn0 (L.flatMap fun l => List.replicate N (l.1 / N, l.2)) eb heb theta lbda ht ee (by
    intro l hl
    simp only [List.mem_flatMap, List.mem_replicate] at hl
    obtain ⟨a, ha, -, rfl⟩ := hl
    exact hL a ha)
  refine ⟨P, hP, e, fun v => ⟨?_, (h v).1⟩⟩
  have h1 := (h v).2
  have hR : 0 ≤ reflectedPower out v := by unfold reflectedPower; positivity
  have hT : 0 ≤ transmittedPower out P v := by unfold transmittedPower; positivity
  have h2 := linearFactor_slices (n0 * Real.sin (deg2rad theta)) lbda L N hN fun l h => (hL l h).2
  generalize (L.map fun l => (2 * Real.pi / lbda * l.1) ^ 2 * (l.2 - (n0 * Real.sin (deg2rad theta)) ^ 2)).sum / (N : ℝ) = S at *
  have h3 : ‖v 0‖ ^ 2 + ‖v 1‖ ^ 2 ≤ Real.exp S * (reflectedPower out v + transmittedPower out P v) :=
    h1.trans (mul_le_mul_of_nonneg_right h2 (add_nonneg hR hT))
  have h4 := Real.add_one_le_exp (-S)
  have h5 : Real.exp (-S) * Real.exp S = 1 := by rw [← Real.exp_add]; simp
  have h6 : 0 ≤ ‖v 0‖ ^ 2 + ‖v 1‖ ^ 2 := by positivity
  have h7 := mul_le_mul_of_nonneg_left h3 (Real.exp_pos (-S)).le
  rw [← mul_assoc, h5, one_mul] at h7
  nlinarith

/-- C160: beyond the critical angle of a layer more light comes back than was sent in. A gap of air of width lambda / (4 pi) between two prisms of index 2
at 45°: whatever the polarisation, a quarter of the transmitted power is created. -/
theorem C160_gain_refuted (lbda : ℝ) (hl : 0 < lbda) (ee) :
    let out := calculate4x4 propLinear (clearStack 2 [(lbda / (4 * Real.pi), 1)] 4) 45 lbda ee
    ∃ P, out.power = some P ∧ ∀ v : Fin 2 → ℂ, v ≠ 0 → ‖v 0‖ ^ 2 + ‖v 1‖ ^ 2 < reflectedPower out v + transmittedPower out P v := by
  intro out
  have hs : (2 * Real.sin (deg2rad 45)) ^ 2 = 2 := by
    rw [show deg2rad 45 = Real.pi / 4 by unfold deg2rad; ring, Real.sin_pi_div_four, mul_pow, div_pow, Real.sq_sqrt (by norm_num)]
    norm_num
  have hF : linearFactor (2 * Real.sin (deg2rad 45)) lbda [(lbda / (4 * Real.pi), 1)] = 3 / 4 := by
    simp only [linearFactor, List.map_cons, List.map_nil, List.prod_cons, List.prod_nil, hs]
    have := Real.pi_pos
    field_simp
    norm_num
  have ht : |(45 : ℝ)| < 90 := by norm_num
  obtain ⟨P, hP, e, h⟩ := C160_balance 2 two_pos [(lbda / (4 * Real.pi), 1)] (by simp) 4 (by norm_num) 45 lbda ht ee (by rw [hF]; norm_num)
  obtain ⟨hdet, P', -, e', hP'⟩ := linear_det 2 two_pos [(lbda / (4 * Real.pi), 1)] (by simp) 4 (by norm_num) 45 lbda ht ee (by rw [hF]; norm_num)
  obtain rfl : P = P' := by
    have : some P = some P' := e.symm.trans e'
    simpa using this
  have hP1 : 0 < P := by
    have hfb : (clearStack 2 [(lbda / (4 * Real.pi), 1)] 4).back = (clearStack 2 [(lbda / (4 * Real.pi), 1)] 4).front := by
      simp only [clearStack]
      norm_num
    rw [hP', hfb, div_self]
    · exact one_pos
    · have hf : (clearStack 2 [(lbda / (4 * Real.pi), 1)] 4).front 0 0 = (((2 : ℝ) ^ 2 : ℝ) : ℂ) := by simp [clearStack, isoTensor]
      have hc := cos_pos_of_angle ht
      have hn := nOf_front two_pos hf
      rw [cosPhi_front _ 45 (by rw [hn]; norm_num) hc, hn, ← Complex.ofReal_mul, Complex.ofReal_re]
      positivity
  refine ⟨P, e, fun v hv => ?_⟩
  have h1 := h v
  rw [hF] at h1
  change reflectedPower out v + 3 / 4 * transmittedPower out P v = _ at h1
  have hT : 0 < transmittedPower out P v := by
    unfold transmittedPower
    apply mul_pos hP1
    have hne : out.jt *ᵥ v ≠ 0 := by
      intro h0
      apply hv
      have h2 : tIt (transfer4x4 propLinear (clearStack 2 [(lbda / (4 * Real.pi), 1)] 4) 45 lbda ee) *ᵥ (out.jt *ᵥ v) = 0 := by
        rw [h0, Matrix.mulVec_zero]
      simp only [out, calculate4x4] at h2
      rwa [Matrix.mulVec_mulVec, Matrix.mul_nonsing_inv _ (isUnit_iff_ne_zero.2 hdet), Matrix.one_mulVec] at h2
    by_contra hc
    apply hne
    have h0 := sq_nonneg ‖(out.jt *ᵥ v) 0‖
    have h1 := sq_nonneg ‖(out.jt *ᵥ v) 1‖
    have e0 : ‖(out.jt *ᵥ v) 0‖ ^ 2 = 0 := by linarith
    have e1 : ‖(out.jt *ᵥ v) 1‖ ^ 2 = 0 := by linarith
    funext i
    fin_cases i
    · exact norm_eq_zero.1 (pow_eq_zero_iff two_ne_zero |>.1 e0)
    · exact norm_eq_zero.1 (pow_eq_zero_iff two_ne_zero |>.1 e1)
  linarith

/-- A film of index 1.5 on glass, cut into slices, at 30° in air. -/
example : ∀ l ∈ ([(100, 2.25)] : ClearLayers), l.2 ≠ 0 ∧ (1 * Real.sin (deg2rad 30)) ^ 2 ≤ l.2 := by
  intro l hl
  simp only [List.mem_singleton] at hl
  subst hl
  rw [show deg2rad 30 = Real.pi / 6 by unfold deg2rad; ring, Real.sin_pi_div_six]
  norm_num

end PyElli
