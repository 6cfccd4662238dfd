import Verif.Lemmas.ExitForward
import Verif.Lemmas.Uniaxial
import Verif.Props.Energy
import Mathlib.Tactic

/-! # Energy balance of stacks on anisotropic exit media (C116) -/

namespace Spec

open Matrix Complex

/-- The media whose waves the exit half space sorts correctly, in terms of the permittivity, the tangential wave number and the four
wave numbers `q` along z: passive media none of whose waves is totally reflected; absorbing media; transparent media with an evanescent
wave, in which no two undamped waves coincide. -/
def RegularExit (kx : ℝ) (eps : Matrix (Fin 3) (Fin 3) ℂ) (q : Fin 4 → ℂ) : Prop :=
  (Passive eps ∧ ∃ kz, Inside kx kz eps) ∨ Absorbing eps ∨
    (Lossless eps ∧ Inside 0 0 eps ∧ (∃ i, (q i).im ≠ 0) ∧ ∀ i j, i ≠ j → q i = q j → (q i).im ≠ 0)

end Spec

namespace PyElli

open Matrix Complex Spec

/-- A stack on an anisotropic exit medium: transparent front medium, angle of incidence below 90 degrees, passive slices; `q` and `w` are
a correct answer of `np.linalg.eig` for the exit medium, and the normalisation constant of the half space does not vanish. -/
structure CrystalStack (s : Stack) (theta lbda : ℝ) (q : Fin 4 → ℂ) (w : Mat4) : Prop where
  front : ∃ n0 : ℝ, 0 < n0 ∧ s.front 0 0 = ((n0 ^ 2 : ℝ) : ℂ)
  angle : |theta| < 90
  lbda_pos : 0 < lbda
  layers : ∀ l ∈ s.layers, 0 ≤ l.1 ∧ l.2 2 2 ≠ 0 ∧ Passive l.2
  aniso : s.backIsotropic = false
  unit : IsUnit w
  eig : buildDelta (kxOf s theta) s.back * w = w * Matrix.diagonal q
  norm_ne : eigNorm q w ≠ 0

/-- The tangential wave number as a real number. -/
noncomputable def kxReal (s : Stack) (theta : ℝ) : ℝ := (kxOf s theta).re

lemma CrystalStack.kx {s : Stack} {theta lbda : ℝ} {q : Fin 4 → ℂ} {w : Mat4} (h : CrystalStack s theta lbda q w) :
    kxOf s theta = (kxReal s theta : ℂ) := by
  obtain ⟨n0, hn0, hf⟩ := h.front
  unfold kxReal
  rw [kxOf_real hn0 hf, Complex.ofReal_re]

lemma forward_regular {s : Stack} {theta lbda : ℝ} {q : Fin 4 → ℂ} {w : Mat4} (h : CrystalStack s theta lbda q w)
    (hr : RegularExit (kxReal s theta) s.back q) : ForwardSplit q w := by
  have he := h.eig
  rw [h.kx] at he
  rcases hr with ⟨hp, kz, hin⟩ | ha | ⟨hl, hpos, hev, hs⟩
  · exact forward_inside hin hp q w h.unit he
  · exact forward_absorbing ha q w h.unit he
  · exact forward_evanescent hl hpos q w h.unit he hev hs

/-- The exit fields of two transmitted amplitudes are a combination of the two waves sorted first. -/
lemma exit_combo {q : Fin 4 → ℂ} {w : Mat4} (hc : eigNorm q w ≠ 0) : ∃ g : Mat2, IsUnit g ∧ ∀ x : Fin 2 → ℂ,
    eigHalf q w *ᵥ ![x 1, 0, x 0, 0] = eigSorted q w *ᵥ ![(g *ᵥ x) 0, (g *ᵥ x) 1, 0, 0] := by
  obtain ⟨g, hg, e⟩ := cols_eigHalf q w hc
  refine ⟨g, hg, fun x => ?_⟩
  have h1 : eigHalf q w *ᵥ ![x 1, 0, x 0, 0] = cols (eigHalf q w) *ᵥ x := by
    funext a
    simp [Matrix.mulVec, dotProduct, Fin.sum_univ_four, Fin.sum_univ_two, cols]
    ring
  have h2 : eigSorted q w *ᵥ ![(g *ᵥ x) 0, (g *ᵥ x) 1, 0, 0] = fwd q w *ᵥ (g *ᵥ x) := by
    generalize g *ᵥ x = y
    funext a
    simp [Matrix.mulVec, dotProduct, Fin.sum_univ_four, Fin.sum_univ_two, fwd]
  rw [h1, h2, e, Matrix.mulVec_mulVec]

/-- C116: whatever amplitudes the two transmitted waves have, the fields which `Solver4x4` puts into a regular anisotropic exit medium
carry no energy towards the stack. -/
theorem C116_forward_partial {s : Stack} {theta lbda : ℝ} {q : Fin 4 → ℂ} {w : Mat4} (h : CrystalStack s theta lbda q w)
    (hr : RegularExit (kxReal s theta) s.back q) (ts tp : ℂ) :
    0 ≤ flux (exitMatrix s (kxOf s theta) (q, w) *ᵥ ![ts, 0, tp, 0]) := by
  obtain ⟨g, -, hg⟩ := exit_combo h.norm_ne
  have := hg ![tp, ts]
  simp only [Matrix.cons_val_zero, Matrix.cons_val_one] at this
  rw [exitMatrix, h.aniso]
  simp only [Bool.false_eq_true, if_false]
  rw [this]
  exact (forward_regular h hr).out _ rfl rfl

/-- Incident minus reflected power is the flux behind the front interface. -/
lemma crystal_balance {s : Stack} {theta lbda : ℝ} {q : Fin 4 → ℂ} {w : Mat4} (h : CrystalStack s theta lbda q w) :
    ∃ n0 c0 : ℝ, 0 < n0 ∧ 0 < c0 ∧ ∀ x : Fin 2 → ℂ,
      n0 * c0 * (‖(tIt (transfer4x4 propExpm s theta lbda (q, w)) *ᵥ x) 1‖ ^ 2 -
          ‖(tRt (transfer4x4 propExpm s theta lbda (q, w)) *ᵥ x) 1‖ ^ 2 +
          ‖(tIt (transfer4x4 propExpm s theta lbda (q, w)) *ᵥ x) 0‖ ^ 2 -
          ‖(tRt (transfer4x4 propExpm s theta lbda (q, w)) *ᵥ x) 0‖ ^ 2) =
        flux ((s.layers.map fun l => propExpm (buildDelta (kxOf s theta) l.2) (-l.1) lbda).prod *ᵥ
          (eigHalf q w *ᵥ ![x 1, 0, x 0, 0])) := by
  obtain ⟨n0, hn0, hf⟩ := h.front
  have hc := cos_pos_of_angle h.angle
  have hn : nOf s.front = n0 := nOf_front hn0 hf
  have hn' : nOf s.front ≠ 0 := by rw [hn]; exact_mod_cast hn0.ne'
  have hcp := cosPhi_front s theta hn' hc
  have hc' : cosPhi (kxOf s theta) s.front ≠ 0 := by rw [hcp]; exact_mod_cast hc.ne'
  refine ⟨n0, _, hn0, hc, fun x => ?_⟩
  have hff : blkC (Ds (nOf s.front) (cosPhi (kxOf s theta) s.front)) (Dp (nOf s.front) (cosPhi (kxOf s theta) s.front)) *ᵥ
      (transfer4x4 propExpm s theta lbda (q, w) *ᵥ ![x 1, 0, x 0, 0]) =
      (s.layers.map fun l => propExpm (buildDelta (kxOf s theta) l.2) (-l.1) lbda).prod *ᵥ
        (eigHalf q w *ᵥ ![x 1, 0, x 0, 0]) := by
    unfold transfer4x4
    rw [loop4x4_eq, exitMatrix, h.aniso]
    simp only [Bool.false_eq_true, if_false]
    rw [isoHalfInv_eq, Matrix.mulVec_mulVec, ← Matrix.mul_assoc, blkC_mul_blkR, Ds_mul_inv hn' hc', Dp_mul_inv hn' hc',
      blk_one, Matrix.one_mul, Matrix.mulVec_mulVec]
  rw [← hff, transfer_split, hcp, hn, flux_front]
  simp

lemma layers_unit (kx : ℂ) (lbda : ℝ) (L : List (ℝ × Tensor)) :
    IsUnit (L.map fun l => propExpm (buildDelta kx l.2) (-l.1) lbda).prod := by
  induction L with
  | nil => simp
  | cons l rest ih =>
    simp only [List.map_cons, List.prod_cons]
    exact (Matrix.isUnit_exp _).mul ih

lemma crystal_ge {s : Stack} {theta lbda : ℝ} {q : Fin 4 → ℂ} {w : Mat4} (h : CrystalStack s theta lbda q w)
    (hr : RegularExit (kxReal s theta) s.back q) (x : Fin 2 → ℂ) :
    ‖(tRt (transfer4x4 propExpm s theta lbda (q, w)) *ᵥ x) 0‖ ^ 2 +
        ‖(tRt (transfer4x4 propExpm s theta lbda (q, w)) *ᵥ x) 1‖ ^ 2 ≤
      ‖(tIt (transfer4x4 propExpm s theta lbda (q, w)) *ᵥ x) 0‖ ^ 2 +
        ‖(tIt (transfer4x4 propExpm s theta lbda (q, w)) *ᵥ x) 1‖ ^ 2 := by
  obtain ⟨n0, c0, hn0, hc0, key⟩ := crystal_balance h
  have k1 := key x
  have k2 := flux_stack_ge (kxReal s theta) h.lbda_pos s.layers h.layers (eigHalf q w *ᵥ ![x 1, 0, x 0, 0])
  have k3 := C116_forward_partial h hr (x 1) (x 0)
  rw [exitMatrix, h.aniso] at k3
  simp only [Bool.false_eq_true, if_false] at k3
  rw [h.kx] at k1
  rw [← k1] at k2
  have k4 := k3.trans k2
  have k5 := nonneg_of_mul_nonneg_right k4 (mul_pos hn0 hc0)
  linarith

lemma crystal_det {s : Stack} {theta lbda : ℝ} {q : Fin 4 → ℂ} {w : Mat4} (h : CrystalStack s theta lbda q w)
    (hr : RegularExit (kxReal s theta) s.back q) : (tIt (transfer4x4 propExpm s theta lbda (q, w))).det ≠ 0 := by
  intro hdet
  obtain ⟨x, hx, hx0⟩ := Matrix.exists_mulVec_eq_zero_iff.2 hdet
  have hb := crystal_ge h hr x
  rw [hx0] at hb
  simp only [Pi.zero_apply, norm_zero] at hb
  have r0 : (tRt (transfer4x4 propExpm s theta lbda (q, w)) *ᵥ x) 0 = 0 := by
    rw [← norm_eq_zero, ← sq_eq_zero_iff]
    nlinarith [sq_nonneg ‖(tRt (transfer4x4 propExpm s theta lbda (q, w)) *ᵥ x) 0‖,
      sq_nonneg ‖(tRt (transfer4x4 propExpm s theta lbda (q, w)) *ᵥ x) 1‖]
  have r1 : (tRt (transfer4x4 propExpm s theta lbda (q, w)) *ᵥ x) 1 = 0 := by
    rw [← norm_eq_zero, ← sq_eq_zero_iff]
    nlinarith [sq_nonneg ‖(tRt (transfer4x4 propExpm s theta lbda (q, w)) *ᵥ x) 0‖,
      sq_nonneg ‖(tRt (transfer4x4 propExpm s theta lbda (q, w)) *ᵥ x) 1‖]
  have hz : transfer4x4 propExpm s theta lbda (q, w) *ᵥ ![x 1, 0, x 0, 0] = 0 := by
    rw [transfer_split, hx0, r0, r1]
    funext i
    fin_cases i <;> simp
  obtain ⟨n0, hn0, hf⟩ := h.front
  have hc := cos_pos_of_angle h.angle
  have hn' : nOf s.front ≠ 0 := by rw [nOf_front hn0 hf]; exact_mod_cast hn0.ne'
  have hc' : cosPhi (kxOf s theta) s.front ≠ 0 := by
    rw [cosPhi_front s theta hn' hc]; exact_mod_cast hc.ne'
  have hlead : IsUnit (isoHalfInv (kxOf s theta) s.front) := by
    rw [isoHalfInv_eq]
    apply IsUnit.of_mul_eq_one_right (blkC (Ds (nOf s.front) (cosPhi (kxOf s theta) s.front))
      (Dp (nOf s.front) (cosPhi (kxOf s theta) s.front)))
    rw [blkC_mul_blkR, Ds_mul_inv hn' hc', Dp_mul_inv hn' hc', blk_one]
  unfold transfer4x4 at hz
  rw [loop4x4_eq, exitMatrix, h.aniso] at hz
  simp only [Bool.false_eq_true, if_false] at hz
  obtain ⟨g, hg, he⟩ := exit_combo h.norm_ne
  rw [← Matrix.mul_assoc, ← Matrix.mulVec_mulVec, he] at hz
  have hW := (eigSorted_spec _ w q h.unit h.eig).1
  have hu := (hlead.mul (layers_unit (kxOf s theta) lbda s.layers)).mul hW
  rw [Matrix.mulVec_mulVec] at hz
  have hy : (![(g *ᵥ x) 0, (g *ᵥ x) 1, 0, 0] : Fin 4 → ℂ) = 0 := by
    by_contra hy
    exact mulVec_ne_zero hu hy hz
  apply hx
  have hgx : g *ᵥ x = 0 := by
    funext i
    fin_cases i
    · exact congrFun hy 0
    · exact congrFun hy 1
  have hi : g⁻¹ * g = 1 := Matrix.nonsing_inv_mul _ ((Matrix.isUnit_iff_isUnit_det _).1 hg)
  have := congrArg (fun v => g⁻¹ *ᵥ v) hgx
  simpa [Matrix.mulVec_mulVec, hi] using this

/-- C116: a stack of passive slices on a regular anisotropic exit medium never reflects more than the incident power, for either incident
polarisation, and the matrix inverted by `Solver4x4` is not singular. -/
theorem C116_no_gain_partial {s : Stack} {theta lbda : ℝ} {q : Fin 4 → ℂ} {w : Mat4} (h : CrystalStack s theta lbda q w)
    (hr : RegularExit (kxReal s theta) s.back q) (jones : Fin 2 → ℂ) :
    let out := calculate4x4 propExpm s theta lbda (q, w)
    let res := Result.mk' out.jr out.jt out.power jones
    (tIt (transfer4x4 propExpm s theta lbda (q, w))).det ≠ 0 ∧
    ∀ j, res.RMatrix 0 j + res.RMatrix 1 j ≤ 1 := by
  have hdet := crystal_det h hr
  refine ⟨hdet, fun j => ?_⟩
  obtain ⟨c1, c2⟩ := columns _ hdet j
  have hb := crystal_ge h hr (fun i => (tIt (transfer4x4 propExpm s theta lbda (q, w)))⁻¹ i j)
  rw [c1, c2] at hb
  have hone : ‖(Pi.single j 1 : Fin 2 → ℂ) 0‖ ^ 2 + ‖(Pi.single j 1 : Fin 2 → ℂ) 1‖ ^ 2 = 1 := by
    fin_cases j <;> simp
  rw [hone] at hb
  simp only [calculate4x4, Result.mk', Result.RMatrix]
  exact hb

/-! ## Total reflection -/

/-- C116: on a transparent exit medium all of whose waves are evanescent, behind transparent slices, everything is reflected. -/
theorem C116_total_reflection {s : Stack} {theta lbda : ℝ} {q : Fin 4 → ℂ} {w : Mat4} (h : CrystalStack s theta lbda q w)
    (hl : ∀ l ∈ s.layers, Lossless l.2) (hb : Lossless s.back) (hpos : Inside 0 0 s.back) (hev : ∀ i, (q i).im ≠ 0)
    (jones : Fin 2 → ℂ) :
    let out := calculate4x4 propExpm s theta lbda (q, w)
    let res := Result.mk' out.jr out.jt out.power jones
    ∀ j, res.RMatrix 0 j + res.RMatrix 1 j = 1 := by
  intro out res j
  have hr : RegularExit (kxReal s theta) s.back q := Or.inr (Or.inr ⟨hb, hpos, ⟨0, hev 0⟩, fun i _ _ _ => hev i⟩)
  have hdet := crystal_det h hr
  obtain ⟨c1, c2⟩ := columns _ hdet j
  obtain ⟨n0, c0, hn0, hc0, key⟩ := crystal_balance h
  have k1 := key (fun i => (tIt (transfer4x4 propExpm s theta lbda (q, w)))⁻¹ i j)
  rw [c1, c2, h.kx] at k1
  rw [flux_stack_eq (kxReal s theta) lbda s.layers fun l m => ⟨(h.layers l m).2.1, hl l m⟩] at k1
  obtain ⟨g, -, hg⟩ := exit_combo h.norm_ne
  have hg' := hg (fun i => (tIt (transfer4x4 propExpm s theta lbda (q, w)))⁻¹ i j)
  simp only at hg' k1
  rw [hg'] at k1
  have he := h.eig
  rw [h.kx] at he
  obtain ⟨hW, e⟩ := eigSorted_spec _ w q h.unit he
  have hne : ∀ i, (sortedQ q i).im ≠ 0 := fun i => hev _
  have h22 := inside_ne hpos
  obtain ⟨p1, -⟩ := damped_split h22 (lossless_passive hb) q w h.unit he hne
  have p0 : 0 < (sortedQ q 0).im := p1.trans_le (im_sorted (by decide))
  have oim : ∀ i j, 0 < (sortedQ q i).im → 0 < (sortedQ q j).im →
      flx (fun a => eigSorted q w a i) (fun a => eigSorted q w a j) = 0 := by
    intro i j hi hj
    refine flx_orth (kxReal s theta) hb h22 (col_eig e i) (col_eig e j) fun hh => ?_
    rw [hh, Complex.conj_im] at hj
    linarith
  have hzero : ∀ y : Fin 2 → ℂ, flux (eigSorted q w *ᵥ ![y 0, y 1, 0, 0]) = 0 := by
    intro y
    rw [flux_of_flx, flx_sum]
    simp [Fin.sum_univ_four, oim 0 0 p0 p0, oim 0 1 p0 p1, oim 1 0 p1 p0, oim 1 1 p1 p1]
  rw [hzero] at k1
  have hone : ‖(Pi.single j 1 : Fin 2 → ℂ) 0‖ ^ 2 + ‖(Pi.single j 1 : Fin 2 → ℂ) 1‖ ^ 2 = 1 := by
    fin_cases j <;> simp
  have k2 := (mul_eq_zero.1 k1).resolve_left (mul_pos hn0 hc0).ne'
  simp only [out, res, calculate4x4, Result.mk', Result.RMatrix]
  linarith

/-! ## Uniaxial crystals -/

lemma uniaxial_lossless (eo ee : ℝ) (c : Fin 3 → ℝ) : Lossless (uniaxial eo ee c) := by
  ext i j
  rw [Matrix.conjTranspose_apply]
  simp only [uniaxial]
  rw [Complex.star_def, Complex.conj_ofReal]
  congr 1
  by_cases hij : i = j
  · subst hij
    ring
  · rw [if_neg hij, if_neg (Ne.symm hij)]
    ring

lemma uniaxial_posdef {eo ee : ℝ} {c : Fin 3 → ℝ} (hc : c ⬝ᵥ c = 1) (heo : 0 < eo) (hee : 0 < ee) :
    Inside 0 0 (uniaxial eo ee c) := by
  refine uniaxial_inside_of_real fun E hE => ?_
  have hEE := dot_self_pos hE
  have hcs := cauchy3 c E
  rw [hc, one_mul] at hcs
  have h1 : (![0, 0, 0] : Fin 3 → ℝ) ⬝ᵥ ![0, 0, 0] = 0 := by rw [dot3]; simp
  have h2 : (![0, 0, 0] : Fin 3 → ℝ) ⬝ᵥ E = 0 := by rw [dot3]; simp
  rw [h1, h2]
  rcases le_total eo ee with h | h
  · nlinarith [mul_pos heo hEE, mul_nonneg (sub_nonneg.2 h) (sq_nonneg (c ⬝ᵥ E))]
  · nlinarith [mul_pos hee hEE, mul_le_mul_of_nonneg_left hcs (sub_nonneg.2 h)]

/-- C116: a transparent uniaxial crystal is a regular exit medium for every direction of its optic axis and every angle of incidence
that is not exactly critical: either both waves are transmitted, or one is evanescent (then no two undamped waves may coincide). -/
theorem C116_uniaxial {eo ee kx : ℝ} {c : Fin 3 → ℝ} (hc : c ⬝ᵥ c = 1) (heo : 0 < eo) (hee : 0 < ee) {q : Fin 4 → ℂ} {w : Mat4}
    (hw : IsUnit w) (h : buildDelta kx (uniaxial eo ee c) * w = w * Matrix.diagonal q)
    (hkx : (kx ^ 2 < eo ∧ kx ^ 2 * (eo * c 1 ^ 2 + ee * (1 - c 1 ^ 2)) < ee * (eo + (ee - eo) * c 2 ^ 2)) ∨
      ((eo < kx ^ 2 ∨ ee * (eo + (ee - eo) * c 2 ^ 2) < kx ^ 2 * (eo * c 1 ^ 2 + ee * (1 - c 1 ^ 2))) ∧
        ∀ i j, i ≠ j → q i = q j → (q i).im ≠ 0)) :
    RegularExit kx (uniaxial eo ee c) q := by
  rcases hkx with ⟨h1, h2⟩ | ⟨h1, h2⟩
  · left
    refine ⟨lossless_passive (uniaxial_lossless eo ee c), ?_⟩
    rcases le_total eo ee with hle | hle
    · exact ⟨0, inside_positive c hle h1⟩
    · exact inside_negative hc hee hle h2
  · right; right
    refine ⟨uniaxial_lossless eo ee c, uniaxial_posdef hc heo hee, ?_, h2⟩
    rcases h1 with h1 | h1
    · exact ordinary_evanescent hc heo hee h1 hw h
    · exact extraordinary_evanescent hc heo hee h1 hw h

/-! ## A biaxial crystal whose waves are sorted wrongly -/

/-- A transparent biaxial crystal, tilted in the plane of incidence. -/
noncomputable def biaxial : Tensor := !![10, 0, -5; 0, 17 / 4, 0; -5, 0, 5]

/-- The crystal behind a medium with refractive index 4. -/
noncomputable def biaxialStack : Stack := ⟨isoTensor 16, [], biaxial, false⟩

noncomputable def biaxialQ : Fin 4 → ℂ := ![3, 1, 1 / 2, -1 / 2]

noncomputable def biaxialW : Mat4 := !![1, 1, 0, 0; 0, 0, 1, 1; 0, 0, -1 / 2, 1 / 2; 5, -5, 0, 0]

lemma biaxial_kx : kxOf biaxialStack 30 = ((2 : ℝ) : ℂ) := by
  rw [kxOf_real (n0 := 4) (by norm_num) (by simp [biaxialStack, isoTensor]; norm_num)]
  have : deg2rad 30 = Real.pi / 6 := by unfold deg2rad; ring
  rw [this, Real.sin_pi_div_six]
  norm_num

lemma biaxial_unit : IsUnit biaxialW := by
  have h : biaxialW * !![1 / 2, 0, 0, 1 / 10; 1 / 2, 0, 0, -1 / 10; 0, 1 / 2, -1, 0; 0, 1 / 2, 1, 0] = 1 := by
    ext i j
    fin_cases i <;> fin_cases j <;> simp [biaxialW, Matrix.mul_apply, Fin.sum_univ_four] <;> norm_num
  exact IsUnit.of_mul_eq_one _ h

lemma biaxial_eig : buildDelta (kxOf biaxialStack 30) biaxialStack.back * biaxialW = biaxialW * Matrix.diagonal biaxialQ := by
  rw [biaxial_kx]
  ext i j
  rw [Matrix.mul_diagonal]
  fin_cases i <;> fin_cases j <;>
    simp [buildDelta, biaxialStack, biaxial, biaxialW, biaxialQ, Matrix.mul_apply, Fin.sum_univ_four] <;> norm_num

lemma idx_of_sorted {q : Fin 4 → ℂ} (h : LexGe (q 0) (q 1) ∧ LexGe (q 1) (q 2) ∧ LexGe (q 2) (q 3)) :
    argsort (lexLe q) = [0, 1, 2, 3] := by
  obtain ⟨h1, h2, h3⟩ := h
  unfold argsort
  rw [List.mergeSort_of_pairwise]
  · rfl
  · have : List.finRange 4 = [0, 1, 2, 3] := rfl
    rw [this]
    simp only [List.pairwise_cons, List.mem_cons, List.not_mem_nil, or_false, forall_eq_or_imp, forall_eq, lexLe_iff,
      IsEmpty.forall_iff, implies_true, List.Pairwise.nil, and_true]
    exact ⟨⟨h1, h1.trans h2, (h1.trans h2).trans h3⟩, ⟨h2, h2.trans h3⟩, h3⟩

lemma biaxial_sorted : eigSorted biaxialQ biaxialW = biaxialW := by
  have hidx : argsort (lexLe biaxialQ) = [0, 1, 2, 3] := by
    apply idx_of_sorted
    simp [LexGe, biaxialQ]
    norm_num
  ext a k
  unfold eigSorted takeIdx
  simp only [hidx]
  fin_cases k <;> rfl

lemma biaxial_phased : eigPhased biaxialQ biaxialW = !![1, 0, 1, 0; 0, 1, 0, 1; 0, -1 / 2, 0, 1 / 2; 5, 0, -5, 0] := by
  have d0 : descTwo 0 0 = ![0, 1] := by simp [descTwo]
  have d1 : descTwo 1 1 = ![0, 1] := by simp [descTwo]
  have p0 : unitPhase 0 = 1 := by simp [unitPhase]
  have p1 : unitPhase 1 = 1 := unitPhase_one (by simp)
  ext a k
  simp only [eigPhased, biaxial_sorted]
  have w0 : biaxialW 1 0 = 0 := rfl
  have w1 : biaxialW 1 1 = 0 := rfl
  have w2 : biaxialW 1 2 = 1 := rfl
  have w3 : biaxialW 1 3 = 1 := rfl
  simp only [w0, w1, w2, w3, d0, d1]
  fin_cases k <;> fin_cases a <;> simp [biaxialW, p0, p1]

lemma biaxial_norm : eigNorm biaxialQ biaxialW = 1 := by
  unfold eigNorm
  rw [biaxial_phased]
  simp

lemma biaxial_crystal (lbda : ℝ) (hl : 0 < lbda) : CrystalStack biaxialStack 30 lbda biaxialQ biaxialW where
  front := ⟨4, by norm_num, by simp [biaxialStack, isoTensor]; norm_num⟩
  angle := by rw [abs_of_pos] <;> norm_num
  lbda_pos := hl
  layers := by intro l hm; simp [biaxialStack] at hm
  aniso := rfl
  unit := biaxial_unit
  eig := biaxial_eig
  norm_ne := by rw [biaxial_norm]; exact one_ne_zero

/-- C116 fails for biaxial crystals: here both waves sorted first are p waves, one of which runs towards the stack; the matrix that
`Solver4x4` inverts is singular (`np.linalg.inv` raises an exception). The crystal is transparent with positive principal values, and the
eigenvalues are exact. -/
theorem C116_biaxial_refuted (lbda : ℝ) (hl : 0 < lbda) :
    ∃ (s : Stack) (theta : ℝ) (q : Fin 4 → ℂ) (w : Mat4), CrystalStack s theta lbda q w ∧ Lossless s.back ∧ Inside 0 0 s.back ∧
      (∃ ts tp : ℂ, flux (exitMatrix s (kxOf s theta) (q, w) *ᵥ ![ts, 0, tp, 0]) < 0) ∧
      ∀ prop, (tIt (transfer4x4 prop s theta lbda (q, w))).det = 0 := by
  have hh : eigHalf biaxialQ biaxialW = !![2, 0, 2, 0; 0, 2, 0, 2; 0, -1, 0, 1; 10, 0, -10, 0] := by
    ext a k
    rw [eigHalf, biaxial_phased, biaxial_norm]
    fin_cases k <;> fin_cases a <;> simp <;> norm_num
  refine ⟨biaxialStack, 30, biaxialQ, biaxialW, biaxial_crystal lbda hl, ?_, ?_, ⟨0, 1, ?_⟩, ?_⟩
  · ext i j
    rw [Matrix.conjTranspose_apply]
    fin_cases i <;> fin_cases j <;> simp [biaxialStack, biaxial]
  · intro E hE
    have hf : (star E ⬝ᵥ biaxialStack.back *ᵥ E).re = 5 * ‖E 0‖ ^ 2 + 5 * ‖E 0 - E 2‖ ^ 2 + 17 / 4 * ‖E 1‖ ^ 2 := by
      simp only [← Complex.normSq_eq_norm_sq, Complex.normSq_apply]
      simp [biaxialStack, biaxial, Matrix.mulVec, dotProduct, Fin.sum_univ_three, Complex.mul_re, Complex.mul_im]
      ring
    rw [hf]
    simp
    by_contra hn
    have a0 := sq_nonneg ‖E 0‖
    have a1 := sq_nonneg ‖E 1‖
    have a2 := sq_nonneg ‖E 0 - E 2‖
    have z0 : E 0 = 0 := by rw [← norm_eq_zero, ← sq_eq_zero_iff]; linarith
    have z1 : E 1 = 0 := by rw [← norm_eq_zero, ← sq_eq_zero_iff]; linarith
    have z2 : E 0 - E 2 = 0 := by rw [← norm_eq_zero, ← sq_eq_zero_iff]; linarith
    apply hE
    funext i
    fin_cases i
    · exact z0
    · exact z1
    · have : E 2 = 0 := by linear_combination z0 - z2
      exact this
  · have : exitMatrix biaxialStack (kxOf biaxialStack 30) (biaxialQ, biaxialW) = eigHalf biaxialQ biaxialW := rfl
    rw [this, hh]
    simp [flux, Matrix.mulVec, dotProduct, Fin.sum_univ_four]
  · intro prop
    have hm : transfer4x4 prop biaxialStack 30 lbda (biaxialQ, biaxialW) =
        isoHalfInv (kxOf biaxialStack 30) biaxialStack.front * eigHalf biaxialQ biaxialW := rfl
    rw [hm, hh, Matrix.det_fin_two]
    simp [tIt, isoHalfInv, Matrix.mul_apply, Fin.sum_univ_four]

/-! ## Rounding errors of the eigenvalues -/

/-- A transparent crystal with axes along the coordinates. -/
noncomputable def orthoStack : Stack := ⟨isoTensor 1, [], !![4, 0, 0; 0, 9, 0; 0, 0, 5], false⟩

noncomputable def orthoQ (d : ℝ) : Fin 4 → ℂ := ![3, 2 - I * d, -2, -3 + I * d]

noncomputable def orthoW : Mat4 := !![0, 1, 1, 0; 1, 0, 0, 1; -3, 0, 0, 3; 0, 2, -2, 0]

lemma ortho_kx : kxOf orthoStack 0 = ((0 : ℝ) : ℂ) := by simp [kxOf, deg2rad]

lemma ortho_unit : IsUnit orthoW := by
  have h : orthoW * !![0, 1 / 2, -1 / 6, 0; 1 / 2, 0, 0, 1 / 4; 1 / 2, 0, 0, -1 / 4; 0, 1 / 2, 1 / 6, 0] = 1 := by
    ext i j
    fin_cases i <;> fin_cases j <;> simp [orthoW, Matrix.mul_apply, Fin.sum_univ_four] <;> norm_num
  exact IsUnit.of_mul_eq_one _ h

lemma ortho_eig : buildDelta (kxOf orthoStack 0) orthoStack.back * orthoW = orthoW * Matrix.diagonal (orthoQ 0) := by
  rw [ortho_kx]
  ext i j
  rw [Matrix.mul_diagonal]
  fin_cases i <;> fin_cases j <;>
    simp [buildDelta, orthoStack, orthoW, orthoQ, Matrix.mul_apply, Fin.sum_univ_four] <;> norm_num

lemma argsort_of_perm {q : Fin 4 → ℂ} {l : List (Fin 4)} (hl : l.Perm (List.finRange 4)) (hs : l.Pairwise fun a b => LexGe (q a) (q b))
    (hq : Function.Injective q) : argsort (lexLe q) = l :=
  ((List.mergeSort_perm _ _).trans hl.symm).eq_of_pairwise (fun _ _ _ _ h1 h2 => hq (h1.antisymm h2)) (argsort_pairwise q) hs

lemma ortho_exact : argsort (lexLe (orthoQ 0)) = [0, 1, 2, 3] := by
  apply idx_of_sorted
  simp [LexGe, orthoQ]
  norm_num

lemma ortho_rounded {d : ℝ} (hd : 0 < d) : argsort (lexLe (orthoQ d)) = [3, 0, 2, 1] := by
  apply argsort_of_perm
  · decide
  · simp [LexGe, orthoQ, hd]
    norm_num
  · intro i j hij
    have hr := congrArg Complex.re hij
    fin_cases i <;> fin_cases j <;> simp [orthoQ] at hr ⊢ <;> norm_num at hr

lemma ortho_norm : eigNorm (orthoQ 0) orthoW = 1 + 1 := by
  have hs : eigSorted (orthoQ 0) orthoW = orthoW := by
    ext a k
    unfold eigSorted takeIdx
    simp only [ortho_exact]
    fin_cases k <;> rfl
  have d0 : descTwo 1 0 = ![0, 1] := by simp [descTwo]
  have d1 : descTwo 0 1 = ![1, 0] := by simp [descTwo]
  have p1 : unitPhase 1 = 1 := unitPhase_one (by simp)
  have w0 : orthoW 1 0 = 1 := rfl
  have w1 : orthoW 1 1 = 0 := rfl
  have w2 : orthoW 1 2 = 0 := rfl
  have w3 : orthoW 1 3 = 1 := rfl
  simp only [eigNorm, eigPhased, hs, w0, w1, w2, w3, d0, d1]
  simp [w0, w3, p1]

lemma ortho_crystal (lbda : ℝ) (hl : 0 < lbda) : CrystalStack orthoStack 0 lbda (orthoQ 0) orthoW where
  front := ⟨1, by norm_num, by simp [orthoStack, isoTensor]⟩
  angle := by simp
  lbda_pos := hl
  layers := by intro l hm; simp [orthoStack] at hm
  aniso := rfl
  unit := ortho_unit
  eig := ortho_eig
  norm_ne := by rw [ortho_norm]; norm_num

lemma ortho_inside : Inside 0 0 orthoStack.back := by
  intro E hE
  have hf : (star E ⬝ᵥ orthoStack.back *ᵥ E).re = 4 * ‖E 0‖ ^ 2 + 9 * ‖E 1‖ ^ 2 + 5 * ‖E 2‖ ^ 2 := by
    simp only [← Complex.normSq_eq_norm_sq, Complex.normSq_apply]
    simp [orthoStack, Matrix.mulVec, dotProduct, Fin.sum_univ_three, Complex.mul_re, Complex.mul_im]
    ring
  rw [hf]
  simp
  by_contra hn
  have a0 := sq_nonneg ‖E 0‖
  have a1 := sq_nonneg ‖E 1‖
  have a2 := sq_nonneg ‖E 2‖
  have z0 : E 0 = 0 := by rw [← norm_eq_zero, ← sq_eq_zero_iff]; linarith
  have z1 : E 1 = 0 := by rw [← norm_eq_zero, ← sq_eq_zero_iff]; linarith
  have z2 : E 2 = 0 := by rw [← norm_eq_zero, ← sq_eq_zero_iff]; linarith
  apply hE
  funext i
  fin_cases i
  · exact z0
  · exact z1
  · exact z2

lemma ortho_lossless : Lossless orthoStack.back := by
  ext i j
  rw [Matrix.conjTranspose_apply]
  fin_cases i <;> fin_cases j <;> simp [orthoStack]

lemma ortho_kxReal : kxReal orthoStack 0 = 0 := by rw [kxReal, ortho_kx, Complex.ofReal_re]

lemma ortho_regular (q : Fin 4 → ℂ) : RegularExit (kxReal orthoStack 0) orthoStack.back q := by
  rw [ortho_kxReal]
  exact Or.inl ⟨lossless_passive ortho_lossless, 0, ortho_inside⟩

/-- C116 is not robust for transparent media: the waves are sorted by the imaginary parts of the wave numbers first, which are zero up to
rounding errors. Here the exact eigenvalues give a regular result, while arbitrarily small errors of the eigenvalues (the eigenvectors
being exact) make the solver choose two s waves, one of them running backwards, so that the matrix it inverts is singular. -/
theorem C116_rounding_refuted (lbda : ℝ) (hl : 0 < lbda) :
    ∃ (s : Stack) (theta : ℝ) (q : Fin 4 → ℂ) (w : Mat4), CrystalStack s theta lbda q w ∧ RegularExit (kxReal s theta) s.back q ∧
      ∀ d > 0, ∃ q' : Fin 4 → ℂ, (∀ i, ‖q' i - q i‖ ≤ d) ∧ eigNorm q' w ≠ 0 ∧
        ∀ prop, (tIt (transfer4x4 prop s theta lbda (q', w))).det = 0 := by
  refine ⟨orthoStack, 0, orthoQ 0, orthoW, ortho_crystal lbda hl, ortho_regular _, fun d hd => ⟨orthoQ d, ?_, ?_⟩⟩
  · intro i
    fin_cases i <;> simp [orthoQ, abs_of_pos hd, hd.le]
  have hs : eigSorted (orthoQ d) orthoW = !![0, 0, 1, 1; 1, 1, 0, 0; 3, -3, 0, 0; 0, 0, -2, 2] := by
    ext a k
    unfold eigSorted takeIdx
    simp only [ortho_rounded hd]
    fin_cases k <;> fin_cases a <;> simp [orthoW]
  have hp : eigPhased (orthoQ d) orthoW = !![0, 1, 0, 1; 1, 0, 1, 0; 3, 0, -3, 0; 0, -2, 0, 2] := by
    have d0 : descTwo 0 0 = ![0, 1] := by simp [descTwo]
    have d1 : descTwo 1 1 = ![0, 1] := by simp [descTwo]
    have p0 : unitPhase 0 = 1 := by simp [unitPhase]
    have p1 : unitPhase 1 = 1 := unitPhase_one (by simp)
    ext a k
    simp only [eigPhased, hs]
    simp only [Matrix.of_apply, Matrix.cons_val, d0, d1]
    fin_cases k <;> fin_cases a <;> simp [p0, p1]
  have hn : eigNorm (orthoQ d) orthoW = 1 := by
    unfold eigNorm
    rw [hp]
    simp
  have hh : eigHalf (orthoQ d) orthoW = !![0, 2, 0, 2; 2, 0, 2, 0; 6, 0, -6, 0; 0, -4, 0, 4] := by
    ext a k
    rw [eigHalf, hp, hn]
    fin_cases k <;> fin_cases a <;> simp <;> norm_num
  refine ⟨by rw [hn]; exact one_ne_zero, fun prop => ?_⟩
  have hm : transfer4x4 prop orthoStack 0 lbda (orthoQ d, orthoW) =
      isoHalfInv (kxOf orthoStack 0) orthoStack.front * eigHalf (orthoQ d) orthoW := by
    simp [transfer4x4, loop4x4, exitMatrix, orthoStack]
  rw [hm, hh, Matrix.det_fin_two]
  simp [tIt, isoHalfInv, Matrix.mul_apply, Fin.sum_univ_four]

/-- Small errors of well separated eigenvalues exchange at most the two waves sorted first. -/
lemma fwd_stable {q q' : Fin 4 → ℂ} (w : Mat4) {d : ℝ} (hd : ∀ i, ‖q' i - q i‖ ≤ d)
    (hgap : (sortedQ q 2).im + 2 * d < (sortedQ q 1).im) : ∃ g : Mat2, IsUnit g ∧ fwd q' w = fwd q w * g := by
  have him : ∀ i, |(q' i).im - (q i).im| ≤ d := fun i => by
    have := (Complex.abs_im_le_norm (q' i - q i)).trans (hd i)
    rwa [Complex.sub_im] at this
  have hb := takeIdx_bijective (lexLe q)
  have hb' := takeIdx_bijective (lexLe q')
  have e1 := im_sorted (q := q) (i := 0) (j := 1) (by decide)
  have e2 := im_sorted (q := q) (i := 2) (j := 3) (by decide)
  have a' := fun i j (hij : i < j) => im_sorted (q := q') (i := i) (j := j) hij
  unfold sortedQ at hgap e1 e2 a'
  have hf : ∀ k, fwd q w k 0 = w k (takeIdx (argsort (lexLe q)) (argsort_length _) 0) ∧
      fwd q w k 1 = w k (takeIdx (argsort (lexLe q)) (argsort_length _) 1) := fun k => ⟨rfl, rfl⟩
  have hf' : ∀ k, fwd q' w k 0 = w k (takeIdx (argsort (lexLe q')) (argsort_length _) 0) ∧
      fwd q' w k 1 = w k (takeIdx (argsort (lexLe q')) (argsort_length _) 1) := fun k => ⟨rfl, rfl⟩
  generalize takeIdx (argsort (lexLe q)) (argsort_length _) = s at *
  generalize takeIdx (argsort (lexLe q')) (argsort_length _) = s' at *
  have key : ∀ k : Fin 4, k ≤ 1 → s' k = s 0 ∨ s' k = s 1 := by
    intro k hk
    obtain ⟨b, hbk⟩ := hb.2 (s' k)
    obtain ⟨x, hx⟩ := hb'.2 (s 0)
    obtain ⟨y, hy⟩ := hb'.2 (s 1)
    have hxy : x ≠ y := by
      rintro rfl
      exact absurd (hb.1 (hx.symm.trans hy)) (by decide)
    by_cases hlow : b ≤ 1
    · have : b = 0 ∨ b = 1 := by omega
      rcases this with rfl | rfl
      · exact Or.inl hbk.symm
      · exact Or.inr hbk.symm
    exfalso
    have hbq : (q (s b)).im ≤ (q (s 2)).im := by
      have : b = 2 ∨ b = 3 := by omega
      rcases this with rfl | rfl
      · exact le_rfl
      · exact e2
    have i0 := abs_le.1 (him (s 0))
    have i1 := abs_le.1 (him (s 1))
    have ib := abs_le.1 (him (s b))
    have lt0 : (q' (s' k)).im < (q' (s' x)).im := by rw [← hbk, hx]; linarith
    have lt1 : (q' (s' k)).im < (q' (s' y)).im := by rw [← hbk, hy]; linarith
    have hx0 : x < k := by
      by_contra hn
      rcases (not_lt.1 hn).lt_or_eq with hlt | heq
      · exact absurd (a' k x hlt) (not_le.2 lt0)
      · rw [heq] at lt0
        exact lt_irrefl _ lt0
    have hy0 : y < k := by
      by_contra hn
      rcases (not_lt.1 hn).lt_or_eq with hlt | heq
      · exact absurd (a' k y hlt) (not_le.2 lt1)
      · rw [heq] at lt1
        exact lt_irrefl _ lt1
    omega
  have hne : s' 0 ≠ s' 1 := fun hh => absurd (hb'.1 hh) (by decide)
  rcases key 0 (by decide) with h0 | h0
  · have h1 : s' 1 = s 1 := (key 1 (by decide)).resolve_left fun hh => hne (h0.trans hh.symm)
    refine ⟨1, isUnit_one, ?_⟩
    rw [Matrix.mul_one]
    ext a k
    fin_cases k
    · exact ((hf' a).1.trans (by rw [h0])).trans (hf a).1.symm
    · exact ((hf' a).2.trans (by rw [h1])).trans (hf a).2.symm
  · have h1 : s' 1 = s 0 := (key 1 (by decide)).resolve_right fun hh => hne (h0.trans hh.symm)
    refine ⟨!![0, 1; 1, 0], ?_, ?_⟩
    · rw [Matrix.isUnit_iff_isUnit_det, Matrix.det_fin_two]
      simp
    ext a k
    rw [Matrix.mul_apply, Fin.sum_univ_two]
    fin_cases k
    · have := (hf' a).1
      rw [h0, ← (hf a).2] at this
      simpa using this
    · have := (hf' a).2
      rw [h1, ← (hf a).1] at this
      simpa using this

/-- C116: in media without undamped waves (absorbing media; transparent media that reflect both waves totally) the reflection does not
react to small errors of the eigenvalues at all. -/
theorem C116_rounding_damped (prop : Propagator) {s : Stack} {theta lbda : ℝ} {q : Fin 4 → ℂ} {w : Mat4}
    (h : CrystalStack s theta lbda q w)
    (hr : Absorbing s.back ∨ (Passive s.back ∧ s.back 2 2 ≠ 0 ∧ ∀ i, (q i).im ≠ 0)) :
    ∃ d > 0, ∀ q' : Fin 4 → ℂ, (∀ i, ‖q' i - q i‖ ≤ d) → eigNorm q' w ≠ 0 →
      (calculate4x4 prop s theta lbda (q', w)).jr = (calculate4x4 prop s theta lbda (q, w)).jr := by
  have he := h.eig
  rw [h.kx] at he
  have hsplit : 0 < (sortedQ q 1).im ∧ (sortedQ q 2).im < 0 := by
    rcases hr with ha | ⟨hp, h22, hne⟩
    · exact damped_split (absorbing_ne ha) (absorbing_passive ha) q w h.unit he (absorbing_sorted ha q w h.unit he)
    · exact damped_split h22 hp q w h.unit he fun i => hne _
  refine ⟨(sortedQ q 1).im / 2, half_pos hsplit.1, fun q' hq' hc' => ?_⟩
  obtain ⟨k, hk, ek⟩ := fwd_stable w hq' (by linarith [hsplit.2])
  obtain ⟨g, hg, e⟩ := cols_eigHalf q w h.norm_ne
  obtain ⟨g', hg', e'⟩ := cols_eigHalf q' w hc'
  have hgi : g * g⁻¹ = 1 := Matrix.mul_nonsing_inv _ ((Matrix.isUnit_iff_isUnit_det _).1 hg)
  have hmix : cols (eigHalf q' w) = cols (eigHalf q w) * (g⁻¹ * k * g') := by
    rw [e, e', ek, Matrix.mul_assoc, Matrix.mul_assoc, Matrix.mul_assoc, ← Matrix.mul_assoc g g⁻¹, hgi, Matrix.one_mul]
  have hu : IsUnit (g⁻¹ * k * g').det := by
    rw [Matrix.det_mul, Matrix.det_mul]
    exact ((Matrix.isUnit_nonsing_inv_det _ ((Matrix.isUnit_iff_isUnit_det _).1 hg)).mul
      ((Matrix.isUnit_iff_isUnit_det _).1 hk)).mul ((Matrix.isUnit_iff_isUnit_det _).1 hg')
  simp only [calculate4x4, transfer4x4, loop4x4_eq, exitMatrix, h.aniso]
  simp only [Bool.false_eq_true, if_false]
  simp only [← Matrix.mul_assoc (isoHalfInv (kxOf s theta) s.front)]
  generalize isoHalfInv (kxOf s theta) s.front * _ = A
  rw [tIt_mix A _ _ _ hmix, tRt_mix A _ _ _ hmix, Matrix.mul_inv_rev, Matrix.mul_assoc,
    ← Matrix.mul_assoc (g⁻¹ * k * g'), Matrix.mul_nonsing_inv _ hu, Matrix.one_mul]

/-! ## Concrete cases -/

/-- The orthorhombic crystal at normal incidence meets the hypotheses of `C116_forward_partial` and `C116_no_gain_partial`. -/
example : CrystalStack orthoStack 0 500 (orthoQ 0) orthoW ∧ RegularExit (kxReal orthoStack 0) orthoStack.back (orthoQ 0) :=
  ⟨ortho_crystal 500 (by norm_num), ortho_regular _⟩

/-- A negative uniaxial crystal with its axis tilted in the plane of incidence meets the first alternative of `C116_uniaxial`, and at a
larger tangential wave number the second one. -/
example : (![3 / 5, 0, 4 / 5] : Fin 3 → ℝ) ⬝ᵥ ![3 / 5, 0, 4 / 5] = 1 ∧
    ((1 : ℝ) ^ 2 < 3 ∧ (1 : ℝ) ^ 2 * (3 * (0 : ℝ) ^ 2 + 2 * (1 - (0 : ℝ) ^ 2)) < 2 * (3 + (2 - 3) * (4 / 5) ^ 2)) ∧
    2 * (3 + (2 - 3) * (4 / 5 : ℝ) ^ 2) < 2 ^ 2 * (3 * (0 : ℝ) ^ 2 + 2 * (1 - (0 : ℝ) ^ 2)) := by
  refine ⟨?_, ?_, ?_⟩
  · rw [dot3]; norm_num [Matrix.cons_val_two, Matrix.tail_cons]
  · norm_num
  · norm_num

/-- A uniaxial crystal behind a medium with refractive index 4, at 30 degrees: both waves are evanescent. -/
noncomputable def tirStack : Stack := ⟨isoTensor 16, [], !![3, 0, 0; 0, 15 / 4, 0; 0, 0, 3], false⟩

noncomputable def tirQ : Fin 4 → ℂ := ![I, I / 2, -I / 2, -I]

noncomputable def tirW : Mat4 := !![1, 0, 0, 1; 0, 1, 1, 0; 0, -I / 2, I / 2, 0; -3 * I, 0, 0, 3 * I]

lemma tir_kx : kxOf tirStack 30 = ((2 : ℝ) : ℂ) := by
  rw [kxOf_real (n0 := 4) (by norm_num) (by simp [tirStack, isoTensor]; norm_num)]
  have : deg2rad 30 = Real.pi / 6 := by unfold deg2rad; ring
  rw [this, Real.sin_pi_div_six]
  norm_num

lemma tir_unit : IsUnit tirW := by
  have h : tirW * !![1 / 2, 0, 0, I / 6; 0, 1 / 2, I, 0; 0, 1 / 2, -I, 0; 1 / 2, 0, 0, -I / 6] = 1 := by
    ext i j
    fin_cases i <;> fin_cases j <;> simp [tirW, Matrix.mul_apply, Fin.sum_univ_four] <;> ring_nf <;> simp
  exact IsUnit.of_mul_eq_one _ h

lemma tir_eig : buildDelta (kxOf tirStack 30) tirStack.back * tirW = tirW * Matrix.diagonal tirQ := by
  rw [tir_kx]
  ext i j
  rw [Matrix.mul_diagonal]
  fin_cases i <;> fin_cases j <;>
    simp [buildDelta, tirStack, tirW, tirQ, Matrix.mul_apply, Fin.sum_univ_four] <;> ring_nf <;> simp <;> norm_num

lemma tir_norm : eigNorm tirQ tirW = 1 + 1 := by
  have hidx : argsort (lexLe tirQ) = [0, 1, 2, 3] := by
    apply idx_of_sorted
    simp [LexGe, tirQ]
    norm_num
  have hs : eigSorted tirQ tirW = tirW := by
    ext a k
    unfold eigSorted takeIdx
    simp only [hidx]
    fin_cases k <;> rfl
  have d0 : descTwo 1 0 = ![0, 1] := by simp [descTwo]
  have d1 : descTwo 0 1 = ![1, 0] := by simp [descTwo]
  have p1 : unitPhase 1 = 1 := unitPhase_one (by simp)
  have w0 : tirW 1 0 = 0 := rfl
  have w1 : tirW 1 1 = 1 := rfl
  have w2 : tirW 1 2 = 1 := rfl
  have w3 : tirW 1 3 = 0 := rfl
  simp only [eigNorm, eigPhased, hs, w0, w1, w2, w3, d0, d1]
  simp [w1, w2, p1]

/-- The hypotheses of `C116_total_reflection`, and with them those of `C116_rounding_damped`, are met. -/
example : CrystalStack tirStack 30 500 tirQ tirW ∧ (∀ l ∈ tirStack.layers, Lossless l.2) ∧ Lossless tirStack.back ∧
    Inside 0 0 tirStack.back ∧ ∀ i, (tirQ i).im ≠ 0 := by
  have hu : tirStack.back = uniaxial 3 (15 / 4) ![0, 1, 0] := by
    ext i j
    fin_cases i <;> fin_cases j <;> simp [tirStack, uniaxial] <;> norm_num
  refine ⟨⟨⟨4, by norm_num, by simp [tirStack, isoTensor]; norm_num⟩, ?_, by norm_num, ?_, rfl, tir_unit, tir_eig, ?_⟩, ?_, ?_, ?_, ?_⟩
  · rw [abs_of_pos] <;> norm_num
  · intro l hm
    simp [tirStack] at hm
  · rw [tir_norm]
    norm_num
  · intro l hm
    simp [tirStack] at hm
  · rw [hu]
    exact uniaxial_lossless _ _ _
  · rw [hu]
    exact uniaxial_posdef (by rw [dot3]; simp) (by norm_num) (by norm_num)
  · intro i
    fin_cases i <;> simp [tirQ]

end PyElli
