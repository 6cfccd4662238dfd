import Verif.Props.Energy
import Verif.Props.CrystalFresnel
import Mathlib.Tactic

/-! # C122: crystals symmetric to the plane of incidence act on s and p light separately -/

namespace Spec

open PyElli

/-- Every layer replaced by an isotropic one with the permittivity `f` of its tensor. -/
def isotropised (f : Tensor → ℂ) (s : Stack) : Stack := { s with layers := s.layers.map fun l => (l.1, isoTensor (f l.2)) }

/-- Symmetric to the plane of incidence: an optical axis along y, or in the xz plane (any tilt). -/
def InPlane (eps : Tensor) : Prop := eps 0 1 = 0 ∧ eps 1 0 = 0 ∧ eps 1 2 = 0 ∧ eps 2 1 = 0

/-- The same four numbers that act on fields in the xz plane. -/
def SameXZ (a b : Tensor) : Prop := a 0 0 = b 0 0 ∧ a 0 2 = b 0 2 ∧ a 2 0 = b 2 0 ∧ a 2 2 = b 2 2

end Spec

namespace PyElli

open Complex Matrix Spec

/-- The block of the delta matrix for p light. -/
noncomputable def planeP (kx : ℂ) (eps : Tensor) : Mat2 :=
  !![-kx * eps 2 0 / eps 2 2, 1 - kx ^ 2 / eps 2 2; eps 0 0 - eps 0 2 * eps 2 0 / eps 2 2, -kx * eps 0 2 / eps 2 2]

lemma buildDelta_inPlane (kx : ℂ) {eps : Tensor} (h : InPlane eps) : buildDelta kx eps = blk (deltaS kx (eps 1 1)) (planeP kx eps) := by
  obtain ⟨h1, h2, h3, h4⟩ := h
  unfold buildDelta blk deltaS planeP
  ext i j
  fin_cases i <;> fin_cases j <;> simp [h1, h2, h3, h4]

noncomputable def planeS (kx : ℂ) (lbda : ℝ) (layers : List (ℝ × Tensor)) : Mat2 :=
  (layers.map fun l => charMat (deltaS kx (l.2 1 1)) lbda l.1).prod

noncomputable def planePP (kx : ℂ) (lbda : ℝ) (layers : List (ℝ × Tensor)) : Mat2 :=
  (layers.map fun l => charMat (planeP kx l.2) lbda l.1).prod

lemma loop_inPlane (kx : ℂ) (lbda : ℝ) (layers : List (ℝ × Tensor)) (h : ∀ l ∈ layers, InPlane l.2) :
    (layers.map fun l => propExpm (buildDelta kx l.2) (-l.1) lbda).prod = blk (planeS kx lbda layers) (planePP kx lbda layers) := by
  induction layers with
  | nil => simp [planeS, planePP, blk_one]
  | cons l rest ih =>
    have h1 := h l (by simp)
    have hl : propExpm (buildDelta kx l.2) (-l.1) lbda = blk (charMat (deltaS kx (l.2 1 1)) lbda l.1) (charMat (planeP kx l.2) lbda l.1) := by
      unfold propExpm charMat
      rw [buildDelta_inPlane kx h1, smul_smul, blk_smul, exp_blk]
    simp only [List.map_cons, List.prod_cons, ih fun x hx => h x (by simp [hx])]
    rw [hl, blk_mul]
    rfl

lemma transfer_inPlane (s : Stack) (theta lbda : ℝ) (ee) (h : ∀ l ∈ s.layers, InPlane l.2) (hb : s.backIsotropic = true) :
    transfer4x4 propExpm s theta lbda ee =
      blkD (DsInv (nOf s.front) (cosPhi (kxOf s theta) s.front) * planeS (kxOf s theta) lbda s.layers *
              Ds (nOf s.back) (cosPhi (kxOf s theta) s.back))
           (DpInv (nOf s.front) (cosPhi (kxOf s theta) s.front) * planePP (kxOf s theta) lbda s.layers *
              Dp (nOf s.back) (cosPhi (kxOf s theta) s.back)) := by
  unfold transfer4x4
  rw [loop4x4_eq, loop_inPlane _ _ _ h, exitMatrix, if_pos hb, isoHalf_eq, isoHalfInv_eq, blk_mul_blkC, blkR_mul_blkC,
    Matrix.mul_assoc, Matrix.mul_assoc]

/-- The Jones matrices from the two blocks. -/
lemma calc_inPlane (s : Stack) (theta lbda : ℝ) (ee) (hp : PassiveStack s theta lbda) (h : ∀ l ∈ s.layers, InPlane l.2) :
    ∃ S P : Mat2, S = DsInv (nOf s.front) (cosPhi (kxOf s theta) s.front) * planeS (kxOf s theta) lbda s.layers *
        Ds (nOf s.back) (cosPhi (kxOf s theta) s.back) ∧
      P = DpInv (nOf s.front) (cosPhi (kxOf s theta) s.front) * planePP (kxOf s theta) lbda s.layers *
        Dp (nOf s.back) (cosPhi (kxOf s theta) s.back) ∧
      (calculate4x4 propExpm s theta lbda ee).jr = !![P 1 0 / P 0 0, 0; 0, S 1 0 / S 0 0] ∧
      (calculate4x4 propExpm s theta lbda ee).jt = !![1 / P 0 0, 0; 0, 1 / S 0 0] := by
  have hT := transfer_inPlane s theta lbda ee h hp.iso
  obtain ⟨h1, h2⟩ := transfer_diag_ne s theta lbda hp ee _ _ hT
  exact ⟨_, _, rfl, rfl, calc4x4_of_blkD s theta lbda ee _ _ hT h1 h2⟩

lemma inPlane_iso (e : ℂ) : InPlane (isoTensor e) := by
  refine ⟨?_, ?_, ?_, ?_⟩ <;> simp [isoTensor]

lemma passive_entry {eps : Tensor} (h : Passive eps) (i : Fin 3) : 0 ≤ (eps i i).im := by
  have := h (Pi.single i 1)
  simpa [Matrix.mulVec_single, dotProduct, Pi.single_apply, Pi.star_apply, apply_ite] using this

/-- The permittivity for fields across z when the displacement along z vanishes. -/
lemma passive_schur {eps : Tensor} (h : Passive eps) (hz : eps 2 2 ≠ 0) : 0 ≤ (eps 0 0 - eps 0 2 * eps 2 0 / eps 2 2).im := by
  have := h ![1, 0, -(eps 2 0 / eps 2 2)]
  have e : (star ![1, 0, -(eps 2 0 / eps 2 2)] ⬝ᵥ eps *ᵥ ![1, 0, -(eps 2 0 / eps 2 2)]) = eps 0 0 - eps 0 2 * eps 2 0 / eps 2 2 := by
    have h2 : (eps *ᵥ ![1, 0, -(eps 2 0 / eps 2 2)]) 2 = 0 := by
      simp [Matrix.mulVec, dotProduct, Fin.sum_univ_three]
      field_simp
      ring
    have h0 : (eps *ᵥ ![1, 0, -(eps 2 0 / eps 2 2)]) 0 = eps 0 0 - eps 0 2 * eps 2 0 / eps 2 2 := by
      simp [Matrix.mulVec, dotProduct, Fin.sum_univ_three]
      ring
    rw [dotProduct, Fin.sum_univ_three, h2, h0]
    simp
  rwa [e] at this

lemma isotropised_passive {s : Stack} {theta lbda : ℝ} (h : PassiveStack s theta lbda) (f : Tensor → ℂ)
    (hf : ∀ l ∈ s.layers, f l.2 ≠ 0 ∧ 0 ≤ (f l.2).im) : PassiveStack (isotropised f s) theta lbda where
  front := h.front
  angle := h.angle
  lbda_pos := h.lbda_pos
  layers := by
    intro l hl
    simp only [isotropised, List.mem_map] at hl
    obtain ⟨l', hl', rfl⟩ := hl
    obtain ⟨h1, h2⟩ := hf l' hl'
    exact ⟨(h.layers l' hl').1, by simpa [isoTensor] using h1, passive_isoTensor h2⟩
  back_ne := h.back_ne
  back_passive := h.back_passive
  iso := h.iso

/-- C122: s light sees only the permittivity along y: reflection and transmission are those of isotropic layers with this permittivity. -/
theorem C122_s_light (s : Stack) (theta lbda : ℝ) (ee ee') (hp : PassiveStack s theta lbda) (h : ∀ l ∈ s.layers, InPlane l.2)
    (h0 : ∀ l ∈ s.layers, l.2 1 1 ≠ 0) :
    (calculate4x4 propExpm s theta lbda ee).jr 1 1 = (calculate4x4 propExpm (isotropised (fun e => e 1 1) s) theta lbda ee').jr 1 1 ∧
    (calculate4x4 propExpm s theta lbda ee).jt 1 1 = (calculate4x4 propExpm (isotropised (fun e => e 1 1) s) theta lbda ee').jt 1 1 := by
  have hp' := isotropised_passive hp (fun e => e 1 1) fun l hl => ⟨h0 l hl, passive_entry (hp.layers l hl).2.2 1⟩
  obtain ⟨S, P, hS, -, e1, e2⟩ := calc_inPlane s theta lbda ee hp h
  obtain ⟨S', P', hS', -, e1', e2'⟩ := calc_inPlane (isotropised (fun e => e 1 1) s) theta lbda ee' hp' (by
    intro l hl
    simp only [isotropised, List.mem_map] at hl
    obtain ⟨l', -, rfl⟩ := hl
    exact inPlane_iso _)
  have hSS : S' = S := by
    rw [hS, hS']
    have hpl : planeS (kxOf s theta) lbda (isotropised (fun e => e 1 1) s).layers = planeS (kxOf s theta) lbda s.layers := by
      simp [planeS, isotropised, isoTensor, List.map_map, Function.comp_def]
    have hk : kxOf (isotropised (fun e => e 1 1) s) theta = kxOf s theta := rfl
    rw [hk, hpl]
    rfl
  rw [e1, e2, e1', e2', hSS]
  exact ⟨rfl, rfl⟩

/-- C122: p light sees only the entries of the tensors in the xz plane: samples that agree in these, with the same half-spaces and thicknesses,
reflect and transmit p light alike. -/
theorem C122_p_light (s s' : Stack) (theta lbda : ℝ) (ee ee') (hp : PassiveStack s theta lbda) (hp' : PassiveStack s' theta lbda)
    (h : ∀ l ∈ s.layers, InPlane l.2) (h' : ∀ l ∈ s'.layers, InPlane l.2) (hf : s.front = s'.front) (hb : s.back = s'.back)
    (hl : List.Forall₂ (fun l l' => l.1 = l'.1 ∧ SameXZ l.2 l'.2) s.layers s'.layers) :
    (calculate4x4 propExpm s theta lbda ee).jr 0 0 = (calculate4x4 propExpm s' theta lbda ee').jr 0 0 ∧
    (calculate4x4 propExpm s theta lbda ee).jt 0 0 = (calculate4x4 propExpm s' theta lbda ee').jt 0 0 := by
  obtain ⟨S, P, -, hP, e1, e2⟩ := calc_inPlane s theta lbda ee hp h
  obtain ⟨S', P', -, hP', e1', e2'⟩ := calc_inPlane s' theta lbda ee' hp' h'
  have hk : kxOf s theta = kxOf s' theta := by simp [kxOf, hf]
  have hPP : P' = P := by
    rw [hP, hP', ← hf, ← hb, ← hk]
    have : planePP (kxOf s theta) lbda s.layers = planePP (kxOf s theta) lbda s'.layers := by
      unfold planePP
      generalize s.layers = L at hl
      generalize s'.layers = L' at hl
      congr 1
      clear hP hP'
      induction hl with
      | nil => rfl
      | cons hh _ ih =>
        obtain ⟨d, x1, x2, x3, x4⟩ := hh
        simp only [List.map_cons, List.cons.injEq]
        refine ⟨?_, ih⟩
        simp [planeP, d, x1, x2, x3, x4]
    rw [this]
  rw [e1, e2, e1', e2', hPP]
  exact ⟨rfl, rfl⟩

/-- C122: at normal incidence p light sees `eps_xx - eps_xz eps_zx / eps_zz`. -/
theorem C122_p_normal (s : Stack) (lbda : ℝ) (ee ee') (hp : PassiveStack s 0 lbda) (h : ∀ l ∈ s.layers, InPlane l.2)
    (h0 : ∀ l ∈ s.layers, l.2 0 0 - l.2 0 2 * l.2 2 0 / l.2 2 2 ≠ 0) :
    (calculate4x4 propExpm s 0 lbda ee).jr 0 0 =
      (calculate4x4 propExpm (isotropised (fun e => e 0 0 - e 0 2 * e 2 0 / e 2 2) s) 0 lbda ee').jr 0 0 ∧
    (calculate4x4 propExpm s 0 lbda ee).jt 0 0 =
      (calculate4x4 propExpm (isotropised (fun e => e 0 0 - e 0 2 * e 2 0 / e 2 2) s) 0 lbda ee').jt 0 0 := by
  set f : Tensor → ℂ := fun e => e 0 0 - e 0 2 * e 2 0 / e 2 2 with hfd
  have hp' := isotropised_passive hp f fun l hl => ⟨h0 l hl, passive_schur (hp.layers l hl).2.2 (hp.layers l hl).2.1⟩
  obtain ⟨S, P, -, hP, e1, e2⟩ := calc_inPlane s 0 lbda ee hp h
  obtain ⟨S', P', -, hP', e1', e2'⟩ := calc_inPlane (isotropised f s) 0 lbda ee' hp' (by
    intro l hl
    simp only [isotropised, List.mem_map] at hl
    obtain ⟨l', -, rfl⟩ := hl
    exact inPlane_iso _)
  have hk : kxOf s 0 = 0 := by simp [kxOf, deg2rad]
  have hk' : kxOf (isotropised f s) 0 = 0 := by simp [kxOf, deg2rad]
  have hPP : P' = P := by
    rw [hP, hP', hk, hk']
    have hpl : planePP 0 lbda (isotropised f s).layers = planePP 0 lbda s.layers := by
      simp only [planePP, isotropised, List.map_map]
      congr 1
      refine List.map_congr_left fun l _ => ?_
      simp [planeP, isoTensor, hfd]
    rw [hpl]
    rfl
  rw [e1, e2, e1', e2', hPP]
  exact ⟨rfl, rfl⟩

/-- C122: `Solver2x2` applied to the isotropic layers with the permittivity along y gives the s entries of `Solver4x4` for the crystals. -/
theorem C122_solver2x2_s (asin : ℂ → ℂ) (hasin : IsArcsin asin) (s : Stack) (theta lbda : ℝ) (ee) (hp : PassiveStack s theta lbda)
    (h : ∀ l ∈ s.layers, InPlane l.2) (h0 : ∀ l ∈ s.layers, l.2 1 1 ≠ 0) (hfw : ForwardOk (nOf s.back * cosPhi (kxOf s theta) s.back))
    (hreg : Regular2x2 asin (isotropised (fun e => e 1 1) s) theta) :
    (calculate2x2 asin (isotropised (fun e => e 1 1) s) theta lbda).jr 1 1 = (calculate4x4 propExpm s theta lbda ee).jr 1 1 ∧
    (calculate2x2 asin (isotropised (fun e => e 1 1) s) theta lbda).jt 1 1 = (calculate4x4 propExpm s theta lbda ee).jt 1 1 := by
  have hp' := isotropised_passive hp (fun e => e 1 1) fun l hl => ⟨h0 l hl, passive_entry (hp.layers l hl).2.2 1⟩
  have hiso : IsoLayers (isotropised (fun e => e 1 1) s).layers := by
    intro l hl
    simp only [isotropised, List.mem_map] at hl
    obtain ⟨l', -, rfl⟩ := hl
    simp [isoTensor]
  rw [C37_solvers_agree_passive asin hasin _ theta lbda ee hp' hiso hfw hreg]
  obtain ⟨h1, h2⟩ := C122_s_light s theta lbda ee ee hp h h0
  exact ⟨h1.symm, h2.symm⟩

/-- A tilted uniaxial layer (axis in the plane of incidence) on glass. -/
noncomputable def tiltedFilm : Stack := ⟨isoTensor 1, [(100, !![3, 0, 1; 0, 2, 0; 1, 0, 3])], isoTensor (9 / 4), true⟩

lemma tiltedFilm_passive : PassiveStack tiltedFilm 60 500 where
  front := ⟨1, one_pos, by simp [tiltedFilm, isoTensor]⟩
  angle := by rw [abs_of_pos] <;> norm_num
  lbda_pos := by norm_num
  layers := by
    intro l hl
    simp only [tiltedFilm, List.mem_singleton] at hl
    subst hl
    refine ⟨by norm_num, by simp, lossless_passive ?_⟩
    unfold Lossless
    ext i j
    fin_cases i <;> fin_cases j <;> simp [Matrix.conjTranspose_apply]
  back_ne := by simp [tiltedFilm, isoTensor]
  back_passive := by norm_num [tiltedFilm, isoTensor]
  iso := rfl

example : PassiveStack tiltedFilm 60 500 ∧ (∀ l ∈ tiltedFilm.layers, InPlane l.2) ∧ ∀ l ∈ tiltedFilm.layers, l.2 1 1 ≠ 0 ∧
    l.2 0 0 - l.2 0 2 * l.2 2 0 / l.2 2 2 ≠ 0 := by
  refine ⟨tiltedFilm_passive, ?_, ?_⟩ <;> intro l hl <;> simp only [tiltedFilm, List.mem_singleton] at hl <;> subst hl
  · simp [InPlane]
  · simp
    norm_num

/-- A layer that agrees with it in the plane of incidence only. -/
example : List.Forall₂ (fun l l' => l.1 = l'.1 ∧ SameXZ l.2 l'.2) tiltedFilm.layers [((100 : ℝ), (!![3, 0, 1; 0, 7, 0; 1, 0, 3] : Tensor))] := by
  simp [tiltedFilm, SameXZ]

end PyElli
