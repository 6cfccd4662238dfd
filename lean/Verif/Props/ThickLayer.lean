import Verif.Props.SolverLaws
import Verif.Props.ThinFilm
import Verif.Lemmas.Continuity

/-!
# C92: a thick absorbing layer hides what is behind it

Users replace a thick metal film by a half space of the metal. The solver multiplies exponentially growing and decaying matrices, so what it returns
in the limit is not obvious.
-/

namespace PyElli

open Matrix Complex Spec Filter Topology

/-- The columns of the backward waves. -/
def tIr (m : Mat4) : Mat2 := !![m 2 3, m 2 1; m 0 3, m 0 1]

/-- The columns of the backward waves. -/
def tRr (m : Mat4) : Mat2 := !![m 3 3, m 3 1; m 1 3, m 1 1]

lemma tIt_mid (A B : Mat4) (w : ℂ) : tIt (A * blkD !![1, 0; 0, w] !![1, 0; 0, w] * B) = tIt A * tIt B + w • (tIr A * tRt B) := by
  ext i j
  fin_cases i <;> fin_cases j <;>
    simp [tIt, tRt, tIr, blkD, Matrix.mul_apply, Fin.sum_univ_four, Fin.sum_univ_two] <;> ring

lemma tRt_mid (A B : Mat4) (w : ℂ) : tRt (A * blkD !![1, 0; 0, w] !![1, 0; 0, w] * B) = tRt A * tIt B + w • (tRr A * tRt B) := by
  ext i j
  fin_cases i <;> fin_cases j <;>
    simp [tIt, tRt, tRr, blkD, Matrix.mul_apply, Fin.sum_univ_four, Fin.sum_univ_two] <;> ring

/-- `n cos φ` of an absorbing layer lies in the open first quadrant. -/
lemma kz_absorbing {e : ℂ} (kx : ℝ) (he : 0 < e.im) :
    0 < (nOf (isoTensor e) * cosPhi kx (isoTensor e)).re ∧ 0 < (nOf (isoTensor e) * cosPhi kx (isoTensor e)).im := by
  have he0 : e ≠ 0 := fun h => by rw [h] at he; simp at he
  have h1 := exit_re_nonneg kx he0 he.le
  obtain ⟨q1, q2, q3, q4⟩ := first_quadrant kx he.le
  have h2 : nOf (isoTensor e) * cosPhi kx (isoTensor e) = Complex.sqrt e * Complex.sqrt (1 - (kx / Complex.sqrt e) ^ 2) := by
    simp [nOf, cosPhi, isoTensor]
  rw [h2]
  have hn : Complex.sqrt e ≠ 0 := fun h => he0 (csqrt_eq_zero.1 h)
  have h3 : (Complex.sqrt e * Complex.sqrt (1 - (kx / Complex.sqrt e) ^ 2)) ^ 2 = e - kx ^ 2 := by
    have h5 := csqrt_sq e
    rw [mul_pow, csqrt_sq (1 - _)]
    field_simp
    rw [h5]
  have h4 : 0 ≤ (Complex.sqrt e * Complex.sqrt (1 - (kx / Complex.sqrt e) ^ 2)).im := by
    rw [Complex.mul_im]
    positivity
  generalize Complex.sqrt e * Complex.sqrt (1 - (kx / Complex.sqrt e) ^ 2) = z at *
  have h5 := congrArg Complex.im h3
  rw [← Complex.ofReal_pow, Complex.sub_im, Complex.ofReal_im, sub_zero, pow_two, Complex.mul_im] at h5
  constructor
  · rcases h1.lt_or_eq with h | h
    · exact h
    · rw [← h] at h5; simp at h5; linarith
  · rcases h4.lt_or_eq with h | h
    · exact h
    · rw [← h] at h5; simp at h5; linarith

/-- Backward waves in an absorbing medium carry energy backward. -/
lemma flux_backward (n c bs bp : ℂ) : flux (blkC (Ds n c) (Dp n c) *ᵥ ![0, bs, 0, bp]) = -((n * c).re * ‖bs‖ ^ 2 + (c * (starRingEnd ℂ) n).re * ‖bp‖ ^ 2) := by
  rw [flux_blkC]
  simp only [← Complex.normSq_eq_norm_sq, Complex.normSq_apply]
  simp [Complex.mul_re, Complex.mul_im]
  ring

lemma prod_isUnit (kx : ℂ) (lbda : ℝ) (L : List (ℝ × Tensor)) : IsUnit (L.map fun l => propExpm (buildDelta kx l.2) (-l.1) lbda).prod := by
  induction L with
  | nil => simp
  | cons l rest ih =>
    simp only [List.map_cons, List.prod_cons]
    exact (Matrix.isUnit_exp _).mul ih

/-- No wave runs out of the stack behind on both sides: the block inverted for a sample that starts inside the absorbing layer is regular. -/
lemma behind_det {e : ℂ} (kx : ℝ) (he : 0 < e.im) {lbda : ℝ} (hl : 0 < lbda) (L : List (ℝ × Tensor)) (h : ∀ l ∈ L, 0 ≤ l.1 ∧ l.2 2 2 ≠ 0 ∧ Passive l.2)
    (back : Tensor) (hb0 : back 0 0 ≠ 0) (hb : 0 ≤ (back 0 0).im) :
    (tIt (isoHalfInv kx (isoTensor e) * ((L.map fun l => propExpm (buildDelta kx l.2) (-l.1) lbda).prod * isoHalf kx back))).det ≠ 0 := by
  intro hdet
  obtain ⟨x, hx, hx0⟩ := Matrix.exists_mulVec_eq_zero_iff.2 hdet
  obtain ⟨k1, k2⟩ := kz_absorbing kx he
  have hn : nOf (isoTensor e) ≠ 0 := fun hh => by rw [hh] at k1; simp at k1
  have hc : cosPhi kx (isoTensor e) ≠ 0 := fun hh => by rw [hh] at k1; simp at k1
  have hsp := transfer_split (isoHalfInv kx (isoTensor e) * ((L.map fun l => propExpm (buildDelta kx l.2) (-l.1) lbda).prod * isoHalf kx back)) x
  rw [hx0] at hsp
  have hf := congrArg (fun v => blkC (Ds (nOf (isoTensor e)) (cosPhi kx (isoTensor e))) (Dp (nOf (isoTensor e)) (cosPhi kx (isoTensor e))) *ᵥ v) hsp
  simp only [Pi.zero_apply] at hf
  generalize tRt (isoHalfInv kx (isoTensor e) * ((L.map fun l => propExpm (buildDelta kx l.2) (-l.1) lbda).prod * isoHalf kx back)) *ᵥ x = b at hf
  rw [isoHalfInv_eq, isoHalf_eq, Matrix.mulVec_mulVec, ← Matrix.mul_assoc, blkC_mul_blkR, Ds_mul_inv hn hc, Dp_mul_inv hn hc, blk_one, Matrix.one_mul,
    ← Matrix.mulVec_mulVec] at hf
  have f1 := flux_stack_ge kx hl L h (blkC (Ds (nOf back) (cosPhi kx back)) (Dp (nOf back) (cosPhi kx back)) *ᵥ ![x 1, 0, x 0, 0])
  rw [hf, flux_backward, flux_exit] at f1
  have g1 : 0 ≤ (nOf back * cosPhi kx back).re := exit_re_nonneg (e := back 0 0) kx hb0 hb
  have g2 : (nOf back * cosPhi kx back).re ≤ (cosPhi kx back * (starRingEnd ℂ) (nOf back)).re := exit_flux_ge (e := back 0 0) kx hb
  have g3 : (nOf (isoTensor e) * cosPhi kx (isoTensor e)).re ≤ (cosPhi kx (isoTensor e) * (starRingEnd ℂ) (nOf (isoTensor e))).re :=
    exit_flux_ge (e := isoTensor e 0 0) kx (by simpa [isoTensor] using he.le)
  have p1 := mul_nonneg g1 (sq_nonneg ‖x 1‖)
  have p2 := mul_nonneg (g1.trans g2) (sq_nonneg ‖x 0‖)
  have p3 := mul_nonneg k1.le (sq_nonneg ‖b 1‖)
  have p4 := mul_nonneg (k1.le.trans g3) (sq_nonneg ‖b 0‖)
  have b1 : b 1 = 0 := by
    have : (nOf (isoTensor e) * cosPhi kx (isoTensor e)).re * ‖b 1‖ ^ 2 = 0 := by linarith
    rcases mul_eq_zero.1 this with h' | h'
    · exact absurd h' k1.ne'
    · simpa using h'
  have b0 : b 0 = 0 := by
    have : (cosPhi kx (isoTensor e) * (starRingEnd ℂ) (nOf (isoTensor e))).re * ‖b 0‖ ^ 2 = 0 := by linarith
    rcases mul_eq_zero.1 this with h' | h'
    · exact absurd h' (k1.trans_le g3).ne'
    · simpa using h'
  rw [b0, b1] at hf
  have hz : (![0, 0, 0, 0] : Fin 4 → ℂ) = 0 := by funext i; fin_cases i <;> rfl
  rw [hz, Matrix.mulVec_zero] at hf
  obtain ⟨u, hu⟩ := prod_isUnit kx lbda L
  rw [← hu] at hf
  have hexit := congrArg (fun v => (↑u⁻¹ : Mat4) *ᵥ v) hf
  simp only [Matrix.mulVec_zero, Matrix.mulVec_mulVec] at hexit
  rw [← Matrix.mul_assoc, Units.inv_mul, Matrix.one_mul] at hexit
  have e1 := congrFun hexit 1
  have e3 := congrFun hexit 3
  have hnb : nOf back ≠ 0 := fun hh => hb0 (csqrt_eq_zero.1 hh)
  simp [blkC, Ds, Dp, Matrix.mulVec, dotProduct, Fin.sum_univ_four] at e1 e3
  apply hx
  funext i
  fin_cases i
  · simpa [hnb] using e3
  · simpa using e1

lemma blkC_mul_blkD (S P S' P' : Mat2) : blkC S P * blkD S' P' = blkC (S * S') (P * P') := by
  ext i j
  fin_cases i <;> fin_cases j <;> simp [blkC, blkD, Matrix.mul_apply, Fin.sum_univ_four, Fin.sum_univ_two]

/-- Phase over the layer. -/
noncomputable def layerPhase (kx e : ℂ) (lbda d : ℝ) : ℂ := 2 * Real.pi * nOf (isoTensor e) * cosPhi kx (isoTensor e) / lbda * d

/-- The layer in its own waves. -/
lemma layer_waves (kx e : ℂ) (hn : nOf (isoTensor e) ≠ 0) (hc : cosPhi kx (isoTensor e) ≠ 0) (d lbda : ℝ) :
    propExpm (buildDelta kx (isoTensor e)) (-d) lbda = Complex.exp (-I * layerPhase kx e lbda d) •
      (isoHalf kx (isoTensor e) * (blkD !![1, 0; 0, Complex.exp (I * (2 * layerPhase kx e lbda d))] !![1, 0; 0, Complex.exp (I * (2 * layerPhase kx e lbda d))] *
        isoHalfInv kx (isoTensor e))) := by
  have hn2 : nOf (isoTensor e) ^ 2 = e := by
    unfold nOf
    rw [csqrt_sq]
    simp [isoTensor]
  have hc2 : cosPhi kx (isoTensor e) ^ 2 = 1 - (kx / nOf (isoTensor e)) ^ 2 := csqrt_sq _
  have hS := charS_mul hn hc hn2 hc2 lbda d
  have hP := charP_mul hn hc hn2 hc2 lbda d
  have hd : (!![Complex.exp (-I * layerPhase kx e lbda d), 0; 0, Complex.exp (I * layerPhase kx e lbda d)] : Mat2) =
      Complex.exp (-I * layerPhase kx e lbda d) • !![1, 0; 0, Complex.exp (I * (2 * layerPhase kx e lbda d))] := by
    have : Complex.exp (-I * layerPhase kx e lbda d) * Complex.exp (I * (2 * layerPhase kx e lbda d)) = Complex.exp (I * layerPhase kx e lbda d) := by
      rw [← Complex.exp_add]; congr 1; ring
    ext i j
    fin_cases i <;> fin_cases j <;> simp [← this]
  change charMat (deltaS kx e) lbda d * Ds _ _ = Ds _ _ * !![Complex.exp (-I * layerPhase kx e lbda d), 0; 0, Complex.exp (I * layerPhase kx e lbda d)] at hS
  change charMat (deltaP kx e) lbda d * Dp _ _ = Dp _ _ * !![Complex.exp (-I * layerPhase kx e lbda d), 0; 0, Complex.exp (I * layerPhase kx e lbda d)] at hP
  rw [hd, Matrix.mul_smul] at hS hP
  have hS' : Complex.exp (-I * layerPhase kx e lbda d) • (Ds (nOf (isoTensor e)) (cosPhi kx (isoTensor e)) * !![1, 0; 0, Complex.exp (I * (2 * layerPhase kx e lbda d))] *
      DsInv (nOf (isoTensor e)) (cosPhi kx (isoTensor e))) = charMat (deltaS kx e) lbda d := by
    rw [← Matrix.smul_mul, ← hS, Matrix.mul_assoc, Ds_mul_inv hn hc, Matrix.mul_one]
  have hP' : Complex.exp (-I * layerPhase kx e lbda d) • (Dp (nOf (isoTensor e)) (cosPhi kx (isoTensor e)) * !![1, 0; 0, Complex.exp (I * (2 * layerPhase kx e lbda d))] *
      DpInv (nOf (isoTensor e)) (cosPhi kx (isoTensor e))) = charMat (deltaP kx e) lbda d := by
    rw [← Matrix.smul_mul, ← hP, Matrix.mul_assoc, Dp_mul_inv hn hc, Matrix.mul_one]
  rw [propExpm_iso, isoHalf_eq, isoHalfInv_eq, ← Matrix.mul_assoc, blkC_mul_blkD, blkC_mul_blkR, blk_smul, hS', hP']

lemma inv_smul_ne {z : ℂ} (hz : z ≠ 0) (A : Mat2) : (z • A)⁻¹ = z⁻¹ • A⁻¹ := by
  by_cases hA : IsUnit A.det
  · apply Matrix.inv_eq_right_inv
    rw [Matrix.smul_mul, Matrix.mul_smul, smul_smul, mul_inv_cancel₀ hz, one_smul, Matrix.mul_nonsing_inv _ hA]
  · have h1 : A⁻¹ = 0 := Matrix.nonsing_inv_apply_not_isUnit _ hA
    have h2 : ¬ IsUnit (z • A).det := by
      rw [Matrix.det_smul, isUnit_iff_ne_zero, not_ne_iff]
      rw [isUnit_iff_ne_zero, not_ne_iff] at hA
      rw [hA, mul_zero]
    rw [h1, Matrix.nonsing_inv_apply_not_isUnit _ h2, smul_zero]

/-- The sample behind the layer, seen from inside the layer. -/
noncomputable def behindM (kx e : ℂ) (lbda : ℝ) (L : List (ℝ × Tensor)) (back : Tensor) : Mat4 :=
  isoHalfInv kx (isoTensor e) * ((L.map fun l => propExpm (buildDelta kx l.2) (-l.1) lbda).prod * isoHalf kx back)

lemma thick_transfer (s : Stack) (l₁ l₂ : List (ℝ × Tensor)) (e : ℂ) (d theta lbda : ℝ) (ee) (hb : s.backIsotropic = true)
    (hn : nOf (isoTensor e) ≠ 0) (hc : cosPhi (kxOf s theta) (isoTensor e) ≠ 0) :
    transfer4x4 propExpm (s.withLayers (l₁ ++ (d, isoTensor e) :: l₂)) theta lbda ee =
      Complex.exp (-I * layerPhase (kxOf s theta) e lbda d) •
        (transfer4x4 propExpm ⟨s.front, l₁, isoTensor e, true⟩ theta lbda ee *
          blkD !![1, 0; 0, Complex.exp (I * (2 * layerPhase (kxOf s theta) e lbda d))] !![1, 0; 0, Complex.exp (I * (2 * layerPhase (kxOf s theta) e lbda d))] *
          behindM (kxOf s theta) e lbda l₂ s.back) := by
  have hk : kxOf (s.withLayers (l₁ ++ (d, isoTensor e) :: l₂)) theta = kxOf s theta := rfl
  have hk' : kxOf ⟨s.front, l₁, isoTensor e, true⟩ theta = kxOf s theta := rfl
  have hx : exitMatrix (s.withLayers (l₁ ++ (d, isoTensor e) :: l₂)) (kxOf s theta) ee = isoHalf (kxOf s theta) s.back := if_pos hb
  have hx' : exitMatrix ⟨s.front, l₁, isoTensor e, true⟩ (kxOf s theta) ee = isoHalf (kxOf s theta) (isoTensor e) := if_pos rfl
  unfold transfer4x4 behindM
  rw [loop4x4_eq, loop4x4_eq, hk, hk', hx, hx']
  simp only [Stack.withLayers, List.map_append, List.map_cons, List.prod_append, List.prod_cons]
  rw [layer_waves _ _ hn hc]
  simp only [Matrix.smul_mul, Matrix.mul_smul, Matrix.mul_assoc]

/-- C92: any passive stack with an absorbing isotropic layer of thickness `d` somewhere inside. For `d → ∞` the reflection matrix tends to that of the
sample in which the layer is the exit half space, with an error of order `exp(-(4π/λ) Im q d)`, and the transmission matrix decays exactly like
`exp(i (2π/λ) q d)`; `q` is the normal component of the wave vector in the layer. -/
theorem C92_opaque_layer (s : Stack) (l₁ l₂ : List (ℝ × Tensor)) (e : ℂ) (he : 0 < e.im) (n0 theta lbda : ℝ) (hn0 : 0 < n0)
    (hf : s.front 0 0 = ((n0 ^ 2 : ℝ) : ℂ)) (h : PassiveStack (s.withLayers (l₁ ++ l₂)) theta lbda) (ee) :
    let out := fun d : ℝ => calculate4x4 propExpm (s.withLayers (l₁ ++ (d, isoTensor e) :: l₂)) theta lbda ee
    let bulk := calculate4x4 propExpm ⟨s.front, l₁, isoTensor e, true⟩ theta lbda ee
    let q := Complex.sqrt (e - ((n0 * Real.sin (deg2rad theta)) ^ 2 : ℝ))
    0 < q.im ∧
    (∀ i j, (fun d => (out d).jr i j - bulk.jr i j) =O[atTop] fun d => Real.exp (-(4 * Real.pi / lbda * q.im * d))) ∧
    ∃ T : Mat2, T.det ≠ 0 ∧ Tendsto (fun d : ℝ => Complex.exp (-(I * (2 * Real.pi / lbda) * q * d)) • (out d).jt) atTop (𝓝 T) := by
  intro out bulk q
  have hkx := kxOf_real hn0 hf theta
  set kx := n0 * Real.sin (deg2rad theta) with hkxd
  have he0 : e ≠ 0 := fun h => by rw [h] at he; simp at he
  obtain ⟨k1, k2⟩ := kz_absorbing kx he
  have hn : nOf (isoTensor e) ≠ 0 := fun hh => by rw [hh] at k1; simp at k1
  have hc : cosPhi kx (isoTensor e) ≠ 0 := fun hh => by rw [hh] at k1; simp at k1
  have hq : nOf (isoTensor e) * cosPhi kx (isoTensor e) = q := by
    have := kz_exit kx he0 he.le
    rw [csqrt_sq] at this
    simp only [q, nOf, cosPhi, isoTensor, if_true]
    rw [← this, ← hkxd, Complex.ofReal_pow]
  rw [hq] at k1 k2
  have hl := h.lbda_pos
  have hph : ∀ d : ℝ, layerPhase kx e lbda d = 2 * Real.pi / lbda * q * d := by
    intro d
    rw [← hq]
    unfold layerPhase
    ring
  set A := transfer4x4 propExpm ⟨s.front, l₁, isoTensor e, true⟩ theta lbda ee with hA
  set B := behindM kx e lbda l₂ s.back with hB
  let w : ℝ → ℂ := fun d => Complex.exp (I * (2 * layerPhase kx e lbda d))
  have hT : ∀ d : ℝ, transfer4x4 propExpm (s.withLayers (l₁ ++ (d, isoTensor e) :: l₂)) theta lbda ee =
      Complex.exp (-I * layerPhase kx e lbda d) • (A * blkD !![1, 0; 0, w d] !![1, 0; 0, w d] * B) := by
    intro d
    have := thick_transfer s l₁ l₂ e d theta lbda ee h.iso hn (by rw [hkx]; exact hc)
    rw [hkx] at this
    exact this
  let MI : ℂ → Mat2 := fun w => tIt A * tIt B + w • (tIr A * tRt B)
  let MR : ℂ → Mat2 := fun w => tRt A * tIt B + w • (tRr A * tRt B)
  have hdA : (tIt A).det ≠ 0 := by
    refine tIt_det_ne_zero ⟨s.front, l₁, isoTensor e, true⟩ theta lbda ⟨h.front, h.angle, h.lbda_pos, fun l (hl : l ∈ l₁) => h.layers l (List.mem_append_left l₂ hl), ?_, ?_, rfl⟩ ee
    · simpa [isoTensor] using he0
    · simpa [isoTensor] using he.le
  have hdB : (tIt B).det ≠ 0 :=
    behind_det kx he hl l₂ (fun l (hl : l ∈ l₂) => h.layers l (List.mem_append_right l₁ hl)) s.back h.back_ne h.back_passive
  have hMI0 : MI 0 = tIt A * tIt B := by simp [MI]
  have hMR0 : MR 0 = tRt A * tIt B := by simp [MR]
  have hdet : (MI 0).det ≠ 0 := by
    rw [hMI0, Matrix.det_mul]
    exact mul_ne_zero hdA hdB
  have hjr : ∀ d, (out d).jr = MR (w d) * (MI (w d))⁻¹ := by
    intro d
    simp only [out, calculate4x4]
    rw [hT d, tIt_smul, tRt_smul, tIt_mid, tRt_mid, inv_smul_ne (Complex.exp_ne_zero _), Matrix.smul_mul, Matrix.mul_smul, smul_smul,
      mul_inv_cancel₀ (Complex.exp_ne_zero _), one_smul]
  have hjt : ∀ d : ℝ, Complex.exp (-(I * (2 * Real.pi / lbda) * q * d)) • (out d).jt = (MI (w d))⁻¹ := by
    intro d
    simp only [out, calculate4x4]
    rw [hT d, tIt_smul, tIt_mid, inv_smul_ne (Complex.exp_ne_zero _), smul_smul, hph d,
      show -(I * (2 * Real.pi / lbda) * q * d) = -I * (2 * Real.pi / lbda * q * d) by ring, mul_inv_cancel₀ (Complex.exp_ne_zero _), one_smul]
  have hbulk : bulk.jr = MR 0 * (MI 0)⁻¹ := by
    simp only [bulk, calculate4x4]
    rw [hMI0, hMR0, Matrix.mul_inv_rev, Matrix.mul_assoc, ← Matrix.mul_assoc (tIt B), Matrix.mul_nonsing_inv _ (isUnit_iff_ne_zero.2 hdB), Matrix.one_mul]
  have hnw : ∀ d, ‖w d‖ = Real.exp (-(4 * Real.pi / lbda * q.im * d)) := by
    intro d
    simp only [w]
    rw [hph, Complex.norm_exp]
    congr 1
    rw [show I * (2 * (2 * Real.pi / lbda * q * d)) = I * ((4 * Real.pi / lbda * d : ℝ) * q) by push_cast; ring]
    simp only [Complex.mul_re, Complex.I_re, Complex.I_im, Complex.mul_im, Complex.ofReal_re, Complex.ofReal_im]
    ring
  have hw0 : Tendsto w atTop (𝓝 0) := by
    rw [tendsto_zero_iff_norm_tendsto_zero]
    simp only [hnw]
    refine Real.tendsto_exp_neg_atTop_nhds_zero.comp ?_
    exact tendsto_id.const_mul_atTop (by have := Real.pi_pos; positivity)
  have eI : EntryDiff MI 0 := fun i j => by
    simp only [MI, Matrix.add_apply, Matrix.smul_apply, smul_eq_mul]
    fun_prop
  have eR : EntryDiff MR 0 := fun i j => by
    simp only [MR, Matrix.add_apply, Matrix.smul_apply, smul_eq_mul]
    fun_prop
  have eJ := eR.mul (eI.inv hdet)
  refine ⟨k2, fun i j => ?_, (MI 0)⁻¹, ?_, ?_⟩
  · have h1 := (eJ i j).isBigO_sub.comp_tendsto hw0
    rw [hbulk]
    refine Asymptotics.IsBigO.trans ?_ (Asymptotics.IsBigO.of_bound 1 (Eventually.of_forall fun d => ?_) : (fun d => w d - 0) =O[atTop] _)
    · refine h1.congr_left fun d => ?_
      simp only [Function.comp, hjr d]
    · rw [sub_zero, hnw, one_mul, Real.norm_eq_abs, abs_of_pos (Real.exp_pos _)]
  · rw [Matrix.det_nonsing_inv, Ring.inverse_eq_inv']
    exact inv_ne_zero hdet
  · simp only [hjt]
    have : ContinuousAt (fun w => (MI w)⁻¹) 0 := by
      refine inv_continuousAt ?_ hdet
      refine matrix_continuousAt.2 fun i j => (eI i j).continuousAt
    exact this.tendsto.comp hw0

/-- C92, the limits themselves: reflection of the bulk, nothing transmitted. -/
theorem C92_opaque_limit (s : Stack) (l₁ l₂ : List (ℝ × Tensor)) (e : ℂ) (he : 0 < e.im) (theta lbda : ℝ)
    (h : PassiveStack (s.withLayers (l₁ ++ l₂)) theta lbda) (ee) :
    Tendsto (fun d : ℝ => (calculate4x4 propExpm (s.withLayers (l₁ ++ (d, isoTensor e) :: l₂)) theta lbda ee).jr) atTop
      (𝓝 (calculate4x4 propExpm ⟨s.front, l₁, isoTensor e, true⟩ theta lbda ee).jr) ∧
    Tendsto (fun d : ℝ => (calculate4x4 propExpm (s.withLayers (l₁ ++ (d, isoTensor e) :: l₂)) theta lbda ee).jt) atTop (𝓝 0) := by
  obtain ⟨n0, hn0, hf⟩ := h.front
  obtain ⟨hq, hr, T, -, hT⟩ := C92_opaque_layer s l₁ l₂ e he n0 theta lbda hn0 hf h ee
  have hl := h.lbda_pos
  set q := Complex.sqrt (e - ((n0 * Real.sin (deg2rad theta)) ^ 2 : ℝ))
  have hexp : ∀ c : ℝ, 0 < c → Tendsto (fun d : ℝ => Real.exp (-(c * q.im * d))) atTop (𝓝 0) := fun c hc =>
    Real.tendsto_exp_neg_atTop_nhds_zero.comp (tendsto_id.const_mul_atTop (mul_pos hc hq))
  have hp := Real.pi_pos
  constructor
  · refine tendsto_pi_nhds.2 fun i => tendsto_pi_nhds.2 fun j => ?_
    have := (hr i j).trans_tendsto (hexp _ (by positivity))
    simpa using this.add_const ((calculate4x4 propExpm ⟨s.front, l₁, isoTensor e, true⟩ theta lbda ee).jr i j)
  · have h1 : Tendsto (fun d : ℝ => Complex.exp (I * (2 * Real.pi / lbda) * q * d)) atTop (𝓝 0) := by
      rw [tendsto_zero_iff_norm_tendsto_zero]
      refine (hexp (2 * Real.pi / lbda) (by positivity)).congr fun d => ?_
      rw [Complex.norm_exp, show I * (2 * Real.pi / lbda) * q * d = I * ((2 * Real.pi / lbda * d : ℝ) * q) by push_cast; ring]
      congr 1
      simp only [Complex.mul_re, Complex.I_re, Complex.I_im, Complex.mul_im, Complex.ofReal_re, Complex.ofReal_im]
      ring
    have h2 := h1.smul hT
    rw [zero_smul] at h2
    refine h2.congr fun d => ?_
    rw [smul_smul, ← Complex.exp_add, add_neg_cancel, Complex.exp_zero, one_smul]

/-- A film of permittivity `-10 + i` (a metal) between a glass layer and another one on a substrate. -/
example (ee) : Tendsto (fun d : ℝ => (calculate4x4 propExpm
      ((demoStack 4).withLayers ([(100, isoTensor (9 / 4))] ++ (d, isoTensor (-10 + I)) :: [(50, isoTensor 2)])) 45 500 ee).jt) atTop (𝓝 0) := by
  refine (C92_opaque_limit (demoStack 4) [(100, isoTensor (9 / 4))] [(50, isoTensor 2)] (-10 + I) (by simp) 45 500 ?_ ee).2
  have hd := demo_passive 4 (by norm_num) (by norm_num) 45 (by rw [abs_of_pos] <;> norm_num)
  refine ⟨hd.front, hd.angle, hd.lbda_pos, ?_, hd.back_ne, hd.back_passive, hd.iso⟩
  intro l hl
  simp only [Stack.withLayers, List.singleton_append, List.mem_cons, List.not_mem_nil, or_false] at hl
  rcases hl with rfl | rfl
  · exact hd.layers _ (by simp [demoStack])
  · refine ⟨by norm_num, by simp [isoTensor], passive_isoTensor (by norm_num)⟩

end PyElli
