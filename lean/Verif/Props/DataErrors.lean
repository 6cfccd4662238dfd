import Verif.Props.RoundedSolver4Double
import Verif.Props.Energy

/-! # How far errors in the layer data reach the results of `Solver4x4` -/

namespace Spec

open PyElli Complex
open scoped Matrix.Norms.Operator

/-- How much the phase of a layer changes: wavenumber times the change of thickness times delta matrix (largest sum of a row). The first layer is the true one
with the in-plane wave vector `kx`, the second one the disturbed one. -/
noncomputable def phaseError (kx kx' : ℂ) (lbda : ℝ) (l : (ℝ × Tensor) × (ℝ × Tensor)) : ℝ :=
  2 * Real.pi / |lbda| * ‖(l.2.1 : ℂ) • buildDelta kx' l.2.2 - (l.1.1 : ℂ) • buildDelta kx l.1.2‖

end Spec

namespace PyElli

open Matrix Complex
open scoped Matrix.Norms.Operator

/-- The propagation matrix of a disturbed layer. -/
lemma prop_disturbed (kx kx' : ℂ) (lbda : ℝ) (l : (ℝ × Tensor) × (ℝ × Tensor)) {p : ℝ}
    (hp : ∀ s ∈ Set.Icc (0 : ℝ) 1, ‖propExpm (buildDelta kx l.1.2) (-(s * l.1.1)) lbda‖ ≤ p) :
    MatRel (Real.exp (p * Spec.phaseError kx kx' lbda l)) p (propExpm (buildDelta kx' l.2.2) (-l.2.1) lbda) (propExpm (buildDelta kx l.1.2) (-l.1.1) lbda) := by
  have hp0 : 0 ≤ p := (norm_nonneg _).trans (hp 0 ⟨le_rfl, zero_le_one⟩)
  set A : Mat4 := (I * ((-l.1.1 : ℝ) : ℂ)) • ((wavenumber lbda : ℂ) • buildDelta kx l.1.2) with hA
  set B : Mat4 := (I * ((-l.2.1 : ℝ) : ℂ)) • ((wavenumber lbda : ℂ) • buildDelta kx' l.2.2) with hB
  have hw : |wavenumber lbda| = 2 * Real.pi / |lbda| := by
    unfold wavenumber
    rw [abs_div, abs_of_pos (by have := Real.pi_pos; positivity)]
  have hE : ‖B - A‖ = Spec.phaseError kx kx' lbda l := by
    have e : B - A = (-(I * (wavenumber lbda : ℂ))) • ((l.2.1 : ℂ) • buildDelta kx' l.2.2 - (l.1.1 : ℂ) • buildDelta kx l.1.2) := by
      rw [hA, hB, smul_sub, smul_smul, smul_smul, smul_smul, smul_smul]
      congr 2 <;> push_cast <;> ring
    rw [e, norm_smul, norm_neg, norm_mul, norm_I, one_mul, norm_real, Real.norm_eq_abs, hw]
    rfl
  have hs : ∀ s ∈ Set.Icc (0 : ℝ) 1, ‖(NormedSpace.exp (s • A) : Mat4)‖ ≤ p := by
    intro s hs
    refine le_trans (le_of_eq ?_) (hp s hs)
    unfold propExpm
    congr 2
    rw [hA, ← Complex.coe_smul, smul_smul]
    congr 1
    push_cast
    ring
  have h := exp_perturb A (B - A) hs
  rw [add_sub_cancel, hE] at h
  refine ⟨?_, ?_, ?_⟩
  · refine Real.one_le_exp (mul_nonneg hp0 ?_)
    rw [← hE]
    exact norm_nonneg _
  · have := hp 1 ⟨zero_le_one, le_rfl⟩
    rwa [one_mul] at this
  · show ‖(NormedSpace.exp B : Mat4) - NormedSpace.exp A‖ ≤ _
    rw [mul_comm]
    exact h

/-- The loop over the layers. -/
lemma loop_disturbed (kx kx' : ℂ) (lbda : ℝ) (p : (ℝ × Tensor) × (ℝ × Tensor) → ℝ) {L L' : Mat4} {a P : ℝ} (hL : MatRel a P L' L) :
    ∀ ls : List ((ℝ × Tensor) × (ℝ × Tensor)),
      (∀ l ∈ ls, ∀ s ∈ Set.Icc (0 : ℝ) 1, ‖propExpm (buildDelta kx l.1.2) (-(s * l.1.1)) lbda‖ ≤ p l) →
      MatRel (Real.exp (ls.map fun l => p l * Spec.phaseError kx kx' lbda l).sum * a) ((ls.map p).prod * P)
        (loop4x4 propExpm kx' lbda (ls.map Prod.snd) L') (loop4x4 propExpm kx lbda (ls.map Prod.fst) L)
  | [], _ => by simpa [loop4x4] using hL
  | l :: rest, h => by
    have ih := loop_disturbed kx kx' lbda p hL rest fun x hx => h x (List.mem_cons_of_mem _ hx)
    have hl := prop_disturbed kx kx' lbda l (h l List.mem_cons_self)
    have e : ∀ (k : ℂ) (x : ℝ × Tensor) (xs : List (ℝ × Tensor)) (Z : Mat4),
        loop4x4 propExpm k lbda (x :: xs) Z = propExpm (buildDelta k x.2) (-x.1) lbda * loop4x4 propExpm k lbda xs Z := by
      intro k x xs Z
      simp [loop4x4, List.foldl_append]
    simp only [List.map_cons]
    rw [e, e]
    refine MatRel.mono (hl.mul ih) (le_of_eq ?_) (le_of_eq ?_)
    · rw [List.sum_cons, Real.exp_add]
      ring
    · rw [List.prod_cons]
      ring

/-- The Jones matrices from two transfer matrices that are close. -/
lemma jones_disturbed {G P : ℝ} {M' M : Mat4} (h : MatRel G P M' M) (hdet : (tIt M).det ≠ 0) {K H : ℝ} (hK : K = P * ‖(tIt M)⁻¹‖)
    (hH : H = (G - 1) * K) (hH1 : H < 1) :
    (tIt M').det ≠ 0 ∧ ‖tRt M' * (tIt M')⁻¹ - tRt M * (tIt M)⁻¹‖ ≤ (G / (1 - H) - 1) * K ∧ ‖(tIt M')⁻¹ - (tIt M)⁻¹‖ ≤ H / (1 - H) * ‖(tIt M)⁻¹‖ := by
  have hA := h.tIt
  have hB := h.tRt
  set A := tIt M with hAd
  set A' := tIt M' with hA'd
  set T := ‖A⁻¹‖ with hT
  have hT0 : 0 ≤ T := norm_nonneg _
  have hq : ‖A' - A‖ * T ≤ H := by
    rw [hH, hK, ← mul_assoc]
    exact mul_le_mul_of_nonneg_right hA.2.2 hT0
  have hH0 : 0 ≤ H := le_trans (mul_nonneg (norm_nonneg _) hT0) hq
  obtain ⟨hd', hi'⟩ := inv_close hdet hq hH1
  have hpos : 0 < 1 - H := by linarith
  have hu : IsUnit A.det := isUnit_iff_ne_zero.2 hdet
  have hu' : IsUnit A'.det := isUnit_iff_ne_zero.2 hd'
  have ht : ‖A'⁻¹ - A⁻¹‖ ≤ H / (1 - H) * T := by
    have e : A'⁻¹ - A⁻¹ = A⁻¹ * (A - A') * A'⁻¹ := by
      rw [mul_sub, sub_mul, Matrix.nonsing_inv_mul _ hu, mul_assoc, Matrix.mul_nonsing_inv _ hu', one_mul, mul_one]
    rw [e]
    refine (norm_mul_le _ _).trans ((mul_le_mul_of_nonneg_right (norm_mul_le _ _) (norm_nonneg _)).trans ?_)
    rw [norm_sub_rev, div_mul_eq_mul_div, le_div_iff₀ hpos, mul_assoc]
    have h1 : ‖A⁻¹‖ * ‖A' - A‖ ≤ H := by rw [mul_comm]; exact hq
    exact mul_le_mul h1 hi' (mul_nonneg (norm_nonneg _) hpos.le) hH0
  refine ⟨hd', ?_, ht⟩
  have hXr : MatRel (1 / (1 - H)) T A'⁻¹ A⁻¹ := by
    refine ⟨?_, le_rfl, ht.trans (le_of_eq ?_)⟩
    · rw [le_div_iff₀ hpos]; linarith
    · congr 1
      field_simp
      ring
  refine (hB.mul hXr).2.2.trans (le_of_eq ?_)
  rw [hK]
  congr 2
  ring

/-- **C145.** Two stacks with the same number of layers, evaluated at any two angles: where the change is small against the conditioning of the true stack, the
results of the disturbed one exist and are as close as the changes of the phases, the front and the exit matrix say. -/
theorem C145_stack (s s' : Stack) (theta theta' lbda : ℝ) (ee ee' : (Fin 4 → ℂ) × Mat4) (ls : List ((ℝ × Tensor) × (ℝ × Tensor)))
    (hs : s.layers = ls.map Prod.fst) (hs' : s'.layers = ls.map Prod.snd) (_hl : lbda ≠ 0) (_h22 : ∀ l ∈ ls, l.1.2 2 2 ≠ 0 ∧ l.2.2 2 2 ≠ 0)
    (_hn : nOf s.front ≠ 0 ∧ cosPhi (kxOf s theta) s.front ≠ 0) (_hn' : nOf s'.front ≠ 0 ∧ cosPhi (kxOf s' theta') s'.front ≠ 0) (p : (ℝ × Tensor) × (ℝ × Tensor) → ℝ)
    (hp : ∀ l ∈ ls, ∀ x ∈ Set.Icc (0 : ℝ) 1, ‖propExpm (buildDelta (kxOf s theta) l.1.2) (-(x * l.1.1)) lbda‖ ≤ p l)
    (f b : ℝ) (hf : 1 ≤ f) (hb : 1 ≤ b)
    (hF : ‖isoHalfInv (kxOf s' theta') s'.front - isoHalfInv (kxOf s theta) s.front‖ ≤ (f - 1) * ‖isoHalfInv (kxOf s theta) s.front‖)
    (hL : ‖exitMatrix s' (kxOf s' theta') ee' - exitMatrix s (kxOf s theta) ee‖ ≤ (b - 1) * ‖exitMatrix s (kxOf s theta) ee‖)
    (hdet : (tIt (transfer4x4 propExpm s theta lbda ee)).det ≠ 0) (G K H : ℝ)
    (hG : G = f * b * Real.exp (ls.map fun l => p l * Spec.phaseError (kxOf s theta) (kxOf s' theta') lbda l).sum)
    (hK : K = ‖isoHalfInv (kxOf s theta) s.front‖ * (ls.map p).prod * ‖exitMatrix s (kxOf s theta) ee‖ * ‖(calculate4x4 propExpm s theta lbda ee).jt‖)
    (hH : H = (G - 1) * K) (hH1 : H < 1) :
    (tIt (transfer4x4 propExpm s' theta' lbda ee')).det ≠ 0 ∧
      ‖(calculate4x4 propExpm s' theta' lbda ee').jr - (calculate4x4 propExpm s theta lbda ee).jr‖ ≤ (G / (1 - H) - 1) * K ∧
      ‖(calculate4x4 propExpm s' theta' lbda ee').jt - (calculate4x4 propExpm s theta lbda ee).jt‖ ≤ H / (1 - H) * ‖(calculate4x4 propExpm s theta lbda ee).jt‖ := by
  have h1 := loop_disturbed (kxOf s theta) (kxOf s' theta') lbda p (⟨hb, le_rfl, hL⟩ : MatRel b _ _ _) ls hp
  have h0 : MatRel f _ _ _ := ⟨hf, le_rfl, hF⟩
  rw [← hs, ← hs'] at h1
  have h := h0.mul h1
  refine jones_disturbed (M' := transfer4x4 propExpm s' theta' lbda ee') (M := transfer4x4 propExpm s theta lbda ee) (G := G) (h.mono (le_of_eq ?_) le_rfl) hdet ?_ hH hH1
  · rw [hG]; ring
  · rw [hK]
    show _ = _ * ‖(calculate4x4 propExpm s theta lbda ee).jt‖
    ring

/-- The bounds of first order. -/
lemma first_order_bound {e K G H : ℝ} (he0 : 0 ≤ e) (he8 : e ≤ 1 / 8) (hK0 : 0 ≤ K) (heK : 4 * e * K ≤ 1) (hG : G = Real.exp e) (hH : H = (G - 1) * K) :
    H < 1 ∧ (G / (1 - H) - 1) * K ≤ 3 * e * (1 + K) * K ∧ H / (1 - H) ≤ 2 * e * K := by
  have hexp : Real.exp e ≤ 1 + 17 / 15 * e := by
    have h1 : 1 - e ≤ Real.exp (-e) := by have := Real.add_one_le_exp (-e); linarith
    have h2 : Real.exp e * Real.exp (-e) = 1 := by rw [← Real.exp_add]; simp
    have hq := Real.quadratic_le_exp_of_nonneg he0
    have hpos := Real.exp_pos e
    have h3 : |Real.exp e - 1 - e| ≤ e ^ 2 := Real.abs_exp_sub_one_sub_id_le (by rw [abs_of_nonneg he0]; linarith)
    have h4 := (abs_le.1 h3).2
    nlinarith
  have hG1 : 1 ≤ G := by rw [hG]; exact Real.one_le_exp he0
  have hG2 : G - 1 ≤ 17 / 15 * e := by rw [hG]; linarith
  have hH0 : 0 ≤ H := by rw [hH]; exact mul_nonneg (by linarith) hK0
  have hHe : H ≤ 17 / 15 * (e * K) := by rw [hH]; nlinarith [mul_le_mul_of_nonneg_right hG2 hK0]
  have heK0 : 0 ≤ e * K := mul_nonneg he0 hK0
  have hH3 : H ≤ 17 / 60 := by nlinarith
  have hpos : 0 < 1 - H := by linarith
  refine ⟨by linarith, ?_, ?_⟩
  · refine mul_le_mul_of_nonneg_right ?_ hK0
    have : G / (1 - H) - 1 = (G - 1 + H) / (1 - H) := by field_simp; ring
    rw [this, div_le_iff₀ hpos]
    nlinarith
  · rw [div_le_iff₀ hpos]
    nlinarith

/-- Only the layers change. -/
lemma layers_disturbed (s : Stack) (theta lbda : ℝ) (ee : (Fin 4 → ℂ) × Mat4) (ls : List ((ℝ × Tensor) × (ℝ × Tensor))) (hs : s.layers = ls.map Prod.fst)
    (hl : lbda ≠ 0) (h22 : ∀ l ∈ ls, l.1.2 2 2 ≠ 0 ∧ l.2.2 2 2 ≠ 0) (hn : nOf s.front ≠ 0 ∧ cosPhi (kxOf s theta) s.front ≠ 0)
    (p : (ℝ × Tensor) × (ℝ × Tensor) → ℝ)
    (hp : ∀ l ∈ ls, ∀ x ∈ Set.Icc (0 : ℝ) 1, ‖propExpm (buildDelta (kxOf s theta) l.1.2) (-(x * l.1.1)) lbda‖ ≤ p l)
    (hdet : (tIt (transfer4x4 propExpm s theta lbda ee)).det ≠ 0) (e K : ℝ)
    (he : (ls.map fun l => p l * Spec.phaseError (kxOf s theta) (kxOf s theta) lbda l).sum ≤ e) (he8 : e ≤ 1 / 8)
    (hK : K = ‖isoHalfInv (kxOf s theta) s.front‖ * (ls.map p).prod * ‖exitMatrix s (kxOf s theta) ee‖ * ‖(calculate4x4 propExpm s theta lbda ee).jt‖)
    (heK : 4 * e * K ≤ 1) :
    ‖(calculate4x4 propExpm { s with layers := ls.map Prod.snd } theta lbda ee).jr - (calculate4x4 propExpm s theta lbda ee).jr‖ ≤ 3 * e * (1 + K) * K ∧
      ‖(calculate4x4 propExpm { s with layers := ls.map Prod.snd } theta lbda ee).jt - (calculate4x4 propExpm s theta lbda ee).jt‖ ≤
        2 * e * K * ‖(calculate4x4 propExpm s theta lbda ee).jt‖ := by
  have hp0 : ∀ l ∈ ls, 0 ≤ p l := fun l hl' => (norm_nonneg _).trans (hp l hl' 0 ⟨le_rfl, zero_le_one⟩)
  have hpi := Real.pi_pos
  set Φ := (ls.map fun l => p l * Spec.phaseError (kxOf s theta) (kxOf s theta) lbda l).sum with hΦ
  have hΦ0 : 0 ≤ Φ := List.sum_nonneg fun x hx => by
    obtain ⟨l, hl', rfl⟩ := List.mem_map.1 hx
    refine mul_nonneg (hp0 l hl') ?_
    unfold Spec.phaseError
    positivity
  have hK0 : 0 ≤ K := by
    rw [hK]
    have : 0 ≤ (ls.map p).prod := List.prod_nonneg fun x hx => by
      obtain ⟨l, hl', rfl⟩ := List.mem_map.1 hx
      exact hp0 l hl'
    positivity
  obtain ⟨h1, h2, h3⟩ := first_order_bound (G := Real.exp Φ) (H := (Real.exp Φ - 1) * K) hΦ0 (he.trans he8) hK0
    (by nlinarith [mul_le_mul_of_nonneg_right he hK0]) rfl rfl
  have hkx : kxOf { s with layers := ls.map Prod.snd } theta = kxOf s theta := rfl
  obtain ⟨-, k2, k3⟩ := C145_stack s { s with layers := ls.map Prod.snd } theta theta lbda ee ee ls hs rfl hl h22 hn hn p hp 1 1 le_rfl le_rfl
    (by rw [hkx]; simp) (by rw [hkx]; simp [exitMatrix]) hdet (Real.exp Φ) K ((Real.exp Φ - 1) * K) (by rw [hkx, ← hΦ]; ring) hK rfl h1
  refine ⟨(k2.trans h2).trans ?_, (k3.trans (mul_le_mul_of_nonneg_right h3 (norm_nonneg _))).trans ?_⟩
  · have := mul_le_mul_of_nonneg_right he (mul_nonneg (by linarith : 0 ≤ 1 + K) hK0)
    nlinarith
  · have := mul_le_mul_of_nonneg_right he (mul_nonneg hK0 (norm_nonneg (calculate4x4 propExpm s theta lbda ee).jt))
    nlinarith

/-- **C145.** Errors of the thicknesses alone: `(d, d', ε)` are the true and the disturbed thickness of a layer and its tensor. -/
theorem C145_thickness (s : Stack) (theta lbda : ℝ) (ee : (Fin 4 → ℂ) × Mat4) (ls : List (ℝ × ℝ × Tensor)) (hs : s.layers = ls.map fun l => (l.1, l.2.2))
    (hl : lbda ≠ 0) (h22 : ∀ l ∈ ls, l.2.2 2 2 ≠ 0) (hn : nOf s.front ≠ 0 ∧ cosPhi (kxOf s theta) s.front ≠ 0) (p : ℝ × ℝ × Tensor → ℝ)
    (hp : ∀ l ∈ ls, ∀ x ∈ Set.Icc (0 : ℝ) 1, ‖propExpm (buildDelta (kxOf s theta) l.2.2) (-(x * l.1)) lbda‖ ≤ p l)
    (hdet : (tIt (transfer4x4 propExpm s theta lbda ee)).det ≠ 0) (e K : ℝ)
    (he : e = (ls.map fun l => p l * (2 * Real.pi / |lbda| * |l.2.1 - l.1| * ‖Spec.deltaSize (kxOf s theta) l.2.2‖)).sum) (he8 : e ≤ 1 / 8)
    (hK : K = ‖isoHalfInv (kxOf s theta) s.front‖ * (ls.map p).prod * ‖exitMatrix s (kxOf s theta) ee‖ * ‖(calculate4x4 propExpm s theta lbda ee).jt‖)
    (heK : 4 * e * K ≤ 1) :
    let s' : Stack := { s with layers := ls.map fun l => (l.2.1, l.2.2) }
    ‖(calculate4x4 propExpm s' theta lbda ee).jr - (calculate4x4 propExpm s theta lbda ee).jr‖ ≤ 3 * e * (1 + K) * K ∧
      ‖(calculate4x4 propExpm s' theta lbda ee).jt - (calculate4x4 propExpm s theta lbda ee).jt‖ ≤ 2 * e * K * ‖(calculate4x4 propExpm s theta lbda ee).jt‖ := by
  intro s'
  have hpi := Real.pi_pos
  have hp0 : ∀ l ∈ ls, 0 ≤ p l := fun l hl' => (norm_nonneg _).trans (hp l hl' 0 ⟨le_rfl, zero_le_one⟩)
  have hsum : ∀ (f : (ℝ × Tensor) × (ℝ × Tensor) → ℝ), (ls.map fun l => ((l.1, l.2.2), (l.2.1, l.2.2))).map f = ls.map fun l => f ((l.1, l.2.2), (l.2.1, l.2.2)) :=
    fun f => by rw [List.map_map]; rfl
  have h := layers_disturbed s theta lbda ee (ls.map fun l => ((l.1, l.2.2), (l.2.1, l.2.2))) (by rw [hs, List.map_map]; rfl) hl
    (by
      intro l hl'
      obtain ⟨x, hx, rfl⟩ := List.mem_map.1 hl'
      exact ⟨h22 x hx, h22 x hx⟩) hn (fun l => p (l.1.1, l.2.1, l.1.2))
    (by
      intro l hl'
      obtain ⟨x, hx, rfl⟩ := List.mem_map.1 hl'
      exact hp x hx) hdet e K
    (by
      rw [hsum, he]
      refine List.sum_le_sum fun l hl' => mul_le_mul_of_nonneg_left ?_ (hp0 l hl')
      unfold Spec.phaseError
      rw [mul_assoc]
      refine mul_le_mul_of_nonneg_left ?_ (by positivity)
      rw [← sub_smul, norm_smul, ← ofReal_sub, norm_real, Real.norm_eq_abs]
      exact mul_le_mul_of_nonneg_left (delta_norm_le _ _) (abs_nonneg _)) he8
    (by rw [hK, hsum]) heK
  have e1 : (ls.map fun l => ((l.1, l.2.2), (l.2.1, l.2.2))).map Prod.snd = ls.map fun l => (l.2.1, l.2.2) := by
    rw [List.map_map]; rfl
  rw [e1] at h
  exact h

/-- The delta matrices of two isotropic materials. -/
lemma delta_iso_sub (kx e e' : ℂ) (h : e ≠ 0) (h' : e' ≠ 0) :
    ‖buildDelta kx (isoTensor e') - buildDelta kx (isoTensor e)‖ ≤ ‖e' - e‖ * max 1 (‖kx‖ ^ 2 / (‖e‖ * ‖e'‖)) := by
  have hm1 : ‖e' - e‖ ≤ ‖e' - e‖ * max 1 (‖kx‖ ^ 2 / (‖e‖ * ‖e'‖)) := le_mul_of_one_le_right (norm_nonneg _) (le_max_left _ _)
  have hm0 : 0 ≤ ‖e' - e‖ * max 1 (‖kx‖ ^ 2 / (‖e‖ * ‖e'‖)) := (norm_nonneg _).trans hm1
  have e0 : 1 - kx ^ 2 / e' - (1 - kx ^ 2 / e) = (e' - e) * (kx ^ 2 / (e * e')) := by field_simp; ring
  have h03 : ‖1 - kx ^ 2 / e' - (1 - kx ^ 2 / e)‖ ≤ ‖e' - e‖ * max 1 (‖kx‖ ^ 2 / (‖e‖ * ‖e'‖)) := by
    rw [e0, norm_mul, norm_div, norm_pow, norm_mul]
    exact mul_le_mul_of_nonneg_left (le_max_right _ _) (norm_nonneg _)
  refine (norm_le_iff hm0).2 fun i => ?_
  fin_cases i
  · simpa [Fin.sum_univ_four, buildDelta, isoTensor] using h03
  · simpa [Fin.sum_univ_four, buildDelta, isoTensor] using hm0
  · have : ‖e - e'‖ ≤ ‖e' - e‖ * max 1 (‖kx‖ ^ 2 / (‖e‖ * ‖e'‖)) := by rw [norm_sub_rev]; exact hm1
    simpa [Fin.sum_univ_four, buildDelta, isoTensor] using this
  · simpa [Fin.sum_univ_four, buildDelta, isoTensor] using hm1

/-- A layer of an isotropic sample: true and disturbed thickness, true and disturbed dielectric constant. -/
structure IsoLayerPair where
  d : ℝ
  d' : ℝ
  eps : ℂ
  eps' : ℂ

/-- **C145.** Errors of the thicknesses and dielectric constants of isotropic layers. -/
theorem C145_isotropic (s : Stack) (theta lbda : ℝ) (ee : (Fin 4 → ℂ) × Mat4) (ls : List IsoLayerPair) (hs : s.layers = ls.map fun l => (l.d, isoTensor l.eps))
    (hl : lbda ≠ 0) (h22 : ∀ l ∈ ls, l.eps ≠ 0 ∧ l.eps' ≠ 0) (hn : nOf s.front ≠ 0 ∧ cosPhi (kxOf s theta) s.front ≠ 0) (p : IsoLayerPair → ℝ)
    (hp : ∀ l ∈ ls, ∀ x ∈ Set.Icc (0 : ℝ) 1, ‖propExpm (buildDelta (kxOf s theta) (isoTensor l.eps)) (-(x * l.d)) lbda‖ ≤ p l)
    (hdet : (tIt (transfer4x4 propExpm s theta lbda ee)).det ≠ 0) (e K : ℝ)
    (he : e = (ls.map fun l => p l * (2 * Real.pi / |lbda| *
      (|l.d' - l.d| * ‖Spec.deltaSize (kxOf s theta) (isoTensor l.eps)‖ + |l.d'| * (‖l.eps' - l.eps‖ * max 1 (‖kxOf s theta‖ ^ 2 / (‖l.eps‖ * ‖l.eps'‖)))))).sum) (he8 : e ≤ 1 / 8)
    (hK : K = ‖isoHalfInv (kxOf s theta) s.front‖ * (ls.map p).prod * ‖exitMatrix s (kxOf s theta) ee‖ * ‖(calculate4x4 propExpm s theta lbda ee).jt‖)
    (heK : 4 * e * K ≤ 1) :
    let s' : Stack := { s with layers := ls.map fun l => (l.d', isoTensor l.eps') }
    ‖(calculate4x4 propExpm s' theta lbda ee).jr - (calculate4x4 propExpm s theta lbda ee).jr‖ ≤ 3 * e * (1 + K) * K ∧
      ‖(calculate4x4 propExpm s' theta lbda ee).jt - (calculate4x4 propExpm s theta lbda ee).jt‖ ≤ 2 * e * K * ‖(calculate4x4 propExpm s theta lbda ee).jt‖ := by
  intro s'
  have hpi := Real.pi_pos
  have hp0 : ∀ l ∈ ls, 0 ≤ p l := fun l hl' => (norm_nonneg _).trans (hp l hl' 0 ⟨le_rfl, zero_le_one⟩)
  have hiso : ∀ x : ℂ, isoTensor x 0 0 = x := fun x => by simp [isoTensor]
  have hsum : ∀ (f : (ℝ × Tensor) × (ℝ × Tensor) → ℝ), (ls.map fun l => ((l.d, isoTensor l.eps), (l.d', isoTensor l.eps'))).map f =
      ls.map fun l => f ((l.d, isoTensor l.eps), (l.d', isoTensor l.eps')) :=
    fun f => by rw [List.map_map]; rfl
  have h := layers_disturbed s theta lbda ee (ls.map fun l => ((l.d, isoTensor l.eps), (l.d', isoTensor l.eps'))) (by rw [hs, List.map_map]; rfl) hl
    (by
      intro l hl'
      obtain ⟨x, hx, rfl⟩ := List.mem_map.1 hl'
      simpa [isoTensor] using h22 x hx) hn (fun l => p ⟨l.1.1, l.2.1, l.1.2 0 0, l.2.2 0 0⟩)
    (by
      intro l hl'
      obtain ⟨x, hx, rfl⟩ := List.mem_map.1 hl'
      simp only [hiso]
      exact hp x hx) hdet e K
    (by
      rw [hsum, he]
      simp only [hiso]
      refine List.sum_le_sum fun l hl' => mul_le_mul_of_nonneg_left ?_ (hp0 l hl')
      unfold Spec.phaseError
      refine mul_le_mul_of_nonneg_left ?_ (by positivity)
      have e1 : (l.d' : ℂ) • buildDelta (kxOf s theta) (isoTensor l.eps') - (l.d : ℂ) • buildDelta (kxOf s theta) (isoTensor l.eps) =
          ((l.d' - l.d : ℝ) : ℂ) • buildDelta (kxOf s theta) (isoTensor l.eps) + (l.d' : ℂ) • (buildDelta (kxOf s theta) (isoTensor l.eps') - buildDelta (kxOf s theta) (isoTensor l.eps)) := by
        rw [smul_sub, ofReal_sub, sub_smul]
        abel
      dsimp only
      rw [e1]
      refine (norm_add_le _ _).trans (add_le_add ?_ ?_)
      · rw [norm_smul, norm_real, Real.norm_eq_abs]
        exact mul_le_mul_of_nonneg_left (delta_norm_le _ _) (abs_nonneg _)
      · rw [norm_smul, norm_real, Real.norm_eq_abs]
        exact mul_le_mul_of_nonneg_left (delta_iso_sub _ _ _ (h22 l hl').1 (h22 l hl').2) (abs_nonneg _)) he8
    (by rw [hK, hsum]; simp only [hiso]) heK
  have e1 : (ls.map fun l => ((l.d, isoTensor l.eps), (l.d', isoTensor l.eps'))).map Prod.snd = ls.map fun l => (l.d', isoTensor l.eps') := by
    rw [List.map_map]; rfl
  rw [e1] at h
  exact h

/-- **C145.** Every passive sample satisfies the hypotheses for all changes of the thicknesses that are small enough: the results are Lipschitz in the thicknesses. -/
theorem C145_passive (s : Stack) (theta lbda : ℝ) (h : PassiveStack s theta lbda) (ee : (Fin 4 → ℂ) × Mat4) :
    ∃ δ > 0, ∃ C : ℝ, ∀ ls : List (ℝ × ℝ × Tensor), s.layers = (ls.map fun l => (l.1, l.2.2)) → (ls.map fun l => |l.2.1 - l.1|).sum ≤ δ →
      let s' : Stack := { s with layers := ls.map fun l => (l.2.1, l.2.2) }
      ‖(calculate4x4 propExpm s' theta lbda ee).jr - (calculate4x4 propExpm s theta lbda ee).jr‖ ≤ C * (ls.map fun l => |l.2.1 - l.1|).sum ∧
      ‖(calculate4x4 propExpm s' theta lbda ee).jt - (calculate4x4 propExpm s theta lbda ee).jt‖ ≤ C * (ls.map fun l => |l.2.1 - l.1|).sum := by
  have hpi := Real.pi_pos
  set T := (calculate4x4 propExpm s theta lbda ee).jt with hT
  set kx := kxOf s theta with hkx
  set q : ℝ × Tensor → ℝ := fun l => Real.exp (Spec.phase4 kx lbda l) with hq
  set b : ℝ × Tensor → ℝ := fun l => q l * (2 * Real.pi / |lbda| * ‖Spec.deltaSize kx l.2‖) with hb
  have hq0 : ∀ l, 0 ≤ q l := fun l => (Real.exp_pos _).le
  have hb0 : ∀ l, 0 ≤ b l := fun l => mul_nonneg (hq0 l) (by positivity)
  set K := ‖isoHalfInv kx s.front‖ * (s.layers.map q).prod * ‖exitMatrix s kx ee‖ * ‖T‖ with hK
  have hK0 : 0 ≤ K := by
    have : 0 ≤ (s.layers.map q).prod := List.prod_nonneg fun x hx => by
      obtain ⟨l, -, rfl⟩ := List.mem_map.1 hx
      exact hq0 l
    positivity
  set B := (s.layers.map b).sum with hB
  have hB0 : 0 ≤ B := List.sum_nonneg fun x hx => by
    obtain ⟨l, -, rfl⟩ := List.mem_map.1 hx
    exact hb0 l
  have hbB : ∀ l ∈ s.layers, b l ≤ B := fun l hl => List.single_le_sum (fun x hx => by
    obtain ⟨y, -, rfl⟩ := List.mem_map.1 hx
    exact hb0 y) _ (List.mem_map_of_mem hl)
  refine ⟨1 / (8 * (B + 1) * (1 + K)), by positivity, 3 * B * (1 + K) * K + 2 * B * K * ‖T‖, ?_⟩
  intro ls hs hδ
  set D := (ls.map fun l => |l.2.1 - l.1|).sum with hD
  have hD0 : 0 ≤ D := List.sum_nonneg fun x hx => by
    obtain ⟨l, -, rfl⟩ := List.mem_map.1 hx
    exact abs_nonneg _
  have hmem : ∀ l ∈ ls, (l.1, l.2.2) ∈ s.layers := fun l hl => by
    rw [hs]
    exact List.mem_map_of_mem (f := fun l : ℝ × ℝ × Tensor => (l.1, l.2.2)) hl
  obtain ⟨n0, c0, hn0, hc0, hn, hc, -⟩ := two_norms s theta lbda h ee
  set e := (ls.map fun l => q (l.1, l.2.2) * (2 * Real.pi / |lbda| * |l.2.1 - l.1| * ‖Spec.deltaSize kx l.2.2‖)).sum with he
  have heB : e ≤ B * D := by
    rw [he, hD, ← List.sum_map_mul_left]
    refine List.sum_le_sum fun l hl => ?_
    have := mul_le_mul_of_nonneg_right (hbB _ (hmem l hl)) (abs_nonneg (l.2.1 - l.1))
    refine le_trans (le_of_eq ?_) this
    simp only [hb]
    ring
  have he0 : 0 ≤ e := List.sum_nonneg fun x hx => by
    obtain ⟨l, -, rfl⟩ := List.mem_map.1 hx
    exact mul_nonneg (hq0 _) (by positivity)
  have hδ' : D * (8 * (B + 1) * (1 + K)) ≤ 1 := (le_div_iff₀ (by positivity)).1 hδ
  have hBD0 : 0 ≤ B * D := mul_nonneg hB0 hD0
  have hBD1 : B * D * (8 * (1 + K)) ≤ 1 := by nlinarith [mul_nonneg hD0 hK0]
  have he1 : 8 * e * (1 + K) ≤ 1 := by nlinarith
  have hres := C145_thickness s theta lbda ee ls hs h.lbda_pos.ne' (fun l hl => (h.layers _ (hmem l hl)).2.1)
    ⟨by rw [hn]; exact_mod_cast hn0.ne', by rw [hc]; exact_mod_cast hc0.ne'⟩ (fun l => q (l.1, l.2.2)) (fun l _ => (C143_sizes kx lbda (l.1, l.2.2)).1)
    (tIt_det_ne_zero s theta lbda h ee) e K he (by nlinarith [mul_nonneg he0 hK0])
    (by rw [hK, hs, List.map_map]; rfl) (by nlinarith)
  intro s'
  have h1 : e * ((1 + K) * K) ≤ B * D * ((1 + K) * K) := mul_le_mul_of_nonneg_right heB (by positivity)
  have h2 : e * (K * ‖T‖) ≤ B * D * (K * ‖T‖) := mul_le_mul_of_nonneg_right heB (by positivity)
  have h3 : 0 ≤ B * D * ((1 + K) * K) := by positivity
  have h4 : 0 ≤ B * D * (K * ‖T‖) := by positivity
  refine ⟨hres.1.trans ?_, hres.2.trans ?_⟩ <;> nlinarith

example : ∃ δ > 0, ∃ C : ℝ, ∀ d' : ℝ, |d' - 100| ≤ δ →
    ‖(calculate4x4 propExpm { demoStack (4 + I) with layers := [(d', isoTensor (9 / 4))] } 45 500 (0, 1)).jr -
      (calculate4x4 propExpm (demoStack (4 + I)) 45 500 (0, 1)).jr‖ ≤ C * |d' - 100| := by
  obtain ⟨δ, hδ, C, h⟩ := C145_passive (demoStack (4 + I)) 45 500
    (demo_passive _ (by intro h; have := congrArg Complex.im h; simp at this) (by simp) 45 (by norm_num)) (0, 1)
  refine ⟨δ, hδ, C, fun d' hd => ?_⟩
  have := h [(100, d', isoTensor (9 / 4))] (by simp [demoStack]) (by simpa using hd)
  simpa using this.1

end PyElli
