import Verif.Lemmas.Graded
import Mathlib.Analysis.SpecialFunctions.Exponential

/-! # The linear propagator on thin slices -/

namespace PyElli

open Matrix Complex Spec Set Filter Topology
open scoped Matrix.Norms.Operator

/-- Product of the linear propagators of `m` slices of thickness `h`. -/
noncomputable def linProd (X : ℝ → Mat4) (h : ℝ) (m : ℕ) : Mat4 :=
  ((List.range m).map fun k : ℕ => (1 + (-h) • X (((k : ℝ) + 1 / 2) * h) : Mat4)).prod

lemma linProd_succ (X : ℝ → Mat4) (h : ℝ) (m : ℕ) :
    linProd X h (m + 1) = linProd X h m * (1 + (-h) • X (((m : ℝ) + 1 / 2) * h)) := by
  simp [linProd, List.range_succ]

lemma lin_error (X : ℝ → Mat4) {h K ε : ℝ} (hh : 0 ≤ h) (hε : 0 ≤ ε) {n : ℕ} (hK : ∀ z ∈ Icc 0 (n * h), ‖X z‖ ≤ K) (hK0 : 0 ≤ K)
    (hex : ∀ z ∈ Icc 0 (n * h), ‖(NormedSpace.exp ((-h) • X z) : Mat4) - (1 + (-h) • X z)‖ ≤ ε * (h * K)) :
    ∀ m ≤ n, ∀ v : Fin 4 → ℂ, ‖sliceProd X h m *ᵥ v - linProd X h m *ᵥ v‖ ≤ m * (h * K * ε) * Real.exp (K * (m * h)) * ‖v‖ := by
  intro m
  induction m with
  | zero => intro _ v; simp [sliceProd, linProd]
  | succ m ih =>
    intro hm v
    have hmn : ((m : ℝ) + 1) ≤ n := by exact_mod_cast hm
    have hmem : ((m : ℝ) + 1 / 2) * h ∈ Icc 0 (n * h) := ⟨by positivity, by nlinarith⟩
    set A := X (((m : ℝ) + 1 / 2) * h) with hA
    set E : Mat4 := NormedSpace.exp ((-h) • A) with hE
    set L : Mat4 := 1 + (-h) • A with hL
    have hsplit : sliceProd X h (m + 1) *ᵥ v - linProd X h (m + 1) *ᵥ v =
        sliceProd X h m *ᵥ ((E - L) *ᵥ v) + (sliceProd X h m *ᵥ (L *ᵥ v) - linProd X h m *ᵥ (L *ᵥ v)) := by
      rw [sliceProd_succ, linProd_succ, ← Matrix.mulVec_mulVec, ← Matrix.mulVec_mulVec, Matrix.sub_mulVec, Matrix.mulVec_sub]
      abel
    have h1 : ‖(E - L) *ᵥ v‖ ≤ ε * (h * K) * ‖v‖ :=
      (Matrix.linfty_opNorm_mulVec _ _).trans (mul_le_mul_of_nonneg_right (hex _ hmem) (norm_nonneg _))
    have h2 : ‖L *ᵥ v‖ ≤ Real.exp (K * h) * ‖v‖ := by
      have e : L *ᵥ v = v + (-h) • (A *ᵥ v) := by
        rw [hL, Matrix.add_mulVec, Matrix.one_mulVec, Matrix.smul_mulVec]
      rw [e]
      refine (norm_add_le _ _).trans ?_
      have e2 : ‖(-h) • (A *ᵥ v)‖ ≤ h * (K * ‖v‖) := by
        rw [norm_smul, norm_neg, Real.norm_of_nonneg hh]
        exact mul_le_mul_of_nonneg_left ((Matrix.linfty_opNorm_mulVec _ _).trans (mul_le_mul_of_nonneg_right (hK _ hmem) (norm_nonneg _))) hh
      have e3 := Real.add_one_le_exp (K * h)
      nlinarith [norm_nonneg v]
    have hb := sliceProd_bound X hh hK m (by omega) ((E - L) *ᵥ v)
    have hi := ih (by omega) (L *ᵥ v)
    have hexp : Real.exp (K * (((m + 1 : ℕ) : ℝ) * h)) = Real.exp (K * (m * h)) * Real.exp (K * h) := by
      rw [← Real.exp_add]
      congr 1
      push_cast
      ring
    rw [hsplit, hexp]
    have hm0 : (0 : ℝ) ≤ m * (h * K * ε) := by positivity
    have hE0 := Real.exp_pos (K * (m * h))
    have hE1 : 1 ≤ Real.exp (K * h) := Real.one_le_exp (by positivity)
    refine (norm_add_le _ _).trans ?_
    have t1 : ‖sliceProd X h m *ᵥ ((E - L) *ᵥ v)‖ ≤ (h * K * ε) * (Real.exp (K * (m * h)) * Real.exp (K * h)) * ‖v‖ := by
      refine hb.trans ?_
      have : ‖(E - L) *ᵥ v‖ * Real.exp (K * (m * h)) ≤ ε * (h * K) * ‖v‖ * Real.exp (K * (m * h)) := mul_le_mul_of_nonneg_right h1 hE0.le
      refine this.trans ?_
      have h0 : 0 ≤ h * K * ε * ‖v‖ * Real.exp (K * (m * h)) := by positivity
      nlinarith
    have t2 : ‖sliceProd X h m *ᵥ (L *ᵥ v) - linProd X h m *ᵥ (L *ᵥ v)‖ ≤ m * (h * K * ε) * (Real.exp (K * (m * h)) * Real.exp (K * h)) * ‖v‖ := by
      refine hi.trans ?_
      have h0 : 0 ≤ m * (h * K * ε) * Real.exp (K * (m * h)) := by positivity
      calc _ ≤ m * (h * K * ε) * Real.exp (K * (m * h)) * (Real.exp (K * h) * ‖v‖) := mul_le_mul_of_nonneg_left h2 h0
        _ = _ := by ring
    push_cast
    linarith [t1, t2]

/-- The linear propagators of finer and finer slices have the same limit as the exact ones. -/
lemma linProd_tendsto {X : ℝ → Mat4} {d : ℝ} (hd : 0 ≤ d) (hX : ContinuousOn X (Icc 0 d)) {G : Mat4}
    (hG : Tendsto (fun n : ℕ => sliceProd X (d / n) n) atTop (𝓝 G)) : Tendsto (fun n : ℕ => linProd X (d / n) n) atTop (𝓝 G) := by
  obtain ⟨K, hK⟩ : ∃ K : ℝ, ∀ z ∈ Icc 0 d, ‖X z‖ ≤ K := isCompact_Icc.exists_bound_of_continuousOn hX
  have hK0 : 0 ≤ K := (norm_nonneg _).trans (hK 0 ⟨le_rfl, hd⟩)
  have hdiff : ∀ v : Fin 4 → ℂ, Tendsto (fun n : ℕ => sliceProd X (d / n) n *ᵥ v - linProd X (d / n) n *ᵥ v) atTop (𝓝 0) := by
    intro v
    rw [Metric.tendsto_atTop]
    intro η hη
    set C : ℝ := d * K * Real.exp (K * d) * ‖v‖ with hC
    have hC0 : 0 ≤ C := by positivity
    set ε : ℝ := η / (2 * (C + 1)) with hεd
    have hε : 0 < ε := by positivity
    have hder : HasFDerivAt (NormedSpace.exp : Mat4 → Mat4) (1 : Mat4 →L[ℝ] Mat4) 0 := hasFDerivAt_exp_zero
    have hlit := (hasFDerivAt_iff_isLittleO_nhds_zero.1 hder).def hε
    obtain ⟨δ, hδ, hball⟩ := Metric.eventually_nhds_iff.1 hlit
    obtain ⟨N, hN⟩ := exists_nat_gt (d * (K + 1) / δ)
    refine ⟨max N 1, fun n hn => ?_⟩
    have hn1 : 1 ≤ n := le_of_max_le_right hn
    have hnN : (N : ℝ) ≤ n := by exact_mod_cast le_of_max_le_left hn
    have hn0 : (0 : ℝ) < n := by exact_mod_cast hn1
    have hnd : (n : ℝ) * (d / n) = d := by field_simp
    have hh : 0 ≤ d / n := by positivity
    have hsmall : d / n * (K + 1) < δ := by
      have h1 : d * (K + 1) / δ < n := lt_of_lt_of_le hN hnN
      rw [div_lt_iff₀ hδ] at h1
      rw [div_mul_eq_mul_div, div_lt_iff₀ hn0]
      linarith
    have := lin_error X hh hε.le (n := n) (K := K) (by rw [hnd]; exact hK) hK0 (by
      rw [hnd]
      intro z hz
      have hnorm : ‖(-(d / n)) • X z‖ ≤ d / n * K := by
        rw [norm_smul, norm_neg, Real.norm_of_nonneg hh]
        exact mul_le_mul_of_nonneg_left (hK z hz) hh
      have hb := hball (y := (-(d / n)) • X z) (by
        rw [dist_zero_right]
        refine lt_of_le_of_lt hnorm (lt_of_le_of_lt ?_ hsmall)
        exact mul_le_mul_of_nonneg_left (by linarith) hh)
      simp only [zero_add, NormedSpace.exp_zero, ContinuousLinearMap.one_apply] at hb
      rw [sub_sub] at hb
      exact hb.trans (mul_le_mul_of_nonneg_left hnorm hε.le)) n le_rfl v
    rw [dist_zero_right]
    refine lt_of_le_of_lt this ?_
    have e : (n : ℝ) * (d / n * K * ε) * Real.exp (K * (n * (d / n))) * ‖v‖ = ε * C := by
      rw [hnd, hC]
      have : (n : ℝ) * (d / n * K * ε) = (n * (d / n)) * K * ε := by ring
      rw [this, hnd]
      ring
    rw [e, hεd, div_mul_eq_mul_div, div_lt_iff₀ (by positivity)]
    nlinarith
  refine tendsto_pi_nhds.2 fun i => tendsto_pi_nhds.2 fun j => ?_
  have h1 := (tendsto_pi_nhds.1 (hdiff (Pi.single j 1))) i
  have h2 := (tendsto_pi_nhds.1 ((tendsto_pi_nhds.1 hG) i)) j
  have h3 := h2.sub h1
  simp only [Matrix.mulVec_single_one, Pi.sub_apply, Matrix.col_apply, Pi.zero_apply, sub_zero, sub_sub_cancel] at h3
  exact h3

/-- All slabs with the linear propagator. -/
noncomputable def slabsLin (kx : ℂ) (lbda : ℝ) (layers : List (ℝ × Tensor)) : Mat4 :=
  (layers.map fun l => propLinear (buildDelta kx l.2) (-l.1) lbda).prod

lemma propLinear_slabX (lbda : ℝ) (kx : ℂ) (e : Tensor) (h : ℝ) : propLinear (buildDelta kx e) (-h) lbda = 1 + (-h) • slabX lbda kx e := by
  ext i j
  simp [propLinear, slabX, wavenumber]
  ring

lemma slabsLin_sliceLayer (kx : ℂ) (lbda : ℝ) (n : ℕ) (l : ℝ × (ℝ → Tensor)) :
    slabsLin kx lbda (sliceLayer n l) = linProd (fun z => slabX lbda kx (l.2 z)) (l.1 / n) n := by
  unfold slabsLin sliceLayer linProd
  rw [List.map_map]
  congr 1
  refine List.map_congr_left fun k _ => ?_
  simp only [Function.comp_apply]
  rw [propLinear_slabX]

lemma slabsLin_tendsto (lbda : ℝ) (kx : ℂ) : ∀ (L : List ((ℝ × (ℝ → Tensor)) × (ℕ → ℕ))), (∀ p ∈ L, GradedOk p.1 ∧ Tendsto p.2 atTop atTop) →
    ∀ G : Mat4, Tendsto (fun k => slabs kx lbda (slicesAt L k)) atTop (𝓝 G) → Tendsto (fun k => slabsLin kx lbda (slicesAt L k)) atTop (𝓝 G) := by
  intro L hL G hG
  have key : ∀ L : List ((ℝ × (ℝ → Tensor)) × (ℕ → ℕ)), (∀ p ∈ L, GradedOk p.1 ∧ Tendsto p.2 atTop atTop) →
      ∃ G : Mat4, Tendsto (fun k => slabs kx lbda (slicesAt L k)) atTop (𝓝 G) ∧ Tendsto (fun k => slabsLin kx lbda (slicesAt L k)) atTop (𝓝 G) := by
    intro L
    induction L with
    | nil => exact fun _ => ⟨1, by simp [slabs, slicesAt], by simp [slabsLin, slicesAt]⟩
    | cons p L ih =>
      intro h
      obtain ⟨G2, a2, b2⟩ := ih fun q hq => h q (List.mem_cons_of_mem _ hq)
      obtain ⟨hok, hnu⟩ := h p List.mem_cons_self
      obtain ⟨G1, -, -, hlim⟩ := carrier_exists hok.thick (hok.delta lbda kx)
      have hlin := linProd_tendsto hok.thick (hok.delta lbda kx) hlim
      refine ⟨G1 * G2, ?_, ?_⟩
      · have : ∀ k, slabs kx lbda (slicesAt (p :: L) k) =
            sliceProd (fun z => slabX lbda kx (p.1.2 z)) (p.1.1 / (p.2 k : ℕ)) (p.2 k) * slabs kx lbda (slicesAt L k) := by
          intro k
          simp only [slicesAt, List.flatMap_cons, slabs_append, slabs_sliceLayer]
        simp only [this]
        exact (hlim.comp hnu).mul a2
      · have : ∀ k, slabsLin kx lbda (slicesAt (p :: L) k) =
            linProd (fun z => slabX lbda kx (p.1.2 z)) (p.1.1 / (p.2 k : ℕ)) (p.2 k) * slabsLin kx lbda (slicesAt L k) := by
          intro k
          have happ : ∀ A B : List (ℝ × Tensor), slabsLin kx lbda (A ++ B) = slabsLin kx lbda A * slabsLin kx lbda B := by simp [slabsLin]
          simp only [slicesAt, List.flatMap_cons, happ, slabsLin_sliceLayer]
        simp only [this]
        exact (hlin.comp hnu).mul b2
  obtain ⟨G', a, b⟩ := key L hL
  rwa [tendsto_nhds_unique hG a]

end PyElli
