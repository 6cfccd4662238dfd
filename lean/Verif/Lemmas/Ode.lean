import Verif.Lemmas.Maxwell
import Mathlib.Analysis.ODE.ExistUnique
import Mathlib.Analysis.ODE.Gronwall
import Mathlib.Analysis.Matrix.Normed
import Mathlib.Analysis.Calculus.FDeriv.Extend
import Mathlib.Topology.UniformSpace.HeineCantor

/-! # Linear systems `ψ' = X(z) ψ` with continuous coefficients, and their approximation by slices of constant coefficients -/

namespace PyElli

open Matrix Complex Set Filter Topology
open scoped Matrix.Norms.Operator NNReal

/-- `ψ` is continuous on `[a, b]` and solves the system inside. -/
structure Solves (X : ℝ → Mat4) (a b : ℝ) (psi : ℝ → Fin 4 → ℂ) : Prop where
  cont : ContinuousOn psi (Icc a b)
  deriv : ∀ z ∈ Ioo a b, HasDerivAt psi (X z *ᵥ psi z) z

lemma mulVec_continuousOn {X : ℝ → Mat4} {psi : ℝ → Fin 4 → ℂ} {s : Set ℝ} (hX : ContinuousOn X s) (h : ContinuousOn psi s) :
    ContinuousOn (fun z => X z *ᵥ psi z) s := by
  refine continuousOn_pi.2 fun i => ?_
  simp only [Matrix.mulVec, dotProduct]
  refine continuousOn_finset_sum _ fun j _ => ?_
  exact ((continuousOn_pi.1 ((continuousOn_pi.1 hX) i)) j).mul ((continuousOn_pi.1 h) j)

/-- Derivative from the right, also at the left end. -/
lemma Solves.right {X : ℝ → Mat4} {a b : ℝ} {psi : ℝ → Fin 4 → ℂ} (hs : Solves X a b psi) (hX : ContinuousOn X (Icc a b)) :
    ∀ z ∈ Ico a b, HasDerivWithinAt psi (X z *ᵥ psi z) (Ici z) z := by
  intro z hz
  rcases hz.1.eq_or_lt with rfl | h
  · have hab : a < b := hz.2
    refine hasDerivWithinAt_Ici_of_tendsto_deriv (s := Ioo a b) (fun x hx => (hs.deriv x hx).differentiableAt.differentiableWithinAt)
      ((hs.cont a ⟨le_rfl, hab.le⟩).mono Ioo_subset_Icc_self) (Ioo_mem_nhdsGT hab) ?_
    have h1 : Tendsto (fun z => X z *ᵥ psi z) (𝓝[Ioo a b] a) (𝓝 (X a *ᵥ psi a)) :=
      ((mulVec_continuousOn hX hs.cont) a ⟨le_rfl, hab.le⟩).mono_left (nhdsWithin_mono _ Ioo_subset_Icc_self)
    rw [nhdsWithin_Ioo_eq_nhdsGT hab] at h1
    refine h1.congr' ?_
    filter_upwards [Ioo_mem_nhdsGT hab] with x hx
    exact (hs.deriv x hx).deriv.symm
  · exact (hs.deriv z ⟨h, hz.2⟩).hasDerivWithinAt

lemma Solves.mono {X : ℝ → Mat4} {a b c d : ℝ} {psi : ℝ → Fin 4 → ℂ} (hs : Solves X a b psi) (h1 : a ≤ c) (h2 : d ≤ b) : Solves X c d psi :=
  ⟨hs.cont.mono (Icc_subset_Icc h1 h2), fun z hz => hs.deriv z ⟨h1.trans_lt hz.1, hz.2.trans_le h2⟩⟩

/-- Growth of a solution. -/
lemma Solves.bound {X : ℝ → Mat4} {a b : ℝ} {psi : ℝ → Fin 4 → ℂ} (hs : Solves X a b psi) (hX : ContinuousOn X (Icc a b)) {K : ℝ}
    (hK : ∀ z ∈ Icc a b, ‖X z‖ ≤ K) {z : ℝ} (hz : z ∈ Icc a b) : ‖psi z‖ ≤ ‖psi a‖ * Real.exp (K * (z - a)) := by
  have := norm_le_gronwallBound_of_norm_deriv_right_le (ε := 0) hs.cont (hs.right hX) (le_refl ‖psi a‖) (K := K) (fun x hx => by
    rw [add_zero]
    refine (Matrix.linfty_opNorm_mulVec _ _).trans ?_
    exact mul_le_mul_of_nonneg_right (hK x ⟨hx.1, hx.2.le⟩) (norm_nonneg _)) z hz
  rwa [gronwallBound_ε0] at this

lemma exp_solves (X : Mat4) (v : Fin 4 → ℂ) (a b : ℝ) :
    Solves (fun _ => X) a b (fun z : ℝ => (NormedSpace.exp (z • X) : Mat4) *ᵥ v) := by
  have h : ∀ z : ℝ, HasDerivAt (fun z : ℝ => (NormedSpace.exp (z • X) : Mat4) *ᵥ v) (X *ᵥ ((NormedSpace.exp (z • X) : Mat4) *ᵥ v)) z := by
    intro z
    refine hasDerivAt_pi.2 fun i => ?_
    have h : HasDerivAt (fun z : ℝ => ∑ j, (NormedSpace.exp (z • X) : Mat4) i j * v j)
        (∑ j, (X * NormedSpace.exp (z • X) : Mat4) i j * v j) z := by
      refine HasDerivAt.fun_sum fun j _ => ?_
      exact (exp_entry_hasDerivAt X i j z).mul_const (v j)
    rw [Matrix.mulVec_mulVec]
    exact h
  exact ⟨fun z _ => (h z).continuousAt.continuousWithinAt, fun z _ => h z⟩

lemma exp_mulVec_bound (X : Mat4) {K : ℝ} (hK : ‖X‖ ≤ K) {h : ℝ} (hh : 0 ≤ h) (v : Fin 4 → ℂ) :
    ‖(NormedSpace.exp (h • X) : Mat4) *ᵥ v‖ ≤ ‖v‖ * Real.exp (K * h) := by
  have := (exp_solves X v 0 h).bound continuousOn_const (fun _ _ => hK) (z := h) ⟨hh, le_rfl⟩
  simpa using this

lemma exp_neg_mulVec_bound (X : Mat4) {K : ℝ} (hK : ‖X‖ ≤ K) {h : ℝ} (hh : 0 ≤ h) (v : Fin 4 → ℂ) :
    ‖(NormedSpace.exp ((-h) • X) : Mat4) *ᵥ v‖ ≤ ‖v‖ * Real.exp (K * h) := by
  have := exp_mulVec_bound (-X) (K := K) (by rwa [norm_neg]) hh v
  simpa [smul_neg, neg_smul] using this

/-- Error of one slice. -/
lemma slice_error {X : ℝ → Mat4} {a b : ℝ} (hab : a ≤ b) {psi : ℝ → Fin 4 → ℂ} (hs : Solves X a b psi) (hX : ContinuousOn X (Icc a b)) (X0 : Mat4)
    {K δ Ψ : ℝ} (hK : ‖X0‖ ≤ K) (hK0 : 0 ≤ K) (hδ : ∀ z ∈ Icc a b, ‖X z - X0‖ ≤ δ) (hδ0 : 0 ≤ δ) (hΨ : ∀ z ∈ Icc a b, ‖psi z‖ ≤ Ψ) :
    ‖psi a - (NormedSpace.exp ((a - b) • X0) : Mat4) *ᵥ psi b‖ ≤ Real.exp (K * (b - a)) * (δ * Ψ) * (b - a) := by
  let g : ℝ → Fin 4 → ℂ := fun z => (NormedSpace.exp ((z - a) • (-X0)) : Mat4) *ᵥ psi z
  have hE : ∀ z i j, HasDerivAt (fun s : ℝ => (NormedSpace.exp ((s - a) • (-X0)) : Mat4) i j)
      (((-X0) * NormedSpace.exp ((z - a) • (-X0)) : Mat4) i j) z := fun z i j =>
    HasDerivAt.comp_sub_const z a (exp_entry_hasDerivAt (-X0) i j (z - a))
  have hEc : ∀ i j, Continuous fun s : ℝ => (NormedSpace.exp ((s - a) • (-X0)) : Mat4) i j := fun i j =>
    continuous_iff_continuousAt.2 fun z => (hE z i j).continuousAt
  have hgc : ContinuousOn g (Icc a b) :=
    mulVec_continuousOn (X := fun s => NormedSpace.exp ((s - a) • (-X0))) (continuousOn_pi.2 fun i => continuousOn_pi.2 fun j => (hEc i j).continuousOn) hs.cont
  have hg' : ∀ z ∈ Ico a b, HasDerivWithinAt g ((NormedSpace.exp ((z - a) • (-X0)) : Mat4) *ᵥ ((X z - X0) *ᵥ psi z)) (Ici z) z := by
    intro z hz
    refine hasDerivWithinAt_pi.2 fun i => ?_
    have hp := hasDerivWithinAt_pi.1 (hs.right hX z hz)
    have h : HasDerivWithinAt (fun s : ℝ => ∑ j, (NormedSpace.exp ((s - a) • (-X0)) : Mat4) i j * psi s j)
        (∑ j, (((-X0) * NormedSpace.exp ((z - a) • (-X0)) : Mat4) i j * psi z j +
          (NormedSpace.exp ((z - a) • (-X0)) : Mat4) i j * (X z *ᵥ psi z) j)) (Ici z) z :=
      HasDerivWithinAt.fun_sum fun j _ => ((hE z i j).hasDerivWithinAt).mul (hp j)
    rw [Finset.sum_add_distrib] at h
    have hcomm : (-X0) * (NormedSpace.exp ((z - a) • (-X0)) : Mat4) = NormedSpace.exp ((z - a) • (-X0)) * (-X0) := by
      refine exp_commute ?_
      simp
    have e : (NormedSpace.exp ((z - a) • (-X0)) : Mat4) *ᵥ ((X z - X0) *ᵥ psi z) =
        ((-X0) * NormedSpace.exp ((z - a) • (-X0)) : Mat4) *ᵥ psi z + (NormedSpace.exp ((z - a) • (-X0)) : Mat4) *ᵥ (X z *ᵥ psi z) := by
      rw [hcomm, ← Matrix.mulVec_mulVec, ← Matrix.mulVec_add, ← Matrix.add_mulVec, neg_add_eq_sub]
    rw [e]
    exact h
  have hbound : ∀ z ∈ Ico a b, ‖(NormedSpace.exp ((z - a) • (-X0)) : Mat4) *ᵥ ((X z - X0) *ᵥ psi z)‖ ≤ Real.exp (K * (b - a)) * (δ * Ψ) := by
    intro z hz
    have hz' : z ∈ Icc a b := ⟨hz.1, hz.2.le⟩
    refine (exp_mulVec_bound (-X0) (K := K) (by rwa [norm_neg]) (sub_nonneg.2 hz.1) _).trans ?_
    rw [mul_comm]
    have h1 : ‖(X z - X0) *ᵥ psi z‖ ≤ δ * Ψ := (Matrix.linfty_opNorm_mulVec _ _).trans
      (mul_le_mul (hδ z hz') (hΨ z hz') (norm_nonneg _) hδ0)
    have h2 : Real.exp (K * (z - a)) ≤ Real.exp (K * (b - a)) := Real.exp_le_exp.2 (mul_le_mul_of_nonneg_left (by linarith [hz.2]) hK0)
    exact mul_le_mul h2 h1 (norm_nonneg _) (Real.exp_pos _).le
  have key := norm_image_sub_le_of_norm_deriv_right_le_segment hgc hg' hbound b ⟨hab, le_rfl⟩
  have ga : g a = psi a := by simp [g]
  have gb : g b = (NormedSpace.exp ((a - b) • X0) : Mat4) *ᵥ psi b := by
    simp only [g]
    rw [smul_neg, ← neg_smul, neg_sub]
  rw [ga, gb, norm_sub_rev] at key
  exact key

/-- Product of the matrices of the first `m` slices of thickness `h`. -/
noncomputable def sliceProd (X : ℝ → Mat4) (h : ℝ) (m : ℕ) : Mat4 :=
  ((List.range m).map fun k : ℕ => (NormedSpace.exp ((-h) • X (((k : ℝ) + 1 / 2) * h)) : Mat4)).prod

lemma sliceProd_succ (X : ℝ → Mat4) (h : ℝ) (m : ℕ) :
    sliceProd X h (m + 1) = sliceProd X h m * NormedSpace.exp ((-h) • X (((m : ℝ) + 1 / 2) * h)) := by
  simp [sliceProd, List.range_succ]

lemma sliceProd_bound (X : ℝ → Mat4) {h K : ℝ} (hh : 0 ≤ h) {n : ℕ} (hK : ∀ z ∈ Icc 0 (n * h), ‖X z‖ ≤ K) :
    ∀ m ≤ n, ∀ v, ‖sliceProd X h m *ᵥ v‖ ≤ ‖v‖ * Real.exp (K * (m * h)) := by
  intro m
  induction m with
  | zero => intro _ v; simp [sliceProd]
  | succ m ih =>
    intro hm v
    rw [sliceProd_succ, ← Matrix.mulVec_mulVec]
    refine (ih (by omega) _).trans ?_
    have hmn : (m : ℝ) + 1 ≤ n := by exact_mod_cast hm
    have hmem : ((m : ℝ) + 1 / 2) * h ∈ Icc 0 (n * h) := ⟨by positivity, mul_le_mul_of_nonneg_right (by linarith) hh⟩
    have := mul_le_mul_of_nonneg_right (exp_neg_mulVec_bound (X (((m : ℝ) + 1 / 2) * h)) (hK _ hmem) hh v) (Real.exp_pos (K * (m * h))).le
    refine this.trans (le_of_eq ?_)
    rw [mul_assoc, ← Real.exp_add]
    congr 2
    push_cast
    ring

/-- Error of all slices together. -/
lemma slices_error {X : ℝ → Mat4} {h K δ Ψ : ℝ} {n : ℕ} (hh : 0 ≤ h) {psi : ℝ → Fin 4 → ℂ} (hs : Solves X 0 (n * h) psi)
    (hX : ContinuousOn X (Icc 0 (n * h))) (hK : ∀ z ∈ Icc 0 (n * h), ‖X z‖ ≤ K) (hK0 : 0 ≤ K)
    (hδ : ∀ z ∈ Icc 0 (n * h), ∀ y ∈ Icc 0 (n * h), |z - y| ≤ h → ‖X z - X y‖ ≤ δ) (hδ0 : 0 ≤ δ) (hΨ : ∀ z ∈ Icc 0 (n * h), ‖psi z‖ ≤ Ψ) :
    ∀ m ≤ n, ‖psi 0 - sliceProd X h m *ᵥ psi (m * h)‖ ≤ (m * h) * (δ * Ψ) * Real.exp (K * (m * h)) := by
  intro m
  induction m with
  | zero => intro _; simp [sliceProd]
  | succ m ih =>
    intro hm
    have hmn : (m : ℝ) + 1 ≤ n := by exact_mod_cast hm
    have ih' := ih (by omega)
    have hΨ0 : 0 ≤ Ψ := (norm_nonneg _).trans (hΨ 0 ⟨le_rfl, by positivity⟩)
    have h0 : (0 : ℝ) ≤ m * h := by positivity
    have hle : ((m : ℝ) + 1) * h ≤ n * h := mul_le_mul_of_nonneg_right hmn hh
    have hlt : (m : ℝ) * h ≤ (m + 1) * h := mul_le_mul_of_nonneg_right (by linarith) hh
    have hmem : ((m : ℝ) + 1 / 2) * h ∈ Icc 0 (n * h) := ⟨by positivity, mul_le_mul_of_nonneg_right (by linarith) hh⟩
    have hsub : Icc (m * h) ((m + 1) * h) ⊆ Icc 0 (n * h) := Icc_subset_Icc h0 hle
    have hloc := slice_error (a := m * h) (b := (m + 1) * h) hlt (hs.mono h0 hle) (hX.mono hsub) (X (((m : ℝ) + 1 / 2) * h)) (K := K) (δ := δ) (Ψ := Ψ)
      (hK _ hmem) hK0 (fun z hz => hδ z (hsub hz) _ hmem (by
        rw [abs_le]
        constructor <;> nlinarith [hz.1, hz.2])) hδ0 (fun z hz => hΨ z (hsub hz))
    have e1 : (m : ℝ) * h - (m + 1) * h = -h := by ring
    have e2 : ((m : ℝ) + 1) * h - m * h = h := by ring
    rw [e1, e2] at hloc
    have hcast : ((m + 1 : ℕ) : ℝ) = m + 1 := by push_cast; ring
    rw [hcast, sliceProd_succ, ← Matrix.mulVec_mulVec]
    generalize hE : (NormedSpace.exp ((-h) • X (((m : ℝ) + 1 / 2) * h)) : Mat4) *ᵥ psi (((m : ℝ) + 1) * h) = w at *
    have h3 : ‖sliceProd X h m *ᵥ (psi (m * h) - w)‖ ≤ (Real.exp (K * h) * (δ * Ψ) * h) * Real.exp (K * (m * h)) :=
      (sliceProd_bound X hh hK m (by omega) _).trans (mul_le_mul_of_nonneg_right hloc (Real.exp_pos _).le)
    have h4 : psi 0 - sliceProd X h m *ᵥ w = (psi 0 - sliceProd X h m *ᵥ psi (m * h)) + sliceProd X h m *ᵥ (psi (m * h) - w) := by
      rw [Matrix.mulVec_sub]
      abel
    rw [h4]
    refine (norm_add_le _ _).trans ((add_le_add ih' h3).trans ?_)
    have h5 : Real.exp (K * ((m + 1) * h)) = Real.exp (K * h) * Real.exp (K * (m * h)) := by
      rw [← Real.exp_add]; congr 1; ring
    have h6 : (1 : ℝ) ≤ Real.exp (K * h) := Real.one_le_exp (by positivity)
    rw [h5]
    have h7 : 0 ≤ (m * h) * (δ * Ψ) * Real.exp (K * (m * h)) := by positivity
    nlinarith [mul_le_mul_of_nonneg_right h6 h7]

/-! ## Existence -/

/-- Real and imaginary part limited to `[-R, R]`. -/
noncomputable def clip (R : ℝ) (z : ℂ) : ℂ := ⟨max (-R) (min R z.re), max (-R) (min R z.im)⟩

lemma clip_real_lip (R x y : ℝ) : |max (-R) (min R x) - max (-R) (min R y)| ≤ |x - y| := by
  have h1 := abs_max_sub_max_le_max (-R) (min R x) (-R) (min R y)
  have h2 := abs_min_sub_min_le_max R x R y
  rw [sub_self, abs_zero, max_eq_right (a := (0 : ℝ)) (abs_nonneg _)] at h1 h2
  exact h1.trans h2

lemma clip_lip (R : ℝ) (z w : ℂ) : ‖clip R z - clip R w‖ ≤ ‖z - w‖ := by
  rw [← sq_le_sq₀ (norm_nonneg _) (norm_nonneg _), Complex.sq_norm, Complex.sq_norm, Complex.normSq_apply, Complex.normSq_apply]
  have h1 := sq_le_sq' (neg_le_of_abs_le ((clip_real_lip R z.re w.re).trans (le_refl _))) (le_of_abs_le (clip_real_lip R z.re w.re))
  have h2 := sq_le_sq' (neg_le_of_abs_le ((clip_real_lip R z.im w.im).trans (le_refl _))) (le_of_abs_le (clip_real_lip R z.im w.im))
  simp only [sq_abs] at h1 h2
  simp only [clip, Complex.sub_re, Complex.sub_im]
  nlinarith

lemma clip_zero {R : ℝ} (hR : 0 ≤ R) : clip R 0 = 0 := by
  apply Complex.ext <;> simp [clip, hR]

lemma clip_norm_le {R : ℝ} (hR : 0 ≤ R) (z : ℂ) : ‖clip R z‖ ≤ ‖z‖ := by
  simpa [clip_zero hR] using clip_lip R z 0

lemma clip_bound {R : ℝ} (hR : 0 ≤ R) (z : ℂ) : ‖clip R z‖ ≤ 2 * R := by
  refine (Complex.norm_le_abs_re_add_abs_im _).trans ?_
  have h : ∀ x : ℝ, |max (-R) (min R x)| ≤ R := fun x => abs_le.2 ⟨le_max_left _ _, max_le (by linarith) (min_le_left _ _)⟩
  have := h z.re
  have := h z.im
  simp only [clip]
  linarith

lemma clip_id {R : ℝ} {z : ℂ} (h : ‖z‖ ≤ R) : clip R z = z := by
  have h1 := abs_le.1 ((Complex.abs_re_le_norm z).trans h)
  have h2 := abs_le.1 ((Complex.abs_im_le_norm z).trans h)
  apply Complex.ext
  · simp [clip, min_eq_right h1.2, max_eq_right h1.1]
  · simp [clip, min_eq_right h2.2, max_eq_right h2.1]

/-- Every end value belongs to a solution. -/
lemma solves_exists (X : ℝ → Mat4) {a b : ℝ} (hab : a ≤ b) (hX : ContinuousOn X (Icc a b)) (w : Fin 4 → ℂ) :
    ∃ psi, Solves X a b psi ∧ psi b = w := by
  obtain ⟨K, hK⟩ : ∃ K : ℝ, ∀ z ∈ Icc a b, ‖X z‖ ≤ K := isCompact_Icc.exists_bound_of_continuousOn hX
  have hK0 : 0 ≤ K := (norm_nonneg _).trans (hK a ⟨le_rfl, hab⟩)
  set R : ℝ := ‖w‖ * Real.exp (K * (b - a)) with hR
  have hR0 : 0 ≤ R := by positivity
  let f : ℝ → (Fin 4 → ℂ) → Fin 4 → ℂ := fun t y => X t *ᵥ fun i => clip R (y i)
  have hclip : ∀ y y' : Fin 4 → ℂ, ‖(fun i => clip R (y i)) - fun i => clip R (y' i)‖ ≤ ‖y - y'‖ := by
    intro y y'
    rw [pi_norm_le_iff_of_nonneg (norm_nonneg _)]
    intro i
    exact (clip_lip R _ _).trans (norm_le_pi_norm (y - y') i)
  have hcn : ∀ y : Fin 4 → ℂ, ‖fun i => clip R (y i)‖ ≤ ‖y‖ := by
    intro y
    rw [pi_norm_le_iff_of_nonneg (norm_nonneg _)]
    intro i
    exact (clip_norm_le hR0 _).trans (norm_le_pi_norm y i)
  have hcb : ∀ y : Fin 4 → ℂ, ‖fun i => clip R (y i)‖ ≤ 2 * R := by
    intro y
    rw [pi_norm_le_iff_of_nonneg (by positivity)]
    exact fun i => clip_bound hR0 _
  have hpl : IsPicardLindelof f (tmin := a) (tmax := b) ⟨b, hab, le_rfl⟩ w ⟨K * (2 * R) * (b - a), by have := sub_nonneg.2 hab; positivity⟩ 0
      ⟨K * (2 * R), by positivity⟩ ⟨K, hK0⟩ := by
    refine ⟨?_, ?_, ?_, ?_⟩
    · intro t ht
      refine LipschitzOnWith.of_dist_le_mul fun y _ y' _ => ?_
      rw [dist_eq_norm, dist_eq_norm]
      simp only [f]
      rw [← Matrix.mulVec_sub]
      refine (Matrix.linfty_opNorm_mulVec _ _).trans ?_
      exact mul_le_mul (hK t ht) (hclip y y') (norm_nonneg _) hK0
    · intro y _
      exact mulVec_continuousOn hX continuousOn_const
    · intro t ht y _
      refine (Matrix.linfty_opNorm_mulVec _ _).trans ?_
      exact mul_le_mul (hK t ht) (hcb y) (norm_nonneg _) hK0
    · simp only [sub_self, NNReal.coe_mk, NNReal.coe_zero, sub_zero]
      rw [max_eq_right (sub_nonneg.2 hab)]
      exact le_rfl
  obtain ⟨al, h0, hal⟩ := hpl.exists_eq_forall_mem_Icc_hasDerivWithinAt₀
  change al b = w at h0
  have halc : ContinuousOn al (Icc a b) := fun z hz => (hal z hz).continuousWithinAt
  -- bound, from the end backwards
  have hb : ∀ z ∈ Icc a b, ‖al z‖ ≤ R := by
    intro z hz
    let be : ℝ → Fin 4 → ℂ := fun s => al (b - s)
    have hmem : ∀ s ∈ Icc 0 (b - a), b - s ∈ Icc a b := fun s hs => ⟨by linarith [hs.2], by linarith [hs.1]⟩
    have hbe : ∀ s ∈ Icc 0 (b - a), HasDerivWithinAt be (-(f (b - s) (al (b - s)))) (Icc 0 (b - a)) s := by
      intro s hs
      have h1 : HasDerivWithinAt (fun s : ℝ => b - s) (-1) (Icc 0 (b - a)) s := by
        simpa using ((hasDerivAt_id s).const_sub b).hasDerivWithinAt
      have := (hal (b - s) (hmem s hs)).scomp s h1 (fun x hx => hmem x hx)
      rw [neg_one_smul] at this
      exact this
    have := norm_le_gronwallBound_of_norm_deriv_right_le (ε := 0) (K := K) (δ := ‖w‖) (f := be) (a := 0) (b := b - a)
      (fun s hs => (hbe s hs).continuousWithinAt)
      (fun s hs => (hbe s ⟨hs.1, hs.2.le⟩).mono_of_mem_nhdsWithin (Icc_mem_nhdsGE_of_mem hs)) (by simp [be, h0]) (fun s hs => by
        rw [add_zero, norm_neg]
        refine (Matrix.linfty_opNorm_mulVec _ _).trans ?_
        exact mul_le_mul (hK _ (hmem s ⟨hs.1, hs.2.le⟩)) (hcn _) (norm_nonneg _) hK0) (b - z) ⟨by linarith [hz.2], by linarith [hz.1]⟩
    rw [gronwallBound_ε0] at this
    simp only [be, sub_sub_cancel, sub_zero] at this
    refine this.trans ?_
    rw [hR]
    refine mul_le_mul_of_nonneg_left (Real.exp_le_exp.2 ?_) (norm_nonneg _)
    exact mul_le_mul_of_nonneg_left (by linarith [hz.1]) hK0
  refine ⟨al, ⟨halc, ?_⟩, h0⟩
  intro z hz
  have h1 := (hal z ⟨hz.1.le, hz.2.le⟩).hasDerivAt (Icc_mem_nhds hz.1 hz.2)
  have h2 : (fun i => clip R (al z i)) = al z := by
    funext i
    exact clip_id ((norm_le_pi_norm (al z) i).trans (hb z ⟨hz.1.le, hz.2.le⟩))
  simp only [f, h2] at h1
  exact h1

/-- Solutions are determined by their value at the left end. -/
lemma Solves.zero {X : ℝ → Mat4} {a b : ℝ} (hab : a ≤ b) {psi : ℝ → Fin 4 → ℂ} (hs : Solves X a b psi) (hX : ContinuousOn X (Icc a b))
    (h0 : psi a = 0) : psi b = 0 := by
  obtain ⟨K, hK⟩ : ∃ K : ℝ, ∀ z ∈ Icc a b, ‖X z‖ ≤ K := isCompact_Icc.exists_bound_of_continuousOn hX
  have := hs.bound hX hK (z := b) ⟨hab, le_rfl⟩
  rw [h0, norm_zero, zero_mul] at this
  exact norm_le_zero_iff.1 this

/-- The slices converge. -/
lemma slices_tendsto {X : ℝ → Mat4} {d : ℝ} (hd : 0 ≤ d) (hX : ContinuousOn X (Icc 0 d)) {psi : ℝ → Fin 4 → ℂ} (hs : Solves X 0 d psi) :
    Tendsto (fun n : ℕ => sliceProd X (d / n) n *ᵥ psi d) atTop (𝓝 (psi 0)) := by
  obtain ⟨K, hK⟩ : ∃ K : ℝ, ∀ z ∈ Icc 0 d, ‖X z‖ ≤ K := isCompact_Icc.exists_bound_of_continuousOn hX
  obtain ⟨Ψ, hΨ⟩ : ∃ K : ℝ, ∀ z ∈ Icc 0 d, ‖psi z‖ ≤ K := isCompact_Icc.exists_bound_of_continuousOn hs.cont
  have hK0 : 0 ≤ K := (norm_nonneg _).trans (hK 0 ⟨le_rfl, hd⟩)
  have hΨ0 : 0 ≤ Ψ := (norm_nonneg _).trans (hΨ 0 ⟨le_rfl, hd⟩)
  have huc := Metric.uniformContinuousOn_iff.1 (isCompact_Icc.uniformContinuousOn_of_continuous hX)
  rw [Metric.tendsto_atTop]
  intro ε hε
  set C : ℝ := d * Ψ * Real.exp (K * d) + 1 with hC
  have hC0 : 0 < C := by positivity
  obtain ⟨η, hη, hu⟩ := huc (ε / (2 * C)) (by positivity)
  obtain ⟨N, hN⟩ := exists_nat_gt (d / η)
  refine ⟨N + 1, fun n hn => ?_⟩
  have hnN : (N : ℝ) + 1 ≤ n := by exact_mod_cast hn
  have hn0 : (0 : ℝ) < n := by
    have : (0 : ℝ) ≤ N := Nat.cast_nonneg N
    linarith
  have hnd : (n : ℝ) * (d / n) = d := by field_simp
  have hstep : d / n < η := by
    rw [div_lt_iff₀ hn0]
    rw [div_lt_iff₀ hη] at hN
    nlinarith
  have := slices_error (X := X) (h := d / n) (K := K) (δ := ε / (2 * C)) (Ψ := Ψ) (n := n) (by positivity) (psi := psi) (by rwa [hnd]) (by rwa [hnd])
    (by rwa [hnd]) hK0 (by
      rw [hnd]
      intro z hz y hy hzy
      have := hu z hz y hy (by rw [Real.dist_eq]; linarith)
      rw [dist_eq_norm] at this
      exact this.le) (by positivity) (by rwa [hnd]) n le_rfl
  rw [hnd] at this
  rw [dist_eq_norm, norm_sub_rev]
  refine this.trans_lt ?_
  have e : d * (ε / (2 * C) * Ψ) * Real.exp (K * d) = (d * Ψ * Real.exp (K * d)) / C * (ε / 2) := by
    field_simp
  rw [e]
  have h1 : (d * Ψ * Real.exp (K * d)) / C ≤ 1 := by
    rw [div_le_one hC0]
    linarith
  nlinarith

/-- The matrix that carries the solutions from the back to the front of a layer. -/
lemma carrier_exists {X : ℝ → Mat4} {d : ℝ} (hd : 0 ≤ d) (hX : ContinuousOn X (Icc 0 d)) :
    ∃ G : Mat4, IsUnit G ∧ (∀ psi, Solves X 0 d psi → psi 0 = G *ᵥ psi d) ∧
      Tendsto (fun n : ℕ => sliceProd X (d / n) n) atTop (𝓝 G) := by
  choose F hF hFd using fun j : Fin 4 => solves_exists X hd hX (Pi.single j 1)
  let G : Mat4 := fun i j => F j 0 i
  have hlim : Tendsto (fun n : ℕ => sliceProd X (d / n) n) atTop (𝓝 G) := by
    refine tendsto_pi_nhds.2 fun i => tendsto_pi_nhds.2 fun j => ?_
    have := (tendsto_pi_nhds.1 (slices_tendsto hd hX (hF j))) i
    rw [hFd] at this
    simpa using this
  have hcar : ∀ psi, Solves X 0 d psi → psi 0 = G *ᵥ psi d := by
    intro psi hs
    have h1 := slices_tendsto hd hX hs
    have h2 : Tendsto (fun n : ℕ => sliceProd X (d / n) n *ᵥ psi d) atTop (𝓝 (G *ᵥ psi d)) := by
      have hc : Continuous fun M : Mat4 => M *ᵥ psi d := continuous_id.matrix_mulVec continuous_const
      exact (hc.tendsto G).comp hlim
    exact tendsto_nhds_unique h1 h2
  refine ⟨G, ?_, hcar, hlim⟩
  rw [Matrix.isUnit_iff_isUnit_det, isUnit_iff_ne_zero]
  intro hdet
  obtain ⟨x, hx, hx0⟩ := Matrix.exists_mulVec_eq_zero_iff.2 hdet
  obtain ⟨psi, hs, hpd⟩ := solves_exists X hd hX x
  apply hx
  rw [← hpd]
  refine hs.zero hd hX ?_
  rw [hcar psi hs, hpd, hx0]

end PyElli
