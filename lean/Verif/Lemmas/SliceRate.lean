import Verif.Lemmas.Graded
import Mathlib.Analysis.Calculus.MeanValue
import Mathlib.Analysis.Calculus.ContDiff.Operations
import Mathlib.Analysis.Calculus.ContDiff.RCLike

/-! # Rate of convergence of the slices -/

namespace PyElli

open Matrix Complex Spec Set Filter Topology Asymptotics
open scoped Matrix.Norms.Operator

lemma exp_shift_deriv (X0 : Mat4) (a : ℝ) (z : ℝ) (i j : Fin 4) :
    HasDerivAt (fun s : ℝ => (NormedSpace.exp ((s - a) • (-X0)) : Mat4) i j) (((-X0) * NormedSpace.exp ((z - a) • (-X0)) : Mat4) i j) z :=
  HasDerivAt.comp_sub_const z a (exp_entry_hasDerivAt (-X0) i j (z - a))

/-- A solution seen through the propagator of constant coefficients and a constant matrix. -/
lemma shifted_deriv {X : ℝ → Mat4} {a b : ℝ} {psi : ℝ → Fin 4 → ℂ} (hs : Solves X a b psi) (hX : ContinuousOn X (Icc a b)) (X0 Y : Mat4) :
    ContinuousOn (fun z => (NormedSpace.exp ((z - a) • (-X0)) : Mat4) *ᵥ (Y *ᵥ psi z)) (Icc a b) ∧
    ∀ z ∈ Ico a b, HasDerivWithinAt (fun z => (NormedSpace.exp ((z - a) • (-X0)) : Mat4) *ᵥ (Y *ᵥ psi z))
      ((NormedSpace.exp ((z - a) • (-X0)) : Mat4) *ᵥ ((Y * X z - X0 * Y) *ᵥ psi z)) (Ici z) z := by
  have hE := exp_shift_deriv X0 a
  have hEc : ∀ i j, Continuous fun s : ℝ => (NormedSpace.exp ((s - a) • (-X0)) : Mat4) i j := fun i j =>
    continuous_iff_continuousAt.2 fun z => (hE z i j).continuousAt
  refine ⟨?_, ?_⟩
  · exact mulVec_continuousOn (X := fun s => NormedSpace.exp ((s - a) • (-X0))) (continuousOn_pi.2 fun i => continuousOn_pi.2 fun j => (hEc i j).continuousOn)
      (mulVec_continuousOn (X := fun _ => Y) continuousOn_const hs.cont)
  · intro z hz
    refine hasDerivWithinAt_pi.2 fun i => ?_
    have hp : ∀ j, HasDerivWithinAt (fun s => (Y *ᵥ psi s) j) ((Y *ᵥ (X z *ᵥ psi z)) j) (Ici z) z := by
      intro j
      have h := hasDerivWithinAt_pi.1 (hs.right hX z hz)
      have : HasDerivWithinAt (fun s => ∑ l, Y j l * psi s l) (∑ l, Y j l * (X z *ᵥ psi z) l) (Ici z) z :=
        HasDerivWithinAt.fun_sum fun l _ => (h l).const_mul (Y j l)
      exact this
    have h : HasDerivWithinAt (fun s : ℝ => ∑ j, (NormedSpace.exp ((s - a) • (-X0)) : Mat4) i j * (Y *ᵥ psi s) j)
        (∑ j, (((-X0) * NormedSpace.exp ((z - a) • (-X0)) : Mat4) i j * (Y *ᵥ psi z) j +
          (NormedSpace.exp ((z - a) • (-X0)) : Mat4) i j * (Y *ᵥ (X z *ᵥ psi z)) j)) (Ici z) z :=
      HasDerivWithinAt.fun_sum fun j _ => ((hE z i j).hasDerivWithinAt).mul (hp j)
    rw [Finset.sum_add_distrib] at h
    have hcomm : (-X0) * (NormedSpace.exp ((z - a) • (-X0)) : Mat4) = NormedSpace.exp ((z - a) • (-X0)) * (-X0) := by
      refine exp_commute ?_
      simp
    have e : (NormedSpace.exp ((z - a) • (-X0)) : Mat4) *ᵥ ((Y * X z - X0 * Y) *ᵥ psi z) =
        ((-X0) * NormedSpace.exp ((z - a) • (-X0)) : Mat4) *ᵥ (Y *ᵥ psi z) + (NormedSpace.exp ((z - a) • (-X0)) : Mat4) *ᵥ (Y *ᵥ (X z *ᵥ psi z)) := by
      rw [hcomm, ← Matrix.mulVec_mulVec, ← Matrix.mulVec_add, Matrix.mulVec_mulVec (psi z) Y, Matrix.mulVec_mulVec (psi z) (-X0), ← Matrix.add_mulVec]
      congr 2
      rw [neg_mul]
      abel
    rw [e]
    exact h

lemma shifted_bound {X0 : Mat4} {a b z K C : ℝ} (hK : ‖X0‖ ≤ K) (hK0 : 0 ≤ K) (hz : z ∈ Icc a b) {v : Fin 4 → ℂ} (hv : ‖v‖ ≤ C) :
    ‖(NormedSpace.exp ((z - a) • (-X0)) : Mat4) *ᵥ v‖ ≤ Real.exp (K * (b - a)) * C := by
  refine (exp_mulVec_bound (-X0) (K := K) (by rwa [norm_neg]) (sub_nonneg.2 hz.1) _).trans ?_
  rw [mul_comm]
  have h2 : Real.exp (K * (z - a)) ≤ Real.exp (K * (b - a)) := Real.exp_le_exp.2 (mul_le_mul_of_nonneg_left (by linarith [hz.2]) hK0)
  exact mul_le_mul h2 hv (norm_nonneg _) (Real.exp_pos _).le

/-- Change of the shifted solution. -/
lemma shifted_lip {X : ℝ → Mat4} {a b : ℝ} {psi : ℝ → Fin 4 → ℂ} (hs : Solves X a b psi) (hX : ContinuousOn X (Icc a b)) (X0 Y : Mat4)
    {K Ψ B : ℝ} (hK : ∀ z ∈ Icc a b, ‖X z‖ ≤ K) (hX0 : ‖X0‖ ≤ K) (hΨ : ∀ z ∈ Icc a b, ‖psi z‖ ≤ Ψ) (hY : ‖Y‖ ≤ B) {x y : ℝ}
    (hx : x ∈ Icc a b) (hy : y ∈ Icc a b) :
    ‖(NormedSpace.exp ((y - a) • (-X0)) : Mat4) *ᵥ (Y *ᵥ psi y) - (NormedSpace.exp ((x - a) • (-X0)) : Mat4) *ᵥ (Y *ᵥ psi x)‖ ≤
      Real.exp (K * (b - a)) * (2 * K * B * Ψ) * |y - x| := by
  have hK0 : 0 ≤ K := (norm_nonneg _).trans hX0
  have hB0 : 0 ≤ B := (norm_nonneg _).trans hY
  have main : ∀ x y, x ∈ Icc a b → y ∈ Icc a b → x ≤ y →
      ‖(NormedSpace.exp ((y - a) • (-X0)) : Mat4) *ᵥ (Y *ᵥ psi y) - (NormedSpace.exp ((x - a) • (-X0)) : Mat4) *ᵥ (Y *ᵥ psi x)‖ ≤
      Real.exp (K * (b - a)) * (2 * K * B * Ψ) * (y - x) := by
    intro x y hx hy hxy
    obtain ⟨h1, h2⟩ := shifted_deriv hs hX X0 Y
    have := norm_image_sub_le_of_norm_deriv_right_le_segment (C := Real.exp (K * (b - a)) * (2 * K * B * Ψ)) (h1.mono (Icc_subset_Icc hx.1 hy.2))
      (fun z hz => h2 z ⟨hx.1.trans hz.1, lt_of_lt_of_le hz.2 hy.2⟩) (fun z hz => by
        have hz' : z ∈ Icc a b := ⟨hx.1.trans hz.1, hz.2.le.trans hy.2⟩
        refine shifted_bound hX0 hK0 hz' ?_
        refine (Matrix.linfty_opNorm_mulVec _ _).trans ?_
        have hn : ‖Y * X z - X0 * Y‖ ≤ 2 * K * B := by
          refine (norm_sub_le _ _).trans ?_
          have h3 := (norm_mul_le Y (X z)).trans (mul_le_mul hY (hK z hz') (norm_nonneg _) hB0)
          have h4 := (norm_mul_le X0 Y).trans (mul_le_mul hX0 hY (norm_nonneg _) hK0)
          linarith
        exact mul_le_mul hn (hΨ z hz') (norm_nonneg _) (by positivity)) y ⟨hxy, le_rfl⟩
    exact this
  rcases le_total x y with h | h
  · rw [abs_of_nonneg (sub_nonneg.2 h)]
    exact main x y hx hy h
  · rw [norm_sub_rev, abs_sub_comm, abs_of_nonneg (sub_nonneg.2 h)]
    exact main y x hy hx h

/-- Error of one slice taken at its middle. -/
lemma middle_error {X : ℝ → Mat4} {a b m : ℝ} (hab : a ≤ b) (hm : m = (a + b) / 2) {psi : ℝ → Fin 4 → ℂ} (hs : Solves X a b psi)
    (hX : ContinuousOn X (Icc a b)) (X1 : Mat4) {K Ψ B C : ℝ} (hK : ∀ z ∈ Icc a b, ‖X z‖ ≤ K) (hΨ : ∀ z ∈ Icc a b, ‖psi z‖ ≤ Ψ)
    (hX1 : ‖X1‖ ≤ B) (hC : 0 ≤ C) (hT : ∀ z ∈ Icc a b, ‖X z - X m - (z - m) • X1‖ ≤ C * (z - m) ^ 2) :
    ‖psi a - (NormedSpace.exp ((a - b) • X m) : Mat4) *ᵥ psi b‖ ≤ Real.exp (K * (b - a)) * ((C + 2 * K * B) * Ψ) * (b - a) ^ 3 := by
  have hmem : m ∈ Icc a b := ⟨by linarith, by linarith⟩
  have hK0 : 0 ≤ K := (norm_nonneg _).trans (hK m hmem)
  have hB0 : 0 ≤ B := (norm_nonneg _).trans hX1
  have hΨ0 : 0 ≤ Ψ := (norm_nonneg _).trans (hΨ m hmem)
  let w : Fin 4 → ℂ := (NormedSpace.exp ((m - a) • (-X m)) : Mat4) *ᵥ (X1 *ᵥ psi m)
  let g : ℝ → Fin 4 → ℂ := fun z => (NormedSpace.exp ((z - a) • (-X m)) : Mat4) *ᵥ ((1 : Mat4) *ᵥ psi z) - ((z - m) ^ 2 / 2) • w
  obtain ⟨h1, h2⟩ := shifted_deriv hs hX (X m) 1
  have hq : ∀ z : ℝ, HasDerivAt (fun z : ℝ => ((z - m) ^ 2 / 2) • w) ((z - m) • w) z := by
    intro z
    have h : HasDerivAt (fun z : ℝ => (z - m) ^ 2 / 2) (z - m) z := by
      refine ((((hasDerivAt_id z).sub_const m).pow 2).div_const 2).congr_deriv ?_
      simp
    exact h.smul_const w
  have hgc : ContinuousOn g (Icc a b) := h1.sub (continuousOn_of_forall_continuousAt fun z _ => (hq z).continuousAt)
  have hg' : ∀ z ∈ Ico a b, HasDerivWithinAt g
      ((NormedSpace.exp ((z - a) • (-X m)) : Mat4) *ᵥ ((1 * X z - X m * 1) *ᵥ psi z) - (z - m) • w) (Ici z) z := fun z hz =>
    (h2 z hz).sub (hq z).hasDerivWithinAt
  have hbound : ∀ z ∈ Ico a b, ‖(NormedSpace.exp ((z - a) • (-X m)) : Mat4) *ᵥ ((1 * X z - X m * 1) *ᵥ psi z) - (z - m) • w‖ ≤
      Real.exp (K * (b - a)) * ((C + 2 * K * B) * Ψ) * (b - a) ^ 2 := by
    intro z hz
    have hz' : z ∈ Icc a b := ⟨hz.1, hz.2.le⟩
    have hzm : |z - m| ≤ b - a := by rw [abs_le]; constructor <;> linarith [hz'.1, hz'.2]
    have hsplit : (NormedSpace.exp ((z - a) • (-X m)) : Mat4) *ᵥ ((1 * X z - X m * 1) *ᵥ psi z) - (z - m) • w =
        (NormedSpace.exp ((z - a) • (-X m)) : Mat4) *ᵥ ((X z - X m - (z - m) • X1) *ᵥ psi z) +
          (z - m) • ((NormedSpace.exp ((z - a) • (-X m)) : Mat4) *ᵥ (X1 *ᵥ psi z) - w) := by
      rw [one_mul, mul_one, smul_sub, Matrix.sub_mulVec (X z - X m), Matrix.mulVec_sub, Matrix.smul_mulVec, Matrix.mulVec_smul]
      abel
    rw [hsplit]
    have t1 := shifted_bound (X0 := X m) (hK m hmem) hK0 hz' (v := (X z - X m - (z - m) • X1) *ᵥ psi z) (C := C * (z - m) ^ 2 * Ψ)
      ((Matrix.linfty_opNorm_mulVec _ _).trans (mul_le_mul (hT z hz') (hΨ z hz') (norm_nonneg _) (by positivity)))
    have t2 := shifted_lip hs hX (X m) X1 hK (hK m hmem) hΨ hX1 hmem hz'
    refine (norm_add_le _ _).trans ?_
    rw [norm_smul, Real.norm_eq_abs]
    have t3 := mul_le_mul_of_nonneg_left t2 (abs_nonneg (z - m))
    have e1 : (z - m) ^ 2 ≤ (b - a) ^ 2 := by rw [← sq_abs]; exact pow_le_pow_left₀ (abs_nonneg _) hzm 2
    have e2 : |z - m| * (Real.exp (K * (b - a)) * (2 * K * B * Ψ) * |z - m|) = Real.exp (K * (b - a)) * (2 * K * B * Ψ) * (z - m) ^ 2 := by
      rw [← sq_abs]; ring
    rw [e2] at t3
    have e3 : 0 ≤ Real.exp (K * (b - a)) * ((C + 2 * K * B) * Ψ) := by positivity
    have e4 := mul_le_mul_of_nonneg_left e1 e3
    calc _ ≤ Real.exp (K * (b - a)) * (C * (z - m) ^ 2 * Ψ) + Real.exp (K * (b - a)) * (2 * K * B * Ψ) * (z - m) ^ 2 := add_le_add t1 t3
      _ = Real.exp (K * (b - a)) * ((C + 2 * K * B) * Ψ) * (z - m) ^ 2 := by ring
      _ ≤ _ := e4
  have key := norm_image_sub_le_of_norm_deriv_right_le_segment hgc hg' hbound b ⟨hab, le_rfl⟩
  have hgab : g b - g a = (NormedSpace.exp ((a - b) • X m) : Mat4) *ᵥ psi b - psi a := by
    simp only [g]
    rw [show (b - m) ^ 2 / 2 = (a - m) ^ 2 / 2 by rw [hm]; ring, sub_sub_sub_cancel_right, Matrix.one_mulVec, Matrix.one_mulVec, smul_neg, ← neg_smul, neg_sub]
    simp
  rw [hgab, norm_sub_rev] at key
  refine key.trans (le_of_eq ?_)
  ring

/-- Local errors add up. -/
lemma sum_errors {X : ℝ → Mat4} {h K η : ℝ} {n : ℕ} (hh : 0 ≤ h) {psi : ℝ → Fin 4 → ℂ} (hK : ∀ z ∈ Icc 0 (n * h), ‖X z‖ ≤ K) (hK0 : 0 ≤ K) (hη : 0 ≤ η)
    (hloc : ∀ m < n, ‖psi (m * h) - (NormedSpace.exp ((-h) • X (((m : ℝ) + 1 / 2) * h)) : Mat4) *ᵥ psi ((m + 1) * h)‖ ≤ η) :
    ∀ m ≤ n, ‖psi 0 - sliceProd X h m *ᵥ psi (m * h)‖ ≤ m * η * Real.exp (K * (m * h)) := by
  intro m
  induction m with
  | zero => intro _; simp [sliceProd]
  | succ m ih =>
    intro hm
    have ih' := ih (by omega)
    have hl := hloc m (by omega)
    have hcast : ((m + 1 : ℕ) : ℝ) = m + 1 := by push_cast; ring
    rw [hcast, sliceProd_succ, ← Matrix.mulVec_mulVec]
    generalize (NormedSpace.exp ((-h) • X (((m : ℝ) + 1 / 2) * h)) : Mat4) *ᵥ psi (((m : ℝ) + 1) * h) = w at *
    have h3 : ‖sliceProd X h m *ᵥ (psi (m * h) - w)‖ ≤ η * Real.exp (K * (m * h)) :=
      (sliceProd_bound X hh hK m (by omega) _).trans (mul_le_mul_of_nonneg_right hl (Real.exp_pos _).le)
    have h4 : psi 0 - sliceProd X h m *ᵥ w = (psi 0 - sliceProd X h m *ᵥ psi (m * h)) + sliceProd X h m *ᵥ (psi (m * h) - w) := by
      rw [Matrix.mulVec_sub]
      abel
    rw [h4]
    refine (norm_add_le _ _).trans ((add_le_add ih' h3).trans ?_)
    have h5 : Real.exp (K * (m * h)) ≤ Real.exp (K * ((m + 1) * h)) :=
      Real.exp_le_exp.2 (mul_le_mul_of_nonneg_left (mul_le_mul_of_nonneg_right (by linarith) hh) hK0)
    have h6 : 0 ≤ (m + 1) * η := by positivity
    nlinarith [mul_le_mul_of_nonneg_left h5 h6]

/-- Coefficients with a Taylor formula of second order, uniformly. -/
def Taylor (X : ℝ → Mat4) (d : ℝ) : Prop :=
  ∃ (X1 : ℝ → Mat4) (B C : ℝ), 0 ≤ C ∧ (∀ m ∈ Icc 0 d, ‖X1 m‖ ≤ B) ∧
    ∀ m ∈ Icc 0 d, ∀ z ∈ Icc 0 d, ‖X z - X m - (z - m) • X1 m‖ ≤ C * (z - m) ^ 2

/-- Slices converge with the second order of their thickness. -/
lemma slices_rate {X : ℝ → Mat4} {d : ℝ} (hd : 0 ≤ d) (hX : ContinuousOn X (Icc 0 d)) (hT : Taylor X d) {psi : ℝ → Fin 4 → ℂ} (hs : Solves X 0 d psi) :
    ∃ D, ∀ n : ℕ, 1 ≤ n → ‖psi 0 - sliceProd X (d / n) n *ᵥ psi d‖ ≤ D * (1 / (n : ℝ)) ^ 2 := by
  obtain ⟨K, hK⟩ : ∃ K : ℝ, ∀ z ∈ Icc 0 d, ‖X z‖ ≤ K := isCompact_Icc.exists_bound_of_continuousOn hX
  obtain ⟨Ψ, hΨ⟩ : ∃ K : ℝ, ∀ z ∈ Icc 0 d, ‖psi z‖ ≤ K := isCompact_Icc.exists_bound_of_continuousOn hs.cont
  have h0m : (0 : ℝ) ∈ Icc 0 d := ⟨le_rfl, hd⟩
  have hK0 : 0 ≤ K := (norm_nonneg _).trans (hK 0 h0m)
  have hΨ0 : 0 ≤ Ψ := (norm_nonneg _).trans (hΨ 0 h0m)
  obtain ⟨X1, B, C, hC, hB, hTay⟩ := hT
  have hB0 : 0 ≤ B := (norm_nonneg _).trans (hB 0 h0m)
  refine ⟨Real.exp (K * d) * ((C + 2 * K * B) * Ψ) * d ^ 3 * Real.exp (K * d), fun n hn => ?_⟩
  have hn0 : (0 : ℝ) < n := by exact_mod_cast hn
  have hn1 : (1 : ℝ) ≤ n := by exact_mod_cast hn
  set h := d / n with hh'
  have hnd : (n : ℝ) * h = d := by rw [hh']; field_simp
  have hh : 0 ≤ h := by positivity
  have hle : h ≤ d := by nlinarith
  have := sum_errors (X := X) (h := h) (K := K) (η := Real.exp (K * d) * ((C + 2 * K * B) * Ψ) * h ^ 3) (n := n) hh (psi := psi) (by rwa [hnd]) hK0
    (by positivity) (by
      intro m hm
      have hmn : (m : ℝ) + 1 ≤ n := by exact_mod_cast hm
      have h0 : (0 : ℝ) ≤ m * h := by positivity
      have hle' : ((m : ℝ) + 1) * h ≤ d := by rw [← hnd]; exact mul_le_mul_of_nonneg_right hmn hh
      have hsub : Icc (m * h) ((m + 1) * h) ⊆ Icc 0 d := Icc_subset_Icc h0 hle'
      have hlt : (m : ℝ) * h ≤ (m + 1) * h := mul_le_mul_of_nonneg_right (by linarith) hh
      have hmm : ((m : ℝ) + 1 / 2) * h ∈ Icc 0 d := hsub ⟨by nlinarith, by nlinarith⟩
      have hloc := middle_error (a := m * h) (b := (m + 1) * h) (m := ((m : ℝ) + 1 / 2) * h) hlt (by ring) (hs.mono h0 hle') (hX.mono hsub)
        (X1 (((m : ℝ) + 1 / 2) * h)) (fun z hz => hK z (hsub hz)) (fun z hz => hΨ z (hsub hz)) (hB _ hmm) hC (fun z hz => hTay _ hmm z (hsub hz))
      have e1 : (m : ℝ) * h - (m + 1) * h = -h := by ring
      have e2 : ((m : ℝ) + 1) * h - m * h = h := by ring
      rw [e1, e2] at hloc
      refine hloc.trans ?_
      have : Real.exp (K * h) ≤ Real.exp (K * d) := Real.exp_le_exp.2 (mul_le_mul_of_nonneg_left hle hK0)
      have h7 : 0 ≤ (C + 2 * K * B) * Ψ * h ^ 3 := by positivity
      nlinarith [mul_le_mul_of_nonneg_right this h7]) n le_rfl
  rw [hnd] at this
  refine this.trans (le_of_eq ?_)
  rw [hh']
  field_simp

/-- The matrix of the sliced layer and the matrix of the layer. -/
lemma carrier_rate {X : ℝ → Mat4} {d : ℝ} (hd : 0 ≤ d) (hX : ContinuousOn X (Icc 0 d)) (hT : Taylor X d) {G : Mat4}
    (hG : ∀ psi, Solves X 0 d psi → psi 0 = G *ᵥ psi d) (i j : Fin 4) :
    ∃ D, ∀ n : ℕ, 1 ≤ n → ‖sliceProd X (d / n) n i j - G i j‖ ≤ D * (1 / (n : ℝ)) ^ 2 := by
  obtain ⟨psi, hs, hd'⟩ := solves_exists X hd hX (Pi.single j 1)
  obtain ⟨D, hD⟩ := slices_rate hd hX hT hs
  refine ⟨D, fun n hn => ?_⟩
  have h := hD n hn
  rw [hG psi hs, hd', norm_sub_rev] at h
  have h2 := (norm_le_pi_norm (sliceProd X (d / n) n *ᵥ (Pi.single j 1 : Fin 4 → ℂ) - G *ᵥ (Pi.single j 1 : Fin 4 → ℂ)) i).trans h
  simpa using h2

/-! ## Taylor's formula for smooth coefficients -/

lemma taylor_entry {f : ℝ → ℂ} {d : ℝ} (hf : ∀ z ∈ Icc 0 d, ContDiffAt ℝ 2 f z) :
    ∃ (f1 : ℝ → ℂ) (B C : ℝ), 0 ≤ C ∧ (∀ m ∈ Icc 0 d, ‖f1 m‖ ≤ B) ∧ ∀ m ∈ Icc 0 d, ∀ z ∈ Icc 0 d, ‖f z - f m - (z - m) • f1 m‖ ≤ C * (z - m) ^ 2 := by
  have h1 : ∀ z ∈ Icc 0 d, ContDiffAt ℝ 1 (deriv f) z := fun z hz => by
    have := (hf z hz).fderiv_right (m := 1) (by norm_num)
    have h2 : deriv f = fun x => fderiv ℝ f x 1 := by funext x; simp
    rw [h2]
    exact this.clm_apply contDiffAt_const
  have h2 : ContinuousOn (deriv (deriv f)) (Icc 0 d) := by
    intro z hz
    have := (h1 z hz).fderiv_right (m := 0) (by norm_num)
    have h2 : deriv (deriv f) = fun x => fderiv ℝ (deriv f) x 1 := by funext x; simp
    rw [h2]
    exact (this.clm_apply contDiffAt_const).continuousAt.continuousWithinAt
  obtain ⟨C, hC⟩ : ∃ K : ℝ, ∀ z ∈ Icc 0 d, ‖deriv (deriv f) z‖ ≤ K := isCompact_Icc.exists_bound_of_continuousOn h2
  obtain ⟨B, hB⟩ : ∃ K : ℝ, ∀ z ∈ Icc 0 d, ‖deriv f z‖ ≤ K :=
    isCompact_Icc.exists_bound_of_continuousOn fun z hz => (h1 z hz).continuousAt.continuousWithinAt
  refine ⟨deriv f, B, max C 0, le_max_right _ _, hB, fun m hm z hz => ?_⟩
  have hlip : ∀ x ∈ Icc 0 d, ‖deriv f x - deriv f m‖ ≤ max C 0 * ‖x - m‖ := fun x hx =>
    (convex_Icc 0 d).norm_image_sub_le_of_norm_deriv_le (fun y hy => (h1 y hy).differentiableAt (by norm_num)) (fun y hy => (hC y hy).trans (le_max_left _ _)) hm hx
  have hseg : uIcc m z ⊆ Icc 0 d := by
    rw [uIcc_eq_union]
    exact union_subset (Icc_subset_Icc hm.1 hz.2) (Icc_subset_Icc hz.1 hm.2)
  have := (convex_uIcc m z).norm_image_sub_le_of_norm_hasDerivWithin_le (f := fun x => f x - (x - m) • deriv f m) (f' := fun x => deriv f x - deriv f m)
    (C := max C 0 * |z - m|) (fun x hx => by
      have ha := ((hf x (hseg hx)).differentiableAt (by norm_num)).hasDerivAt
      have hb := ((hasDerivAt_id x).sub_const m).smul_const (deriv f m)
      have hc := (ha.sub hb).hasDerivWithinAt (s := uIcc m z)
      simp only [one_smul] at hc
      exact hc) (fun x hx => (hlip x (hseg hx)).trans (mul_le_mul_of_nonneg_left (by
        rw [Real.norm_eq_abs]
        exact abs_sub_left_of_mem_uIcc hx) (le_max_right _ _))) left_mem_uIcc right_mem_uIcc
  simp only [sub_self, zero_smul, sub_zero, Real.norm_eq_abs] at this
  rw [show f z - f m - (z - m) • deriv f m = f z - (z - m) • deriv f m - f m by abel]
  refine this.trans (le_of_eq ?_)
  rw [mul_assoc, ← sq, sq_abs]

lemma opNorm_le_entries {M : Mat4} {C : ℝ} (h : ∀ i j, ‖M i j‖ ≤ C) : ‖M‖ ≤ 4 * C := by
  have hC : 0 ≤ C := (norm_nonneg _).trans (h 0 0)
  rw [Matrix.linfty_opNorm_def]
  have : ∀ i, ∑ j, ‖M i j‖₊ ≤ 4 * C.toNNReal := by
    intro i
    refine (Finset.sum_le_sum (g := fun _ => C.toNNReal) fun j _ => ?_).trans (by simp)
    rw [← NNReal.coe_le_coe, Real.coe_toNNReal _ hC]
    exact h i j
  have h2 : Finset.univ.sup (fun i => ∑ j, ‖M i j‖₊) ≤ 4 * C.toNNReal := Finset.sup_le fun i _ => this i
  have h3 : ((4 * C.toNNReal : NNReal) : ℝ) = 4 * C := by simp [Real.coe_toNNReal _ hC]
  rw [← h3]
  exact_mod_cast h2

lemma taylor_of_smooth {X : ℝ → Mat4} {d : ℝ} (hX : ∀ z ∈ Icc 0 d, ∀ i j, ContDiffAt ℝ 2 (fun s => X s i j) z) : Taylor X d := by
  choose f1 B C hC hB hT using fun i j => taylor_entry (f := fun s => X s i j) (d := d) fun z hz => hX z hz i j
  have hBs : ∀ i j, B i j ≤ ∑ a, ∑ b, |B a b| := fun i j =>
    (le_abs_self _).trans ((Finset.single_le_sum (f := fun b => |B i b|) (fun _ _ => abs_nonneg _) (Finset.mem_univ j)).trans
      (Finset.single_le_sum (f := fun a => ∑ b, |B a b|) (fun _ _ => Finset.sum_nonneg fun _ _ => abs_nonneg _) (Finset.mem_univ i)))
  have hCs : ∀ i j, C i j ≤ ∑ a, ∑ b, C a b := fun i j =>
    ((Finset.single_le_sum (f := fun b => C i b) (fun _ _ => hC _ _) (Finset.mem_univ j)).trans
      (Finset.single_le_sum (f := fun a => ∑ b, C a b) (fun _ _ => Finset.sum_nonneg fun _ _ => hC _ _) (Finset.mem_univ i)))
  refine ⟨fun m => fun i j => f1 i j m, 4 * ∑ a, ∑ b, |B a b|, 4 * ∑ a, ∑ b, C a b, ?_, fun m hm => ?_, fun m hm z hz => ?_⟩
  · exact mul_nonneg (by norm_num) (Finset.sum_nonneg fun _ _ => Finset.sum_nonneg fun _ _ => hC _ _)
  · exact opNorm_le_entries fun i j => (hB i j m hm).trans (hBs i j)
  · rw [mul_assoc]
    refine opNorm_le_entries fun i j => ?_
    have := hT i j m hm z hz
    refine this.trans (mul_le_mul_of_nonneg_right (hCs i j) (sq_nonneg _))

end PyElli
