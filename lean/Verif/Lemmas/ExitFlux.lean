import Verif.Lemmas.Energy
import Verif.Lemmas.MatExp
import Verif.Props.ExitBasis
import Mathlib.LinearAlgebra.FiniteDimensional.Lemmas
import Mathlib.Topology.Order.Basic

/-! Energy flow of the waves of a half space: counting eigenvectors with the help of the Poynting flux. -/

namespace PyElli

open Matrix Complex Spec Filter Topology

/-! ## A linear system of three equations in four unknowns -/

lemma exists_combo (A : Matrix (Fin 3) (Fin 4) ℂ) : ∃ c : Fin 4 → ℂ, c ≠ 0 ∧ A *ᵥ c = 0 := by
  have h : LinearMap.ker A.mulVecLin ≠ ⊥ := LinearMap.ker_ne_bot_of_finrank_lt (by simp)
  obtain ⟨c, hc, h0⟩ := (Submodule.ne_bot_iff _).1 h
  exact ⟨c, h0, hc⟩

/-- Three of the four columns of `w`, combined so that two linear functionals vanish. -/
lemma exists_combo_cols (w : Mat4) (i0 : Fin 4) (f g : Fin 4 → ℂ) :
    ∃ c : Fin 4 → ℂ, c ≠ 0 ∧ c i0 = 0 ∧ f ⬝ᵥ (w *ᵥ c) = 0 ∧ g ⬝ᵥ (w *ᵥ c) = 0 := by
  obtain ⟨c, hc, h⟩ := exists_combo (Matrix.of ![Pi.single i0 1, f ᵥ* w, g ᵥ* w])
  refine ⟨c, hc, ?_, ?_, ?_⟩
  · have := congrFun h 0
    simpa [Matrix.mulVec, single_dotProduct] using this
  · have := congrFun h 1
    rw [Matrix.dotProduct_mulVec]
    simpa [Matrix.mulVec] using this
  · have := congrFun h 2
    rw [Matrix.dotProduct_mulVec]
    simpa [Matrix.mulVec] using this

lemma mulVec_ne_zero {w : Mat4} (hw : IsUnit w) {c : Fin 4 → ℂ} (hc : c ≠ 0) : w *ᵥ c ≠ 0 := by
  intro h
  apply hc
  have hi : w⁻¹ * w = 1 := Matrix.nonsing_inv_mul _ ((Matrix.isUnit_iff_isUnit_det _).1 hw)
  have := congrArg (fun v => w⁻¹ *ᵥ v) h
  simpa [Matrix.mulVec_mulVec, hi] using this

lemma flux_norm_of (v : Fin 4 → ℂ) {a : ℝ} (h3 : v 3 = a * v 0) (h2 : v 2 = -(a * v 1)) :
    flux v = a * (‖v 0‖ ^ 2 + ‖v 1‖ ^ 2) := by
  unfold flux
  rw [h3, h2]
  simp only [← Complex.normSq_eq_norm_sq, Complex.normSq_apply]
  simp [Complex.mul_re, Complex.mul_im]
  ring

lemma zero_of_norms {v : Fin 4 → ℂ} {a : ℂ} (h3 : v 3 = a * v 0) (h2 : v 2 = -(a * v 1))
    (h : ‖v 0‖ ^ 2 + ‖v 1‖ ^ 2 ≤ 0) : v = 0 := by
  have h0 : v 0 = 0 := by
    rw [← norm_eq_zero, ← sq_eq_zero_iff]
    nlinarith [sq_nonneg ‖v 0‖, sq_nonneg ‖v 1‖]
  have h1 : v 1 = 0 := by
    rw [← norm_eq_zero, ← sq_eq_zero_iff]
    nlinarith [sq_nonneg ‖v 0‖, sq_nonneg ‖v 1‖]
  funext i
  fin_cases i
  · exact h0
  · exact h1
  · simpa [h1] using h2
  · simpa [h0] using h3

/-- The flux is not non-negative on a space of three waves. -/
lemma no_three_nonneg {w : Mat4} (hw : IsUnit w) (i0 : Fin 4) (h : ∀ c : Fin 4 → ℂ, c i0 = 0 → 0 ≤ flux (w *ᵥ c)) : False := by
  obtain ⟨c, hc, hi, hf, hg⟩ := exists_combo_cols w i0 ![1, 0, 0, 1] ![0, 1, -1, 0]
  have hne := mulVec_ne_zero hw hc
  have hp := h c hi
  generalize w *ᵥ c = v at *
  simp [dotProduct, Fin.sum_univ_four] at hf hg
  have h3 : v 3 = ((-1 : ℝ) : ℂ) * v 0 := by push_cast; linear_combination hf
  have h2 : v 2 = -(((-1 : ℝ) : ℂ) * v 1) := by push_cast; linear_combination -hg
  rw [flux_norm_of v h3 h2] at hp
  exact hne (zero_of_norms h3 h2 (by linarith))

/-- The flux is not non-positive on a space of three waves. -/
lemma no_three_nonpos {w : Mat4} (hw : IsUnit w) (i0 : Fin 4) (h : ∀ c : Fin 4 → ℂ, c i0 = 0 → flux (w *ᵥ c) ≤ 0) : False := by
  obtain ⟨c, hc, hi, hf, hg⟩ := exists_combo_cols w i0 ![-1, 0, 0, 1] ![0, 1, 1, 0]
  have hne := mulVec_ne_zero hw hc
  have hp := h c hi
  generalize w *ᵥ c = v at *
  simp [dotProduct, Fin.sum_univ_four] at hf hg
  have h3 : v 3 = ((1 : ℝ) : ℂ) * v 0 := by push_cast; linear_combination hf
  have h2 : v 2 = -(((1 : ℝ) : ℂ) * v 1) := by push_cast; linear_combination hg
  rw [flux_norm_of v h3 h2] at hp
  exact hne (zero_of_norms h3 h2 (by linarith))

/-! ## Flux of decaying waves -/

lemma exp_modes (X w : Mat4) (q : Fin 4 → ℂ) (hw : IsUnit w) (h : X * w = w * Matrix.diagonal q) (c : Fin 4 → ℂ) (z : ℝ) :
    (NormedSpace.exp (z • X) : Mat4) *ᵥ (w *ᵥ c) = w *ᵥ fun i => Complex.exp (z * q i) * c i := by
  have hi : w⁻¹ * w = 1 := Matrix.nonsing_inv_mul _ ((Matrix.isUnit_iff_isUnit_det _).1 hw)
  have hj : w * w⁻¹ = 1 := Matrix.mul_nonsing_inv _ ((Matrix.isUnit_iff_isUnit_det _).1 hw)
  have hX : X = w * Matrix.diagonal q * w⁻¹ := by rw [← h, Matrix.mul_assoc, hj, Matrix.mul_one]
  have hz : z • X = (z : ℂ) • (w * Matrix.diagonal q * w⁻¹) := by
    rw [hX]
    ext i j
    simp
  rw [hz, exp_diag_conj w q hw, Matrix.mulVec_mulVec, Matrix.mul_assoc, hi, Matrix.mul_one, ← Matrix.mulVec_mulVec]
  congr 1
  funext i
  rw [Matrix.mulVec_diagonal]

lemma tendsto_mode {q c : ℂ} {l : Filter ℝ} (h : c ≠ 0 → Tendsto (fun z : ℝ => z * q.re) l atBot) :
    Tendsto (fun z : ℝ => Complex.exp (z * q) * c) l (𝓝 0) := by
  by_cases hc : c = 0
  · simpa [hc] using tendsto_const_nhds
  · rw [tendsto_zero_iff_norm_tendsto_zero]
    have e : (fun z : ℝ => ‖Complex.exp (z * q) * c‖) = fun z : ℝ => Real.exp (z * q.re) * ‖c‖ := by
      funext z
      rw [norm_mul, Complex.norm_exp, Complex.re_ofReal_mul]
    rw [e, show (0 : ℝ) = 0 * ‖c‖ by simp]
    exact (Real.tendsto_exp_atBot.comp (h hc)).mul_const _

lemma flux_continuous : Continuous flux := by
  unfold flux
  fun_prop

lemma flux_tendsto_zero (w : Mat4) (q c : Fin 4 → ℂ) {l : Filter ℝ}
    (h : ∀ i, c i ≠ 0 → Tendsto (fun z : ℝ => z * (q i).re) l atBot) :
    Tendsto (fun z : ℝ => flux (w *ᵥ fun i => Complex.exp (z * q i) * c i)) l (𝓝 0) := by
  have h1 : Tendsto (fun z : ℝ => fun i => Complex.exp (z * q i) * c i) l (𝓝 0) :=
    tendsto_pi_nhds.2 fun i => tendsto_mode (h i)
  have hc : Continuous fun u : Fin 4 → ℂ => flux (w *ᵥ u) := by
    apply flux_continuous.comp
    exact Continuous.matrix_mulVec continuous_const continuous_id
  have h2 := (hc.tendsto 0).comp h1
  have h0 : flux (w *ᵥ (0 : Fin 4 → ℂ)) = 0 := by simp [flux]
  rw [h0] at h2
  exact h2

lemma flux_anti (X : Mat4) (v : Fin 4 → ℂ) (hd : ∀ v, (fluxForm v (X *ᵥ v)).re ≤ 0) :
    Antitone (fun z : ℝ => flux ((NormedSpace.exp (z • X) : Mat4) *ᵥ v)) := by
  apply antitone_of_deriv_nonpos
  · exact fun z => (flux_hasDerivAt X v z).differentiableAt
  · intro z
    rw [(flux_hasDerivAt X v z).deriv]
    exact hd _

/-- Waves that decay along a flow which never increases the flux have non-negative flux. -/
lemma flux_nonneg_of_decay (X w : Mat4) (q : Fin 4 → ℂ) (hw : IsUnit w) (h : X * w = w * Matrix.diagonal q)
    (hd : ∀ v, (fluxForm v (X *ᵥ v)).re ≤ 0) (c : Fin 4 → ℂ) (hq : ∀ i, c i ≠ 0 → (q i).re < 0) : 0 ≤ flux (w *ᵥ c) := by
  have ht := flux_tendsto_zero w q c (l := atTop) fun i hi => tendsto_id.atTop_mul_const_of_neg (hq i hi)
  have ha := flux_anti X (w *ᵥ c) hd
  simp only [exp_modes X w q hw h] at ha
  have := ha.le_of_tendsto ht 0
  simpa using this

/-- Waves that grow along such a flow have non-positive flux. -/
lemma flux_nonpos_of_growth (X w : Mat4) (q : Fin 4 → ℂ) (hw : IsUnit w) (h : X * w = w * Matrix.diagonal q)
    (hd : ∀ v, (fluxForm v (X *ᵥ v)).re ≤ 0) (c : Fin 4 → ℂ) (hq : ∀ i, c i ≠ 0 → 0 < (q i).re) : flux (w *ᵥ c) ≤ 0 := by
  have ht := flux_tendsto_zero w q c (l := atBot) fun i hi => tendsto_id.atBot_mul_const (hq i hi)
  have ha := flux_anti X (w *ᵥ c) hd
  simp only [exp_modes X w q hw h] at ha
  have := ha.ge_of_tendsto ht 0
  simpa using this

/-! ## The two quadratic forms of the Berreman matrix -/

lemma flux_smul (q : ℂ) (v : Fin 4 → ℂ) : (fluxForm v (q • v)).re = 2 * q.re * flux v := by
  unfold fluxForm flux
  simp only [Pi.smul_apply, smul_eq_mul]
  simp [Complex.mul_re, Complex.mul_im]
  ring

lemma fluxForm_sub (v w u : Fin 4 → ℂ) : fluxForm v (w - u) = fluxForm v w - fluxForm v u := by
  unfold fluxForm
  simp only [Pi.sub_apply, map_sub]
  ring

lemma fluxForm_neg (v w : Fin 4 → ℂ) : fluxForm v (-w) = -fluxForm v w := by
  unfold fluxForm
  simp only [Pi.neg_apply, map_neg]
  ring

/-- The counterpart of `im_quadratic` for the real part, shifted by a real multiple of the flux. -/
lemma re_quadratic (kx sig : ℝ) (eps : Tensor) (h : eps 2 2 ≠ 0) (v : Fin 4 → ℂ) :
    (fluxForm v (buildDelta kx eps *ᵥ v)).re - 2 * sig * flux v =
      (star (fieldE kx eps v) ⬝ᵥ eps *ᵥ fieldE kx eps v).re
        - (‖sig * fieldE kx eps v 1‖ ^ 2 + ‖sig * fieldE kx eps v 0 - kx * fieldE kx eps v 2‖ ^ 2
            + ‖kx * fieldE kx eps v 1‖ ^ 2)
        + ‖v 3 + kx * fieldE kx eps v 2 - sig * v 0‖ ^ 2 + ‖v 2 + sig * v 1‖ ^ 2 := by
  set Ez := -(eps 2 0 * v 0 + eps 2 1 * v 1 + kx * v 3) / eps 2 2 with hEz
  have hz : eps 2 2 * Ez = -(eps 2 0 * v 0 + eps 2 1 * v 1 + kx * v 3) := by
    rw [hEz]; field_simp
  have w0 : (buildDelta kx eps *ᵥ v) 0 = kx * Ez + v 3 := by
    rw [hEz]
    simp [buildDelta, Matrix.mulVec, dotProduct, Fin.sum_univ_four]
    field_simp
    ring
  have w1 : (buildDelta kx eps *ᵥ v) 1 = -v 2 := by
    simp [buildDelta, Matrix.mulVec, dotProduct, Fin.sum_univ_four]
  have w2 : (buildDelta kx eps *ᵥ v) 2 = kx ^ 2 * v 1 - (eps 1 0 * v 0 + eps 1 1 * v 1 + eps 1 2 * Ez) := by
    rw [hEz]
    simp [buildDelta, Matrix.mulVec, dotProduct, Fin.sum_univ_four]
    field_simp
    ring
  have w3 : (buildDelta kx eps *ᵥ v) 3 = eps 0 0 * v 0 + eps 0 1 * v 1 + eps 0 2 * Ez := by
    rw [hEz]
    simp [buildDelta, Matrix.mulVec, dotProduct, Fin.sum_univ_four]
    field_simp
    ring
  have hF : fieldE kx eps v = ![v 0, v 1, Ez] := rfl
  have hE : star (fieldE kx eps v) ⬝ᵥ eps *ᵥ fieldE kx eps v =
      (starRingEnd ℂ) (v 0) * (eps 0 0 * v 0 + eps 0 1 * v 1 + eps 0 2 * Ez) +
      (starRingEnd ℂ) (v 1) * (eps 1 0 * v 0 + eps 1 1 * v 1 + eps 1 2 * Ez) -
      (starRingEnd ℂ) Ez * (kx * v 3) := by
    have : star (fieldE kx eps v) ⬝ᵥ eps *ᵥ fieldE kx eps v =
      (starRingEnd ℂ) (v 0) * (eps 0 0 * v 0 + eps 0 1 * v 1 + eps 0 2 * Ez) +
      (starRingEnd ℂ) (v 1) * (eps 1 0 * v 0 + eps 1 1 * v 1 + eps 1 2 * Ez) +
      (starRingEnd ℂ) Ez * (eps 2 0 * v 0 + eps 2 1 * v 1 + eps 2 2 * Ez) := by
      rw [hF]
      generalize Ez = e
      simp [Matrix.mulVec, dotProduct, Fin.sum_univ_three]
    rw [this, hz]
    ring
  rw [hE, hF]
  simp only [fluxForm, flux, w0, w1, w2, w3, Matrix.cons_val]
  generalize eps 0 0 * v 0 + eps 0 1 * v 1 + eps 0 2 * Ez = a
  generalize eps 1 0 * v 0 + eps 1 1 * v 1 + eps 1 2 * Ez = b
  generalize Ez = e
  simp only [← Complex.normSq_eq_norm_sq, Complex.normSq_apply]
  simp [Complex.mul_re, Complex.mul_im, pow_two]
  ring

/-- Tangential fields vanish if E and the corresponding rows of `Δ v = q v` do. -/
lemma zero_of_fieldE {kx : ℝ} {eps : Tensor} {v : Fin 4 → ℂ} (hE : fieldE kx eps v = 0) : v 0 = 0 ∧ v 1 = 0 :=
  ⟨congrFun hE 0, congrFun hE 1⟩

end PyElli
