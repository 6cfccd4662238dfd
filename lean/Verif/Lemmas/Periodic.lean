import Verif.Lemmas.Balance

/-! # Powers of a 2x2 transfer matrix -/

namespace PyElli

open Matrix Complex Spec

/-- Eigenvalues of a matrix of determinant one. -/
lemma eig_pair (M : Mat2) (hdet : M.det = 1) : ∃ m : ℂ, m ≠ 0 ∧ m + m⁻¹ = M.trace ∧ (M - m • 1) * (M - m⁻¹ • 1) = 0 ∧ (M - m⁻¹ • 1) * (M - m • 1) = 0 := by
  obtain ⟨r, hr⟩ : ∃ r : ℂ, r ^ 2 = M.trace ^ 2 - 4 := ⟨Complex.sqrt (M.trace ^ 2 - 4), csqrt_sq _⟩
  set m := (M.trace + r) / 2 with hm
  have h1 : m * (M.trace - m) = 1 := by rw [hm]; linear_combination (-1 / 4 : ℂ) * hr
  have h0 : m ≠ 0 := fun h => by rw [h] at h1; simp at h1
  have h2 : m⁻¹ = M.trace - m := (eq_inv_of_mul_eq_one_right h1).symm
  have ht : M.trace = M 0 0 + M 1 1 := Matrix.trace_fin_two M
  have hd : M 0 0 * M 1 1 - M 0 1 * M 1 0 = 1 := by rw [← Matrix.det_fin_two]; exact hdet
  refine ⟨m, h0, by rw [h2]; ring, ?_, ?_⟩ <;>
  · rw [h2]
    rw [ht] at h1 ⊢
    ext i j
    fin_cases i <;> fin_cases j <;> simp [Matrix.mul_apply, Fin.sum_univ_two]
    · linear_combination h1 - hd
    · ring
    · ring
    · linear_combination h1 - hd

lemma mulVec_bound (A : Mat2) : ∃ K : ℝ, 0 < K ∧ ∀ v : Fin 2 → ℂ, ‖A *ᵥ v‖ ≤ K * ‖v‖ := by
  refine ⟨‖LinearMap.toContinuousLinearMap (Matrix.mulVecLin A)‖ + 1, by positivity, fun v => ?_⟩
  have := (LinearMap.toContinuousLinearMap (Matrix.mulVecLin A)).le_opNorm v
  have h2 : (LinearMap.toContinuousLinearMap (Matrix.mulVecLin A)) v = A *ᵥ v := rfl
  rw [h2] at this
  nlinarith [norm_nonneg v]

lemma pow_eig {M : Mat2} {m : ℂ} {y : Fin 2 → ℂ} (h : M *ᵥ y = m • y) (N : ℕ) : M ^ N *ᵥ y = m ^ N • y := by
  induction N with
  | zero => simp
  | succ N ih => rw [pow_succ, ← Matrix.mulVec_mulVec, h, Matrix.mulVec_smul, ih, smul_smul, pow_succ, mul_comm]

lemma sub_mulVec_smul (M : Mat2) (m : ℂ) (v : Fin 2 → ℂ) : (M - m • 1) *ᵥ v = M *ᵥ v - m • v := by
  rw [Matrix.sub_mulVec, Matrix.smul_mulVec, Matrix.one_mulVec]

/-- Outside the band (`|tr M| > 2`) every vector that carries flux grows exponentially. -/
lemma stop_growth (M F : Mat2) (x : Fin 2 → ℂ) (hdet : M.det = 1) (ht : 2 < |M.trace.re|) (hF : IsUnit F.det) (phi : (Fin 2 → ℂ) → ℝ)
    (hM : ∀ v, phi (M *ᵥ v) = phi v) (hs : ∀ (c : ℂ) v, phi (c • v) = ‖c‖ ^ 2 * phi v) (hx : phi x ≠ 0) :
    ∃ C ρ : ℝ, 0 < C ∧ 0 ≤ ρ ∧ ρ < 1 ∧ ∀ N : ℕ, 1 ≤ C * ρ ^ N * ‖F *ᵥ (M ^ N *ᵥ x)‖ := by
  obtain ⟨m, m0, hsum, hz1, hz2⟩ := eig_pair M hdet
  have hne1 : ‖m‖ ≠ 1 := by
    intro h1
    have h2 : ‖m⁻¹‖ = 1 := by rw [norm_inv, h1, inv_one]
    have h3 := Complex.abs_re_le_norm M.trace
    have h4 : ‖M.trace‖ ≤ 2 := by
      rw [← hsum]
      exact (norm_add_le _ _).trans (by rw [h1, h2]; norm_num)
    linarith
  -- choose the eigenvalue of modulus above one
  obtain ⟨u, u0, hu, hz⟩ : ∃ u : ℂ, u ≠ 0 ∧ 1 < ‖u‖ ∧ (M - u • 1) * (M - u⁻¹ • 1) = 0 := by
    rcases lt_or_gt_of_ne hne1 with h | h
    · refine ⟨m⁻¹, inv_ne_zero m0, ?_, by rw [inv_inv]; exact hz2⟩
      rw [norm_inv]
      exact (one_lt_inv₀ (norm_pos_iff.2 m0)).2 h
    · exact ⟨m, m0, h, hz1⟩
  set y := (M - u⁻¹ • 1) *ᵥ x with hy
  have hy0 : y ≠ 0 := by
    intro h
    rw [hy, sub_mulVec_smul, sub_eq_zero] at h
    have h1 := hM x
    rw [h, hs, norm_inv, inv_pow] at h1
    have h2 : (‖u‖ ^ 2)⁻¹ = 1 := by
      have := mul_right_cancel₀ hx (h1.trans (one_mul _).symm)
      exact this
    rw [inv_eq_one] at h2
    nlinarith [norm_nonneg u]
  have hey : M *ᵥ y = u • y := by
    have := congrArg (fun A => A *ᵥ x) hz
    simp only [← Matrix.mulVec_mulVec, Matrix.zero_mulVec] at this
    rw [← hy, sub_mulVec_smul, sub_eq_zero] at this
    exact this
  obtain ⟨K, hK, hb⟩ := mulVec_bound ((M - u⁻¹ • 1) * F⁻¹)
  have key : ∀ N : ℕ, ‖u‖ ^ N * ‖y‖ ≤ K * ‖F *ᵥ (M ^ N *ᵥ x)‖ := by
    intro N
    have h1 : ((M - u⁻¹ • 1) * F⁻¹) *ᵥ (F *ᵥ (M ^ N *ᵥ x)) = u ^ N • y := by
      rw [Matrix.mulVec_mulVec, Matrix.mul_assoc, Matrix.nonsing_inv_mul _ hF, Matrix.mul_one, Matrix.mulVec_mulVec]
      have hcomm : (M - u⁻¹ • 1) * M ^ N = M ^ N * (M - u⁻¹ • 1) := by
        have : Commute (M - u⁻¹ • 1) M := (Commute.refl M).sub_left ((Commute.one_left M).smul_left _)
        exact (this.pow_right N).eq
      rw [hcomm, ← Matrix.mulVec_mulVec, ← hy, pow_eig hey]
    have h2 := hb (F *ᵥ (M ^ N *ᵥ x))
    rw [h1, norm_smul, norm_pow] at h2
    exact h2
  have hyn : 0 < ‖y‖ := norm_pos_iff.2 hy0
  have hun : 0 < ‖u‖ := norm_pos_iff.2 u0
  refine ⟨K / ‖y‖, ‖u‖⁻¹, by positivity, by positivity, inv_lt_one_of_one_lt₀ hu, fun N => ?_⟩
  have hk := key N
  have : K / ‖y‖ * ‖u‖⁻¹ ^ N * ‖F *ᵥ (M ^ N *ᵥ x)‖ = K * ‖F *ᵥ (M ^ N *ᵥ x)‖ / (‖u‖ ^ N * ‖y‖) := by
    rw [inv_pow]
    field_simp
  rw [this, le_div_iff₀ (by positivity), one_mul]
  exact hk

/-- Inside the band (`-2 < tr M < 2`) powers stay bounded. -/
lemma pass_bound (M F : Mat2) (x : Fin 2 → ℂ) (hdet : M.det = 1) (hi : M.trace.im = 0) (ht : |M.trace.re| < 2) :
    ∃ K : ℝ, 0 < K ∧ ∀ N : ℕ, ‖F *ᵥ (M ^ N *ᵥ x)‖ ≤ K := by
  obtain ⟨m, m0, hsum, hz1, hz2⟩ := eig_pair M hdet
  have hnorm : ‖m‖ = 1 := by
    have hN : 0 < Complex.normSq m := Complex.normSq_pos.2 m0
    have h1 := congrArg Complex.im hsum
    have h2 := congrArg Complex.re hsum
    simp only [Complex.add_im, Complex.inv_im, Complex.add_re, Complex.inv_re] at h1 h2
    rw [hi] at h1
    have h3 : m.im * (Complex.normSq m - 1) = 0 := by
      field_simp at h1
      linarith
    rcases mul_eq_zero.1 h3 with h | h
    · exfalso
      have h4 : Complex.normSq m = m.re ^ 2 := by rw [Complex.normSq_apply, h]; ring
      have h5 : m.re ≠ 0 := fun h' => by rw [h4, h'] at hN; simp at hN
      rw [h4] at h2
      have h6 : m.re * M.trace.re = m.re ^ 2 + 1 := by
        rw [← h2]
        field_simp
      obtain ⟨h7, h8⟩ := abs_lt.1 ht
      rcases lt_or_gt_of_ne h5 with hneg | hpos
      · nlinarith [sq_nonneg (m.re + 1)]
      · nlinarith [sq_nonneg (m.re - 1)]
    · rw [← Complex.sq_norm] at h
      have h5 : (‖m‖ - 1) * (‖m‖ + 1) = 0 := by linarith
      rcases mul_eq_zero.1 h5 with h6 | h6
      · linarith
      · have := norm_nonneg m; linarith
  have hinv : ‖m⁻¹‖ = 1 := by rw [norm_inv, hnorm, inv_one]
  have hne : m - m⁻¹ ≠ 0 := by
    intro h
    rw [sub_eq_zero] at h
    have h1 : m + m = M.trace := by rw [← hsum]; nth_rewrite 2 [h]; rfl
    have h2 := congrArg Complex.im h1
    have h3 := congrArg Complex.re h1
    rw [hi] at h2
    simp only [Complex.add_im, Complex.add_re] at h2 h3
    have h4 : m.im = 0 := by linarith
    have h5 : m.re ^ 2 = 1 := by
      have : ‖m‖ ^ 2 = 1 := by rw [hnorm]; norm_num
      rw [Complex.sq_norm, Complex.normSq_apply, h4] at this
      linarith
    have h6 : |m.re| = 1 := by
      have h7 : |m.re| ^ 2 = 1 := by rw [sq_abs]; exact h5
      nlinarith [abs_nonneg m.re]
    rw [← h3, ← two_mul, abs_mul, h6] at ht
    norm_num at ht
  obtain ⟨K, hK, hb⟩ := mulVec_bound F
  set y := (M - m⁻¹ • 1) *ᵥ x with hy
  set z := (M - m • 1) *ᵥ x with hz
  have ey : M *ᵥ y = m • y := by
    have := congrArg (fun A => A *ᵥ x) hz1
    simp only [← Matrix.mulVec_mulVec, Matrix.zero_mulVec] at this
    rw [← hy, sub_mulVec_smul, sub_eq_zero] at this
    exact this
  have ez : M *ᵥ z = m⁻¹ • z := by
    have := congrArg (fun A => A *ᵥ x) hz2
    simp only [← Matrix.mulVec_mulVec, Matrix.zero_mulVec] at this
    rw [← hz, sub_mulVec_smul, sub_eq_zero] at this
    exact this
  have hx : x = (m - m⁻¹)⁻¹ • (y - z) := by
    rw [hy, hz, sub_mulVec_smul, sub_mulVec_smul, sub_sub_sub_cancel_left, ← sub_smul, smul_smul, inv_mul_cancel₀ hne, one_smul]
  refine ⟨K * (‖(m - m⁻¹)⁻¹‖ * (‖y‖ + ‖z‖) + 1), by positivity, fun N => (hb _).trans (mul_le_mul_of_nonneg_left ?_ hK.le)⟩
  have : M ^ N *ᵥ x = (m - m⁻¹)⁻¹ • (m ^ N • y - m⁻¹ ^ N • z) := by
    conv_lhs => rw [hx]
    rw [Matrix.mulVec_smul, Matrix.mulVec_sub, pow_eig ey, pow_eig ez]
  rw [this, norm_smul]
  have h1 : ‖m ^ N • y - m⁻¹ ^ N • z‖ ≤ ‖y‖ + ‖z‖ := by
    refine (norm_sub_le _ _).trans ?_
    rw [norm_smul, norm_smul, norm_pow, norm_pow, hnorm, hinv, one_pow, one_mul, one_mul]
  nlinarith [norm_nonneg (m - m⁻¹)⁻¹]

end PyElli
