import Verif.Lemmas.ExitFlux
import Mathlib.Tactic

/-! The two waves that `transition_matrix_halfspace` selects for an anisotropic exit medium carry energy away from the stack. -/

namespace PyElli

open Matrix Complex Spec

/-- What is needed of the selected waves: they are separated from the rest, and no combination of them carries energy towards the stack. -/
structure ForwardSplit (q : Fin 4 → ℂ) (w : Mat4) : Prop where
  gap : sortedQ q 1 ≠ sortedQ q 2
  out : ∀ c : Fin 4 → ℂ, c 2 = 0 → c 3 = 0 → 0 ≤ flux (eigSorted q w *ᵥ c)

lemma col_eq (w : Mat4) (j : Fin 4) : w *ᵥ Pi.single j 1 = fun a => w a j := by
  funext a
  simp

lemma col_ne_zero {w : Mat4} (hw : IsUnit w) (j : Fin 4) : (fun a => w a j) ≠ 0 := by
  rw [← col_eq]
  exact mulVec_ne_zero hw (by simp)

lemma col_eig {X w : Mat4} {q : Fin 4 → ℂ} (h : X * w = w * Matrix.diagonal q) (j : Fin 4) :
    X *ᵥ (fun a => w a j) = q j • fun a => w a j := by
  funext a
  have := congrFun (congrFun h a) j
  rw [Matrix.mul_diagonal, Matrix.mul_apply] at this
  simp only [Matrix.mulVec, dotProduct, Pi.smul_apply, smul_eq_mul]
  rw [this, mul_comm]

/-! ## Media without total reflection -/

lemma inside_ne {kx kz : ℝ} {eps : Tensor} (h : Inside kx kz eps) : eps 2 2 ≠ 0 := by
  intro h0
  have := h ![0, 0, 1] (by intro h; simpa using congrFun h 2)
  simp [Matrix.mulVec, dotProduct, Fin.sum_univ_three, h0] at this
  nlinarith [sq_nonneg kx]

lemma inside_pos {kx kz : ℝ} {eps : Tensor} (h : Inside kx kz eps) {v : Fin 4 → ℂ} (hv : v ≠ 0) :
    0 < (fluxForm v (buildDelta kx eps *ᵥ v)).re - 2 * kz * flux v := by
  rw [re_quadratic kx kz eps (inside_ne h)]
  by_cases hE : fieldE kx eps v = 0
  · obtain ⟨h0, h1⟩ := zero_of_fieldE hE
    rw [hE, h0, h1]
    simp
    by_contra hn
    apply hv
    have h3 : v 3 = 0 := by
      rw [← norm_eq_zero, ← sq_eq_zero_iff]
      nlinarith [sq_nonneg ‖v 2‖, sq_nonneg ‖v 3‖]
    have h2 : v 2 = 0 := by
      rw [← norm_eq_zero, ← sq_eq_zero_iff]
      nlinarith [sq_nonneg ‖v 2‖, sq_nonneg ‖v 3‖]
    funext i
    fin_cases i
    · exact h0
    · exact h1
    · exact h2
    · exact h3
  · have := h _ hE
    nlinarith [sq_nonneg ‖v 3 + kx * fieldE kx eps v 2 - kz * v 0‖, sq_nonneg ‖v 2 + kz * v 1‖]

lemma passive_form {kx : ℝ} {eps : Tensor} (h22 : eps 2 2 ≠ 0) (hp : Passive eps) (v : Fin 4 → ℂ) :
    (fluxForm v ((I • buildDelta kx eps) *ᵥ v)).re ≤ 0 := by
  rw [Matrix.smul_mulVec, im_quadratic kx eps h22]
  linarith [hp (fieldE kx eps v)]

lemma eig_im_flux {kx : ℝ} {eps : Tensor} (h22 : eps 2 2 ≠ 0) (hp : Passive eps) {v : Fin 4 → ℂ} {q : ℂ}
    (h : buildDelta kx eps *ᵥ v = q • v) : 0 ≤ q.im * flux v := by
  have := passive_form (kx := kx) h22 hp v
  rw [Matrix.smul_mulVec, h, smul_smul, flux_smul] at this
  simp at this
  linarith

lemma inside_eig {kx kz : ℝ} {eps : Tensor} (hin : Inside kx kz eps) {v : Fin 4 → ℂ} (hv : v ≠ 0) {q : ℂ}
    (h : buildDelta kx eps *ᵥ v = q • v) : 0 < (q.re - kz) * flux v := by
  have := inside_pos hin hv
  rw [h, flux_smul] at this
  linarith

lemma smul_eig {X w : Mat4} {q : Fin 4 → ℂ} (h : X * w = w * Matrix.diagonal q) (a : ℂ) :
    (a • X) * w = w * Matrix.diagonal (fun i => a * q i) := by
  rw [Matrix.smul_mul, h, ← Matrix.mul_smul]
  congr 1
  ext i j
  by_cases hij : i = j <;> simp [Matrix.diagonal, hij]

lemma shift_eig {X w : Mat4} {q : Fin 4 → ℂ} (h : X * w = w * Matrix.diagonal q) (a : ℂ) :
    (a • (1 : Mat4) - X) * w = w * Matrix.diagonal (fun i => a - q i) := by
  rw [Matrix.sub_mul, h, Matrix.smul_mul, Matrix.one_mul]
  ext i j
  rw [Matrix.sub_apply, Matrix.smul_apply, Matrix.mul_diagonal, Matrix.mul_diagonal, smul_eq_mul]
  ring

lemma forward_inside {kx kz : ℝ} {eps : Tensor} (hin : Inside kx kz eps) (hp : Passive eps) (q : Fin 4 → ℂ) (w : Mat4)
    (hw : IsUnit w) (h : buildDelta kx eps * w = w * Matrix.diagonal q) : ForwardSplit q w := by
  obtain ⟨hW, e⟩ := eigSorted_spec _ w q hw h
  have h22 := inside_ne hin
  have s := fun i j (hij : i < j) => sortedQ_anti q (i := i) (j := j) hij
  revert hW e s
  generalize hWd : eigSorted q w = W
  generalize hQ : sortedQ q = Q
  intro hW e s
  have f1 := fun j => inside_eig hin (col_ne_zero hW j) (col_eig e j)
  have f2 := fun j => eig_im_flux h22 hp (col_eig e j)
  have hX := shift_eig e (kz : ℂ)
  have hd : ∀ v, (fluxForm v (((kz : ℂ) • (1 : Mat4) - buildDelta kx eps) *ᵥ v)).re ≤ 0 := by
    intro v
    rw [Matrix.sub_mulVec, Matrix.smul_mulVec, Matrix.one_mulVec, fluxForm_sub, Complex.sub_re, flux_smul, Complex.ofReal_re]
    by_cases hv : v = 0
    · subst hv
      simp [flux, fluxForm]
    · linarith [inside_pos hin hv]
  -- a wave below kz is never sorted before one above
  have order : ∀ i j, i < j → kz < (Q j).re → kz < (Q i).re := by
    intro i j hij hj
    by_contra hi
    have a1 := f1 i
    have a2 := f1 j
    have b1 := f2 i
    have b2 := f2 j
    have fi : flux (fun a => W a i) < 0 := by
      by_contra hn
      push Not at hn hi
      nlinarith
    have fj : 0 < flux (fun a => W a j) := by
      by_contra hn
      push Not at hn
      nlinarith
    have c1 : (Q i).im ≤ 0 := by
      by_contra hn
      push Not at hn
      nlinarith
    have c2 : 0 ≤ (Q j).im := by
      by_contra hn
      push Not at hn
      nlinarith
    rcases s i j hij with hs | ⟨-, hs⟩ <;> linarith
  have ne : ∀ i, kz < (Q i).re ∨ (Q i).re < kz := by
    intro i
    rcases lt_trichotomy kz (Q i).re with hh | hh | hh
    · exact Or.inl hh
    · have := f1 i
      rw [← hh] at this
      simp at this
    · exact Or.inr hh
  have p1 : kz < (Q 1).re := by
    by_contra hn
    have n1 := (ne 1).resolve_left hn
    have n2 := (ne 2).resolve_left fun hh => hn (order 1 2 (by decide) hh)
    have n3 := (ne 3).resolve_left fun hh => hn (order 1 3 (by decide) hh)
    refine no_three_nonpos hW 0 fun c hc => flux_nonpos_of_growth _ W _ hW hX hd c fun i hi => ?_
    rw [Complex.sub_re, Complex.ofReal_re]
    fin_cases i
    · exact absurd hc hi
    · exact sub_pos.2 n1
    · exact sub_pos.2 n2
    · exact sub_pos.2 n3
  have p0 := order 0 1 (by decide) p1
  have p2 : (Q 2).re < kz := by
    refine (ne 2).resolve_left fun hh => ?_
    refine no_three_nonneg hW 3 fun c hc => flux_nonneg_of_decay _ W _ hW hX hd c fun i hi => ?_
    rw [Complex.sub_re, Complex.ofReal_re]
    fin_cases i
    · exact sub_neg.2 p0
    · exact sub_neg.2 p1
    · exact sub_neg.2 hh
    · exact absurd hc hi
  refine ⟨?_, ?_⟩
  · rw [hQ]
    intro hh
    rw [hh] at p1
    linarith
  · intro c c2 c3
    rw [hWd]
    refine flux_nonneg_of_decay _ W _ hW hX hd c fun i hi => ?_
    rw [Complex.sub_re, Complex.ofReal_re]
    fin_cases i
    · exact sub_neg.2 p0
    · exact sub_neg.2 p1
    · exact absurd c2 hi
    · exact absurd c3 hi

/-! ## Absorbing media -/

lemma absorbing_ne {eps : Tensor} (h : Absorbing eps) : eps 2 2 ≠ 0 := by
  intro h0
  have := h ![0, 0, 1] (by intro h; simpa using congrFun h 2)
  simp [Matrix.mulVec, dotProduct, Fin.sum_univ_three, h0] at this

lemma absorbing_passive {eps : Tensor} (h : Absorbing eps) : Passive eps := by
  intro E
  by_cases hE : E = 0
  · simp [hE]
  · exact (h E hE).le

/-- An absorbing medium has no undamped waves. -/
lemma absorbing_eig {kx : ℝ} {eps : Tensor} (ha : Absorbing eps) {v : Fin 4 → ℂ} (hv : v ≠ 0) {q : ℂ}
    (h : buildDelta kx eps *ᵥ v = q • v) : q.im ≠ 0 := by
  intro hq
  have h22 := absorbing_ne ha
  have hf := im_quadratic kx eps h22 v
  rw [h, smul_smul, flux_smul] at hf
  simp [hq] at hf
  have hE : fieldE kx eps v = 0 := by
    by_contra hE
    have := ha _ hE
    linarith
  obtain ⟨h0, h1⟩ := zero_of_fieldE hE
  have e1 := congrFun h 1
  have e0 := congrFun h 0
  have hz : eps 2 2 * fieldE kx eps v 2 = -(eps 2 0 * v 0 + eps 2 1 * v 1 + kx * v 3) := by
    simp only [fieldE, Matrix.cons_val]
    field_simp
  rw [hE] at hz
  simp [h0, h1] at hz
  simp [buildDelta, Matrix.mulVec, dotProduct, Fin.sum_univ_four, h0, h1] at e0 e1
  have h3 : v 3 = 0 := by
    rcases hz with hz | hz
    · simpa [hz] using e0
    · exact hz
  apply hv
  funext i
  fin_cases i
  · exact h0
  · exact h1
  · exact e1
  · exact h3

lemma im_sorted {q : Fin 4 → ℂ} {i j : Fin 4} (h : i < j) : (sortedQ q j).im ≤ (sortedQ q i).im := by
  rcases sortedQ_anti q h with hs | ⟨hs, -⟩
  · exact hs.le
  · exact hs.ge

/-- If no wave is undamped, two decay and two grow along z. -/
lemma damped_split {kx : ℝ} {eps : Tensor} (h22 : eps 2 2 ≠ 0) (hp : Passive eps) (q : Fin 4 → ℂ) (w : Mat4)
    (hw : IsUnit w) (h : buildDelta kx eps * w = w * Matrix.diagonal q) (ne : ∀ i, (sortedQ q i).im ≠ 0) :
    0 < (sortedQ q 1).im ∧ (sortedQ q 2).im < 0 := by
  obtain ⟨hW, e⟩ := eigSorted_spec _ w q hw h
  have s := fun i j (hij : i < j) => im_sorted (q := q) (i := i) (j := j) hij
  revert hW e s ne
  generalize eigSorted q w = W
  generalize sortedQ q = Q
  intro ne hW e s
  have hX := smul_eig e I
  have hd := passive_form (kx := kx) h22 hp
  have re : ∀ i, (I * Q i).re = -(Q i).im := by intro i; simp
  have p1 : 0 < (Q 1).im := by
    by_contra hn
    have n1 : (Q 1).im < 0 := lt_of_le_of_ne (not_lt.1 hn) (ne 1)
    refine no_three_nonpos hW 0 fun c hc => flux_nonpos_of_growth _ W _ hW hX hd c fun i hi => ?_
    rw [re]
    fin_cases i
    · exact absurd hc hi
    · exact neg_pos.2 n1
    · exact neg_pos.2 ((s 1 2 (by decide)).trans_lt n1)
    · exact neg_pos.2 ((s 1 3 (by decide)).trans_lt n1)
  have p0 : 0 < (Q 0).im := p1.trans_le (s 0 1 (by decide))
  refine ⟨p1, ?_⟩
  refine lt_of_le_of_ne (not_lt.1 fun hh => ?_) (ne 2)
  refine no_three_nonneg hW 3 fun c hc => flux_nonneg_of_decay _ W _ hW hX hd c fun i hi => ?_
  rw [re]
  fin_cases i
  · exact neg_neg_of_pos p0
  · exact neg_neg_of_pos p1
  · exact neg_neg_of_pos hh
  · exact absurd hc hi

lemma absorbing_sorted {kx : ℝ} {eps : Tensor} (ha : Absorbing eps) (q : Fin 4 → ℂ) (w : Mat4)
    (hw : IsUnit w) (h : buildDelta kx eps * w = w * Matrix.diagonal q) (i : Fin 4) : (sortedQ q i).im ≠ 0 := by
  obtain ⟨hW, e⟩ := eigSorted_spec _ w q hw h
  exact absorbing_eig ha (col_ne_zero hW i) (col_eig e i)

lemma forward_absorbing {kx : ℝ} {eps : Tensor} (ha : Absorbing eps) (q : Fin 4 → ℂ) (w : Mat4)
    (hw : IsUnit w) (h : buildDelta kx eps * w = w * Matrix.diagonal q) : ForwardSplit q w := by
  obtain ⟨hW, e⟩ := eigSorted_spec _ w q hw h
  obtain ⟨p1, p2⟩ := damped_split (absorbing_ne ha) (absorbing_passive ha) q w hw h (absorbing_sorted ha q w hw h)
  have p0 := p1.trans_le (im_sorted (q := q) (i := 0) (j := 1) (by decide))
  have hX := smul_eig e I
  have hd := passive_form (kx := kx) (absorbing_ne ha) (absorbing_passive ha)
  have re : ∀ i, (I * sortedQ q i).re = -(sortedQ q i).im := by intro i; simp
  refine ⟨?_, ?_⟩
  · intro hh
    rw [hh] at p1
    linarith
  · intro c c2 c3
    refine flux_nonneg_of_decay _ _ _ hW hX hd c fun i hi => ?_
    rw [re]
    fin_cases i
    · exact neg_neg_of_pos p0
    · exact neg_neg_of_pos p1
    · exact absurd c2 hi
    · exact absurd c3 hi

/-! ## Transparent media with total reflection of one or both waves -/

/-- The sesquilinear form of the flux. -/
noncomputable def flx (v w : Fin 4 → ℂ) : ℂ :=
  (starRingEnd ℂ) (v 0) * w 3 + (starRingEnd ℂ) (v 3) * w 0 - (starRingEnd ℂ) (v 1) * w 2 - (starRingEnd ℂ) (v 2) * w 1

lemma flx_self (v : Fin 4 → ℂ) : flx v v = ((2 * flux v : ℝ) : ℂ) := by
  apply Complex.ext
  · simp [flx, flux, Complex.mul_re, Complex.mul_im]
    ring
  · simp [flx, Complex.mul_re, Complex.mul_im]
    ring

lemma flx_re (v w : Fin 4 → ℂ) : (flx v w).re = (fluxForm v w).re := by
  simp [flx, fluxForm, Complex.mul_re, Complex.mul_im]
  ring

lemma flx_conj (v w : Fin 4 → ℂ) : (starRingEnd ℂ) (flx v w) = flx w v := by
  simp [flx]
  ring

lemma flx_smul_right (a : ℂ) (v w : Fin 4 → ℂ) : flx v (a • w) = a * flx v w := by
  simp [flx]
  ring

lemma flx_smul_left (a : ℂ) (v w : Fin 4 → ℂ) : flx (a • v) w = (starRingEnd ℂ) a * flx v w := by
  simp [flx]
  ring

/-- In a lossless medium the Berreman matrix is self-adjoint for the flux. -/
lemma flx_selfadjoint (kx : ℝ) {eps : Tensor} (hl : Lossless eps) (h22 : eps 2 2 ≠ 0) (v w : Fin 4 → ℂ) :
    flx v (buildDelta kx eps *ᵥ w) = flx (buildDelta kx eps *ᵥ v) w := by
  have hc : ∀ i j, (starRingEnd ℂ) (eps i j) = eps j i := by
    intro i j
    have := congrFun (congrFun hl j) i
    simpa [Matrix.conjTranspose_apply] using this
  unfold flx
  simp only [buildDelta, Matrix.mulVec, dotProduct, Fin.sum_univ_four, Matrix.of_apply, Matrix.cons_val, map_add, map_mul,
    map_sub, map_neg, map_div₀, map_pow, hc, Complex.conj_ofReal, map_zero, map_one]
  field_simp
  ring

lemma flx_orth (kx : ℝ) {eps : Tensor} (hl : Lossless eps) (h22 : eps 2 2 ≠ 0) {v w : Fin 4 → ℂ} {a b : ℂ}
    (hv : buildDelta kx eps *ᵥ v = a • v) (hw : buildDelta kx eps *ᵥ w = b • w) (hne : b ≠ (starRingEnd ℂ) a) : flx v w = 0 := by
  have := flx_selfadjoint kx hl h22 v w
  rw [hv, hw, flx_smul_left, flx_smul_right] at this
  have h0 : (b - (starRingEnd ℂ) a) * flx v w = 0 := by linear_combination this
  exact (mul_eq_zero.1 h0).resolve_left (sub_ne_zero.2 hne)

lemma mulVec_cols (w : Mat4) (c : Fin 4 → ℂ) : w *ᵥ c = fun a => ∑ j, c j * w a j := by
  funext a
  simp only [Matrix.mulVec, dotProduct]
  exact Finset.sum_congr rfl fun j _ => mul_comm _ _

lemma flx_sum (w : Mat4) (c d : Fin 4 → ℂ) :
    flx (w *ᵥ c) (w *ᵥ d) = ∑ i, ∑ j, (starRingEnd ℂ) (c i) * d j * flx (fun a => w a i) (fun a => w a j) := by
  rw [mulVec_cols, mulVec_cols]
  simp only [flx, Fin.sum_univ_four, map_add, map_mul]
  ring

lemma flux_of_flx (v : Fin 4 → ℂ) : flux v = (flx v v).re / 2 := by
  rw [flx_self, Complex.ofReal_re]
  ring

/-- A vector orthogonal to all waves vanishes. -/
lemma flx_nondegenerate {w : Mat4} (hw : IsUnit w) {v : Fin 4 → ℂ} (h : ∀ j, flx (fun a => w a j) v = 0) : v = 0 := by
  have hj : w * w⁻¹ = 1 := Matrix.mul_nonsing_inv _ ((Matrix.isUnit_iff_isUnit_det _).1 hw)
  have hall : ∀ u, flx u v = 0 := by
    intro u
    have hu : u = w *ᵥ (w⁻¹ *ᵥ u) := by rw [Matrix.mulVec_mulVec, hj, Matrix.one_mulVec]
    rw [hu, mulVec_cols]
    generalize w⁻¹ *ᵥ u = c
    have h0 := h 0
    have h1 := h 1
    have h2 := h 2
    have h3 := h 3
    simp only [flx, Fin.sum_univ_four, map_add, map_mul] at *
    linear_combination (starRingEnd ℂ) (c 0) * h0 + (starRingEnd ℂ) (c 1) * h1 + (starRingEnd ℂ) (c 2) * h2 +
      (starRingEnd ℂ) (c 3) * h3
  have a0 := hall ![0, 0, 0, 1]
  have a1 := hall ![0, 0, 1, 0]
  have a2 := hall ![0, 1, 0, 0]
  have a3 := hall ![1, 0, 0, 0]
  simp [flx] at a0 a1 a2 a3
  funext i
  fin_cases i
  · exact a0
  · exact a1
  · exact a2
  · exact a3

/-- The energy form is positive on a suitable two-dimensional space of fields. -/
lemma form_pos {kx kz : ℝ} {eps : Tensor} (hpos : Inside 0 0 eps) {v : Fin 4 → ℂ} (hv : v ≠ 0) (h1 : v 1 = 0)
    (h0 : if kx = 0 then v 0 = 0 else (kx : ℂ) ^ 2 * v 3 + (eps 2 2 * kz + eps 2 0 * kx) * v 0 = 0) :
    0 < (fluxForm v (buildDelta kx eps *ᵥ v)).re - 2 * kz * flux v := by
  have h22 := inside_ne hpos
  rw [re_quadratic kx kz eps h22]
  have hz : eps 2 2 * fieldE kx eps v 2 = -(eps 2 0 * v 0 + eps 2 1 * v 1 + kx * v 3) := by
    simp only [fieldE, Matrix.cons_val]
    field_simp
  have e0 : fieldE kx eps v 0 = v 0 := rfl
  have e1 : fieldE kx eps v 1 = 0 := h1
  have hE : ∀ E : Fin 3 → ℂ, 0 ≤ (star E ⬝ᵥ eps *ᵥ E).re := by
    intro E
    by_cases hE : E = 0
    · simp [hE]
    · have := hpos E hE
      simp at this
      exact this.le
  have hx : kz * fieldE kx eps v 0 - kx * fieldE kx eps v 2 = 0 := by
    by_cases hk : kx = 0
    · rw [if_pos hk] at h0
      rw [e0, h0, hk]
      simp
    · rw [if_neg hk] at h0
      have : eps 2 2 * (kz * fieldE kx eps v 0 - kx * fieldE kx eps v 2) = 0 := by
        rw [e0]
        rw [h1] at hz
        linear_combination -(kx : ℂ) * hz + h0
      exact (mul_eq_zero.1 this).resolve_left h22
  have hx' : v 3 + kx * fieldE kx eps v 2 - kz * v 0 = v 3 := by
    rw [e0] at hx
    linear_combination -hx
  rw [hx, hx', e1, h1]
  simp only [mul_zero, norm_zero, add_zero, ne_eq, OfNat.ofNat_ne_zero, not_false_eq_true, zero_pow, sub_zero]
  by_contra hn
  have hq := hE (fieldE kx eps v)
  have h3 : v 3 = 0 := by
    rw [← norm_eq_zero, ← sq_eq_zero_iff]
    nlinarith [sq_nonneg ‖v 2‖, sq_nonneg ‖v 3‖]
  have h2 : v 2 = 0 := by
    rw [← norm_eq_zero, ← sq_eq_zero_iff]
    nlinarith [sq_nonneg ‖v 2‖, sq_nonneg ‖v 3‖]
  have hf : fieldE kx eps v = 0 := by
    by_contra hf
    have := hpos _ hf
    simp at this
    nlinarith [sq_nonneg ‖v 2‖, sq_nonneg ‖v 3‖]
  apply hv
  funext i
  fin_cases i
  · exact congrFun hf 0
  · exact h1
  · exact h2
  · exact h3

lemma evanescent_first {kx : ℝ} {eps : Tensor} (hl : Lossless eps) (h22 : eps 2 2 ≠ 0) {W : Mat4} {Q : Fin 4 → ℂ} (hW : IsUnit W)
    (e : buildDelta kx eps * W = W * Matrix.diagonal Q) {i : Fin 4} (hi : (Q i).im ≠ 0) : ∃ j, 0 < (Q j).im := by
  by_contra hn
  push Not at hn
  have hneg : (Q i).im < 0 := lt_of_le_of_ne (hn i) hi
  refine col_ne_zero hW i (flx_nondegenerate hW fun j => ?_)
  refine flx_orth kx hl h22 (col_eig e j) (col_eig e i) fun hh => ?_
  have := congrArg Complex.im hh
  rw [Complex.conj_im] at this
  linarith [hn j]

lemma forward_evanescent {kx : ℝ} {eps : Tensor} (hl : Lossless eps) (hpos : Inside 0 0 eps) (q : Fin 4 → ℂ) (w : Mat4)
    (hw : IsUnit w) (h : buildDelta kx eps * w = w * Matrix.diagonal q) (hev : ∃ i, (q i).im ≠ 0)
    (hsimple : ∀ i j, i ≠ j → q i = q j → (q i).im ≠ 0) : ForwardSplit q w := by
  have hgap : sortedQ q 1 ≠ sortedQ q 2 := by
    obtain ⟨hW, e⟩ := eigSorted_spec _ w q hw h
    intro hh
    have hne : takeIdx (argsort (lexLe q)) (argsort_length _) 1 ≠ takeIdx (argsort (lexLe q)) (argsort_length _) 2 :=
      fun he => absurd ((takeIdx_bijective (lexLe q)).1 he) (by decide)
    have him : (sortedQ q 1).im ≠ 0 := hsimple _ _ hne hh
    have s := fun i j (hij : i < j) => im_sorted (q := q) (i := i) (j := j) hij
    have hX := smul_eig e I
    have hd := passive_form (kx := kx) (inside_ne hpos) (lossless_passive hl)
    have re : ∀ i, (I * sortedQ q i).re = -(sortedQ q i).im := by intro i; simp
    rcases him.lt_or_gt with hneg | hpos'
    · refine no_three_nonpos hW 0 fun c hc => flux_nonpos_of_growth _ _ _ hW hX hd c fun i hi => ?_
      rw [re]
      fin_cases i
      · exact absurd hc hi
      · exact neg_pos.2 hneg
      · exact neg_pos.2 ((s 1 2 (by decide)).trans_lt hneg)
      · exact neg_pos.2 ((s 1 3 (by decide)).trans_lt hneg)
    · refine no_three_nonneg hW 3 fun c hc => flux_nonneg_of_decay _ _ _ hW hX hd c fun i hi => ?_
      rw [re]
      fin_cases i
      · exact neg_neg_of_pos (hpos'.trans_le (s 0 1 (by decide)))
      · exact neg_neg_of_pos hpos'
      · exact neg_neg_of_pos (hh ▸ hpos')
      · exact absurd hc hi
  refine ⟨hgap, ?_⟩
  obtain ⟨hW, e⟩ := eigSorted_spec _ w q hw h
  have h22 := inside_ne hpos
  have s := fun i j (hij : i < j) => im_sorted (q := q) (i := i) (j := j) hij
  have s' := fun i j (hij : i < j) => sortedQ_anti q (i := i) (j := j) hij
  have hev' : ∃ i, (sortedQ q i).im ≠ 0 := by
    obtain ⟨i, hi⟩ := hev
    obtain ⟨k, hk⟩ := (takeIdx_bijective (lexLe q)).2 i
    exact ⟨k, by rw [sortedQ, hk]; exact hi⟩
  revert hW e s s' hev' hgap
  generalize eigSorted q w = W
  generalize sortedQ q = Q
  intro hgap hW e s s' hev'
  have orth := fun i j (hne : Q j ≠ (starRingEnd ℂ) (Q i)) => flx_orth kx hl h22 (col_eig e i) (col_eig e j) hne
  have oim : ∀ i j, (Q j).im ≠ -(Q i).im → flx (fun a => W a i) (fun a => W a j) = 0 := by
    intro i j hne
    refine orth i j fun hh => hne ?_
    rw [hh, Complex.conj_im]
  have hX := smul_eig e I
  have hd := passive_form (kx := kx) h22 (lossless_passive hl)
  have re : ∀ i, (I * Q i).re = -(Q i).im := by intro i; simp
  have p0 : 0 < (Q 0).im := by
    obtain ⟨i, hi⟩ := hev'
    obtain ⟨j, hj⟩ := evanescent_first hl h22 hW e hi
    by_cases hj0 : j = 0
    · rwa [hj0] at hj
    · exact hj.trans_le (s 0 j (Fin.pos_of_ne_zero hj0))
  have n1 : 0 ≤ (Q 1).im := by
    by_contra hn
    push Not at hn
    refine no_three_nonpos hW 0 fun c hc => flux_nonpos_of_growth _ W _ hW hX hd c fun i hi => ?_
    rw [re]
    fin_cases i
    · exact absurd hc hi
    · exact neg_pos.2 hn
    · exact neg_pos.2 ((s 1 2 (by decide)).trans_lt hn)
    · exact neg_pos.2 ((s 1 3 (by decide)).trans_lt hn)
  rcases n1.lt_or_eq with p1 | z1
  · intro c c2 c3
    refine flux_nonneg_of_decay _ W _ hW hX hd c fun i hi => ?_
    rw [re]
    fin_cases i
    · exact neg_neg_of_pos p0
    · exact neg_neg_of_pos p1
    · exact absurd c2 hi
    · exact absurd c3 hi
  · -- the first wave is evanescent, the second one is not
    have o00 := oim 0 0 (by linarith)
    have o01 := oim 0 1 (by linarith)
    have o10 := oim 1 0 (by linarith)
    have f1 : 0 ≤ flux (fun a => W a 1) := by
      by_contra hneg
      push Not at hneg
      have le2 : (Q 2).im ≤ 0 := z1 ▸ s 1 2 (by decide)
      rcases le2.lt_or_eq with m2 | z2
      · have m3 : (Q 3).im < 0 := (s 2 3 (by decide)).trans_lt m2
        have o12 := oim 1 2 (by linarith)
        have o13 := oim 1 3 (by linarith)
        have o21 := oim 2 1 (by linarith)
        have o31 := oim 3 1 (by linarith)
        have o22 := oim 2 2 (by linarith)
        have o23 := oim 2 3 (by linarith)
        have o32 := oim 3 2 (by linarith)
        have o33 := oim 3 3 (by linarith)
        refine no_three_nonpos hW 0 fun c hc => ?_
        rw [flux_of_flx, flx_sum]
        simp only [Fin.sum_univ_four, hc, o12, o13, o21, o31, o22, o23, o32, o33, flx_self, map_zero]
        simp
        have : 0 ≤ ‖c 1‖ ^ 2 := by positivity
        rw [← Complex.normSq_eq_norm_sq, Complex.normSq_apply] at this
        nlinarith
      · have o12 : flx (fun a => W a 1) (fun a => W a 2) = 0 := orth 1 2 fun hh => hgap (by
          rw [hh]
          apply Complex.ext <;> simp [← z1])
        have o21 : flx (fun a => W a 2) (fun a => W a 1) = 0 := by rw [← flx_conj, o12, map_zero]
        have o02 := oim 0 2 (by linarith)
        have o20 := oim 2 0 (by linarith)
        have f2 : 0 < flux (fun a => W a 2) := by
          by_contra hn
          push Not at hn
          refine no_three_nonpos hW 3 fun c hc => ?_
          rw [flux_of_flx, flx_sum]
          simp only [Fin.sum_univ_four, hc, o00, o01, o10, o12, o21, o02, o20, flx_self, map_zero]
          simp
          have a1 : 0 ≤ ‖c 1‖ ^ 2 := by positivity
          have a2 : 0 ≤ ‖c 2‖ ^ 2 := by positivity
          rw [← Complex.normSq_eq_norm_sq, Complex.normSq_apply] at a1 a2
          nlinarith
        have lt : (Q 2).re < (Q 1).re := by
          rcases s' 1 2 (by decide) with hh | ⟨-, hh⟩
          · rw [z2, ← z1] at hh
            exact absurd hh (lt_irrefl _)
          · refine lt_of_le_of_ne hh fun h2 => hgap ?_
            apply Complex.ext
            · exact h2.symm
            · rw [← z1, z2]
        set kz : ℝ := ((Q 1).re + (Q 2).re) / 2 with hkz
        obtain ⟨c, hc, c3, g1, g0⟩ := exists_combo_cols W 3 ![0, 1, 0, 0]
          (if kx = 0 then ![1, 0, 0, 0] else ![eps 2 2 * kz + eps 2 0 * kx, 0, 0, (kx : ℂ) ^ 2])
        have hform := form_pos (kx := kx) (kz := kz) hpos (mulVec_ne_zero hW hc)
          (by simpa [dotProduct, Fin.sum_univ_four] using g1)
          (by
            split_ifs at g0 ⊢ with hk
            · simpa [dotProduct, Fin.sum_univ_four] using g0
            · simp [dotProduct, Fin.sum_univ_four] at g0
              linear_combination g0)
        have hmul : buildDelta kx eps *ᵥ (W *ᵥ c) = W *ᵥ fun i => Q i * c i := by
          rw [Matrix.mulVec_mulVec, e, ← Matrix.mulVec_mulVec]
          congr 1
          funext i
          rw [Matrix.mulVec_diagonal]
        rw [hmul, ← flx_re, flx_sum, flux_of_flx, flx_sum] at hform
        simp only [Fin.sum_univ_four, c3, o00, o01, o10, o12, o21, o02, o20, flx_self, map_zero] at hform
        simp [← z1, z2] at hform
        have a1 : 0 ≤ ‖c 1‖ ^ 2 := by positivity
        have a2 : 0 ≤ ‖c 2‖ ^ 2 := by positivity
        rw [← Complex.normSq_eq_norm_sq, Complex.normSq_apply] at a1 a2
        have b1 : ((Q 1).re - kz) * flux (fun a => W a 1) ≤ 0 :=
          mul_nonpos_of_nonneg_of_nonpos (by rw [hkz]; linarith) hneg.le
        have b2 : ((Q 2).re - kz) * flux (fun a => W a 2) ≤ 0 :=
          mul_nonpos_of_nonpos_of_nonneg (by rw [hkz]; linarith) f2.le
        have d1 := mul_nonpos_of_nonneg_of_nonpos a1 b1
        have d2 := mul_nonpos_of_nonneg_of_nonpos a2 b2
        nlinarith
    intro c c2 c3
    rw [flux_of_flx, flx_sum]
    simp only [Fin.sum_univ_four, c2, c3, o00, o01, o10, flx_self, map_zero]
    simp
    have a1 : 0 ≤ ‖c 1‖ ^ 2 := by positivity
    rw [← Complex.normSq_eq_norm_sq, Complex.normSq_apply] at a1
    nlinarith

end PyElli
