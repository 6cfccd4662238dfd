import Verif.Lemmas.ExitForward
import Mathlib.Tactic

/-! Waves in transparent uniaxial crystals. -/

namespace Spec

open Matrix

/-- Permittivity of a transparent uniaxial crystal: ordinary and extraordinary permittivity, direction of the optic axis. -/
noncomputable def uniaxial (eo ee : ℝ) (c : Fin 3 → ℝ) : Matrix (Fin 3) (Fin 3) ℂ :=
  fun i j => (((if i = j then eo else 0) + (ee - eo) * c i * c j : ℝ) : ℂ)

end Spec

namespace PyElli

open Matrix Complex Spec

lemma dot3 (a b : Fin 3 → ℝ) : a ⬝ᵥ b = a 0 * b 0 + a 1 * b 1 + a 2 * b 2 := by
  simp [dotProduct, Fin.sum_univ_three]

lemma cauchy3 (m e : Fin 3 → ℝ) : (m ⬝ᵥ e) ^ 2 ≤ (m ⬝ᵥ m) * (e ⬝ᵥ e) := by
  rw [dot3, dot3, dot3]
  generalize m 0 = a
  generalize m 1 = b
  generalize m 2 = c
  generalize e 0 = x
  generalize e 1 = y
  generalize e 2 = z
  nlinarith [sq_nonneg (a * y - b * x), sq_nonneg (a * z - c * x), sq_nonneg (b * z - c * y)]

lemma square3 (m e : Fin 3 → ℝ) (a x : ℝ) : 0 ≤ a ^ 2 * (e ⬝ᵥ e) + 2 * a * x * (m ⬝ᵥ e) + x ^ 2 * (m ⬝ᵥ m) := by
  have h : a ^ 2 * (e ⬝ᵥ e) + 2 * a * x * (m ⬝ᵥ e) + x ^ 2 * (m ⬝ᵥ m) =
      (a * e 0 + x * m 0) ^ 2 + (a * e 1 + x * m 1) ^ 2 + (a * e 2 + x * m 2) ^ 2 := by
    rw [dot3, dot3, dot3]
    ring
  rw [h]
  positivity

lemma dot_self_pos {E : Fin 3 → ℝ} (hE : E ≠ 0) : 0 < E ⬝ᵥ E := by
  rw [dot3]
  by_contra hn
  apply hE
  have h0 : E 0 = 0 := by nlinarith [sq_nonneg (E 0), sq_nonneg (E 1), sq_nonneg (E 2)]
  have h1 : E 1 = 0 := by nlinarith [sq_nonneg (E 0), sq_nonneg (E 1), sq_nonneg (E 2)]
  have h2 : E 2 = 0 := by nlinarith [sq_nonneg (E 0), sq_nonneg (E 1), sq_nonneg (E 2)]
  funext i
  fin_cases i
  · exact h0
  · exact h1
  · exact h2

/-- A Cauchy-Schwarz inequality for the form `a |E|² + (k·E)²`. -/
lemma uniaxial_cauchy {a : ℝ} (ha : 0 ≤ a) (c k E : Fin 3 → ℝ) (hc : c ⬝ᵥ c = 1) :
    a * (a + k ⬝ᵥ k) * (c ⬝ᵥ E) ^ 2 ≤ (a + k ⬝ᵥ k - (k ⬝ᵥ c) ^ 2) * (a * (E ⬝ᵥ E) + (k ⬝ᵥ E) ^ 2) := by
  set al := c ⬝ᵥ E with hal
  set ka := k ⬝ᵥ c with hka
  set e : Fin 3 → ℝ := fun i => E i - al * c i with he
  set m : Fin 3 → ℝ := fun i => k i - ka * c i with hm
  rw [dot3] at hc hal hka
  have hE : E ⬝ᵥ E = al ^ 2 + e ⬝ᵥ e := by
    rw [dot3, dot3, he]
    simp only
    linear_combination -al ^ 2 * hc - 2 * al * hal
  have hk : k ⬝ᵥ k = ka ^ 2 + m ⬝ᵥ m := by
    rw [dot3, dot3, hm]
    simp only
    linear_combination -ka ^ 2 * hc - 2 * ka * hka
  have hx : k ⬝ᵥ E = al * ka + m ⬝ᵥ e := by
    rw [dot3, dot3, hm, he]
    simp only
    linear_combination -(al * ka) * hc - ka * hal - al * hka
  rw [hE, hk, hx]
  have hcs := cauchy3 m e
  have hsq := square3 m e a (al * ka + m ⬝ᵥ e)
  clear_value al ka e m
  generalize e ⬝ᵥ e = P at *
  generalize m ⬝ᵥ m = K at *
  generalize m ⬝ᵥ e = y at *
  have := mul_le_mul_of_nonneg_left hcs ha
  linarith

/-- Real form of the condition `Inside` for a negative uniaxial crystal. -/
lemma uniaxial_real {eo d : ℝ} (c k E : Fin 3 → ℝ) (hc : c ⬝ᵥ c = 1) (hd : 0 ≤ d) (hed : d < eo)
    (hk : eo * (k ⬝ᵥ k) - d * (k ⬝ᵥ c) ^ 2 < eo * (eo - d)) (hE : E ≠ 0) :
    (k ⬝ᵥ k) * (E ⬝ᵥ E) - (k ⬝ᵥ E) ^ 2 < eo * (E ⬝ᵥ E) - d * (c ⬝ᵥ E) ^ 2 := by
  have heo : 0 < eo := hd.trans_lt hed
  have hcs : (k ⬝ᵥ c) ^ 2 ≤ k ⬝ᵥ k := by
    have := cauchy3 k c
    rwa [hc, mul_one] at this
  have ha : 0 < eo - k ⬝ᵥ k := by
    have : (eo - d) * (k ⬝ᵥ k) < (eo - d) * eo := by nlinarith
    have := lt_of_mul_lt_mul_left this (by linarith)
    linarith
  have key := uniaxial_cauchy ha.le c k E hc
  have e1 : eo - k ⬝ᵥ k + k ⬝ᵥ k = eo := by ring
  rw [e1] at key
  have hEE := dot_self_pos hE
  have hN : 0 < (eo - k ⬝ᵥ k) * (E ⬝ᵥ E) + (k ⬝ᵥ E) ^ 2 := by positivity
  have h1 : d * (eo - (k ⬝ᵥ c) ^ 2) < (eo - k ⬝ᵥ k) * eo := by nlinarith
  have h2 := mul_lt_mul_of_pos_right h1 hN
  have h3 := mul_le_mul_of_nonneg_left key hd
  have h4 : (eo - k ⬝ᵥ k) * eo * (d * (c ⬝ᵥ E) ^ 2) < (eo - k ⬝ᵥ k) * eo * ((eo - k ⬝ᵥ k) * (E ⬝ᵥ E) + (k ⬝ᵥ E) ^ 2) := by
    nlinarith
  have h5 := lt_of_mul_lt_mul_left h4 (by positivity)
  nlinarith

lemma uniaxial_form (eo ee : ℝ) (c : Fin 3 → ℝ) (E : Fin 3 → ℂ) :
    (star E ⬝ᵥ uniaxial eo ee c *ᵥ E).re =
      eo * ((fun i => (E i).re) ⬝ᵥ (fun i => (E i).re) + (fun i => (E i).im) ⬝ᵥ (fun i => (E i).im)) +
      (ee - eo) * ((c ⬝ᵥ fun i => (E i).re) ^ 2 + (c ⬝ᵥ fun i => (E i).im) ^ 2) := by
  simp only [dot3]
  simp [uniaxial, Matrix.mulVec, dotProduct, Fin.sum_univ_three, Complex.mul_re, Complex.mul_im]
  ring

lemma cross_form (kx kz : ℝ) (E : Fin 3 → ℂ) :
    ‖kz * E 1‖ ^ 2 + ‖kz * E 0 - kx * E 2‖ ^ 2 + ‖kx * E 1‖ ^ 2 =
      (![kx, 0, kz] ⬝ᵥ ![kx, 0, kz]) * ((fun i => (E i).re) ⬝ᵥ (fun i => (E i).re)) - (![kx, 0, kz] ⬝ᵥ fun i => (E i).re) ^ 2 +
      ((![kx, 0, kz] ⬝ᵥ ![kx, 0, kz]) * ((fun i => (E i).im) ⬝ᵥ (fun i => (E i).im)) - (![kx, 0, kz] ⬝ᵥ fun i => (E i).im) ^ 2) := by
  simp only [dot3, ← Complex.normSq_eq_norm_sq, Complex.normSq_apply]
  simp [Complex.mul_re, Complex.mul_im]
  ring

lemma uniaxial_inside_of_real {eo ee kx kz : ℝ} {c : Fin 3 → ℝ}
    (h : ∀ E : Fin 3 → ℝ, E ≠ 0 → (![kx, 0, kz] ⬝ᵥ ![kx, 0, kz]) * (E ⬝ᵥ E) - (![kx, 0, kz] ⬝ᵥ E) ^ 2 <
      eo * (E ⬝ᵥ E) + (ee - eo) * (c ⬝ᵥ E) ^ 2) : Inside kx kz (uniaxial eo ee c) := by
  intro E hE
  rw [uniaxial_form, cross_form]
  have hle : ∀ E : Fin 3 → ℝ, (![kx, 0, kz] ⬝ᵥ ![kx, 0, kz]) * (E ⬝ᵥ E) - (![kx, 0, kz] ⬝ᵥ E) ^ 2 ≤
      eo * (E ⬝ᵥ E) + (ee - eo) * (c ⬝ᵥ E) ^ 2 := by
    intro E
    by_cases hE : E = 0
    · simp [hE]
    · exact (h E hE).le
  by_cases hr : (fun i => (E i).re) = 0
  · have hi : (fun i => (E i).im) ≠ 0 := by
      intro hi
      apply hE
      funext i
      apply Complex.ext
      · exact congrFun hr i
      · exact congrFun hi i
    have h1 := h _ hi
    have h2 := hle fun i => (E i).re
    linarith
  · have h1 := h _ hr
    have h2 := hle fun i => (E i).im
    linarith

/-- Positive uniaxial crystal below the critical angle of the ordinary wave. -/
lemma inside_positive {eo ee kx : ℝ} (c : Fin 3 → ℝ) (h : eo ≤ ee) (hk : kx ^ 2 < eo) : Inside kx 0 (uniaxial eo ee c) := by
  refine uniaxial_inside_of_real fun E hE => ?_
  have hEE : 0 < E ⬝ᵥ E := by
    exact dot_self_pos hE
  have h1 : (![kx, 0, 0] : Fin 3 → ℝ) ⬝ᵥ ![kx, 0, 0] = kx ^ 2 := by rw [dot3]; simp; ring
  rw [h1]
  have h2 := mul_lt_mul_of_pos_right hk hEE
  have h3 : 0 ≤ (ee - eo) * (c ⬝ᵥ E) ^ 2 := mul_nonneg (by linarith) (sq_nonneg _)
  nlinarith [sq_nonneg (![kx, 0, 0] ⬝ᵥ E)]

/-- Negative uniaxial crystal below the critical angle of the extraordinary wave. -/
lemma inside_negative {eo ee kx : ℝ} {c : Fin 3 → ℝ} (hc : c ⬝ᵥ c = 1) (hee : 0 < ee) (h : ee ≤ eo)
    (hk : kx ^ 2 * (eo * c 1 ^ 2 + ee * (1 - c 1 ^ 2)) < ee * (eo + (ee - eo) * c 2 ^ 2)) :
    ∃ kz, Inside kx kz (uniaxial eo ee c) := by
  have heo : 0 < eo := hee.trans_le h
  have hc' := hc
  rw [dot3] at hc'
  have hz : 0 < eo + (ee - eo) * c 2 ^ 2 := by
    have : c 2 ^ 2 ≤ 1 := by nlinarith [sq_nonneg (c 0), sq_nonneg (c 1)]
    nlinarith [sq_nonneg (c 2)]
  refine ⟨-((ee - eo) * c 0 * c 2 * kx) / (eo + (ee - eo) * c 2 ^ 2), uniaxial_inside_of_real fun E hE => ?_⟩
  set kz := -((ee - eo) * c 0 * c 2 * kx) / (eo + (ee - eo) * c 2 ^ 2) with hkz
  have hzz : (eo + (ee - eo) * c 2 ^ 2) * kz = -((ee - eo) * c 0 * c 2 * kx) := by rw [hkz]; field_simp
  have hkk : (![kx, 0, kz] : Fin 3 → ℝ) ⬝ᵥ ![kx, 0, kz] = kx ^ 2 + kz ^ 2 := by rw [dot3]; simp; ring
  have hkc : (![kx, 0, kz] : Fin 3 → ℝ) ⬝ᵥ c = kx * c 0 + kz * c 2 := by rw [dot3]; simp
  have hlim : eo * (![kx, 0, kz] ⬝ᵥ ![kx, 0, kz]) - (eo - ee) * (![kx, 0, kz] ⬝ᵥ c) ^ 2 < eo * (eo - (eo - ee)) := by
    rw [hkk, hkc]
    have e1 : (eo + (ee - eo) * c 2 ^ 2) * (eo * (kx ^ 2 + kz ^ 2) - (eo - ee) * (kx * c 0 + kz * c 2) ^ 2) =
        eo * (kx ^ 2 * (eo * c 1 ^ 2 + ee * (1 - c 1 ^ 2))) := by
      have hc1 : c 1 ^ 2 = 1 - c 0 ^ 2 - c 2 ^ 2 := by linarith
      rw [hc1]
      linear_combination ((eo + (ee - eo) * c 2 ^ 2) * kz + (ee - eo) * c 0 * c 2 * kx) * hzz
    have e2 : (eo + (ee - eo) * c 2 ^ 2) * (eo * (kx ^ 2 + kz ^ 2) - (eo - ee) * (kx * c 0 + kz * c 2) ^ 2) <
        (eo + (ee - eo) * c 2 ^ 2) * (eo * (eo - (eo - ee))) := by
      rw [e1]
      have := mul_lt_mul_of_pos_left hk heo
      nlinarith
    exact lt_of_mul_lt_mul_left e2 hz.le
  have := uniaxial_real c ![kx, 0, kz] E hc (sub_nonneg.2 h) (by linarith) hlim hE
  linarith

/-- Plane waves of Maxwell's equations are eigenvectors of the Berreman matrix. -/
lemma plane_wave_eig {kx q : ℂ} {eps : Tensor} (h22 : eps 2 2 ≠ 0) {E H : Fin 3 → ℂ}
    (e0 : -(q * E 1) = H 0) (e1 : q * E 0 - kx * E 2 = H 1) (e2 : kx * E 1 = H 2)
    (d0 : -(q * H 1) = -(eps *ᵥ E) 0) (d1 : q * H 0 - kx * H 2 = -(eps *ᵥ E) 1) (d2 : kx * H 1 = -(eps *ᵥ E) 2) :
    buildDelta kx eps *ᵥ ![E 0, E 1, H 0, H 1] = q • ![E 0, E 1, H 0, H 1] := by
  have m : ∀ i, (eps *ᵥ E) i = eps i 0 * E 0 + eps i 1 * E 1 + eps i 2 * E 2 := by
    intro i
    simp [Matrix.mulVec, dotProduct, Fin.sum_univ_three]
  rw [m] at d0 d1 d2
  have hz : E 2 = -(eps 2 0 * E 0 + eps 2 1 * E 1 + kx * H 1) / eps 2 2 := by
    field_simp
    linear_combination d2
  funext i
  fin_cases i
  · simp [buildDelta, Matrix.mulVec, dotProduct, Fin.sum_univ_four]
    have : q * E 0 = H 1 + kx * E 2 := by linear_combination e1
    rw [this, hz]
    field_simp
    ring
  · simp [buildDelta, Matrix.mulVec, dotProduct, Fin.sum_univ_four]
    linear_combination e0
  · simp [buildDelta, Matrix.mulVec, dotProduct, Fin.sum_univ_four]
    have : q * H 0 = kx * (kx * E 1) - (eps 1 0 * E 0 + eps 1 1 * E 1 + eps 1 2 * E 2) := by linear_combination d1 - kx * e2
    rw [this, hz]
    field_simp
    ring
  · simp [buildDelta, Matrix.mulVec, dotProduct, Fin.sum_univ_four]
    have : q * H 1 = eps 0 0 * E 0 + eps 0 1 * E 1 + eps 0 2 * E 2 := by linear_combination -d0
    rw [this, hz]
    field_simp
    ring

/-- Every eigenvalue of a diagonalised matrix is listed. -/
lemma mem_of_eig {X w : Mat4} {q : Fin 4 → ℂ} (hw : IsUnit w) (h : X * w = w * Matrix.diagonal q) {v : Fin 4 → ℂ} (hv : v ≠ 0)
    {mu : ℂ} (hm : X *ᵥ v = mu • v) : ∃ i, q i = mu := by
  have hj : w * w⁻¹ = 1 := Matrix.mul_nonsing_inv _ ((Matrix.isUnit_iff_isUnit_det _).1 hw)
  set c := w⁻¹ *ᵥ v with hc
  have hvc : w *ᵥ c = v := by rw [hc, Matrix.mulVec_mulVec, hj, Matrix.one_mulVec]
  by_contra hn
  push Not at hn
  have h0 : w *ᵥ (fun i => (q i - mu) * c i) = 0 := by
    have : X *ᵥ (w *ᵥ c) = w *ᵥ (fun i => q i * c i) := by
      rw [Matrix.mulVec_mulVec, h, ← Matrix.mulVec_mulVec]
      congr 1
      funext i
      rw [Matrix.mulVec_diagonal]
    have e : (fun i => (q i - mu) * c i) = (fun i => q i * c i) - mu • c := by
      funext i
      simp
      ring
    rw [e, Matrix.mulVec_sub, ← this, Matrix.mulVec_smul, hvc, hm, sub_self]
  have hz : (fun i => (q i - mu) * c i) = 0 := by
    by_contra hne
    exact mulVec_ne_zero hw hne h0
  apply hv
  rw [← hvc]
  have : c = 0 := by
    funext i
    exact (mul_eq_zero.1 (congrFun hz i)).resolve_left (sub_ne_zero.2 (hn i))
  rw [this, Matrix.mulVec_zero]

lemma uniaxial_mul (eo ee : ℝ) (c : Fin 3 → ℝ) (E : Fin 3 → ℂ) (i : Fin 3) :
    (uniaxial eo ee c *ᵥ E) i = eo * E i + (ee - eo) * c i * (c 0 * E 0 + c 1 * E 1 + c 2 * E 2) := by
  fin_cases i <;> simp [uniaxial, Matrix.mulVec, dotProduct, Fin.sum_univ_three] <;> ring

lemma uniaxial_ne {eo ee : ℝ} {c : Fin 3 → ℝ} (hc : c ⬝ᵥ c = 1) (heo : 0 < eo) (hee : 0 < ee) :
    0 < eo + (ee - eo) * c 2 ^ 2 ∧ uniaxial eo ee c 2 2 = ((eo + (ee - eo) * c 2 ^ 2 : ℝ) : ℂ) := by
  rw [dot3] at hc
  constructor
  · have h1 : c 2 ^ 2 ≤ 1 := by nlinarith [sq_nonneg (c 0), sq_nonneg (c 1)]
    have h2 : eo + (ee - eo) * c 2 ^ 2 = eo * (1 - c 2 ^ 2) + ee * c 2 ^ 2 := by ring
    rw [h2]
    rcases (sq_nonneg (c 2)).lt_or_eq with h3 | h3
    · have := mul_pos hee h3
      have := mul_nonneg heo.le (sub_nonneg.2 h1)
      linarith
    · rw [← h3]
      linarith
  · simp [uniaxial]
    ring

/-- Above its critical angle the ordinary wave is evanescent. -/
lemma ordinary_evanescent {eo ee kx : ℝ} {c : Fin 3 → ℝ} (hc : c ⬝ᵥ c = 1) (heo : 0 < eo) (hee : 0 < ee) (hk : eo < kx ^ 2)
    {q : Fin 4 → ℂ} {w : Mat4} (hw : IsUnit w) (h : buildDelta kx (uniaxial eo ee c) * w = w * Matrix.diagonal q) :
    ∃ i, (q i).im ≠ 0 := by
  set s := Real.sqrt (kx ^ 2 - eo) with hs
  have hs2 : s ^ 2 = kx ^ 2 - eo := Real.sq_sqrt (by linarith)
  have hs0 : 0 < s := Real.sqrt_pos.2 (by linarith)
  have hs2' : (s : ℂ) ^ 2 = kx ^ 2 - eo := by exact_mod_cast hs2
  have h22 : uniaxial eo ee c 2 2 ≠ 0 := by
    rw [(uniaxial_ne hc heo hee).2]
    exact_mod_cast (uniaxial_ne hc heo hee).1.ne'
  have hI := Complex.I_sq
  have e := plane_wave_eig (kx := kx) (q := I * s) (eps := uniaxial eo ee c) h22
    (E := ![-(I * s * c 1), I * s * c 0 - kx * c 2, kx * c 1])
    (H := ![-(I * s * (I * s * c 0 - kx * c 2)), I * s * -(I * s * c 1) - kx * (kx * c 1), kx * (I * s * c 0 - kx * c 2)])
    (by simp) (by simp) (by simp)
    (by rw [uniaxial_mul]; simp only [Matrix.cons_val]; linear_combination (I * s * c 1) * (I ^ 2 * hs2' + (kx ^ 2 - eo) * hI))
    (by rw [uniaxial_mul]; simp only [Matrix.cons_val]; linear_combination (-(I * s * c 0 - kx * c 2)) * (I ^ 2 * hs2' + (kx ^ 2 - eo) * hI))
    (by rw [uniaxial_mul]; simp only [Matrix.cons_val]; linear_combination (-kx * c 1) * (I ^ 2 * hs2' + (kx ^ 2 - eo) * hI))
  obtain ⟨i, hi⟩ := mem_of_eig hw h (by
    intro h0
    have a0 := congrFun h0 0
    have a1 := congrFun h0 1
    simp at a0 a1
    have r := congrArg Complex.re a1
    have m := congrArg Complex.im a1
    simp at r m
    have hkx : kx ≠ 0 := by rintro rfl; simp at hk; linarith
    rw [dot3] at hc
    have c1 : c 1 = 0 := a0.resolve_left hs0.ne'
    have c0 : c 0 = 0 := m.resolve_left hs0.ne'
    have c2 : c 2 = 0 := r.resolve_left hkx
    rw [c0, c1, c2] at hc
    simp at hc) e
  refine ⟨i, ?_⟩
  rw [hi]
  simp
  exact hs0.ne'

/-- Above its critical angle the extraordinary wave is evanescent. -/
lemma extraordinary_evanescent {eo ee kx : ℝ} {c : Fin 3 → ℝ} (hc : c ⬝ᵥ c = 1) (heo : 0 < eo) (hee : 0 < ee)
    (hk : ee * (eo + (ee - eo) * c 2 ^ 2) < kx ^ 2 * (eo * c 1 ^ 2 + ee * (1 - c 1 ^ 2)))
    {q : Fin 4 → ℂ} {w : Mat4} (hw : IsUnit w) (h : buildDelta kx (uniaxial eo ee c) * w = w * Matrix.diagonal q) :
    ∃ i, (q i).im ≠ 0 := by
  obtain ⟨hz, hz'⟩ := uniaxial_ne hc heo hee
  have h22 : uniaxial eo ee c 2 2 ≠ 0 := by
    rw [hz']
    exact_mod_cast hz.ne'
  have hcc := hc
  rw [dot3] at hcc
  set z := eo + (ee - eo) * c 2 ^ 2 with hzd
  set s := Real.sqrt (eo * (kx ^ 2 * (eo * c 1 ^ 2 + ee * (1 - c 1 ^ 2)) - ee * z)) with hs
  have hpos : 0 < eo * (kx ^ 2 * (eo * c 1 ^ 2 + ee * (1 - c 1 ^ 2)) - ee * z) := mul_pos heo (by linarith)
  have hs2 : s ^ 2 = eo * (kx ^ 2 * (eo * c 1 ^ 2 + ee * (1 - c 1 ^ 2)) - ee * z) := Real.sq_sqrt hpos.le
  have hs0 : 0 < s := Real.sqrt_pos.2 hpos
  set p : ℂ := (((-((ee - eo) * c 0 * c 2 * kx) : ℝ) : ℂ) + I * s) / (z : ℂ) with hp
  have hzc : (z : ℂ) ≠ 0 := by exact_mod_cast hz.ne'
  have hpz : (z : ℂ) * p = -((ee - eo) * c 0 * c 2 * kx) + I * s := by
    rw [hp]
    push_cast
    field_simp
  have hI := Complex.I_sq
  have hs2' : (s : ℂ) ^ 2 = eo * (kx ^ 2 * (eo * c 1 ^ 2 + ee * (1 - c 1 ^ 2)) - ee * z) := by exact_mod_cast hs2
  have hcc' : (c 0 : ℂ) * c 0 + c 1 * c 1 + c 2 * c 2 = 1 := by exact_mod_cast hcc
  have hzd' : (z : ℂ) = eo + (ee - eo) * c 2 ^ 2 := by rw [hzd]; push_cast; ring
  have him : p.im ≠ 0 := by
    intro h0
    have := congrArg Complex.im hpz
    simp [h0] at this
    exact hs0.ne this
  clear_value p s z
  -- the dispersion relation
  have hdisp : (eo : ℂ) * (kx ^ 2 + p ^ 2) - (eo - ee) * (kx * c 0 + p * c 2) ^ 2 = eo * ee := by
    have hsq : (z : ℂ) * (eo * (kx ^ 2 + p ^ 2) - (eo - ee) * (kx * c 0 + p * c 2) ^ 2) = z * (eo * ee) := by
      have e1 : (z * p + (ee - eo) * c 0 * c 2 * kx) ^ 2 = -(s : ℂ) ^ 2 := by
        rw [hpz]
        linear_combination (s : ℂ) ^ 2 * hI
      rw [hs2'] at e1
      have hc1 : (c 1 : ℂ) ^ 2 = 1 - c 0 ^ 2 - c 2 ^ 2 := by linear_combination hcc'
      rw [hc1] at e1
      linear_combination e1 + (-(z : ℂ) * p ^ 2 + kx ^ 2 * (eo + (ee - eo) * c 0 ^ 2)) * hzd'
    exact mul_left_cancel₀ hzc hsq
  set t : ℂ := kx * c 0 + p * c 2 with ht
  set k2 : ℂ := kx ^ 2 + p ^ 2 with hk2
  have e := plane_wave_eig (kx := kx) (q := p) (eps := uniaxial eo ee c) h22
    (E := ![t * (ee * kx + (eo - ee) * t * c 0) - eo * k2 * c 0, t * ((eo - ee) * t * c 1) - eo * k2 * c 1,
      t * (ee * p + (eo - ee) * t * c 2) - eo * k2 * c 2])
    (H := ![eo * ee * (p * c 1), -(eo * ee * (p * c 0 - kx * c 2)), -(eo * ee * (kx * c 1))])
    (by simp only [Matrix.cons_val]; linear_combination (p * c 1) * hdisp)
    (by simp only [Matrix.cons_val]; linear_combination (-(p * c 0 - kx * c 2)) * hdisp)
    (by simp only [Matrix.cons_val]; linear_combination (-(kx * c 1)) * hdisp)
    (by rw [uniaxial_mul]; simp only [Matrix.cons_val]; linear_combination ((ee - eo) * c 0 * ((eo - ee) * t ^ 2 - eo * k2)) * hcc' + eo * ee * kx * ht - eo * ee * c 0 * hk2)
    (by rw [uniaxial_mul]; simp only [Matrix.cons_val]; linear_combination ((ee - eo) * c 1 * ((eo - ee) * t ^ 2 - eo * k2)) * hcc' + eo * ee * 0 * ht - eo * ee * c 1 * hk2)
    (by rw [uniaxial_mul]; simp only [Matrix.cons_val]; linear_combination ((ee - eo) * c 2 * ((eo - ee) * t ^ 2 - eo * k2)) * hcc' + eo * ee * p * ht - eo * ee * c 2 * hk2)
  obtain ⟨i, hi⟩ := mem_of_eig hw h (by
    intro h0
    have a2 := congrFun h0 2
    have a3 := congrFun h0 3
    have heoc : (eo : ℂ) ≠ 0 := by exact_mod_cast heo.ne'
    have heec : (ee : ℂ) ≠ 0 := by exact_mod_cast hee.ne'
    simp [heoc, heec] at a2 a3
    have hp0 : p ≠ 0 := by
      intro hp0
      rw [hp0] at him
      simp at him
    have c1 : c 1 = 0 := a2.resolve_left hp0
    have m := congrArg Complex.im a3
    have r := congrArg Complex.re a3
    simp at m r
    have c0 : c 0 = 0 := m.resolve_left him
    rw [c0] at r
    simp at r
    rcases r with r | c2
    · rw [r] at hk
      simp at hk
      have := mul_pos hee hz
      linarith
    · rw [c0, c1, c2] at hcc
      simp at hcc) e
  refine ⟨i, ?_⟩
  rw [hi]
  exact him

end PyElli
