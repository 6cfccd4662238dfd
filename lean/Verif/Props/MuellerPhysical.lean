import Verif.Props.MuellerInverse
import Verif.Props.Mixture
import Mathlib.Algebra.QuadraticDiscriminant

/-! # Which matrices are Mueller matrices of a sample (C163) -/

namespace PyElli

open Complex Matrix Spec

/-- A nonnegative Hermitian form with vanishing minors beside its last diagonal entry is a square. -/
lemma form_square {p q d : ℝ} {u v w : ℂ} (hd : 0 < d) (hv : normSq v = p * d) (hw : normSq w = q * d)
    (h : ∀ x y z : ℂ, 0 ≤ p * normSq x + q * normSq y + d * normSq z +
      2 * ((starRingEnd ℂ) x * u * y + (starRingEnd ℂ) x * v * z + (starRingEnd ℂ) y * w * z).re) : u * d = v * (starRingEnd ℂ) w := by
  obtain ⟨e, he⟩ : ∃ e, e = u * d - v * (starRingEnd ℂ) w := ⟨_, rfl⟩
  have h1 := h ((d : ℂ) ^ 2) (-(d * (starRingEnd ℂ) e)) (-(d * (starRingEnd ℂ) v - (starRingEnd ℂ) w * (starRingEnd ℂ) e))
  have h2 : p * normSq ((d : ℂ) ^ 2) + q * normSq (-(d * (starRingEnd ℂ) e)) +
      d * normSq (-(d * (starRingEnd ℂ) v - (starRingEnd ℂ) w * (starRingEnd ℂ) e)) +
      2 * ((starRingEnd ℂ) ((d : ℂ) ^ 2) * u * (-(d * (starRingEnd ℂ) e)) +
        (starRingEnd ℂ) ((d : ℂ) ^ 2) * v * (-(d * (starRingEnd ℂ) v - (starRingEnd ℂ) w * (starRingEnd ℂ) e)) +
        (starRingEnd ℂ) (-(d * (starRingEnd ℂ) e)) * w * (-(d * (starRingEnd ℂ) v - (starRingEnd ℂ) w * (starRingEnd ℂ) e))).re =
      d ^ 3 * (p * d - normSq v) + d * normSq e * (q * d - normSq w) - 2 * d ^ 2 * ((starRingEnd ℂ) e * (u * d - v * (starRingEnd ℂ) w)).re := by
    simp [normSq_apply, pow_two]
    ring
  rw [h2, hv, hw, ← he, ← normSq_eq_conj_mul_self] at h1
  simp only [sub_self, mul_zero, add_zero, zero_sub, ofReal_re] at h1
  have h3 : normSq e = 0 := le_antisymm (by
    by_contra hc
    have : 0 < 2 * d ^ 2 * normSq e := mul_pos (by positivity) (not_le.1 hc)
    linarith) (normSq_nonneg e)
  exact sub_eq_zero.1 (he ▸ normSq_eq_zero.1 h3)

/-- The minors of a nonnegative Hermitian form are nonnegative. -/
lemma form_minor {p d : ℝ} {v : ℂ} (h : ∀ x z : ℂ, 0 ≤ p * normSq x + d * normSq z + 2 * ((starRingEnd ℂ) x * v * z).re) : normSq v ≤ p * d := by
  have hp : 0 ≤ p := by simpa using h 1 0
  have hd : 0 ≤ d := by simpa using h 0 1
  have h1 : ∀ t : ℝ, 0 ≤ (p * normSq v) * (t * t) + (-2 * normSq v) * t + d := fun t => by
    have h2 := h (-(t * v)) 1
    have e : ((starRingEnd ℂ) (-(t * v)) * v * 1).re = -(t * normSq v) := by
      simp [normSq_apply]
      ring
    rw [e, normSq_neg, normSq_mul, normSq_ofReal, normSq_one] at h2
    linarith
  have h3 := discrim_le_zero h1
  unfold discrim at h3
  rcases (normSq_nonneg v).eq_or_lt with h0 | h0
  · rw [← h0]
    positivity
  · by_contra hc
    have := mul_pos h0 (sub_pos.2 (not_le.1 hc))
    nlinarith

/-- Cloude's quadratic form, written out. -/
lemma realisable_form (M : Matrix (Fin 4) (Fin 4) ℝ) (x0 x1 x2 x3 : ℂ) :
    ∑ i, ∑ j, M i j * (trace (pauli i * !![x0, x1; x2, x3] * pauli j * !![x0, x1; x2, x3]ᴴ)).re =
      (M 0 0 + M 0 1 + M 1 0 + M 1 1) * normSq x0 + (M 0 0 - M 0 1 + M 1 0 - M 1 1) * normSq x1 +
      (M 0 0 + M 0 1 - M 1 0 - M 1 1) * normSq x2 + (M 0 0 - M 0 1 - M 1 0 + M 1 1) * normSq x3 +
      2 * ((starRingEnd ℂ) x0 * ⟨M 0 2 + M 1 2, M 0 3 + M 1 3⟩ * x1 + (starRingEnd ℂ) x0 * ⟨M 2 0 + M 2 1, -(M 3 0 + M 3 1)⟩ * x2 +
        (starRingEnd ℂ) x0 * ⟨M 2 2 + M 3 3, M 2 3 - M 3 2⟩ * x3 + (starRingEnd ℂ) x1 * ⟨M 2 2 - M 3 3, -(M 2 3 + M 3 2)⟩ * x2 +
        (starRingEnd ℂ) x1 * ⟨M 2 0 - M 2 1, -(M 3 0 - M 3 1)⟩ * x3 + (starRingEnd ℂ) x2 * ⟨M 0 2 - M 1 2, M 0 3 - M 1 3⟩ * x3).re := by
  simp [Fin.sum_univ_four, pauli, Matrix.trace_fin_two, Matrix.mul_apply, Fin.sum_univ_two, Matrix.conjTranspose_apply, normSq_apply]
  ring

/-- The Mueller matrices of samples that are described by one Jones matrix are the realisable ones with entries of square sum four. -/
theorem C163_physical (M : Matrix (Fin 4) (Fin 4) ℝ) : (∃ J : Mat2, J 1 1 ≠ 0 ∧ muellerMatrix J = M) ↔
    M 0 0 = 1 ∧ ∑ i, ∑ j, M i j ^ 2 = 4 ∧ Realisable M ∧ 0 < M 0 0 - M 0 1 - M 1 0 + M 1 1 := by
  constructor
  · rintro ⟨J, h, rfl⟩
    obtain ⟨h1, h2, -, -⟩ := C129_single J h
    refine ⟨?_, h1, h2, (C163_recover J h).1⟩
    have hp := meanPower_pos J h
    rw [mueller_smul J h, Matrix.smul_apply, raw_zero, smul_eq_mul, inv_mul_cancel₀ hp.ne']
  · rintro ⟨h1, h2, hR, hD⟩
    have hq := fun x0 x1 x2 x3 => (hR !![x0, x1; x2, x3]).trans_eq (realisable_form M x0 x1 x2 x3)
    obtain ⟨A, hA⟩ : ∃ A, A = M 0 0 + M 0 1 + M 1 0 + M 1 1 := ⟨_, rfl⟩
    obtain ⟨B, hB⟩ : ∃ B, B = M 0 0 - M 0 1 + M 1 0 - M 1 1 := ⟨_, rfl⟩
    obtain ⟨C, hC⟩ : ∃ C, C = M 0 0 + M 0 1 - M 1 0 - M 1 1 := ⟨_, rfl⟩
    obtain ⟨D, hD'⟩ : ∃ D, D = M 0 0 - M 0 1 - M 1 0 + M 1 1 := ⟨_, rfl⟩
    obtain ⟨ab, hab⟩ : ∃ z : ℂ, z = ⟨M 0 2 + M 1 2, M 0 3 + M 1 3⟩ := ⟨_, rfl⟩
    obtain ⟨ac, hac⟩ : ∃ z : ℂ, z = ⟨M 2 0 + M 2 1, -(M 3 0 + M 3 1)⟩ := ⟨_, rfl⟩
    obtain ⟨a, ha⟩ : ∃ z : ℂ, z = ⟨M 2 2 + M 3 3, M 2 3 - M 3 2⟩ := ⟨_, rfl⟩
    obtain ⟨bc, hbc⟩ : ∃ z : ℂ, z = ⟨M 2 2 - M 3 3, -(M 2 3 + M 3 2)⟩ := ⟨_, rfl⟩
    obtain ⟨b, hb⟩ : ∃ z : ℂ, z = ⟨M 2 0 - M 2 1, -(M 3 0 - M 3 1)⟩ := ⟨_, rfl⟩
    obtain ⟨c, hc⟩ : ∃ z : ℂ, z = ⟨M 0 2 - M 1 2, M 0 3 - M 1 3⟩ := ⟨_, rfl⟩
    simp only [← hA, ← hB, ← hC, ← hD', ← hab, ← hac, ← ha, ← hbc, ← hb, ← hc] at hq
    rw [← hD'] at hD
    have m01 : normSq ab ≤ A * B := form_minor fun x z => by simpa using hq x z 0 0
    have m02 : normSq ac ≤ A * C := form_minor fun x z => by simpa using hq x 0 z 0
    have m03 : normSq a ≤ A * D := form_minor fun x z => by simpa using hq x 0 0 z
    have m12 : normSq bc ≤ B * C := form_minor fun x z => by simpa using hq 0 x z 0
    have m13 : normSq b ≤ B * D := form_minor fun x z => by simpa using hq 0 x 0 z
    have m23 : normSq c ≤ C * D := form_minor fun x z => by simpa using hq 0 0 x z
    have tot : A * B + A * C + A * D + B * C + B * D + C * D = normSq ab + normSq ac + normSq a + normSq bc + normSq b + normSq c := by
      simp only [Fin.sum_univ_four] at h2
      rw [hA, hB, hC, hD', hab, hac, ha, hbc, hb, hc]
      simp only [normSq_mk]
      have h3 : M 0 0 ^ 2 = 1 := by rw [h1, one_pow]
      linear_combination 8 * h3 - 2 * h2
    have e03 : normSq a = A * D := by linarith
    have e13 : normSq b = B * D := by linarith
    have e23 : normSq c = C * D := by linarith
    have k01 : ab * D = a * (starRingEnd ℂ) b := form_square hD e03 e13 fun x y z => by simpa using hq x y 0 z
    have k02 : ac * D = a * (starRingEnd ℂ) c := form_square hD e03 e23 fun x y z => by simpa using hq x 0 y z
    have k12 : bc * D = b * (starRingEnd ℂ) c := form_square hD e13 e23 fun x y z => by simpa using hq 0 x y z
    refine ⟨!![a, b; c, (D : ℂ)], by simpa using hD.ne', ?_⟩
    have hS : A + B + C + D = 4 := by rw [hA, hB, hC, hD']; linarith
    have hp : meanPower !![a, b; c, (D : ℂ)] = 2 * D := by
      simp [meanPower, e03, e13, e23]
      linear_combination D / 2 * hS
    rw [mueller_smul _ (by simpa using hD.ne'), hp]
    have hraw : ∀ i j, muellerRaw !![a, b; c, (D : ℂ)] i j = 2 * D * M i j := by
      intro i j
      fin_cases i <;> fin_cases j <;>
        simp only [muellerRaw, Matrix.of_apply, Matrix.cons_val', Matrix.cons_val_zero, Matrix.cons_val_one, Matrix.cons_val, ← k01, ← k02, ← k12, e03, e13, e23,
          Complex.conj_ofReal, Complex.re_mul_ofReal, Complex.im_mul_ofReal, Complex.normSq_ofReal, Fin.zero_eta, Fin.mk_one, Fin.reduceFinMk] <;>
        simp only [hab, hac, ha, hbc, hb, hc, hA, hB, hC, hD'] <;> ring
    ext i j
    rw [Matrix.smul_apply, hraw, smul_eq_mul]
    field_simp

/-- A sample that mixes the polarisations meets the conditions. -/
example : let M := muellerMatrix !![1 / 2, I / 4; 0, 1]
    M 0 0 = 1 ∧ ∑ i, ∑ j, M i j ^ 2 = 4 ∧ Realisable M ∧ 0 < M 0 0 - M 0 1 - M 1 0 + M 1 1 :=
  (C163_physical _).1 ⟨_, by simp, rfl⟩

/-- Reversing only the handedness keeps light light and has the square sum four, but no Jones matrix does it. -/
example : ¬ ∃ J : Mat2, J 1 1 ≠ 0 ∧ muellerMatrix J = Matrix.diagonal ![1, 1, 1, -1] := by
  intro h
  obtain ⟨-, -, h, -⟩ := (C163_physical _).1 h
  have := (h !![0, 1; -1, 0]).trans_eq (realisable_form _ 0 1 (-1) 0)
  norm_num [Matrix.diagonal, Fin.ext_iff] at this
  have h2 : (1 : ℝ) ≤ -1 := this
  norm_num at h2

end PyElli

namespace PyElli.Lookup

open Complex Matrix Spec

/-- The Mueller matrix of an averaged result list belongs to a single sample exactly if the Jones matrices of all results agree up to factors; otherwise nothing
but the average of the Mueller matrices describes it. -/
theorem C163_average {N : ℕ} (rs : List (Fin N → Result)) (h2 : 2 ≤ rs.length) (hN : N ≠ 1) (hss : ∀ res ∈ rs, ∀ k, (res k).jr 1 1 ≠ 0) :
    ∃ m, meanAttr (arraysOf rs) "mueller_matrix" = .ok (some m) ∧ m.shape = [N, 4, 4] ∧
      ∃ M : Fin N → Matrix (Fin 4) (Fin 4) ℝ, (∀ k i j, m.data.getD (16 * k.val + (4 * i.val + j.val)) 0 = (M k i j : ℂ)) ∧
      ∀ k, (∃ J : Mat2, J 1 1 ≠ 0 ∧ muellerMatrix J = M k) ↔ ∀ res ∈ rs, ∀ res' ∈ rs, ∃ c : ℂ, c ≠ 0 ∧ (res' k).jr = c • (res k).jr := by
  obtain ⟨m, h1, h3, M, h4, h5⟩ := C129_mean_partial rs h2 hN hss
  refine ⟨m, h1, h3, M, h4, fun k => ?_⟩
  obtain ⟨-, -, -, -, -, hiff, -⟩ := h5 k
  constructor
  · rintro ⟨J, hJ, e⟩ res hr res' hr'
    have h6 := hiff.1 (e ▸ (C129_single J hJ).1)
    exact (C163_iff _ _ (hss res hr k) (hss res' hr' k)).1 ((h6 res hr).trans (h6 res' hr').symm)
  · intro h
    obtain ⟨res, hr⟩ := List.exists_mem_of_length_pos (l := rs) (by omega)
    refine ⟨(res k).jr, hss res hr k, ?_⟩
    ext i j
    rw [(h5 k).1 i j]
    have e : (rs.map fun r => muellerMatrix (r k).jr i j) = rs.map fun _ => muellerMatrix (res k).jr i j :=
      List.map_congr_left fun r hr' => by rw [(C163_iff _ _ (hss res hr k) (hss r hr' k)).2 (h res hr r hr')]
    have hn : (rs.length : ℝ) ≠ 0 := by
      have : rs.length ≠ 0 := by omega
      exact_mod_cast this
    rw [e, List.map_const', List.sum_replicate, nsmul_eq_mul, mul_div_cancel_left₀ _ hn]

/-- The average over two phases is that of no single sample. -/
example : ∃ rs : List (Fin 2 → Result), 2 ≤ rs.length ∧ (∀ res ∈ rs, ∀ k, (res k).jr 1 1 ≠ 0) ∧
    ¬ ∀ res ∈ rs, ∀ res' ∈ rs, ∃ c : ℂ, c ≠ 0 ∧ (res' 0).jr = c • (res 0).jr := by
  refine ⟨[fun _ => Result.mk' !![1, 0; 0, 1] 0 none ![1, 1], fun _ => Result.mk' !![I, 0; 0, 1] 0 none ![1, 1]], by simp, by simp [Result.mk'], fun h => ?_⟩
  obtain ⟨c, -, e⟩ := h _ (List.mem_cons_self ..) _ (List.mem_cons_of_mem _ (List.mem_cons_self ..))
  have e0 := congrFun (congrFun e 0) 0
  have e1 := congrFun (congrFun e 1) 1
  simp [Result.mk'] at e0 e1
  rw [← e0] at e1
  have := congrArg Complex.re e1
  simp at this

end PyElli.Lookup
