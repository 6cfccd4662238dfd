import Verif.Props.Mueller
import Verif.Props.Lookup
import Verif.Spec.Mixture

/-! # Polarisation of single and of averaged results (C129) -/

namespace PyElli

open Matrix Complex Spec

lemma raw_pauli (K : Mat2) (i j : Fin 4) : (trace (pauli i * K * pauli j * Kᴴ)).re = 2 * muellerRaw K i j := by
  fin_cases i <;> fin_cases j <;>
    simp [pauli, muellerRaw, Matrix.trace, Matrix.mul_apply, Fin.sum_univ_two, Matrix.conjTranspose_apply, Matrix.one_apply, Matrix.vecMul, dotProduct, Complex.normSq_apply] <;> ring

lemma raw_inner (J K : Mat2) : ∑ i, ∑ j, muellerRaw J i j * muellerRaw K i j =
    normSq ((starRingEnd ℂ) (J 0 0) * K 0 0 + (starRingEnd ℂ) (J 0 1) * K 0 1 + (starRingEnd ℂ) (J 1 0) * K 1 0 + (starRingEnd ℂ) (J 1 1) * K 1 1) := by
  simp only [Fin.sum_univ_four]
  simp [muellerRaw, Complex.normSq_apply]
  ring

lemma raw_zero (J : Mat2) : muellerRaw J 0 0 = meanPower J := by
  simp [muellerRaw, meanPower]

lemma meanPower_pos (J : Mat2) (h : J 1 1 ≠ 0) : 0 < meanPower J := by
  unfold meanPower
  have h1 := Complex.normSq_pos.2 h
  have := Complex.normSq_nonneg (J 0 0)
  have := Complex.normSq_nonneg (J 0 1)
  have := Complex.normSq_nonneg (J 1 0)
  linarith

lemma raw_square (J : Mat2) : ∑ i, ∑ j, muellerRaw J i j ^ 2 = 4 * meanPower J ^ 2 := by
  have h := raw_inner J J
  simp only [← pow_two] at h
  rw [h]
  unfold meanPower
  simp [Complex.normSq_apply]
  ring

/-- The metric of the Stokes vectors. -/
def stokesG : Matrix (Fin 4) (Fin 4) ℝ := Matrix.diagonal ![1, -1, -1, -1]

lemma raw_lorentz (J : Mat2) : (muellerRaw J)ᵀ * stokesG * muellerRaw J = normSq (J.det) • stokesG := by
  ext i j
  rw [Matrix.det_fin_two]
  fin_cases i <;> fin_cases j <;>
    simp [stokesG, muellerRaw, Matrix.mul_apply, Fin.sum_univ_four, Matrix.diagonal_apply, Complex.normSq_apply] <;> ring

lemma raw_row (J : Mat2) : muellerRaw J 0 1 ^ 2 + muellerRaw J 0 2 ^ 2 + muellerRaw J 0 3 ^ 2 = muellerRaw J 0 0 ^ 2 - normSq J.det := by
  rw [Matrix.det_fin_two]
  simp [muellerRaw, Complex.normSq_apply]
  ring

lemma mueller_smul (J : Mat2) (h : J 1 1 ≠ 0) : muellerMatrix J = (meanPower J)⁻¹ • muellerRaw J := by
  ext i j
  rw [mueller_eq_raw J h, raw_zero, Matrix.smul_apply, smul_eq_mul]
  ring

lemma cauchy_three (a b c x y z : ℝ) : (a * x + b * y + c * z) ^ 2 ≤ (a ^ 2 + b ^ 2 + c ^ 2) * (x ^ 2 + y ^ 2 + z ^ 2) := by
  nlinarith [sq_nonneg (a * y - b * x), sq_nonneg (a * z - c * x), sq_nonneg (b * z - c * y)]

lemma IsLight.smul {S : Fin 4 → ℝ} (h : IsLight S) {c : ℝ} (hc : 0 ≤ c) : IsLight (c • S) := by
  obtain ⟨h0, h1⟩ := h
  refine ⟨mul_nonneg hc h0, ?_⟩
  simp only [Pi.smul_apply, smul_eq_mul, mul_pow]
  nlinarith [mul_le_mul_of_nonneg_left h1 (sq_nonneg c)]

lemma IsLight.add {S T : Fin 4 → ℝ} (h : IsLight S) (h' : IsLight T) : IsLight (S + T) := by
  obtain ⟨h0, h1⟩ := h
  obtain ⟨h0', h1'⟩ := h'
  refine ⟨add_nonneg h0 h0', ?_⟩
  simp only [Pi.add_apply]
  have hc := cauchy_three (S 1) (S 2) (S 3) (T 1) (T 2) (T 3)
  have hb : (S 1 * T 1 + S 2 * T 2 + S 3 * T 3) ^ 2 ≤ (S 0 * T 0) ^ 2 := by
    refine hc.trans ?_
    rw [mul_pow]
    exact mul_le_mul h1 h1' (by positivity) (by positivity)
  have hd := abs_le.mp (abs_le_of_sq_le_sq hb (mul_nonneg h0 h0'))
  nlinarith [hd.2]

lemma IsLight.zero : IsLight 0 := ⟨le_rfl, by simp⟩

lemma raw_light (J : Mat2) {S : Fin 4 → ℝ} (h : IsLight S) : IsLight (muellerRaw J *ᵥ S) := by
  obtain ⟨h0, h1⟩ := h
  have hL := raw_lorentz J
  have hrow := raw_row J
  have hp : 0 ≤ muellerRaw J 0 0 := by
    rw [raw_zero]
    unfold meanPower
    have := Complex.normSq_nonneg (J 0 0)
    have := Complex.normSq_nonneg (J 0 1)
    have := Complex.normSq_nonneg (J 1 0)
    have := Complex.normSq_nonneg (J 1 1)
    linarith
  have hdet := Complex.normSq_nonneg J.det
  have hform : ∀ w : Fin 4 → ℝ, w ⬝ᵥ (stokesG *ᵥ w) = w 0 ^ 2 - (w 1 ^ 2 + w 2 ^ 2 + w 3 ^ 2) := by
    intro w
    simp [stokesG, Matrix.mulVec_diagonal, dotProduct, Fin.sum_univ_four]
    ring
  generalize muellerRaw J = M at *
  constructor
  · have e : (M *ᵥ S) 0 = M 0 0 * S 0 + (M 0 1 * S 1 + M 0 2 * S 2 + M 0 3 * S 3) := by
      simp [Matrix.mulVec, dotProduct, Fin.sum_univ_four]
      ring
    have hc := cauchy_three (M 0 1) (M 0 2) (M 0 3) (S 1) (S 2) (S 3)
    have hb : (M 0 1 * S 1 + M 0 2 * S 2 + M 0 3 * S 3) ^ 2 ≤ (M 0 0 * S 0) ^ 2 := by
      refine hc.trans ?_
      rw [mul_pow]
      exact mul_le_mul (by linarith) h1 (by positivity) (by positivity)
    have hd := abs_le.mp (abs_le_of_sq_le_sq hb (mul_nonneg hp h0))
    rw [e]
    linarith [hd.1]
  · have e1 := hform (M *ᵥ S)
    have e2 : (M *ᵥ S) ⬝ᵥ (stokesG *ᵥ (M *ᵥ S)) = normSq J.det * (S ⬝ᵥ (stokesG *ᵥ S)) := by
      have : (M *ᵥ S) ⬝ᵥ (stokesG *ᵥ (M *ᵥ S)) = S ⬝ᵥ ((Mᵀ * stokesG * M) *ᵥ S) := by
        rw [← Matrix.mulVec_mulVec, ← Matrix.mulVec_mulVec, Matrix.dotProduct_mulVec S, Matrix.vecMul_transpose]
      rw [this, hL, Matrix.smul_mulVec, dotProduct_smul, smul_eq_mul]
    rw [hform S] at e2
    have : 0 ≤ normSq J.det * (S 0 ^ 2 - (S 1 ^ 2 + S 2 ^ 2 + S 3 ^ 2)) := mul_nonneg hdet (by linarith)
    linarith

/-- C129: the Mueller matrix of a single result does not depolarise: the sum of its squares is 4 (depolarisation index 1), it multiplies the degree of
polarisation form `S0² - S1² - S2² - S3²` by a constant, so fully polarised light stays fully polarised, it meets Cloude's condition, and partly polarised
light stays light. -/
theorem C129_single (J : Mat2) (h : J 1 1 ≠ 0) :
    ∑ i, ∑ j, muellerMatrix J i j ^ 2 = 4 ∧ Realisable (muellerMatrix J) ∧ (∀ S, IsLight S → IsLight (muellerMatrix J *ᵥ S)) ∧
    ∀ S : Fin 4 → ℝ, let T := muellerMatrix J *ᵥ S
      T 0 ^ 2 - T 1 ^ 2 - T 2 ^ 2 - T 3 ^ 2 = normSq J.det / meanPower J ^ 2 * (S 0 ^ 2 - S 1 ^ 2 - S 2 ^ 2 - S 3 ^ 2) := by
  have hp := meanPower_pos J h
  rw [mueller_smul J h]
  refine ⟨?_, ?_, ?_, ?_⟩
  · have := raw_square J
    simp only [Matrix.smul_apply, smul_eq_mul, mul_pow, ← Finset.mul_sum]
    rw [this]
    field_simp
  · intro K
    have e : ∑ i, ∑ j, ((meanPower J)⁻¹ • muellerRaw J) i j * (trace (pauli i * K * pauli j * Kᴴ)).re =
        2 * (meanPower J)⁻¹ * ∑ i, ∑ j, muellerRaw J i j * muellerRaw K i j := by
      simp only [Finset.mul_sum]
      refine Finset.sum_congr rfl fun i _ => Finset.sum_congr rfl fun j _ => ?_
      rw [raw_pauli, Matrix.smul_apply, smul_eq_mul]
      ring
    rw [e, raw_inner]
    have := Complex.normSq_nonneg ((starRingEnd ℂ) (J 0 0) * K 0 0 + (starRingEnd ℂ) (J 0 1) * K 0 1 + (starRingEnd ℂ) (J 1 0) * K 1 0 + (starRingEnd ℂ) (J 1 1) * K 1 1)
    positivity
  · intro S hS
    rw [Matrix.smul_mulVec]
    exact IsLight.smul (raw_light J hS) (by positivity)
  · intro S T
    have hform : ∀ w : Fin 4 → ℝ, w ⬝ᵥ (stokesG *ᵥ w) = w 0 ^ 2 - w 1 ^ 2 - w 2 ^ 2 - w 3 ^ 2 := by
      intro w
      simp [stokesG, Matrix.mulVec_diagonal, dotProduct, Fin.sum_univ_four]
      ring
    have hL := raw_lorentz J
    have hT : T = (meanPower J)⁻¹ • (muellerRaw J *ᵥ S) := by
      simp only [T, Matrix.smul_mulVec]
    rw [← hform, ← hform, hT]
    generalize muellerRaw J = M at *
    have : (M *ᵥ S) ⬝ᵥ (stokesG *ᵥ (M *ᵥ S)) = S ⬝ᵥ ((Mᵀ * stokesG * M) *ᵥ S) := by
      rw [← Matrix.mulVec_mulVec, ← Matrix.mulVec_mulVec, Matrix.dotProduct_mulVec S, Matrix.vecMul_transpose]
    rw [Matrix.mulVec_smul, dotProduct_smul, smul_dotProduct, this, hL, Matrix.smul_mulVec, dotProduct_smul]
    simp only [smul_eq_mul]
    field_simp

/-- Non-trivial case of C129_single. -/
example : ∑ i, ∑ j, muellerMatrix !![I, 2; 0, 1 + I] i j ^ 2 = 4 :=
  (C129_single !![I, 2; 0, 1 + I] (by simp [Complex.ext_iff])).1

/-! ## Means -/

/-- Mean of a list of matrices. -/
noncomputable def meanMat (Ms : List (Matrix (Fin 4) (Fin 4) ℝ)) : Matrix (Fin 4) (Fin 4) ℝ := (Ms.length : ℝ)⁻¹ • Ms.sum

lemma matSum_entry (Ms : List (Matrix (Fin 4) (Fin 4) ℝ)) (i j : Fin 4) : Ms.sum i j = (Ms.map fun M => M i j).sum := by
  induction Ms with
  | nil => simp
  | cons M Ms ih => simp [ih]

lemma sum_mulVec_list (Ms : List (Matrix (Fin 4) (Fin 4) ℝ)) (S : Fin 4 → ℝ) : Ms.sum *ᵥ S = (Ms.map fun M => M *ᵥ S).sum := by
  induction Ms with
  | nil => simp
  | cons M Ms ih => simp [ih, Matrix.add_mulVec]

lemma light_sum (Ss : List (Fin 4 → ℝ)) (h : ∀ S ∈ Ss, IsLight S) : IsLight Ss.sum := by
  induction Ss with
  | nil => exact IsLight.zero
  | cons S Ss ih =>
    rw [List.sum_cons]
    exact IsLight.add (h S (by simp)) (ih fun T hT => h T (by simp [hT]))

lemma realisable_sum (Ms : List (Matrix (Fin 4) (Fin 4) ℝ)) (h : ∀ M ∈ Ms, Realisable M) : Realisable Ms.sum := by
  induction Ms with
  | nil => intro K; simp
  | cons M Ms ih =>
    intro K
    have h1 := h M (by simp) K
    have h2 := ih (fun N hN => h N (by simp [hN])) K
    simp only [List.sum_cons, Matrix.add_apply, add_mul, Finset.sum_add_distrib]
    linarith

lemma Realisable.smul {M : Matrix (Fin 4) (Fin 4) ℝ} (h : Realisable M) {c : ℝ} (hc : 0 ≤ c) : Realisable (c • M) := by
  intro K
  have := mul_nonneg hc (h K)
  simpa only [Matrix.smul_apply, smul_eq_mul, Finset.mul_sum, mul_assoc] using this

lemma frob_dev (C : Matrix (Fin 4) (Fin 4) ℝ) (Ms : List (Matrix (Fin 4) (Fin 4) ℝ)) :
    (Ms.map fun M => ∑ i, ∑ j, (M i j - C i j) ^ 2).sum =
      (Ms.map fun M => ∑ i, ∑ j, M i j ^ 2).sum - 2 * (∑ i, ∑ j, Ms.sum i j * C i j) + Ms.length * ∑ i, ∑ j, C i j ^ 2 := by
  induction Ms with
  | nil => simp
  | cons M Ms ih =>
    have e : ∑ i, ∑ j, (M i j - C i j) ^ 2 = ∑ i, ∑ j, M i j ^ 2 - 2 * (∑ i, ∑ j, M i j * C i j) + ∑ i, ∑ j, C i j ^ 2 := by
      simp only [Fin.sum_univ_four]
      ring
    simp only [List.map_cons, List.sum_cons, ih, e, List.length_cons, Matrix.add_apply, add_mul, Finset.sum_add_distrib]
    push_cast
    ring

lemma frob_mean (Ms : List (Matrix (Fin 4) (Fin 4) ℝ)) (hne : Ms ≠ []) (h : ∀ M ∈ Ms, ∑ i, ∑ j, M i j ^ 2 = 4) :
    ∑ i, ∑ j, meanMat Ms i j ^ 2 ≤ 4 ∧ (∑ i, ∑ j, meanMat Ms i j ^ 2 = 4 ↔ ∀ M ∈ Ms, M = meanMat Ms) := by
  have hn : (0 : ℝ) < Ms.length := by exact_mod_cast List.length_pos_of_ne_nil hne
  have hs : ∀ i j, Ms.sum i j = Ms.length * meanMat Ms i j := by
    intro i j
    simp only [meanMat, Matrix.smul_apply, smul_eq_mul]
    field_simp
  have hd := frob_dev (meanMat Ms) Ms
  have h4 : (Ms.map fun M => ∑ i, ∑ j, M i j ^ 2).sum = (Ms.length : ℝ) * 4 := by
    rw [List.map_congr_left h]
    simp
  have h5 : ∑ i, ∑ j, Ms.sum i j * meanMat Ms i j = Ms.length * ∑ i, ∑ j, meanMat Ms i j ^ 2 := by
    simp only [hs, Finset.mul_sum]
    exact Finset.sum_congr rfl fun i _ => Finset.sum_congr rfl fun j _ => by ring
  rw [h4, h5] at hd
  have hpos : ∀ M ∈ Ms, 0 ≤ ∑ i, ∑ j, (M i j - meanMat Ms i j) ^ 2 := fun M _ => by positivity
  have hnn : 0 ≤ (Ms.map fun M => ∑ i, ∑ j, (M i j - meanMat Ms i j) ^ 2).sum := by
    apply List.sum_nonneg
    simp only [List.mem_map, forall_exists_index, and_imp, forall_apply_eq_imp_iff₂]
    exact hpos
  refine ⟨by nlinarith, ⟨fun he M hM => ?_, fun he => ?_⟩⟩
  · rw [he] at hd
    have hz : (Ms.map fun M => ∑ i, ∑ j, (M i j - meanMat Ms i j) ^ 2).sum = 0 := by rw [hd]; ring
    have hle := List.single_le_sum (l := Ms.map fun M => ∑ i, ∑ j, (M i j - meanMat Ms i j) ^ 2) (by
      simp only [List.mem_map, forall_exists_index, and_imp, forall_apply_eq_imp_iff₂]
      exact hpos) _ (List.mem_map_of_mem hM)
    rw [hz] at hle
    have h0 : ∑ i, ∑ j, (M i j - meanMat Ms i j) ^ 2 = 0 := le_antisymm hle (hpos M hM)
    ext i j
    have h1 := (Finset.sum_eq_zero_iff_of_nonneg fun i _ => Finset.sum_nonneg fun j _ => sq_nonneg _).1 h0 i (Finset.mem_univ i)
    have h2 := (Finset.sum_eq_zero_iff_of_nonneg fun j _ => sq_nonneg _).1 h1 j (Finset.mem_univ j)
    have := pow_eq_zero_iff (two_ne_zero) |>.1 h2
    linarith
  · obtain ⟨M, hM⟩ := List.exists_mem_of_ne_nil _ hne
    rw [← he M hM]
    exact h M hM

end PyElli

namespace PyElli.Lookup

open Matrix Complex Spec

variable {N : ℕ}

lemma arrays_of_attr (name : String) (rs : List (Fin N → Result)) (f : (Fin N → Result) → AVal N) (g : (Fin N → Result) → Nd)
    (h : ∀ res, getattr [] res name = .ok (f res)) (hg : ∀ res, (f res).nd = some (g res)) : arraysOf rs name = rs.map g := by
  unfold arraysOf
  have : ∀ res : Fin N → Result, ((getattr [] res name).toOption.bind AVal.nd) = some (g res) := by
    intro res
    rw [h, ← hg]
    rfl
  simp only [this]
  exact congrFun (List.filterMap_eq_map (f := g)) _

lemma flattenC_getD16 {rows : List (List ℂ)} (h : ∀ r ∈ rows, r.length = 16) :
    ∀ (k : ℕ) (hk : k < rows.length) (c : ℕ), c < 16 → rows.flatten.getD (16 * k + c) 0 = rows[k].getD c 0 := by
  induction rows with
  | nil => intro k hk; simp at hk
  | cons r rows ih =>
    intro k hk c hc
    have h1 := h r (by simp)
    have ih' := ih fun x hx => h x (by simp [hx])
    cases k with
    | zero =>
      simp only [List.flatten_cons, Nat.mul_zero, Nat.zero_add, List.getElem_cons_zero, List.getD_eq_getElem?_getD]
      rw [List.getElem?_append_left (by omega)]
    | succ k =>
      have := ih' k (by simpa using hk) c hc
      simp only [List.flatten_cons, List.getElem_cons_succ, List.getD_eq_getElem?_getD] at this ⊢
      rw [List.getElem?_append_right (by omega), ← this]
      congr 2
      omega

lemma mat4_getD (f : Fin N → Matrix (Fin 4) (Fin 4) ℂ) (k : Fin N) (i j : Fin 4) :
    (List.ofFn fun k => (List.ofFn fun i => List.ofFn fun j => f k i j).flatten).flatten.getD (16 * k + (4 * i + j)) 0 = f k i j := by
  rw [flattenC_getD16 (by
    intro r hr
    obtain ⟨k, rfl⟩ := List.mem_ofFn.1 hr
    simp [List.sum_ofFn]) k (by simp) _ (by omega)]
  simp only [List.getElem_ofFn]
  fin_cases i <;> fin_cases j <;> simp

/-- C129: the mean of the Mueller matrices over two or more results at `N ≠ 1` wavelengths. -/
theorem C129_mean_partial (rs : List (Fin N → Result)) (h2 : 2 ≤ rs.length) (hN : N ≠ 1) (hss : ∀ res ∈ rs, ∀ k, (res k).jr 1 1 ≠ 0) :
    ∃ m, meanAttr (arraysOf rs) "mueller_matrix" = .ok (some m) ∧ m.shape = [N, 4, 4] ∧
      ∃ M : Fin N → Matrix (Fin 4) (Fin 4) ℝ, (∀ k i j, m.data.getD (16 * k.val + (4 * i.val + j.val)) 0 = (M k i j : ℂ)) ∧
      ∀ k, (∀ i j, M k i j = (rs.map fun res => muellerMatrix (res k).jr i j).sum / rs.length) ∧
        M k 0 0 = 1 ∧ Realisable (M k) ∧ (∀ S, IsLight S → IsLight (M k *ᵥ S)) ∧
        ∑ i, ∑ j, M k i j ^ 2 ≤ 4 ∧ (∑ i, ∑ j, M k i j ^ 2 = 4 ↔ ∀ res ∈ rs, muellerMatrix (res k).jr = M k) ∧
        (∀ p, (∀ res ∈ rs, meanPower (res k).jr = p) → IsMixture (M k) (rs.map fun res => (res k).jr)) := by
  have ha := arrays_of_attr "mueller_matrix" rs (fun res => .mat4 fun k i j => (muellerMatrix (res k).jr i j : ℂ)) _
    (fun res => by simp [getattr, getattribute, attrs, Dict.get]) (fun res => rfl)
  obtain ⟨m, h1, h3, h4, h5⟩ := C61_mean_shape (arraysOf rs) "mueller_matrix" (by decide) [N, 4, 4] (by rw [ha]; simpa using h2) (by
    rw [ha]
    intro a h
    obtain ⟨res, -, rfl⟩ := List.mem_map.1 h
    exact ⟨rfl, by simp [List.sum_ofFn]⟩) (by simpa using fun h : 1 = N => hN h.symm)
  have hn : (0 : ℝ) < rs.length := by exact_mod_cast (by omega : 0 < rs.length)
  refine ⟨m, h1, h3, fun k => meanMat (rs.map fun res => muellerMatrix (res k).jr), ?_, fun k => ?_⟩
  · intro k i j
    have := k.isLt
    have he := fun r : Fin N → Result => mat4_getD (fun k i j => (muellerMatrix (r k).jr i j : ℂ)) k i j
    rw [h5 _ (by simp only [List.prod_cons, List.prod_nil]; omega), ha]
    simp only [List.map_map, Function.comp_def, List.length_map, he, meanMat, Matrix.smul_apply, matSum_entry, smul_eq_mul]
    push_cast
    rw [div_eq_inv_mul]
    congr 1
    clear h5 ha h1 h2 hss hn he
    induction rs with
    | nil => simp
    | cons r rs ih => simp [ih]
  have hone : ∀ M ∈ rs.map (fun res => muellerMatrix (res k).jr), ∃ J : Mat2, J 1 1 ≠ 0 ∧ M = muellerMatrix J := by
    intro M hM
    obtain ⟨res, hr, rfl⟩ := List.mem_map.1 hM
    exact ⟨_, hss res hr k, rfl⟩
  have hne : rs.map (fun res => muellerMatrix (res k).jr) ≠ [] := by
    intro h
    rw [List.map_eq_nil_iff] at h
    rw [h] at h2
    simp at h2
  have hf := frob_mean _ hne fun M hM => by
    obtain ⟨J, hJ, rfl⟩ := hone M hM
    exact (C129_single J hJ).1
  have h00 : meanMat (rs.map fun res => muellerMatrix (res k).jr) 0 0 = 1 := by
    simp only [meanMat, Matrix.smul_apply, matSum_entry, smul_eq_mul, List.map_map, Function.comp_def, List.length_map]
    rw [List.map_congr_left (g := fun _ => (1 : ℝ)) fun res hr => by
      rw [mueller_eq_raw _ (hss res hr k), div_self]
      rw [raw_zero]
      exact (meanPower_pos _ (hss res hr k)).ne']
    simp
    field_simp
  refine ⟨?_, h00, ?_, ?_, hf.1, ?_, ?_⟩
  · intro i j
    simp only [meanMat, Matrix.smul_apply, matSum_entry, smul_eq_mul, List.map_map, Function.comp_def, List.length_map]
    rw [div_eq_inv_mul]
  · refine Realisable.smul (realisable_sum _ fun M hM => ?_) (by positivity)
    obtain ⟨J, hJ, rfl⟩ := hone M hM
    exact (C129_single J hJ).2.1
  · intro S hS
    beta_reduce
    rw [meanMat, Matrix.smul_mulVec, sum_mulVec_list]
    refine IsLight.smul (light_sum _ fun T hT => ?_) (by positivity)
    obtain ⟨M, hM, rfl⟩ := List.mem_map.1 hT
    obtain ⟨J, hJ, rfl⟩ := hone M hM
    exact (C129_single J hJ).2.2.1 S hS
  · rw [hf.2]
    simp
  · intro p hp
    have hp0 : 0 < p := by
      obtain ⟨res, hr⟩ := List.exists_mem_of_length_pos (by omega : 0 < rs.length)
      rw [← hp res hr]
      exact meanPower_pos _ (hss res hr k)
    refine ⟨h00, p, hp0, fun a b i => ?_⟩
    beta_reduce
    rw [meanMat, Matrix.smul_mulVec, sum_mulVec_list]
    simp only [Pi.smul_apply, smul_eq_mul, List.map_map, Function.comp_def, List.length_map, mixtureStokes]
    rw [List.map_congr_left (g := fun res : Fin N → Result => p⁻¹ • stokes ((res k).jr 0 0 * a + (res k).jr 0 1 * b) ((res k).jr 1 0 * a + (res k).jr 1 1 * b))
      fun res hr => by rw [mueller_smul _ (hss res hr k), hp res hr, Matrix.smul_mulVec, raw_mulVec]]
    clear hss h2 h1 h3 h5 ha hone hne hf h00 hp hn
    rw [div_eq_inv_mul, mul_left_comm]
    congr 1
    induction rs with
    | nil => simp
    | cons r rs ih =>
      simp only [List.map_cons, List.sum_cons, Pi.add_apply, mul_add, Pi.smul_apply, smul_eq_mul, ih]
      rw [← mul_assoc, mul_inv_cancel₀ hp0.ne', one_mul]

lemma zero_of_stokes (D : Matrix (Fin 4) (Fin 4) ℝ) (h : ∀ a b, D *ᵥ stokes a b = 0) : D = 0 := by
  ext i j
  have h1 := congrFun (h 1 0) i
  have h2 := congrFun (h 0 1) i
  have h3 := congrFun (h 1 1) i
  have h4 := congrFun (h 1 I) i
  rw [stokes_explicit] at h1 h2 h3 h4
  simp [Matrix.mulVec, dotProduct, Fin.sum_univ_four] at h1 h2 h3 h4
  fin_cases j <;> simp <;> linarith

/-- C129 for two results: the mean of the Mueller matrices is the Mueller matrix of a sample of which one half has one and one half has the other structure
exactly if the two reflect the same power, or have the same Mueller matrix. -/
theorem C129_two (r s : Fin N → Result) (hN : N ≠ 1) (hr : ∀ k, (r k).jr 1 1 ≠ 0) (hs : ∀ k, (s k).jr 1 1 ≠ 0) :
    ∃ m, meanAttr (arraysOf [r, s]) "mueller_matrix" = .ok (some m) ∧ m.shape = [N, 4, 4] ∧
      ∃ M : Fin N → Matrix (Fin 4) (Fin 4) ℝ, (∀ k i j, m.data.getD (16 * k.val + (4 * i.val + j.val)) 0 = (M k i j : ℂ)) ∧
      ∀ k, IsMixture (M k) [(r k).jr, (s k).jr] ↔
        meanPower (r k).jr = meanPower (s k).jr ∨ muellerMatrix (r k).jr = muellerMatrix (s k).jr := by
  obtain ⟨m, h1, h2, M, h3, h4⟩ := C129_mean_partial [r, s] (by simp) hN (by
    intro res h k
    rcases List.mem_pair.1 h with rfl | rfl
    · exact hr k
    · exact hs k)
  refine ⟨m, h1, h2, M, h3, fun k => ?_⟩
  obtain ⟨hm, h00, -, -, -, -, hmix⟩ := h4 k
  have hM : M k = (2 : ℝ)⁻¹ • (muellerMatrix (r k).jr + muellerMatrix (s k).jr) := by
    ext i j
    rw [hm]
    simp
    ring
  have hp := meanPower_pos _ (hr k)
  have hq := meanPower_pos _ (hs k)
  have er : ∀ a b i, stokes ((r k).jr 0 0 * a + (r k).jr 0 1 * b) ((r k).jr 1 0 * a + (r k).jr 1 1 * b) i =
      meanPower (r k).jr * (muellerMatrix (r k).jr *ᵥ stokes a b) i := by
    intro a b i
    rw [← raw_mulVec, mueller_smul _ (hr k), Matrix.smul_mulVec, Pi.smul_apply, smul_eq_mul, ← mul_assoc, mul_inv_cancel₀ hp.ne', one_mul]
  have es : ∀ a b i, stokes ((s k).jr 0 0 * a + (s k).jr 0 1 * b) ((s k).jr 1 0 * a + (s k).jr 1 1 * b) i =
      meanPower (s k).jr * (muellerMatrix (s k).jr *ᵥ stokes a b) i := by
    intro a b i
    rw [← raw_mulVec, mueller_smul _ (hs k), Matrix.smul_mulVec, Pi.smul_apply, smul_eq_mul, ← mul_assoc, mul_inv_cancel₀ hq.ne', one_mul]
  have m0 : ∀ J : Mat2, J 1 1 ≠ 0 → muellerMatrix J 0 0 = 1 := by
    intro J hJ
    rw [mueller_eq_raw _ hJ, div_self]
    rw [raw_zero]
    exact (meanPower_pos _ hJ).ne'
  have hr0 := m0 _ (hr k)
  have hs0 := m0 _ (hs k)
  have hmx : ∀ a b i, mixtureStokes [(r k).jr, (s k).jr] a b i =
      (meanPower (r k).jr * (muellerMatrix (r k).jr *ᵥ stokes a b) i + meanPower (s k).jr * (muellerMatrix (s k).jr *ᵥ stokes a b) i) / 2 := by
    intro a b i
    simp [mixtureStokes, er, es]
  have hMk : ∀ a b i, (M k *ᵥ stokes a b) i = ((muellerMatrix (r k).jr *ᵥ stokes a b) i + (muellerMatrix (s k).jr *ᵥ stokes a b) i) / 2 := by
    intro a b i
    rw [hM, Matrix.smul_mulVec, Matrix.add_mulVec]
    simp
    ring
  constructor
  · rintro ⟨-, c, hc, h⟩
    simp only [hmx, hMk] at h
    have a1 := h 1 0 0
    have a2 := h 0 1 0
    clear hmix h1 h3 h4 hmx hMk hm hM er es m0
    generalize muellerMatrix (r k).jr = A at *
    generalize muellerMatrix (s k).jr = B at *
    generalize meanPower (r k).jr = p at *
    generalize meanPower (s k).jr = q at *
    rw [stokes_explicit] at a1 a2
    simp [Matrix.mulVec, dotProduct, Fin.sum_univ_four, hr0, hs0] at a1 a2
    have hcc : c = (p + q) / 2 := by linarith
    by_cases hpq : p = q
    · exact Or.inl hpq
    right
    have : A - B = 0 := by
      apply zero_of_stokes
      intro a b
      ext i
      have := h a b i
      rw [hcc] at this
      have e : (p - q) * (((A - B) *ᵥ stokes a b) i) = 0 := by
        rw [Matrix.sub_mulVec, Pi.sub_apply]
        linear_combination -4 * this
      exact (mul_eq_zero.1 e).resolve_left (sub_ne_zero.2 hpq)
    exact sub_eq_zero.1 this
  · rintro (h | h)
    · apply hmix (meanPower (s k).jr)
      intro res hres
      rcases List.mem_pair.1 hres with rfl | rfl
      · exact h
      · rfl
    · refine ⟨h00, (meanPower (r k).jr + meanPower (s k).jr) / 2, by linarith, fun a b i => ?_⟩
      rw [hmx, hMk, h]
      ring

/-- C129 fails: the Mueller matrices are normalised before the mean is taken. A mirror and one that reflects a quarter of the power and turns the sign of p
(both without crosswise reflection): the mean over the two is not the Mueller matrix of the mixture. -/
theorem C129_mixture_refuted (hN : N ≠ 1) (k : Fin N) :
    ∃ r s : Fin N → Result, ∃ m, meanAttr (arraysOf [r, s]) "mueller_matrix" = .ok (some m) ∧
      ∀ M : Matrix (Fin 4) (Fin 4) ℝ, (∀ i j, m.data.getD (16 * k.val + (4 * i.val + j.val)) 0 = (M i j : ℂ)) →
        ¬ IsMixture M [(r k).jr, (s k).jr] := by
  refine ⟨fun _ => Result.mk' !![1, 0; 0, 1] 0 none ![1, 1], fun _ => Result.mk' !![-1 / 2, 0; 0, 1 / 2] 0 none ![1, 1], ?_⟩
  obtain ⟨m, h1, -, M, h3, h4⟩ := C129_two (fun _ : Fin N => Result.mk' !![1, 0; 0, 1] 0 none ![1, 1])
    (fun _ => Result.mk' !![-1 / 2, 0; 0, 1 / 2] 0 none ![1, 1]) hN (by simp [Result.mk']) (by simp [Result.mk'])
  refine ⟨m, h1, fun M' h' => ?_⟩
  have : M' = M k := by
    ext i j
    have := (h' i j).symm.trans (h3 k i j)
    exact_mod_cast this
  rw [this, h4 k]
  have m0 : ∀ J : Mat2, J 1 1 ≠ 0 → muellerMatrix J 2 2 = muellerRaw J 2 2 / muellerRaw J 0 0 := fun J hJ => mueller_eq_raw J hJ 2 2
  rintro (h | h)
  · norm_num [meanPower, Result.mk', Complex.normSq_apply] at h
  · have := congrFun (congrFun h 2) 2
    rw [m0 _ (by simp [Result.mk']), m0 _ (by simp [Result.mk'])] at this
    have e : ∀ J : Mat2, muellerRaw J 2 2 = (J 0 0 * (starRingEnd ℂ) (J 1 1) + J 0 1 * (starRingEnd ℂ) (J 1 0)).re := fun _ => rfl
    rw [e, e, raw_zero, raw_zero, meanPower, meanPower] at this
    norm_num [Result.mk', Complex.normSq_apply] at this

lemma delta_plus {phi : ℝ} (h0 : -Real.pi < phi) (h1 : phi < Real.pi) : deltaOf ⟨-180, 180⟩ (Complex.exp (phi * I)) = -(phi * 180 / Real.pi) := by
  have hpi := Real.pi_pos
  have harg : Complex.arg (Complex.exp (phi * I)) = phi := by
    rw [Complex.arg_exp_mul_I, toIocMod_eq_self]
    constructor <;> linarith
  have hlt : phi * 180 / Real.pi < 180 := by rw [div_lt_iff₀ hpi]; nlinarith
  have hgt : -180 < phi * 180 / Real.pi := by rw [lt_div_iff₀ hpi]; nlinarith
  unfold deltaOf shiftDelta npMod rad2deg
  rw [harg]
  have e : phi * (180 / Real.pi) = phi * 180 / Real.pi := by ring
  rw [e]
  have hf : ⌊(-(phi * 180 / Real.pi) + -180) / 360⌋ = -1 := by
    rw [Int.floor_eq_iff]
    push_cast
    constructor <;> linarith
  simp only [hf]
  push_cast
  ring

/-- A result with rho `exp(i phi)`. -/
noncomputable def phaseResult (phi : ℝ) : Result := Result.mk' !![Complex.exp (phi * I), 0; 0, 1] 0 none ![1, 1]

lemma phase_rho (phi : ℝ) : (phaseResult phi).rho = Complex.exp (phi * I) := by
  simp only [phaseResult, Result.rho, foldRho, Result.mk']
  rw [if_neg (by norm_num)]
  simp [ratioOf, rhoMatrix, Matrix.mulVec, dotProduct, Fin.sum_univ_two]

lemma phase_delta {phi : ℝ} (h0 : -Real.pi < phi) (h1 : phi < Real.pi) : (phaseResult phi).delta = -(phi * 180 / Real.pi) := by
  unfold Result.delta
  rw [phase_rho]
  exact delta_plus h0 h1

lemma phase_mueller (phi : ℝ) : muellerMatrix (phaseResult phi).jr 2 2 = Real.cos phi := by
  rw [mueller_eq_raw _ (by simp [phaseResult, Result.mk'])]
  have e : ∀ J : Mat2, muellerRaw J 2 2 = (J 0 0 * (starRingEnd ℂ) (J 1 1) + J 0 1 * (starRingEnd ℂ) (J 1 0)).re := fun _ => rfl
  rw [e, raw_zero, meanPower]
  simp [phaseResult, Result.mk', Complex.exp_ofReal_mul_I_re, Complex.normSq_eq_norm_sq, Complex.norm_exp_ofReal_mul_I]

lemma phase_power (phi : ℝ) : meanPower (phaseResult phi).jr = 1 := by
  rw [meanPower]
  simp [phaseResult, Result.mk', Complex.normSq_eq_norm_sq, Complex.norm_exp_ofReal_mul_I]

/-- Means of attributes with one number per wavelength. -/
lemma mean_vec (name : String) (hname : name ≠ "mean") (f : (Fin N → Result) → Fin N → ℂ) (h : ∀ res, getattr [] res name = .ok (.vec (f res)))
    (rs : List (Fin N → Result)) (h2 : 2 ≤ rs.length) (hN : N ≠ 1) :
    ∃ m, meanAttr (arraysOf rs) name = .ok (some m) ∧ m.shape = [N] ∧ ∀ k : Fin N, m.data.getD k 0 = (rs.map fun res => f res k).sum / rs.length := by
  have ha := arrays_of_attr name rs (fun res => .vec (f res)) _ h (fun res => rfl)
  obtain ⟨m, h1, h3, h4, h5⟩ := C61_mean_shape (arraysOf rs) name hname [N] (by rw [ha]; simpa using h2) (by
    rw [ha]
    intro a h
    obtain ⟨res, -, rfl⟩ := List.mem_map.1 h
    simp) (by simpa using fun h : 1 = N => hN h.symm)
  refine ⟨m, h1, h3, fun k => ?_⟩
  rw [h5 k (by simp), ha]
  simp [Function.comp_def, List.getD_eq_getElem?_getD]

/-- C129 fails for the other attributes: two results of equal reflected power with delta of opposite sign. The mean of delta is 0 although both results
show `phi`, the mean of rho is `cos phi`, and the mean of the Mueller matrix, which is that of the mixture, has the entry `cos phi` where a sample with
psi 45° and delta 0 has 1. -/
theorem C129_delta_refuted (hN : N ≠ 1) (phi : ℝ) (h0 : 0 < phi) (h1 : phi < Real.pi) :
    let rs : List (Fin N → Result) := [fun _ => phaseResult phi, fun _ => phaseResult (-phi)]
    (phaseResult phi).delta = -(phi * 180 / Real.pi) ∧ (phaseResult (-phi)).delta = phi * 180 / Real.pi ∧
    ∃ d r m, meanAttr (arraysOf rs) "delta" = .ok (some d) ∧ meanAttr (arraysOf rs) "rho" = .ok (some r) ∧
      meanAttr (arraysOf rs) "mueller_matrix" = .ok (some m) ∧
      ∀ k : Fin N, d.data.getD k 0 = 0 ∧ r.data.getD k 0 = Complex.cos phi ∧ m.data.getD (16 * k.val + (4 * 2 + 2)) 0 = Complex.cos phi ∧
        ∃ M : Matrix (Fin 4) (Fin 4) ℝ, (∀ i j : Fin 4, m.data.getD (16 * k.val + (4 * i.val + j.val)) 0 = (M i j : ℂ)) ∧
          IsMixture M (rs.map fun res => (res k).jr) := by
  intro rs
  have d1 := phase_delta (phi := phi) (by linarith) h1
  have d2 := phase_delta (phi := -phi) (by linarith) (by linarith)
  obtain ⟨d, hd, -, hd'⟩ := mean_vec (N := N) "delta" (by decide) (fun res k => ((res k).delta : ℂ))
    (fun res => by simp [getattr, getattribute, attrs, Dict.get]) rs (by simp [rs]) hN
  obtain ⟨r, hr, -, hr'⟩ := mean_vec (N := N) "rho" (by decide) (fun res k => (res k).rho)
    (fun res => by simp [getattr, getattribute, attrs, Dict.get]) rs (by simp [rs]) hN
  obtain ⟨m, hm, -, M, hm', hM⟩ := C129_mean_partial rs (by simp [rs]) hN (by
    intro res h k
    rcases List.mem_pair.1 h with rfl | rfl <;> simp [phaseResult, Result.mk'])
  refine ⟨d1, by rw [d2]; ring, d, r, m, hd, hr, hm, fun k => ⟨?_, ?_, ?_, M k, hm' k, (hM k).2.2.2.2.2.2 1 ?_⟩⟩
  · rw [hd']
    simp only [rs, List.map_cons, List.map_nil, List.sum_cons, List.sum_nil, d1, d2]
    push_cast
    ring
  · rw [hr']
    simp only [rs, List.map_cons, List.map_nil, List.sum_cons, List.sum_nil, phase_rho, Complex.cos]
    simp
  · have := hm' k 2 2
    rw [(hM k).1] at this
    have e : m.data.getD (16 * k.val + (4 * 2 + 2)) 0 = m.data.getD (16 * k.val + (4 * (2 : Fin 4).val + (2 : Fin 4).val)) 0 := rfl
    rw [e, this]
    simp only [rs, List.map_cons, List.map_nil, List.sum_cons, List.sum_nil, phase_mueller, Real.cos_neg]
    push_cast
    simp
  · intro res h
    rcases List.mem_pair.1 h with rfl | rfl <;> exact phase_power _

/-- Non-trivial case of C129_mean_partial: two different phases at three wavelengths. -/
example : ∃ m, meanAttr (arraysOf [fun _ : Fin 3 => phaseResult 1, fun _ => phaseResult 2]) "mueller_matrix" = .ok (some m) ∧ m.shape = [3, 4, 4] := by
  obtain ⟨m, h1, h2, -⟩ := C129_mean_partial [fun _ : Fin 3 => phaseResult 1, fun _ => phaseResult 2] (by simp) (by norm_num) (by
    intro res h k
    rcases List.mem_pair.1 h with rfl | rfl <;> simp [phaseResult, Result.mk'])
  exact ⟨m, h1, h2⟩

end PyElli.Lookup
