import Verif.Props.Overflow

/-!
# C112: when `Solver4x4` stays in range
-/

namespace PyElli

open Matrix Complex

/-- The sum of the absolute values of the entries, at least 1. -/
noncomputable def entrySize {n : ℕ} (A : Matrix (Fin n) (Fin n) ℂ) : ℝ := max 1 (∑ i, ∑ j, ‖A i j‖)

/-- The sizes of all matrices `Solver4x4` multiplies. -/
noncomputable def wholeSize4 (s : Stack) (theta lbda : ℝ) (ee : (Fin 4 → ℂ) × Mat4) : ℝ :=
  entrySize (isoHalfInv (kxOf s theta) s.front) *
    ((s.layers.map fun l => entrySize (propExpm (buildDelta (kxOf s theta) l.2) (-l.1) lbda)).prod * entrySize (exitMatrix s (kxOf s theta) ee))

lemma one_le_entrySize {n : ℕ} (A : Matrix (Fin n) (Fin n) ℂ) : 1 ≤ entrySize A := le_max_left _ _

lemma entry_le_sum {n : ℕ} (A : Matrix (Fin n) (Fin n) ℂ) (i j : Fin n) : ‖A i j‖ ≤ ∑ i, ∑ j, ‖A i j‖ :=
  (Finset.single_le_sum (f := fun j => ‖A i j‖) (fun _ _ => norm_nonneg _) (Finset.mem_univ j)).trans
    (Finset.single_le_sum (f := fun i => ∑ j, ‖A i j‖) (fun _ _ => Finset.sum_nonneg fun _ _ => norm_nonneg _) (Finset.mem_univ i))

lemma sum_mul_le {n : ℕ} (A B : Matrix (Fin n) (Fin n) ℂ) :
    ∑ i, ∑ k, ‖(A * B) i k‖ ≤ (∑ i, ∑ j, ‖A i j‖) * ∑ j, ∑ k, ‖B j k‖ := by
  have h1 : ∀ i k, ‖(A * B) i k‖ ≤ ∑ j, ‖A i j‖ * ‖B j k‖ := fun i k => by
    rw [Matrix.mul_apply]
    exact (norm_sum_le _ _).trans (le_of_eq (Finset.sum_congr rfl fun j _ => norm_mul _ _))
  have h2 : ∀ i, ∑ k, ∑ j, ‖A i j‖ * ‖B j k‖ ≤ (∑ j, ‖A i j‖) * ∑ j, ∑ k, ‖B j k‖ := fun i => by
    rw [Finset.sum_comm, Finset.sum_mul]
    refine Finset.sum_le_sum fun j _ => ?_
    rw [← Finset.mul_sum]
    exact mul_le_mul_of_nonneg_left (Finset.single_le_sum (f := fun j => ∑ k, ‖B j k‖) (fun _ _ => Finset.sum_nonneg fun _ _ => norm_nonneg _)
      (Finset.mem_univ j)) (norm_nonneg _)
  calc _ ≤ ∑ i, ∑ k, ∑ j, ‖A i j‖ * ‖B j k‖ := Finset.sum_le_sum fun i _ => Finset.sum_le_sum fun k _ => h1 i k
    _ ≤ ∑ i, (∑ j, ‖A i j‖) * ∑ j, ∑ k, ‖B j k‖ := Finset.sum_le_sum fun i _ => h2 i
    _ = _ := by rw [Finset.sum_mul]

lemma entrySize_mul {n : ℕ} (A B : Matrix (Fin n) (Fin n) ℂ) : entrySize (A * B) ≤ entrySize A * entrySize B := by
  refine max_le ?_ ?_
  · exact one_le_mul_of_one_le_of_one_le (one_le_entrySize A) (one_le_entrySize B)
  · exact (sum_mul_le A B).trans (mul_le_mul (le_max_right _ _) (le_max_right _ _) (Finset.sum_nonneg fun _ _ => Finset.sum_nonneg fun _ _ => norm_nonneg _)
      (zero_le_one.trans (one_le_entrySize A)))

lemma flMat_of_size {n : ℕ} {A : Matrix (Fin n) (Fin n) ℂ} (h : entrySize A < 2 ^ 1024) (i j : Fin n) : flMat A i j = some (A i j) :=
  fl_of_norm (lt_of_le_of_lt ((entry_le_sum A i j).trans (le_max_right _ _)) h)

lemma addF_of_norm {a b : ℂ} (h : ‖a + b‖ < 2 ^ 1024) : addF (some a) (some b) = some (a + b) := fl_of_norm h

lemma row_col_le {n : ℕ} (A B : Matrix (Fin n) (Fin n) ℂ) (i k : Fin n) : ∑ j, ‖A i j‖ * ‖B j k‖ ≤ entrySize A * entrySize B := by
  have h1 : ∀ j, ‖B j k‖ ≤ ∑ j, ∑ k, ‖B j k‖ := fun j => entry_le_sum B j k
  calc ∑ j, ‖A i j‖ * ‖B j k‖ ≤ ∑ j, ‖A i j‖ * ∑ j, ∑ k, ‖B j k‖ :=
        Finset.sum_le_sum fun j _ => mul_le_mul_of_nonneg_left (h1 j) (norm_nonneg _)
    _ = (∑ j, ‖A i j‖) * ∑ j, ∑ k, ‖B j k‖ := by rw [Finset.sum_mul]
    _ ≤ (∑ i, ∑ j, ‖A i j‖) * ∑ j, ∑ k, ‖B j k‖ := mul_le_mul_of_nonneg_right
        (Finset.single_le_sum (f := fun i => ∑ j, ‖A i j‖) (fun _ _ => Finset.sum_nonneg fun _ _ => norm_nonneg _) (Finset.mem_univ i))
        (Finset.sum_nonneg fun _ _ => Finset.sum_nonneg fun _ _ => norm_nonneg _)
    _ ≤ _ := mul_le_mul (le_max_right _ _) (le_max_right _ _) (Finset.sum_nonneg fun _ _ => Finset.sum_nonneg fun _ _ => norm_nonneg _)
      (zero_le_one.trans (one_le_entrySize A))

lemma mulF4_of_size {F G : MatF 4} {A B : Mat4} (hF : ∀ i j, F i j = some (A i j)) (hG : ∀ i j, G i j = some (B i j))
    (h : entrySize A * entrySize B < 2 ^ 1024) (i k : Fin 4) : mulF4 F G i k = some ((A * B) i k) := by
  have hs := (row_col_le A B i k).trans_lt h
  rw [Fin.sum_univ_four] at hs
  have h0 : ∀ j, 0 ≤ ‖A i j‖ * ‖B j k‖ := fun j => mul_nonneg (norm_nonneg _) (norm_nonneg _)
  have p0 := h0 0
  have p1 := h0 1
  have p2 := h0 2
  have p3 := h0 3
  have m0 : mulF (F i 0) (G 0 k) = some (A i 0 * B 0 k) := by rw [hF, hG]; exact mulF_of_norm (by linarith)
  have m1 : mulF (F i 1) (G 1 k) = some (A i 1 * B 1 k) := by rw [hF, hG]; exact mulF_of_norm (by linarith)
  have m2 : mulF (F i 2) (G 2 k) = some (A i 2 * B 2 k) := by rw [hF, hG]; exact mulF_of_norm (by linarith)
  have m3 : mulF (F i 3) (G 3 k) = some (A i 3 * B 3 k) := by rw [hF, hG]; exact mulF_of_norm (by linarith)
  have t1 := norm_add_le (A i 0 * B 0 k) (A i 1 * B 1 k)
  have t2 := norm_add_le (A i 0 * B 0 k + A i 1 * B 1 k) (A i 2 * B 2 k)
  have t3 := norm_add_le (A i 0 * B 0 k + A i 1 * B 1 k + A i 2 * B 2 k) (A i 3 * B 3 k)
  rw [← norm_mul, ← norm_mul, ← norm_mul, ← norm_mul] at hs
  rw [← norm_mul] at p0 p1 p2 p3
  unfold mulF4
  rw [m0, m1, m2, m3, addF_of_norm (by linarith), addF_of_norm (by linarith), addF_of_norm (by linarith), Matrix.mul_apply, Fin.sum_univ_four]

lemma mulF2_of_size {F G : MatF 2} {A B : Mat2} (hF : ∀ i j, F i j = some (A i j)) (hG : ∀ i j, G i j = some (B i j))
    (h : entrySize A * entrySize B < 2 ^ 1024) (i k : Fin 2) : mulF2 F G i k = some ((A * B) i k) := by
  have hs := (row_col_le A B i k).trans_lt h
  rw [Fin.sum_univ_two] at hs
  have p0 : 0 ≤ ‖A i 0‖ * ‖B 0 k‖ := mul_nonneg (norm_nonneg _) (norm_nonneg _)
  have p1 : 0 ≤ ‖A i 1‖ * ‖B 1 k‖ := mul_nonneg (norm_nonneg _) (norm_nonneg _)
  have m0 : mulF (F i 0) (G 0 k) = some (A i 0 * B 0 k) := by rw [hF, hG]; exact mulF_of_norm (by linarith)
  have m1 : mulF (F i 1) (G 1 k) = some (A i 1 * B 1 k) := by rw [hF, hG]; exact mulF_of_norm (by linarith)
  have t1 := norm_add_le (A i 0 * B 0 k) (A i 1 * B 1 k)
  rw [norm_mul, norm_mul] at t1
  unfold mulF2
  rw [m0, m1, addF_of_norm (by linarith), Matrix.mul_apply, Fin.sum_univ_two]

lemma one_le_sizes (kx : ℂ) (lbda : ℝ) (layers : List (ℝ × Tensor)) :
    1 ≤ (layers.map fun l => entrySize (propExpm (buildDelta kx l.2) (-l.1) lbda)).prod := by
  induction layers with
  | nil => simp
  | cons l rest ih =>
    rw [List.map_cons, List.prod_cons]
    exact one_le_mul_of_one_le_of_one_le (one_le_entrySize _) ih

lemma loop4_size (kx : ℂ) (lbda : ℝ) (exit : Mat4) (layers : List (ℝ × Tensor))
    (h : (layers.map fun l => entrySize (propExpm (buildDelta kx l.2) (-l.1) lbda)).prod * entrySize exit < 2 ^ 1024) :
    (∀ i j, loop4x4F propExpmF kx lbda layers (flMat exit) i j = some (loop4x4 propExpm kx lbda layers exit i j)) ∧
    entrySize (loop4x4 propExpm kx lbda layers exit) ≤
      (layers.map fun l => entrySize (propExpm (buildDelta kx l.2) (-l.1) lbda)).prod * entrySize exit := by
  induction layers with
  | nil =>
    simp only [List.map_nil, List.prod_nil, one_mul] at h ⊢
    exact ⟨flMat_of_size h, le_rfl⟩
  | cons l rest ih =>
    simp only [List.map_cons, List.prod_cons] at h ⊢
    set a := entrySize (propExpm (buildDelta kx l.2) (-l.1) lbda) with ha
    set b := (rest.map fun l => entrySize (propExpm (buildDelta kx l.2) (-l.1) lbda)).prod with hb
    have ha1 : 1 ≤ a := one_le_entrySize _
    have hb1 : 1 ≤ b := by
      rw [hb]
      exact one_le_sizes _ _ _
    have he1 := one_le_entrySize exit
    have hbe : 1 ≤ b * entrySize exit := one_le_mul_of_one_le_of_one_le hb1 he1
    obtain ⟨h1, h2⟩ := ih (by nlinarith)
    have e1 : loop4x4F propExpmF kx lbda (l :: rest) (flMat exit) =
        mulF4 (propExpmF (buildDelta kx l.2) (-l.1) lbda) (loop4x4F propExpmF kx lbda rest (flMat exit)) := by
      simp [loop4x4F]
    have e2 : loop4x4 propExpm kx lbda (l :: rest) exit = propExpm (buildDelta kx l.2) (-l.1) lbda * loop4x4 propExpm kx lbda rest exit := by
      simp [loop4x4]
    have h3 : a * entrySize (loop4x4 propExpm kx lbda rest exit) ≤ a * b * entrySize exit := by
      rw [mul_assoc]
      exact mul_le_mul_of_nonneg_left h2 (by linarith)
    constructor
    · intro i j
      rw [e1, e2]
      refine mulF4_of_size (fun i j => flMat_of_size ?_ i j) h1 (h3.trans_lt h) i j
      rw [← ha]
      nlinarith
    · rw [e2]
      exact (entrySize_mul _ _).trans h3

/-- C112: as long as the product of the sizes of all matrices stays below `2^1024`, the transfer matrix is finite and exact; if the block that is
inverted is regular and the size of its inverse does not exceed the remaining range, both Jones matrices are finite and exact. For all stacks of
any symmetry with `PropagatorExpm`. -/
theorem C112_finite_4x4 (v) (s : Stack) (theta lbda : ℝ) (ee) (h : wholeSize4 s theta lbda ee < 2 ^ 1024) :
    (∀ i j, transfer4x4F propExpmF s theta lbda ee i j = some (transfer4x4 propExpm s theta lbda ee i j)) ∧
    (transfer4x4 propExpm s theta lbda ee 2 2 * transfer4x4 propExpm s theta lbda ee 0 0 ≠
        transfer4x4 propExpm s theta lbda ee 2 0 * transfer4x4 propExpm s theta lbda ee 0 2 →
      wholeSize4 s theta lbda ee * entrySize (calculate4x4 propExpm s theta lbda ee).jt < 2 ^ 1024 →
      ∀ i j, (calculate4x4F v propExpmF s theta lbda ee).1 i j = some ((calculate4x4 propExpm s theta lbda ee).jr i j) ∧
        (calculate4x4F v propExpmF s theta lbda ee).2 i j = some ((calculate4x4 propExpm s theta lbda ee).jt i j)) := by
  unfold wholeSize4 at h ⊢
  set a := entrySize (isoHalfInv (kxOf s theta) s.front) with ha
  set c := (s.layers.map fun l => entrySize (propExpm (buildDelta (kxOf s theta) l.2) (-l.1) lbda)).prod * entrySize (exitMatrix s (kxOf s theta) ee) with hc
  have ha1 : 1 ≤ a := one_le_entrySize _
  have hc1 : 1 ≤ c := by
    rw [hc]
    exact one_le_mul_of_one_le_of_one_le (one_le_sizes _ _ _) (one_le_entrySize _)
  obtain ⟨h1, h2⟩ := loop4_size (kxOf s theta) lbda (exitMatrix s (kxOf s theta) ee) s.layers (by rw [← hc]; nlinarith)
  rw [← hc] at h2
  have h3 : a * entrySize (loop4x4 propExpm (kxOf s theta) lbda s.layers (exitMatrix s (kxOf s theta) ee)) ≤ a * c :=
    mul_le_mul_of_nonneg_left h2 (by linarith)
  have hT : ∀ i j, transfer4x4F propExpmF s theta lbda ee i j = some (transfer4x4 propExpm s theta lbda ee i j) := fun i j =>
    mulF4_of_size (fun i j => flMat_of_size (by rw [← ha]; nlinarith) i j) h1 (h3.trans_lt h) i j
  have hS : entrySize (transfer4x4 propExpm s theta lbda ee) ≤ a * c := (entrySize_mul _ _).trans h3
  refine ⟨hT, fun hreg hj => ?_⟩
  have hac : 1 ≤ a * c := one_le_mul_of_one_le_of_one_le ha1 hc1
  have hj1 := one_le_entrySize (calculate4x4 propExpm s theta lbda ee).jt
  have hJt : ∀ i j, (calculate4x4F v propExpmF s theta lbda ee).2 i j = some ((calculate4x4 propExpm s theta lbda ee).jt i j) := fun i j => by
    refine (C112_transmission_4x4 v (fun _ => ee) s theta lbda ee (propExpmF, propExpm) (Or.inl rfl) (fun i _ j _ => by rw [hT]; simp) i j _).2
      ⟨hreg, rfl, ?_⟩
    have hn : ‖(calculate4x4 propExpm s theta lbda ee).jt i j‖ < 2 ^ 1024 := by
      have := (entry_le_sum (calculate4x4 propExpm s theta lbda ee).jt i j).trans (le_max_right 1 _)
      change _ ≤ entrySize _ at this
      nlinarith
    exact ⟨(Complex.abs_re_le_norm _).trans_lt hn, (Complex.abs_im_le_norm _).trans_lt hn⟩
  have hR : entrySize (tRt (transfer4x4 propExpm s theta lbda ee)) ≤ a * c := by
    refine le_trans (max_le_max le_rfl ?_) hS
    simp only [Fin.sum_univ_two, Fin.sum_univ_four, tRt, Matrix.of_apply, Matrix.cons_val_zero, Matrix.cons_val_one, Matrix.cons_val', Matrix.cons_val_fin_one]
    generalize transfer4x4 propExpm s theta lbda ee = T
    have hp : ∀ i j, 0 ≤ ‖T i j‖ := fun i j => norm_nonneg _
    linarith [hp 0 0, hp 0 1, hp 0 2, hp 0 3, hp 1 1, hp 1 3, hp 2 0, hp 2 1, hp 2 2, hp 2 3, hp 3 1, hp 3 3]
  refine fun i j => ⟨?_, hJt i j⟩
  refine mulF2_of_size (A := tRt (transfer4x4 propExpm s theta lbda ee)) (B := (calculate4x4 propExpm s theta lbda ee).jt) ?_ hJt ?_ i j
  · intro i j
    fin_cases i <;> fin_cases j <;> exact hT _ _
  · refine lt_of_le_of_lt (mul_le_mul_of_nonneg_right hR (by linarith)) hj

/-- A bare substrate of index 2. -/
noncomputable def bareStack : Stack := ⟨isoTensor 1, [], isoTensor 4, true⟩

/-- Non-trivial case of C112_finite_4x4 and C112_transmission_4x4: a bare substrate at normal incidence. -/
example (ee) : wholeSize4 bareStack 0 500 ee < 2 ^ 1024 ∧
    transfer4x4 propExpm bareStack 0 500 ee 2 2 * transfer4x4 propExpm bareStack 0 500 ee 0 0 ≠
        transfer4x4 propExpm bareStack 0 500 ee 2 0 * transfer4x4 propExpm bareStack 0 500 ee 0 2 ∧
    wholeSize4 bareStack 0 500 ee * entrySize (calculate4x4 propExpm bareStack 0 500 ee).jt < 2 ^ 1024 := by
  have n1 : nOf (isoTensor 1) = 1 := by
    have := nOf_iso_sq (x := 1) (by norm_num)
    norm_num at this
    exact this
  have n3 : nOf (isoTensor 4) = 2 := by
    have := nOf_iso_sq (x := 2) (by norm_num)
    norm_num at this
    exact this
  have q1 : Complex.sqrt 1 = 1 := by
    have := csqrt_ofReal (x := 1) (by norm_num)
    simpa using this
  have hk : kxOf bareStack 0 = 0 := by simp [kxOf, deg2rad]
  have c1 : ∀ e, nOf e ≠ 0 → cosPhi 0 e = 1 := fun e _ => by simp [cosPhi, q1]
  have e1 : isoHalfInv 0 (isoTensor 1) = !![0, 1 / 2, -1 / 2, 0; 0, 1 / 2, 1 / 2, 0; 1 / 2, 0, 0, 1 / 2; -1 / 2, 0, 0, 1 / 2] := by
    ext i j
    fin_cases i <;> fin_cases j <;> norm_num [isoHalfInv, n1, c1]
  have e2 : exitMatrix bareStack 0 ee = !![0, 0, 1, -1; 1, 1, 0, 0; -2, 2, 0, 0; 0, 0, 2, 2] := by
    have e : exitMatrix bareStack 0 ee = isoHalf 0 (isoTensor 4) := if_pos rfl
    rw [e]
    ext i j
    fin_cases i <;> fin_cases j <;> norm_num [isoHalf, n3, c1]
  have hf : bareStack.front = isoTensor 1 := rfl
  have hlay : bareStack.layers = [] := rfl
  have hT : transfer4x4 propExpm bareStack 0 500 ee = !![3 / 2, -1 / 2, 0, 0; -1 / 2, 3 / 2, 0, 0; 0, 0, 3 / 2, 1 / 2; 0, 0, 1 / 2, 3 / 2] := by
    unfold transfer4x4
    rw [hk, e2, hf, e1, hlay]
    simp only [loop4x4, List.reverse_nil, List.foldl_nil]
    ext i j
    fin_cases i <;> fin_cases j <;> simp [Matrix.mul_apply, Fin.sum_univ_four] <;> norm_num
  have hJ : (calculate4x4 propExpm bareStack 0 500 ee).jt = !![2 / 3, 0; 0, 2 / 3] := by
    simp only [calculate4x4]
    refine Matrix.inv_eq_right_inv ?_
    rw [hT]
    ext i j
    fin_cases i <;> fin_cases j <;> simp [tIt, Matrix.mul_apply, Fin.sum_univ_two]
  have hw : wholeSize4 bareStack 0 500 ee = 48 := by
    unfold wholeSize4
    rw [hk, e2, hf, e1, hlay]
    simp only [List.map_nil, List.prod_nil, one_mul, entrySize]
    simp [Fin.sum_univ_four]
    norm_num
  have big : (2 : ℝ) ^ 8 ≤ 2 ^ 1024 := pow_le_pow_right₀ (by norm_num) (by norm_num)
  refine ⟨?_, ?_, ?_⟩
  · rw [hw]
    exact lt_of_lt_of_le (by norm_num) big
  · rw [hT]
    simp
  · rw [hw, hJ]
    refine lt_of_lt_of_le ?_ big
    simp only [entrySize]
    norm_num [Fin.sum_univ_two]

end PyElli
