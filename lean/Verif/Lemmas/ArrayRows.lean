import Verif.Lemmas.ArrayCalc4

/-! # Lemmas: arrays with one row per layer -/

namespace PyElli.Nd

open PyElli

variable {α β γ : Type} {N R : ℕ}

/-- `a` is an array of shape `(R, N)` with the entries `F k i`. -/
abbrev Rows (R N : ℕ) (a : Out α) (F : ℕ → ℕ → α) : Prop := Yields (rowsLast α R) N a fun k i => F k i.val

lemma rows_read {a : ND α} {F : ℕ → ℕ → α} (h : ∀ k < N, (rowsLast α R).read k a = fun i => F k i.val) {k i : ℕ} (hk : k < N) (hi : i < R) :
    a.val [i, k] = F k i := congrFun (h k hk) ⟨i, hi⟩

lemma rows_op1 {a : Out α} {F : ℕ → ℕ → α} {o : α → β} (ha : Rows R N a F) : Rows R N (op1 o a) fun k i => o (F k i) := by
  obtain ⟨x, rfl, hw, hr⟩ := ha
  exact ⟨_, rfl, hw, fun k hk => funext fun i => congrArg o (rows_read hr hk i.isLt)⟩

lemma rows_op2 {a : Out α} {b : Out β} {F : ℕ → ℕ → α} {G : ℕ → ℕ → β} {o : α → β → γ} (ha : Rows R N a F) (hb : Rows R N b G) :
    Rows R N (op2 o a b) fun k i => o (F k i) (G k i) := by
  obtain ⟨⟨s, v⟩, rfl, hw, hr⟩ := ha
  obtain ⟨⟨t, w⟩, rfl, hw', hr'⟩ := hb
  simp only [rowsLast] at hw hw'
  subst hw hw'
  refine ⟨⟨[R, N], fun idx => o (v (project [R, N] idx)) (w (project [R, N] idx))⟩, by simp [op2, bcast, bcastRev], rfl, fun k hk => ?_⟩
  funext i
  have h1 := rows_read hr hk i.isLt
  have h2 := rows_read hr' hk i.isLt
  simp only at h1 h2
  simp [rowsLast, project, pick_lt hk, pick_lt i.isLt, h1, h2]

lemma rows_sop2 {c : α} {b : Out β} {G : ℕ → ℕ → β} {o : α → β → γ} (hb : Rows R N b G) :
    Rows R N (op2 o (scalar c) b) fun k i => o c (G k i) := by
  obtain ⟨⟨t, w⟩, rfl, hw', hr'⟩ := hb
  simp only [rowsLast] at hw'
  subst hw'
  refine ⟨⟨[R, N], fun idx => o c (w (project [R, N] idx))⟩, by simp [op2, scalar, bcast, bcastRev], rfl, fun k hk => ?_⟩
  funext i
  have h2 := rows_read hr' hk i.isLt
  simp only at h2
  simp [rowsLast, project, pick_lt hk, pick_lt i.isLt, h2]

/-- A vector of wavelengths and rows. -/
lemma rows_vop2 {a : Out α} {b : Out β} {f : ℕ → α} {G : ℕ → ℕ → β} {o : α → β → γ} (ha : Yields (vec α) N a f) (hb : Rows R N b G) :
    Rows R N (op2 o a b) fun k i => o (f k) (G k i) := by
  obtain ⟨⟨s, v⟩, rfl, hw, hr⟩ := ha
  obtain ⟨⟨t, w⟩, rfl, hw', hr'⟩ := hb
  simp only [rowsLast, vec] at hw hw' hr
  subst hw hw'
  refine ⟨⟨[R, N], fun idx => o (v (project [N] idx)) (w (project [R, N] idx))⟩, by simp [op2, bcast, bcastRev], rfl, fun k hk => ?_⟩
  funext i
  have h2 := rows_read hr' hk i.isLt
  simp only at h2
  simp [rowsLast, project, pick_lt hk, pick_lt i.isLt, hr k hk, h2]

/-- Rows and a vector of wavelengths. -/
lemma rows_op2v {a : Out α} {b : Out β} {F : ℕ → ℕ → α} {g : ℕ → β} {o : α → β → γ} (ha : Rows R N a F) (hb : Yields (vec β) N b g) :
    Rows R N (op2 o a b) fun k i => o (F k i) (g k) := by
  obtain ⟨⟨s, v⟩, rfl, hw, hr⟩ := ha
  obtain ⟨⟨t, w⟩, rfl, hw', hr'⟩ := hb
  simp only [rowsLast, vec] at hw hw' hr'
  subst hw hw'
  refine ⟨⟨[R, N], fun idx => o (v (project [R, N] idx)) (w (project [N] idx))⟩, by simp [op2, bcast, bcastRev], rfl, fun k hk => ?_⟩
  funext i
  have h2 := rows_read hr hk i.isLt
  simp only at h2
  simp [rowsLast, project, pick_lt hk, pick_lt i.isLt, hr' k hk, h2]

/-- Rows and one number per row, `a o d[:, None]`. -/
lemma rows_op2d {a : Out α} {d : ND β} {F : ℕ → ℕ → α} {o : α → β → γ} (ha : Rows R N a F) (hd : d.shape = [R]) :
    Rows R N (op2 o a (index [.all, .new] (.ok d))) fun k i => o (F k i) (d.val [i]) := by
  obtain ⟨⟨s, v⟩, rfl, hw, hr⟩ := ha
  obtain ⟨t, w⟩ := d
  simp only [rowsLast] at hw hd
  subst hw hd
  have hb : bcastRev [N, R] [1, R] = some [N, R] := by
    simp only [bcastRev]
    split_ifs <;> simp_all
  refine ⟨⟨[R, N], fun idx => o (v (project [R, N] idx)) (w (pullIx [.all, .new] [R] (project [R, 1] idx)))⟩, by simp [op2, index, shapeIx, bcast, hb],
    rfl, fun k hk => ?_⟩
  funext i
  have h2 := rows_read hr hk i.isLt
  simp only at h2
  simp [rowsLast, project, pullIx, pick_lt hk, pick_lt i.isLt, h2]

lemma rows_row {a : Out α} {F : ℕ → ℕ → α} (ha : Rows R N a F) {i : ℕ} (hi : i < R) : Yields (vec α) N (index [.at i] a) fun k => F k i := by
  obtain ⟨⟨s, v⟩, rfl, hw, hr⟩ := ha
  simp only [rowsLast] at hw
  subst hw
  refine ⟨⟨[N], fun idx => v (pullIx [.at i] [R, N] idx)⟩, by simp [index, shapeIx, hi], rfl, fun k hk => ?_⟩
  simpa [vec, pullIx] using rows_read hr hk hi

lemma rows_assign {a b : Out α} {F : ℕ → ℕ → α} {g : ℕ → α} (ha : Rows R N a F) (hb : Yields (vec α) N b g) {j : ℕ} (hj : j < R) :
    Rows R N (assign [.at j] a b) fun k i => if i = j then g k else F k i := by
  obtain ⟨⟨s, v⟩, rfl, hw, hr⟩ := ha
  obtain ⟨⟨t, w⟩, rfl, hw', hr'⟩ := hb
  simp only [rowsLast, vec] at hw hw' hr'
  subst hw hw'
  refine ⟨⟨[R, N], fun idx => match pushIx [.at j] idx with
          | some sub => w (project [N] sub)
          | none => v idx⟩, by simp [assign, shapeIx, bcast, bcastRev, hj]; rfl, rfl, fun k hk => ?_⟩
  funext i
  have h2 := rows_read hr hk i.isLt
  simp only at h2
  by_cases hi : (i : ℕ) = j
  · simp [rowsLast, pushIx, hi, project, pick_lt hk, hr' k hk]
  · simp [rowsLast, pushIx, hi, h2]

lemma pySlice_inner (n : ℕ) : pySlice (some 1) (some (-1)) 1 (n + 2) = List.range' 1 n := by
  have h : ∀ i : ℕ, (decide ((1 : ℤ) ≤ (i : ℤ) ∧ (i : ℤ) < -1 + ((n + 2 : ℕ) : ℤ) ∧ ((i : ℤ) - 1) % 1 = 0)) = decide (1 ≤ i ∧ i < n + 1) := by
    intro i
    refine decide_eq_decide.2 ⟨fun h => by omega, fun h => by omega⟩
  have h2 : pySlice (some 1) (some (-1)) 1 (n + 2) =
      (List.range (n + 2)).filter fun i : ℕ => decide ((1 : ℤ) ≤ (i : ℤ) ∧ (i : ℤ) < -1 + ((n + 2 : ℕ) : ℤ) ∧ ((i : ℤ) - 1) % 1 = 0) := rfl
  rw [h2]
  simp only [h]
  rw [show n + 2 = 1 + n + 1 by omega, List.range_succ, List.filter_append, List.range_eq_range', ← List.range'_append_1]
  simp only [List.filter_append]
  rw [List.filter_eq_nil_iff.2, List.filter_eq_self.2, List.filter_eq_nil_iff.2]
  · simp
  · simp
  · intro a ha
    simp only [List.mem_range'_1] at ha
    simp; omega
  · simp

lemma rows_inner {a : Out α} {F : ℕ → ℕ → α} (ha : Rows (R + 2) N a F) :
    Rows R N (index [.slice (some 1) (some (-1)) 1] a) fun k i => F k (i + 1) := by
  obtain ⟨⟨s, v⟩, rfl, hw, hr⟩ := ha
  simp only [rowsLast] at hw
  subst hw
  refine ⟨⟨[R, N], fun idx => v (pullIx [.slice (some 1) (some (-1)) 1] [R + 2, N] idx)⟩, by simp [index, shapeIx, pySlice_inner], rfl, fun k hk => ?_⟩
  funext i
  have h2 := rows_read hr hk (i := i.val + 1) (by omega)
  simp only at h2
  simp [rowsLast, pullIx, pySlice_inner, h2, Nat.add_comm 1]

/-! ## Arrays of layers -/

lemma rows_atleast {a : Out α} {f : ℕ → α} (ha : Yields (vec α) N a f) : Rows 1 N (atleast2 a) fun k _ => f k := by
  obtain ⟨⟨s, v⟩, rfl, hw, hr⟩ := ha
  simp only [vec] at hw hr
  subst hw
  refine ⟨_, rfl, rfl, fun k hk => ?_⟩
  funext i
  simp [rowsLast, hr k hk]

lemma rows_atleast2 {a : Out α} {F : ℕ → ℕ → α} (ha : Rows R N a F) : Rows R N (atleast2 a) F := by
  obtain ⟨⟨s, v⟩, rfl, hw, hr⟩ := ha
  have hw' := hw
  simp only [rowsLast] at hw'
  subst hw'
  exact ⟨_, rfl, hw, hr⟩

lemma rows_concat {R' : ℕ} {a b : Out α} {F G : ℕ → ℕ → α} (ha : Rows R N a F) (hb : Rows R' N b G) :
    Rows (R + R') N (concat0 a b) fun k i => if i < R then F k i else G k (i - R) := by
  obtain ⟨⟨s, v⟩, rfl, hw, hr⟩ := ha
  obtain ⟨⟨t, w⟩, rfl, hw', hr'⟩ := hb
  simp only [rowsLast] at hw hw'
  subst hw hw'
  refine ⟨_, if_pos rfl, rfl, fun k hk => ?_⟩
  funext i
  by_cases hi : (i : ℕ) < R
  · simpa [rowsLast, hi] using rows_read hr hk hi
  · simpa [rowsLast, hi] using rows_read hr' hk (i := i.val - R) (by omega)

lemma sequence_ok (l : List (ND α)) : sequence (l.map .ok) = .ok l := by
  induction l with
  | nil => rfl
  | cons a l ih => simp [sequence, ih]

lemma rows_stack (x : ND α) (xs : List (ND α)) (h : ∀ y ∈ x :: xs, y.shape = [N, 3, 3]) :
    Rows (xs.length + 1) N (index [.all, .all, .at 0, .at 0] (stack (.ok x) (xs.map .ok))) fun k i => ((x :: xs).getD i x).val [k, 0, 0] := by
  have h0 : x.shape = [N, 3, 3] := h x (by simp)
  have hs : stack (.ok x) (xs.map .ok) = .ok ⟨[xs.length + 1, N, 3, 3], fun idx => ((x :: xs).getD (idx.headD 0) x).val idx.tail⟩ := by
    simp only [stack, sequence_ok]
    rw [if_pos (fun b hb => by rw [h b (by simp [hb]), h0]), h0]
  rw [hs]
  refine ⟨⟨[xs.length + 1, N], _⟩, rfl, rfl, fun k hk => ?_⟩
  funext i
  simp [rowsLast, pullIx]

end PyElli.Nd
