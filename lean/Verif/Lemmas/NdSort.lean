import Verif.Lemmas.NdLinear

/-! # Lemmas: sorting, selection and assignment for every wavelength -/

namespace PyElli.Nd

open PyElli

variable {V : Type} {α β γ δ : Type} {N m n p : ℕ}

/-! ## Sorting -/

/-- The positions of a row sorted by a comparison. -/
def rowPos (le : α → α → Bool) (row : Fin n → α) (j : Fin n) : Fin n :=
  ((List.finRange n).mergeSort fun a b => le (row a) (row b))[j.val]'(by simp)

lemma rowOrder_eq (le : α → α → Bool) (r : ℕ → α) (row : Fin n → α) (h : ∀ i : Fin n, r i = row i) :
    rowOrder le n r = ((List.finRange n).mergeSort fun a b => le (row a) (row b)).map Fin.val := by
  rw [List.map_mergeSort (s := fun a b => le (r a) (r b)) (f := Fin.val) (fun a _ b _ => by rw [h, h]), List.map_coe_finRange_eq_range]
  rfl

lemma yields_argsort {le : α → α → Bool} {a : Out α} {f : ℕ → Fin n → α} (ha : Yields (rows α n) N a f) :
    Yields (rows ℕ n) N (argsort le a) fun k j => (rowPos le (f k) j).val := by
  obtain ⟨⟨s, v⟩, rfl, hw, hr⟩ := ha
  simp only [rows] at hw hr
  subst hw
  refine ⟨⟨[N, n], fun idx => (rowOrder le n fun j => v (idx.dropLast ++ [j])).getD (idx.getLastD 0) 0⟩, by simp [argsort], rfl, fun k hk => ?_⟩
  funext j
  simp only [rows]
  have h := rowOrder_eq le (fun j => v [k, j]) (f k) fun i => congrFun (hr k hk) i
  simp only [List.dropLast, List.singleton_append, List.getLastD]
  rw [h]
  simp [rowPos]

lemma yields_take_rows {a : Out α} {i : Out ℕ} {f : ℕ → Fin n → α} {g : ℕ → Fin p → Fin n} (ha : Yields (rows α n) N a f)
    (hi : Yields (rows ℕ p) N i fun k j => (g k j).val) : Yields (rows α p) N (takeAlong a i) fun k j => f k (g k j) := by
  obtain ⟨⟨s, v⟩, rfl, hw, hr⟩ := ha
  obtain ⟨⟨t, w⟩, rfl, hw', hr'⟩ := hi
  simp only [rows] at hw hr hw' hr'
  subst hw hw'
  refine ⟨⟨[N, p], fun idx => v (project [N] idx.dropLast ++ [w (project [N] idx.dropLast ++ [idx.getLastD 0])])⟩, by simp [takeAlong, bcastRev],
    rfl, fun k hk => ?_⟩
  funext j
  have h1 := congrFun (hr' k hk) j
  simp [rows, project, pick_lt hk, h1, ← hr k hk]

lemma yields_take_mats {a : Out α} {i : Out ℕ} {F : ℕ → Fin m → Fin n → α} {g : ℕ → Fin p → Fin n} (ha : Yields (mats α m n) N a F)
    (hi : Yields (rows ℕ p) N i fun k j => (g k j).val) :
    Yields (mats α m p) N (takeAlong a (index [.all, .new, .all] i)) fun k b j => F k b (g k j) := by
  obtain ⟨⟨s, v⟩, rfl, hw, hr⟩ := ha
  obtain ⟨⟨t, w⟩, rfl, hw', hr'⟩ := hi
  simp only [mats, rows] at hw hr hw' hr'
  subst hw hw'
  have hb : bcastRev [m, N] [1, N] = some [m, N] := by
    simp only [bcastRev]
    split_ifs <;> simp_all
  refine ⟨⟨[N, m, p], fun idx => v (project [N, m] idx.dropLast ++
    [w (pullIx [.all, .new, .all] [N, p] (project [N, 1] idx.dropLast ++ [idx.getLastD 0]))])⟩, by simp [takeAlong, index, shapeIx, hb],
    rfl, fun k hk => ?_⟩
  funext b j
  have h1 := congrFun (hr' k hk) j
  simp [mats, project, pullIx, pick_lt hk, pick_lt b.isLt, h1, ← hr k hk]

/-! ## Slices and columns -/

lemma yields_row_lo {a : Out α} {F : ℕ → Fin m → Fin 4 → α} (ha : Yields (mats α m 4) N a F) (i : Fin m) :
    Yields (rows α 2) N (index [.all, .at i, .slice none (some 2) 1] a) fun k => ![F k i 0, F k i 1] := by
  obtain ⟨⟨s, v⟩, rfl, hw, hr⟩ := ha
  simp only [mats] at hw hr
  subst hw
  have hs : pySlice none (some 2) 1 4 = [0, 1] := by decide
  refine ⟨⟨[N, 2], fun idx => v (pullIx [.all, .at i, .slice none (some 2) 1] [N, m, 4] idx)⟩, by simp [index, shapeIx, hs], rfl, fun k hk => ?_⟩
  funext j
  fin_cases j <;> simp [rows, pullIx, hs, ← hr k hk]

lemma yields_row_hi {a : Out α} {F : ℕ → Fin m → Fin 4 → α} (ha : Yields (mats α m 4) N a F) (i : Fin m) :
    Yields (rows α 2) N (index [.all, .at i, .slice (some 2) none 1] a) fun k => ![F k i 2, F k i 3] := by
  obtain ⟨⟨s, v⟩, rfl, hw, hr⟩ := ha
  simp only [mats] at hw hr
  subst hw
  have hs : pySlice (some 2) none 1 4 = [2, 3] := by decide
  refine ⟨⟨[N, 2], fun idx => v (pullIx [.all, .at i, .slice (some 2) none 1] [N, m, 4] idx)⟩, by simp [index, shapeIx, hs], rfl, fun k hk => ?_⟩
  funext j
  fin_cases j <;> simp [rows, pullIx, hs, ← hr k hk]

lemma yields_rows_op1 {a : Out α} {f : ℕ → Fin n → α} {o : α → β} (ha : Yields (rows α n) N a f) :
    Yields (rows β n) N (op1 o a) fun k j => o (f k j) := by
  obtain ⟨x, rfl, hw, hr⟩ := ha
  refine ⟨_, rfl, hw, fun k hk => ?_⟩
  funext j
  exact congrArg o (congrFun (hr k hk) j)

lemma yields_rows_op2 {a : Out α} {b : Out β} {f : ℕ → Fin n → α} {g : ℕ → Fin n → β} {o : α → β → γ} (ha : Yields (rows α n) N a f)
    (hb : Yields (rows β n) N b g) : Yields (rows γ n) N (op2 o a b) fun k j => o (f k j) (g k j) := by
  obtain ⟨⟨s, v⟩, rfl, hw, hr⟩ := ha
  obtain ⟨⟨t, w⟩, rfl, hw', hr'⟩ := hb
  simp only [rows] at hw hr hw' hr'
  subst hw hw'
  refine ⟨⟨[N, n], fun idx => o (v (project [N, n] idx)) (w (project [N, n] idx))⟩, by simp [op2, bcast, bcastRev], rfl, fun k hk => ?_⟩
  funext j
  simp [rows, project, pick_lt hk, pick_lt j.isLt, ← hr k hk, ← hr' k hk]

lemma yields_rows_op2s {a : Out α} {c : β} {f : ℕ → Fin n → α} {o : α → β → γ} (ha : Yields (rows α n) N a f) :
    Yields (rows γ n) N (op2 o a (scalar c)) fun k j => o (f k j) c := by
  obtain ⟨⟨s, v⟩, rfl, hw, hr⟩ := ha
  simp only [rows] at hw hr
  subst hw
  refine ⟨⟨[N, n], fun idx => o (v (project [N, n] idx)) c⟩, by simp [op2, scalar, bcast, bcastRev], rfl, fun k hk => ?_⟩
  funext j
  simp [rows, project, pick_lt hk, pick_lt j.isLt, ← hr k hk]

/-- `a o v[:, None]`. -/
lemma yields_rows_vec {a : Out α} {b : Out β} {f : ℕ → Fin n → α} {g : ℕ → β} {o : α → β → γ} (ha : Yields (rows α n) N a f)
    (hb : Yields (vec β) N b g) : Yields (rows γ n) N (op2 o a (index [.all, .new] b)) fun k j => o (f k j) (g k) := by
  obtain ⟨⟨s, v⟩, rfl, hw, hr⟩ := ha
  obtain ⟨⟨t, w⟩, rfl, hw', hr'⟩ := hb
  simp only [rows, vec] at hw hr hw' hr'
  subst hw hw'
  have hb : bcastRev [n, N] [1, N] = some [n, N] := by
    simp only [bcastRev]
    split_ifs <;> simp_all
  refine ⟨⟨[N, n], fun idx => o (v (project [N, n] idx)) (w (pullIx [.all, .new] [N] (project [N, 1] idx)))⟩, by simp [op2, index, shapeIx, bcast, hb],
    rfl, fun k hk => ?_⟩
  funext j
  simp [rows, project, pullIx, pick_lt hk, pick_lt j.isLt, ← hr k hk, ← hr' k hk]

lemma yields_col {a : Out α} {f : ℕ → Fin n → α} (ha : Yields (rows α n) N a f) (j : Fin n) :
    Yields (vec α) N (index [.all, .at j] a) fun k => f k j := by
  obtain ⟨⟨s, v⟩, rfl, hw, hr⟩ := ha
  simp only [rows] at hw hr
  subst hw
  refine ⟨⟨[N], fun idx => v (pullIx [.all, .at j] [N, n] idx)⟩, by simp [index, shapeIx], rfl, fun k hk => ?_⟩
  simp [vec, pullIx, ← hr k hk]

lemma yields_hstack {a b : Out α} {f g : ℕ → Fin 2 → α} (ha : Yields (rows α 2) N a f) (hb : Yields (rows α 2) N b g) :
    Yields (rows α 4) N (hstack a b) fun k => ![f k 0, f k 1, g k 0, g k 1] := by
  obtain ⟨⟨s, v⟩, rfl, hw, hr⟩ := ha
  obtain ⟨⟨t, w⟩, rfl, hw', hr'⟩ := hb
  simp only [rows] at hw hr hw' hr'
  subst hw hw'
  refine ⟨_, if_pos ⟨rfl, rfl⟩, rfl, fun k hk => ?_⟩
  funext j
  fin_cases j <;> simp [rows, ← hr k hk, ← hr' k hk]

/-! ## Assignments -/

lemma yields_assign {a b : Out α} {F : ℕ → Fin m → Fin n → α} {g : ℕ → α} (ha : Yields (mats α m n) N a F) (hb : Yields (vec α) N b g)
    (r : Fin m) (c : Fin n) :
    Yields (mats α m n) N (assign [.all, .at r, .at c] a b) fun k i j => if i = r ∧ j = c then g k else F k i j := by
  obtain ⟨⟨s, v⟩, rfl, hw, hr⟩ := ha
  obtain ⟨⟨t, w⟩, rfl, hw', hr'⟩ := hb
  simp only [mats, vec] at hw hr hw' hr'
  subst hw hw'
  refine ⟨⟨[N, m, n], fun idx => match pushIx [.all, .at r, .at c] idx with
          | some sub => w (project [N] sub)
          | none => v idx⟩, by simp [assign, shapeIx, bcast, bcastRev]; rfl, rfl, fun k hk => ?_⟩
  funext i j
  by_cases hi : i = r
  · by_cases hj : j = c
    · simp [mats, pushIx, hi, hj, project, pick_lt hk, ← hr' k hk]
    · have : (j : ℕ) ≠ c := fun h => hj (Fin.ext h)
      simp [mats, pushIx, hj, this, hi, ← hr k hk]
  · have : (i : ℕ) ≠ r := fun h => hi (Fin.ext h)
    simp [mats, pushIx, hi, this, ← hr k hk]

lemma yields_assign_scalar {a : Out α} {F : ℕ → Fin m → Fin n → α} {d : α} (ha : Yields (mats α m n) N a F) (r : Fin m) (c : Fin n) :
    Yields (mats α m n) N (assign [.all, .at r, .at c] a (scalar d)) fun k i j => if i = r ∧ j = c then d else F k i j := by
  obtain ⟨⟨s, v⟩, rfl, hw, hr⟩ := ha
  simp only [mats] at hw hr
  subst hw
  refine ⟨⟨[N, m, n], fun idx => match pushIx [.all, .at r, .at c] idx with
          | some _ => d
          | none => v idx⟩, by simp [assign, scalar, shapeIx, bcast, bcastRev]; rfl, rfl, fun k hk => ?_⟩
  funext i j
  by_cases hi : i = r
  · by_cases hj : j = c
    · simp [mats, pushIx, hi, hj]
    · have : (j : ℕ) ≠ c := fun h => hj (Fin.ext h)
      simp [mats, pushIx, hj, this, hi, ← hr k hk]
  · have : (i : ℕ) ≠ r := fun h => hi (Fin.ext h)
    simp [mats, pushIx, hi, this, ← hr k hk]

/-! ## Masks -/

lemma mem_allIdx2 {k j : ℕ} : [k, j] ∈ allIdx [N, n] ↔ k < N ∧ j < n := by
  simp [allIdx]

lemma mem_allIdx3 {k i j : ℕ} : [k, i, j] ∈ allIdx [N, m, n] ↔ k < N ∧ i < m ∧ j < n := by
  simp [allIdx]

lemma yields_gather (x : ND α) (ps : List (List ℕ)) :
    Yields (vec α) ps.length (gather (.ok x) (.ok ps)) fun t => x.val (ps.getD t []) := ⟨_, rfl, rfl, fun _ _ => rfl⟩

lemma scatter_eq {x : ND α} {ps : List (List ℕ)} {b : Out α} {G : List ℕ → α}
    (hb : Yields (vec α) ps.length b fun t => G (ps.getD t [])) :
    ∃ y, scatter (.ok x) (.ok ps) b = .ok y ∧ y.shape = x.shape ∧ ∀ idx, y.val idx = if idx ∈ ps then G idx else x.val idx := by
  obtain ⟨z, rfl, hw, hr⟩ := hb
  refine ⟨_, if_pos hw, rfl, fun idx => ?_⟩
  by_cases h : idx ∈ ps
  · have hlt : ps.idxOf idx < ps.length := List.idxOf_lt_length_iff.2 h
    have := hr _ hlt
    simp only [vec] at this
    simp [h, this, hlt]
  · simp [h]

end PyElli.Nd
