import Verif.Props.Hist

/-! # The history holds the most recent commits, for every sequence of operations (C62) -/

namespace PyElli.Hist

open PyElli Spec.Hist

variable {V : Type}

/-- All objects exist and the history is bounded; objects may be shared. -/
structure Bound (s : State V) : Prop where
  curLt : ∀ a ∈ addrs s.cur, a < s.next
  histLt : ∀ e ∈ s.hist, ∀ a ∈ addrs e, a < s.next
  len : s.hist.length ≤ s.max
  max1 : 1 ≤ s.max

/-- The objects an operation is given exist. -/
def Exists (s : State V) : Op V → Prop
  | .updateParams o => ∀ a ∈ addrs o, a < s.next
  | .poke a _ => a < s.next
  | _ => True

def AllExist : State V → List (Op V) → Prop
  | _, [] => True
  | s, op :: ops => Exists s op ∧ AllExist (step s op) ops

lemma bound_init (heap : ℕ → V) (next : ℕ) : Bound (State.init heap next) :=
  ⟨by simp [State.init, addrs], by simp [State.init], by simp [State.init], by simp [State.init]⟩

/-- The clone a commit in the state `s` stores. -/
def snapshot (s : State V) : Dict ℕ := (copy s.heap s.next s.cur).1

lemma snapshot_spec (s : State V) (h : Bound s) : view s.commit.heap (snapshot s) = curView s ∧
    ∀ a ∈ addrs (snapshot s), s.next ≤ a := by
  obtain ⟨c1, -, -, c4, -⟩ := copy_spec s.cur s.heap s.next h.curLt
  exact ⟨c1, fun a ha => (c4 a ha).1⟩

lemma commit_record (s : State V) (h : Bound s) : s.commit.hist = lastN s.max (s.hist ++ [snapshot s]) := by
  have hlen := h.len
  have hmax := h.max1
  simp only [State.commit, lastN, List.length_append, List.length_singleton, snapshot]
  split_ifs with hc
  · have : s.hist.length + 1 - s.max = 1 := by omega
    rw [this, List.drop_append_of_le_length (by omega)]
  · have : s.hist.length + 1 - s.max = 0 := by omega
    rw [this]
    simp

lemma commit_bound (s : State V) (h : Bound s) : Bound s.commit ∧ s.next ≤ s.commit.next := by
  obtain ⟨-, c2, -, c4, -⟩ := copy_spec s.cur s.heap s.next h.curLt
  refine ⟨⟨fun a ha => lt_of_lt_of_le (h.curLt a ha) c2, ?_, (commit_len s h.len h.max1).1, h.max1⟩, c2⟩
  intro e he a ha
  rw [commit_record s h] at he
  have := List.mem_of_mem_drop he
  rw [List.mem_append, List.mem_singleton] at this
  rcases this with he | rfl
  · exact lt_of_lt_of_le (h.histLt e he a ha) c2
  · exact (c4 a ha).2

lemma pyIndex_mem {A : Type} {l : List A} {i : ℤ} {e : A} (h : pyIndex l i = some e) : e ∈ l := by
  unfold pyIndex at h
  split_ifs at h
  · exact List.mem_of_getElem? h
  · exact List.mem_of_getElem? h

lemma setValue_same (s : State V) (k : String) (v : V) : (s.setValue k v).2.cur = s.cur ∧ (s.setValue k v).2.hist = s.hist ∧
    (s.setValue k v).2.max = s.max ∧ (s.setValue k v).2.next = s.next := by
  unfold State.setValue
  split <;> exact ⟨rfl, rfl, rfl, rfl⟩

lemma add_bound (s : State V) (h : Bound s) (k : String) (v : V) : Bound (s.add k v) := by
  refine ⟨?_, ?_, h.len, h.max1⟩
  · intro a ha
    show a < s.next + 1
    rcases set_addrs _ _ _ a ha with h' | rfl
    · exact Nat.lt_succ_of_lt (h.curLt a h')
    · exact Nat.lt_succ_self _
  · intro e he a ha
    exact Nat.lt_succ_of_lt (h.histLt e he a ha)

lemma setValue_bound (s : State V) (h : Bound s) (k : String) (v : V) : Bound (s.setValue k v).2 := by
  obtain ⟨e1, e2, e3, e4⟩ := setValue_same s k v
  exact ⟨by rw [e1, e4]; exact h.curLt, by rw [e2, e4]; exact h.histLt, by rw [e2, e3]; exact h.len, by rw [e3]; exact h.max1⟩

lemma merge_bound (s : State V) (h : Bound s) (o : Dict ℕ) (ho : ∀ a ∈ addrs o, a < s.next) :
    Bound { s with cur := merge s.cur o } := by
  refine ⟨fun a ha => ?_, h.histLt, h.len, h.max1⟩
  rcases merge_addrs o s.cur a ha with h' | h'
  · exact h.curLt a h'
  · exact ho a h'

/-- One operation keeps the objects and acts on the history as the specification says. -/
lemma step_record (s : State V) (op : Op V) (h : Bound s) (he : Exists s op) :
    Bound (step s op) ∧ ((step s op).max, (step s op).hist) = record (s.max, s.hist) op (snapshot s) := by
  obtain ⟨hc, hn⟩ := commit_bound s h
  have hr := commit_record s h
  have hm : s.commit.max = s.max := rfl
  cases op with
  | commit => exact ⟨hc, by simp only [step, record, hr, hm]⟩
  | updateValue k v =>
    obtain ⟨-, e2, e3, -⟩ := setValue_same s.commit k v
    exact ⟨setValue_bound _ hc k v, by simp only [step, State.updateValue, record, e2, e3, hr, hm]⟩
  | updateParams o =>
    refine ⟨merge_bound _ hc o fun a ha => lt_of_lt_of_le (he a ha) hn, ?_⟩
    simp only [step, State.updateParams, record, hr, hm]
  | trackedAdd k v =>
    refine ⟨add_bound _ hc k v, ?_⟩
    simp only [step, State.trackedAdd, State.add, record, hr, hm]
  | add k v => exact ⟨add_bound s h k v, rfl⟩
  | setValue k v =>
    obtain ⟨-, e2, e3, -⟩ := setValue_same s k v
    exact ⟨setValue_bound s h k v, by simp only [step, record, e2, e3]⟩
  | poke a v => exact ⟨⟨h.curLt, h.histLt, h.len, h.max1⟩, rfl⟩
  | clear => exact ⟨⟨h.curLt, by simp [step, State.clear], by simp [step, State.clear], h.max1⟩, rfl⟩
  | setMax n =>
    cases n with
    | int i =>
      simp only [step, State.setMax, record]
      by_cases hi : i < 1
      · rw [if_pos hi, if_neg (not_le.2 hi)]
        exact ⟨h, rfl⟩
      · rw [if_neg hi, if_pos (not_lt.1 hi)]
        refine ⟨⟨h.curLt, fun e he => h.histLt e (List.mem_of_mem_drop he), ?_, ?_⟩, rfl⟩
        · simp only [List.length_drop]
          omega
        · show 1 ≤ i.toNat
          omega
    | float x => exact ⟨h, rfl⟩
    | other => exact ⟨h, rfl⟩
  | revert i =>
    simp only [step, State.revert, record]
    split_ifs
    · exact ⟨h, rfl⟩
    · split
      · rename_i e hx
        exact ⟨merge_bound s h _ (h.histLt _ (pyIndex_mem hx)), rfl⟩
      · exact ⟨h, rfl⟩
    · exact ⟨h, rfl⟩
  | pop =>
    obtain ⟨-, c2, -, -, -⟩ := copy_spec s.cur s.heap s.next h.curLt
    simp only [step, State.pop, record]
    split
    · rename_i e hx
      have hmem : e ∈ s.hist := List.mem_of_getLast? hx
      refine ⟨⟨fun a ha => ?_, fun f hf a ha => ?_, ?_, h.max1⟩, rfl⟩
      · rcases merge_addrs e s.cur a ha with h' | h'
        · exact lt_of_lt_of_le (h.curLt a h') c2
        · exact lt_of_lt_of_le (h.histLt e hmem a h') c2
      · exact lt_of_lt_of_le (h.histLt f (List.dropLast_subset _ hf) a ha) c2
      · have := h.len
        simp only [List.length_dropLast]
        omega
    · rename_i hx
      rw [List.getLast?_eq_none_iff] at hx
      exact ⟨h, by rw [hx]; rfl⟩

/-- C62: for every sequence of operations, including `revert`, `pop`, `clear_history`, changes of the maximal length and operations that
raise, the history consists of the most recent snapshots in order: a commit appends one and drops the oldest if there are too many,
`pop` removes the last, `clear_history` all, a smaller maximal length the oldest, nothing else changes it. Each snapshot is made of new
objects with the values the parameters have at the commit. -/
theorem C62_recent (s : State V) (ops : List (Op V)) (h : Bound s) (he : AllExist s ops) :
    ∃ snaps : List (Dict ℕ), snaps.length = ops.length ∧
      ((run s ops).max, (run s ops).hist) = (ops.zip snaps).foldl (fun st p => record st p.1 p.2) (s.max, s.hist) ∧
      ∀ i (hi : i < ops.length) (hi' : i < snaps.length), commits ops[i] = true →
        let t := run s (ops.take i)
        view t.commit.heap snaps[i] = curView t ∧ ∀ a ∈ addrs snaps[i], t.next ≤ a := by
  induction ops generalizing s with
  | nil => exact ⟨[], rfl, rfl, fun i hi => absurd hi (by simp)⟩
  | cons op ops ih =>
    obtain ⟨h1, h2⟩ := step_record s op h he.1
    obtain ⟨snaps, l1, l2, l3⟩ := ih (step s op) h1 he.2
    refine ⟨snapshot s :: snaps, by simp [l1], ?_, ?_⟩
    · rw [List.zip_cons_cons, List.foldl_cons, ← h2]
      exact l2
    · intro i hi hi' hcm
      cases i with
      | zero => exact snapshot_spec s h
      | succ i => exact l3 i (by simpa using hi) (by simpa using hi') hcm

/-- Non-trivial case: a run with two commits, a `revert`, a `pop` and a shortened history. -/
example : AllExist (State.init (fun _ => (0 : ℕ)) 0) [.add "x" 1, .updateValue "x" 2, .commit, .revert 0, .updateValue "x" 5, .pop,
      .setMax (.int 1)] ∧
    (run (State.init (fun _ => (0 : ℕ)) 0) [.add "x" 1, .updateValue "x" 2, .commit, .revert 0, .updateValue "x" 5, .pop,
      .setMax (.int 1)]).hist.length = 1 := by
  refine ⟨by simp [AllExist, Exists], by decide⟩

end PyElli.Hist
