import Verif.Model.Hist
import Verif.Spec.Hist
import Verif.Props.Params

/-! # Parameter history (C62–C65) -/

namespace PyElli.Hist

open PyElli Spec.Hist

variable {V : Type}

/-! ## Bounded history (C62) -/

lemma commit_len (s : State V) (h : s.hist.length ≤ s.max) (h1 : 1 ≤ s.max) :
    s.commit.hist.length ≤ s.commit.max ∧ s.commit.max = s.max := by
  refine ⟨?_, rfl⟩
  simp only [State.commit]
  split_ifs with hc
  · simp; omega
  · simp; omega

lemma step_len (s : State V) (op : Op V) (h : s.hist.length ≤ s.max ∧ 1 ≤ s.max) :
    (step s op).hist.length ≤ (step s op).max ∧ 1 ≤ (step s op).max := by
  have hc := commit_len s h.1 h.2
  have hc1 : 1 ≤ s.commit.max := by rw [hc.2]; exact h.2
  have hsv : ∀ (t : State V) k v, (t.setValue k v).2.hist = t.hist ∧ (t.setValue k v).2.max = t.max := by
    intro t k v
    unfold State.setValue
    split <;> exact ⟨rfl, rfl⟩
  cases op with
  | commit => exact ⟨hc.1, hc1⟩
  | updateValue k v =>
    simp only [step, State.updateValue, (hsv _ _ _).1, (hsv _ _ _).2]
    exact ⟨hc.1, hc1⟩
  | updateParams o => exact ⟨hc.1, hc1⟩
  | trackedAdd k v => exact ⟨hc.1, hc1⟩
  | add k v => exact h
  | setValue k v =>
    simp only [step, (hsv _ _ _).1, (hsv _ _ _).2]
    exact h
  | poke a v => exact h
  | clear => exact ⟨Nat.zero_le _, h.2⟩
  | setMax n =>
    simp only [step, State.setMax]
    cases n with
    | int i =>
      simp only
      split_ifs with hi
      · exact h
      · simp only [List.length_drop]
        omega
    | float x => exact h
    | other => exact h
  | revert i =>
    simp only [step, State.revert]
    split_ifs
    · exact h
    · split
      · exact h
      · exact h
    · exact h
  | pop =>
    simp only [step, State.pop]
    split
    · simp only [List.length_dropLast]
      omega
    · exact h

/-- C62: after any sequence of operations, with or without exceptions, the history is not longer than `max_history_len`, which is at
least one. -/
theorem C62_bound (heap : ℕ → V) (next : ℕ) (ops : List (Op V)) :
    (run (State.init heap next) ops).hist.length ≤ (run (State.init heap next) ops).max ∧ 1 ≤ (run (State.init heap next) ops).max := by
  have : ∀ (ops : List (Op V)) (s : State V), s.hist.length ≤ s.max ∧ 1 ≤ s.max → (run s ops).hist.length ≤ (run s ops).max ∧ 1 ≤ (run s ops).max := by
    intro ops
    induction ops with
    | nil => exact fun s h => h
    | cons op ops ih => exact fun s h => ih _ (step_len s op h)
  exact this ops _ ⟨by simp [State.init], by simp [State.init]⟩

/-! ## Objects -/

def addrs (d : Dict ℕ) : List ℕ := d.map Prod.snd

lemma view_congr (h h' : ℕ → V) (d : Dict ℕ) (hh : ∀ a ∈ addrs d, h' a = h a) : view h' d = view h d := by
  unfold view
  apply List.map_congr_left
  intro p hp
  rw [hh p.2 (List.mem_map_of_mem hp)]

lemma view_keys (h : ℕ → V) (d : Dict ℕ) : Dict.keys (view h d) = Dict.keys d := by
  simp [view, Dict.keys, Function.comp_def]

lemma copy_spec (d : Dict ℕ) : ∀ (h : ℕ → V) (n : ℕ), (∀ a ∈ addrs d, a < n) →
    view (copy h n d).2.1 (copy h n d).1 = view h d ∧ n ≤ (copy h n d).2.2 ∧ (∀ a < n, (copy h n d).2.1 a = h a) ∧
    (∀ a ∈ addrs (copy h n d).1, n ≤ a ∧ a < (copy h n d).2.2) ∧ Dict.keys (copy h n d).1 = Dict.keys d := by
  induction d with
  | nil => intro h n _; simp [copy, view, addrs, Dict.keys]
  | cons p d ih =>
    intro h n hd
    obtain ⟨k, a⟩ := p
    have ha : a < n := hd a (by simp [addrs])
    have hd' : ∀ b ∈ addrs d, b < n := fun b hb => hd b (by simp only [addrs, List.map_cons, List.mem_cons] at hb ⊢; exact Or.inr hb)
    obtain ⟨i1, i2, i3, i4, i5⟩ := ih (Function.update h n (h a)) (n + 1) fun b hb => Nat.lt_succ_of_lt (hd' b hb)
    have hv : view (Function.update h n (h a)) d = view h d := by
      apply view_congr
      intro b hb
      exact Function.update_of_ne (Nat.ne_of_lt (hd' b hb)) _ _
    simp only [copy]
    refine ⟨?_, by omega, ?_, ?_, ?_⟩
    · show (k, _) :: view _ _ = (k, h a) :: view h d
      rw [i1, hv, i3 n (Nat.lt_succ_self n)]
      simp
    · intro b hb
      rw [i3 b (by omega)]
      exact Function.update_of_ne (Nat.ne_of_lt hb) _ _
    · intro b hb
      simp only [addrs, List.map_cons, List.mem_cons] at hb
      rcases hb with rfl | hb
      · exact ⟨le_rfl, by omega⟩
      · have := i4 b hb
        exact ⟨by omega, this.2⟩
    · simp only [Dict.keys, List.map_cons] at i5 ⊢
      rw [i5]

lemma set_addrs (d : Dict ℕ) (k : String) (a : ℕ) : ∀ b ∈ addrs (Dict.set d k a), b ∈ addrs d ∨ b = a := by
  induction d with
  | nil => intro b hb; simp [Dict.set, addrs] at hb; exact Or.inr hb
  | cons p d ih =>
    intro b hb
    by_cases h : p.1 = k
    · simp only [Dict.set, h, if_true, addrs, List.map_cons, List.mem_cons] at hb
      rcases hb with rfl | hb
      · exact Or.inr rfl
      · exact Or.inl (by simp only [addrs, List.map_cons, List.mem_cons]; exact Or.inr hb)
    · simp only [Dict.set, h, if_false, addrs, List.map_cons, List.mem_cons] at hb
      rcases hb with rfl | hb
      · exact Or.inl (by simp [addrs])
      · rcases ih b hb with h | h
        · exact Or.inl (by simp only [addrs, List.map_cons, List.mem_cons]; exact Or.inr h)
        · exact Or.inr h

lemma merge_addrs (e : Dict ℕ) : ∀ d : Dict ℕ, ∀ b ∈ addrs (merge d e), b ∈ addrs d ∨ b ∈ addrs e := by
  induction e with
  | nil => intro d b hb; exact Or.inl hb
  | cons p e ih =>
    intro d b hb
    rcases ih _ b hb with h | h
    · rcases set_addrs d p.1 p.2 b h with h | h
      · exact Or.inl h
      · exact Or.inr (by simp [addrs, h])
    · exact Or.inr (by simp only [addrs, List.map_cons, List.mem_cons]; exact Or.inr h)

lemma view_set (h : ℕ → V) (d : Dict ℕ) (k : String) (a : ℕ) : view h (Dict.set d k a) = Dict.set (view h d) k (h a) := by
  induction d with
  | nil => rfl
  | cons p d ih =>
    by_cases hk : p.1 = k
    · simp [Dict.set, view, hk]
    · have : Dict.set (view h (p :: d)) k (h a) = (p.1, h p.2) :: Dict.set (view h d) k (h a) := by
        simp [view, Dict.set, hk]
      rw [this, ← ih]
      simp [Dict.set, hk, view]

lemma view_merge (h : ℕ → V) (e : Dict ℕ) : ∀ d, view h (merge d e) = merge (view h d) (view h e) := by
  induction e with
  | nil => intro d; rfl
  | cons p e ih =>
    intro d
    show view h (merge (Dict.set d p.1 p.2) e) = merge (Dict.set (view h d) p.1 (h p.2)) (view h e)
    rw [ih, view_set]

/-- All objects exist, no object is shared between the current parameters and the history or between history entries, and the history
is bounded. -/
structure Inv (s : State V) : Prop where
  curLt : ∀ a ∈ addrs s.cur, a < s.next
  histLt : ∀ e ∈ s.hist, ∀ a ∈ addrs e, a < s.next
  curHist : ∀ e ∈ s.hist, ∀ a ∈ addrs e, a ∉ addrs s.cur
  pair : s.hist.Pairwise fun e f => ∀ a ∈ addrs e, a ∉ addrs f
  len : s.hist.length ≤ s.max
  max1 : 1 ≤ s.max

/-- Operations other than `revert` whose foreign objects exist and do not belong to the history. -/
def Clean (s : State V) : Op V → Prop
  | .revert _ => False
  | .updateParams o => ∀ a ∈ addrs o, a < s.next ∧ ∀ e ∈ s.hist, a ∉ addrs e
  | .poke a _ => a < s.next ∧ ∀ e ∈ s.hist, a ∉ addrs e
  | _ => True

/-- The values in the history and the current values. -/
def histView (s : State V) : List (Dict V) := s.hist.map (view s.heap)

def curView (s : State V) : Dict V := view s.heap s.cur

lemma map_lastN {A B : Type} (n : ℕ) (l : List A) (f : A → B) : (lastN n l).map f = lastN n (l.map f) := by
  simp [lastN]

lemma commit_inv (s : State V) (h : Inv s) : Inv s.commit ∧ histView s.commit = lastN s.max (histView s ++ [curView s]) ∧
    curView s.commit = curView s ∧ s.next ≤ s.commit.next ∧ (∀ a < s.next, s.commit.heap a = s.heap a) ∧
    ∀ e ∈ s.commit.hist, e ∈ s.hist ∨ ∀ a ∈ addrs e, s.next ≤ a := by
  obtain ⟨c1, c2, c3, c4, c5⟩ := copy_spec s.cur s.heap s.next h.curLt
  have hlen := h.len
  have hmax := h.max1
  have hsub : ∀ e ∈ (if s.max ≤ s.hist.length then s.hist.drop 1 else s.hist), e ∈ s.hist := by
    intro e he
    split_ifs at he
    · exact List.mem_of_mem_drop he
    · exact he
  have hmem : ∀ e ∈ s.commit.hist, e ∈ s.hist ∨ e = (copy s.heap s.next s.cur).1 := by
    intro e he
    simp only [State.commit, List.mem_append, List.mem_singleton] at he
    rcases he with he | he
    · exact Or.inl (hsub e he)
    · exact Or.inr he
  have hlist : s.commit.hist = lastN s.max (s.hist ++ [(copy s.heap s.next s.cur).1]) := by
    simp only [State.commit, lastN, List.length_append, List.length_singleton]
    split_ifs with hc
    · have : s.hist.length + 1 - s.max = 1 := by omega
      rw [this, List.drop_append_of_le_length (by omega)]
    · have : s.hist.length + 1 - s.max = 0 := by omega
      rw [this]
      simp
  refine ⟨⟨?_, ?_, ?_, ?_, (commit_len s hlen hmax).1, hmax⟩, ?_, ?_, c2, c3, ?_⟩
  · intro a ha
    exact lt_of_lt_of_le (h.curLt a ha) c2
  · intro e he a ha
    rcases hmem e he with h' | rfl
    · exact lt_of_lt_of_le (h.histLt e h' a ha) c2
    · exact (c4 a ha).2
  · intro e he a ha hcur
    rcases hmem e he with h' | rfl
    · exact h.curHist e h' a ha hcur
    · have h1 : a < s.next := h.curLt a hcur
      exact absurd h1 (not_lt.2 (c4 a ha).1)
  · simp only [State.commit]
    rw [List.pairwise_append]
    refine ⟨?_, by simp, ?_⟩
    · split_ifs
      · exact h.pair.sublist (List.drop_sublist _ _)
      · exact h.pair
    · intro e he f hf a ha haf
      rw [List.mem_singleton] at hf
      subst hf
      exact absurd (h.histLt e (hsub e he) a ha) (not_lt.2 (c4 a haf).1)
  · unfold histView
    rw [hlist, map_lastN, List.map_append]
    congr 2
    · apply List.map_congr_left
      intro e he
      exact view_congr _ _ _ fun a ha => c3 a (h.histLt e he a ha)
    · simp only [List.map_singleton]
      rw [show s.commit.heap = (copy s.heap s.next s.cur).2.1 from rfl, c1]
      rfl
  · exact view_congr _ _ _ fun a ha => c3 a (h.curLt a ha)
  · intro e he
    rcases hmem e he with h' | rfl
    · exact Or.inl h'
    · exact Or.inr fun a ha => (c4 a ha).1

lemma write_inv (s : State V) (h : Inv s) (a : ℕ) (v : V) (ha : ∀ e ∈ s.hist, a ∉ addrs e) :
    Inv { s with heap := Function.update s.heap a v } ∧ histView { s with heap := Function.update s.heap a v } = histView s := by
  refine ⟨⟨h.curLt, h.histLt, h.curHist, h.pair, h.len, h.max1⟩, ?_⟩
  unfold histView
  apply List.map_congr_left
  intro e he
  apply view_congr
  intro b hb
  apply Function.update_of_ne
  rintro rfl
  exact ha e he hb

lemma get_addr (d : Dict ℕ) (k : String) (a : ℕ) (h : Dict.get d k = some a) : a ∈ addrs d := by
  induction d with
  | nil => simp [Dict.get] at h
  | cons p d ih =>
    by_cases hk : p.1 = k
    · simp only [Dict.get, hk, if_true, Option.some.injEq] at h
      simp [addrs, h]
    · simp only [Dict.get, hk, if_false] at h
      simp only [addrs, List.map_cons, List.mem_cons]
      exact Or.inr (ih h)

lemma setValue_inv (s : State V) (h : Inv s) (k : String) (v : V) :
    Inv (s.setValue k v).2 ∧ histView (s.setValue k v).2 = histView s := by
  unfold State.setValue
  split
  · rename_i a ha
    exact write_inv s h a v fun e he hae => h.curHist e he a hae (get_addr _ _ _ ha)
  · exact ⟨h, rfl⟩

lemma add_inv (s : State V) (h : Inv s) (k : String) (v : V) : Inv (s.add k v) ∧ histView (s.add k v) = histView s := by
  refine ⟨⟨?_, ?_, ?_, h.pair, h.len, h.max1⟩, ?_⟩
  · intro a ha
    rcases set_addrs _ _ _ a ha with h' | h'
    · exact Nat.lt_succ_of_lt (h.curLt a h')
    · rw [h']; exact Nat.lt_succ_self _
  · exact fun e he a ha => Nat.lt_succ_of_lt (h.histLt e he a ha)
  · intro e he a ha hc
    rcases set_addrs _ _ _ a hc with h' | h'
    · exact h.curHist e he a ha h'
    · have h1 := h.histLt e he a ha
      rw [h'] at h1
      exact absurd h1 (lt_irrefl _)
  · unfold histView
    apply List.map_congr_left
    intro e he
    apply view_congr
    intro b hb
    exact Function.update_of_ne (Nat.ne_of_lt (h.histLt e he b hb)) _ _

lemma merge_inv (s : State V) (h : Inv s) (o : Dict ℕ) (ho : ∀ a ∈ addrs o, a < s.next ∧ ∀ e ∈ s.hist, a ∉ addrs e) :
    Inv { s with cur := merge s.cur o } := by
  refine ⟨?_, h.histLt, ?_, h.pair, h.len, h.max1⟩
  · intro a ha
    rcases merge_addrs _ _ a ha with h' | h'
    · exact h.curLt a h'
    · exact (ho a h').1
  · intro e he a ha hc
    rcases merge_addrs _ _ a hc with h' | h'
    · exact h.curHist e he a ha h'
    · exact (ho a h').2 e he ha

lemma setMax_hist (s : State V) (n : PyNum) : ∃ l, (s.setMax n).2.hist = lastN l s.hist := by
  unfold State.setMax
  cases n with
  | int i =>
    simp only
    split_ifs
    · exact ⟨s.hist.length, by simp [lastN]⟩
    · exact ⟨i.toNat, rfl⟩
  | float x => exact ⟨s.hist.length, by simp [lastN]⟩
  | other => exact ⟨s.hist.length, by simp [lastN]⟩

lemma step_inv (s : State V) (op : Op V) (h : Inv s) (hc : Clean s op) :
    Inv (step s op) ∧ histView (step s op) = after s.max (histView s) (curView s) op := by
  obtain ⟨k1, k2, k3, k4, k5, k6⟩ := commit_inv s h
  cases op with
  | commit => exact ⟨k1, k2⟩
  | updateValue k v =>
    obtain ⟨h1, h2⟩ := setValue_inv s.commit k1 k v
    exact ⟨h1, h2.trans k2⟩
  | updateParams o =>
    refine ⟨merge_inv s.commit k1 o fun a ha => ⟨lt_of_lt_of_le (hc a ha).1 k4, fun e he hae => ?_⟩, k2⟩
    rcases k6 e he with h' | h'
    · exact (hc a ha).2 e h' hae
    · exact absurd (hc a ha).1 (not_lt.2 (h' a hae))
  | trackedAdd k v =>
    obtain ⟨h1, h2⟩ := add_inv s.commit k1 k v
    exact ⟨h1, h2.trans k2⟩
  | add k v => exact add_inv s h k v
  | setValue k v => exact setValue_inv s h k v
  | poke a v => exact write_inv s h a v hc.2
  | clear =>
    exact ⟨⟨h.curLt, by simp [step, State.clear], by simp [step, State.clear], by simp [step, State.clear], Nat.zero_le _, h.max1⟩, rfl⟩
  | setMax n =>
    have hl := step_len s (.setMax n) ⟨h.len, h.max1⟩
    obtain ⟨l, hl2⟩ := setMax_hist s n
    have hcur : (s.setMax n).2.cur = s.cur ∧ (s.setMax n).2.next = s.next := by
      unfold State.setMax
      cases n with
      | int i => simp only; split_ifs <;> exact ⟨rfl, rfl⟩
      | float x => exact ⟨rfl, rfl⟩
      | other => exact ⟨rfl, rfl⟩
    have hsub : ∀ e ∈ (s.setMax n).2.hist, e ∈ s.hist := by
      intro e he
      rw [hl2] at he
      exact List.mem_of_mem_drop he
    refine ⟨⟨?_, ?_, ?_, ?_, hl.1, hl.2⟩, ?_⟩
    · simp only [step, hcur.1, hcur.2]; exact h.curLt
    · simp only [step, hcur.2]; exact fun e he => h.histLt e (hsub e he)
    · simp only [step, hcur.1]; exact fun e he => h.curHist e (hsub e he)
    · simp only [step, hl2, lastN]; exact h.pair.sublist (List.drop_sublist _ _)
    · cases n with
      | int i =>
        simp only [step, State.setMax, after]
        by_cases hi : i < 1
        · have : ¬ (1 ≤ i) := by omega
          simp only [hi, this, if_true, if_false]
        · have : 1 ≤ i := by omega
          simp only [hi, this, if_true, if_false]
          unfold histView
          simp [lastN]
      | float x => rfl
      | other => rfl
  | revert i => exact hc.elim
  | pop =>
    obtain ⟨c1, c2, c3, c4, c5⟩ := copy_spec s.cur s.heap s.next h.curLt
    simp only [step, State.pop]
    cases hl : s.hist.getLast? with
    | none =>
      have : s.hist = [] := List.getLast?_eq_none_iff.1 hl
      refine ⟨h, ?_⟩
      simp [after, histView, this]
    | some e =>
      simp only
      have he : s.hist = s.hist.dropLast ++ [e] := (List.dropLast_append_getLast? e hl).symm
      have hem : e ∈ s.hist := List.mem_of_getLast? hl
      have hsub : ∀ f ∈ s.hist.dropLast, f ∈ s.hist := fun f hf => List.mem_of_mem_dropLast hf
      have hp := h.pair
      rw [he, List.pairwise_append] at hp
      refine ⟨⟨?_, ?_, ?_, ?_, ?_, h.max1⟩, ?_⟩
      · intro a ha
        rcases merge_addrs _ _ a ha with h' | h'
        · exact lt_of_lt_of_le (h.curLt a h') c2
        · exact lt_of_lt_of_le (h.histLt e hem a h') c2
      · intro f hf a ha
        exact lt_of_lt_of_le (h.histLt f (hsub f hf) a ha) c2
      · intro f hf a ha hc'
        rcases merge_addrs _ _ a hc' with h' | h'
        · exact h.curHist f (hsub f hf) a ha h'
        · exact hp.2.2 f hf e (by simp) a ha h'
      · exact hp.1
      · have := h.len
        simp only [List.length_dropLast]
        omega
      · simp only [after]
        unfold histView
        rw [← List.map_dropLast]
        apply List.map_congr_left
        intro f hf
        exact view_congr _ _ _ fun a ha => c3 a (h.histLt f (hsub f hf) a ha)

lemma init_inv (heap : ℕ → V) (next : ℕ) : Inv (State.init heap next) := by
  refine ⟨?_, ?_, ?_, ?_, ?_, ?_⟩ <;> simp [State.init, addrs]

/-- Every operation of the sequence is clean in the state it meets. -/
def AllClean : State V → List (Op V) → Prop
  | _, [] => True
  | s, op :: ops => Clean s op ∧ AllClean (step s op) ops

lemma run_inv (ops : List (Op V)) : ∀ s : State V, Inv s → AllClean s ops → Inv (run s ops) := by
  induction ops with
  | nil => exact fun s h _ => h
  | cons op ops ih => exact fun s h hc => ih _ (step_inv s op h hc.1).1 hc.2

/-- The current values at the commits of a run, oldest first. -/
def committed : State V → List (Op V) → List (Dict V)
  | _, [] => []
  | s, op :: ops => if commits op then curView s :: committed (step s op) ops else committed (step s op) ops

lemma lastN_append {A : Type} (m : ℕ) (l r : List A) : lastN m (lastN m l ++ r) = lastN m (l ++ r) := by
  unfold lastN
  by_cases h : l.length ≤ m
  · simp [Nat.sub_eq_zero_of_le h]
  · simp only [List.length_append, List.length_drop, List.drop_append]
    have e1 : l.length - (l.length - m) = m := by omega
    rw [e1, List.drop_drop]
    congr 2
    · omega
    · omega

lemma lastN_self {A : Type} (m : ℕ) (l : List A) (h : l.length ≤ m) : lastN m l = l := by
  simp [lastN, Nat.sub_eq_zero_of_le h]

/-- C62: as long as nothing is popped, cleared or resized, the history is made of the most recent commits in order: the last
`max_history_len` of the earlier entries followed by the values at each commit. -/
theorem C62_recent_values (s : State V) (ops : List (Op V)) (h : Inv s) (hc : AllClean s ops) (hr : ∀ op ∈ ops, removes op = false) :
    histView (run s ops) = lastN s.max (histView s ++ committed s ops) := by
  induction ops generalizing s with
  | nil =>
    simp only [committed, List.append_nil]
    rw [lastN_self _ _ (by simpa [histView] using h.len)]
    rfl
  | cons op ops ih =>
    obtain ⟨h1, h2⟩ := step_inv s op h hc.1
    have hm : (step s op).max = s.max := by
      have := hr op (by simp)
      cases op with
      | commit => rfl
      | updateValue k v => simp only [step, State.updateValue, State.setValue]; split <;> rfl
      | updateParams o => rfl
      | trackedAdd k v => rfl
      | add k v => rfl
      | setValue k v => simp only [step, State.setValue]; split <;> rfl
      | poke a v => rfl
      | clear => simp [removes] at this
      | setMax n => simp [removes] at this
      | revert i => exact hc.1.elim
      | pop => simp [removes] at this
    have := ih (step s op) h1 hc.2 fun o ho => hr o (by simp [ho])
    rw [show run s (op :: ops) = run (step s op) ops from rfl, this, hm, h2]
    have hrem := hr op (by simp)
    cases op with
    | commit => simp only [after, committed, commits, if_true]; rw [lastN_append]; simp
    | updateValue k v => simp only [after, committed, commits, if_true]; rw [lastN_append]; simp
    | updateParams o => simp only [after, committed, commits, if_true]; rw [lastN_append]; simp
    | trackedAdd k v => simp only [after, committed, commits, if_true]; rw [lastN_append]; simp
    | add k v => simp [after, committed, commits]
    | setValue k v => simp [after, committed, commits]
    | poke a v => simp [after, committed, commits]
    | clear => simp [removes] at hrem
    | setMax n => simp [removes] at hrem
    | revert i => exact hc.1.elim
    | pop => simp [removes] at hrem

/-- Non-trivial case: with `max_history_len` 2, the last two of three commits are kept. -/
example : histView (run (State.init (fun _ => (0 : ℕ)) 0) [.setMax (.int 2), .add "x" 1, .updateValue "x" 2, .updateValue "x" 3, .updateValue "x" 4]) =
    [[("x", 2)], [("x", 3)]] := by decide

/-- C64 without `revert` and without foreign objects taken from the history: each operation changes the stored values only by adding the
current values, dropping the oldest or removing entries on request; no entry changes its values. -/
theorem C64_step_partial (s : State V) (op : Op V) (h : Inv s) (hc : Clean s op) :
    histView (step s op) = after s.max (histView s) (curView s) op := (step_inv s op h hc).2

lemma after_sublist (m : ℕ) (H : List (Dict V)) (c : Dict V) (op : Op V) :
    (after m H c op).Sublist (H ++ if commits op then [c] else []) := by
  cases op with
  | commit => exact List.drop_sublist _ _
  | updateValue k v => exact List.drop_sublist _ _
  | updateParams o => exact List.drop_sublist _ _
  | trackedAdd k v => exact List.drop_sublist _ _
  | add k v => simp [after, commits]
  | setValue k v => simp [after, commits]
  | poke a v => simp [after, commits]
  | clear => simp [after, commits]
  | setMax n =>
    simp only [commits, List.append_nil, Bool.false_eq_true, if_false]
    cases n with
    | int i =>
      simp only [after]
      split_ifs
      · exact List.drop_sublist _ _
      · exact List.Sublist.refl _
    | float x => exact List.Sublist.refl _
    | other => exact List.Sublist.refl _
  | revert i => simp [after, commits]
  | pop => simp [after, commits, List.dropLast_sublist]

/-- C64 for whole runs: every entry in the history has the values of an earlier entry or of a commit made in between, in order. -/
theorem C64_immutable_partial (s : State V) (ops : List (Op V)) (h : Inv s) (hc : AllClean s ops) :
    (histView (run s ops)).Sublist (histView s ++ committed s ops) := by
  induction ops generalizing s with
  | nil => simp [committed, run]
  | cons op ops ih =>
    obtain ⟨h1, h2⟩ := step_inv s op h hc.1
    have := ih (step s op) h1 hc.2
    rw [h2] at this
    refine this.trans ?_
    have h3 := (after_sublist s.max (histView s) (curView s) op).append (List.Sublist.refl (committed (step s op) ops))
    refine h3.trans ?_
    simp only [committed]
    split_ifs <;> simp

/-- Non-trivial case: a fresh object, five operations. -/
example : AllClean (State.init (fun _ => (0 : ℕ)) 0) [.add "x" 1, .updateValue "x" 2, .updateValue "x" 3, .pop, .trackedAdd "y" 7] ∧
    histView (run (State.init (fun _ => (0 : ℕ)) 0) [.add "x" 1, .updateValue "x" 2, .updateValue "x" 3, .pop, .trackedAdd "y" 7]) =
      [[("x", 1)], [("x", 2)]] := by
  refine ⟨by simp [AllClean, Clean], by decide⟩

/-- C64 fails with `revert`: it makes the current parameters share their objects with the history entry, so the next change of a value
changes the stored entry. -/
theorem C64_revert_refuted : ∃ ops : List (Op ℕ),
    histView (run (State.init (fun _ => (0 : ℕ)) 0) ops) = [[("x", 1)]] ∧
    histView (run (State.init (fun _ => (0 : ℕ)) 0) (ops ++ [.revert 0, .updateValue "x" 5])) = [[("x", 5)], [("x", 1)]] :=
  ⟨[.add "x" 1, .commit], by decide, by decide⟩

/-! ## Undo (C63) -/

lemma set_at (p : Dict V) (k : String) (v w : V) (c : Dict V) (hk : k ∉ Dict.keys p) :
    Dict.set (p ++ (k, w) :: c) k v = p ++ (k, v) :: c := by
  induction p with
  | nil => simp [Dict.set]
  | cons q p ih =>
    simp only [Dict.keys, List.map_cons, List.mem_cons, not_or] at hk
    have : q.1 ≠ k := fun e => hk.1 e.symm
    simp only [List.cons_append, Dict.set, this, if_false]
    rw [ih hk.2]

lemma merge_same_aux (e : Dict V) : ∀ p c : Dict V, Dict.keys c = Dict.keys e → (Dict.keys (p ++ c)).Nodup → merge (p ++ c) e = p ++ e := by
  induction e with
  | nil =>
    intro p c hc _
    have : c = [] := by simpa [Dict.keys] using hc
    subst this
    rfl
  | cons q e ih =>
    intro p c hc hn
    cases c with
    | nil => simp [Dict.keys] at hc
    | cons r c =>
      simp only [Dict.keys, List.map_cons, List.cons.injEq] at hc
      obtain ⟨k, w⟩ := r
      simp only at hc
      have hk : k ∉ Dict.keys p := by
        simp only [Dict.keys, List.map_append, List.map_cons] at hn
        intro hmem
        exact (List.nodup_append.1 hn).2.2 k hmem k (by simp) rfl
      have h1 : merge (p ++ (k, w) :: c) (q :: e) = merge ((p ++ [(k, q.2)]) ++ c) e := by
        show merge (Dict.set (p ++ (k, w) :: c) q.1 q.2) e = _
        rw [← hc.1, set_at p k q.2 w c hk]
        simp
      rw [h1, ih (p ++ [(k, q.2)]) c hc.2 (by
        simp only [Dict.keys, List.map_append, List.map_cons, List.map_nil, List.append_assoc, List.singleton_append] at hn ⊢
        exact hn)]
      simp [hc.1]

lemma merge_same (c e : Dict V) (hk : Dict.keys c = Dict.keys e) (hn : (Dict.keys c).Nodup) : merge c e = e :=
  merge_same_aux e [] c hk (by simpa using hn)

/-- What `pop` does to the values: the last entry is merged into the current parameters, the entry is removed and a copy of the values
before is returned. -/
lemma pop_spec (s : State V) (h : Inv s) (e : Dict ℕ) (hl : s.hist.getLast? = some e) :
    ∃ d, s.pop.1 = some d ∧ view s.pop.2.heap d = curView s ∧ curView s.pop.2 = merge (curView s) (view s.heap e) ∧
      histView s.pop.2 = (histView s).dropLast ∧ (∀ a ∈ addrs d, a < s.pop.2.next ∧ s.next ≤ a) ∧ s.next ≤ s.pop.2.next := by
  obtain ⟨c1, c2, c3, c4, c5⟩ := copy_spec s.cur s.heap s.next h.curLt
  have hi := (step_inv s .pop h trivial).2
  have hp : s.pop = (some (copy s.heap s.next s.cur).1, { s with
      heap := (copy s.heap s.next s.cur).2.1, next := (copy s.heap s.next s.cur).2.2, cur := merge s.cur e, hist := s.hist.dropLast }) := by
    simp [State.pop, hl]
  refine ⟨(copy s.heap s.next s.cur).1, by rw [hp], by rw [hp]; exact c1, ?_, hi, ?_, by rw [hp]; exact c2⟩
  · rw [hp]
    unfold curView
    simp only
    rw [view_merge]
    congr 1
    · exact view_congr _ _ _ fun a ha => c3 a (h.curLt a ha)
    · exact view_congr _ _ _ fun a ha => c3 a (h.histLt e (List.mem_of_getLast? hl) a ha)
  · rw [hp]
    exact fun a ha => ⟨(c4 a ha).2, (c4 a ha).1⟩

/-- Edits of values (of the current parameters or of foreign objects). -/
def edits : Op V → Bool
  | .setValue _ _ | .poke _ _ => true
  | _ => false

lemma edit_keeps (s : State V) (op : Op V) (he : edits op = true) : (step s op).hist = s.hist ∧ (step s op).cur = s.cur := by
  cases op with
  | setValue k v => simp only [step, State.setValue]; split <;> exact ⟨rfl, rfl⟩
  | poke a v => exact ⟨rfl, rfl⟩
  | _ => simp [edits] at he

lemma edits_keep (ops : List (Op V)) : ∀ s : State V, (∀ op ∈ ops, edits op = true) → Inv s → AllClean s ops →
    (run s ops).hist = s.hist ∧ (run s ops).cur = s.cur ∧ histView (run s ops) = histView s ∧ Inv (run s ops) := by
  induction ops with
  | nil => exact fun s _ h _ => ⟨rfl, rfl, rfl, h⟩
  | cons op ops ih =>
    intro s he h hc
    obtain ⟨h1, h2⟩ := step_inv s op h hc.1
    obtain ⟨k1, k2⟩ := edit_keeps s op (he op (by simp))
    obtain ⟨i1, i2, i3, i4⟩ := ih _ (fun o ho => he o (by simp [ho])) h1 hc.2
    refine ⟨i1.trans k1, i2.trans k2, i3.trans (h2.trans ?_), i4⟩
    have := he op (by simp)
    cases op with
    | setValue k v => rfl
    | poke a v => rfl
    | _ => simp [edits] at this

/-- C63: `commit()`, any number of value changes, then `pop()`: the values are those at the commit, a copy of the values before the `pop`
is returned, and the history is as before the commit (less its oldest entry if it was full). -/
theorem C63_pop_restores (s : State V) (h : Inv s) (hn : (Dict.keys s.cur).Nodup) (ops : List (Op V)) (he : ∀ op ∈ ops, edits op = true)
    (hc : AllClean s.commit ops) :
    curView (run s.commit ops).pop.2 = curView s ∧
    (∃ d, (run s.commit ops).pop.1 = some d ∧ view (run s.commit ops).pop.2.heap d = curView (run s.commit ops)) ∧
    histView (run s.commit ops).pop.2 = lastN (s.max - 1) (histView s) := by
  obtain ⟨k1, k2, k3, -⟩ := commit_inv s h
  obtain ⟨e1, e2, e3, e4⟩ := edits_keep ops s.commit he k1 hc
  have hlast : ∃ e, s.commit.hist.getLast? = some e := by
    simp only [State.commit]
    exact ⟨_, List.getLast?_concat⟩
  obtain ⟨e, hl⟩ := hlast
  have hl' : (run s.commit ops).hist.getLast? = some e := by rw [e1]; exact hl
  obtain ⟨d, p1, p2, p3, p4, -⟩ := pop_spec _ e4 e hl'
  have hview : view (run s.commit ops).heap e = curView s := by
    have h1 : (histView (run s.commit ops)).getLast? = some (view (run s.commit ops).heap e) := by
      unfold histView
      rw [List.getLast?_map, hl']
      rfl
    rw [e3, k2] at h1
    unfold lastN at h1
    rw [List.getLast?_drop] at h1
    have hm := h.max1
    rw [if_neg (by simp; omega)] at h1
    simp at h1
    exact h1.symm
  refine ⟨?_, ⟨d, p1, p2⟩, ?_⟩
  · rw [p3, hview]
    apply merge_same
    · simp only [curView, view_keys, e2]
      rfl
    · simp only [curView, view_keys, e2]
      exact hn
  · rw [p4, e3, k2]
    have hm := h.max1
    unfold lastN
    rw [List.drop_append_of_le_length (by simp; omega), List.dropLast_concat]
    congr 1
    simp
    omega

/-- Non-trivial case of C63: one parameter, changed twice. -/
example : curView (run (State.init (fun _ => (0 : ℕ)) 0 |>.add "x" 1).commit [.setValue "x" 2, .setValue "x" 3]).pop.2 = [("x", 1)] :=
  (C63_pop_restores _ (add_inv _ (init_inv _ _) "x" 1).1 (by decide) _ (by simp [edits]) (by simp [AllClean, Clean])).1

/-- C63 fails for added parameters: `pop()` after `tracked_add` does not remove the parameter. -/
theorem C63_added_parameter_refuted : ∃ s : State ℕ, Inv s ∧ curView s = [] ∧ curView (s.trackedAdd "x" 1).pop.2 = [("x", 1)] :=
  ⟨State.init (fun _ => 0) 0, init_inv _ _, rfl, by decide⟩

/-- C63: Undo followed by Redo leaves values and history as they were, if the last history entry has the current parameter names. -/
theorem C63_undo_redo (g : Gui V) (h : Inv g.params) (e : Dict ℕ) (hl : g.params.hist.getLast? = some e)
    (hk : Dict.keys e = Dict.keys g.params.cur) (hn : (Dict.keys g.params.cur).Nodup) :
    curView g.undo.redo.params = curView g.params ∧ histView g.undo.redo.params = histView g.params := by
  obtain ⟨d, p1, p2, p3, p4, p5, p6⟩ := pop_spec _ h e hl
  have hi := (step_inv g.params .pop h trivial).1
  have hi' : Inv g.params.pop.2 := hi
  have hcur : curView g.params.pop.2 = view g.params.heap e := by
    rw [p3]
    apply merge_same
    · simp only [curView, view_keys]; exact hk.symm
    · simp only [curView, view_keys]; exact hn
  obtain ⟨k1, k2, k3, k4, k5, k6⟩ := commit_inv _ hi'
  have hredo : g.undo.redo.params = g.params.pop.2.updateParams d := by
    simp [Gui.undo, Gui.redo, p1]
  have hpm : g.params.pop.2.max = g.params.max := by simp [State.pop, hl]
  have hcl : ∀ a ∈ addrs d, a < g.params.pop.2.next ∧ ∀ f ∈ g.params.pop.2.hist, a ∉ addrs f := by
    intro a ha
    refine ⟨(p5 a ha).1, fun f hf hf2 => ?_⟩
    have hf3 : f ∈ g.params.hist := by
      have : g.params.pop.2.hist = g.params.hist.dropLast := by simp [State.pop, hl]
      rw [this] at hf
      exact List.mem_of_mem_dropLast hf
    exact absurd (h.histLt f hf3 a hf2) (not_lt.2 (p5 a ha).2)
  have hs := step_inv g.params.pop.2 (.updateParams d) hi' hcl
  constructor
  · rw [hredo]
    show view g.params.pop.2.commit.heap (merge g.params.pop.2.commit.cur d) = _
    rw [view_merge]
    have h1 : view g.params.pop.2.commit.heap d = curView g.params := by
      rw [← p2]
      exact view_congr _ _ _ fun a ha => k5 a (p5 a ha).1
    have h2 : view g.params.pop.2.commit.heap g.params.pop.2.commit.cur = view g.params.heap e := k3.trans hcur
    rw [h1, h2]
    apply merge_same
    · simp only [curView, view_keys]; exact hk
    · simp only [view_keys, hk]; exact hn
  · rw [hredo]
    have h1 : histView (g.params.pop.2.updateParams d) = lastN g.params.pop.2.max (histView g.params.pop.2 ++ [curView g.params.pop.2]) := hs.2
    rw [h1, hpm, p4, hcur]
    have h2 : (histView g.params).getLast? = some (view g.params.heap e) := by
      unfold histView
      rw [List.getLast?_map, hl]
      rfl
    rw [List.dropLast_append_getLast? _ h2]
    exact lastN_self _ _ (by simpa [histView] using h.len)

/-- Non-trivial case of C63_undo_redo. -/
example : ∃ g : Gui ℕ, Inv g.params ∧ curView g.params = [("x", 2)] ∧ curView g.undo.params = [("x", 1)] ∧
    curView g.undo.redo.params = [("x", 2)] := by
  refine ⟨⟨(State.updateValue (State.add (State.init (fun _ => (0 : ℕ)) 0) "x" 1) "x" 2).2, [], none, []⟩, ?_, ?_, ?_, ?_⟩
  · exact (setValue_inv _ (commit_inv _ (add_inv _ (init_inv _ _) "x" 1).1).1 "x" 2).1
  · decide
  · decide
  · decide

/-- Undo without history does nothing, and so does the following Redo. -/
theorem C63_undo_empty (g : Gui V) (h : g.params.hist = []) : g.undo.redo.params = g.params := by
  simp [Gui.undo, Gui.redo, State.pop, h]

/-! ## Revert (C65) -/

/-- C65: for a position that exists (also counted from the end), `revert` merges the entry into the current parameters and keeps the
history. -/
theorem C65_revert (s : State V) (i : ℤ) (h1 : -(s.hist.length : ℤ) ≤ i) (h2 : i < s.hist.length) :
    ∃ (j : ℕ) (e : Dict ℕ), s.hist[j]? = some e ∧ (j : ℤ) = (if 0 ≤ i then i else i + s.hist.length) ∧ (s.revert i).1 = .ok () ∧
      curView (s.revert i).2 = merge (curView s) (view s.heap e) ∧ histView (s.revert i).2 = histView s := by
  have h0 : s.hist.length ≠ 0 := by omega
  have hj : ∃ j : ℕ, (j : ℤ) = (if 0 ≤ i then i else i + s.hist.length) ∧ j < s.hist.length := by
    by_cases hi : 0 ≤ i
    · exact ⟨i.toNat, by rw [if_pos hi]; omega, by omega⟩
    · exact ⟨(i + s.hist.length).toNat, by rw [if_neg hi]; omega, by omega⟩
  obtain ⟨j, hj1, hj2⟩ := hj
  have hidx : pyIndex s.hist i = s.hist[j]? := by
    unfold pyIndex
    by_cases hi : 0 ≤ i
    · rw [if_pos hi]
      rw [if_pos hi] at hj1
      have : i.toNat = j := by omega
      rw [this]
    · rw [if_neg hi, if_pos h1]
      rw [if_neg hi] at hj1
      have : (i + s.hist.length).toNat = j := by omega
      rw [this]
  have hm : Int.emod i s.hist.length < s.hist.length := Int.emod_lt_of_pos _ (Int.natCast_pos.2 (Nat.pos_of_ne_zero h0))
  refine ⟨j, s.hist[j], List.getElem?_eq_getElem hj2, hj1, ?_⟩
  have hr : s.revert i = (.ok (), { s with cur := merge s.cur s.hist[j] }) := by
    unfold State.revert
    rw [if_neg h0, if_pos hm, hidx, List.getElem?_eq_getElem hj2]
  rw [hr]
  exact ⟨rfl, view_merge _ _ _, rfl⟩

/-- Non-trivial case: position `-1` of a history with two entries. -/
example : curView ((run (State.init (fun _ => (0 : ℕ)) 0) [.add "x" 1, .updateValue "x" 2, .updateValue "x" 3]).revert (-1)).2 = [("x", 2)] := by
  decide

/-- C65 fails: the guard never rejects a position, so positions that do not exist raise `IndexError`, and `ZeroDivisionError` for an
empty history. -/
theorem C65_guard_refuted (s : State V) (i : ℤ) (h : i < -(s.hist.length : ℤ) ∨ (s.hist.length : ℤ) ≤ i) :
    (s.hist.length ≠ 0 → (s.revert i).1 = .error .indexError) ∧ (s.hist.length = 0 → (s.revert i).1 = .error .zeroDivisionError) := by
  constructor
  · intro h0
    have hm : Int.emod i s.hist.length < s.hist.length := Int.emod_lt_of_pos _ (Int.natCast_pos.2 (Nat.pos_of_ne_zero h0))
    have hidx : pyIndex s.hist i = none := by
      unfold pyIndex
      by_cases hi : 0 ≤ i
      · rw [if_pos hi]
        exact List.getElem?_eq_none (by omega)
      · rw [if_neg hi, if_neg (by omega)]
    unfold State.revert
    rw [if_neg h0, if_pos hm, hidx]
  · intro h0
    unfold State.revert
    rw [if_pos h0]

/-- Non-trivial case: one entry, positions 1 and -2. -/
example : ((run (State.init (fun _ => (0 : ℕ)) 0) [.add "x" 1, .commit]).revert 1).1 = .error .indexError ∧
    ((run (State.init (fun _ => (0 : ℕ)) 0) [.add "x" 1, .commit]).revert (-2)).1 = .error .indexError :=
  ⟨(C65_guard_refuted _ 1 (by decide)).1 (by decide), (C65_guard_refuted _ (-2) (by decide)).1 (by decide)⟩

end PyElli.Hist
