import Verif.Model.FitWindow
import Verif.Props.Gui

/-! # Invariant of the windows of the fitting classes -/

namespace PyElli.FitWindow

open PyElli PyElli.Hist

variable {V : Type}

/-- The parameter objects of a window: every dictionary has the names `K`, and no object is shared. -/
structure Good (K : List String) (g : Gui V) : Prop where
  inv : Inv g.params
  nodup : K.Nodup
  curK : Dict.keys g.params.cur = K
  curN : (addrs g.params.cur).Nodup
  histK : ∀ e ∈ g.params.hist, Dict.keys e = K ∧ (addrs e).Nodup
  last : ∀ l, g.last = some l → l = [] ∨ (Dict.keys l = K ∧ (addrs l).Nodup ∧
    ∀ a ∈ addrs l, a < g.params.next ∧ a ∉ addrs g.params.cur ∧ ∀ e ∈ g.params.hist, a ∉ addrs e)
  initK : Dict.keys g.initial = K
  initLt : ∀ a ∈ addrs g.initial, a < g.params.next

lemma copy_keys (d : Dict ℕ) (h : ℕ → V) (n : ℕ) : Dict.keys (copy h n d).1 = Dict.keys d := by
  induction d generalizing h n with
  | nil => rfl
  | cons p d ih =>
    have := ih (Function.update h n (h p.2)) (n + 1)
    simp only [Dict.keys] at this
    simp only [copy, Dict.keys, List.map_cons, this]

lemma commit_hist (s : State V) : ∀ e ∈ s.commit.hist, e ∈ s.hist ∨ e = (copy s.heap s.next s.cur).1 := by
  intro e he
  simp only [State.commit, List.mem_append, List.mem_singleton] at he
  rcases he with he | he
  · left
    split_ifs at he
    · exact List.mem_of_mem_drop he
    · exact he
  · exact Or.inr he

lemma good_commit {K : List String} {g : Gui V} (h : Good K g) : Good K { g with params := g.params.commit } := by
  obtain ⟨c1, c2, c3, c4, c5, c6⟩ := commit_inv g.params h.inv
  refine ⟨c1, h.nodup, h.curK, h.curN, ?_, ?_, h.initK, fun a ha => lt_of_lt_of_le (h.initLt a ha) c4⟩
  · intro e he
    rcases commit_hist _ e he with he | rfl
    · exact h.histK e he
    · exact ⟨(copy_keys _ _ _).trans h.curK, (copy_nodup _ _ _).1⟩
  · intro l hl
    rcases h.last l hl with h0 | ⟨l1, l2, l3⟩
    · exact Or.inl h0
    · refine Or.inr ⟨l1, l2, fun a ha => ⟨lt_of_lt_of_le (l3 a ha).1 c4, (l3 a ha).2.1, fun e he hae => ?_⟩⟩
      rcases commit_hist _ e he with he | rfl
      · exact (l3 a ha).2.2 e he hae
      · exact absurd (l3 a ha).1 (not_lt.2 ((copy_nodup _ _ _).2 a hae))

lemma good_setValue {K : List String} {g : Gui V} (h : Good K g) (k : String) (v : V) : Good K { g with params := (g.params.setValue k v).2 } := by
  have hi := (setValue_inv g.params h.inv k v).1
  have h1 : (g.params.setValue k v).2.cur = g.params.cur ∧ (g.params.setValue k v).2.hist = g.params.hist ∧
      (g.params.setValue k v).2.next = g.params.next := by
    unfold State.setValue
    split <;> exact ⟨rfl, rfl, rfl⟩
  obtain ⟨h1, h2, h3⟩ := h1
  exact ⟨hi, h.nodup, by simpa [h1] using h.curK, by simpa [h1] using h.curN, by simpa [h2] using h.histK,
    by simpa [h1, h2, h3] using h.last, h.initK, by simpa [h3] using h.initLt⟩

lemma good_edit {K : List String} {g : Gui V} (h : Good K g) (k : String) (v : V) : Good K (g.edit k v) :=
  good_setValue (good_commit h) k v

lemma view_write (heap : ℕ → V) (d : Dict ℕ) (hn : (addrs d).Nodup) (k : String) (a : ℕ) (v : V) (h : Dict.get d k = some a) :
    Hist.view (Function.update heap a v) d = Dict.set (Hist.view heap d) k v := by
  induction d with
  | nil => cases h
  | cons p d ih =>
    simp only [addrs, List.map_cons, List.nodup_cons] at hn
    by_cases hk : p.1 = k
    · simp only [Dict.get, hk, if_true, Option.some.injEq] at h
      subst h
      have : Hist.view (Function.update heap p.2 v) d = Hist.view heap d :=
        view_congr _ _ _ fun b hb => Function.update_of_ne (by rintro rfl; exact hn.1 hb) _ _
      simp only [Hist.view, List.map_cons, Dict.set, hk, if_true, Function.update_self] at this ⊢
      rw [this]
    · simp only [Dict.get, hk, if_false] at h
      have hne : p.2 ≠ a := by rintro rfl; exact hn.1 (get_addr d k _ h)
      have := ih hn.2 h
      simp only [Hist.view, List.map_cons, Dict.set, hk, if_false, Function.update_of_ne hne] at this ⊢
      rw [this]

lemma values_edit {K : List String} {g : Gui V} (h : Good K g) (k : String) (v : V) (hk : k ∈ K) :
    curView (g.edit k v).params = Dict.set (curView g.params) k v := by
  have hc := good_commit h
  have h1 := (commit_inv g.params h.inv).2.2.1
  have hcur : g.params.commit.cur = g.params.cur := rfl
  obtain ⟨a, ha⟩ : ∃ a, Dict.get g.params.cur k = some a := by
    have hk' : k ∈ Dict.keys g.params.cur := h.curK.symm ▸ hk
    clear h hc h1 hcur
    generalize g.params.cur = d at hk'
    induction d with
    | nil => cases hk'
    | cons p d ih =>
      by_cases hp : p.1 = k
      · exact ⟨p.2, by simp [Dict.get, hp]⟩
      · simp only [Dict.keys, List.map_cons, List.mem_cons] at hk'
        rcases hk' with h | h
        · exact absurd h.symm hp
        · obtain ⟨a, ha⟩ := ih h
          exact ⟨a, by simp [Dict.get, hp, ha]⟩
  rw [← h1]
  unfold Gui.edit State.setValue curView
  rw [hcur, ha]
  exact view_write _ _ h.curN k a v ha

lemma good_fit {K : List String} {g : Gui V} (h : Good K g) (f : String → V) : Good K (g.fit f) := by
  have hcN : (Dict.keys g.params.cur).Nodup := h.curK.symm ▸ h.nodup
  obtain ⟨i1, -, -, -, -⟩ := fit_spec g h.inv hcN f
  obtain ⟨s1, -, -, -, s5⟩ := fit_state g h.inv f
  obtain ⟨c1, c2, c3, c4, c5⟩ := copy_spec g.params.cur g.params.heap g.params.next h.inv.curLt
  obtain ⟨n1, n2⟩ := copy_nodup g.params.cur g.params.heap g.params.next
  set c := copy g.params.heap g.params.next g.params.cur with hc
  set t : State V := { g.params with heap := c.1.foldl (fun h p => Function.update h p.2 (f p.1)) c.2.1, next := c.2.2 } with ht
  have hg1 : Good K { g with params := t } := by
    refine ⟨s1, h.nodup, h.curK, h.curN, h.histK, ?_, h.initK, fun a ha => lt_of_lt_of_le (h.initLt a ha) c2⟩
    intro l hl
    rcases h.last l hl with h0 | ⟨l1, l2, l3⟩
    · exact Or.inl h0
    · exact Or.inr ⟨l1, l2, fun a ha => ⟨lt_of_lt_of_le (l3 a ha).1 c2, (l3 a ha).2⟩⟩
  have hg2 := good_commit hg1
  have hg3 := good_commit hg2
  have hcur : (g.fit f).params.cur = c.1 := by
    show merge t.commit.commit.cur c.1 = c.1
    apply merge_same
    · show Dict.keys g.params.cur = _
      rw [c5]
    · exact hcN
  have hnext : t.next ≤ (g.fit f).params.next := by
    show c.2.2 ≤ t.commit.commit.next
    exact le_trans (commit_inv t s1).2.2.2.1 (commit_inv t.commit hg2.inv).2.2.2.1
  refine ⟨i1, h.nodup, ?_, ?_, hg3.histK, ?_, h.initK, fun a ha => lt_of_lt_of_le (h.initLt a ha) (le_trans c2 hnext)⟩
  · rw [hcur, c5]; exact h.curK
  · rw [hcur]; exact n1
  · intro l hl
    rcases hg3.last l hl with h0 | ⟨l1, l2, l3⟩
    · exact Or.inl h0
    · refine Or.inr ⟨l1, l2, fun a ha => ⟨(l3 a ha).1, ?_, (l3 a ha).2.2⟩⟩
      rw [hcur]
      intro hac
      rcases h.last l hl with h0 | ⟨-, -, m3⟩
      · subst h0; cases ha
      · exact absurd (m3 a ha).1 (not_lt.2 (c4 a hac).1)

/-- The state after `pop`. -/
lemma good_undo {K : List String} {g : Gui V} (h : Good K g) : Good K g.undo := by
  have hi := (step_inv g.params .pop h.inv trivial).1
  have hi' : Inv g.params.pop.2 := hi
  unfold Gui.undo
  cases hl : g.params.hist.getLast? with
  | none =>
    have hp : g.params.pop = (none, g.params) := by simp [State.pop, hl]
    simp only [hp]
    exact ⟨h.inv, h.nodup, h.curK, h.curN, h.histK, by simp, h.initK, h.initLt⟩
  | some e =>
    have he : e ∈ g.params.hist := List.mem_of_getLast? hl
    obtain ⟨c1, c2, c3, c4, c5⟩ := copy_spec g.params.cur g.params.heap g.params.next h.inv.curLt
    obtain ⟨n1, n2⟩ := copy_nodup g.params.cur g.params.heap g.params.next
    have hm : merge g.params.cur e = e := merge_same _ _ (h.curK.trans (h.histK e he).1.symm) (h.curK.symm ▸ h.nodup)
    have hp : g.params.pop = (some (copy g.params.heap g.params.next g.params.cur).1,
        { g.params with heap := (copy g.params.heap g.params.next g.params.cur).2.1,
                        next := (copy g.params.heap g.params.next g.params.cur).2.2, cur := e, hist := g.params.hist.dropLast }) := by
      simp [State.pop, hl, hm]
    rw [hp] at hi'
    simp only [hp]
    refine ⟨hi', h.nodup, (h.histK e he).1, (h.histK e he).2, fun x hx => h.histK x (List.mem_of_mem_dropLast hx), ?_, h.initK,
      fun a ha => lt_of_lt_of_le (h.initLt a ha) c2⟩
    intro l hl
    simp only [Option.some.injEq] at hl
    subst hl
    refine Or.inr ⟨c5.trans h.curK, n1, fun a ha => ⟨(c4 a ha).2, fun hae => ?_, fun x hx hax => ?_⟩⟩
    · exact absurd (h.inv.histLt e he a hae) (not_lt.2 (c4 a ha).1)
    · exact absurd (h.inv.histLt x (List.mem_of_mem_dropLast hx) a hax) (not_lt.2 (c4 a ha).1)

lemma good_redo {K : List String} {g : Gui V} (h : Good K g) : Good K g.redo := by
  unfold Gui.redo
  cases hl : g.last with
  | none => exact h
  | some l =>
    have hc := good_commit h
    simp only
    rcases h.last l hl with rfl | ⟨l1, l2, l3⟩
    · exact ⟨hc.inv, h.nodup, h.curK, h.curN, hc.histK, by simp, h.initK, hc.initLt⟩
    · have hm : merge g.params.commit.cur l = l := merge_same _ _ (h.curK.trans l1.symm) (h.curK.symm ▸ h.nodup)
      have hcl : ∀ a ∈ addrs l, a < g.params.commit.next ∧ ∀ e ∈ g.params.commit.hist, a ∉ addrs e := by
        rcases hc.last l hl with rfl | ⟨-, -, m3⟩
        · intro a ha; cases ha
        · exact fun a ha => ⟨(m3 a ha).1, (m3 a ha).2.2⟩
      have hi := merge_inv g.params.commit hc.inv l hcl
      rw [hm] at hi
      refine ⟨?_, h.nodup, ?_, ?_, hc.histK, by simp, h.initK, hc.initLt⟩
      · show Inv { g.params.commit with cur := merge g.params.commit.cur l }
        rw [hm]; exact hi
      · show Dict.keys (merge g.params.commit.cur l) = K
        rw [hm]; exact l1
      · show (addrs (merge g.params.commit.cur l)).Nodup
        rw [hm]; exact l2

lemma good_reset {K : List String} {g : Gui V} (h : Good K g) : Good K g.reset := by
  have hu := good_undo h
  set r := g.params.pop with hr
  have hu' : Good K { g with params := r.2, last := r.1 } := hu
  obtain ⟨c1, c2, c3, c4, c5⟩ := copy_spec g.initial r.2.heap r.2.next hu'.initLt
  obtain ⟨n1, n2⟩ := copy_nodup g.initial r.2.heap r.2.next
  show Good K { g with params := ⟨(copy r.2.heap r.2.next g.initial).2.1, (copy r.2.heap r.2.next g.initial).2.2,
    (copy r.2.heap r.2.next g.initial).1, [], 50⟩, last := r.1 }
  refine ⟨⟨fun a ha => (c4 a ha).2, by simp, by simp, by simp, by simp, by simp⟩, h.nodup, c5.trans h.initK, n1, by simp, ?_, h.initK,
    fun a ha => lt_of_lt_of_le (hu'.initLt a ha) c2⟩
  intro l hl
  rcases hu'.last l hl with h0 | ⟨l1, l2, l3⟩
  · exact Or.inl h0
  · exact Or.inr ⟨l1, l2, fun a ha => ⟨lt_of_lt_of_le (l3 a ha).1 c2, fun hac => absurd (l3 a ha).1 (not_lt.2 (c4 a hac).1), by simp⟩⟩

lemma good_init {K : List String} (st : State V) (hi : Inv st) (hK : Dict.keys st.cur = K) (hn : K.Nodup) (hc : (addrs st.cur).Nodup)
    (hh : ∀ e ∈ st.hist, Dict.keys e = K ∧ (addrs e).Nodup) (last : Option (Dict ℕ)) (hlast : ∀ l, last = some l → l = []) :
    Good K { Gui.init st with last := last } ∧ curView (Gui.init st).params = curView st := by
  obtain ⟨c1, c2, c3, c4, c5⟩ := copy_spec st.cur st.heap st.next hi.curLt
  obtain ⟨d1, d2, d3, d4, d5⟩ := copy_spec st.cur (copy st.heap st.next st.cur).2.1 (copy st.heap st.next st.cur).2.2
    fun a ha => lt_of_lt_of_le (hi.curLt a ha) c2
  refine ⟨⟨⟨fun a ha => lt_of_lt_of_le (hi.curLt a ha) (le_trans c2 d2), fun e he a ha => lt_of_lt_of_le (hi.histLt e he a ha) (le_trans c2 d2),
    hi.curHist, hi.pair, hi.len, hi.max1⟩, hn, hK, hc, hh, fun l hl => Or.inl (hlast l hl), d5.trans hK, fun a ha => (d4 a ha).2⟩, ?_⟩
  apply view_congr
  intro a ha
  have h1 := hi.curLt a ha
  exact (d3 a (lt_of_lt_of_le h1 c2)).trans (c3 a h1)

end PyElli.FitWindow
