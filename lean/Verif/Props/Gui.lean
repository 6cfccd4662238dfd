import Verif.Props.Hist

/-! # The fitting widgets (C73, C74) -/

namespace PyElli.Hist

open PyElli Spec.Hist

variable {V : Type}

/-- C73: Undo after a new value in a widget restores the values before. -/
theorem C73_edit_undo (g : Gui V) (h : Inv g.params) (hn : (Dict.keys g.params.cur).Nodup) (k : String) (v : V) :
    curView (g.edit k v).undo.params = curView g.params := by
  have := (C63_pop_restores g.params h hn [.setValue k v] (by simp [edits]) (by simp [AllClean, Clean])).1
  exact this

lemma copy_nodup (d : Dict ℕ) : ∀ (h : ℕ → V) (n : ℕ), (addrs (copy h n d).1).Nodup ∧ ∀ a ∈ addrs (copy h n d).1, n ≤ a := by
  induction d with
  | nil => intro h n; simp [copy, addrs]
  | cons p d ih =>
    intro h n
    obtain ⟨k, a⟩ := p
    obtain ⟨i1, i2⟩ := ih (Function.update h n (h a)) (n + 1)
    simp only [copy, addrs, List.map_cons, List.nodup_cons, List.mem_cons, forall_eq_or_imp, le_refl, true_and]
    refine ⟨⟨fun hm => ?_, i1⟩, fun b hb => ?_⟩
    · have := i2 n hm
      omega
    · have := i2 b hb
      omega

lemma fill_heap (d : Dict ℕ) (f : String → V) : ∀ h : ℕ → V, (addrs d).Nodup →
    view (d.foldl (fun h p => Function.update h p.2 (f p.1)) h) d = d.map (fun p => (p.1, f p.1)) ∧
    ∀ a ∉ addrs d, (d.foldl (fun h p => Function.update h p.2 (f p.1)) h) a = h a := by
  induction d with
  | nil => intro h _; simp [view]
  | cons p d ih =>
    intro h hn
    simp only [addrs, List.map_cons, List.nodup_cons] at hn
    obtain ⟨i1, i2⟩ := ih (Function.update h p.2 (f p.1)) hn.2
    constructor
    · show (p.1, _) :: view _ d = (p.1, f p.1) :: _
      simp only [List.foldl_cons]
      rw [i1, i2 p.2 hn.1]
      simp
    · intro a ha
      simp only [addrs, List.map_cons, List.mem_cons, not_or] at ha
      rw [List.foldl_cons, i2 a ha.2]
      exact Function.update_of_ne ha.1 _ _

/-- The state after `minimize`: the new objects do not belong to the history. -/
lemma fit_state (g : Gui V) (h : Inv g.params) (f : String → V) :
    let c := copy g.params.heap g.params.next g.params.cur
    let s1 : State V := { g.params with heap := c.1.foldl (fun h p => Function.update h p.2 (f p.1)) c.2.1, next := c.2.2 }
    Inv s1 ∧ curView s1 = curView g.params ∧ histView s1 = histView g.params ∧
      view s1.heap c.1 = (Dict.keys g.params.cur).map (fun k => (k, f k)) ∧
      ∀ a ∈ addrs c.1, a < s1.next ∧ ∀ e ∈ s1.hist, a ∉ addrs e := by
  intro c s1
  obtain ⟨c1, c2, c3, c4, c5⟩ := copy_spec g.params.cur g.params.heap g.params.next h.curLt
  obtain ⟨f1, f2⟩ := fill_heap c.1 f c.2.1 (copy_nodup _ _ _).1
  have hold : ∀ a < g.params.next, s1.heap a = g.params.heap a := by
    intro a ha
    rw [← c3 a ha]
    apply f2
    intro hm
    exact absurd ha (not_lt.2 (c4 a hm).1)
  refine ⟨⟨?_, ?_, h.curHist, h.pair, h.len, h.max1⟩, ?_, ?_, ?_, ?_⟩
  · exact fun a ha => lt_of_lt_of_le (h.curLt a ha) c2
  · exact fun e he a ha => lt_of_lt_of_le (h.histLt e he a ha) c2
  · exact view_congr _ _ _ fun a ha => hold a (h.curLt a ha)
  · unfold histView
    apply List.map_congr_left
    intro e he
    exact view_congr _ _ _ fun a ha => hold a (h.histLt e he a ha)
  · rw [← c5, show view s1.heap c.1 = _ from f1]
    simp [Dict.keys, Function.comp_def, c]
  · intro a ha
    refine ⟨(c4 a ha).2, fun e he hae => ?_⟩
    exact absurd (h.histLt e he a hae) (not_lt.2 (c4 a ha).1)

lemma fit_spec (g : Gui V) (h : Inv g.params) (hn : (Dict.keys g.params.cur).Nodup) (f : String → V) :
    Inv (g.fit f).params ∧ curView (g.fit f).params = (Dict.keys g.params.cur).map (fun k => (k, f k)) ∧
    histView (g.fit f).params = lastN g.params.max (histView g.params ++ [curView g.params, curView g.params]) ∧
    view (g.fit f).params.heap (g.fit f).fitted = (Dict.keys g.params.cur).map (fun k => (k, f k)) ∧
    (g.fit f).params.max = g.params.max := by
  obtain ⟨i1, i2, i3, i4, i5⟩ := fit_state g h f
  set c := copy g.params.heap g.params.next g.params.cur with hc
  set s1 : State V := { g.params with heap := c.1.foldl (fun h p => Function.update h p.2 (f p.1)) c.2.1, next := c.2.2 } with hs1
  obtain ⟨k1, k2, k3, k4, k5, k6⟩ := commit_inv s1 i1
  have hcl : Clean s1.commit (.updateParams c.1) := by
    intro a ha
    refine ⟨lt_of_lt_of_le (i5 a ha).1 k4, fun e he hae => ?_⟩
    rcases k6 e he with h' | h'
    · exact (i5 a ha).2 e h' hae
    · exact absurd (i5 a ha).1 (not_lt.2 (h' a hae))
  obtain ⟨l1, l2⟩ := step_inv s1.commit (.updateParams c.1) k1 hcl
  obtain ⟨m1, m2, m3, m4, m5, m6⟩ := commit_inv s1.commit k1
  have hp : (g.fit f).params = step s1.commit (.updateParams c.1) := rfl
  have hfit : view s1.commit.commit.heap c.1 = (Dict.keys g.params.cur).map (fun k => (k, f k)) := by
    rw [← i4]
    apply view_congr
    intro a ha
    rw [m5 a (lt_of_lt_of_le (i5 a ha).1 k4), k5 a (i5 a ha).1]
  have hkeys : Dict.keys (curView g.params) = Dict.keys g.params.cur := view_keys _ _
  refine ⟨by rw [hp]; exact l1, ?_, ?_, hfit, rfl⟩
  · show view s1.commit.commit.heap (merge s1.commit.commit.cur c.1) = _
    rw [view_merge, hfit]
    have h1 : view s1.commit.commit.heap s1.commit.commit.cur = curView g.params := m3.trans (k3.trans i2)
    rw [h1]
    apply merge_same
    · rw [hkeys]; simp [Dict.keys, Function.comp_def]
    · rw [hkeys]; exact hn
  · rw [hp, l2]
    simp only [after]
    rw [show s1.commit.max = g.params.max from rfl, k2, k3, i2, i3, show s1.max = g.params.max from rfl, lastN_append]
    simp

/-- C73: Undo after Fit restores the values before the fit. -/
theorem C73_fit_undo (g : Gui V) (h : Inv g.params) (hn : (Dict.keys g.params.cur).Nodup) (f : String → V) :
    curView (g.fit f).undo.params = curView g.params := by
  obtain ⟨i1, i2, i3, i4, i5⟩ := fit_spec g h hn f
  have hm := h.max1
  have hlast : (histView (g.fit f).params).getLast? = some (curView g.params) := by
    rw [i3]
    unfold lastN
    rw [List.getLast?_drop, if_neg (by simp; omega)]
    simp
  unfold histView at hlast
  rw [List.getLast?_map] at hlast
  obtain ⟨e, he1, he2⟩ := Option.map_eq_some_iff.1 hlast
  obtain ⟨d, p1, p2, p3, -⟩ := pop_spec _ i1 e he1
  show curView (g.fit f).params.pop.2 = _
  rw [p3, he2, i2]
  apply merge_same
  · simp [Dict.keys, curView, view, Function.comp_def]
  · simpa [Dict.keys, Function.comp_def] using hn

/-- C73 fails after Fit: the values are committed twice, so the second Undo changes nothing (for a history of at least two entries). -/
theorem C73_fit_second_undo_refuted (g : Gui V) (h : Inv g.params) (hn : (Dict.keys g.params.cur).Nodup) (f : String → V)
    (h2 : 2 ≤ g.params.max) :
    curView (g.fit f).undo.undo.params = curView (g.fit f).undo.params := by
  obtain ⟨i1, i2, i3, i4, i5⟩ := fit_spec g h hn f
  have hu := C73_fit_undo g h hn f
  obtain ⟨j1, j2⟩ := step_inv (g.fit f).params .pop i1 trivial
  have hlast : (histView (g.fit f).undo.params).getLast? = some (curView g.params) := by
    show (histView (g.fit f).params.pop.2).getLast? = _
    rw [show histView (g.fit f).params.pop.2 = _ from j2]
    simp only [after]
    rw [i3]
    have : lastN g.params.max (histView g.params ++ [curView g.params, curView g.params]) =
        lastN (g.params.max - 2) (histView g.params) ++ [curView g.params, curView g.params] := by
      unfold lastN
      rw [List.drop_append_of_le_length (by simp; omega)]
      congr 2
      simp
      omega
    rw [this]
    simp [List.dropLast_append]
  unfold histView at hlast
  rw [List.getLast?_map] at hlast
  obtain ⟨e, he1, he2⟩ := Option.map_eq_some_iff.1 hlast
  obtain ⟨d, p1, p2, p3, -⟩ := pop_spec (g.fit f).params.pop.2 j1 e he1
  show curView (g.fit f).params.pop.2.pop.2 = _
  have hu' : curView (g.fit f).params.pop.2 = curView g.params := hu
  rw [p3, show view (g.fit f).params.pop.2.heap e = curView g.params from he2, hu']
  rw [show curView (g.fit f).undo.params = curView g.params from hu]
  apply merge_same
  · rfl
  · rw [curView, view_keys]; exact hn

/-- C73, Redo has one level: a second Redo in a row does nothing, whatever was undone before. -/
theorem C73_redo_once (g : Gui V) : g.redo.redo = g.redo := by
  unfold Gui.redo
  cases h : g.last with
  | none => simp [h]
  | some l => simp

/-- C73 fails for Redo: after two edits and two Undos, two Redos do not bring the last values back; only one step is remembered. -/
theorem C73_redo_levels_refuted : ∃ g : Gui ℕ, Inv g.params ∧ curView ((g.edit "x" 2).edit "x" 3).params = [("x", 3)] ∧
    curView ((g.edit "x" 2).edit "x" 3).undo.undo.params = curView g.params ∧
    curView ((g.edit "x" 2).edit "x" 3).undo.undo.redo.redo.params = [("x", 2)] := by
  refine ⟨Gui.init (State.add (State.init (fun _ => (0 : ℕ)) 0) "x" 1), ⟨?_, ?_, ?_, ?_, ?_, ?_⟩, ?_, ?_, ?_⟩ <;> decide

/-- C73 fails for Redo after a new edit: what was undone stays remembered, so Redo overwrites the new value (here 5) with the undone one (2). -/
theorem C73_stale_redo_refuted : ∃ g : Gui ℕ, Inv g.params ∧ curView ((g.edit "x" 2).undo.edit "x" 5).params = [("x", 5)] ∧
    curView ((g.edit "x" 2).undo.edit "x" 5).redo.params = [("x", 2)] := by
  refine ⟨Gui.init (State.add (State.init (fun _ => (0 : ℕ)) 0) "x" 1), ⟨?_, ?_, ?_, ?_, ?_, ?_⟩, ?_, ?_⟩ <;> decide

/-- C73 fails after Set initial: the history is dropped with the parameters object, so Undo does nothing. -/
theorem C73_reset_refuted (g : Gui V) : g.reset.undo.params = g.reset.params := by
  simp [Gui.undo, Gui.reset, State.pop]

/-- A witness: with `x` edited from 1 to 2, Set initial gives 1 and Undo does not bring 2 back. -/
example : curView ((Gui.init (State.add (State.init (fun _ => (0 : ℕ)) 0) "x" 1)).edit "x" 2).params = [("x", 2)] ∧
    curView ((Gui.init (State.add (State.init (fun _ => (0 : ℕ)) 0) "x" 1)).edit "x" 2).reset.params = [("x", 1)] ∧
    curView ((Gui.init (State.add (State.init (fun _ => (0 : ℕ)) 0) "x" 1)).edit "x" 2).reset.undo.params = [("x", 1)] := by
  decide

/-- C74: right after Fit, `fitted_params` hold the values found. -/
theorem C74_fit_partial (g : Gui V) (h : Inv g.params) (hn : (Dict.keys g.params.cur).Nodup) (f : String → V) :
    view (g.fit f).params.heap (g.fit f).fitted = (Dict.keys g.params.cur).map (fun k => (k, f k)) :=
  (fit_spec g h hn f).2.2.2.1

/-- C74 fails after an edit: Fit stores the objects of `fitted_params` in the current parameters, so a new value in a widget changes the
fitted parameters too. -/
theorem C74_edit_refuted : ∃ g : Gui ℕ, Inv g.params ∧
    view (g.fit fun _ => 7).params.heap (g.fit fun _ => 7).fitted = [("x", 7)] ∧
    view ((g.fit fun _ => 7).edit "x" 3).params.heap ((g.fit fun _ => 7).edit "x" 3).fitted = [("x", 3)] := by
  refine ⟨⟨State.add (State.init (fun _ => (0 : ℕ)) 0) "x" 1, [], none, []⟩, (add_inv _ (init_inv _ _) "x" 1).1, ?_, ?_⟩ <;> decide

/-- Non-trivial case of the hypotheses: the widgets on one parameter. -/
example : Inv (Gui.init (State.add (State.init (fun _ => (0 : ℕ)) 0) "x" 1)).params ∧
    curView ((Gui.init (State.add (State.init (fun _ => (0 : ℕ)) 0) "x" 1)).fit fun _ => 9).undo.params = [("x", 1)] ∧
    curView ((Gui.init (State.add (State.init (fun _ => (0 : ℕ)) 0) "x" 1)).fit fun _ => 9).params = [("x", 9)] := by
  refine ⟨⟨?_, ?_, ?_, ?_, ?_, ?_⟩, ?_, ?_⟩ <;> decide

end PyElli.Hist
