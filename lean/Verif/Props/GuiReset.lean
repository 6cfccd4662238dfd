import Verif.Props.Gui

/-! # Set initial (C146) -/

namespace Spec.Hist

/-- What a user of the fitting widgets does. -/
inductive Button (V : Type)
  | undo
  | redo
  | edit (k : String) (v : V)
  | fit (f : String → V)
  | reset

end Spec.Hist

namespace PyElli.Hist

open PyElli Spec.Hist

variable {V : Type}

/-- One action, `decorator.py:122-177`. -/
def press (g : Gui V) : Button V → Gui V
  | .undo => g.undo
  | .redo => g.redo
  | .edit k v => g.edit k v
  | .fit f => g.fit f
  | .reset => g.reset

lemma copy_frame (d : Dict ℕ) : ∀ (h : ℕ → V) (n : ℕ), n ≤ (copy h n d).2.2 ∧ ∀ a < n, (copy h n d).2.1 a = h a := by
  induction d with
  | nil => intro h n; simp [copy]
  | cons p d ih =>
    intro h n
    obtain ⟨i1, i2⟩ := ih (Function.update h n (h p.2)) (n + 1)
    refine ⟨by simp only [copy]; omega, fun a ha => ?_⟩
    simp only [copy]
    rw [i2 a (by omega), Function.update_of_ne (by omega)]

/-- The starting values are kept in objects of their own. -/
structure Kept (w : Dict V) (g : Gui V) : Prop where
  value : view g.params.heap g.initial = w
  lt : ∀ a ∈ addrs g.initial, a < g.params.next
  cur : ∀ a ∈ addrs g.initial, a ∉ addrs g.params.cur
  hist : ∀ a ∈ addrs g.initial, ∀ e ∈ g.params.hist, a ∉ addrs e
  last : ∀ a ∈ addrs g.initial, ∀ l, g.last = some l → a ∉ addrs l

lemma Kept.frame {w : Dict V} {g g' : Gui V} (h : Kept w g) (hi : g'.initial = g.initial) (hn : g.params.next ≤ g'.params.next)
    (hh : ∀ a ∈ addrs g.initial, g'.params.heap a = g.params.heap a)
    (hc : ∀ b ∈ addrs g'.params.cur, b ∉ addrs g.initial)
    (hs : ∀ e ∈ g'.params.hist, ∀ b ∈ addrs e, b ∉ addrs g.initial) (hl : ∀ l, g'.last = some l → ∀ b ∈ addrs l, b ∉ addrs g.initial) : Kept w g' := by
  refine ⟨?_, ?_, ?_, ?_, ?_⟩ <;> rw [hi]
  · rw [view_congr _ _ _ hh]; exact h.value
  · exact fun a ha => (h.lt a ha).trans_le hn
  · exact fun a ha hb => hc a hb ha
  · exact fun a ha e he hb => hs e he a hb ha
  · exact fun a ha l hl' hb => hl l hl' a hb ha

/-- Saving the current values. -/
lemma Kept.commit {w : Dict V} {g : Gui V} (h : Kept w g) : Kept w { g with params := g.params.commit } := by
  obtain ⟨f1, f2⟩ := copy_frame g.params.cur g.params.heap g.params.next
  refine h.frame rfl f1 (fun a ha => f2 a (h.lt a ha)) (fun b hb ha => h.cur b ha hb) ?_ (fun l hl b hb ha => h.last b ha l hl hb)
  intro e he b hb ha
  simp only [State.commit, List.mem_append, List.mem_singleton] at he
  rcases he with he | he
  · have : e ∈ g.params.hist := by
      split at he
      · exact List.mem_of_mem_drop he
      · exact he
    exact h.hist b ha e this hb
  · subst he
    have := (copy_nodup _ _ _).2 b hb
    have := h.lt b ha
    omega

/-- Taking over other objects. -/
lemma Kept.merge {w : Dict V} {g : Gui V} (h : Kept w g) (o : Dict ℕ) (ho : ∀ b ∈ addrs o, b ∉ addrs g.initial) :
    Kept w { g with params := { g.params with cur := merge g.params.cur o } } := by
  refine h.frame rfl le_rfl (fun _ _ => rfl) ?_ (fun e he b hb ha => h.hist b ha e he hb) (fun l hl b hb ha => h.last b ha l hl hb)
  intro b hb ha
  rcases merge_addrs _ _ b hb with hb | hb
  · exact h.cur b ha hb
  · exact ho b hb ha

lemma Kept.undo {w : Dict V} {g : Gui V} (h : Kept w g) : Kept w g.undo := by
  unfold Gui.undo State.pop
  split
  · rename_i e he
    obtain ⟨f1, f2⟩ := copy_frame g.params.cur g.params.heap g.params.next
    have hmem : e ∈ g.params.hist := List.mem_of_getLast? he
    refine h.frame rfl f1 (fun a ha => f2 a (h.lt a ha)) ?_ ?_ ?_
    · intro b hb ha
      rcases merge_addrs _ _ b hb with hb | hb
      · exact h.cur b ha hb
      · exact h.hist b ha e hmem hb
    · exact fun x hx b hb ha => h.hist b ha x (List.dropLast_subset _ hx) hb
    · intro l hl b hb ha
      obtain rfl : (copy g.params.heap g.params.next g.params.cur).1 = l := Option.some.inj hl
      have := (copy_nodup _ _ _).2 b hb
      have := h.lt b ha
      omega
  · exact h.frame rfl le_rfl (fun _ _ => rfl) (fun b hb ha => h.cur b ha hb) (fun x hx b hb ha => h.hist b ha x hx hb) (fun l hl => by simp at hl)

lemma Kept.redo {w : Dict V} {g : Gui V} (h : Kept w g) : Kept w g.redo := by
  unfold Gui.redo
  split
  · rename_i l hl
    have := h.commit.merge l fun b hb ha => h.last b ha l hl hb
    exact this.frame rfl le_rfl (fun _ _ => rfl) (fun b hb ha => this.cur b ha hb) (fun x hx b hb ha => this.hist b ha x hx hb) (fun l hl => by simp at hl)
  · exact h

lemma Kept.edit {w : Dict V} {g : Gui V} (h : Kept w g) (k : String) (v : V) : Kept w (g.edit k v) := by
  have hc := h.commit
  unfold Gui.edit State.setValue
  split
  · rename_i a ha
    refine hc.frame rfl le_rfl (fun b hb => ?_) (fun b hb ha => hc.cur b ha hb) (fun x hx b hb ha => hc.hist b ha x hx hb) (fun l hl b hb ha => hc.last b ha l hl hb)
    refine Function.update_of_ne ?_ _ _
    rintro rfl
    exact hc.cur b hb (get_addr _ _ _ ha)
  · exact hc

lemma Kept.fit {w : Dict V} {g : Gui V} (h : Kept w g) (f : String → V) : Kept w (g.fit f) := by
  obtain ⟨f1, f2⟩ := copy_frame g.params.cur g.params.heap g.params.next
  obtain ⟨n1, n2⟩ := copy_nodup g.params.cur g.params.heap g.params.next
  have hnew : ∀ b ∈ addrs (copy g.params.heap g.params.next g.params.cur).1, b ∉ addrs g.initial := fun b hb ha => by
    have := n2 b hb
    have := h.lt b ha
    omega
  set c := copy g.params.heap g.params.next g.params.cur with hc
  have h1 : Kept w { g with params := { g.params with heap := c.1.foldl (fun h p => Function.update h p.2 (f p.1)) c.2.1, next := c.2.2 }, fitted := c.1 } := by
    refine h.frame rfl f1 (fun a ha => ?_) (fun b hb ha => h.cur b ha hb) (fun x hx b hb ha => h.hist b ha x hx hb) (fun l hl b hb ha => h.last b ha l hl hb)
    show (c.1.foldl (fun h p => Function.update h p.2 (f p.1)) c.2.1) a = g.params.heap a
    rw [(fill_heap c.1 f c.2.1 n1).2 a fun hb => hnew a hb ha]
    exact f2 a (h.lt a ha)
  exact h1.commit.commit.merge c.1 hnew

lemma Kept.reset {w : Dict V} {g : Gui V} (h : Kept w g) : Kept w g.reset ∧ curView g.reset.params = w := by
  have hu := h.undo
  obtain ⟨f1, f2⟩ := copy_frame g.undo.initial g.undo.params.heap g.undo.params.next
  have n2 := (copy_nodup g.undo.initial g.undo.params.heap g.undo.params.next).2
  obtain ⟨c1, -⟩ := copy_spec g.undo.initial g.undo.params.heap g.undo.params.next hu.lt
  constructor
  · refine hu.frame rfl f1 (fun a ha => f2 a (hu.lt a ha)) ?_ (fun x hx => by simp [Gui.reset] at hx) (fun l hl b hb ha => hu.last b ha l hl hb)
    intro b hb ha
    have := n2 b hb
    have := hu.lt b ha
    omega
  · exact c1.trans hu.value

lemma Kept.press {w : Dict V} {g : Gui V} (h : Kept w g) (b : Button V) : Kept w (press g b) := by
  cases b with
  | undo => exact h.undo
  | redo => exact h.redo
  | edit k v => exact h.edit k v
  | fit f => exact h.fit f
  | reset => exact h.reset.1

lemma Kept.init (s : State V) (hs : ∀ a ∈ addrs s.cur, a < s.next) (hh : ∀ e ∈ s.hist, ∀ a ∈ addrs e, a < s.next) : Kept (curView s) (Gui.init s) := by
  obtain ⟨a1, a2, a3, a4, a5⟩ := copy_spec s.cur s.heap s.next hs
  set c := copy s.heap s.next s.cur with hc
  obtain ⟨b1, b2, b3, b4, b5⟩ := copy_spec s.cur c.2.1 c.2.2 fun a ha => (hs a ha).trans_le a2
  refine ⟨?_, fun a ha => (b4 a ha).2, fun a ha hb => ?_, fun a ha e he hb => ?_, fun a ha l hl => by simp [Gui.init] at hl⟩
  · refine b1.trans (view_congr _ _ _ fun a ha => a3 a (hs a ha))
  · have h1 := (b4 a ha).1
    have h2 := hs a hb
    omega
  · have h1 := (b4 a ha).1
    have h2 := hh e he a hb
    omega

/-- **C146.** Set initial gives back the values the widgets were started with, whatever was edited, fitted, undone, redone or reset before, and leaves an empty
history of 50 entries at most. -/
theorem C146_reset (s : State V) (h : Inv s) (bs : List (Button V)) :
    let g := (bs.foldl press (Gui.init s)).reset
    curView g.params = curView s ∧ g.params.hist = [] ∧ g.params.max = 50 := by
  have : ∀ (bs : List (Button V)) (g : Gui V), Kept (curView s) g → Kept (curView s) (bs.foldl press g) := by
    intro bs
    induction bs with
    | nil => exact fun g hg => hg
    | cons b bs ih => exact fun g hg => ih _ (hg.press b)
  exact ⟨(this bs _ (Kept.init s h.curLt h.histLt)).reset.2, rfl, rfl⟩

/-- A witness: edit, fit, undo, redo, edit. -/
example : curView (([Button.edit "x" 2, .fit fun _ => 7, .undo, .redo, .edit "x" 4].foldl press
      (Gui.init (State.add (State.init (fun _ => (0 : ℕ)) 0) "x" 1))).reset).params = [("x", 1)] ∧
    curView (([Button.edit "x" 2, .fit fun _ => 7, .undo, .redo, .edit "x" 4].foldl press
      (Gui.init (State.add (State.init (fun _ => (0 : ℕ)) 0) "x" 1)))).params = [("x", 4)] := by decide

/-- **C146.** Without a call of the setter the history of any program holds 50 entries at most. -/
theorem C146_default_length (heap : ℕ → V) (next : ℕ) (ops : List (Op V)) (h : ∀ n, Op.setMax n ∉ ops) :
    (run (State.init heap next) ops).hist.length ≤ 50 ∧ (run (State.init heap next) ops).max = 50 := by
  have hmax : ∀ (ops : List (Op V)) (s : State V), (∀ n, Op.setMax n ∉ ops) → (run s ops).max = s.max := by
    intro ops
    induction ops with
    | nil => exact fun s _ => rfl
    | cons op ops ih =>
      intro s h
      have e : (step s op).max = s.max := by
        cases op with
        | setMax n => exact absurd List.mem_cons_self (h n)
        | updateValue k v => simp only [step, State.updateValue, State.setValue]; split <;> rfl
        | setValue k v => simp only [step, State.setValue]; split <;> rfl
        | revert i => simp only [step, State.revert]; split_ifs <;> first | rfl | (split <;> rfl)
        | pop => simp only [step, State.pop]; split <;> rfl
        | _ => rfl
      exact (ih (step s op) fun n hn => h n (List.mem_cons_of_mem _ hn)).trans e
  have h1 := hmax ops (State.init heap next) h
  have h2 := (C62_bound heap next ops).1
  rw [h1] at h2
  exact ⟨h2, h1⟩

end PyElli.Hist
