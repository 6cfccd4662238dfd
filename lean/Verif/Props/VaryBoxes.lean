import Verif.Spec.VaryBoxes
import Verif.Lemmas.FitWindow
import Verif.Props.GuiReset

/-! # C149: the check boxes say what a fit varies -/

namespace PyElli.Vary

open PyElli PyElli.Hist PyElli.FitWindow Spec.Vary Spec.Hist

variable {R V : Type}

/-! ## Dictionaries -/

lemma get_set {A : Type} (d : Dict A) (k j : String) (v : A) : Dict.get (Dict.set d k v) j = if k = j then some v else Dict.get d j := by
  induction d with
  | nil => simp [Dict.set, Dict.get]
  | cons p d ih =>
    by_cases hp : p.1 = k
    · subst hp
      by_cases hj : p.1 = j <;> simp [Dict.set, Dict.get, hj]
    · simp only [Dict.set, hp, if_false, Dict.get, ih]
      by_cases hj : p.1 = j
      · subst hj; simp [Ne.symm hp]
      · simp [hj]

lemma keys_set {A : Type} (d : Dict A) (k : String) (v : A) (hk : k ∈ Dict.keys d) : Dict.keys (Dict.set d k v) = Dict.keys d := by
  induction d with
  | nil => cases hk
  | cons p d ih =>
    by_cases hp : p.1 = k
    · simp [Dict.set, Dict.keys, hp]
    · simp only [Dict.keys, List.map_cons, List.mem_cons] at hk
      have := ih (hk.resolve_left fun e => hp e.symm)
      simp only [Dict.keys] at this
      simp [Dict.set, hp, Dict.keys, this]

lemma mem_set {A : Type} (d : Dict A) (hn : (Dict.keys d).Nodup) (k : String) (v : A) : ∀ p ∈ Dict.set d k v, p = (k, v) ∨ p ∈ d ∧ p.1 ≠ k := by
  induction d with
  | nil => simp [Dict.set]
  | cons q d ih =>
    simp only [Dict.keys, List.map_cons, List.nodup_cons] at hn
    intro p hp
    by_cases hq : q.1 = k
    · simp only [Dict.set, hq, if_true, List.mem_cons] at hp
      rcases hp with rfl | hp
      · exact Or.inl rfl
      · exact Or.inr ⟨List.mem_cons_of_mem _ hp, fun e => hn.1 (hq.trans e.symm ▸ List.mem_map_of_mem hp)⟩
    · simp only [Dict.set, hq, if_false, List.mem_cons] at hp
      rcases hp with rfl | hp
      · exact Or.inr ⟨List.mem_cons_self, hq⟩
      · exact (ih hn.2 p hp).imp id fun h => ⟨List.mem_cons_of_mem _ h.1, h.2⟩

lemma mem_of_get {A : Type} (d : Dict A) (k : String) (v : A) (h : Dict.get d k = some v) : (k, v) ∈ d := by
  induction d with
  | nil => cases h
  | cons p d ih =>
    by_cases hp : p.1 = k
    · simp only [Dict.get, hp, if_true, Option.some.injEq] at h
      subst hp h
      exact List.mem_cons_self
    · simp only [Dict.get, hp, if_false] at h
      exact List.mem_cons_of_mem _ (ih h)

lemma get_mem {A : Type} (d : Dict A) (hn : (Dict.keys d).Nodup) : ∀ p ∈ d, Dict.get d p.1 = some p.2 := by
  induction d with
  | nil => simp
  | cons q d ih =>
    simp only [Dict.keys, List.map_cons, List.nodup_cons] at hn
    intro p hp
    rcases List.mem_cons.1 hp with rfl | hp
    · simp [Dict.get]
    · have : q.1 ≠ p.1 := fun e => hn.1 (e ▸ List.mem_map_of_mem hp)
      simp [Dict.get, this, ih hn.2 p hp]

lemma get_key {A : Type} (d : Dict A) (k : String) (hk : k ∈ Dict.keys d) : ∃ v, Dict.get d k = some v := by
  induction d with
  | nil => cases hk
  | cons p d ih =>
    by_cases hp : p.1 = k
    · exact ⟨p.2, by simp [Dict.get, hp]⟩
    · simp only [Dict.keys, List.map_cons, List.mem_cons] at hk
      obtain ⟨v, hv⟩ := ih (hk.resolve_left fun e => hp e.symm)
      exact ⟨v, by simp [Dict.get, hp, hv]⟩

lemma view_get (heap : ℕ → V) (d : Dict ℕ) (k : String) : Dict.get (view heap d) k = (Dict.get d k).map heap := by
  induction d with
  | nil => rfl
  | cons p d ih =>
    unfold Hist.view at ih ⊢
    by_cases hk : p.1 = k
    · simp [Dict.get, hk]
    · simp [Dict.get, hk, ih]

/-! ## Agreement -/

lemma agree_set {B : Dict Bool} {v : Dict (Par R)} (h : Agree B v) (hn : (Dict.keys v).Nodup) (k : String) (p : Par R) (hp : Dict.get B k = some p.vary) :
    Agree B (Dict.set v k p) := by
  intro q hq
  rcases mem_set v hn k p q hq with rfl | ⟨hq, -⟩
  · exact hp
  · exact h q hq

lemma agree_check {B : Dict Bool} {v : Dict (Par R)} (h : Agree B v) (hn : (Dict.keys v).Nodup) (k : String) (p : Par R) :
    Agree (Dict.set B k p.vary) (Dict.set v k p) := by
  intro q hq
  rw [get_set]
  rcases mem_set v hn k p q hq with rfl | ⟨hq, hk⟩
  · simp
  · rw [if_neg (Ne.symm hk)]; exact h q hq

/-! ## The windows -/

/-- What every window keeps: the objects are not shared and the starting parameters carry the flags of the boxes. -/
structure Keeps (K : List String) (w0 : List (String × R)) (w : Boxes R) : Prop where
  good : Good K w.gui
  kept : Kept (view w.gui.params.heap w.gui.initial) w.gui
  nodup : (addrs w.gui.initial).Nodup
  boxes : Dict.keys w.boxes = K
  init : Agree w.boxes (view w.gui.params.heap w.gui.initial)
  start : (view w.gui.params.heap w.gui.initial).map (fun p => (p.1, p.2.value)) = w0

/-- The present parameters agree with the boxes. -/
def CurOk (w : Boxes R) : Prop := Agree w.boxes (curView w.gui.params)

/-- So do those that Undo and Redo bring back. -/
def OldOk (w : Boxes R) : Prop := (∀ e ∈ histView w.gui.params, Agree w.boxes e) ∧
  ∀ l, w.gui.last = some l → Agree w.boxes (view w.gui.params.heap l)

lemma view_setVary {heap : ℕ → Par R} (d : Dict ℕ) (hn : (addrs d).Nodup) (k : String) (a : ℕ) (b : Bool) (h : Dict.get d k = some a) :
    view (Function.update heap a { heap a with vary := b }) d = Dict.set (view heap d) k { heap a with vary := b } := view_write heap d hn k a _ h

lemma setVary_spec {K : List String} {w0 : List (String × R)} {w : Boxes R} (h : Keeps K w0 w) (k : String) (hk : k ∈ K) (b : Bool) :
    ∃ p q : Par R, p.vary = b ∧ q.vary = b ∧ (∃ b0, Dict.get (view w.gui.params.heap w.gui.initial) k = some { q with vary := b0 }) ∧
      curView (setVary w.gui k b).params = Dict.set (curView w.gui.params) k p ∧
      view (setVary w.gui k b).params.heap (setVary w.gui k b).initial = Dict.set (view w.gui.params.heap w.gui.initial) k q ∧
      (setVary w.gui k b).initial = w.gui.initial ∧ (setVary w.gui k b).last = w.gui.last ∧
      ∃ h', (setVary w.gui k b).params = { w.gui.params with heap := h' } := by
  obtain ⟨a, ha⟩ := get_key w.gui.initial k (h.good.initK.symm ▸ hk)
  obtain ⟨c, hc⟩ := get_key w.gui.params.cur k (h.good.curK.symm ▸ hk)
  have hac : a ≠ c := by
    rintro rfl
    exact h.kept.cur a (get_addr _ _ _ ha) (get_addr _ _ _ hc)
  set H := w.gui.params.heap with hH
  have e : setVary w.gui k b = { w.gui with params := { w.gui.params with
      heap := Function.update (Function.update H a { H a with vary := b }) c { H c with vary := b } } } := by
    unfold setVary
    rw [ha]
    simp only [hc]
    rw [Function.update_of_ne hac.symm]
  refine ⟨{ H c with vary := b }, { H a with vary := b }, rfl, rfl, ⟨(H a).vary, ?_⟩, ?_, ?_, by rw [e], by rw [e], _, by rw [e]⟩
  · rw [view_get, ha]; rfl
  · rw [e]
    show view (Function.update (Function.update H a { H a with vary := b }) c { H c with vary := b }) w.gui.params.cur = _
    have hx : ∀ x ∈ addrs w.gui.params.cur, x ≠ a := by
      rintro x hx rfl
      exact h.kept.cur x (get_addr _ _ _ ha) hx
    rw [Function.update_comm hac, view_congr (Function.update H c { H c with vary := b }) _ _ fun x hm => Function.update_of_ne (hx x hm) _ _]
    exact view_write H _ h.good.curN k c _ hc
  · rw [e]
    show view (Function.update (Function.update H a { H a with vary := b }) c { H c with vary := b }) w.gui.initial = _
    have hx : ∀ x ∈ addrs w.gui.initial, x ≠ c := by
      rintro x hx rfl
      exact h.kept.cur x hx (get_addr _ _ _ hc)
    rw [view_congr (Function.update H a { H a with vary := b }) _ _ fun x hm => Function.update_of_ne (hx x hm) _ _]
    exact view_write H _ h.nodup k a _ ha

lemma good_heap {K : List String} {g : Gui V} (h : Good K g) (heap : ℕ → V) : Good K { g with params := { g.params with heap := heap } } :=
  ⟨⟨h.inv.curLt, h.inv.histLt, h.inv.curHist, h.inv.pair, h.inv.len, h.inv.max1⟩, h.nodup, h.curK, h.curN, h.histK, h.last, h.initK, h.initLt⟩

lemma set_values {v : Dict (Par R)} (k : String) (q : Par R) (b0 : Bool) (h : Dict.get v k = some { q with vary := b0 }) :
    (Dict.set v k q).map (fun p => (p.1, p.2.value)) = v.map fun p => (p.1, p.2.value) := by
  induction v with
  | nil => cases h
  | cons p v ih =>
    by_cases hp : p.1 = k
    · simp only [Dict.get, hp, if_true, Option.some.injEq] at h
      simp [Dict.set, hp, h]
    · simp only [Dict.get, hp, if_false] at h
      simp [Dict.set, hp, ih h]

lemma keeps_check {K : List String} {w0 : List (String × R)} {w : Boxes R} (h : Keeps K w0 w) (k : String) (b : Bool) :
    Keeps K w0 (w.act (.check k b)) ∧ (CurOk w → CurOk (w.act (.check k b))) := by
  simp only [Boxes.act]
  cases hg : Dict.get w.boxes k with
  | none => exact ⟨h, id⟩
  | some c =>
    simp only
    by_cases hc : c = b
    · rw [if_pos hc]; exact ⟨h, id⟩
    rw [if_neg hc]
    have hk : k ∈ K := by
      rw [← h.boxes]
      exact List.mem_map_of_mem (f := Prod.fst) (mem_of_get _ _ _ hg)
    obtain ⟨p, q, hp, hq, ⟨b0, hb0⟩, s1, s2, s3, s4, heap, s5⟩ := setVary_spec h k hk b
    have e : setVary w.gui k b = { w.gui with params := { w.gui.params with heap := heap }, fitted := (setVary w.gui k b).fitted } := by
      generalize setVary w.gui k b = g at s3 s4 s5
      obtain ⟨gp, gf, gl, gi⟩ := g
      simp only at s3 s4 s5
      subst s3 s4 s5
      rfl
    have hgood : Good K (setVary w.gui k b) := by
      have := good_heap h.good heap
      rw [e]
      exact ⟨this.inv, this.nodup, this.curK, this.curN, this.histK, this.last, this.initK, this.initLt⟩
    refine ⟨⟨hgood, ⟨rfl, ?_, ?_, ?_, ?_⟩, by rw [s3]; exact h.nodup, ?_, ?_, ?_⟩, fun hcur => ?_⟩
    · rw [e]; exact h.kept.lt
    · rw [e]; exact h.kept.cur
    · rw [e]; exact h.kept.hist
    · rw [e]; exact h.kept.last
    · exact (keys_set _ _ _ (h.boxes.symm ▸ hk)).trans h.boxes
    · show Agree (Dict.set w.boxes k b) (view (setVary w.gui k b).params.heap (setVary w.gui k b).initial)
      rw [s2, ← hq]
      exact agree_check h.init ((view_keys _ _).trans h.good.initK ▸ h.good.nodup) k q
    · show (view (setVary w.gui k b).params.heap (setVary w.gui k b).initial).map _ = w0
      rw [s2, set_values k q b0 hb0]
      exact h.start
    · show Agree (Dict.set w.boxes k b) (curView (setVary w.gui k b).params)
      rw [s1, ← hp]
      exact agree_check hcur ((view_keys _ _).trans h.good.curK ▸ h.good.nodup) k p

/-- An action that leaves the boxes alone and keeps the starting parameters. -/
lemma keeps_gui {K : List String} {w0 : List (String × R)} {w : Boxes R} (h : Keeps K w0 w) (g : Gui (Par R)) (hg : Good K g)
    (hk : Kept (view w.gui.params.heap w.gui.initial) g) (hi : g.initial = w.gui.initial) : Keeps K w0 { w with gui := g } := by
  have e := hk.value
  refine ⟨hg, ?_, by rw [hi]; exact h.nodup, h.boxes, ?_, ?_⟩
  · show Kept (view g.params.heap g.initial) g
    rw [e]; exact hk
  · show Agree w.boxes (view g.params.heap g.initial)
    rw [e]; exact h.init
  · show (view g.params.heap g.initial).map _ = w0
    rw [e]; exact h.start

lemma typeValue_eq {K : List String} {w0 : List (String × R)} {w : Boxes R} (h : Keeps K w0 w) (k : String) (x : R) (a : ℕ)
    (ha : Dict.get w.gui.params.cur k = some a) : typeValue w.gui k x = w.gui.edit k { w.gui.params.heap a with value := x } := by
  unfold typeValue
  rw [ha]

lemma edit_initial (g : Gui V) (k : String) (v : V) : (g.edit k v).initial = g.initial ∧ (g.edit k v).last = g.last := ⟨rfl, rfl⟩

lemma keeps_type {K : List String} {w0 : List (String × R)} {w : Boxes R} (h : Keeps K w0 w) (k : String) (x : R) :
    Keeps K w0 (w.act (.type k x)) ∧ (CurOk w → CurOk (w.act (.type k x))) ∧ (CurOk w → OldOk w → OldOk (w.act (.type k x))) := by
  have hinv := h.good.inv
  obtain ⟨m1, m2, m3, m4, m5, m6⟩ := commit_inv w.gui.params hinv
  have hlast : ∀ l, w.gui.last = some l → view w.gui.params.commit.heap l = view w.gui.params.heap l := fun l hl => by
    refine view_congr _ _ _ fun a ha => m5 a ?_
    rcases h.good.last l hl with rfl | ⟨-, -, l3⟩
    · cases ha
    · exact (l3 a ha).1
  have hhist : CurOk w → OldOk w → ∀ e ∈ histView w.gui.params.commit, Agree w.boxes e := by
    intro hc ho e he
    rw [m2] at he
    have := List.mem_of_mem_drop he
    rcases List.mem_append.1 this with he | he
    · exact ho.1 e he
    · rw [List.mem_singleton.1 he]; exact hc
  simp only [Boxes.act]
  cases ha : Dict.get w.gui.params.cur k with
  | none =>
    have e : typeValue w.gui k x = { w.gui with params := w.gui.params.commit } := by simp [typeValue, ha]
    rw [e]
    refine ⟨keeps_gui h _ (good_commit h.good) h.kept.commit rfl, fun hc => ?_, fun hc ho => ⟨hhist hc ho, fun l hl => ?_⟩⟩
    · show Agree w.boxes (curView w.gui.params.commit)
      rw [m3]; exact hc
    · show Agree w.boxes (view w.gui.params.commit.heap l)
      rw [hlast l hl]; exact ho.2 l hl
  | some a =>
    rw [typeValue_eq h k x a ha]
    have hkK : k ∈ K := by
      rw [← h.good.curK]
      exact List.mem_map_of_mem (f := Prod.fst) (mem_of_get _ _ _ ha)
    refine ⟨keeps_gui h _ (good_edit h.good k _) (h.kept.edit k _) rfl, fun hc => ?_, fun hc ho => ⟨?_, fun l hl => ?_⟩⟩
    · show Agree w.boxes (curView (w.gui.edit k { w.gui.params.heap a with value := x }).params)
      rw [values_edit h.good k _ hkK]
      refine agree_set hc ((view_keys _ _).trans h.good.curK ▸ h.good.nodup) k _ ?_
      have hm : (k, w.gui.params.heap a) ∈ curView w.gui.params := List.mem_map_of_mem (f := fun p : String × ℕ => (p.1, w.gui.params.heap p.2)) (mem_of_get _ _ _ ha)
      exact hc _ hm
    · show ∀ e ∈ histView (w.gui.params.commit.setValue k _).2, Agree w.boxes e
      rw [(setValue_inv w.gui.params.commit m1 k _).2]
      exact hhist hc ho
    · show Agree w.boxes (view (w.gui.params.commit.setValue k _).2.heap l)
      have hl' : w.gui.last = some l := hl
      have e : view (w.gui.params.commit.setValue k { w.gui.params.heap a with value := x }).2.heap l = view w.gui.params.commit.heap l := by
        unfold State.setValue
        have : Dict.get w.gui.params.commit.cur k = some a := ha
        rw [this]
        refine view_congr _ _ _ fun b hb => Function.update_of_ne ?_ _ _
        rintro rfl
        rcases h.good.last l hl' with rfl | ⟨-, -, l3⟩
        · cases hb
        · exact (l3 b hb).2.1 (get_addr _ _ _ ha)
      rw [e, hlast l hl']
      exact ho.2 l hl'

lemma fit_frame (g : Gui V) (h : Inv g.params) (f : String → V) : ∀ a < g.params.next, (g.fit f).params.heap a = g.params.heap a := by
  intro a ha
  obtain ⟨i1, i2, i3, i4, i5⟩ := fit_state g h f
  obtain ⟨c1, c2, c3, c4, c5⟩ := copy_spec g.params.cur g.params.heap g.params.next h.curLt
  obtain ⟨n1, n2⟩ := copy_nodup g.params.cur g.params.heap g.params.next
  set c := copy g.params.heap g.params.next g.params.cur with hc
  set s1 : State V := { g.params with heap := c.1.foldl (fun h p => Function.update h p.2 (f p.1)) c.2.1, next := c.2.2 } with hs1
  obtain ⟨k1, k2, k3, k4, k5, k6⟩ := commit_inv s1 i1
  obtain ⟨m1, m2, m3, m4, m5, m6⟩ := commit_inv s1.commit k1
  have hn : a < s1.next := lt_of_lt_of_le ha c2
  show s1.commit.commit.heap a = _
  rw [m5 a (lt_of_lt_of_le hn k4), k5 a hn]
  show (c.1.foldl (fun h p => Function.update h p.2 (f p.1)) c.2.1) a = _
  rw [(fill_heap c.1 f c.2.1 n1).2 a fun hb => absurd ha (not_lt.2 (n2 a hb))]
  exact c3 a ha

/-- The parameters after a fit. -/
lemma fit_values {K : List String} {w0 : List (String × R)} {w : Boxes R} (h : Keeps K w0 w) (x : String → R) :
    curView (fitVarying w.gui x).params = (curView w.gui.params).map fun p => (p.1, if p.2.vary then { p.2 with value := x p.1 } else p.2) := by
  have hn : (Dict.keys w.gui.params.cur).Nodup := h.good.curK.symm ▸ h.good.nodup
  rw [fitVarying, (fit_spec w.gui h.good.inv hn _).2.1]
  unfold curView Hist.view Dict.keys
  rw [List.map_map, List.map_map]
  refine List.map_congr_left fun p hp => ?_
  simp [get_mem _ hn p hp]

lemma keeps_fit {K : List String} {w0 : List (String × R)} {w : Boxes R} (h : Keeps K w0 w) (x : String → R) :
    Keeps K w0 (w.act (.fit x)) ∧ (CurOk w → CurOk (w.act (.fit x))) ∧ (CurOk w → OldOk w → OldOk (w.act (.fit x))) := by
  have hn : (Dict.keys w.gui.params.cur).Nodup := h.good.curK.symm ▸ h.good.nodup
  refine ⟨keeps_gui h _ (good_fit h.good _) (h.kept.fit _) rfl, fun hc => ?_, fun hc ho => ⟨fun e he => ?_, fun l hl => ?_⟩⟩
  · show Agree w.boxes (curView (fitVarying w.gui x).params)
    rw [fit_values h]
    intro p hp
    obtain ⟨q, hq, rfl⟩ := List.mem_map.1 hp
    have := hc q hq
    simp only
    split_ifs <;> exact this
  · have he' : e ∈ histView (fitVarying w.gui x).params := he
    rw [fitVarying, (fit_spec w.gui h.good.inv hn _).2.2.1] at he'
    rcases List.mem_append.1 (List.mem_of_mem_drop he') with he | he
    · exact ho.1 e he
    · have : e = curView w.gui.params := by simpa using he
      rw [this]; exact hc
  · have hl' : w.gui.last = some l := hl
    show Agree w.boxes (view (fitVarying w.gui x).params.heap l)
    have e : view (fitVarying w.gui x).params.heap l = view w.gui.params.heap l := by
      refine view_congr _ _ _ fun a ha => fit_frame w.gui h.good.inv _ a ?_
      rcases h.good.last l hl' with rfl | ⟨-, -, l3⟩
      · cases ha
      · exact (l3 a ha).1
    rw [e]; exact ho.2 l hl'

lemma keeps_undo {K : List String} {w0 : List (String × R)} {w : Boxes R} (h : Keeps K w0 w) :
    Keeps K w0 (w.act .undo) ∧ (CurOk w → OldOk w → CurOk (w.act .undo) ∧ OldOk (w.act .undo)) ∧
    (CurOk w → ∀ l, w.gui.undo.last = some l → Agree w.boxes (view w.gui.undo.params.heap l)) := by
  refine ⟨keeps_gui h _ (good_undo h.good) h.kept.undo rfl, ?_⟩
  cases hl : w.gui.params.hist.getLast? with
  | none =>
    have hp : w.gui.params.pop = (none, w.gui.params) := by simp [State.pop, hl]
    have e : w.gui.undo = { w.gui with last := none } := by simp [Gui.undo, hp]
    refine ⟨fun hc ho => ?_, fun hc l hl => ?_⟩
    · simp only [Boxes.act, e]
      exact ⟨hc, ho.1, fun l hl => by simp at hl⟩
    · rw [e] at hl; simp at hl
  | some e =>
    obtain ⟨d, p1, p2, p3, p4, -⟩ := pop_spec w.gui.params h.good.inv e hl
    have hlast : CurOk w → ∀ l, w.gui.undo.last = some l → Agree w.boxes (view w.gui.undo.params.heap l) := by
      intro hc l hl
      have h1 : w.gui.params.pop.1 = some l := hl
      obtain rfl : d = l := Option.some.inj (p1.symm.trans h1)
      show Agree w.boxes (view w.gui.params.pop.2.heap d)
      rw [p2]; exact hc
    refine ⟨fun hc ho => ⟨?_, ?_, hlast hc⟩, hlast⟩
    · show Agree w.boxes (curView w.gui.params.pop.2)
      have he : e ∈ w.gui.params.hist := List.mem_of_getLast? hl
      rw [p3, merge_same]
      · exact ho.1 _ (List.mem_map_of_mem he)
      · rw [curView, view_keys, view_keys, h.good.curK, (h.good.histK e he).1]
      · rw [curView, view_keys, h.good.curK]; exact h.good.nodup
    · show ∀ e ∈ histView w.gui.params.pop.2, Agree w.boxes e
      rw [p4]
      exact fun x hx => ho.1 x (List.mem_of_mem_dropLast hx)

lemma keeps_redo {K : List String} {w0 : List (String × R)} {w : Boxes R} (h : Keeps K w0 w) :
    Keeps K w0 (w.act .redo) ∧ (CurOk w → OldOk w → CurOk (w.act .redo) ∧ OldOk (w.act .redo)) := by
  refine ⟨keeps_gui h _ (good_redo h.good) h.kept.redo (by unfold Gui.redo; split <;> rfl), fun hc ho => ?_⟩
  obtain ⟨m1, m2, m3, m4, m5, m6⟩ := commit_inv w.gui.params h.good.inv
  cases hl : w.gui.last with
  | none =>
    have e : w.gui.redo = w.gui := by simp [Gui.redo, hl]
    simp only [Boxes.act, e]
    exact ⟨hc, ho⟩
  | some l =>
    have e : w.gui.redo = { w.gui with params := w.gui.params.updateParams l, last := none } := by simp [Gui.redo, hl]
    simp only [Boxes.act, e]
    have hv : view w.gui.params.commit.heap l = view w.gui.params.heap l := by
      refine view_congr _ _ _ fun a ha => m5 a ?_
      rcases h.good.last l hl with rfl | ⟨-, -, l3⟩
      · cases ha
      · exact (l3 a ha).1
    refine ⟨?_, ?_, fun l hl => by simp at hl⟩
    · show Agree w.boxes (view w.gui.params.commit.heap (merge w.gui.params.commit.cur l))
      rw [view_merge, hv]
      have m3' : view w.gui.params.commit.heap w.gui.params.commit.cur = curView w.gui.params := m3
      rw [m3']
      rcases h.good.last l hl with rfl | ⟨l1, -, -⟩
      · exact hc
      · rw [merge_same]
        · exact ho.2 l hl
        · rw [curView, view_keys, view_keys, h.good.curK, l1]
        · rw [curView, view_keys, h.good.curK]; exact h.good.nodup
    · show ∀ e ∈ histView w.gui.params.commit, Agree w.boxes e
      rw [m2]
      intro e he
      rcases List.mem_append.1 (List.mem_of_mem_drop he) with he | he
      · exact ho.1 e he
      · rw [List.mem_singleton.1 he]; exact hc

lemma keeps_reset {K : List String} {w0 : List (String × R)} {w : Boxes R} (h : Keeps K w0 w) :
    Keeps K w0 (w.act .setInitial) ∧ CurOk (w.act .setInitial) ∧ (CurOk w → OldOk (w.act .setInitial)) ∧
    curView w.gui.reset.params = view w.gui.params.heap w.gui.initial := by
  obtain ⟨r1, r2⟩ := h.kept.reset
  refine ⟨keeps_gui h _ (good_reset h.good) r1 rfl, ?_, fun hc => ⟨?_, fun l hl => ?_⟩, r2⟩
  · show Agree w.boxes (curView w.gui.reset.params)
    rw [r2]; exact h.init
  · intro e he
    have : histView w.gui.reset.params = [] := rfl
    have he' : e ∈ histView w.gui.reset.params := he
    rw [this] at he'
    cases he'
  · have hl' : w.gui.undo.last = some l := hl
    have hu := (keeps_undo h).2.2 hc l hl'
    have hg := good_undo h.good
    show Agree w.boxes (view (copy w.gui.undo.params.heap w.gui.undo.params.next w.gui.initial).2.1 l)
    rw [view_congr w.gui.undo.params.heap _ _ fun a ha => (copy_frame _ _ _).2 a ?_]
    · exact hu
    · rcases hg.last l hl' with rfl | ⟨-, -, l3⟩
      · cases ha
      · exact (l3 a ha).1

lemma keeps_act {K : List String} {w0 : List (String × R)} {w : Boxes R} (h : Keeps K w0 w) (a : Action R) : Keeps K w0 (w.act a) := by
  cases a with
  | check k b => exact (keeps_check h k b).1
  | type k x => exact (keeps_type h k x).1
  | fit x => exact (keeps_fit h x).1
  | undo => exact (keeps_undo h).1
  | redo => exact (keeps_redo h).1
  | setInitial => exact (keeps_reset h).1

/-- Parameters as the user makes them: names and objects different, nothing shared with the history. -/
structure New (s : State (Par R)) : Prop where
  inv : Inv s
  keys : (Dict.keys s.cur).Nodup
  objects : (addrs s.cur).Nodup
  hist : s.hist = []

lemma keeps_init (s : State (Par R)) (hs : New s) :
    Keeps (Dict.keys s.cur) ((curView s).map fun p => (p.1, p.2.value)) (Boxes.init s) ∧ CurOk (Boxes.init s) ∧ OldOk (Boxes.init s) := by
  obtain ⟨g1, g2⟩ := good_init s hs.inv rfl hs.keys hs.objects (by simp [hs.hist]) none (by simp)
  have g1' : Good (Dict.keys s.cur) (Gui.init s) := g1
  have hk := Kept.init s hs.inv.curLt hs.inv.histLt
  have hself : Agree (Boxes.init s).boxes (curView s) := by
    intro p hp
    have hn : (Dict.keys (Boxes.init s).boxes).Nodup := by
      have : Dict.keys (Boxes.init s).boxes = Dict.keys s.cur := by
        simp [Boxes.init, Dict.keys, Hist.view, Function.comp_def]
      rw [this]; exact hs.keys
    exact get_mem _ hn (p.1, p.2.vary) (List.mem_map_of_mem (f := fun p : String × Par R => (p.1, p.2.vary)) hp)
  refine ⟨⟨g1', ?_, ?_, ?_, ?_, ?_⟩, ?_, ?_, ?_⟩
  · show Kept (view (Gui.init s).params.heap (Gui.init s).initial) (Gui.init s)
    rw [hk.value]; exact hk
  · exact (copy_nodup _ _ _).1
  · simp [Boxes.init, Dict.keys, Hist.view, Function.comp_def]
  · show Agree (Boxes.init s).boxes (view (Gui.init s).params.heap (Gui.init s).initial)
    rw [hk.value]; exact hself
  · show (view (Gui.init s).params.heap (Gui.init s).initial).map _ = _
    rw [hk.value]
  · show Agree (Boxes.init s).boxes (curView (Gui.init s).params)
    rw [g2]; exact hself
  · intro e he
    have : histView (Boxes.init s).gui.params = [] := by
      show (Gui.init s).params.hist.map _ = []
      have : (Gui.init s).params.hist = s.hist := rfl
      rw [this, hs.hist]; rfl
    rw [this] at he
    cases he
  · intro l hl
    cases hl

lemma keeps_run {K : List String} {w0 : List (String × R)} (as : List (Action R)) : ∀ w : Boxes R, Keeps K w0 w → Keeps K w0 (as.foldl Boxes.act w) := by
  induction as with
  | nil => exact fun w h => h
  | cons a as ih => exact fun w h => ih _ (keeps_act h a)

lemma careful_run {K : List String} {w0 : List (String × R)} (as : List (Action R)) : ∀ (w : Boxes R) (d : Bool), Keeps K w0 w → CurOk w →
    (d = false → OldOk w) → Careful d as → CurOk (as.foldl Boxes.act w) := by
  induction as with
  | nil => exact fun w d _ hc _ _ => hc
  | cons a as ih =>
    intro w d h hc ho hs
    cases a with
    | check k b => exact ih _ true (keeps_check h k b).1 ((keeps_check h k b).2 hc) (by simp) hs
    | type k x =>
      obtain ⟨k1, k2, k3⟩ := keeps_type h k x
      exact ih _ d k1 (k2 hc) (fun hd => k3 hc (ho hd)) hs
    | fit x =>
      obtain ⟨k1, k2, k3⟩ := keeps_fit h x
      exact ih _ d k1 (k2 hc) (fun hd => k3 hc (ho hd)) hs
    | undo =>
      obtain ⟨k1, k2, -⟩ := keeps_undo h
      obtain ⟨o1, o2⟩ := k2 hc (ho hs.1)
      exact ih _ d k1 o1 (fun _ => o2) hs.2
    | redo =>
      obtain ⟨k1, k2⟩ := keeps_redo h
      obtain ⟨o1, o2⟩ := k2 hc (ho hs.1)
      exact ih _ d k1 o1 (fun _ => o2) hs.2
    | setInitial =>
      obtain ⟨k1, k2, k3, -⟩ := keeps_reset h
      exact ih _ false k1 k2 (fun _ => k3 hc) hs

/-- **C149.** After Set initial every check box tells whether its parameter is varied, whatever was done before, Undo and Redo included,
and the values are those at the start. -/
theorem C149_set_initial (s : State (Par R)) (hs : New s) (as : List (Action R)) :
    let w := (as.foldl Boxes.act (Boxes.init s)).act .setInitial
    Agree w.boxes (curView w.gui.params) ∧
      (curView w.gui.params).map (fun p => (p.1, p.2.value)) = (curView s).map fun p => (p.1, p.2.value) := by
  have h := keeps_run as _ (keeps_init s hs).1
  obtain ⟨-, k2, -, k4⟩ := keeps_reset h
  refine ⟨k2, ?_⟩
  show (curView (as.foldl Boxes.act (Boxes.init s)).gui.reset.params).map _ = _
  rw [k4]
  exact h.start

/-- **C149.** The check boxes tell which parameters are varied, unless Undo or Redo is pressed after a box was changed. Missing: those
two buttons, see `C149_undo_refuted` and `C149_redo_refuted`. -/
theorem C149_agree_partial (s : State (Par R)) (hs : New s) (as : List (Action R)) (ha : Careful false as) :
    let w := as.foldl Boxes.act (Boxes.init s)
    Agree w.boxes (curView w.gui.params) := by
  obtain ⟨k1, k2, k3⟩ := keeps_init s hs
  exact careful_run as _ false k1 k2 (fun _ => k3) ha

/-- **C149.** Under the same condition the fit button leaves the parameters alone whose box is not ticked, and sets the others to the
result of the fit. -/
theorem C149_fit_partial (s : State (Par R)) (hs : New s) (as : List (Action R)) (ha : Careful false as) (x : String → R) :
    let w := as.foldl Boxes.act (Boxes.init s)
    (curView (w.act (.fit x)).gui.params).map (fun p => (p.1, p.2.value)) =
      (curView w.gui.params).map fun p => (p.1, if Dict.get w.boxes p.1 = some true then x p.1 else p.2.value) := by
  intro w
  have hw : Agree w.boxes (curView w.gui.params) := C149_agree_partial s hs as ha
  have h := keeps_run as _ (keeps_init s hs).1
  show (curView (fitVarying w.gui x).params).map _ = _
  rw [fit_values h, List.map_map]
  refine List.map_congr_left fun p hp => ?_
  have := hw p hp
  simp only [Function.comp_apply]
  rw [this]
  cases p.2.vary <;> simp

/-! ## Witnesses -/

/-- Thickness and index, both varied. -/
def twoParams : State (Par ℕ) := ((State.init (fun _ => ⟨0, true⟩) 0).add "d" ⟨20, true⟩).add "n" ⟨3, true⟩

lemma two_new : New twoParams := by
  refine ⟨⟨?_, ?_, ?_, ?_, ?_, ?_⟩, ?_, ?_, ?_⟩ <;> simp [twoParams, State.add, State.init, Dict.set, addrs, Dict.keys]

/-- Edit, Undo, Redo, then untick a box and fit: allowed, and "d" keeps its value. -/
example : Careful (R := ℕ) false [.type "d" 25, .undo, .redo, .check "d" false, .fit fun _ => 7] ∧
    curView ([Action.type "d" 25, .undo, .redo, .check "d" false, .fit fun _ => 7].foldl Boxes.act (Boxes.init twoParams)).gui.params =
      [("d", ⟨25, false⟩), ("n", ⟨7, true⟩)] := by
  refine ⟨by simp [Careful], by decide⟩

/-- After Undo past a change of a box, Set initial repairs the flags. -/
example : curView ([Action.type "d" 25, .check "d" false, .undo, .setInitial].foldl Boxes.act (Boxes.init twoParams)).gui.params =
    [("d", ⟨20, false⟩), ("n", ⟨3, true⟩)] := by decide

/-- **C149.** Type a value, untick the box of the parameter, press Undo: the box stays unticked, yet the parameter is varied again and the
next fit changes it. -/
theorem C149_undo_refuted : ∃ s : State (Par ℕ), New s ∧
    let w := [Action.type "d" 25, .check "d" false, .undo].foldl Boxes.act (Boxes.init s)
    Dict.get w.boxes "d" = some false ∧ Dict.get (curView w.gui.params) "d" = some ⟨20, true⟩ ∧
      Dict.get (curView (w.act (.fit fun _ => 7)).gui.params) "d" = some ⟨7, true⟩ :=
  ⟨twoParams, two_new, by decide⟩

/-- **C149.** Type a value, press Undo, untick the box, press Redo: the same happens. -/
theorem C149_redo_refuted : ∃ s : State (Par ℕ), New s ∧
    let w := [Action.type "d" 25, .undo, .check "d" false, .redo].foldl Boxes.act (Boxes.init s)
    Dict.get w.boxes "d" = some false ∧ Dict.get (curView w.gui.params) "d" = some ⟨25, true⟩ ∧
      Dict.get (curView (w.act (.fit fun _ => 7)).gui.params) "d" = some ⟨7, true⟩ :=
  ⟨twoParams, two_new, by decide⟩

end PyElli.Vary
