import Verif.Model.Heap
import Mathlib.Tactic

/-! # Evaluation takes a snapshot (C45) -/

namespace PyElli

open Heap

variable {V : Type}

/-- A reference points into the memory in use. -/
def Valid (m : Mem V) : Val V → Prop
  | .imm _ => True
  | .ref a => a < m.next

/-- Memory as it can arise: no dangling references. -/
def WellFormed (m : Mem V) : Prop := ∀ a < m.next, ∀ f ∈ m.obj a, Valid m f.2

/-- A value does not point into the block `[lo, hi)`. -/
def Avoids (lo hi : ℕ) : Val V → Prop
  | .imm _ => True
  | .ref a => a < lo ∨ hi ≤ a

lemma view_copy (m : Mem V) (hw : WellFormed m) (a : ℕ) (k : ℕ) :
    ∀ v, Valid m v → view k (deepcopy m a).1 (v.shift m.next) = view k m v := by
  induction k with
  | zero => intro v _; rfl
  | succ k ih =>
    intro v hv
    cases v with
    | imm v => rfl
    | ref b =>
      have hb : b < m.next := hv
      simp only [view, Val.shift]
      congr 1
      have h1 : (deepcopy m a).1.obj (b + m.next) = (m.obj b).map fun f => (f.1, f.2.shift m.next) := by
        simp [deepcopy]
      rw [h1, List.map_map]
      apply List.map_congr_left
      intro f hf
      simp only [Function.comp]
      rw [ih f.2 (hw b hb f hf)]

lemma view_old (m : Mem V) (hw : WellFormed m) (a : ℕ) (k : ℕ) :
    ∀ v, Valid m v → view k (deepcopy m a).1 v = view k m v := by
  induction k with
  | zero => intro v _; rfl
  | succ k ih =>
    intro v hv
    cases v with
    | imm v => rfl
    | ref b =>
      have hb : b < m.next := hv
      simp only [view]
      congr 1
      have h1 : (deepcopy m a).1.obj b = m.obj b := by simp [deepcopy, hb]
      rw [h1]
      apply List.map_congr_left
      intro f hf
      rw [ih f.2 (hw b hb f hf)]

/-- C45, second half: evaluating an experiment changes nothing that the program can see. -/
theorem C45_evaluate_pure {Out : Type} (solve : (ℕ → View V) → Out) (m : Mem V) (hw : WellFormed m) (experiment : ℕ)
    (v : Val V) (hv : Valid m v) (k : ℕ) : view k (evaluate solve m experiment).1 v = view k m v :=
  view_old m hw experiment k v hv

/-- The copied block is closed, unchanged, and unreachable for the client. -/
structure Hidden (lo hi : ℕ) (orig : Mem V) (s : Env V × Mem V) : Prop where
  bound : hi ≤ s.2.next
  same : ∀ a, lo ≤ a → a < hi → s.2.obj a = orig.obj a
  env : ∀ x, Avoids lo hi (s.1 x)
  objs : ∀ a, (a < lo ∨ hi ≤ a) → a < s.2.next → ∀ f ∈ s.2.obj a, Avoids lo hi f.2

/-- The client's variables never point to unused memory. -/
structure Live (s : Env V × Mem V) : Prop where
  env : ∀ x, Valid s.2 (s.1 x)
  wf : WellFormed s.2

lemma Valid.mono {m m' : Mem V} (h : m.next ≤ m'.next) {v : Val V} (hv : Valid m v) : Valid m' v := by
  cases v with
  | imm v => trivial
  | ref a => exact lt_of_lt_of_le hv h

lemma mem_setField {o : Obj V} {f : String} {v : Val V} {p} (h : p ∈ setField o f v) : p.2 = v ∨ p ∈ o := by
  simp only [setField, List.mem_cons, List.mem_filter] at h
  rcases h with h | h
  · left; rw [h]
  · right; exact h.1

lemma getField_mem {o : Obj V} {f : String} {v : Val V} (h : getField o f = some v) : ∃ p ∈ o, p.2 = v := by
  unfold getField at h
  cases hf : o.find? (fun p => p.1 = f) with
  | none => rw [hf] at h; simp at h
  | some p =>
    rw [hf] at h
    simp only [Option.map_some, Option.some.injEq] at h
    exact ⟨p, List.mem_of_find?_eq_some hf, h⟩

lemma live_step (s : Env V × Mem V) (h : Live s) (c : Stmt V) : Live (step s c) := by
  obtain ⟨e, m⟩ := s
  obtain ⟨h1, h2⟩ := h
  have hset : ∀ (x : String) (v : Val V) (m' : Mem V), Valid m' v → m.next ≤ m'.next →
      ∀ y, Valid m' (e.set x v y) := by
    intro x v m' hv hm y
    unfold Env.set
    split_ifs
    · exact hv
    · exact (h1 y).mono hm
  cases c with
  | const x v => exact ⟨hset x (.imm v) m trivial le_rfl, h2⟩
  | move x y => exact ⟨hset x (e y) m (h1 y) le_rfl, h2⟩
  | new x =>
    refine ⟨hset x (.ref m.next) _ (Nat.lt_succ_self _) (Nat.le_succ _), ?_⟩
    intro a ha f hf
    simp only [step] at ha hf
    by_cases hx : a = m.next
    · subst hx
      simp at hf
    · rw [Function.update_of_ne hx] at hf
      exact (h2 a (by change a < m.next + 1 at ha; change a < m.next; omega) f hf).mono (Nat.le_succ _)
  | load x y f =>
    simp only [step]
    cases hy : e y with
    | imm v => exact ⟨h1, h2⟩
    | ref a =>
      simp only
      cases hg : getField (m.obj a) f with
      | none => exact ⟨h1, h2⟩
      | some v =>
        obtain ⟨p, hp, rfl⟩ := getField_mem hg
        have := h1 y
        simp only [hy] at this
        exact ⟨hset x p.2 m (h2 a this p hp) le_rfl, h2⟩
  | store x f y =>
    simp only [step]
    cases hx : e x with
    | imm v => exact ⟨h1, h2⟩
    | ref a =>
      refine ⟨fun z => (h1 z).mono le_rfl, ?_⟩
      intro b hb g hg
      by_cases hab : b = a
      · subst hab
        simp only [Function.update_self] at hg
        rcases mem_setField hg with h | h
        · rw [h]; exact (h1 y).mono le_rfl
        · exact (h2 b hb g h).mono le_rfl
      · simp only [Function.update_of_ne hab] at hg
        exact (h2 b hb g hg).mono le_rfl
  | evaluateAgain x =>
    simp only [step]
    cases hx : e x with
    | imm v => exact ⟨h1, h2⟩
    | ref a =>
      refine ⟨fun z => (h1 z).mono (Nat.le_add_right _ _), ?_⟩
      intro b hb g hg
      simp only [deepcopy] at hb hg ⊢
      by_cases hlt : b < m.next
      · rw [if_pos hlt] at hg
        exact (h2 b hlt g hg).mono (Nat.le_add_right _ _)
      · rw [if_neg hlt] at hg
        obtain ⟨p, hp, rfl⟩ := List.mem_map.1 hg
        have hv := h2 (b - m.next) (by change b - m.next < m.next; omega) p hp
        cases hp2 : p.2 with
        | imm v => simp [Val.shift, Valid]
        | ref c =>
          rw [hp2] at hv
          simp only [Val.shift, Valid] at hv ⊢
          omega

lemma hidden_step (lo hi : ℕ) (orig : Mem V) (s : Env V × Mem V) (hl : Live s) (h : Hidden lo hi orig s) (c : Stmt V) :
    Hidden lo hi orig (step s c) := by
  obtain ⟨e, m⟩ := s
  obtain ⟨h0, h1, h2, h3⟩ := h
  simp only at h0 h1 h2 h3
  have hset : ∀ (x : String) (v : Val V), Avoids lo hi v → ∀ y, Avoids lo hi (e.set x v y) := by
    intro x v hv y
    unfold Env.set
    split_ifs
    · exact hv
    · exact h2 y
  cases c with
  | const x v => exact ⟨h0, h1, hset x (.imm v) trivial, h3⟩
  | move x y => exact ⟨h0, h1, hset x (e y) (h2 y), h3⟩
  | new x =>
    refine ⟨Nat.le_succ_of_le h0, ?_, hset x (.ref m.next) (Or.inr h0), ?_⟩
    · intro a ha1 ha2
      simp only [step]
      rw [Function.update_of_ne (by omega)]
      exact h1 a ha1 ha2
    · intro a ha1 ha2 f hf
      simp only [step] at ha2 hf
      by_cases hx : a = m.next
      · subst hx; simp at hf
      · rw [Function.update_of_ne hx] at hf
        exact h3 a ha1 (by change a < m.next + 1 at ha2; omega) f hf
  | load x y f =>
    simp only [step]
    cases hy : e y with
    | imm v => exact ⟨h0, h1, h2, h3⟩
    | ref a =>
      simp only
      cases hg : getField (m.obj a) f with
      | none => exact ⟨h0, h1, h2, h3⟩
      | some v =>
        obtain ⟨p, hp, rfl⟩ := getField_mem hg
        have hav := h2 y
        rw [hy] at hav
        have hval := hl.env y
        simp only [hy] at hval
        exact ⟨h0, h1, hset x p.2 (h3 a hav hval p hp), h3⟩
  | store x f y =>
    simp only [step]
    cases hx : e x with
    | imm v => exact ⟨h0, h1, h2, h3⟩
    | ref a =>
      have hav := h2 x
      rw [hx] at hav
      simp only [Avoids] at hav
      refine ⟨h0, ?_, h2, ?_⟩
      · intro b hb1 hb2
        simp only
        rw [Function.update_of_ne (by omega)]
        exact h1 b hb1 hb2
      · intro b hb1 hb2 g hg
        by_cases hab : b = a
        · subst hab
          simp only [Function.update_self] at hg
          rcases mem_setField hg with h | h
          · rw [h]; exact h2 y
          · exact h3 b hb1 hb2 g h
        · simp only [Function.update_of_ne hab] at hg
          exact h3 b hb1 hb2 g hg
  | evaluateAgain x =>
    simp only [step]
    cases hx : e x with
    | imm v => exact ⟨h0, h1, h2, h3⟩
    | ref a =>
      refine ⟨le_trans h0 (Nat.le_add_right _ _), ?_, h2, ?_⟩
      · intro b hb1 hb2
        simp only [deepcopy]
        rw [if_pos (by omega)]
        exact h1 b hb1 hb2
      · intro b hb1 hb2 g hg
        simp only [deepcopy] at hb2 hg
        by_cases hlt : b < m.next
        · rw [if_pos hlt] at hg
          exact h3 b hb1 hlt g hg
        · rw [if_neg hlt] at hg
          obtain ⟨p, hp, rfl⟩ := List.mem_map.1 hg
          cases hp2 : p.2 with
          | imm v => simp [Val.shift, Avoids]
          | ref c =>
            simp only [Val.shift, Avoids]
            right
            omega

lemma hidden_run (lo hi : ℕ) (orig : Mem V) (p : List (Stmt V)) : ∀ s : Env V × Mem V, Live s → Hidden lo hi orig s →
    Live (run s p) ∧ Hidden lo hi orig (run s p) := by
  induction p with
  | nil => intro s h1 h2; exact ⟨h1, h2⟩
  | cons c p ih =>
    intro s h1 h2
    exact ih (step s c) (live_step s h1 c) (hidden_step lo hi orig s h1 h2 c)

/-- C45: after an evaluation the client may run any program (setters on the experiment, its structure, layers and materials, new objects,
further evaluations): the result's own experiment still looks exactly like the experiment at the time of the evaluation, to every depth. -/
theorem C45_snapshot {Out : Type} (solve : (ℕ → View V) → Out) (e : Env V) (m : Mem V) (h : Live (e, m)) (experiment : ℕ)
    (hexp : experiment < m.next) (p : List (Stmt V)) (k : ℕ) :
    let r := evaluate solve m experiment
    view k (run (e, r.1) p).2 (.ref r.2.experiment) = view k m (.ref experiment) ∧
    r.2.out = solve fun k => view k m (.ref experiment) := by
  intro r
  set lo := m.next with hlo
  set hi := m.next + m.next with hhi
  have hlive : Live (e, r.1) := by
    refine ⟨fun x => (h.env x).mono (Nat.le_add_right _ _), ?_⟩
    intro b hb g hg
    simp only [r, evaluate, deepcopy] at hb hg ⊢
    by_cases hlt : b < m.next
    · rw [if_pos hlt] at hg
      exact (h.wf b hlt g hg).mono (Nat.le_add_right _ _)
    · rw [if_neg hlt] at hg
      obtain ⟨q, hq, rfl⟩ := List.mem_map.1 hg
      have hv := h.wf (b - m.next) (by simp only; omega) q hq
      cases hq2 : q.2 with
      | imm v => simp [Val.shift, Valid]
      | ref c =>
        rw [hq2] at hv
        simp only [Val.shift, Valid] at hv ⊢
        omega
  have hhid : Hidden lo hi r.1 (e, r.1) := by
    refine ⟨le_rfl, fun _ _ _ => rfl, ?_, ?_⟩
    · intro x
      have := h.env x
      change Avoids lo hi (e x)
      cases hx : e x with
      | imm v => trivial
      | ref a =>
        simp only [hx] at this
        exact Or.inl this
    · intro a ha1 ha2 f hf
      have ha : a < m.next := by
        change a < m.next + m.next at ha2
        omega
      simp only [r, evaluate, deepcopy] at hf
      rw [if_pos ha] at hf
      have := h.wf a ha f hf
      cases hf2 : f.2 with
      | imm v => trivial
      | ref c =>
        rw [hf2] at this
        exact Or.inl this
  obtain ⟨-, hh⟩ := hidden_run lo hi r.1 p (e, r.1) hlive hhid
  have closed : ∀ b, lo ≤ b → b < hi → ∀ f ∈ r.1.obj b, ∀ c, f.2 = .ref c → lo ≤ c ∧ c < hi := by
    intro b hb1 hb2 f hf c hc
    simp only [r, evaluate, deepcopy] at hf
    rw [if_neg (by omega)] at hf
    obtain ⟨q, hq, rfl⟩ := List.mem_map.1 hf
    have hv := h.wf (b - m.next) (by simp only; omega) q hq
    cases hq2 : q.2 with
    | imm v => rw [hq2] at hc; simp [Val.shift] at hc
    | ref d =>
      rw [hq2] at hc hv
      simp only [Val.shift, Val.ref.injEq] at hc
      simp only [Valid] at hv
      omega
  have keep : ∀ k b, lo ≤ b → b < hi → view k (run (e, r.1) p).2 (.ref b) = view k r.1 (.ref b) := by
    intro k
    induction k with
    | zero => intro b _ _; rfl
    | succ k ih =>
      intro b hb1 hb2
      simp only [view]
      rw [hh.same b hb1 hb2]
      congr 1
      apply List.map_congr_left
      intro f hf
      cases hf2 : f.2 with
      | imm v => cases k <;> rfl
      | ref c =>
        obtain ⟨c1, c2⟩ := closed b hb1 hb2 f hf c hf2
        rw [ih c c1 c2]
  have copy : ∀ k, view k r.1 (.ref r.2.experiment) = view k m (.ref experiment) := by
    intro k
    have := view_copy m h.wf experiment k (.ref experiment) hexp
    exact this
  constructor
  · rw [keep k _ ?_ ?_, copy]
    · simp only [r, evaluate, deepcopy]; omega
    · simp only [r, evaluate, deepcopy]; omega
  · simp only [r, evaluate]
    congr 1
    funext k
    exact copy k

/-- Memory with an experiment (angle 60) whose structure has one layer of thickness 10. -/
def demoMem : Mem ℕ :=
  ⟨3, fun a => match a with
    | 0 => [("theta_i", .imm 60), ("structure", .ref 1)]
    | 1 => [("layer", .ref 2)]
    | 2 => [("thickness", .imm 10)]
    | _ => []⟩

def demoEnv : Env ℕ := fun x => if x = "exp" then .ref 0 else .imm 0

example : Live (demoEnv, demoMem) ∧ 0 < demoMem.next := by
  refine ⟨⟨?_, ?_⟩, by decide⟩
  · intro x
    unfold demoEnv
    simp only
    split_ifs
    · exact (by decide : 0 < 3)
    · trivial
  · intro a ha f hf
    change a < 3 at ha
    interval_cases a <;> simp [demoMem] at hf
    · rcases hf with rfl | rfl
      · trivial
      · exact (by decide : 1 < 3)
    · subst hf
      exact (by decide : 2 < 3)
    · subst hf
      trivial

end PyElli
