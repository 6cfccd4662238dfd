import Verif.Model.ExpState
import Verif.Props.Polarisation
import Mathlib.Tactic

/-! # C119: an experiment keeps what was set last -/

namespace Spec

open PyElli.Exp

/-- Settings by value, without memory. -/
inductive Setting
  | structure_ (k : ℕ)
  | vector (a : Arr)
  | theta (x : ℝ)
  | lbda (a : Arr)

/-- Effect of a setting: a vector with two entries is a Jones vector, one with four a Stokes vector, anything else is ignored; a wavelength without
dimension becomes a list of one. -/
noncomputable def Setting.apply (v : Seen) : Setting → Seen
  | .structure_ k => { v with structure_ := some k }
  | .theta x => { v with theta := some x }
  | .lbda a => { v with lbda := some (if a.shape = [] then ⟨[1], a.data⟩ else a) }
  | .vector a =>
    match a with
    | ⟨[2], [x, y]⟩ => { v with jones := some a, stokes := some (stokesArr x y) }
    | ⟨[4], [s0, s1, s2, s3]⟩ => { v with stokes := some a, jones := some (jonesArr s0 s1 s2 s3) }
    | _ => v

/-- The two vectors describe the same light: the polarised part of the Stokes vector is a positive multiple of the Stokes parameters of the Jones
vector. (A Jones vector without entries stands for NaN.) -/
def SameLight (jones stokes : Arr) : Prop :=
  ∀ x y, jones.data = [x, y] → ∃ s0 s1 s2 s3 : ℂ, stokes.data = [s0, s1, s2, s3] ∧
    ∃ p : ℝ, 0 < p ∧ s1.re = p * Spec.stokes x y 1 ∧ s2.re = p * Spec.stokes x y 2 ∧ s3.re = p * Spec.stokes x y 3

/-- The structure, angle, wavelengths that a setting sets; `none` if it sets something else. -/
def Setting.structure? : Setting → Option ℕ
  | .structure_ k => some k
  | _ => none

def Setting.theta? : Setting → Option ℝ
  | .theta x => some x
  | _ => none

def Setting.lbda? : Setting → Option Arr
  | .lbda a => some (if a.shape = [] then ⟨[1], a.data⟩ else a)
  | _ => none

/-- The Jones vector that a setting sets: the given one, or that of the Stokes vector. -/
noncomputable def Setting.jones? : Setting → Option Arr
  | .vector ⟨[2], [x, y]⟩ => some ⟨[2], [x, y]⟩
  | .vector ⟨[4], [s0, s1, s2, s3]⟩ => some (jonesArr s0 s1 s2 s3)
  | _ => none

end Spec

namespace PyElli.Exp

open Complex Spec

/-- Content of an argument at the time of the call. -/
def Arg.value (m : Mem) : Arg → Arr
  | .none => ⟨[], []⟩
  | .number x => ⟨[], [x]⟩
  | .list a => a
  | .array k => m.arr k

/-- The setting a statement makes, if it is one. -/
def Op.setting (m : Mem) : Op → Option Setting
  | .setStructure k => some (.structure_ k)
  | .setVector .none => some (.vector ⟨[4], [1, 0, 1, 0]⟩)
  | .setVector a => some (.vector (a.value m))
  | .setTheta x => some (.theta x)
  | .setLbda a => some (.lbda (a.value m))
  | .makeArray _ => none
  | .write _ _ => none

/-- The settings of a program, in order. -/
noncomputable def settings : State → List Op → List Setting
  | _, [] => []
  | s, op :: ops => (op.setting s.mem).toList ++ settings (step s op) ops

/-- The arrays an experiment holds. -/
def Attrs.holds (a : Attrs) (k : ℕ) : Prop := a.jones = some k ∨ a.stokes = some k ∨ a.lbda = some k

def Arg.valid (m : Mem) : Arg → Prop
  | .array k => k < m.next
  | _ => True

/-- Arguments exist, and the caller does not write into an array that the experiment holds at that time. -/
def Op.fair (s : State) : Op → Prop
  | .setVector a => a.valid s.mem
  | .setLbda a => a.valid s.mem
  | .write k _ => ¬ s.attrs.holds k
  | _ => True

def Fair : State → List Op → Prop
  | _, [] => True
  | s, op :: ops => op.fair s ∧ Fair (step s op) ops

/-- Held arrays exist. -/
def State.Ok (s : State) : Prop := ∀ k, s.attrs.holds k → k < s.mem.next

lemma alloc_old (m : Mem) (a : Arr) {k : ℕ} (h : k < m.next) : (m.alloc a).1.arr k = m.arr k := by
  simp only [Mem.alloc]
  exact Function.update_of_ne h.ne _ _

lemma alloc_new (m : Mem) (a : Arr) : (m.alloc a).1.arr (m.alloc a).2 = a := by
  simp [Mem.alloc]

lemma asarray_spec (m : Mem) (arg : Arg) (h : arg.valid m) :
    (asarray m arg).2 < (asarray m arg).1.next ∧ (asarray m arg).1.arr (asarray m arg).2 = arg.value m ∧ m.next ≤ (asarray m arg).1.next ∧
      ∀ k, k < m.next → (asarray m arg).1.arr k = m.arr k := by
  cases arg with
  | none => exact ⟨Nat.lt_succ_self _, alloc_new _ _, Nat.le_succ _, fun k hk => alloc_old m _ hk⟩
  | number x => exact ⟨Nat.lt_succ_self _, alloc_new _ _, Nat.le_succ _, fun k hk => alloc_old m _ hk⟩
  | list a => exact ⟨Nat.lt_succ_self _, alloc_new _ _, Nat.le_succ _, fun k hk => alloc_old m _ hk⟩
  | array k => exact ⟨h, rfl, le_rfl, fun _ _ => rfl⟩

lemma map_old {m m' : Mem} (hk : ∀ k, k < m.next → m'.arr k = m.arr k) {o : Option ℕ} (h : ∀ k, o = some k → k < m.next) :
    o.map m'.arr = o.map m.arr := by
  cases o with
  | none => rfl
  | some k => simp [hk k (h k rfl)]

/-- Reading of a state whose memory only grew. -/
lemma seen_grow {s : State} (hs : s.Ok) {m' : Mem} (hk : ∀ k, k < s.mem.next → m'.arr k = s.mem.arr k) :
    (⟨s.attrs, m'⟩ : State).seen = s.seen := by
  simp only [State.seen]
  rw [map_old hk fun k h => hs k (Or.inr (Or.inr h)), map_old hk fun k h => hs k (Or.inl h), map_old hk fun k h => hs k (Or.inr (Or.inl h))]

lemma setVec_spec {s : State} (hs : s.Ok) {arg : Arg} (ha : arg.valid s.mem) (hn : arg ≠ .none) :
    (setVec s arg).Ok ∧ (setVec s arg).seen = (Setting.vector (arg.value s.mem)).apply s.seen := by
  obtain ⟨h1, h2, h3, h4⟩ := asarray_spec s.mem arg ha
  have hdef : setVec s arg =
      match (asarray s.mem arg).1.arr (asarray s.mem arg).2 with
      | ⟨[2], [a, b]⟩ => ⟨{ s.attrs with jones := some (asarray s.mem arg).2, stokes := some ((asarray s.mem arg).1.alloc (stokesArr a b)).2 },
          ((asarray s.mem arg).1.alloc (stokesArr a b)).1⟩
      | ⟨[4], [s0, s1, s2, s3]⟩ =>
        ⟨{ s.attrs with stokes := some (asarray s.mem arg).2, jones := some ((asarray s.mem arg).1.alloc (jonesArr s0 s1 s2 s3)).2 },
          ((asarray s.mem arg).1.alloc (jonesArr s0 s1 s2 s3)).1⟩
      | _ => ⟨s.attrs, (asarray s.mem arg).1⟩ := by
    cases arg with
    | none => exact absurd rfl hn
    | number x => rfl
    | list a => rfl
    | array k => rfl
  rw [hdef]
  generalize asarray s.mem arg = p at *
  obtain ⟨m, k⟩ := p
  simp only at *
  rw [h2]
  generalize arg.value s.mem = v at *
  have growOk : (⟨s.attrs, m⟩ : State).Ok := fun j hj => lt_of_lt_of_le (hs j hj) h3
  split
  · rename_i a b
    refine ⟨?_, ?_⟩
    · rintro j (hj | hj | hj)
      · cases hj
        exact Nat.lt_succ_of_lt h1
      · cases hj
        exact Nat.lt_succ_self _
      · exact Nat.lt_succ_of_lt (lt_of_lt_of_le (hs j (Or.inr (Or.inr hj))) h3)
    · simp only [State.seen, Setting.apply, Option.map_some]
      rw [alloc_new, alloc_old _ _ h1, h2]
      rw [map_old (m := s.mem) (fun j hj => by rw [alloc_old _ _ (lt_of_lt_of_le hj h3), h4 j hj]) fun j h => hs j (Or.inr (Or.inr h))]
  · rename_i s0 s1 s2 s3
    refine ⟨?_, ?_⟩
    · rintro j (hj | hj | hj)
      · cases hj
        exact Nat.lt_succ_self _
      · cases hj
        exact Nat.lt_succ_of_lt h1
      · exact Nat.lt_succ_of_lt (lt_of_lt_of_le (hs j (Or.inr (Or.inr hj))) h3)
    · simp only [State.seen, Setting.apply, Option.map_some]
      rw [alloc_new, alloc_old _ _ h1, h2]
      rw [map_old (m := s.mem) (fun j hj => by rw [alloc_old _ _ (lt_of_lt_of_le hj h3), h4 j hj]) fun j h => hs j (Or.inr (Or.inr h))]
  · rename_i hx hy
    refine ⟨growOk, ?_⟩
    rw [seen_grow hs h4]
    simp only [Setting.apply]

lemma setLbda_spec {s : State} (hs : s.Ok) {arg : Arg} (ha : arg.valid s.mem) :
    (setLbda s arg).Ok ∧ (setLbda s arg).seen = (Setting.lbda (arg.value s.mem)).apply s.seen := by
  obtain ⟨h1, h2, h3, h4⟩ := asarray_spec s.mem arg ha
  unfold setLbda
  generalize asarray s.mem arg = p at *
  obtain ⟨m, k⟩ := p
  simp only at *
  rw [h2]
  generalize arg.value s.mem = v at *
  split
  · rename_i hv
    refine ⟨?_, ?_⟩
    · rintro j (hj | hj | hj)
      · exact Nat.lt_succ_of_lt (lt_of_lt_of_le (hs j (Or.inl hj)) h3)
      · exact Nat.lt_succ_of_lt (lt_of_lt_of_le (hs j (Or.inr (Or.inl hj))) h3)
      · cases hj
        exact Nat.lt_succ_self _
    · simp only [State.seen, Setting.apply, Option.map_some, hv, if_true]
      rw [alloc_new, map_old (m := s.mem) (fun j hj => by rw [alloc_old _ _ (lt_of_lt_of_le hj h3), h4 j hj]) fun j h => hs j (Or.inl h),
        map_old (m := s.mem) (fun j hj => by rw [alloc_old _ _ (lt_of_lt_of_le hj h3), h4 j hj]) fun j h => hs j (Or.inr (Or.inl h))]
  · rename_i hv
    refine ⟨?_, ?_⟩
    · rintro j (hj | hj | hj)
      · exact lt_of_lt_of_le (hs j (Or.inl hj)) h3
      · exact lt_of_lt_of_le (hs j (Or.inr (Or.inl hj))) h3
      · cases hj
        exact h1
    · simp only [State.seen, Setting.apply, Option.map_some, hv, if_false]
      rw [h2, map_old (m := s.mem) h4 fun j h => hs j (Or.inl h), map_old (m := s.mem) h4 fun j h => hs j (Or.inr (Or.inl h))]

lemma step_spec {s : State} (hs : s.Ok) {op : Op} (hf : op.fair s) :
    (step s op).Ok ∧ (step s op).seen = (op.setting s.mem).toList.foldl Setting.apply s.seen := by
  cases op with
  | setStructure k => exact ⟨fun j hj => hs j hj, rfl⟩
  | setTheta x => exact ⟨fun j hj => hs j hj, rfl⟩
  | setLbda a => exact setLbda_spec hs hf
  | setVector a =>
    cases a with
    | none =>
      have : setVec s .none = setVec s (.list ⟨[4], [1, 0, 1, 0]⟩) := rfl
      simp only [step, this]
      exact setVec_spec hs (arg := .list _) trivial (by simp)
    | number x => exact setVec_spec hs hf (by simp)
    | list a => exact setVec_spec hs hf (by simp)
    | array k => exact setVec_spec hs hf (by simp)
  | makeArray a =>
    refine ⟨fun j hj => Nat.lt_succ_of_lt (hs j hj), ?_⟩
    exact seen_grow hs fun k hk => alloc_old _ _ hk
  | write k d =>
    refine ⟨fun j hj => hs j hj, ?_⟩
    have hk : ∀ o : Option ℕ, (∀ j, o = some j → s.attrs.holds j) →
        o.map (Function.update s.mem.arr k ⟨(s.mem.arr k).shape, d⟩) = o.map s.mem.arr := by
      intro o ho
      cases o with
      | none => rfl
      | some j =>
        have : j ≠ k := by
          rintro rfl
          exact hf (ho j rfl)
        simp [this]
    simp only [step, State.seen, Op.setting, Option.toList_none, List.foldl_nil]
    rw [hk _ fun j h => Or.inr (Or.inr h), hk _ fun j h => Or.inl h, hk _ fun j h => Or.inr (Or.inl h)]

/-- C119: for every program that does not write into the arrays the experiment holds, a solver sees exactly the effect of the settings, taken by
value and in order. Missing: programs that reuse an array they passed (`C119_alias_refuted`). -/
theorem C119_settings_partial (ops : List Op) {s : State} (hs : s.Ok) (hf : Fair s ops) :
    (run s ops).Ok ∧ (run s ops).seen = (settings s ops).foldl Setting.apply s.seen := by
  unfold run
  induction ops generalizing s with
  | nil => exact ⟨hs, rfl⟩
  | cons op ops ih =>
    obtain ⟨h1, h2⟩ := step_spec hs hf.1
    obtain ⟨h3, h4⟩ := ih h1 hf.2
    refine ⟨h3, ?_⟩
    simp only [List.foldl_cons, settings, List.foldl_append]
    rw [h4, h2]

lemma fold_last {β : Type*} (π : Seen → Option β) (f : Setting → Option β) (h : ∀ v a, π (a.apply v) = (f a).or (π v)) (l : List Setting) (v : Seen) :
    π (l.foldl Setting.apply v) = (l.filterMap f).getLast?.or (π v) := by
  induction l generalizing v with
  | nil => simp
  | cons a l ih =>
    rw [List.foldl_cons, ih, h]
    cases hf : f a with
    | none => simp [hf]
    | some b =>
      rw [List.filterMap_cons_some hf]
      cases l.filterMap f <;> simp [List.getLast?_cons]

/-- C119: the last call of each setter decides, whatever other setters were called in between; what was never set keeps its old value. A vector of
another shape than two or four does not count. -/
theorem C119_last_call_partial (ops : List Op) {s : State} (hs : s.Ok) (hf : Fair s ops) :
    (run s ops).seen.structure_ = ((settings s ops).filterMap Setting.structure?).getLast?.or s.seen.structure_ ∧
    (run s ops).seen.theta = ((settings s ops).filterMap Setting.theta?).getLast?.or s.seen.theta ∧
    (run s ops).seen.lbda = ((settings s ops).filterMap Setting.lbda?).getLast?.or s.seen.lbda ∧
    (run s ops).seen.jones = ((settings s ops).filterMap Setting.jones?).getLast?.or s.seen.jones := by
  rw [(C119_settings_partial ops hs hf).2]
  refine ⟨fold_last Seen.structure_ _ ?_ _ _, fold_last Seen.theta _ ?_ _ _, fold_last Seen.lbda _ ?_ _ _, fold_last Seen.jones _ ?_ _ _⟩
  all_goals
    intro v a
    cases a with
    | vector a =>
      simp only [Setting.apply]
      split
      · simp [Setting.structure?, Setting.theta?, Setting.lbda?, Setting.jones?]
      · simp [Setting.structure?, Setting.theta?, Setting.lbda?, Setting.jones?]
      · rename_i h1 h2
        simp [Setting.structure?, Setting.theta?, Setting.lbda?, Setting.jones?]
        try
          split
          · rename_i h
            cases h
            exact absurd rfl (h1 _ _)
          · rename_i h
            cases h
            exact absurd rfl (h2 _ _ _ _)
          · rfl
    | structure_ k => simp [Setting.apply, Setting.structure?, Setting.theta?, Setting.lbda?, Setting.jones?]
    | theta x => simp [Setting.apply, Setting.structure?, Setting.theta?, Setting.lbda?, Setting.jones?]
    | lbda x => simp [Setting.apply, Setting.structure?, Setting.theta?, Setting.lbda?, Setting.jones?]

/-- C119: new experiments are valid states, and see the arguments by value. -/
theorem C119_new (m : Mem) (k : ℕ) (lbda vector : Arg) (theta : ℝ) (hl : lbda.valid m) (hv : vector.valid m) :
    (init m k lbda theta vector).Ok ∧
    (init m k lbda theta vector).seen.structure_ = some k ∧ (init m k lbda theta vector).seen.theta = some theta ∧
    (init m k lbda theta vector).seen.lbda = some (if (lbda.value m).shape = [] then ⟨[1], (lbda.value m).data⟩ else lbda.value m) := by
  set s2 : State := ⟨⟨some k, none, none, some theta, none⟩, m⟩ with hs2
  have ok2 : s2.Ok := by
    rintro j (hj | hj | hj) <;> simp [hs2] at hj
  obtain ⟨ok3, se3⟩ := setLbda_spec ok2 (arg := lbda) hl
  have hm : ∀ a : Arg, a.valid m → a.valid (setLbda s2 lbda).mem := by
    intro a ha
    cases a with
    | array j =>
      obtain ⟨-, -, h3, -⟩ := asarray_spec m lbda hl
      simp only [Arg.valid] at ha ⊢
      unfold setLbda
      simp only [hs2]
      split
      · exact lt_of_lt_of_le ha (h3.trans (Nat.le_succ _))
      · exact lt_of_lt_of_le ha h3
    | _ => trivial
  have hinit : init m k lbda theta vector = step (setLbda s2 lbda) (.setVector vector) := rfl
  obtain ⟨ok4, se4⟩ := step_spec ok3 (op := .setVector vector) (hm vector hv)
  rw [hinit, se4]
  refine ⟨ok4, ?_⟩
  have hset : ∀ (v : Seen) (a : Arr), ((Setting.vector a).apply v).structure_ = v.structure_ ∧ ((Setting.vector a).apply v).theta = v.theta ∧
      ((Setting.vector a).apply v).lbda = v.lbda := by
    intro v a
    simp only [Setting.apply]
    split <;> exact ⟨rfl, rfl, rfl⟩
  have hop : ∃ a, (Op.setVector vector).setting (setLbda s2 lbda).mem = some (.vector a) := by
    cases vector <;> exact ⟨_, rfl⟩
  obtain ⟨a, ha⟩ := hop
  rw [ha]
  simp only [Option.toList_some, List.foldl_cons, List.foldl_nil]
  obtain ⟨e1, e2, e3⟩ := hset (setLbda s2 lbda).seen a
  rw [e1, e2, e3, se3]
  exact ⟨rfl, rfl, rfl⟩

/-- The vectors of a reading agree. -/
def Seen.SameLight (v : Seen) : Prop := ∀ j t, v.jones = some j → v.stokes = some t → Spec.SameLight j t

lemma same_of_jones (x y : ℂ) (sh : List ℕ) : Spec.SameLight ⟨sh, [x, y]⟩ (stokesArr x y) := by
  intro x' y' h
  simp only [List.cons.injEq, and_true] at h
  obtain ⟨rfl, rfl⟩ := h
  refine ⟨_, _, _, _, rfl, 1, one_pos, ?_⟩
  rw [stokesOfJones_eq]
  simp

lemma same_of_stokes (s0 s1 s2 s3 : ℂ) (sh : List ℕ) : Spec.SameLight (jonesArr s0 s1 s2 s3) ⟨sh, [s0, s1, s2, s3]⟩ := by
  intro x y h
  refine ⟨_, _, _, _, rfl, ?_⟩
  by_cases hz : s0.re = 0 ∨ (s1.re = 0 ∧ s2.re = 0 ∧ s3.re = 0)
  · have := (C08_finite_iff Pol.init s0.re s1.re s2.re s3.re).2 hz
    simp only [setVector] at this
    simp [jonesArr, this] at h
  · push Not at hz
    have hp : s1.re ≠ 0 ∨ s2.re ≠ 0 ∨ s3.re ≠ 0 := by
      by_contra hc
      push Not at hc
      exact hz.2 hc.1 hc.2.1 hc.2.2
    obtain ⟨a, b, h1, h2, -⟩ := jonesOfStokes_polarised s0.re s1.re s2.re s3.re hz.1 hp
    simp only [jonesArr, h1, List.cons.injEq, and_true] at h
    obtain ⟨rfl, rfl⟩ := h
    have hpos : 0 < s1.re ^ 2 + s2.re ^ 2 + s3.re ^ 2 := by
      rcases hp with h | h | h <;> positivity
    refine ⟨Real.sqrt (s1.re ^ 2 + s2.re ^ 2 + s3.re ^ 2), Real.sqrt_pos.2 hpos, ?_⟩
    have hne := (Real.sqrt_pos.2 hpos).ne'
    rw [h2]
    refine ⟨?_, ?_, ?_⟩ <;> simp <;> field_simp

lemma apply_same {v : Seen} (h : v.SameLight) (st : Setting) : (st.apply v).SameLight := by
  cases st with
  | structure_ k => exact h
  | theta x => exact h
  | lbda a => exact h
  | vector a =>
    simp only [Setting.apply]
    split
    · rintro j t hj ht
      cases hj
      cases ht
      exact same_of_jones _ _ _
    · rintro j t hj ht
      cases hj
      cases ht
      exact same_of_stokes _ _ _ _ _
    · exact h

/-- C119: the Jones and the Stokes vector of an experiment describe the same light after every such program. -/
theorem C119_same_light_partial (ops : List Op) {s : State} (hs : s.Ok) (hf : Fair s ops) (h : s.seen.SameLight) : (run s ops).seen.SameLight := by
  rw [(C119_settings_partial ops hs hf).2]
  generalize settings s ops = l
  clear hf
  generalize s.seen = v at *
  induction l generalizing v with
  | nil => exact h
  | cons st l ih => exact ih _ (apply_same h st)

/-- C119: `Structure.evaluate` is the evaluation of an experiment with light polarised at 45 degrees, and the given structure, wavelengths and
angle. -/
theorem C119_structure_evaluate {Out : Type} (solve : Seen → Out) (m : Mem) (k : ℕ) (lbda : Arg) (theta : ℝ) (hl : lbda.valid m) :
    ∃ (v : Seen) (a : ℂ), structureEvaluate solve m k lbda theta = solve v ∧ v.structure_ = some k ∧ v.theta = some theta ∧
      v.lbda = some (if (lbda.value m).shape = [] then ⟨[1], (lbda.value m).data⟩ else lbda.value m) ∧
      v.jones = some ⟨[2], [a, a]⟩ ∧ Spec.stokes a a = ![1, 0, 1, 0] := by
  obtain ⟨-, h1, h2, h3⟩ := C119_new m k lbda .none theta hl trivial
  obtain ⟨a, b, hj, rfl, hst⟩ := C09_none_is_diagonal Pol.init
  refine ⟨_, a, rfl, h1, h2, h3, ?_, hst⟩
  have hjv : (init m k lbda theta .none).seen.jones = some (jonesArr 1 0 1 0) := by
    have : (init m k lbda theta .none) = setVec (Exp.setLbda ⟨⟨some k, none, none, some theta, none⟩, m⟩ lbda) .none := rfl
    rw [this]
    generalize Exp.setLbda ⟨⟨some k, none, none, some theta, none⟩, m⟩ lbda = s
    have hv : setVec s .none = ⟨{ s.attrs with stokes := some s.mem.next, jones := some (s.mem.next + 1) },
        ((s.mem.alloc ⟨[4], [1, 0, 1, 0]⟩).1.alloc (jonesArr 1 0 1 0)).1⟩ := by
      simp only [setVec, asarray]
      rw [alloc_new]
      rfl
    rw [hv]
    simp only [State.seen, Option.map_some]
    exact congrArg some (alloc_new (s.mem.alloc ⟨[4], [1, 0, 1, 0]⟩).1 _)
  rw [hjv]
  simp only [setVector] at hj
  simp [jonesArr, hj]

/-- Two arrays of a caller: wavelengths and a Jones vector. -/
def twoArrays : Mem := ⟨2, fun k => if k = 0 then ⟨[2], [400, 500]⟩ else ⟨[2], [1, 0]⟩⟩

lemma twoArrays_seen : (init twoArrays 7 (.array 0) 70 (.array 1)).attrs = ⟨some 7, some 1, some 2, some 70, some 0⟩ ∧
    (init twoArrays 7 (.array 0) 70 (.array 1)).mem = (twoArrays.alloc (stokesArr 1 0)).1 := by
  simp [init, run, step, Exp.setLbda, setVec, asarray, twoArrays, Mem.alloc]

/-- C119 fails for arrays that the caller uses again: `set_vector` and `set_lbda` keep the array itself. Writing into it changes the light and the
wavelengths of the experiment without any setter, and then the Stokes vector no longer belongs to the Jones vector. -/
theorem C119_alias_refuted : ∃ (m : Mem) (k j : ℕ) (d e : List ℂ),
    let s := init m 7 (.array k) 70 (.array j)
    k < m.next ∧ j < m.next ∧ s.Ok ∧ s.seen.SameLight ∧
    (step s (.write j d)).seen.jones ≠ s.seen.jones ∧ ¬ (step s (.write j d)).seen.SameLight ∧
    (step s (.write k e)).seen.lbda ≠ s.seen.lbda := by
  obtain ⟨ha, hm⟩ := twoArrays_seen
  have h1 : (twoArrays.alloc (stokesArr 1 0)).1.arr 1 = ⟨[2], [1, 0]⟩ := by simp [Mem.alloc, twoArrays]
  have h0 : (twoArrays.alloc (stokesArr 1 0)).1.arr 0 = ⟨[2], [400, 500]⟩ := by simp [Mem.alloc, twoArrays]
  have h2 : (twoArrays.alloc (stokesArr 1 0)).1.arr 2 = stokesArr 1 0 := by simp [Mem.alloc, twoArrays]
  refine ⟨twoArrays, 0, 1, [0, 1], [600, 700], by simp [twoArrays], by simp [twoArrays], (C119_new _ _ _ _ _ ?_ ?_).1, ?_, ?_, ?_, ?_⟩
  · simp [Arg.valid, twoArrays]
  · simp [Arg.valid, twoArrays]
  · intro j t hj ht
    simp only [State.seen, ha, hm, Option.map_some, h1, h2, Option.some.injEq] at hj ht
    subst hj ht
    exact same_of_jones _ _ _
  · simp only [State.seen, step, ha, hm, Option.map_some, h1]
    simp
  · intro hc
    have := hc ⟨[2], [0, 1]⟩ (stokesArr 1 0) ?_ ?_ 0 1 rfl
    · obtain ⟨s0, s1, s2, s3, e, p, hp, e1, -⟩ := this
      simp only [stokesArr, List.cons.injEq, and_true] at e
      rw [← e.2.1, stokesOfJones_eq, stokes_explicit, stokes_explicit] at e1
      simp at e1
      linarith
    · simp only [State.seen, step, ha, hm, Option.map_some, h1]
      simp
    · simp only [State.seen, step, ha, hm, Option.map_some]
      rw [Function.update_of_ne (by decide), h2]
  · simp only [State.seen, step, ha, hm, Option.map_some, h0]
    simp

/-- A program as used in the examples: new wavelengths, a Jones vector as a list, the caller reusing an array it no longer shares. -/
example : Fair (init twoArrays 7 (.array 0) 70 (.array 1)) [.setLbda (.number 550), .write 0 [1, 2], .setVector (.list ⟨[2], [0, 1]⟩), .write 1 [5, 6]] := by
  obtain ⟨ha, hm⟩ := twoArrays_seen
  have h1 : (twoArrays.alloc (stokesArr 1 0)).1.next = 3 := rfl
  simp [Fair, Op.fair, Arg.valid, Attrs.holds, step, Exp.setLbda, setVec, asarray, ha, hm, Mem.alloc, h1]

example : (init twoArrays 7 (.array 0) 70 (.array 1)).Ok :=
  (C119_new _ _ _ _ _ (by simp [Arg.valid, twoArrays]) (by simp [Arg.valid, twoArrays])).1

/-- Its settings by value. -/
example (v : Seen) : (([.lbda ⟨[], [550]⟩, .vector ⟨[2], [0, 1]⟩] : List Setting).foldl Setting.apply v).lbda = some ⟨[1], [550]⟩ ∧
    (([.lbda ⟨[], [550]⟩, .vector ⟨[2], [0, 1]⟩] : List Setting).foldl Setting.apply v).jones = some ⟨[2], [0, 1]⟩ := by
  simp [Setting.apply]

end PyElli.Exp
