import Verif.Props.Grammar
import Verif.Props.Params
import Verif.Model.Formula

/-! # Formula dispersions (C57) -/

namespace PyElli.Formula

open Spec.Formula

variable {V : Type} {N P : ℕ}

/-- Entry of an array outside brackets. -/
def Arr.out : Arr N P V → Fin N → Option V
  | .scalar v, _ => some v
  | .col f, i => some (f i)
  | _, _ => none

/-- Entry of an array inside brackets. -/
def Arr.ins : Arr N P V → Fin N → Fin P → Option V
  | .scalar v, _, _ => some v
  | .row f, _, j => some (f j)
  | .mat f, i, j => some (f i j)
  | .col _, _, _ => none

def Arr.isIn : Arr N P V → Bool
  | .col _ => false
  | _ => true

def Arr.isOut : Arr N P V → Bool
  | .scalar _ => true
  | .col _ => true
  | _ => false

def Arr.isMat : Arr N P V → Bool
  | .mat _ => true
  | _ => false

lemma op2_in (f : V → V → V) (a b : Arr N P V) (ha : a.isIn = true) (hb : b.isIn = true) :
    ∃ c, Arr.op2 f a b = .ok c ∧ c.isIn = true ∧ c.isMat = (a.isMat || b.isMat) ∧
      ∀ i j x y, a.ins i j = some x → b.ins i j = some y → c.ins i j = some (f x y) := by
  cases a <;> cases b <;> simp_all [Arr.op2, Arr.isIn, Arr.isMat, Arr.ins]

lemma op2_out (f : V → V → V) (a b : Arr N P V) (ha : a.isOut = true) (hb : b.isOut = true) :
    ∃ c, Arr.op2 f a b = .ok c ∧ c.isOut = true ∧
      ∀ i x y, a.out i = some x → b.out i = some y → c.out i = some (f x y) := by
  cases a <;> cases b <;> simp_all [Arr.op2, Arr.isOut, Arr.out]

lemma op1_in (f : V → V) (a : Arr N P V) (ha : a.isIn = true) :
    (Arr.op1 f a).isIn = true ∧ (Arr.op1 f a).isMat = a.isMat ∧ ∀ i j x, a.ins i j = some x → (Arr.op1 f a).ins i j = some (f x) := by
  cases a <;> simp_all [Arr.op1, Arr.isIn, Arr.isMat, Arr.ins]

lemma op1_out (f : V → V) (a : Arr N P V) (ha : a.isOut = true) :
    (Arr.op1 f a).isOut = true ∧ ∀ i x, a.out i = some x → (Arr.op1 f a).out i = some (f x) := by
  cases a <;> simp_all [Arr.op1, Arr.isOut, Arr.out]

/-- The parameter set number `j`. -/
def setAt (E : Env N P V) (j : Fin P) : Dict V := E.repeated.map fun c => (c.1, c.2 j)

def setsOf (E : Env N P V) : List (Dict V) := List.ofFn (setAt E)

lemma lookup_eq_get (d : Dict V) (k : String) : lookup d k = Dict.get d k := (get_eq_keyword d k).symm

lemma get_setAt (E : Env N P V) (j : Fin P) (s : String) :
    Dict.get (setAt E j) s = (Dict.get E.repeated s).map fun f => f j := by
  unfold setAt
  induction E.repeated with
  | nil => rfl
  | cons c d ih =>
    simp only [List.map_cons, Dict.get]
    by_cases h : c.1 = s
    · simp [h]
    · simp only [h, if_false]; exact ih

lemma get_isSome_iff {W : Type} (d : Dict W) (k : String) : (∃ v, Dict.get d k = some v) ↔ k ∈ Dict.keys d := by
  induction d with
  | nil => simp [Dict.get, Dict.keys]
  | cons p d ih =>
    by_cases h : p.1 = k
    · simp [Dict.get, Dict.keys, h]
    · have h' : k ≠ p.1 := fun e => h e.symm
      simp only [Dict.get, h, if_false, Dict.keys, List.map_cons, List.mem_cons, h', false_or]
      exact ih

lemma get_none_iff {W : Type} (d : Dict W) (k : String) : Dict.get d k = none ↔ k ∉ Dict.keys d := by
  rw [← get_isSome_iff]
  cases Dict.get d k <;> simp

/-- The meaning at axis value `x` with parameter set `cur`. -/
abbrev mean (O : Ops V) (E : Env N P V) (x : V) (cur : Dict V) (t : Tree) : Option V :=
  denote O E.axisName x E.single (setsOf E) cur t

/-- Inside brackets: acceptance, shape and entries. -/
lemma transform_in (O : Ops V) (E : Env N P V) (t : Tree) : WellFormed true t →
    (Evaluable E.axisName E.single.keys E.repeated.keys t → ∃ a, transform O E t = .ok a ∧ a.isIn = true ∧
      a.isMat = mentions E.axisName t ∧ ∀ i j, ∃ v, a.ins i j = some v ∧ mean O E (E.axis i) (setAt E j) t = some v) ∧
    (¬ Evaluable E.axisName E.single.keys E.repeated.keys t → transform O E t = .error .visitError) := by
  have bin : ∀ (f : V → V → V) (a b t : Tree),
      (transform O E t = (do Arr.op2 f (← transform O E a) (← transform O E b))) →
      (mentions E.axisName t = (mentions E.axisName a || mentions E.axisName b)) →
      (∀ x cur, mean O E x cur t = (do return f (← mean O E x cur a) (← mean O E x cur b))) →
      ((Evaluable E.axisName E.single.keys E.repeated.keys a → ∃ c, transform O E a = .ok c ∧ c.isIn = true ∧
        c.isMat = mentions E.axisName a ∧ ∀ i j, ∃ v, c.ins i j = some v ∧ mean O E (E.axis i) (setAt E j) a = some v) ∧
        (¬ Evaluable E.axisName E.single.keys E.repeated.keys a → transform O E a = .error .visitError)) →
      ((Evaluable E.axisName E.single.keys E.repeated.keys b → ∃ c, transform O E b = .ok c ∧ c.isIn = true ∧
        c.isMat = mentions E.axisName b ∧ ∀ i j, ∃ v, c.ins i j = some v ∧ mean O E (E.axis i) (setAt E j) b = some v) ∧
        (¬ Evaluable E.axisName E.single.keys E.repeated.keys b → transform O E b = .error .visitError)) →
      ((Evaluable E.axisName E.single.keys E.repeated.keys a ∧ Evaluable E.axisName E.single.keys E.repeated.keys b →
        ∃ c, transform O E t = .ok c ∧ c.isIn = true ∧
        c.isMat = mentions E.axisName t ∧ ∀ i j, ∃ v, c.ins i j = some v ∧ mean O E (E.axis i) (setAt E j) t = some v) ∧
      (¬ (Evaluable E.axisName E.single.keys E.repeated.keys a ∧ Evaluable E.axisName E.single.keys E.repeated.keys b) →
        transform O E t = .error .visitError)) := by
    intro f a b t ht hme hmean iha ihb
    constructor
    · rintro ⟨ea, eb⟩
      obtain ⟨ca, ta, ina, ma, va⟩ := iha.1 ea
      obtain ⟨cb, tb, inb, mb, vb⟩ := ihb.1 eb
      obtain ⟨c, hc, inc, mc, vc⟩ := op2_in f ca cb ina inb
      refine ⟨c, by rw [ht, ta, tb]; exact hc, inc, by rw [mc, ma, mb, hme], fun i j => ?_⟩
      obtain ⟨x, hx1, hx2⟩ := va i j
      obtain ⟨y, hy1, hy2⟩ := vb i j
      refine ⟨f x y, vc i j x y hx1 hy1, ?_⟩
      rw [hmean, hx2, hy2]
      rfl
    · intro hn
      rw [ht]
      by_cases ea : Evaluable E.axisName E.single.keys E.repeated.keys a
      · obtain ⟨ca, ta, -⟩ := iha.1 ea
        rw [ta, ihb.2 fun eb => hn ⟨ea, eb⟩]
        rfl
      · rw [iha.2 ea]
        rfl
  induction t with
  | add a b ha hb => exact fun h => bin O.add a b _ rfl rfl (fun _ _ => rfl) (ha h.1) (hb h.2)
  | sub a b ha hb => exact fun h => bin O.sub a b _ rfl rfl (fun _ _ => rfl) (ha h.1) (hb h.2)
  | mul a b ha hb => exact fun h => bin O.mul a b _ rfl rfl (fun _ _ => rfl) (ha h.1) (hb h.2)
  | div a b ha hb => exact fun h => bin O.div a b _ rfl rfl (fun _ _ => rfl) (ha h.1) (hb h.2)
  | power a b ha hb => exact fun h => bin O.pow a b _ rfl rfl (fun _ _ => rfl) (ha h.1) (hb h.2)
  | func f a ha =>
    intro h
    constructor
    · rintro ⟨hf, ea⟩
      obtain ⟨c, tc, ic, mc, vc⟩ := (ha h).1 ea
      refine ⟨Arr.op1 (O.func f) c, ?_, ?_, ?_, ?_⟩
      · have hf' : f ∈ funcNames := hf
        simp [transform, tc, hf', bind, Except.bind]
      · exact (op1_in _ c ic).1
      · rw [show mentions E.axisName (.func f a) = mentions E.axisName a from rfl, ← mc]
        exact (op1_in _ c ic).2.1
      · intro i j
        obtain ⟨v, h1, h2⟩ := vc i j
        refine ⟨O.func f v, ?_, ?_⟩
        · exact (op1_in _ c ic).2.2 i j v h1
        · simp only [mean] at h2
          simp [mean, denote, h2]
    · intro hn
      by_cases ea : Evaluable E.axisName E.single.keys E.repeated.keys a
      · obtain ⟨c, tc, -⟩ := (ha h).1 ea
        have hf : f ∉ funcNames := fun hf => hn ⟨hf, ea⟩
        simp [transform, tc, hf, bind, Except.bind]
      · simp [transform, (ha h).2 ea, bind, Except.bind]
  | sumExpr a ha => rintro ⟨h, -⟩; cases h
  | singleParamName s => intro h; cases h
  | paramName s =>
    intro _
    constructor
    · intro he
      by_cases hs : s = E.axisName
      · refine ⟨.mat fun i _ => E.axis i, by simp [transform, hs], rfl, by simp [mentions, hs, Arr.isMat], fun i j => ?_⟩
        exact ⟨E.axis i, rfl, by simp [mean, denote, hs]⟩
      · cases hg : Dict.get E.single s with
        | some v =>
          refine ⟨.scalar v, by simp [transform, hs, hg], rfl, by simp [mentions, hs, Arr.isMat], fun i j => ?_⟩
          exact ⟨v, rfl, by simp [mean, denote, hs, lookup_eq_get, hg]⟩
        | none =>
          have hr : s ∈ E.repeated.keys := by
            rcases he with he | he | he
            · exact absurd he hs
            · exact absurd he ((get_none_iff _ _).1 hg)
            · exact he
          obtain ⟨f, hf⟩ := (get_isSome_iff _ _).2 hr
          refine ⟨.row f, by simp [transform, hs, hg, hf], rfl, by simp [mentions, hs, Arr.isMat], fun i j => ?_⟩
          refine ⟨f j, rfl, ?_⟩
          simp [mean, denote, hs, lookup_eq_get, hg, get_setAt, hf]
    · intro hn
      have h1 : s ≠ E.axisName := fun h => hn (Or.inl h)
      have h2 := (get_none_iff E.single s).2 fun h => hn (Or.inr (Or.inl h))
      have h3 := (get_none_iff E.repeated s).2 fun h => hn (Or.inr (Or.inr h))
      simp [transform, h1, h2, h3]
  | number s =>
    intro _
    exact ⟨fun _ => ⟨.scalar (O.number s), rfl, rfl, rfl, fun i j => ⟨_, rfl, rfl⟩⟩, fun h => (h trivial).elim⟩
  | builtin s =>
    intro _
    constructor
    · intro hb
      have hb' : s ∈ builtinNames := hb
      exact ⟨.scalar (O.builtin s), by simp [transform, hb'], rfl, rfl, fun i j => ⟨_, rfl, rfl⟩⟩
    · intro hb
      have hb' : s ∉ builtinNames := hb
      simp [transform, hb']

lemma mapM_ofFn_some {n : ℕ} {A B : Type} (g : Fin n → A) (f : A → Option B) (v : Fin n → B) (h : ∀ j, f (g j) = some (v j)) :
    (List.ofFn g).mapM f = some (List.ofFn v) := by
  induction n with
  | zero => simp
  | succ n ih =>
    rw [List.ofFn_succ, List.ofFn_succ, List.mapM_cons, h 0, ih (fun j => g j.succ) (fun j => v j.succ) fun j => h j.succ]
    rfl

/-- Outside brackets: acceptance, shape and entries. -/
lemma transform_out (O : Ops V) (E : Env N P V) (t : Tree) : WellFormed false t →
    (Evaluable E.axisName E.single.keys E.repeated.keys t → ∃ a, transform O E t = .ok a ∧ a.isOut = true ∧
      ∀ i cur, ∃ v, a.out i = some v ∧ mean O E (E.axis i) cur t = some v) ∧
    (¬ Evaluable E.axisName E.single.keys E.repeated.keys t → transform O E t = .error .visitError) := by
  have bin : ∀ (f : V → V → V) (a b t : Tree),
      (transform O E t = (do Arr.op2 f (← transform O E a) (← transform O E b))) →
      (∀ x cur, mean O E x cur t = (do return f (← mean O E x cur a) (← mean O E x cur b))) →
      ((Evaluable E.axisName E.single.keys E.repeated.keys a → ∃ c, transform O E a = .ok c ∧ c.isOut = true ∧
        ∀ i cur, ∃ v, c.out i = some v ∧ mean O E (E.axis i) cur a = some v) ∧
        (¬ Evaluable E.axisName E.single.keys E.repeated.keys a → transform O E a = .error .visitError)) →
      ((Evaluable E.axisName E.single.keys E.repeated.keys b → ∃ c, transform O E b = .ok c ∧ c.isOut = true ∧
        ∀ i cur, ∃ v, c.out i = some v ∧ mean O E (E.axis i) cur b = some v) ∧
        (¬ Evaluable E.axisName E.single.keys E.repeated.keys b → transform O E b = .error .visitError)) →
      ((Evaluable E.axisName E.single.keys E.repeated.keys a ∧ Evaluable E.axisName E.single.keys E.repeated.keys b →
        ∃ c, transform O E t = .ok c ∧ c.isOut = true ∧
        ∀ i cur, ∃ v, c.out i = some v ∧ mean O E (E.axis i) cur t = some v) ∧
      (¬ (Evaluable E.axisName E.single.keys E.repeated.keys a ∧ Evaluable E.axisName E.single.keys E.repeated.keys b) →
        transform O E t = .error .visitError)) := by
    intro f a b t ht hmean iha ihb
    constructor
    · rintro ⟨ea, eb⟩
      obtain ⟨ca, ta, ina, va⟩ := iha.1 ea
      obtain ⟨cb, tb, inb, vb⟩ := ihb.1 eb
      obtain ⟨c, hc, inc, vc⟩ := op2_out f ca cb ina inb
      refine ⟨c, by rw [ht, ta, tb]; exact hc, inc, fun i cur => ?_⟩
      obtain ⟨x, hx1, hx2⟩ := va i cur
      obtain ⟨y, hy1, hy2⟩ := vb i cur
      refine ⟨f x y, vc i x y hx1 hy1, ?_⟩
      rw [hmean, hx2, hy2]
      rfl
    · intro hn
      rw [ht]
      by_cases ea : Evaluable E.axisName E.single.keys E.repeated.keys a
      · obtain ⟨ca, ta, -⟩ := iha.1 ea
        rw [ta, ihb.2 fun eb => hn ⟨ea, eb⟩]
        rfl
      · rw [iha.2 ea]
        rfl
  induction t with
  | add a b ha hb => exact fun h => bin O.add a b _ rfl (fun _ _ => rfl) (ha h.1) (hb h.2)
  | sub a b ha hb => exact fun h => bin O.sub a b _ rfl (fun _ _ => rfl) (ha h.1) (hb h.2)
  | mul a b ha hb => exact fun h => bin O.mul a b _ rfl (fun _ _ => rfl) (ha h.1) (hb h.2)
  | div a b ha hb => exact fun h => bin O.div a b _ rfl (fun _ _ => rfl) (ha h.1) (hb h.2)
  | power a b ha hb => exact fun h => bin O.pow a b _ rfl (fun _ _ => rfl) (ha h.1) (hb h.2)
  | func f a ha =>
    intro h
    constructor
    · rintro ⟨hf, ea⟩
      obtain ⟨c, tc, ic, vc⟩ := (ha h).1 ea
      refine ⟨Arr.op1 (O.func f) c, ?_, ?_, ?_⟩
      · have hf' : f ∈ funcNames := hf
        simp [transform, tc, hf', bind, Except.bind]
      · exact (op1_out _ c ic).1
      · intro i cur
        obtain ⟨v, h1, h2⟩ := vc i cur
        refine ⟨O.func f v, ?_, ?_⟩
        · exact (op1_out _ c ic).2 i v h1
        · simp only [mean] at h2
          simp [mean, denote, h2]
    · intro hn
      by_cases ea : Evaluable E.axisName E.single.keys E.repeated.keys a
      · obtain ⟨c, tc, -⟩ := (ha h).1 ea
        have hf : f ∉ funcNames := fun hf => hn ⟨hf, ea⟩
        simp [transform, tc, hf, bind, Except.bind]
      · simp [transform, (ha h).2 ea, bind, Except.bind]
  | sumExpr a ha =>
    rintro ⟨-, h⟩
    obtain ⟨h1, h2⟩ := transform_in O E a h
    constructor
    · rintro ⟨hm, ea⟩
      obtain ⟨c, tc, ic, mc, vc⟩ := h1 ea
      rw [hm] at mc
      cases c with
      | mat m =>
        refine ⟨.col fun i => (List.ofFn (m i)).foldl O.add O.zero, by simp [transform, tc, bind, Except.bind], rfl, fun i cur => ?_⟩
        refine ⟨_, rfl, ?_⟩
        have hM : ∀ j, denote O E.axisName (E.axis i) E.single (setsOf E) (setAt E j) a = some (m i j) := by
          intro j
          obtain ⟨v, hv1, hv2⟩ := vc i j
          simp only [Arr.ins, Option.some.injEq] at hv1
          rw [hv1]
          exact hv2
        have hmap := mapM_ofFn_some (setAt E) (fun d => denote O E.axisName (E.axis i) E.single (setsOf E) d a) (m i) hM
        simp only [mean, denote]
        rw [show setsOf E = List.ofFn (setAt E) from rfl] at hmap ⊢
        rw [hmap]
        rfl
      | scalar v => simp [Arr.isMat] at mc
      | row f => simp [Arr.isMat] at mc
      | col f => simp [Arr.isMat] at mc
    · intro hn
      by_cases ea : Evaluable E.axisName E.single.keys E.repeated.keys a
      · obtain ⟨c, tc, ic, mc, vc⟩ := h1 ea
        have hm : c.isMat = false := by
          rw [mc]
          cases hme : mentions E.axisName a with
          | true => exact absurd ⟨hme, ea⟩ hn
          | false => rfl
        cases c with
        | mat m => simp [Arr.isMat] at hm
        | _ => simp [transform, tc, bind, Except.bind]
      · simp [transform, h2 ea, bind, Except.bind]
  | paramName s => intro h; cases h
  | singleParamName s =>
    intro _
    constructor
    · intro he
      by_cases hs : s = E.axisName
      · refine ⟨.col E.axis, by simp [transform, hs], rfl, fun i cur => ?_⟩
        exact ⟨E.axis i, rfl, by simp [mean, denote, hs]⟩
      · have hr : s ∈ E.single.keys := by
          rcases he with he | he
          · exact absurd he hs
          · exact he
        obtain ⟨v, hv⟩ := (get_isSome_iff _ _).2 hr
        refine ⟨.scalar v, by simp [transform, hs, hv], rfl, fun i cur => ?_⟩
        exact ⟨v, rfl, by simp [mean, denote, hs, lookup_eq_get, hv]⟩
    · intro hn
      have h1 : s ≠ E.axisName := fun h => hn (Or.inl h)
      have h2 := (get_none_iff E.single s).2 fun h => hn (Or.inr h)
      simp [transform, h1, h2]
  | number s =>
    intro _
    exact ⟨fun _ => ⟨.scalar (O.number s), rfl, rfl, fun i j => ⟨_, rfl, rfl⟩⟩, fun h => (h trivial).elim⟩
  | builtin s =>
    intro _
    constructor
    · intro hb
      have hb' : s ∈ builtinNames := hb
      exact ⟨.scalar (O.builtin s), by simp [transform, hb'], rfl, fun i j => ⟨_, rfl, rfl⟩⟩
    · intro hb
      have hb' : s ∉ builtinNames := hb
      simp [transform, hb']

/-! ## Construction -/

lemma setColumn_nil (key : String) {P : ℕ} (f : Fin P → V) :
    setColumn key [] (List.ofFn f) = List.ofFn fun j => [(key, f j)] := by
  induction P with
  | zero => simp [setColumn]
  | succ n ih => rw [List.ofFn_succ, List.ofFn_succ, setColumn, ih]

lemma setColumn_ofFn (key : String) {P : ℕ} (D : Fin P → Dict V) (f : Fin P → V) :
    setColumn key (List.ofFn D) (List.ofFn f) = List.ofFn fun j => Dict.set (D j) key (f j) := by
  induction P with
  | zero => simp [setColumn]
  | succ n ih => rw [List.ofFn_succ, List.ofFn_succ, List.ofFn_succ, setColumn, ih]

lemma set_new (d : Dict V) (k : String) (v : V) (h : k ∉ Dict.keys d) : Dict.set d k v = d ++ [(k, v)] := by
  induction d with
  | nil => rfl
  | cons p d ih =>
    simp only [Dict.keys, List.map_cons, List.mem_cons, not_or] at h
    have h' : p.1 ≠ k := fun e => h.1 e.symm
    simp only [Dict.set, h', if_false, List.cons_append]
    rw [ih h.2]

/-- Columns as functions, written as the lists the user passes. -/
def asLists {P : ℕ} (cols : Dict (Fin P → V)) : Dict (List V) := cols.map fun c => (c.1, List.ofFn c.2)

/-- The parameter sets in the columns. -/
def rowsOf {P : ℕ} (cols : Dict (Fin P → V)) : List (Dict V) := List.ofFn fun j => cols.map fun c => (c.1, c.2 j)

lemma buildSets_go {P : ℕ} (cols : Dict (Fin P → V)) : ∀ before : Dict (Fin P → V), before ≠ [] →
    (Dict.keys (before ++ cols)).Nodup → buildSets (asLists cols) (some P) (rowsOf before) = .ok (rowsOf (before ++ cols)) := by
  induction cols with
  | nil => intro b _ _; simp [asLists, buildSets]
  | cons c cols ih =>
    intro b hb hn
    have hc : c.1 ∉ Dict.keys b := by
      simp only [Dict.keys, List.map_append, List.map_cons] at hn
      intro hmem
      exact (List.nodup_append.1 hn).2.2 c.1 hmem c.1 (by simp) rfl
    have e1 : setColumn c.1 (rowsOf b) (List.ofFn c.2) = rowsOf (b ++ [c]) := by
      unfold rowsOf
      rw [setColumn_ofFn]
      congr 1
      funext j
      rw [set_new _ _ _ (by simpa [Dict.keys, Function.comp_def] using hc)]
      simp
    have := ih (b ++ [c]) (by simp) (by simpa using hn)
    rw [List.append_assoc, List.singleton_append] at this
    simp only [asLists, List.map_cons, buildSets, List.length_ofFn, ne_eq, not_true_eq_false, if_false]
    rw [e1]
    exact this

lemma buildSets_ok {P : ℕ} (cols : Dict (Fin P → V)) (hne : cols ≠ []) (hn : cols.keys.Nodup) :
    buildSets (asLists cols) none [] = .ok (rowsOf cols) := by
  cases cols with
  | nil => exact absurd rfl hne
  | cons c cols =>
    have e1 : setColumn c.1 [] (List.ofFn c.2) = rowsOf [c] := by
      rw [setColumn_nil]
      rfl
    simp only [asLists, List.map_cons, buildSets, List.length_ofFn]
    rw [e1]
    exact buildSets_go cols [c] (by simp) hn

lemma buildSets_bad (rep : Dict (List V)) (n : ℕ) : ∀ sets : List (Dict V), (∃ c ∈ rep, c.2.length ≠ n) →
    buildSets rep (some n) sets = .error .valueError := by
  induction rep with
  | nil => rintro sets ⟨c, hc, -⟩; simp at hc
  | cons d rep ih =>
    rintro sets ⟨c, hc, hl⟩
    by_cases hd : d.2.length = n
    · simp only [buildSets, hd, ne_eq, not_true_eq_false, if_false]
      refine ih _ ⟨c, ?_, hl⟩
      rcases List.mem_cons.1 hc with rfl | h
      · exact absurd hd hl
      · exact h
    · simp [buildSets, hd]

/-- C57: repeated parameters of different lengths are refused with `ValueError`. -/
theorem C57_length_mismatch (tree : Tree) (ax : String) (single : Dict V) (rep : Dict (List V)) (c d : String × List V) (hc : c ∈ rep)
    (hd : d ∈ rep) (hl : c.2.length ≠ d.2.length) : init tree ax single rep = .error .valueError := by
  cases rep with
  | nil => simp at hc
  | cons e rep =>
    have : buildSets (e :: rep) none [] = .error .valueError := by
      simp only [buildSets]
      apply buildSets_bad
      by_contra hcon
      push Not at hcon
      have h1 : ∀ x ∈ e :: rep, x.2.length = e.2.length := by
        intro x hx
        rcases List.mem_cons.1 hx with rfl | h
        · rfl
        · exact hcon x h
      exact hl ((h1 c hc).trans (h1 d hd).symm)
    unfold init
    rw [this]
    rfl

lemma find_of_mem {W : Type} (d : Dict W) (hn : d.keys.Nodup) (p : String × W) (hp : p ∈ d) : Spec.keyword d p.1 = some p.2 := by
  unfold Spec.keyword
  induction d with
  | nil => simp at hp
  | cons q d ih =>
    simp only [Dict.keys, List.map_cons, List.nodup_cons] at hn
    rcases List.mem_cons.1 hp with rfl | hp
    · simp
    · have : q.1 ≠ p.1 := fun e => hn.1 (by rw [e]; exact List.mem_map_of_mem hp)
      rw [List.find?_cons_of_neg (by simpa using this)]
      exact ih hn.2 hp

lemma filled_same {P : ℕ} (cols : Dict (Fin P → V)) (hn : cols.keys.Nodup) (i j : Fin P) :
    Spec.filled (cols.map fun c => (c.1, c.2 i)) [] (cols.map fun c => (c.1, c.2 j)) = cols.map fun c => (c.1, c.2 j) := by
  unfold Spec.filled
  apply List.ext_getElem
  · simp
  · intro k h1 h2
    simp only [List.getElem_mapIdx, List.getElem_map, List.getElem?_nil, Option.getD_none, Prod.mk.injEq, true_and]
    have hk : k < cols.length := by simpa using h1
    have hkeys : Dict.keys (cols.map fun c => (c.1, c.2 j)) = cols.keys := by simp [Dict.keys, Function.comp_def]
    have := find_of_mem (cols.map fun c => (c.1, c.2 j)) (by rw [hkeys]; exact hn) (cols[k].1, cols[k].2 j)
      (List.mem_map.2 ⟨cols[k], List.getElem_mem hk, rfl⟩)
    simp only at this
    rw [this]
    rfl

/-- Adding all parameter sets of the columns. -/
lemma addAll {P : ℕ} (cols : Dict (Fin P → V)) (hn : cols.keys.Nodup) (i0 : Fin P) (js : List (Fin P)) :
    ∀ s : RepState V, s.mem[0]? = some (cols.map fun c => (c.1, c.2 i0)) → (∀ p ∈ s.rep, p < s.mem.length) →
    ∃ s' : RepState V, (js.map fun j => cols.map fun c => (c.1, c.2 j)).foldlM (m := Except PyErr) (init := s) addSet = .ok s' ∧ s'.params = s.params ++ js.map fun j => cols.map fun c => (c.1, c.2 j) := by
  induction js with
  | nil => intro s _ _; exact ⟨s, rfl, by simp⟩
  | cons j js ih =>
    intro s hs hr
    have hkeys : ∀ j, Dict.keys (cols.map fun c => (c.1, c.2 j)) = cols.keys := fun j => by simp [Dict.keys, Function.comp_def]
    have hf := C46_fill_accepted s.mem 0 _ [] (cols.map fun c => (c.1, c.2 j)) hs (by rw [hkeys]; exact hn) (by rw [hkeys]; exact hn)
      ⟨by rw [hkeys, hkeys]; exact fun k hk => hk, by rw [hkeys, hkeys]; simp, by simp⟩
    rw [filled_same cols hn i0 j] at hf
    have hlen : 0 < s.mem.length := by
      by_contra hcon
      rw [List.getElem?_eq_none (by omega)] at hs
      cases hs
    obtain ⟨s', h1, h2⟩ := ih ⟨s.mem ++ [cols.map fun c => (c.1, c.2 j)], s.rep ++ [s.mem.length]⟩
      (by rw [List.getElem?_append_left hlen]; exact hs)
      (by
        intro p hp
        simp only [List.mem_append, List.mem_singleton] at hp
        simp only [List.length_append, List.length_singleton]
        rcases hp with hp | rfl
        · exact Nat.lt_succ_of_lt (hr p hp)
        · exact Nat.lt_succ_self _)
    refine ⟨s', ?_, ?_⟩
    · rw [List.map_cons, List.foldlM_cons]
      simp only [addSet, addRep, hf, bind, Except.bind]
      exact h1
    · rw [h2]
      simp only [RepState.params, List.map_append, List.map_cons, List.map_nil, List.append_assoc, List.getElem?_concat_length,
        Option.getD_some, List.singleton_append]
      congr 1
      apply List.map_congr_left
      intro p hp
      rw [List.getElem?_append_left (hr p hp)]

lemma mapM_except {A B : Type} (l : List A) (f : A → Except PyErr B) (g : A → B) (h : ∀ a ∈ l, f a = .ok (g a)) :
    l.mapM f = .ok (l.map g) := by
  induction l with
  | nil => rfl
  | cons a l ih =>
    rw [List.mapM_cons, h a (by simp), ih fun b hb => h b (by simp [hb])]
    rfl

/-- C57: construction succeeds for columns of one common positive length: the object has one parameter set per position, with the
names in the given order, and evaluates with exactly these columns. -/
theorem C57_init {P : ℕ} (tree : Tree) (ax : String) (single : Dict V) (cols : Dict (Fin P → V)) (hP : 0 < P) (hne : cols ≠ [])
    (hn : cols.keys.Nodup) :
    ∃ f, init tree ax single (asLists cols) = .ok f ∧ f.tree = tree ∧ f.axisName = ax ∧ f.single = single ∧
      f.columns = asLists cols ∧ f.rep.params = rowsOf cols := by
  have hrows : rowsOf cols = (List.finRange P).map fun j => cols.map fun c => (c.1, c.2 j) := by
    unfold rowsOf
    rw [List.ofFn_eq_map]
  obtain ⟨n, rfl⟩ : ∃ n, P = n + 1 := ⟨P - 1, by omega⟩
  have hhead : (rowsOf cols).headD [] = cols.map fun c => (c.1, c.2 0) := by
    unfold rowsOf
    rw [List.ofFn_succ]
    rfl
  obtain ⟨s, h1, h2⟩ := addAll cols hn 0 (List.finRange (n + 1)) ⟨[(rowsOf cols).headD []], []⟩ (by rw [hhead]; rfl) (by simp)
  rw [← hrows] at h1 h2
  have hp : s.params = rowsOf cols := by rw [h2]; simp [RepState.params]
  have hcol : ∀ k ∈ cols.keys, ∃ c ∈ cols, c.1 = k := by
    intro k hk
    obtain ⟨c, hc, rfl⟩ := List.mem_map.1 hk
    exact ⟨c, hc, rfl⟩
  -- columns read back from the parameter sets
  have hread : ∀ c ∈ cols, columnOf (rowsOf cols) c.1 = .ok (List.ofFn c.2) := by
    intro c hc
    unfold columnOf
    have : ∀ d ∈ rowsOf cols, ∃ j, d = cols.map fun c => (c.1, c.2 j) := by
      intro d hd
      rw [hrows] at hd
      obtain ⟨j, -, rfl⟩ := List.mem_map.1 hd
      exact ⟨j, rfl⟩
    rw [hrows, List.ofFn_eq_map]
    have hg : ∀ j, Dict.get (cols.map fun c => (c.1, c.2 j)) c.1 = some (c.2 j) := by
      intro j
      rw [get_eq_keyword]
      have hkeys : Dict.keys (cols.map fun c => (c.1, c.2 j)) = cols.keys := by simp [Dict.keys, Function.comp_def]
      exact find_of_mem (cols.map fun c => (c.1, c.2 j)) (by rw [hkeys]; exact hn) (c.1, c.2 j) (List.mem_map.2 ⟨c, hc, rfl⟩)
    generalize List.finRange (n + 1) = js
    induction js with
    | nil => rfl
    | cons j js ih =>
      rw [List.map_cons, List.mapM_cons, hg j, ih]
      rfl
  have hcols : (cols.keys).mapM (fun k => (do return (k, ← columnOf s.params k) : Except PyErr (String × List V))) =
      .ok (asLists cols) := by
    rw [hp]
    have : ∀ l : Dict (Fin (n + 1) → V), (∀ c ∈ l, c ∈ cols) → (Dict.keys l).mapM (fun k =>
        (do return (k, ← columnOf (rowsOf cols) k) : Except PyErr (String × List V))) = .ok (asLists l) := by
      intro l
      induction l with
      | nil => intro _; rfl
      | cons c l ih =>
        intro hl
        have := ih fun d hd => hl d (by simp [hd])
        simp only [Dict.keys] at this
        rw [Dict.keys, List.map_cons, List.mapM_cons, hread c (hl c (by simp)), this]
        rfl
    exact this cols fun c hc => hc
  refine ⟨⟨tree, ax, single, s, asLists cols⟩, ?_, rfl, rfl, rfl, rfl, hp⟩
  unfold init
  rw [buildSets_ok cols hne hn]
  simp only [bind, Except.bind]
  rw [h1]
  simp only
  have hcons : ∃ rest, s.params = (cols.map fun c => (c.1, c.2 0)) :: rest := by
    rw [hp]
    unfold rowsOf
    rw [List.ofFn_succ]
    exact ⟨_, rfl⟩
  obtain ⟨rest, hrest⟩ := hcons
  have hk0 : Dict.keys (cols.map fun c => (c.1, c.2 0)) = cols.keys := by simp [Dict.keys, Function.comp_def]
  rw [hrest] at hcols ⊢
  simp only [bind, Except.bind] at hcols
  simp only [hk0]
  rw [hcols]
  rfl

/-! ## Evaluation -/

lemma evaluate_cols {P : ℕ} (O : Ops V) (f : Obj V) (cols : Dict (Fin P → V)) (hc : f.columns = asLists cols) (hne : cols ≠ [])
    (u : Unit V) (lbda : Fin N → V) :
    evaluate O f u lbda = (transform O (P := P) ⟨f.axisName, fun i => u.convert O (lbda i), f.single, cols⟩ f.tree).map
      fun a => ⟨P, a⟩ := by
  obtain ⟨tree, ax, single, rep, columns⟩ := f
  simp only at hc
  subst hc
  cases cols with
  | nil => exact absurd rfl hne
  | cons c cols =>
    have hP : setCount (asLists (c :: cols)) = P := by simp [asLists, setCount]
    have hall : ((asLists (c :: cols)).any fun d => decide (d.2.length ≠ P)) = false := by
      simp [asLists]
    have hmap : ((asLists (c :: cols)).map fun d => (d.1, fun j : Fin P => d.2.getD j O.zero)) = c :: cols := by
      unfold asLists
      rw [List.map_map]
      conv_rhs => rw [← List.map_id (c :: cols)]
      apply List.map_congr_left
      intro d _
      simp [Function.comp]
    unfold evaluate
    simp only
    generalize setCount (asLists (c :: cols)) = Q at hP
    subst hP
    rw [hall]
    simp only [Bool.false_eq_true, if_false]
    rw [hmap]

/-- C57: for columns of one common length, a formula with known names, no `heaviside`, and brackets that mention the axis is
evaluated; at each wavelength the result is what the formula means there: the sum over the parameter sets of the bracketed expression,
names looked up as axis, single parameter, repeated parameter in this order. All other formulas raise an exception. -/
theorem C57_value {P : ℕ} (O : Ops V) (f : Obj V) (cols : Dict (Fin P → V)) (hc : f.columns = asLists cols) (hne : cols ≠ [])
    (u : Unit V) (lbda : Fin N → V) (hw : WellFormed false f.tree) :
    (Evaluable f.axisName f.single.keys cols.keys f.tree → ∃ a : Arr N P V, evaluate O f u lbda = .ok ⟨P, a⟩ ∧
      ∀ i, ∃ v, a.out i = some v ∧
        denote O f.axisName (u.convert O (lbda i)) f.single (rowsOf cols) [] f.tree = some v) ∧
    (¬ Evaluable f.axisName f.single.keys cols.keys f.tree → evaluate O f u lbda = .error .visitError) := by
  rw [evaluate_cols O f cols hc hne u lbda]
  obtain ⟨h1, h2⟩ := transform_out O (⟨f.axisName, fun i => u.convert O (lbda i), f.single, cols⟩ : Env N P V) f.tree hw
  constructor
  · intro he
    obtain ⟨a, h3, -, h5⟩ := h1 he
    refine ⟨a, by rw [h3]; rfl, fun i => ?_⟩
    obtain ⟨v, h6, h7⟩ := h5 i []
    exact ⟨v, h6, h7⟩
  · intro he
    rw [h2 he]
    rfl

/-- C57 without repeated parameters: the formula is evaluated as it stands; a bracket is then an empty sum. -/
theorem C57_value_single (O : Ops V) (f : Obj V) (hc : f.columns = []) (u : Unit V) (lbda : Fin N → V)
    (hw : WellFormed false f.tree) :
    (Evaluable f.axisName f.single.keys [] f.tree → ∃ a : Arr N 0 V, evaluate O f u lbda = .ok ⟨0, a⟩ ∧
      ∀ i, ∃ v, a.out i = some v ∧ denote O f.axisName (u.convert O (lbda i)) f.single [] [] f.tree = some v) ∧
    (¬ Evaluable f.axisName f.single.keys [] f.tree → evaluate O f u lbda = .error .visitError) := by
  have he : evaluate O f u lbda =
      (transform O (P := 0) ⟨f.axisName, fun i => u.convert O (lbda i), f.single, []⟩ f.tree).map fun a => ⟨0, a⟩ := by
    obtain ⟨tree, ax, single, rep, columns⟩ := f
    simp only at hc
    subst hc
    rfl
  rw [he]
  obtain ⟨h1, h2⟩ := transform_out O (⟨f.axisName, fun i => u.convert O (lbda i), f.single, []⟩ : Env N 0 V) f.tree hw
  constructor
  · intro he
    obtain ⟨a, h3, -, h5⟩ := h1 he
    refine ⟨a, by rw [h3]; rfl, fun i => ?_⟩
    obtain ⟨v, h6, h7⟩ := h5 i []
    refine ⟨v, h6, ?_⟩
    have : setsOf (⟨f.axisName, fun i => u.convert O (lbda i), f.single, []⟩ : Env N 0 V) = [] := by simp [setsOf]
    rw [mean, this] at h7
    exact h7
  · intro he
    rw [h2 he]
    rfl

/-- C57, units: a formula in a unit of length is the formula at the scaled wavelength, a formula in a unit of energy the formula at the scaling (the energy of a photon
of 1 nm in that unit) divided by the wavelength. -/
theorem C57_units (O : Ops V) (f : Obj V) (s : V) (lbda : Fin N → V) :
    evaluate O f (.length s) lbda = evaluate O f .none (fun i => O.mul s (lbda i)) ∧
    evaluate O f (.energy s) lbda = evaluate O f .none (fun i => O.div s (lbda i)) := ⟨rfl, rfl⟩

/-- C57 fails for brackets without the axis: `sum[A]` is a meaningful formula (the sum of the `A`), but evaluating it raises an
exception for every object with a repeated parameter `A`. -/
theorem C57_constant_bracket_refuted {P : ℕ} (O : Ops V) (f : Obj V) (A : Fin P → V) (hA : f.axisName ≠ "A")
    (ht : f.tree = .sumExpr (.paramName "A")) (hs : "A" ∉ f.single.keys) (hc : f.columns = asLists [("A", A)]) (u : Unit V)
    (lbda : Fin N → V) :
    evaluate O f u lbda = .error .visitError ∧
    ∀ x, denote O f.axisName x f.single (rowsOf [("A", A)]) [] f.tree = some ((List.ofFn A).foldl O.add O.zero) := by
  constructor
  · refine (C57_value O f [("A", A)] hc (by simp) u lbda (by rw [ht]; exact ⟨rfl, rfl⟩)).2 ?_
    rw [ht]
    rintro ⟨h, -⟩
    simp only [mentions, decide_eq_true_eq] at h
    exact hA h.symm
  · intro x
    rw [ht]
    have hA' : "A" ≠ f.axisName := fun h => hA h.symm
    have hl : lookup f.single "A" = none := by rw [lookup_eq_get]; exact (get_none_iff _ _).2 hs
    have : (rowsOf [("A", A)]).mapM (fun d => denote O f.axisName x f.single (rowsOf [("A", A)]) d (.paramName "A")) =
        some (List.ofFn A) := by
      unfold rowsOf
      apply mapM_ofFn_some
      intro j
      simp only [denote, hA', if_false, hl]
      simp [lookup]
    rw [denote, this]
    rfl

/-- C57 fails for `heaviside`: it is in the grammar, but `np.heaviside` needs two arguments, so every formula that uses it raises an
exception. -/
theorem C57_heaviside_refuted (O : Ops V) (E : Env N P V) (t : Tree) (ht : WellFormed false t) :
    transform O E (.func "heaviside" t) = .error .visitError := by
  refine (transform_out O E (.func "heaviside" t) ht).2 ?_
  rintro ⟨h, -⟩
  simp at h

/-- C57 fails for parameter sets added later: `add` accepts them and stores them in `rep_params`, but evaluation keeps using the
columns made at construction, so no value changes. -/
theorem C57_late_add_refuted (O : Ops V) (f : Obj V) (args : List V) (kwargs : Dict V) (u : Unit V) (lbda : Fin N → V) :
    evaluate O (lateAdd f args kwargs).2 u lbda = evaluate O f u lbda := rfl

/-- A witness that such an `add` is accepted: `sum[A * x]` with one set, and a second set added. -/
theorem C57_late_add_witness_refuted : ∃ f : Obj ℚ, init (.sumExpr (.mul (.paramName "A") (.paramName "x"))) "x" [] [("A", [2])] = .ok f ∧
    (lateAdd f [] [("A", 3)]).1 = .ok ⟨⟩ ∧ (lateAdd f [] [("A", 3)]).2.rep.params = [[("A", 2)], [("A", 3)]] := by
  refine ⟨⟨.sumExpr (.mul (.paramName "A") (.paramName "x")), "x", [], ⟨[[("A", 2)], [("A", 2)]], [1]⟩, [("A", [2])]⟩, ?_, ?_, ?_⟩
  · rfl
  · rfl
  · rfl

/-- Non-trivial case of C57_init and C57_value: `1 + sum[A * x]`. -/
example (O : Ops V) (A : Fin 2 → V) (lbda : Fin N → V) :
    ∃ f : Obj V, init (.add (.number "1") (.sumExpr (.mul (.paramName "A") (.paramName "x")))) "x" [] (asLists [("A", A)]) = .ok f ∧
    ∃ a : Arr N 2 V, evaluate O f .none lbda = .ok ⟨2, a⟩ := by
  obtain ⟨f, h1, h2, h3, h4, h5, h6⟩ := C57_init (.add (.number "1") (.sumExpr (.mul (.paramName "A") (.paramName "x")))) "x"
    ([] : Dict V) [("A", A)] (by simp) (by simp) (by simp [Dict.keys])
  refine ⟨f, h1, ?_⟩
  obtain ⟨a, ha, -⟩ := (C57_value O f [("A", A)] h5 (by simp) .none lbda (by rw [h2]; simp [WellFormed])).1
    (by rw [h2, h3]; simp [Evaluable, mentions, Dict.keys])
  exact ⟨a, ha⟩

end PyElli.Formula
