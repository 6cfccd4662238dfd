import Verif.Model.ResultLists
import Verif.Props.Angles
import Mathlib.Tactic.Linarith

/-! # C125: lists of results -/

namespace Spec

open PyElli.RList PyElli.Lookup

/-- The results appended to `data` by a program, in order. -/
def appended {R : Type} (d : ℕ) : List (Op R) → List ℕ
  | [] => []
  | .append d' i :: ops => if d' = d then i :: appended d ops else appended d ops
  | _ :: ops => appended d ops

/-- The operation does not make another name for the list of `data` (`data.mean` kept in a variable, or the list itself). -/
def NoAlias {R : Type} (d l : ℕ) : Op R → Prop
  | .mean d' => d' ≠ d
  | .listAppend l' _ => l' ≠ l
  | .resultList (some l') => l' ≠ l
  | _ => True

/-- numpy's `a[k]`. -/
def row (a : Nd) (k : ℕ) : Nd := ⟨a.shape.tail, (a.data.drop (k * a.shape.tail.prod)).take a.shape.tail.prod⟩

end Spec

namespace PyElli.RList

open PyElli.Lookup Spec

variable {R : Type}

/-- What the proof keeps: `data` has a list of its own, with the given entries. -/
structure Own (w : World R) (d l : ℕ) (es : List ℕ) : Prop where
  here : w.listOf d = some l
  only : ∀ e, w.listOf e = some l → e = d
  entries : w.lists[l]? = some es

theorem listOf_append (w : World R) (x : Option ℕ) (e : ℕ) :
    ({ w with rlists := w.rlists ++ [x] } : World R).listOf e = if e = w.rlists.length then x else w.listOf e := by
  unfold World.listOf
  simp only
  split_ifs with h
  · subst h; simp
  · rcases lt_or_gt_of_ne h with h | h
    · rw [List.getElem?_append_left h]
    · rw [List.getElem?_eq_none (by simp; omega), List.getElem?_eq_none (by omega)]

theorem listOf_lt {w : World R} {d l : ℕ} (h : w.listOf d = some l) : d < w.rlists.length := by
  by_contra hc
  unfold World.listOf at h
  rw [List.getElem?_eq_none (by omega)] at h
  simp at h

theorem own_step {w : World R} {d l : ℕ} {es : List ℕ} (h : Own w d l es) (op : Op R) (ho : NoAlias d l op) :
    Own (step w op) d l (es ++ appended d [op]) := by
  have hl : l < w.lists.length := by
    by_contra hc
    have := h.entries
    rw [List.getElem?_eq_none (by omega)] at this
    simp at this
  have hd := listOf_lt h.here
  cases op with
  | result r => exact ⟨h.here, h.only, by simpa [appended, step] using h.entries⟩
  | asDeltaRange i change =>
    have : (step w (.asDeltaRange i change)).rlists = w.rlists ∧ (step w (.asDeltaRange i change)).lists = w.lists := by
      simp only [step]
      split
      · exact ⟨rfl, rfl⟩
      · split <;> exact ⟨rfl, rfl⟩
    refine ⟨?_, ?_, ?_⟩
    · unfold World.listOf; rw [this.1]; exact h.here
    · intro e he; unfold World.listOf at he; rw [this.1] at he; exact h.only e he
    · rw [this.2]; simpa [appended] using h.entries
  | list is =>
    refine ⟨h.here, h.only, ?_⟩
    simp only [step, appended, List.append_nil]
    rw [List.getElem?_append_left hl]
    exact h.entries
  | listAppend l' i =>
    refine ⟨h.here, h.only, ?_⟩
    have : l' ≠ l := ho
    simp only [step, appended, List.append_nil, List.getElem?_modify, if_neg this, h.entries]
    rfl
  | resultList arg =>
    cases arg with
    | none =>
      refine ⟨?_, ?_, ?_⟩
      · have := listOf_append { w with lists := w.lists ++ [[]] } (some w.lists.length) d
        simp only at this
        rw [if_neg (by omega)] at this
        exact this.trans h.here
      · intro e he
        have := listOf_append { w with lists := w.lists ++ [[]] } (some w.lists.length) e
        simp only at this
        change (World.mk w.results (w.lists ++ [[]]) (w.rlists ++ [some w.lists.length])).listOf e = some l at he
        rw [this] at he
        split_ifs at he with hc
        · simp only [Option.some.injEq] at he
          omega
        · exact h.only e he
      · simp only [step, appended, List.append_nil]
        rw [List.getElem?_append_left hl]
        exact h.entries
    | some l' =>
      have hne : l' ≠ l := ho
      refine ⟨?_, ?_, ?_⟩
      · change ({ w with rlists := w.rlists ++ [some l'] } : World R).listOf d = some l
        rw [listOf_append, if_neg (by omega)]
        exact h.here
      · intro e he
        change ({ w with rlists := w.rlists ++ [some l'] } : World R).listOf e = some l at he
        rw [listOf_append] at he
        split_ifs at he with hc
        · exact absurd (Option.some.inj he) hne
        · exact h.only e he
      · simpa [appended, step] using h.entries
  | append d' i =>
    by_cases hc : d' = d
    · subst hc
      simp only [step, h.here, appended, if_true]
      refine ⟨h.here, h.only, ?_⟩
      simp only [List.getElem?_modify, if_true, h.entries]
      rfl
    · simp only [step, appended, if_neg hc, List.append_nil]
      split
      · exact h
      · rename_i l' hl'
        have hne : l' ≠ l := fun e => hc (h.only d' (e ▸ hl'))
        refine ⟨h.here, h.only, ?_⟩
        simp only [List.getElem?_modify, if_neg hne, h.entries]
        rfl
  | mean d' =>
    have hc : d' ≠ d := ho
    simp only [step, appended, List.append_nil]
    split
    · exact h
    · rename_i l' hl'
      have hne : l' ≠ l := fun e => hc (h.only d' (e ▸ hl'))
      refine ⟨?_, ?_, h.entries⟩
      · rw [listOf_append, if_neg (by omega)]
        exact h.here
      · intro e he
        rw [listOf_append] at he
        split_ifs at he with hc
        · exact absurd (Option.some.inj he) hne
        · exact h.only e he

theorem appended_cons (d : ℕ) (op : Op R) (ops : List (Op R)) : appended d (op :: ops) = appended d [op] ++ appended d ops := by
  cases op <;> simp [appended]
  split_ifs <;> simp

theorem own_run : ∀ (ops : List (Op R)) {w : World R} {d l : ℕ} {es : List ℕ}, Own w d l es → (∀ op ∈ ops, NoAlias d l op) →
    Own (run w ops) d l (es ++ appended d ops)
  | [], _, _, _, _, h, _ => by simpa [run, appended] using h
  | op :: ops, w, d, l, es, h, ho => by
    have := own_run ops (own_step h op (ho op (by simp))) (fun o hm => ho o (List.mem_cons_of_mem _ hm))
    rw [appended_cons, ← List.append_assoc]
    exact this

/-- A memory in which every `ResultList` refers to an existing list. -/
def World.Sound (w : World R) : Prop := ∀ e l, w.listOf e = some l → l < w.lists.length

/-- **C125** (partial): after `data = ResultList()`, whatever else the program does, `data` holds exactly the appended results in
order, as they are at that time, and `len(data)` is their number. Missing: programs that
give the list another name (`C125_shared_refuted`). -/
theorem C125_appended_partial (w : World R) (hw : w.Sound) (ops : List (Op R))
    (ho : ∀ op ∈ ops, NoAlias w.rlists.length w.lists.length op) :
    let w' := run (step w (.resultList none)) ops
    let d := w.rlists.length
    w'.entries d = appended d ops ∧ w'.len d = (appended d ops).length ∧
      w'.held d = (appended d ops).filterMap fun i => w'.results[i]? := by
  intro w' d
  have h0 : Own (step w (.resultList none)) d w.lists.length [] := by
    refine ⟨?_, ?_, ?_⟩
    · have := listOf_append { w with lists := w.lists ++ [[]] } (some w.lists.length) d
      simp only at this
      rw [if_pos rfl] at this
      exact this
    · intro e he
      have := listOf_append { w with lists := w.lists ++ [[]] } (some w.lists.length) e
      simp only at this
      change (World.mk w.results (w.lists ++ [[]]) (w.rlists ++ [some w.lists.length])).listOf e = some _ at he
      rw [this] at he
      split_ifs at he with hc
      · exact hc
      · exact absurd (hw e _ he) (lt_irrefl _)
    · simp [step]
  have h := own_run ops h0 ho
  have e : w'.entries d = appended d ops := by
    unfold World.entries
    rw [h.here]
    simp only [Option.bind_some]
    rw [h.entries]
    simp
  refine ⟨e, by unfold World.len; rw [e], ?_⟩
  unfold World.held
  rw [e]

/-- A program with two lists and a changed result: the first list holds the results 1, 0 and 1. -/
example : (run (step (⟨[10, 20], [], []⟩ : World ℕ) (.resultList none))
    [.append 0 1, .resultList none, .append 1 0, .append 0 0, .asDeltaRange 1 (fun x => .ok (x + 1)), .append 0 1]).held 0 = [21, 10, 21] := by
  have := (C125_appended_partial (⟨[10, 20], [], []⟩ : World ℕ) (by intro e l h; simp [World.listOf] at h)
    [.append 0 1, .resultList none, .append 1 0, .append 0 0, .asDeltaRange 1 (fun x => .ok (x + 1)), .append 0 1]
    (by intro op h; simp only [List.mem_cons, List.not_mem_nil, or_false] at h; rcases h with rfl | rfl | rfl | rfl | rfl | rfl <;> trivial)).2.2
  exact this.trans rfl

theorem flat_row : ∀ (arrays : List Nd) (p k : ℕ) (h : ∀ a ∈ arrays, a.data.length = p) (hk : k < arrays.length),
    ((arrays.flatMap Nd.data).drop (k * p)).take p = (arrays[k]).data
  | a :: as, p, 0, h, _ => by
    have := h a (by simp)
    simp [← this]
  | a :: as, p, k + 1, h, hk => by
    have ha := h a (by simp)
    have := flat_row as p k (fun b hb => h b (List.mem_cons_of_mem _ hb)) (by simpa using hk)
    have e : (k + 1) * p = a.data.length + k * p := by rw [ha]; ring
    simp only [List.flatMap_cons, List.getElem_cons_succ]
    rw [e, List.drop_append, List.drop_eq_nil_of_le (by omega)]
    simpa using this

theorem prod_filter_one : ∀ s : List ℕ, (s.filter (· ≠ 1)).prod = s.prod
  | [] => rfl
  | n :: s => by
    have := prod_filter_one s
    by_cases hn : n = 1
    · subst hn; simpa using this
    · rw [List.filter_cons_of_pos (by simpa using hn), List.prod_cons, List.prod_cons, this]

/-- **C125** (partial): with two or more results, row `k` of `data.name` is the attribute of result `k` (without its axes of
length one). Missing: lists with one result (`C125_one_result_refuted`). -/
theorem C125_rows_partial (arrays : List Nd) (s : List ℕ) (h2 : 2 ≤ arrays.length) (hs : ∀ a ∈ arrays, a.shape = s ∧ a.data.length = s.prod) :
    ∃ a, listAttr arrays = .ok a ∧ a.shape.head? = some arrays.length ∧
      ∀ k (hk : k < arrays.length), row a k = squeeze arrays[k] := by
  obtain ⟨b, bs, rfl⟩ : ∃ b bs, arrays = b :: bs := by
    cases arrays with
    | nil => simp at h2
    | cons b bs => exact ⟨b, bs, rfl⟩
  have hshape : ∀ c ∈ bs, c.shape = b.shape := fun c hc => by
    rw [(hs c (List.mem_cons_of_mem _ hc)).1, (hs b (by simp)).1]
  have hb := (hs b (by simp)).1
  have hne : bs.length + 1 ≠ 1 := by simp only [List.length_cons] at h2; omega
  refine ⟨squeeze ⟨(bs.length + 1) :: b.shape, (b :: bs).flatMap Nd.data⟩, ?_, ?_, ?_⟩
  · simp only [listAttr, stack, if_pos hshape]
    rfl
  · simp only [squeeze]
    rw [List.filter_cons_of_pos (by simpa using hne)]
    simp
  · intro k hk
    unfold row squeeze
    rw [List.filter_cons_of_pos (by simpa using hne)]
    simp only [List.tail_cons]
    rw [prod_filter_one, hb, flat_row _ _ k (fun a ha => (hs a ha).2) hk, (hs _ (List.getElem_mem hk)).1]

/-- Two results over three wavelengths: row 1 is the second result. -/
example : ∃ a, listAttr [⟨[3], [1, 2, 3]⟩, ⟨[3], [4, 5, 6]⟩] = .ok a ∧ row a 1 = ⟨[3], [4, 5, 6]⟩ := by
  obtain ⟨a, h, _, hr⟩ := C125_rows_partial [⟨[3], [1, 2, 3]⟩, ⟨[3], [4, 5, 6]⟩] [3] (by simp) (by simp)
  exact ⟨a, h, hr 1 (by simp)⟩

theorem readAll_ok {read : R → String → Except PyErr Nd} {name : String} (val : R → Nd) : ∀ {rs : List R}, (∀ r ∈ rs, read r name = .ok (val r)) →
    readAll read name rs = .ok (rs.map val)
  | [], _ => rfl
  | r :: rs, h => by
    have ih := readAll_ok val (rs := rs) fun x hx => h x (List.mem_cons_of_mem _ hx)
    simp only [readAll, h r (by simp), ih, List.map_cons]

/-- **C125** (partial): reading an attribute of a list of two or more results calls for that attribute of every result it holds, and row `k` is the answer of
result `k`. The same on access through `__getattr__`. Missing: lists with one result (`C125_one_result_refuted`). -/
theorem C125_attr_partial (w : World R) (read : R → String → Except PyErr Nd) (d : ℕ) (name : String) (val : R → Nd) (s : List ℕ)
    (hread : ∀ r ∈ w.held d, read r name = .ok (val r)) (h2 : 2 ≤ (w.held d).length) (hs : ∀ r ∈ w.held d, (val r).shape = s ∧ (val r).data.length = s.prod)
    (methods : List String) (depth : ℕ) (hd : 2 ≤ depth) (hres : name ≠ "results") (hmean : name ≠ "mean") (hn : name ∉ methods) :
    ∃ a, w.attr read d name = .ok a ∧ getattr w read methods d depth name = .ok (.array a) ∧ a.shape.head? = some (w.held d).length ∧
      ∀ k (hk : k < (w.held d).length), row a k = squeeze (val (w.held d)[k]) := by
  obtain ⟨a, h1, h3, h4⟩ := C125_rows_partial ((w.held d).map val) s (by simpa using h2) (by
    intro a ha
    obtain ⟨r, hr, rfl⟩ := List.mem_map.1 ha
    exact hs r hr)
  have hall := readAll_ok val hread
  refine ⟨a, ?_, ?_, by simpa using h3, fun k hk => ?_⟩
  · simp only [World.attr, hall, h1]
  · obtain ⟨l, hl⟩ : ∃ l, w.listOf d = some l := by
      by_contra hno
      have : w.listOf d = none := Option.eq_none_iff_forall_ne_some.2 fun l hl => hno ⟨l, hl⟩
      simp [World.held, World.entries, this] at h2
    obtain ⟨n, rfl⟩ := Nat.exists_eq_add_of_le' hd
    have e : (w.lists[l]?.getD []).filterMap (fun i => w.results[i]?) = w.held d := by
      simp [World.held, World.entries, hl]
    simp only [getattr, if_neg hres, if_neg hn, if_true, hl, if_neg hmean, e, hall, h1]
    rfl
  · have := h4 k (by simpa using hk)
    simpa using this

/-- Two results of three wavelengths in a list: row 1 of the attribute is the second. -/
example (read : ℕ → String → Except PyErr Nd) (hr : ∀ i, read i "psi" = .ok ⟨[3], [i, i, i]⟩) :
    ∃ a, (⟨[7, 8], [[0, 1]], [some 0]⟩ : World ℕ).attr read 0 "psi" = .ok a ∧ row a 1 = ⟨[3], [(8 : ℕ), (8 : ℕ), (8 : ℕ)]⟩ := by
  obtain ⟨a, h, -, -, hrow⟩ := C125_attr_partial (⟨[7, 8], [[0, 1]], [some 0]⟩ : World ℕ) read 0 "psi" (fun i => ⟨[3], [i, i, i]⟩) [3] (fun r _ => hr r)
    (by simp [World.held, World.entries, World.listOf]) (fun r _ => ⟨rfl, rfl⟩) [] 2 le_rfl (by decide) (by decide) (by simp)
  exact ⟨a, h, hrow 1 (by simp [World.held, World.entries, World.listOf])⟩

/-- **C125 fails** for a list with one result over `n ≥ 2` wavelengths: `data.name` is the array of that result, and `data.name[0]`
is its value at the first wavelength. -/
theorem C125_one_result_refuted (a : Nd) (n : ℕ) (hn : 2 ≤ n) (hs : a.shape = [n]) :
    ∃ b, listAttr [a] = .ok b ∧ b.shape = [n] ∧ row b 0 = ⟨[], a.data.take 1⟩ ∧ row b 0 ≠ squeeze a := by
  have h1 : n ≠ 1 := by omega
  refine ⟨squeeze ⟨1 :: [n], a.data ++ []⟩, ?_, ?_, ?_, ?_⟩
  · simp [listAttr, stack, Except.map, hs]
  · simp [squeeze, h1]
  · simp [squeeze, row, h1]
  · intro h
    have := congrArg Nd.shape h
    simp [squeeze, row, hs, h1] at this

theorem step_listOf {w : World R} {e l : ℕ} (h : w.listOf e = some l) (op : Op R) : (step w op).listOf e = some l := by
  have hlt := listOf_lt h
  have key : ∀ (ls : List (List ℕ)) x, (World.mk w.results ls (w.rlists ++ [x])).listOf e = some l := by
    intro ls x
    have := listOf_append { w with lists := ls } x e
    simp only at this
    rw [if_neg (by omega)] at this
    exact this.trans h
  cases op with
  | result r => exact h
  | asDeltaRange i change =>
    simp only [step]
    split
    · exact h
    · split <;> exact h
  | list is => exact h
  | listAppend l' i => exact h
  | resultList arg =>
    cases arg with
    | none => exact key _ _
    | some l' => exact key _ _
  | append d i =>
    simp only [step]
    split <;> exact h
  | mean d =>
    simp only [step]
    split
    · exact h
    · exact key _ _

theorem run_listOf : ∀ (ops : List (Op R)) {w : World R} {e l : ℕ}, w.listOf e = some l → (run w ops).listOf e = some l
  | [], _, _, _, h => h
  | op :: ops, _, _, _, h => run_listOf ops (step_listOf h op)

/-- **C125**: `m = data.mean` follows `data`: after any further program both hold the same results. -/
theorem C125_mean_follows (w : World R) (d l : ℕ) (h : w.listOf d = some l) (ops : List (Op R)) :
    let w' := run (step w (.mean d)) ops
    w'.held w.rlists.length = w'.held d := by
  intro w'
  have h1 : (step w (.mean d)).listOf d = some l := step_listOf h _
  have h2 : (step w (.mean d)).listOf w.rlists.length = some l := by
    simp only [step, h]
    rw [listOf_append, if_pos rfl]
  unfold World.held World.entries
  rw [run_listOf ops h1, run_listOf ops h2]

/-- **C125 fails** when a list is given to the constructor: `ResultList(l)` keeps the list itself, so an append to one object changes
`l` and every other object made from it, and an append to `l` changes the object. -/
theorem C125_shared_refuted (w : World R) (l i : ℕ) (es : List ℕ) (h : w.lists[l]? = some es) :
    let d := w.rlists.length
    let w' := run w [.resultList (some l), .resultList (some l), .append d i]
    w'.entries (d + 1) = es ++ [i] ∧ w'.lists[l]? = some (es ++ [i]) ∧
      (run w [.resultList (some l), .listAppend l i]).entries d = es ++ [i] := by
  intro d w'
  have e1 : (step w (.resultList (some l))).listOf d = some l := by
    change ({ w with rlists := w.rlists ++ [some l] } : World R).listOf d = some l
    rw [listOf_append, if_pos rfl]
  have e2 : (step (step w (.resultList (some l))) (.resultList (some l))).listOf (d + 1) = some l := by
    change ({ (step w (.resultList (some l))) with rlists := (step w (.resultList (some l))).rlists ++ [some l] } : World R).listOf (d + 1) = _
    rw [listOf_append, if_pos (by simp [step, d])]
  have e3 : (step (step w (.resultList (some l))) (.resultList (some l))).listOf d = some l := step_listOf e1 _
  have e4 : w'.listOf (d + 1) = some l := step_listOf e2 (.append d i)
  have e5 : w'.lists[l]? = some (es ++ [i]) := by
    change (step (step (step w (.resultList (some l))) (.resultList (some l))) (.append d i)).lists[l]? = _
    simp only [step] at e3 ⊢
    rw [e3]
    simp only [List.getElem?_modify, if_true, h]
    rfl
  refine ⟨?_, e5, ?_⟩
  · unfold World.entries
    rw [e4]
    simp only [Option.bind_some, e5, Option.getD_some]
  · have e6 : (run w [.resultList (some l), .listAppend l i]).listOf d = some l := step_listOf e1 (.listAppend l i)
    unfold World.entries
    rw [e6]
    simp only [Option.bind_some, run, List.foldl_cons, List.foldl_nil, step, List.getElem?_modify, if_true, h]
    rfl

/-- Attribute access on an object whose `results` do not exist yet never ends, whatever the recursion limit is. -/
theorem getattr_missing (w : World R) (read : R → String → Except PyErr Nd) (methods : List String) (d : ℕ) (h : w.listOf d = none)
    (hm : "results" ∉ methods) : ∀ (depth : ℕ) (name : String), name ∉ methods → getattr w read methods d depth name = .error .recursionError
  | 0, _, _ => rfl
  | depth + 1, name, hn => by
    have ih := getattr_missing w read methods d h hm depth "results" hm
    have e : (if name = "results" then w.listOf d else none) = none := by split_ifs <;> simp [h]
    simp only [getattr, e, if_neg hn, ih]

/-- **C125 fails**: no list of results can be copied (or deep-copied, or unpickled): the new object is asked for `__setstate__`
before it has `results`, and `__getattr__` calls itself until `RecursionError`. -/
theorem C125_copy_refuted (w : World R) (read : R → String → Except PyErr Nd) (methods : List String) (depth d : ℕ)
    (hm : "results" ∉ methods) (hs : "__setstate__" ∉ methods) : copy w read methods depth d = .error .recursionError := by
  have h : ({ w with rlists := w.rlists ++ [none] } : World R).listOf w.rlists.length = none := by
    rw [listOf_append, if_pos rfl]
  unfold copy
  simp only [getattr_missing _ read methods _ h hm depth "__setstate__" hs]

/-- **C125 fails** after `as_delta_range`: the method changes the result it is called on, so a list that holds it shows another delta. For every
result with default range and `delta ≥ 0`. -/
theorem C125_delta_range_refuted (r : Result) (h0 : r.range = ⟨-180, 180⟩) (hd : 0 ≤ r.delta) :
    ∃ r', r.asDeltaRange (.int (-360)) (.int 0) = .ok r' ∧
      (run (⟨[], [], []⟩ : World Result) [.result r, .resultList none, .append 0 0]).held 0 = [r] ∧
      (run (⟨[], [], []⟩ : World Result) [.result r, .resultList none, .append 0 0,
        .asDeltaRange 0 fun x => x.asDeltaRange (.int (-360)) (.int 0)]).held 0 = [r'] ∧ r'.delta < 0 ∧ r'.psi = r.psi := by
  have hr : mkDeltaRange (.int (-360)) (.int 0) = .ok ⟨-360, 0⟩ := by
    rw [C01_delta_range_accepts_iff]
    refine ⟨Or.inl rfl, by simp [Denotes], by simp [Denotes], Or.inr ⟨by norm_num, by norm_num, by norm_num⟩⟩
  have hr' : r.asDeltaRange (.int (-360)) (.int 0) = .ok { r with range := ⟨-360, 0⟩ } := by
    unfold Result.asDeltaRange
    rw [hr]
    rfl
  refine ⟨{ r with range := ⟨-360, 0⟩ }, hr', rfl, ?_, ?_, ?_⟩
  · have h3 : run (⟨[], [], []⟩ : World Result) [.result r, .resultList none, .append 0 0,
        .asDeltaRange 0 fun x => x.asDeltaRange (.int (-360)) (.int 0)] =
        step ⟨[r], [[0]], [some 0]⟩ (.asDeltaRange 0 fun x => x.asDeltaRange (.int (-360)) (.int 0)) := rfl
    have h4 : step (⟨[r], [[0]], [some 0]⟩ : World Result) (.asDeltaRange 0 fun x => x.asDeltaRange (.int (-360)) (.int 0)) =
        ⟨[{ r with range := ⟨-360, 0⟩ }], [[0]], [some 0]⟩ := by
      simp only [step, List.getElem?_cons_zero, hr']
      rfl
    rw [h3, h4]
    rfl
  · have := (C04_delta_window { r with range := ⟨-360, 0⟩ }).2
    simpa using this
  · simp only [Result.psi, Result.rho, foldRho, h0]
    rw [if_neg (by norm_num), if_neg (by norm_num)]

/-- A result with `delta = 0`. -/
example : sampleResult.range = ⟨-180, 180⟩ ∧ 0 ≤ sampleResult.delta := by
  refine ⟨rfl, ?_⟩
  have h : sampleResult.rho = 2 := by
    have := sample_ratio
    simp only [Result.rho, foldRho]
    rw [if_neg (by simp [sampleResult, Result.mk'])]
    exact this
  unfold Result.delta deltaOf
  rw [h]
  have : Complex.arg 2 = 0 := by
    rw [Complex.arg_eq_zero_iff]
    norm_num
  rw [this]
  norm_num [shiftDelta, npMod, rad2deg, sampleResult, Result.mk']

end PyElli.RList
