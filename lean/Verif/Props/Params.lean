import Verif.Model.Params
import Verif.Spec.Params
import Mathlib.Tactic

/-! # Parameter filling (C46) and adding oscillators (C47) -/

namespace PyElli

variable {α : Type}

lemma store_last (m : DictMem α) (d : Dict α) (k : String) (v : α) :
    store (m ++ [d]) m.length k v = m ++ [d.set k v] := by
  unfold store
  induction m with
  | nil => rfl
  | cons a m ih => simp [ih]

lemma set_eq_map (d : Dict α) (hd : d.keys.Nodup) (k : String) (hk : k ∈ d.keys) (v : α) :
    d.set k v = d.map fun p => (p.1, if p.1 = k then v else p.2) := by
  induction d with
  | nil => simp [Dict.keys] at hk
  | cons p d ih =>
    obtain ⟨k', x⟩ := p
    simp only [Dict.keys, List.map_cons, List.nodup_cons] at hd
    by_cases h : k' = k
    · subst h
      simp only [Dict.set, if_true, List.map_cons, List.cons.injEq, true_and]
      conv_lhs => rw [← List.map_id d]
      apply List.map_congr_left
      intro q hq
      have : q.1 ≠ k' := by
        rintro rfl
        exact hd.1 (List.mem_map_of_mem hq)
      simp [this]
    · have hk' : k ∈ Dict.keys d := by
        simp only [Dict.keys, List.map_cons, List.mem_cons] at hk
        rcases hk with rfl | hk
        · exact absurd rfl h
        · exact hk
      simp [Dict.set, h, ih hd.2 hk']

lemma get_eq_keyword (d : Dict α) (k : String) : d.get k = Spec.keyword d k := by
  induction d with
  | nil => rfl
  | cons p d ih =>
    obtain ⟨k', x⟩ := p
    by_cases h : k' = k
    · simp [Dict.get, Spec.keyword, h]
    · simp only [Dict.get, h, if_false, ih]
      simp [Spec.keyword, List.find?_cons, h]

lemma keys_mapIdx (d : Dict α) (f : ℕ → String × α → α) :
    Dict.keys (d.mapIdx fun i p => (p.1, f i p)) = d.keys := by
  simp only [Dict.keys]
  apply List.ext_getElem <;> simp

lemma keys_map (d : Dict α) (f : String × α → α) :
    Dict.keys (d.map fun p => (p.1, f p)) = d.keys := by
  simp [Dict.keys, Function.comp_def]

/-- The positional loop on the freshly copied dictionary. -/
lemma posLoop_eq (m : DictMem α) (args : List α) :
    ∀ (d : Dict α) (i : ℕ) (pos : List String), d.keys.Nodup → i + args.length ≤ d.length →
      posLoop d.keys m.length i args (m ++ [d]) pos =
        (.ok (((d.keys.drop i).take args.length).reverse ++ pos),
          m ++ [d.mapIdx fun j p => (p.1, if i ≤ j then (args[j - i]?).getD p.2 else p.2)]) := by
  induction args with
  | nil =>
    intro d i pos hd hl
    simp only [posLoop, List.length_nil, List.take_zero, List.reverse_nil, List.nil_append, Prod.mk.injEq, true_and]
    congr 2
    apply List.ext_getElem <;> simp
  | cons v args ih =>
    intro d i pos hd hl
    simp only [List.length_cons] at hl
    have hi : i < d.length := by omega
    have hik : i < d.keys.length := by simpa [Dict.keys] using hi
    have hget : d.keys[i]? = some d.keys[i] := List.getElem?_eq_getElem hik
    have hset : d.set d.keys[i] v = d.mapIdx fun j p => (p.1, if j = i then v else p.2) := by
      rw [set_eq_map d hd _ (List.getElem_mem hik)]
      apply List.ext_getElem
      · simp
      · intro j h1 h2
        simp only [List.getElem_map, List.getElem_mapIdx]
        have hj : j < d.length := by simpa using h1
        have : (d[j].1 = d.keys[i]) ↔ j = i := by
          have hjk : j < d.keys.length := by simpa [Dict.keys] using hj
          have e : d[j].1 = d.keys[j] := by simp [Dict.keys]
          rw [e]
          exact List.Nodup.getElem_inj_iff hd
        simp [this]
    have hk : (d.set d.keys[i] v).keys = d.keys := by rw [hset, keys_mapIdx]
    simp only [posLoop, hget, store_last]
    have := ih (d.set d.keys[i] v) (i + 1) (d.keys[i] :: pos) (by rw [hk]; exact hd)
      (by rw [hset]; simp; omega)
    rw [hk] at this
    rw [this]
    refine Prod.ext ?_ ?_
    · simp only [List.length_cons]
      congr 1
      rw [List.drop_eq_getElem_cons hik, List.take_succ_cons, List.reverse_cons]
      simp
    · simp only
      congr 2
      rw [hset]
      apply List.ext_getElem
      · simp
      · intro j h1 h2
        simp only [List.getElem_mapIdx]
        congr 1
        rcases lt_trichotomy j i with h | h | h
        · have : ¬ i + 1 ≤ j := by omega
          have h' : ¬ i ≤ j := by omega
          have h'' : j ≠ i := by omega
          simp [this, h', h'']
        · subst h
          simp
        · have h1' : i + 1 ≤ j := h
          have h2' : i ≤ j := by omega
          have h3 : j ≠ i := by omega
          have h4 : j - i = (j - (i + 1)) + 1 := by omega
          simp [h1', h2', h3, h4]

lemma kwLoop_ok (m : DictMem α) (pos : List String) (kw : Dict α) :
    ∀ d : Dict α, d.keys.Nodup → kw.keys.Nodup → (∀ k ∈ kw.keys, k ∈ d.keys) → (∀ k ∈ kw.keys, k ∉ pos) →
      kwLoop m.length pos kw (m ++ [d]) =
        (.ok (), m ++ [d.map fun p => (p.1, (kw.get p.1).getD p.2)]) := by
  induction kw with
  | nil =>
    intro d _ _ _ _
    simp [kwLoop, Dict.get]
  | cons q kw ih =>
    intro d hd hkw hin hpos
    obtain ⟨k, v⟩ := q
    simp only [Dict.keys, List.map_cons, List.nodup_cons] at hkw
    have hk : k ∉ pos := hpos k (by simp [Dict.keys])
    have hset := set_eq_map d hd k (hin k (by simp [Dict.keys])) v
    have hks : (d.set k v).keys = d.keys := by rw [hset]; exact keys_map d _
    simp only [kwLoop, hk, if_false, store_last]
    rw [ih (d.set k v) (by rw [hks]; exact hd) hkw.2
      (by rw [hks]; intro k' h; exact hin k' (by simp only [Dict.keys, List.map_cons, List.mem_cons]; exact Or.inr h))
      (by intro k' h; exact hpos k' (by simp only [Dict.keys, List.map_cons, List.mem_cons]; exact Or.inr h))]
    rw [hset, List.map_map]
    congr 3
    apply List.map_congr_left
    intro p _
    simp only [Function.comp, Dict.get, Prod.mk.injEq, true_and]
    by_cases h : k = p.1
    · subst h
      have : Dict.get kw p.1 = none := by
        rw [get_eq_keyword]
        simp only [Spec.keyword, Option.map_eq_none_iff, List.find?_eq_none]
        intro q hq hqk
        exact hkw.1 (by simp only [beq_iff_eq] at hqk; rw [← hqk]; exact List.mem_map_of_mem hq)
      simp [this]
    · have h' : p.1 ≠ k := fun e => h e.symm
      simp [h, h']

lemma kwLoop_prefix (m : DictMem α) (pos : List String) (kw : Dict α) :
    ∀ d : Dict α, ∃ d', (kwLoop m.length pos kw (m ++ [d])).2 = m ++ [d'] := by
  induction kw with
  | nil => intro d; exact ⟨d, rfl⟩
  | cons q kw ih =>
    intro d
    by_cases h : q.1 ∈ pos
    · exact ⟨d, by simp [kwLoop, h]⟩
    · obtain ⟨d', hd'⟩ := ih (d.set q.1 q.2)
      exact ⟨d', by simp [kwLoop, h, store_last, hd']⟩

lemma kwLoop_bad (p : ℕ) (pos : List String) (kw : Dict α) :
    ∀ m : DictMem α, (∃ k ∈ kw.keys, k ∈ pos) → (kwLoop p pos kw m).1 = .error .invalidParameters := by
  induction kw with
  | nil => rintro m ⟨k, hk, _⟩; simp [Dict.keys] at hk
  | cons q kw ih =>
    rintro m ⟨k, hk, hp⟩
    by_cases h : q.1 ∈ pos
    · simp [kwLoop, h]
    · simp only [kwLoop, h, if_false]
      refine ih _ ⟨k, ?_, hp⟩
      simp only [Dict.keys, List.map_cons, List.mem_cons] at hk
      rcases hk with rfl | hk
      · exact absurd hp h
      · exact hk

lemma guard_ok_iff (a b : List String) : guardInvalidParams a b = .ok () ↔ ∀ k ∈ a, k ∈ b := by
  unfold guardInvalidParams
  split_ifs with h
  · simpa [List.filter_eq_nil_iff] using h
  · simp only [reduceCtorEq, false_iff]
    simpa [List.filter_eq_nil_iff] using h

lemma guard_error (a b : List String) (h : ¬ ∀ k ∈ a, k ∈ b) : guardInvalidParams a b = .error .invalidParameters := by
  unfold guardInvalidParams
  split_ifs with h'
  · exact absurd (by simpa [List.filter_eq_nil_iff] using h') h
  · rfl

/-- C46, accepted calls: `_fill_params_dict` returns a new dictionary with exactly the documented contents (same names in the same
order); every dictionary that existed before, the template in particular, is unchanged. -/
theorem C46_fill_accepted (m : DictMem α) (t : ℕ) (template : Dict α) (args : List α) (kwargs : Dict α)
    (ht : m[t]? = some template) (hn : template.keys.Nodup) (hk : kwargs.keys.Nodup)
    (hok : Spec.CallAllowed template.keys args.length kwargs.keys) :
    fillParams m t args kwargs = (.ok m.length, m ++ [Spec.filled template args kwargs]) := by
  obtain ⟨h1, h2, h3⟩ := hok
  have hg := (guard_ok_iff kwargs.keys template.keys).2 h1
  have hlen : ¬ kwargs.length + args.length > template.length := by simpa [Dict.keys] using h2
  have hp := posLoop_eq m args template 0 [] hn (by omega)
  have hk1 : Dict.keys (template.mapIdx fun j p => (p.1, if 0 ≤ j then (args[j - 0]?).getD p.2 else p.2)) = template.keys :=
    keys_mapIdx template _
  have hq := kwLoop_ok m (((template.keys.drop 0).take args.length).reverse ++ []) kwargs
    (template.mapIdx fun j p => (p.1, if 0 ≤ j then (args[j - 0]?).getD p.2 else p.2))
    (by rw [hk1]; exact hn) hk (by rw [hk1]; exact h1) (by simpa using h3)
  simp only [fillParams, ht, Option.getD_some, hg, hlen, if_false, hp, hq]
  refine Prod.ext rfl ?_
  simp only
  congr 2
  apply List.ext_getElem
  · simp [Spec.filled]
  · intro j ha hb
    simp only [Spec.filled, List.getElem_map, List.getElem_mapIdx, Prod.mk.injEq, true_and, Nat.zero_le, if_true, Nat.sub_zero]
    have hj : j < template.length := by simpa using ha
    by_cases hja : j < args.length
    · have hnone : kwargs.get template[j].1 = none := by
        rw [get_eq_keyword]
        simp only [Spec.keyword, Option.map_eq_none_iff, List.find?_eq_none]
        intro q hq hqk
        simp only [beq_iff_eq] at hqk
        refine h3 q.1 (List.mem_map_of_mem hq) ?_
        rw [hqk, List.mem_take_iff_getElem]
        refine ⟨j, by simp [Dict.keys]; omega, by simp [Dict.keys]⟩
      rw [hnone]
      simp [hja]
    · have hj' : args[j]? = none := List.getElem?_eq_none (by omega)
      rw [get_eq_keyword, hj']
      simp

/-- C46, refused calls: an unknown name, too many values or a name set twice raise `InvalidParameters`, and every dictionary
that existed before, the template in particular, is unchanged. -/
theorem C46_fill_refused (m : DictMem α) (t : ℕ) (template : Dict α) (args : List α) (kwargs : Dict α)
    (ht : m[t]? = some template) (hn : template.keys.Nodup)
    (hbad : ¬ Spec.CallAllowed template.keys args.length kwargs.keys) :
    (fillParams m t args kwargs).1 = .error .invalidParameters ∧
      ∃ rest, (fillParams m t args kwargs).2 = m ++ rest := by
  by_cases h1 : ∀ k ∈ kwargs.keys, k ∈ template.keys
  · have hg := (guard_ok_iff kwargs.keys template.keys).2 h1
    by_cases h2 : kwargs.length + args.length > template.length
    · simp only [fillParams, ht, Option.getD_some, hg, h2, if_true]
      exact ⟨trivial, [], by simp⟩
    · have hp := posLoop_eq m args template 0 [] hn (by omega)
      have h3 : ∃ k ∈ kwargs.keys, k ∈ ((template.keys.drop 0).take args.length).reverse ++ [] := by
        by_contra hcon
        push Not at hcon
        exact hbad ⟨h1, by simpa [Dict.keys] using h2, by simpa using hcon⟩
      obtain ⟨d', hd'⟩ := kwLoop_prefix m (((template.keys.drop 0).take args.length).reverse ++ []) kwargs
        (template.mapIdx fun j p => (p.1, if 0 ≤ j then (args[j - 0]?).getD p.2 else p.2))
      have he := kwLoop_bad m.length _ kwargs
        (m ++ [template.mapIdx fun j p => (p.1, if 0 ≤ j then (args[j - 0]?).getD p.2 else p.2)]) h3
      simp only [fillParams, ht, Option.getD_some, hg, h2, if_false, hp]
      generalize hL : kwLoop m.length (((template.keys.drop 0).take args.length).reverse ++ []) kwargs
        (m ++ [template.mapIdx fun j p => (p.1, if 0 ≤ j then (args[j - 0]?).getD p.2 else p.2)]) = L at *
      obtain ⟨r, mm⟩ := L
      simp only at he hd'
      subst he
      exact ⟨rfl, [d'], hd'⟩
  · have hg := guard_error _ _ h1
    simp only [fillParams, ht, Option.getD_some, hg]
    exact ⟨trivial, [], by simp⟩

/-- C46: the constructor raises `InvalidParameters` exactly when the call is not allowed or a parameter is left without a value; in
all other cases it stores the documented parameter set. -/
theorem C46_init (m : DictMem (Option α)) (t : ℕ) (template : Dict (Option α)) (args : List (Option α))
    (kwargs : Dict (Option α)) (ht : m[t]? = some template) (hn : template.keys.Nodup) (hk : kwargs.keys.Nodup) :
    (∀ p, (initDispersion m t args kwargs).1 = .ok p →
        Spec.CallAllowed template.keys args.length kwargs.keys ∧ (∀ kv ∈ Spec.filled template args kwargs, kv.2 ≠ none) ∧
        (initDispersion m t args kwargs).2[p]? = some (Spec.filled template args kwargs)) ∧
      (∀ e, (initDispersion m t args kwargs).1 = .error e →
        e = .invalidParameters ∧
        (¬ Spec.CallAllowed template.keys args.length kwargs.keys ∨ ∃ kv ∈ Spec.filled template args kwargs, kv.2 = none)) ∧
      ∀ a < m.length, (initDispersion m t args kwargs).2[a]? = m[a]? := by
  by_cases hok : Spec.CallAllowed template.keys args.length kwargs.keys
  · have hf := C46_fill_accepted m t template args kwargs ht hn hk hok
    simp only [initDispersion, hf, List.getElem?_append_right (le_refl _), Nat.sub_self, List.getElem?_cons_zero,
      Option.getD_some]
    by_cases hany : (Spec.filled template args kwargs).any fun kv => kv.2.isNone
    · simp only [hany, if_true]
      refine ⟨by simp, ?_, ?_⟩
      · rintro e he
        simp only [Except.error.injEq] at he
        refine ⟨he.symm, Or.inr ?_⟩
        simpa [List.any_eq_true] using hany
      · intro a ha
        exact List.getElem?_append_left ha
    · simp only [hany]
      refine ⟨?_, by simp, ?_⟩
      · intro p hp
        simp only [Bool.false_eq_true, if_false, Except.ok.injEq] at hp
        subst hp
        refine ⟨hok, ?_, by simp⟩
        intro kv hkv hnone
        exact hany (List.any_eq_true.2 ⟨kv, hkv, by simp [hnone]⟩)
      · intro a ha
        simp only [Bool.false_eq_true, if_false]
        exact List.getElem?_append_left ha
  · obtain ⟨h1, rest, h2⟩ := C46_fill_refused m t template args kwargs ht hn hok
    generalize hL : fillParams m t args kwargs = L at *
    obtain ⟨r, mm⟩ := L
    simp only at h1 h2
    subst h1
    simp only [initDispersion, hL]
    refine ⟨by simp, ?_, ?_⟩
    · rintro e he
      simp only [Except.error.injEq] at he
      exact ⟨he.symm, Or.inl hok⟩
    · intro a ha
      rw [h2]
      exact List.getElem?_append_left ha

/-- Non-trivial case: `LorentzEnergy().add(2, gamma=3)`. -/
example : fillParams (α := ℕ) [[("A", 1), ("E", 0), ("gamma", 0)]] 0 [2] [("gamma", 3)] =
    (.ok 1, [[("A", 1), ("E", 0), ("gamma", 0)], [("A", 2), ("E", 0), ("gamma", 3)]]) :=
  C46_fill_accepted _ 0 [("A", 1), ("E", 0), ("gamma", 0)] [2] [("gamma", 3)] rfl (by decide) (by decide) ⟨by decide, by decide, by decide⟩

example : (fillParams (α := ℕ) [[("A", 1), ("E", 0), ("gamma", 0)]] 0 [2] [("A", 3)]).1 = .error .invalidParameters :=
  (C46_fill_refused _ 0 [("A", 1), ("E", 0), ("gamma", 0)] [2] [("A", 3)] rfl (by decide) (fun h => absurd (h.2.2 "A" (by decide)) (by decide))).1

/-! ## Adding oscillators -/

/-- A call of `add`: positional and keyword arguments. -/
abbrev AddCall (α : Type) := List α × Dict α

/-- A history of `add` calls; exceptions are caught and the next call is made. -/
def addRun (t : ℕ) (s : RepState α) (calls : List (AddCall α)) : RepState α :=
  calls.foldl (fun s c => (addRep t s c.1 c.2).2) s

open Classical in
/-- C47: after any history of `add` calls, of which some fail, `rep_params` holds what it held before followed by one documented
parameter set per successful call, in call order; failed calls leave no trace and no call changes what earlier calls stored. -/
theorem C47_add_history (t : ℕ) (template : Dict α) (hn : template.keys.Nodup) (calls : List (AddCall α)) :
    ∀ s : RepState α, s.mem[t]? = some template → (∀ p ∈ s.rep, p < s.mem.length) →
      (∀ c ∈ calls, c.2.keys.Nodup) →
      (addRun t s calls).params = s.params ++
        (calls.filter fun c => Spec.CallAllowed template.keys c.1.length c.2.keys).map
          (fun c => Spec.filled template c.1 c.2) ∧
      ∀ a < s.mem.length, (addRun t s calls).mem[a]? = s.mem[a]? := by
  induction calls with
  | nil => intro s _ _ _; simp [addRun]
  | cons c calls ih =>
    intro s ht hr hc
    have hkeep : ∀ rest, ∀ p ∈ s.rep, (s.mem ++ rest)[p]? = s.mem[p]? := fun rest p hp =>
      List.getElem?_append_left (hr p hp)
    have htlt : t < s.mem.length := by
      by_contra hcon
      rw [List.getElem?_eq_none (by omega)] at ht
      cases ht
    by_cases hok : Spec.CallAllowed template.keys c.1.length c.2.keys
    · have hf := C46_fill_accepted s.mem t template c.1 c.2 ht hn (hc c (by simp)) hok
      have hs : (addRep t s c.1 c.2).2 = ⟨s.mem ++ [Spec.filled template c.1 c.2], s.rep ++ [s.mem.length]⟩ := by
        simp [addRep, hf]
      obtain ⟨h1, h2⟩ := ih ⟨s.mem ++ [Spec.filled template c.1 c.2], s.rep ++ [s.mem.length]⟩
        (by rw [List.getElem?_append_left htlt]; exact ht)
        (by
          intro p hp
          simp only [List.mem_append, List.mem_singleton] at hp
          simp only [List.length_append, List.length_singleton]
          rcases hp with hp | rfl
          · exact Nat.lt_succ_of_lt (hr p hp)
          · exact Nat.lt_succ_self _)
        (fun c' h => hc c' (List.mem_cons_of_mem _ h))
      have hrun : addRun t s (c :: calls) = addRun t (addRep t s c.1 c.2).2 calls := rfl
      rw [hrun, hs]
      refine ⟨?_, ?_⟩
      · rw [h1, List.filter_cons_of_pos (by simpa using hok)]
        simp only [RepState.params, List.map_append, List.map_cons, List.map_nil, List.append_assoc]
        congr 1
        · apply List.map_congr_left
          intro p hp
          rw [hkeep _ p hp]
        · simp
      · intro a ha
        rw [h2 a (by simp; omega)]
        exact List.getElem?_append_left ha
    · obtain ⟨he, rest, hm⟩ := C46_fill_refused s.mem t template c.1 c.2 ht hn hok
      have hs : (addRep t s c.1 c.2).2 = ⟨s.mem ++ rest, s.rep⟩ := by
        generalize hL : fillParams s.mem t c.1 c.2 = L at *
        obtain ⟨r, mm⟩ := L
        simp only at he hm
        subst he hm
        simp [addRep, hL]
      obtain ⟨h1, h2⟩ := ih ⟨s.mem ++ rest, s.rep⟩
        (by rw [List.getElem?_append_left htlt]; exact ht)
        (by
          intro p hp
          simp only [List.length_append]
          exact Nat.lt_of_lt_of_le (hr p hp) (Nat.le_add_right _ _))
        (fun c' h => hc c' (List.mem_cons_of_mem _ h))
      have hrun : addRun t s (c :: calls) = addRun t (addRep t s c.1 c.2).2 calls := rfl
      rw [hrun, hs]
      refine ⟨?_, ?_⟩
      · rw [h1, List.filter_cons_of_neg (by simpa using hok)]
        simp only [RepState.params]
        congr 1
        apply List.map_congr_left
        intro p hp
        rw [hkeep _ p hp]
      · intro a ha
        rw [h2 a (by simp; omega)]
        exact List.getElem?_append_left ha

/-- Non-trivial case: one successful, one refused and another successful call. -/
example : (addRun (α := ℕ) 0 ⟨[[("A", 0), ("B", 0)]], []⟩ [([5], []), ([], [("C", 1)]), ([], [("B", 7)])]).params =
    [[("A", 5), ("B", 0)], [("A", 0), ("B", 7)]] := by decide

end PyElli
