import Verif.Spec.Catalog

/-! # C68: searching the catalog -/

namespace PyElli.Catalog

open PyElli Spec.Catalog

/-- The texts looked for, with their columns. -/
def targets (extract : String → List String → List String) (cat : List Row) (fuzzy : Bool) (col q : String) : List (String × String) :=
  if fuzzy then (extract q (filterList cat col)).map fun s => (col, s) else [(col, q)]

/-- Columns that may be searched. -/
def allowed (fuzzy : Bool) : List String := if fuzzy then filterKeys else columns

noncomputable def orAll (rule : OrRule) (mask : Row → Option Bool) (ts : List (String × String)) : Row → Option Bool :=
  ts.foldl (fun m t r => rule.or (m r) (eqCell (r t.1) t.2)) mask

lemma orAll_append (rule : OrRule) (mask : Row → Option Bool) (a b : List (String × String)) :
    orAll rule mask (a ++ b) = orAll rule (orAll rule mask a) b := by simp [orAll]

lemma step_eq (rule : OrRule) (extract : String → List String → List String) (cat : List Row) (fuzzy : Bool) (mask : Row → Option Bool)
    (col q : String) : step rule extract cat fuzzy mask col q =
      if col ∈ allowed fuzzy then .ok (orAll rule mask (targets extract cat fuzzy col q)) else .error .keyError := by
  cases fuzzy with
  | true => simp only [step, allowed, targets, orAll, if_true, List.foldl_map]
  | false => simp [step, allowed, targets, orAll]

lemma loop_ok (rule : OrRule) (extract : String → List String → List String) (cat : List Row) (fuzzy : Bool) :
    ∀ (ps : List (String × String)) (mask : Row → Option Bool), (∀ p ∈ ps, p.1 ∈ allowed fuzzy) →
      loop rule extract cat fuzzy mask ps = .ok (orAll rule mask (ps.flatMap fun p => targets extract cat fuzzy p.1 p.2))
  | [], mask, _ => rfl
  | (col, q) :: ps, mask, h => by
    rw [loop, step_eq, if_pos (h (col, q) (by simp))]
    simp only
    rw [loop_ok rule extract cat fuzzy ps _ fun p hp => h p (by simp [hp]), List.flatMap_cons, orAll_append]

lemma loop_error (rule : OrRule) (extract : String → List String → List String) (cat : List Row) (fuzzy : Bool) :
    ∀ (ps : List (String × String)) (mask : Row → Option Bool), (∃ p ∈ ps, p.1 ∉ allowed fuzzy) →
      loop rule extract cat fuzzy mask ps = .error .keyError
  | [], mask, h => by simp at h
  | (col, q) :: ps, mask, h => by
    rw [loop, step_eq]
    by_cases hc : col ∈ allowed fuzzy
    · rw [if_pos hc]
      simp only
      apply loop_error
      obtain ⟨p, hp, hn⟩ := h
      rcases List.mem_cons.1 hp with rfl | hp
      · exact absurd hc hn
      · exact ⟨p, hp, hn⟩
    · rw [if_neg hc]

lemma kleene_or_true (a b : Option Bool) : OrRule.kleene.or a b = some true ↔ a = some true ∨ b = some true := by
  rcases a with _ | _ | _ <;> rcases b with _ | _ | _ <;> simp [OrRule.or]

lemma or_some_true (rule : OrRule) (a b : Bool) : rule.or (some a) (some b) = some true ↔ some a = some true ∨ some b = some true := by
  cases rule <;> cases a <;> cases b <;> simp [OrRule.or]

lemma orAll_kleene (ts : List (String × String)) : ∀ (mask : Row → Option Bool) (r : Row),
    orAll .kleene mask ts r = some true ↔ mask r = some true ∨ ∃ t ∈ ts, eqCell (r t.1) t.2 = some true := by
  induction ts with
  | nil => intro mask r; simp [orAll]
  | cons t ts ih =>
    intro mask r
    have : orAll .kleene mask (t :: ts) r = orAll .kleene (fun r => OrRule.kleene.or (mask r) (eqCell (r t.1) t.2)) ts r := rfl
    rw [this, ih, kleene_or_true]
    simp only [List.mem_cons, exists_eq_or_imp]
    tauto

lemma eqCell_some {c : Cell} (h : c ≠ .na) (s : String) : ∃ b, eqCell c s = some b := by
  cases c with
  | na => exact absurd rfl h
  | str t => exact ⟨_, rfl⟩
  | num x => exact ⟨_, rfl⟩

lemma orAll_complete (rule : OrRule) (r : Row) (ts : List (String × String)) (h : ∀ t ∈ ts, r t.1 ≠ .na) :
    ∀ (mask : Row → Option Bool), (∃ b, mask r = some b) →
    (orAll rule mask ts r = some true ↔ mask r = some true ∨ ∃ t ∈ ts, eqCell (r t.1) t.2 = some true) := by
  induction ts with
  | nil => intro mask _; simp [orAll]
  | cons t ts ih =>
    rintro mask ⟨b, hb⟩
    obtain ⟨b', hb'⟩ := eqCell_some (h t (by simp)) t.2
    have : orAll rule mask (t :: ts) r = orAll rule (fun r => rule.or (mask r) (eqCell (r t.1) t.2)) ts r := rfl
    rw [this, ih (fun t ht => h t (by simp [ht])) _ ⟨b || b', by simp only [hb, hb']; cases rule <;> rfl⟩, hb, hb', or_some_true, ← hb, ← hb']
    simp only [List.mem_cons, exists_eq_or_imp]
    tauto

lemma eqCell_true (c : Cell) (s : String) : eqCell c s = some true ↔ c = .str s := by
  cases c <;> simp [eqCell]

lemma covers_iff (r : Row) (x : ℝ) : covers r x ↔ InRange r x := by
  simp [covers, InRange, Set.mem_Icc]

open Classical in
lemma foldl_filter (l : List Row) (xs : List ℝ) :
    xs.foldl (fun res x => res.filter fun r => decide (covers r x)) l = l.filter fun r => decide (∀ x ∈ xs, InRange r x) := by
  induction xs generalizing l with
  | nil =>
    rw [List.foldl_nil, List.filter_eq_self.2]
    simp
  | cons x xs ih =>
    rw [List.foldl_cons, ih, List.filter_filter]
    apply List.filter_congr
    intro r _
    rw [← Bool.decide_and, decide_eq_decide, covers_iff, List.forall_mem_cons, and_comm]

open Classical in
lemma search_ok (rule : OrRule) (extract : String → List String → List String) (cat : List Row) (query : Query) (column : ColumnArg)
    (wl : WlArg) (fuzzy : Bool) (hwl : wl ≠ .other) (hcols : ∀ col ∈ column.list fuzzy, col ∈ allowed fuzzy)
    (hshelf : ∀ r ∈ cat, ∃ s, r "shelf" = .str s ∧ s ≠ "")
    (hna : rule = .kleene ∨ ∀ r ∈ cat, ∀ col ∈ column.list fuzzy, r col ≠ .na) :
    search rule extract cat query column wl fuzzy = .ok (cat.filter fun r => decide
      ((∃ col ∈ column.list fuzzy, ∃ q ∈ query.list, ∃ t ∈ targets extract cat fuzzy col q, r t.1 = .str t.2) ∧
        ∀ x ∈ wanted wl, InRange r x)) := by
  simp only [search]
  rw [loop_ok rule extract cat fuzzy _ _ (by
    intro p hp
    obtain ⟨col, hcol, hp⟩ := List.mem_flatMap.1 hp
    obtain ⟨q, -, rfl⟩ := List.mem_map.1 hp
    exact hcols col hcol)]
  simp only
  set ts := ((column.list fuzzy).flatMap fun col => query.list.map fun q => (col, q)).flatMap fun p => targets extract cat fuzzy p.1 p.2 with hts
  have hmem : ∀ r : Row, (∃ t ∈ ts, r t.1 = .str t.2) ↔
      ∃ col ∈ column.list fuzzy, ∃ q ∈ query.list, ∃ t ∈ targets extract cat fuzzy col q, r t.1 = .str t.2 := by
    intro r
    rw [hts]
    simp only [List.mem_flatMap, List.mem_map]
    constructor
    · rintro ⟨t, ⟨p, ⟨col, hc, q, hq, rfl⟩, ht⟩, h⟩
      exact ⟨col, hc, q, hq, t, ht, h⟩
    · rintro ⟨col, hc, q, hq, t, ht, h⟩
      exact ⟨t, ⟨(col, q), ⟨col, hc, q, hq, rfl⟩, ht⟩, h⟩
  have hfst : ∀ t ∈ ts, t.1 ∈ column.list fuzzy := by
    intro t ht
    rw [hts] at ht
    simp only [List.mem_flatMap, List.mem_map] at ht
    obtain ⟨p, ⟨col, hc, q, hq, rfl⟩, ht⟩ := ht
    have : t.1 = col := by
      cases fuzzy with
      | true =>
        simp only [targets, if_true, List.mem_map] at ht
        obtain ⟨s, -, rfl⟩ := ht
        rfl
      | false =>
        simp only [targets, Bool.false_eq_true, if_false, List.mem_singleton] at ht
        rw [ht]
    rw [this]
    exact hc
  have hfilter : (cat.filter fun r => decide (orAll rule (fun r => eqCell (r "shelf") "") ts r = some true)) =
      cat.filter fun r => decide (∃ col ∈ column.list fuzzy, ∃ q ∈ query.list, ∃ t ∈ targets extract cat fuzzy col q, r t.1 = .str t.2) := by
    apply List.filter_congr
    intro r hr
    rw [decide_eq_decide, ← hmem r]
    obtain ⟨s, hs, hne⟩ := hshelf r hr
    have hsh : eqCell (r "shelf") "" = some false := by simp [hs, eqCell, hne]
    have key : orAll rule (fun r => eqCell (r "shelf") "") ts r = some true ↔
        eqCell (r "shelf") "" = some true ∨ ∃ t ∈ ts, eqCell (r t.1) t.2 = some true := by
      rcases hna with rfl | hna
      · exact orAll_kleene ts _ r
      · exact orAll_complete rule r ts (fun t ht => hna r hr _ (hfst t ht)) _ ⟨_, hsh⟩
    rw [key, hsh]
    simp only [eqCell_true, Option.some.injEq, Bool.false_eq_true, false_or]
  rw [hfilter]
  cases wl with
  | other => exact absurd rfl hwl
  | none => simp [wanted]
  | num x =>
    simp only [List.filter_filter]
    congr 1
    apply List.filter_congr
    intro r _
    rw [← Bool.decide_and, decide_eq_decide, covers_iff, wanted, List.forall_mem_singleton, and_comm]
  | seq xs =>
    simp only
    rw [foldl_filter, List.filter_filter]
    congr 1
    apply List.filter_congr
    intro r _
    rw [← Bool.decide_and, decide_eq_decide, wanted, and_comm]

open Classical in
/-- C68, exact search (`fuzzy=False`): the rows, in catalog order, that have a query text in a selected field and whose range contains
every wavelength asked for. Full statement: for all catalogs. Missing here: rows with missing cells in a searched column, when
`np.logical_or` passes missing values on (see `C68_missing_refuted`), and rows without shelf name (`C68_empty_shelf_refuted`). -/
theorem C68_exact_partial (rule : OrRule) (extract : String → List String → List String) (cat : List Row) (query : Query)
    (column : ColumnArg) (wl : WlArg) (hwl : wl ≠ .other) (hcols : ∀ col ∈ column.list false, col ∈ columns)
    (hshelf : ∀ r ∈ cat, ∃ s, r "shelf" = .str s ∧ s ≠ "")
    (hna : rule = .kleene ∨ ∀ r ∈ cat, ∀ col ∈ column.list false, r col ≠ .na) :
    search rule extract cat query column wl false =
      .ok (cat.filter fun r => decide (Hit (column.list false) query.list r ∧ ∀ x ∈ wanted wl, InRange r x)) := by
  rw [search_ok rule extract cat query column wl false hwl hcols hshelf hna]
  congr 1
  apply List.filter_congr
  intro r _
  rw [decide_eq_decide]
  simp [targets, Hit]

open Classical in
/-- C68, approximate search: as above, with the suggestions of the matcher in place of the query texts. Every suggestion is looked for in
the column it was suggested for. Missing: as in `C68_exact_partial`. -/
theorem C68_fuzzy_partial (rule : OrRule) (extract : String → List String → List String) (cat : List Row) (query : Query)
    (column : ColumnArg) (wl : WlArg) (hwl : wl ≠ .other) (hcols : ∀ col ∈ column.list true, col ∈ filterKeys)
    (hshelf : ∀ r ∈ cat, ∃ s, r "shelf" = .str s ∧ s ≠ "")
    (hna : rule = .kleene ∨ ∀ r ∈ cat, ∀ col ∈ column.list true, r col ≠ .na) :
    search rule extract cat query column wl true =
      .ok (cat.filter fun r => decide ((∃ col ∈ column.list true, ∃ q ∈ query.list, Hit [col] (extract q (filterList cat col)) r) ∧
        ∀ x ∈ wanted wl, InRange r x)) := by
  rw [search_ok rule extract cat query column wl true hwl hcols hshelf hna]
  congr 1
  apply List.filter_congr
  intro r _
  rw [decide_eq_decide]
  simp [targets, Hit]

/-- C68: the default column `"all"` means every column of the catalog in an exact search and six text columns in an approximate one, all
of which may be searched. -/
theorem C68_all (fuzzy : Bool) :
    (ColumnArg.one "all").list fuzzy = (if fuzzy then ["book_divider", "book", "book_longname", "page", "author", "comment"] else columns) ∧
    ∀ col ∈ (ColumnArg.one "all").list fuzzy, col ∈ (if fuzzy then filterKeys else columns) := by
  cases fuzzy <;> simp [ColumnArg.list, filterKeys]

lemma nodup_eraseDups : ∀ l : List String, l.eraseDups.Nodup
  | [] => by simp
  | a :: as => by
    rw [List.eraseDups_cons, List.nodup_cons]
    refine ⟨by simp, ?_⟩
    exact nodup_eraseDups _
termination_by l => l.length
decreasing_by exact Nat.lt_succ_of_le (List.length_filter_le _ _)

/-- C68: the choices offered to the matcher are exactly the texts of the column, without repetition. -/
theorem C68_choices (cat : List Row) (col s : String) : (s ∈ filterList cat col ↔ ∃ r ∈ cat, r col = .str s) ∧ (filterList cat col).Nodup := by
  constructor
  · simp only [filterList, List.mem_eraseDups, List.mem_filterMap, List.mem_map]
    constructor
    · rintro ⟨c, ⟨r, hr, rfl⟩, h⟩
      refine ⟨r, hr, ?_⟩
      cases hc : r col <;> simp [hc, Cell.text] at h ⊢
      exact h
    · rintro ⟨r, hr, h⟩
      exact ⟨_, ⟨r, hr, rfl⟩, by simp [h, Cell.text]⟩
  · exact nodup_eraseDups _

/-- C68: a column that cannot be searched is a `KeyError` as soon as there is a query; a wrong wavelength argument a `ValueError`. -/
theorem C68_errors (rule : OrRule) (extract : String → List String → List String) (cat : List Row) (query : Query) (column : ColumnArg)
    (wl : WlArg) (fuzzy : Bool) :
    ((∃ col ∈ column.list fuzzy, col ∉ (if fuzzy then filterKeys else columns)) → query.list ≠ [] →
      search rule extract cat query column wl fuzzy = .error .keyError) ∧
    ((∀ col ∈ column.list fuzzy, col ∈ (if fuzzy then filterKeys else columns)) →
      search rule extract cat query column .other fuzzy = .error .valueError) := by
  constructor
  · rintro ⟨col, hc, hn⟩ hq
    obtain ⟨q, qs, hqs⟩ := List.exists_cons_of_ne_nil hq
    simp only [search]
    rw [loop_error]
    exact ⟨(col, q), List.mem_flatMap.2 ⟨col, hc, List.mem_map.2 ⟨q, by simp [hqs], rfl⟩⟩, hn⟩
  · intro h
    simp only [search]
    rw [loop_ok]
    intro p hp
    obtain ⟨col, hcol, hp⟩ := List.mem_flatMap.1 hp
    obtain ⟨q, -, rfl⟩ := List.mem_map.1 hp
    exact h col hcol

/-- A row of the "main" shelf for gold, without divider. -/
def goldRow : Row := fun col =>
  if col = "book_divider" then .na
  else if col = "lower_range" then .num 188
  else if col = "upper_range" then .num 1937
  else if col = "year" then .num 1972
  else if col = "book" then .str "Au"
  else .str "x"

/-- The example meets the hypotheses of `C68_exact_partial` for the book column, with either treatment of missing values, and it is found. -/
example (rule : OrRule) (extract : String → List String → List String) :
    ∃ l, search rule extract [goldRow] (.one "Au") (.one "book") (.num 500) false = .ok l ∧ goldRow ∈ l := by
  classical
  refine ⟨_, C68_exact_partial rule extract [goldRow] (.one "Au") (.one "book") (.num 500) (by simp) (by simp [ColumnArg.list, columns]) ?_ ?_, ?_⟩
  · intro r hr; rw [List.mem_singleton.1 hr]; exact ⟨"x", by simp [goldRow], by simp⟩
  · right; intro r hr; rw [List.mem_singleton.1 hr]; simp [ColumnArg.list, goldRow]
  · simp only [List.mem_filter, List.mem_singleton, true_and, decide_eq_true_eq]
    refine ⟨⟨"book", by simp [ColumnArg.list], "Au", by simp [Query.list], by simp [goldRow]⟩, ?_⟩
    intro x hx
    simp only [wanted, List.mem_singleton] at hx
    subst hx
    exact ⟨188, 1937, by simp [goldRow], by simp [goldRow], by show (188 : ℝ) ≤ 500; norm_num, by show (500 : ℝ) ≤ 1937; norm_num⟩

/-- C68 fails where missing truth values are passed on (numpy's `logical_or` on masked columns): the row of the book asked for is not found
when another searched cell of the row is missing. -/
theorem C68_missing_refuted (extract : String → List String → List String) :
    Hit ((ColumnArg.one "all").list false) ["Au"] goldRow ∧
    search .propagate extract [goldRow] (.one "Au") (.one "all") .none false = .ok [] := by
  constructor
  · exact ⟨"book", by simp [ColumnArg.list, columns], "Au", by simp, by simp [goldRow]⟩
  · simp only [search]
    rw [loop_ok _ _ _ _ _ _ (by
      intro p hp
      obtain ⟨col, hcol, hp⟩ := List.mem_flatMap.1 hp
      obtain ⟨q, -, rfl⟩ := List.mem_map.1 hp
      simpa [ColumnArg.list, allowed] using hcol)]
    simp [ColumnArg.list, columns, Query.list, targets, orAll, eqCell, goldRow, OrRule.or]

/-- C68 fails for a row whose shelf name is the empty text: it is returned whatever the query. -/
theorem C68_empty_shelf_refuted (rule : OrRule) (extract : String → List String → List String) :
    ∃ row : Row, row "shelf" = .str "" ∧ ¬ Hit ["book"] ["Au"] row ∧
      search rule extract [row] (.one "Au") (.one "book") .none false = .ok [row] := by
  refine ⟨fun _ => .str "", rfl, by simp [Hit], ?_⟩
  cases rule <;> simp [search, ColumnArg.list, Query.list, loop, step, columns, eqCell, OrRule.or]

/-! ## Loading -/

lemma open_iff (r : Row) (book page : String) :
    (eqCell (r "book") book = some true ∧ eqCell (r "page") page = some true) ↔ (r "book" = .str book ∧ r "page" = .str page) := by
  rw [eqCell_true, eqCell_true]

/-- C68: loading needs exactly one match: it succeeds with row `r` exactly when `r` stands in the catalog with this book and page and no
other position of the catalog does; in every other case it is a `ValueError`. -/
theorem C68_open (cat : List Row) (book page : String) (r : Row) :
    (openFile cat book page = .ok r ↔ ∃ pre post, cat = pre ++ r :: post ∧ (r "book" = .str book ∧ r "page" = .str page) ∧
      ∀ r' ∈ pre ++ post, ¬ (r' "book" = .str book ∧ r' "page" = .str page)) ∧
    ((∀ r, openFile cat book page ≠ .ok r) → openFile cat book page = .error .valueError) := by
  classical
  have hopen : openFile cat book page = only (cat.filter fun r => decide (r "book" = .str book ∧ r "page" = .str page)) := by
    unfold openFile
    congr 1
    apply List.filter_congr
    intro r _
    rw [decide_eq_decide]
    exact open_iff r book page
  have key : openFile cat book page = .ok r ↔ (cat.filter fun r => decide (r "book" = .str book ∧ r "page" = .str page)) = [r] := by
    rw [hopen]
    generalize (cat.filter fun r => decide (r "book" = .str book ∧ r "page" = .str page)) = l
    rcases l with _ | ⟨a, _ | ⟨b, l⟩⟩ <;> simp [only]
  constructor
  · rw [key, List.filter_eq_cons_iff]
    constructor
    · rintro ⟨pre, post, h1, h2, h3, h4⟩
      refine ⟨pre, post, h1, by simpa using h3, ?_⟩
      intro r' hr'
      rcases List.mem_append.1 hr' with h | h
      · simpa using h2 r' h
      · have := List.filter_eq_nil_iff.1 h4 r' h
        simpa using this
    · rintro ⟨pre, post, h1, h2, h3⟩
      refine ⟨pre, post, h1, fun x hx => by simpa using h3 x (by simp [hx]), by simpa using h2, ?_⟩
      rw [List.filter_eq_nil_iff]
      intro x hx
      simpa using h3 x (by simp [hx])
  · intro h
    rw [hopen] at h ⊢
    generalize (cat.filter fun r => decide (r "book" = .str book ∧ r "page" = .str page)) = l at h ⊢
    rcases l with _ | ⟨a, _ | ⟨b, l⟩⟩
    · rfl
    · exact absurd rfl (h a)
    · rfl

/-- Gold is loaded from a catalog with one gold row; with two such rows nothing is loaded. -/
example : openFile [goldRow] "Au" "x" = .ok goldRow ∧ openFile [goldRow, goldRow] "Au" "x" = .error .valueError := by
  constructor
  · exact (C68_open _ _ _ _).1.2 ⟨[], [], rfl, by simp [goldRow], by simp⟩
  · simp [openFile, only, eqCell, goldRow]

end PyElli.Catalog
