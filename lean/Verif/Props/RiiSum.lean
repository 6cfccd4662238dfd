import Verif.Props.Rii
import Verif.Props.Table

/-! # C67: tables and files with several entries -/

namespace PyElli.Rii

open PyElli PyElli.Disp Spec.Rii

/-! ## What one entry creates -/

/-- Objects made for one entry: a leaf, or two dielectric leaves and their sum. -/
inductive Shape
  | one (kind : Kind) (v : ℝ → Val)
  | two (f g : ℝ → Val)

def Shape.good : Shape → Prop
  | .one kind _ => kind = .eps ∨ kind = .index ∨ kind = .table
  | .two _ _ => True

def Shape.isIdx : Shape → Bool
  | .one kind _ => !kind.isEps
  | .two _ _ => false

def Shape.objs (n : ℕ) : Shape → List Obj
  | .one kind v => [.leaf kind v]
  | .two f g => [.leaf .eps f, .leaf .eps g, .epsSum [n, n + 1]]

def Shape.off : Shape → ℕ
  | .one _ _ => 0
  | .two _ _ => 2

noncomputable def Shape.val : Shape → ℝ → Val
  | .one _ v, l => v l
  | .two f g, l => Val.add (f l) (g l)

lemma loadFormula_shape (type : String) (c : List ℝ) :
    (∃ e, ∀ m, loadFormula m type c = .error e) ∨
    ∃ s : Shape, s.good ∧ ∀ m, loadFormula m type c = .ok (m ++ s.objs m.length, m.length + s.off, s.isIdx) := by
  unfold loadFormula
  by_cases h1 : type = "formula 1"
  · simp only [if_pos h1]
    cases hc : head c with
    | error e => exact Or.inl ⟨e, fun m => rfl⟩
    | ok c0 =>
      refine Or.inr ⟨.two (fun l => .ok (sellmeier (addAll [("A", 0), ("B", 0)]
        (((slice c 1 c.length 2).zip (slice c 2 c.length 2)).map fun p => [p.1, p.2 ^ 2])) l)) (fun _ => .ok (some (c0 : ℂ))), trivial, fun m => ?_⟩
      simp only [sellObj, constLeaf]
      rw [addObj_two]
      rfl
  simp only [if_neg h1]
  by_cases h2 : type = "formula 2"
  · simp only [if_pos h2]
    cases hc : head c with
    | error e => exact Or.inl ⟨e, fun m => rfl⟩
    | ok c0 =>
      refine Or.inr ⟨.two (fun l => .ok (sellmeier (addAll [("A", 0), ("B", 0)]
        (((slice c 1 c.length 2).zip (slice c 2 c.length 2)).map fun p => [p.1, p.2])) l)) (fun _ => .ok (some (c0 : ℂ))), trivial, fun m => ?_⟩
      simp only [sellObj, constLeaf]
      rw [addObj_two]
      rfl
  simp only [if_neg h2]
  by_cases h3 : type = "formula 3"
  · simp only [if_pos h3]
    cases hc : head c with
    | error e => exact Or.inl ⟨e, fun m => rfl⟩
    | ok c0 => exact Or.inr ⟨.one .eps
        fun l => .ok (polynomial [("e0", c0)] (addAll [("f", 0), ("e", 0)] (nmTerms (slice c 1 c.length 2) (slice c 2 c.length 2))) l),
        Or.inl rfl, fun m => rfl⟩
  simp only [if_neg h3]
  by_cases h4 : type = "formula 4"
  · simp only [if_pos h4]
    cases hc : head c with
    | error e => exact Or.inl ⟨e, fun m => rfl⟩
    | ok c0 =>
      refine Or.inr ⟨.two
        (fun l => .ok (polynomial [("e0", c0)] (addAll [("f", 0), ("e", 0)] (nmTerms (slice c 9 c.length 2) (slice c 10 c.length 2))) l))
        (fun l => .ok (sellmeierCustom (addAll [("A", 0), ("e_A", 1), ("B", 0), ("e_B", 1)]
          (((slice c 1 6 4).zip ((slice c 2 7 4).zip ((slice c 3 8 4).zip (slice c 4 9 4)))).map
            fun p => [p.1, p.2.1, p.2.2.1, p.2.2.2])) l)), trivial, fun m => ?_⟩
      simp only [polyObj, sellCustomObj]
      rw [addObj_two]
      rfl
  simp only [if_neg h4]
  by_cases h5 : type = "formula 5"
  · simp only [if_pos h5]
    cases hc : head c with
    | error e => exact Or.inl ⟨e, fun m => rfl⟩
    | ok c0 => exact Or.inr ⟨.one .index
        fun l => .ok (cauchyCustomIndex [("n0", c0)] (addAll [("f", 0), ("e", 1)] (nmTerms (slice c 1 c.length 2) (slice c 2 c.length 2))) l),
        Or.inr (Or.inl rfl), fun m => rfl⟩
  simp only [if_neg h5]
  exact Or.inl ⟨_, fun m => rfl⟩

lemma tableObj_shape (rows : List (ℝ × ℂ)) :
    (∃ e, ∀ m, tableObj m rows = .error e) ∨
    ∃ s : Shape, s.good ∧ ∀ m, tableObj m rows = .ok (m ++ s.objs m.length, m.length + s.off, s.isIdx) := by
  unfold tableObj
  cases mkTable (rows.map fun r => r.1 * 1000) (rows.map Prod.snd) with
  | error e => exact Or.inl ⟨e, fun m => rfl⟩
  | ok t => exact Or.inr ⟨.one .table t.value, Or.inr (Or.inr rfl), fun m => rfl⟩

lemma loadEntry_shape (e : Entry) :
    (∃ x, ∀ m, loadEntry m e = .error x) ∨
    ∃ s : Shape, s.good ∧ ∀ m, loadEntry m e = .ok (m ++ s.objs m.length, m.length + s.off, s.isIdx) := by
  cases e with
  | tabNK rows => exact tableObj_shape _
  | tabN rows => exact tableObj_shape _
  | tabK rows => exact tableObj_shape _
  | formula type tokens =>
    simp only [loadEntry]
    by_cases h : type ∈ ["formula 1", "formula 2", "formula 3", "formula 4", "formula 5"]
    · simp only [if_pos h]
      cases floats tokens with
      | error x => exact Or.inl ⟨x, fun m => rfl⟩
      | ok c => exact loadFormula_shape type c
    · simp only [if_neg h]
      exact Or.inl ⟨_, fun m => rfl⟩

/-! ## Where the objects are -/

/-- Address `a` holds the objects of shape `s`. -/
def At (m : Mem) : Shape → ℕ → Prop
  | .one kind v, a => m[a]? = some (.leaf kind v)
  | .two f g, a => ∃ x y, m[a]? = some (.epsSum [x, y]) ∧ m[x]? = some (.leaf .eps f) ∧ m[y]? = some (.leaf .eps g)

lemma get_append {m : Mem} {a : ℕ} {o : Obj} (rest : Mem) (h : m[a]? = some o) : (m ++ rest)[a]? = some o := by
  rw [List.getElem?_append_left (lt_of_some h)]; exact h

lemma At.append {m : Mem} {s : Shape} {a : ℕ} (h : At m s a) (rest : Mem) : At (m ++ rest) s a := by
  cases s with
  | one kind v => exact get_append rest h
  | two f g =>
    obtain ⟨x, y, h1, h2, h3⟩ := h
    exact ⟨x, y, get_append rest h1, get_append rest h2, get_append rest h3⟩

lemma at_new (m : Mem) (s : Shape) : At (m ++ s.objs m.length) s (m.length + s.off) := by
  cases s with
  | one kind v => exact get_alloc_self m _
  | two f g =>
    refine ⟨m.length, m.length + 1, ?_, ?_, ?_⟩
    · simp only [Shape.objs, Shape.off]
      rw [List.getElem?_append_right (by omega)]; simp
    · simp only [Shape.objs]
      rw [List.getElem?_append_right (by omega)]; simp
    · simp only [Shape.objs]
      rw [List.getElem?_append_right (by omega)]; simp

lemma loadAll_spec : ∀ (es : List Entry) (m m' : Mem) (as : List ℕ) (b : Bool), loadAll m es = .ok (m', as, b) →
    ∃ ss : List Shape, List.Forall₂ (fun e s => s.good ∧ ∀ m, loadEntry m e = .ok (m ++ s.objs m.length, m.length + s.off, s.isIdx)) es ss
      ∧ List.Forall₂ (At m') ss as ∧ b = ss.any Shape.isIdx ∧ ∃ rest, m' = m ++ rest
  | [], m, m', as, b, h => by
    simp only [loadAll, Except.ok.injEq, Prod.mk.injEq] at h
    obtain ⟨rfl, rfl, rfl⟩ := h
    exact ⟨[], .nil, .nil, rfl, [], by simp⟩
  | e :: es, m, m', as, b, h => by
    rcases loadEntry_shape e with ⟨x, hx⟩ | ⟨s, hg, hs⟩
    · simp [loadAll, hx m] at h
    · simp only [loadAll, hs m] at h
      cases hr : loadAll (m ++ s.objs m.length) es with
      | error x => simp [hr] at h
      | ok r =>
        obtain ⟨m2, as', bs⟩ := r
        simp only [hr, Except.ok.injEq, Prod.mk.injEq] at h
        obtain ⟨rfl, rfl, rfl⟩ := h
        obtain ⟨ss, h1, h2, h3, rest, h4⟩ := loadAll_spec es _ _ _ _ hr
        refine ⟨s :: ss, .cons ⟨hg, hs⟩ h1, .cons ?_ h2, by simp [h3], s.objs m.length ++ rest, by rw [h4, List.append_assoc]⟩
        rw [h4]
        exact (at_new m s).append rest

/-! ## Values -/

lemma At.dielectric {m : Mem} {s : Shape} {a : ℕ} (h : At m s a) (hi : s.isIdx = false) (l : ℝ) (k : ℕ) :
    call m l (k + 2) .dielectric a = s.val l := by
  cases s with
  | one kind v =>
    have hk : kind.isEps = true := by simpa [Shape.isIdx] using hi
    have h' : m[a]? = some (.leaf kind v) := h
    simp [call, h', hk, Shape.val]
  | two f g =>
    obtain ⟨x, y, h1, h2, h3⟩ := h
    simp [call, h1, h2, h3, sumVals, Kind.isEps, Val.zero_add, Shape.val]

lemma At.isEps {m : Mem} {s : Shape} {a : ℕ} (h : At m s a) : ∃ o, m[a]? = some o ∧ o.isEps = !s.isIdx := by
  cases s with
  | one kind v => exact ⟨_, h, by simp [Obj.isEps, Shape.isIdx]⟩
  | two f g =>
    obtain ⟨x, y, h1, -⟩ := h
    exact ⟨_, h1, rfl⟩

/-- The refractive index belonging to a shape. -/
noncomputable def Shape.nVal (s : Shape) (l : ℝ) : Val := if s.isIdx then s.val l else Val.app Complex.sqrt (s.val l)

lemma At.index {m : Mem} {s : Shape} {a : ℕ} (h : At m s a) (l : ℝ) (k : ℕ) : getRefractiveIndex m l (k + 2) a = s.nVal l := by
  obtain ⟨o, h1, h2⟩ := h.isEps
  cases hi : s.isIdx with
  | false =>
    simp only [getRefractiveIndex, h1, h2, hi, Bool.not_false, if_true, Shape.nVal, Bool.false_eq_true, if_false]
    rw [h.dielectric hi]
  | true =>
    cases s with
    | two f g => simp [Shape.isIdx] at hi
    | one kind v =>
      have h' : m[a]? = some (.leaf kind v) := h
      have hk : kind.isEps = false := by simpa [Shape.isIdx] using hi
      simp [getRefractiveIndex, h', Obj.isEps, hk, call, Shape.nVal, Shape.val, Shape.isIdx]

/-- Address `a` holds an index object for shape `s`: the object itself or a view of it. -/
def IdxAt (m : Mem) (s : Shape) (a : ℕ) : Prop :=
  (s.isIdx = true ∧ At m s a) ∨ (s.isIdx = false ∧ ∃ o, m[a]? = some (.view o) ∧ At m s o)

lemma IdxAt.append {m : Mem} {s : Shape} {a : ℕ} (h : IdxAt m s a) (rest : Mem) : IdxAt (m ++ rest) s a := by
  rcases h with ⟨h1, h2⟩ | ⟨h1, o, h2, h3⟩
  · exact Or.inl ⟨h1, h2.append rest⟩
  · exact Or.inr ⟨h1, o, get_append rest h2, h3.append rest⟩

lemma IdxAt.flat {m : Mem} {s : Shape} {a : ℕ} (h : IdxAt m s a) : IsIdxObj m a ∧ flatI m a = [a] := by
  rcases h with ⟨h1, h2⟩ | ⟨h1, o, h2, h3⟩
  · cases s with
    | two f g => simp [Shape.isIdx] at h1
    | one kind v =>
      have h' : m[a]? = some (.leaf kind v) := h2
      exact ⟨⟨_, h', by simpa [Shape.isIdx, Obj.isEps] using h1⟩, by simp [flatI, h']⟩
  · exact ⟨⟨_, h2, rfl⟩, by simp [flatI, h2]⟩

lemma IdxAt.call {m : Mem} {s : Shape} {a : ℕ} (h : IdxAt m s a) (l : ℝ) (k : ℕ) : call m l (k + 4) .index a = s.nVal l := by
  rcases h with ⟨h1, h2⟩ | ⟨h1, o, h2, h3⟩
  · cases s with
    | two f g => simp [Shape.isIdx] at h1
    | one kind v =>
      have h' : m[a]? = some (.leaf kind v) := h2
      have hk : kind.isEps = false := by simpa [Shape.isIdx] using h1
      simp [Disp.call, h', hk, Shape.nVal, Shape.val, Shape.isIdx]
  · have e := h3.dielectric h1 l k
    rw [Disp.call, h2]
    simp only
    rw [Disp.call, h2]
    simp only
    rw [e, Shape.nVal, h1]
    simp

lemma toIndex_spec : ∀ (ss : List Shape) (as : List ℕ) (m : Mem), (∀ s ∈ ss, s.good) → List.Forall₂ (At m) ss as →
    ∃ m' as', toIndex m as = .ok (m', as') ∧ List.Forall₂ (IdxAt m') ss as' ∧ ∃ rest, m' = m ++ rest
  | [], _, m, _, .nil => ⟨m, [], rfl, .nil, [], by simp⟩
  | s :: ss, a :: as, m, hg, .cons h hs => by
    obtain ⟨o, h1, h2⟩ := h.isEps
    cases hi : s.isIdx with
    | true =>
      obtain ⟨m', as', e1, e2, rest, e3⟩ := toIndex_spec ss as m (fun s hs => hg s (by simp [hs])) hs
      refine ⟨m', a :: as', ?_, .cons (Or.inl ⟨hi, ?_⟩) e2, rest, e3⟩
      · simp [toIndex, h1, h2, hi, e1]
      · rw [e3]; exact h.append rest
    | false =>
      have hv : asIndex m a = .ok (m ++ [.view a], m.length) := by
        cases s with
        | one kind v =>
          have h' : m[a]? = some (.leaf kind v) := h
          have hk : kind.isEps = true := by simpa [Shape.isIdx] using hi
          rcases hg _ (by simp : Shape.one kind v ∈ _) with rfl | rfl | rfl
          · simp [asIndex, h', alloc]
          · simp [Kind.isEps] at hk
          · simp [Kind.isEps] at hk
        | two f g =>
          obtain ⟨x, y, h', -⟩ := h
          simp [asIndex, h', alloc]
      have hs' : List.Forall₂ (At (m ++ [.view a])) ss as := hs.imp fun _ _ h => h.append _
      obtain ⟨m', as', e1, e2, rest, e3⟩ := toIndex_spec ss as _ (fun s hs => hg s (by simp [hs])) hs'
      refine ⟨m', m.length :: as', ?_, .cons (Or.inr ⟨hi, a, ?_, ?_⟩) e2, [.view a] ++ rest, by rw [e3, List.append_assoc]⟩
      · simp [toIndex, h1, h2, hi, hv, e1]
      · rw [e3]; exact get_append rest (get_alloc_self m _)
      · rw [e3]; exact (h.append _).append rest

lemma addAllIdx_spec (m : Mem) : ∀ (as cs : List ℕ), (∀ a ∈ as, IsIdxObj m a ∧ flatI m a = [a]) →
    addAllIdx (m ++ [.idxSum cs]) m.length as = .ok (m ++ [.idxSum (cs ++ as)])
  | [], cs, _ => by simp [addAllIdx]
  | a :: as, cs, h => by
    obtain ⟨⟨o, h1, h2⟩, h3⟩ := h a (by simp)
    have hf : flatI (m ++ [.idxSum cs]) a = [a] := by
      rw [← h3]
      unfold flatI
      rw [get_alloc_lt h1, h1]
    rw [addAllIdx, addToIdxSum_ok (get_alloc_self m _) ⟨o, get_alloc_lt h1, h2⟩, set_alloc, hf]
    simp only
    rw [addAllIdx_spec m as _ fun b hb => h b (by simp [hb])]
    simp

lemma addAllEps_spec (m : Mem) : ∀ (as cs : List ℕ), (∀ a ∈ as, IsEpsObj m a) →
    addAllEps (m ++ [.epsSum cs]) m.length as = .ok (m ++ [.epsSum (cs ++ (as.map (flatE m)).flatten)])
  | [], cs, _ => by simp [addAllEps]
  | a :: as, cs, h => by
    obtain ⟨o, h1, h2⟩ := h a (by simp)
    have hf : flatE (m ++ [.epsSum cs]) a = flatE m a := by
      unfold flatE
      rw [get_alloc_lt h1, h1]
    rw [addAllEps, addToEpsSum_ok (get_alloc_self m _) ⟨o, get_alloc_lt h1, h2⟩, set_alloc, hf]
    simp only
    rw [addAllEps_spec m as _ fun b hb => h b (by simp [hb])]
    simp

/-! ## Totals -/

noncomputable def total (xs : List Val) : Val := xs.foldr Val.add (.ok (some 0))

lemma totalOf_total (xs : List Val) : TotalOf (total xs) xs := by
  induction xs with
  | nil =>
    intro v
    simp only [total, List.foldr_nil, Except.ok.injEq]
    constructor
    · intro h; exact ⟨[], rfl, h.symm⟩
    · rintro ⟨us, h1, h2⟩
      cases us with
      | nil => exact h2.symm
      | cons u us => simp at h1
  | cons x xs ih =>
    intro v
    show Val.add x (total xs) = .ok v ↔ _
    rw [Val.add_ok_iff]
    constructor
    · rintro ⟨a, b, rfl, h2, h3⟩
      obtain ⟨us, rfl, h5⟩ := (ih b).1 h2
      refine ⟨a :: us, rfl, ?_⟩
      rw [h3, List.foldr_cons, ← h5]
      cases a <;> cases b <;> rfl
    · rintro ⟨us, h1, h2⟩
      cases us with
      | nil => simp at h1
      | cons u us =>
        simp only [List.map_cons, List.cons.injEq] at h1
        obtain ⟨rfl, h1⟩ := h1
        refine ⟨u, _, rfl, (ih _).2 ⟨us, h1, rfl⟩, ?_⟩
        rw [h2, List.foldr_cons]
        generalize us.foldr (Option.map₂ (· + ·)) (some 0) = b
        cases u <;> cases b <;> rfl

lemma Val.add_zero (x : Val) : Val.add x (.ok (some 0)) = x := by
  unfold Val.add
  cases x with
  | error e => rfl
  | ok a => cases a <;> simp [bind, Except.bind, pure, Except.pure]

lemma sumVals_total (f : ℕ → Val) (cs : List ℕ) : sumVals f cs = total (cs.map f) := by
  induction cs with
  | nil => rfl
  | cons c cs ih =>
    rw [show c :: cs = [c] ++ cs from rfl, sumVals_append, sumVals_one, ih]
    rfl

lemma forall₂_map {α β γ : Type} {R : α → β → Prop} {as : List α} {bs : List β} (h : List.Forall₂ R as bs) (f : α → γ) (g : β → γ)
    (hfg : ∀ a b, R a b → f a = g b) : as.map f = bs.map g := by
  induction h with
  | nil => rfl
  | cons h _ ih => simp [hfg _ _ h, ih]

lemma flat_value {m : Mem} {s : Shape} {a : ℕ} (h : At m s a) (hi : s.isIdx = false) (rest : Mem) (l : ℝ) (k : ℕ) :
    sumVals (call (m ++ rest) l (k + 1) .dielectric) (flatE m a) = s.val l := by
  cases s with
  | one kind v =>
    have h' : m[a]? = some (.leaf kind v) := h
    have hk : kind.isEps = true := by simpa [Shape.isIdx] using hi
    have hf : flatE m a = [a] := by simp [flatE, h']
    rw [hf, sumVals_one]
    simp [call, get_append rest h', hk, Shape.val]
  | two f g =>
    obtain ⟨x, y, h1, h2, h3⟩ := h
    have hf : flatE m a = [x, y] := by simp [flatE, h1]
    rw [hf]
    simp [call, get_append rest h2, get_append rest h3, sumVals, Kind.isEps, Val.zero_add, Shape.val]

lemma sumVals_flatten (f : ℕ → Val) (ls : List (List ℕ)) : sumVals f ls.flatten = total (ls.map (sumVals f)) := by
  induction ls with
  | nil => rfl
  | cons c cs ih =>
    rw [List.flatten_cons, sumVals_append, ih]
    rfl

/-- A dispersion that was loaded is an index dispersion. -/
def LoadedIndex (p : Mem × ℕ) : Prop := ∃ o, p.1[p.2]? = some o ∧ o.isEps = false

/-- C67: a file with several entries (or none) gives the sum of its entries, each being the dispersion the entry gives alone. When one of
them is an index dispersion (a table or formula 5), refractive indices add up — for a formula with `n²` the principal root is taken first;
otherwise dielectric functions add up. -/
theorem C67_several (m : Mem) (es : List Entry) (hes : es.length ≠ 1) (m' : Mem) (a : ℕ) (h : getDispersion m es = .ok (m', a)) :
    ∃ parts : List (Mem × ℕ), List.Forall₂ (fun e p => getDispersion [] [e] = .ok p) es parts ∧ ∀ l k, 6 ≤ k →
      ((∃ p ∈ parts, LoadedIndex p) →
        TotalOf (getRefractiveIndex m' l k a) (parts.map fun p => getRefractiveIndex p.1 l k p.2)) ∧
      ((∀ p ∈ parts, ¬ LoadedIndex p) →
        TotalOf (call m' l k .dielectric a) (parts.map fun p => call p.1 l k .dielectric p.2)) := by
  unfold getDispersion at h
  cases hl : loadAll m es with
  | error x => simp [hl] at h
  | ok r =>
    obtain ⟨m1, as, b⟩ := r
    simp only [hl] at h
    obtain ⟨ss, h1, h2, h3, rest, h4⟩ := loadAll_spec es _ _ _ _ hl
    have hlen : as.length ≠ 1 := by rw [← h2.length_eq, ← h1.length_eq]; exact hes
    have hgood : ∀ s ∈ ss, s.good := by
      clear h h2 h3 hlen hl hes
      induction h1 with
      | nil => simp
      | cons h _ ih => intro s hs; rcases List.mem_cons.1 hs with rfl | hs; exacts [h.1, ih s hs]
    refine ⟨ss.map fun s => (s.objs 0, s.off), ?_, ?_⟩
    · clear h h2 h3 hlen hl hes hgood
      induction h1 with
      | nil => exact .nil
      | cons h _ ih =>
        refine .cons ?_ ih
        have := h.2 []
        simp only [List.nil_append, List.length_nil, Nat.zero_add] at this
        simp [getDispersion, loadAll, this]
    · intro l k hk
      obtain ⟨n, rfl⟩ := Nat.exists_eq_add_of_le' hk
      have hat : ∀ s : Shape, At (s.objs 0) s s.off := fun s => by simpa using at_new [] s
      have hidx : ∀ s : Shape, LoadedIndex (s.objs 0, s.off) ↔ s.isIdx = true := by
        intro s
        obtain ⟨o, g1, g2⟩ := (hat s).isEps
        unfold LoadedIndex
        simp only [g1, Option.some.injEq, exists_eq_left', g2]
        cases s.isIdx <;> simp
      have hmatch : (if b = true then
            match toIndex m1 as with
            | .error x => .error x
            | .ok (m2, as') => idxSumOf m2 as'
          else epsSumOf m1 as) = Except.ok (m', a) := by
        rcases as with _ | ⟨a0, _ | ⟨a1, as⟩⟩
        · exact h
        · simp at hlen
        · exact h
      constructor
      · rintro ⟨p, hp, hpi⟩
        obtain ⟨s, hs, rfl⟩ := List.mem_map.1 hp
        have hb : b = true := by
          rw [h3, List.any_eq_true]
          exact ⟨s, hs, (hidx s).1 hpi⟩
        rw [if_pos hb] at hmatch
        obtain ⟨m2, as', e1, e2, -⟩ := toIndex_spec ss as m1 hgood h2
        rw [e1] at hmatch
        simp only [idxSumOf] at hmatch
        rw [addAllIdx_spec m2 as' [] (by
          intro a' ha'
          obtain ⟨i, hi, rfl⟩ := List.getElem_of_mem ha'
          exact ((List.forall₂_iff_get.1 e2).2 i (by rw [e2.length_eq]; exact hi) hi).flat)] at hmatch
        simp only [List.nil_append, Except.map, Except.ok.injEq, Prod.mk.injEq] at hmatch
        obtain ⟨rfl, rfl⟩ := hmatch
        have hval : getRefractiveIndex (m2 ++ [.idxSum as']) l (n + 6) m2.length = total (ss.map fun s => s.nVal l) := by
          simp only [getRefractiveIndex, get_alloc_self, Obj.isEps, Bool.false_eq_true, if_false]
          rw [Disp.call, get_alloc_self]
          simp only
          rw [sumVals_total]
          congr 1
          exact (forall₂_map e2 _ _ fun s a' ha' => ((ha'.append _).call l (n + 1)).symm).symm
        have hparts : (ss.map fun s => (s.objs 0, s.off)).map (fun p => getRefractiveIndex p.1 l (n + 6) p.2) =
            ss.map fun s => s.nVal l := by
          rw [List.map_map]
          exact List.map_congr_left fun s _ => (hat s).index l (n + 4)
        rw [hval, hparts]
        exact totalOf_total _
      · intro hno
        have hni : ∀ s ∈ ss, s.isIdx = false := by
          intro s hs
          have := hno _ (List.mem_map.2 ⟨s, hs, rfl⟩)
          rw [hidx] at this
          simpa using this
        have hb : b = false := by
          rw [h3, List.any_eq_false]
          intro s hs
          simp [hni s hs]
        rw [if_neg (by simp [hb])] at hmatch
        simp only [epsSumOf] at hmatch
        have hat2 := List.forall₂_iff_get.1 h2
        rw [addAllEps_spec m1 as [] (by
          intro a' ha'
          obtain ⟨i, hi, rfl⟩ := List.getElem_of_mem ha'
          have hi' : i < ss.length := by rw [h2.length_eq]; exact hi
          obtain ⟨o, g1, g2⟩ := (hat2.2 i hi' hi).isEps
          exact ⟨o, g1, by rw [g2, List.get_eq_getElem, hni _ (List.getElem_mem hi')]; rfl⟩)] at hmatch
        simp only [List.nil_append, Except.map, Except.ok.injEq, Prod.mk.injEq] at hmatch
        obtain ⟨rfl, rfl⟩ := hmatch
        have hval : call (m1 ++ [.epsSum (as.map (flatE m1)).flatten]) l (n + 6) .dielectric m1.length =
            total (ss.map fun s => s.val l) := by
          rw [Disp.call, get_alloc_self]
          simp only
          rw [sumVals_flatten, List.map_map]
          congr 1
          apply List.ext_getElem (by simp [h2.length_eq])
          intro i hi1 hi2
          have hi' : i < ss.length := by simpa using hi2
          have hia : i < as.length := by rw [← h2.length_eq]; exact hi'
          simp only [List.getElem_map, Function.comp_apply]
          exact flat_value (hat2.2 i hi' hia) (hni _ (List.getElem_mem hi')) _ l (n + 4)
        have hparts : (ss.map fun s => (s.objs 0, s.off)).map (fun p => call p.1 l (n + 6) .dielectric p.2) =
            ss.map fun s => s.val l := by
          rw [List.map_map]
          exact List.map_congr_left fun s hs => (hat s).dielectric (hni s hs) l (n + 4)
        rw [hval, hparts]
        exact totalOf_total _

/-- Formula plus tabulated absorption, the usual case: it loads. -/
example : ∃ m' a, getDispersion [] [.formula "formula 1" ([0, 1, 0.1].map some), .tabK [(0.4, 0), (0.8, 0.1)]] = .ok (m', a) := by
  simp only [getDispersion, loadAll, loadEntry, floats_some]
  rw [if_pos (by simp)]
  simp only [loadFormula, if_true, head, sellObj, constLeaf, addObj_two, tableObj, mkTable]
  simp only [List.map_cons, List.map_nil, List.length_cons, List.length_nil]
  norm_num
  simp [toIndex, asIndex, Obj.isEps, Kind.isEps, alloc, idxSumOf, addAllIdx, addToIdxSum, Except.map]

/-! ## Tables -/

lemma tableObj_node (m : Mem) (rows : List (ℝ × ℂ)) (h2 : 2 ≤ rows.length) (hd : (rows.map Prod.fst).Nodup) :
    ∃ m' a b, tableObj m rows = .ok (m', a, b) ∧ ∀ r ∈ rows, ∀ k, 1 ≤ k → getRefractiveIndex m' (1000 * r.1) k a = .ok (some r.2) := by
  set lb := rows.map fun r => r.1 * 1000 with hlb
  set vs := rows.map Prod.snd with hvs
  have hnd : lb.Nodup := by
    have : lb = (rows.map Prod.fst).map (fun x : ℝ => x * 1000) := by rw [hlb, List.map_map]; rfl
    rw [this]
    exact hd.map fun x y hxy => by simpa using hxy
  have hlen : vs.length = lb.length := by simp [hlb, hvs]
  have hl2 : 2 ≤ lb.length := by simpa [hlb] using h2
  obtain ⟨t, ht⟩ := (C53_constructor lb vs).1.2 ⟨by rintro h; rw [h] at hl2; simp at hl2, hlen⟩
  refine ⟨m ++ [.leaf .table t.value], m.length, true, ?_, ?_⟩
  · simp only [tableObj, ← hlb, ← hvs]
    rw [ht]
  · intro r hr k hk
    obtain ⟨n, rfl⟩ := Nat.exists_eq_add_of_le' hk
    have hz : (r.1 * 1000, r.2) ∈ lb.zip vs := by
      rw [hlb, hvs, List.zip_map']
      exact List.mem_map.2 ⟨r, hr, rfl⟩
    obtain ⟨t', ht', hv⟩ := C53_node lb vs hlen hl2 hnd _ hz
    rw [ht] at ht'
    obtain rfl := Except.ok.inj ht'
    simp only [getRefractiveIndex, get_alloc_self, Obj.isEps, Kind.isEps, Bool.false_eq_true, if_false, call]
    rw [mul_comm]
    exact hv

lemma one_entry {m m' : Mem} {e : Entry} {a : ℕ} {b : Bool} (h : loadEntry m e = .ok (m', a, b)) :
    getDispersion m [e] = .ok (m', a) := by
  simp [getDispersion, loadAll, h]

/-- C67: the nodes of a loaded table of `n` and `k` (wavelengths in micrometres): at 1000 times the tabulated wavelength the index is
`n + i k`. Between the nodes see `C53_chord`. -/
theorem C67_table_nk (m : Mem) (rows : List (ℝ × ℝ × ℝ)) (h2 : 2 ≤ rows.length) (hd : (rows.map Prod.fst).Nodup) :
    ∃ m' a, getDispersion m [.tabNK rows] = .ok (m', a) ∧ ∀ r ∈ rows, ∀ k, 1 ≤ k →
      getRefractiveIndex m' (1000 * r.1) k a = .ok (some ((r.2.1 : ℂ) + Complex.I * r.2.2)) := by
  obtain ⟨m', a, b, h, hv⟩ := tableObj_node m (rows.map fun r => (r.1, (r.2.1 : ℂ) + Complex.I * r.2.2)) (by simpa using h2)
    (by rw [List.map_map]; exact hd)
  exact ⟨m', a, one_entry h, fun r hr k hk => hv _ (List.mem_map.2 ⟨r, hr, rfl⟩) k hk⟩

/-- C67: a table of `n` alone gives the real index `n` at its nodes. -/
theorem C67_table_n (m : Mem) (rows : List (ℝ × ℝ)) (h2 : 2 ≤ rows.length) (hd : (rows.map Prod.fst).Nodup) :
    ∃ m' a, getDispersion m [.tabN rows] = .ok (m', a) ∧ ∀ r ∈ rows, ∀ k, 1 ≤ k →
      getRefractiveIndex m' (1000 * r.1) k a = .ok (some (r.2 : ℂ)) := by
  obtain ⟨m', a, b, h, hv⟩ := tableObj_node m (rows.map fun r => (r.1, (r.2 : ℂ))) (by simpa using h2)
    (by rw [List.map_map]; exact hd)
  exact ⟨m', a, one_entry h, fun r hr k hk => hv _ (List.mem_map.2 ⟨r, hr, rfl⟩) k hk⟩

/-- C67: a table of `k` alone gives the imaginary index `i k` at its nodes. -/
theorem C67_table_k (m : Mem) (rows : List (ℝ × ℝ)) (h2 : 2 ≤ rows.length) (hd : (rows.map Prod.fst).Nodup) :
    ∃ m' a, getDispersion m [.tabK rows] = .ok (m', a) ∧ ∀ r ∈ rows, ∀ k, 1 ≤ k →
      getRefractiveIndex m' (1000 * r.1) k a = .ok (some (Complex.I * r.2)) := by
  obtain ⟨m', a, b, h, hv⟩ := tableObj_node m (rows.map fun r => (r.1, 0 + Complex.I * (r.2 : ℂ))) (by simpa using h2)
    (by rw [List.map_map]; exact hd)
  refine ⟨m', a, one_entry h, fun r hr k hk => ?_⟩
  have := hv _ (List.mem_map.2 ⟨r, hr, rfl⟩) k hk
  simpa using this

/-- A table meeting the hypotheses. -/
example : 2 ≤ [((0.4 : ℝ), (1.5 : ℝ), (0.1 : ℝ)), (0.8, 1.4, 0)].length ∧
    ([((0.4 : ℝ), (1.5 : ℝ), (0.1 : ℝ)), (0.8, 1.4, 0)].map Prod.fst).Nodup := by
  constructor
  · simp
  · norm_num

end PyElli.Rii
