import Verif.Model.Print
import Mathlib.Tactic.Linarith
import Mathlib.Data.List.Infix

/-! # C124: what a printed dispersion tells -/

namespace Spec

open PyElli.Print

/-- Names as Python allows them for classes and parameters. -/
def PyName (s : Text) : Prop := s ≠ [] ∧ ∀ c ∈ s, c.isAlphanum = true ∨ c = '_'

/-- A way to write numbers that tells different numbers apart and uses no layout characters, such as `str` of Python's `float`. -/
def NumberText {V : Type} (txt : V → Text) : Prop :=
  Function.Injective txt ∧ ∀ v, ∀ c ∈ txt v, c ≠ '\n' ∧ c ≠ ',' ∧ c ≠ '=' ∧ c ≠ ' '

/-- A dispersion with proper names and at least one parameter in each oscillator. -/
structure ProperLeaf {V : Type} (d : Leaf V) : Prop where
  cls : PyName d.cls
  not_title : d.cls ≠ "Oscillators".toList ∧ d.cls ≠ "DispersionSum".toList ∧ d.cls ≠ "IndexDispersionSum".toList
  single : ∀ item ∈ d.single, PyName item.1
  rep : ∀ p ∈ d.rep, p ≠ [] ∧ ∀ item ∈ p, PyName item.1

/-- The information in a printed dispersion: whether it is a sum and which; and for every term class name, parameters and oscillators,
in order. -/
def contents {V : Type} : Obj V → Option Bool × List (Text × PDict V × List (PDict V))
  | .term (.leaf d) => (none, [(d.cls, d.single, d.rep)])
  | .term (.view d) => (none, [("AnonymousIndexDispersion".toList, d.single, d.rep)])
  | .term (.viewSum _) => (none, [("AnonymousIndexDispersion".toList, [], [])])
  | .epsSum ts => (some false, ts.map fun t => match t with
      | .leaf d => (d.cls, d.single, d.rep)
      | .view d => ("AnonymousIndexDispersion".toList, d.single, d.rep)
      | .viewSum _ => ("AnonymousIndexDispersion".toList, [], []))
  | .idxSum ts => (some true, ts.map fun t => match t with
      | .leaf d => (d.cls, d.single, d.rep)
      | .view d => ("AnonymousIndexDispersion".toList, d.single, d.rep)
      | .viewSum _ => ("AnonymousIndexDispersion".toList, [], []))

/-- The dispersions an object consists of. -/
def leaves {V : Type} : Obj V → List (Leaf V)
  | .term (.leaf d) | .term (.view d) => [d]
  | .term (.viewSum _) => []
  | .epsSum ts | .idxSum ts => ts.flatMap fun t => match t with
      | .leaf d | .view d => [d]
      | .viewSum _ => []

end Spec

namespace PyElli.Print

open Spec

variable {V : Type}

/-! ## Separators -/

/-- A text up to the first separator is determined. -/
theorem cut {α : Type} {c : α} {p q r s : List α} (hp : c ∉ p) (hq : c ∉ q) (h : p ++ c :: r = q ++ c :: s) : p = q ∧ r = s := by
  induction p generalizing q with
  | nil =>
    cases q with
    | nil => simpa using h
    | cons b q =>
      simp only [List.nil_append, List.cons_append, List.cons.injEq] at h
      exact absurd (by simp [h.1]) hq
  | cons a p ih =>
    cases q with
    | nil =>
      simp only [List.nil_append, List.cons_append, List.cons.injEq] at h
      exact absurd (by simp [h.1]) hp
    | cons b q =>
      simp only [List.cons_append, List.cons.injEq] at h
      obtain ⟨h1, h2⟩ := ih (fun hc => hp (List.mem_cons_of_mem _ hc)) (fun hc => hq (List.mem_cons_of_mem _ hc)) h.2
      exact ⟨by rw [h.1, h1], h2⟩

/-- Parts joined by one character can be recovered. -/
theorem join_one {c : Char} : ∀ {ps qs : List Text}, (∀ p ∈ ps, c ∉ p) → (∀ q ∈ qs, c ∉ q) → ps ≠ [] → qs ≠ [] →
    join [c] ps = join [c] qs → ps = qs
  | [], _, _, _, h, _, _ => absurd rfl h
  | _, [], _, _, _, h, _ => absurd rfl h
  | [p], [q], _, _, _, _, h => by simpa [join] using h
  | [p], q :: q' :: qs, hp, _, _, _, h => by
    simp only [join, List.append_assoc, List.cons_append, List.nil_append] at h
    exact absurd (by rw [h]; simp) (hp p (by simp))
  | p :: p' :: ps, [q], _, hq, _, _, h => by
    simp only [join, List.append_assoc, List.cons_append, List.nil_append] at h
    exact absurd (by rw [← h]; simp) (hq q (by simp))
  | p :: p' :: ps, q :: q' :: qs, hp, hq, _, _, h => by
    simp only [join, List.append_assoc, List.cons_append, List.nil_append] at h
    obtain ⟨h1, h2⟩ := cut (hp p (by simp)) (hq q (by simp)) h
    have := join_one (fun x hx => hp x (List.mem_cons_of_mem _ hx)) (fun x hx => hq x (List.mem_cons_of_mem _ hx)) (by simp) (by simp) h2
    rw [h1, this]

/-- A join by two characters is a join by the first one, with the second one put in front of the parts. -/
theorem join_two (a b : Char) : ∀ (p : Text) (ps : List Text), join [a, b] (p :: ps) = join [a] (p :: ps.map (b :: ·))
  | p, [] => rfl
  | p, q :: ps => by
    have ih := join_two a b q ps
    simp only [join, List.map_cons, List.append_assoc, List.cons_append, List.nil_append]
    congr 2
    cases ps with
    | nil => rfl
    | cons r ps =>
      simp only [join, List.map_cons, List.append_assoc, List.cons_append, List.nil_append] at ih ⊢
      rw [ih]

theorem join_mem {sep : Text} {c : Char} : ∀ {ps : List Text}, c ∈ join sep ps → c ∈ sep ∨ ∃ p ∈ ps, c ∈ p
  | [], h => by simp [join] at h
  | [p], h => Or.inr ⟨p, by simp, by simpa [join] using h⟩
  | p :: q :: ps, h => by
    simp only [join, List.mem_append] at h
    rcases h with (h | h) | h
    · exact Or.inr ⟨p, by simp, h⟩
    · exact Or.inl h
    · rcases join_mem h with h | ⟨r, hr, hc⟩
      · exact Or.inl h
      · exact Or.inr ⟨r, List.mem_cons_of_mem _ hr, hc⟩

/-- Lines: a join of parts that are themselves joined lines. -/
theorem join_append (c : Char) : ∀ (ps qs : List Text), ps ≠ [] → qs ≠ [] →
    join [c] ps ++ c :: join [c] qs = join [c] (ps ++ qs)
  | [], _, h, _ => absurd rfl h
  | [p], [], _, h => absurd rfl h
  | [p], q :: qs, _, _ => by simp [join]
  | p :: p' :: ps, qs, _, hq => by
    have := join_append c (p' :: ps) qs (by simp) hq
    simp only [join, List.append_assoc, List.cons_append, List.nil_append] at this ⊢
    rw [← this]

/-! ## Parameters -/

theorem name_char {s : Text} (h : PyName s) {c : Char} (hc : c ∈ s) : c ≠ '\n' ∧ c ≠ ',' ∧ c ≠ '=' ∧ c ≠ ' ' := by
  have := h.2 c hc
  refine ⟨?_, ?_, ?_, ?_⟩ <;> (rintro rfl; revert this; decide)

theorem item_chars {txt : V → Text} (ht : NumberText txt) {item : Text × V} (hn : PyName item.1) :
    '\n' ∉ itemStr txt item ∧ ',' ∉ itemStr txt item ∧ itemStr txt item ≠ [] := by
  refine ⟨?_, ?_, by simp [itemStr]⟩
  · intro h
    simp only [itemStr, List.mem_append, List.mem_cons] at h
    rcases h with h | h | h | h | h
    · exact (name_char hn h).1 rfl
    · exact absurd h (by decide)
    · exact absurd h (by decide)
    · exact absurd h (by decide)
    · exact (ht.2 _ _ h).1 rfl
  · intro h
    simp only [itemStr, List.mem_append, List.mem_cons] at h
    rcases h with h | h | h | h | h
    · exact (name_char hn h).2.1 rfl
    · exact absurd h (by decide)
    · exact absurd h (by decide)
    · exact absurd h (by decide)
    · exact (ht.2 _ _ h).2.1 rfl

theorem item_inj {txt : V → Text} (ht : NumberText txt) {x y : Text × V} (hx : PyName x.1) (hy : PyName y.1)
    (h : itemStr txt x = itemStr txt y) : x = y := by
  unfold itemStr at h
  obtain ⟨h1, h2⟩ := cut (c := ' ') (fun hc => (name_char hx hc).2.2.2 rfl) (fun hc => (name_char hy hc).2.2.2 rfl) h
  simp only [List.cons.injEq, true_and] at h2
  exact Prod.ext h1 (ht.1 h2)

theorem items_inj {txt : V → Text} (ht : NumberText txt) : ∀ {d e : PDict V}, (∀ x ∈ d, PyName x.1) → (∀ x ∈ e, PyName x.1) →
    d.map (itemStr txt) = e.map (itemStr txt) → d = e
  | [], [], _, _, _ => rfl
  | [], _ :: _, _, _, h => by simp at h
  | _ :: _, [], _, _, h => by simp at h
  | x :: d, y :: e, hd, he, h => by
    simp only [List.map_cons, List.cons.injEq] at h
    rw [item_inj ht (hd x (by simp)) (he y (by simp)) h.1,
      items_inj ht (fun z hz => hd z (List.mem_cons_of_mem _ hz)) (fun z hz => he z (List.mem_cons_of_mem _ hz)) h.2]

theorem dict_ne {txt : V → Text} {d : PDict V} (h : d ≠ []) : dictToStr txt d ≠ [] := by
  match d, h with
  | [x], _ => simp [dictToStr, join, itemStr]
  | x :: y :: d, _ => simp [dictToStr, join, itemStr]

/-- The line of a parameter set determines it. -/
theorem dict_inj {txt : V → Text} (ht : NumberText txt) {d e : PDict V} (hd : ∀ x ∈ d, PyName x.1) (he : ∀ x ∈ e, PyName x.1)
    (h : dictToStr txt d = dictToStr txt e) : d = e := by
  match d, e with
  | [], [] => rfl
  | [], y :: e => exact absurd h.symm (dict_ne (by simp))
  | x :: d, [] => exact absurd h (dict_ne (by simp))
  | x :: d, y :: e =>
    unfold dictToStr at h
    simp only [List.map_cons] at h
    rw [join_two, join_two] at h
    have hx : ∀ {x : Text × V} {d : PDict V}, (∀ z ∈ x :: d, PyName z.1) →
        ∀ p ∈ itemStr txt x :: (d.map (itemStr txt)).map (' ' :: ·), ',' ∉ p := by
      intro x d hd p hp
      simp only [List.mem_cons, List.mem_map] at hp
      rcases hp with rfl | ⟨_, ⟨z, hz, rfl⟩, rfl⟩
      · exact (item_chars ht (hd x (by simp))).2.1
      · intro hc
        rcases List.mem_cons.1 hc with hc | hc
        · exact absurd hc (by decide)
        · exact (item_chars ht (hd z (List.mem_cons_of_mem _ hz))).2.1 hc
    have := join_one (hx hd) (hx he) (by simp) (by simp) h
    simp only [List.cons.injEq] at this
    have hmap := List.map_injective_iff.2 (fun a b hab => (List.cons.inj hab).2 : Function.Injective (fun l : Text => ' ' :: l)) this.2
    apply items_inj ht hd he
    simp only [List.map_cons, this.1, hmap]

theorem dict_line {txt : V → Text} (ht : NumberText txt) {d : PDict V} (hd : ∀ x ∈ d, PyName x.1) : '\n' ∉ dictToStr txt d := by
  intro h
  rcases join_mem h with h | ⟨p, hp, hc⟩
  · revert h; decide
  · obtain ⟨x, hx, rfl⟩ := List.mem_map.1 hp
    exact (item_chars ht (hd x hx)).1 hc

theorem dicts_inj {txt : V → Text} (ht : NumberText txt) : ∀ {ds es : List (PDict V)}, (∀ d ∈ ds, ∀ x ∈ d, PyName x.1) →
    (∀ d ∈ es, ∀ x ∈ d, PyName x.1) → ds.map (dictToStr txt) = es.map (dictToStr txt) → ds = es
  | [], [], _, _, _ => rfl
  | [], _ :: _, _, _, h => by simp at h
  | _ :: _, [], _, _, h => by simp at h
  | d :: ds, e :: es, hd, he, h => by
    simp only [List.map_cons, List.cons.injEq] at h
    rw [dict_inj ht (hd d (by simp)) (he e (by simp)) h.1,
      dicts_inj ht (fun z hz => hd z (List.mem_cons_of_mem _ hz)) (fun z hz => he z (List.mem_cons_of_mem _ hz)) h.2]

/-! ## Lines -/

/-- The lines below the parameters. -/
def oscLines (txt : V → Text) (rep : List (PDict V)) : List Text :=
  if rep.length > 0 then [] :: oscTitle :: oscLine :: rep.map (dictToStr txt) else []

/-- The lines of a printed term. -/
def lines (txt : V → Text) (d : Leaf V) : List Text :=
  d.cls :: List.replicate d.cls.length '=' :: dictToStr txt d.single :: oscLines txt d.rep

theorem baseRepr_lines (txt : V → Text) (d : Leaf V) : baseRepr txt d = join ['\n'] (lines txt d) := by
  unfold baseRepr lines oscLines
  split_ifs with h
  · match hr : d.rep, h with
    | p :: ps, _ => simp [join]
  · simp [join]

theorem title_char : ∀ c ∈ oscTitle, c ≠ '\n' := by decide

theorem lines_char {txt : V → Text} (ht : NumberText txt) {d : Leaf V} (hc : PyName d.cls) (hs : ∀ x ∈ d.single, PyName x.1)
    (hr : ∀ p ∈ d.rep, ∀ x ∈ p, PyName x.1) : ∀ l ∈ lines txt d, '\n' ∉ l := by
  intro l hl
  unfold lines at hl
  simp only [List.mem_cons] at hl
  rcases hl with rfl | rfl | rfl | hl
  · exact fun h => (name_char hc h).1 rfl
  · exact fun h => absurd (List.eq_of_mem_replicate h) (by decide)
  · exact dict_line ht hs
  · unfold oscLines at hl
    split_ifs at hl with h
    · simp only [List.mem_cons] at hl
      rcases hl with rfl | rfl | rfl | hl
      · simp
      · exact fun h => title_char _ h rfl
      · exact fun h => absurd (List.eq_of_mem_replicate h) (by decide)
      · obtain ⟨p, hp, rfl⟩ := List.mem_map.1 hl
        exact dict_line ht (hr p hp)
    · simp at hl

/-- A title and the line below it. -/
def _root_.Spec.underlined (title : List Char) : List Char := title ++ '\n' :: title.map fun _ => '='

/-- C124: the layout of a printed dispersion: the underlined name of the class, the parameters, and below an empty line the underlined word
"Oscillators" and one line for each of them, if there are any. -/
theorem C124_layout (txt : V → Text) (d : Leaf V) :
    (d.rep = [] → (Obj.term (.leaf d)).repr txt = Spec.underlined d.cls ++ '\n' :: dictToStr txt d.single) ∧
    (d.rep ≠ [] → (Obj.term (.leaf d)).repr txt = Spec.underlined d.cls ++ '\n' :: dictToStr txt d.single ++
      "\n\n".toList ++ Spec.underlined "Oscillators".toList ++ '\n' :: join ['\n'] (d.rep.map (dictToStr txt))) := by
  constructor
  · intro h
    simp [Obj.repr, Term.repr, Term.shown, baseRepr, h, Spec.underlined, List.map_const']
  · intro h
    have h' : d.rep.length > 0 := List.length_pos_iff.2 h
    have e : ∀ r : List Char, Spec.underlined "Oscillators".toList ++ r = oscTitle ++ '\n' :: (oscLine ++ r) := fun _ => rfl
    have e2 : "\n\n".toList = ['\n', '\n'] := rfl
    simp only [Obj.repr, Term.repr, Term.shown, baseRepr, h', if_true, List.append_assoc, e, e2]
    simp [Spec.underlined, List.map_const']

/-- What may follow a term: nothing, or an empty line and a line that is not the title of the oscillators. -/
def Follow (R : List Text) : Prop := R = [] ∨ ∃ l R', R = [] :: l :: R' ∧ l ≠ oscTitle

theorem span_eq : ∀ {ps qs R S : List Text}, (∀ p ∈ ps, p ≠ []) → (∀ q ∈ qs, q ≠ []) → Follow R → Follow S →
    ps ++ R = qs ++ S → ps = qs ∧ R = S
  | [], [], _, _, _, _, _, _, h => ⟨rfl, h⟩
  | [], q :: qs, R, S, _, hq, hR, _, h => by
    rcases hR with rfl | ⟨l, R', rfl, _⟩
    · simp at h
    · simp only [List.nil_append, List.cons_append, List.cons.injEq] at h
      exact absurd h.1.symm (hq q (by simp))
  | p :: ps, [], R, S, hp, _, _, hS, h => by
    rcases hS with rfl | ⟨l, R', rfl, _⟩
    · simp at h
    · simp only [List.nil_append, List.cons_append, List.cons.injEq] at h
      exact absurd h.1 (hp p (by simp))
  | p :: ps, q :: qs, R, S, hp, hq, hR, hS, h => by
    simp only [List.cons_append, List.cons.injEq] at h
    obtain ⟨h1, h2⟩ := span_eq (fun x hx => hp x (List.mem_cons_of_mem _ hx)) (fun x hx => hq x (List.mem_cons_of_mem _ hx)) hR hS h.2
    exact ⟨by rw [h.1, h1], h2⟩

/-- The conditions on what a term shows. -/
structure Good (d : Leaf V) : Prop where
  cls : PyName d.cls
  title : d.cls ≠ oscTitle ∧ d.cls ≠ epsTitle ∧ d.cls ≠ idxTitle
  single : ∀ x ∈ d.single, PyName x.1
  rep : ∀ p ∈ d.rep, p ≠ [] ∧ ∀ x ∈ p, PyName x.1

theorem osc_inj {txt : V → Text} (ht : NumberText txt) {r s : List (PDict V)} (hr : ∀ p ∈ r, p ≠ [] ∧ ∀ x ∈ p, PyName x.1)
    (hs : ∀ p ∈ s, p ≠ [] ∧ ∀ x ∈ p, PyName x.1) {R S : List Text} (hR : Follow R) (hS : Follow S)
    (h : oscLines txt r ++ R = oscLines txt s ++ S) : r = s ∧ R = S := by
  match r, s with
  | [], [] => exact ⟨rfl, by simpa [oscLines] using h⟩
  | [], q :: s =>
    rcases hR with rfl | ⟨l, R', rfl, hl⟩
    · simp [oscLines] at h
    · simp only [oscLines, List.length_nil, List.length_cons, lt_self_iff_false, if_false, List.nil_append, gt_iff_lt,
        Nat.zero_lt_succ, if_true, List.cons_append, List.cons.injEq, true_and] at h
      exact absurd h.1 hl
  | p :: r, [] =>
    rcases hS with rfl | ⟨l, R', rfl, hl⟩
    · simp [oscLines] at h
    · simp only [oscLines, List.length_nil, List.length_cons, lt_self_iff_false, if_false, List.nil_append, gt_iff_lt,
        Nat.zero_lt_succ, if_true, List.cons_append, List.cons.injEq, true_and] at h
      exact absurd h.1.symm hl
  | p :: r, q :: s =>
    have e : ∀ (p : PDict V) r, oscLines txt (p :: r) = [] :: oscTitle :: oscLine :: (p :: r).map (dictToStr txt) := fun p r => by
      simp [oscLines]
    rw [e, e] at h
    simp only [List.cons_append, List.cons.injEq, true_and] at h
    have hne : ∀ {r : List (PDict V)}, (∀ p ∈ r, p ≠ [] ∧ ∀ x ∈ p, PyName x.1) → ∀ l ∈ r.map (dictToStr txt), l ≠ [] := by
      intro r hr l hl
      obtain ⟨p, hp, rfl⟩ := List.mem_map.1 hl
      exact dict_ne (hr p hp).1
    obtain ⟨h1, h2⟩ := span_eq (hne hr) (hne hs) hR hS h
    exact ⟨dicts_inj ht (fun p hp => (hr p hp).2) (fun p hp => (hs p hp).2) h1, h2⟩

/-- The lines of a term and what follows determine the term and what follows. -/
theorem lines_inj {txt : V → Text} (ht : NumberText txt) {d e : Leaf V} (hd : Good d) (he : Good e) {R S : List Text} (hR : Follow R)
    (hS : Follow S) (h : lines txt d ++ R = lines txt e ++ S) :
    (d.cls = e.cls ∧ d.single = e.single ∧ d.rep = e.rep) ∧ R = S := by
  unfold lines at h
  simp only [List.cons_append, List.cons.injEq] at h
  obtain ⟨h1, _, h3, h4⟩ := h
  obtain ⟨h5, h6⟩ := osc_inj ht hd.rep he.rep hR hS h4
  exact ⟨⟨h1, dict_inj ht hd.single he.single h3, h5⟩, h6⟩

/-- The lines of several terms with an empty line before each. -/
def blocks (txt : V → Text) : List (Leaf V) → List Text
  | [] => []
  | d :: ds => [] :: (lines txt d ++ blocks txt ds)

theorem blocks_follow (txt : V → Text) : ∀ {ds : List (Leaf V)}, (∀ d ∈ ds, Good d) → Follow (blocks txt ds)
  | [], _ => Or.inl rfl
  | d :: ds, h => Or.inr ⟨d.cls, _, rfl, (h d (by simp)).title.1⟩

theorem blocks_inj {txt : V → Text} (ht : NumberText txt) : ∀ {ds es : List (Leaf V)}, (∀ d ∈ ds, Good d) → (∀ e ∈ es, Good e) →
    blocks txt ds = blocks txt es →
    ds.map (fun d => (d.cls, d.single, d.rep)) = es.map (fun d => (d.cls, d.single, d.rep))
  | [], [], _, _, _ => rfl
  | [], _ :: _, _, _, h => by simp [blocks] at h
  | _ :: _, [], _, _, h => by simp [blocks] at h
  | d :: ds, e :: es, hd, he, h => by
    have hd' : ∀ x ∈ ds, Good x := fun x hx => hd x (List.mem_cons_of_mem _ hx)
    have he' : ∀ x ∈ es, Good x := fun x hx => he x (List.mem_cons_of_mem _ hx)
    simp only [blocks, List.cons.injEq, true_and] at h
    obtain ⟨⟨h1, h2, h3⟩, h4⟩ := lines_inj ht (hd d (by simp)) (he e (by simp)) (blocks_follow txt hd') (blocks_follow txt he') h
    simp only [List.map_cons, h1, h2, h3, blocks_inj ht hd' he' h4]

/-- The printed terms, separated by empty lines. -/
theorem join_blocks (txt : V → Text) : ∀ (d : Leaf V) (ds : List (Leaf V)),
    join ['\n', '\n'] ((d :: ds).map (baseRepr txt)) = join ['\n'] (lines txt d ++ blocks txt ds)
  | d, [] => by simp [join, blocks, baseRepr_lines]
  | d, e :: ds => by
    have ih := join_blocks txt e ds
    have hb : lines txt e ++ blocks txt ds ≠ [] := by simp [lines]
    have : join ['\n'] ([] :: (lines txt e ++ blocks txt ds)) = '\n' :: join ['\n'] (lines txt e ++ blocks txt ds) := by
      match h : lines txt e ++ blocks txt ds, hb with
      | l :: ls, _ => simp [join]
    simp only [blocks]
    rw [← join_append _ _ _ (by simp [lines]) (by simp), this, ← ih, ← baseRepr_lines]
    simp [join]

/-- The lines of the terms of a sum, with the empty lines of an empty sum. -/
def termLines (txt : V → Text) : List (Leaf V) → List Text
  | [] => [[], []]
  | d :: ds => blocks txt (d :: ds)

theorem sumRepr_lines (txt : V → Text) (title : Text) (ts : List (Term V)) :
    sumRepr txt title ts = join ['\n'] (title :: List.replicate 13 '=' :: termLines txt (ts.map Term.shown)) := by
  unfold sumRepr
  match ts with
  | [] => simp [join, termLines]
  | t :: ts =>
    have : ((t :: ts).map (Term.repr txt)) = (t.shown :: ts.map Term.shown).map (baseRepr txt) := by
      simp [Term.repr]
    rw [this, join_blocks]
    have hb : lines txt t.shown ++ blocks txt (ts.map Term.shown) ≠ [] := by simp [lines]
    simp only [List.map_cons, termLines, blocks]
    match h : lines txt t.shown ++ blocks txt (ts.map Term.shown), hb with
    | l :: ls, _ => simp [join]

theorem blocks_char {txt : V → Text} (ht : NumberText txt) : ∀ {ds : List (Leaf V)}, (∀ d ∈ ds, Good d) → ∀ l ∈ blocks txt ds, '\n' ∉ l
  | [], _, l, hl => by simp [blocks] at hl
  | d :: ds, h, l, hl => by
    simp only [blocks, List.mem_cons, List.mem_append] at hl
    have hd := h d (by simp)
    rcases hl with rfl | hl | hl
    · simp
    · exact lines_char ht hd.cls hd.single (fun p hp => (hd.rep p hp).2) l hl
    · exact blocks_char ht (fun x hx => h x (List.mem_cons_of_mem _ hx)) l hl

theorem termLines_char {txt : V → Text} (ht : NumberText txt) {ds : List (Leaf V)} (h : ∀ d ∈ ds, Good d) :
    ∀ l ∈ termLines txt ds, '\n' ∉ l := by
  match ds with
  | [] => simp [termLines]
  | d :: ds => exact blocks_char ht h

theorem termLines_inj {txt : V → Text} (ht : NumberText txt) {ds es : List (Leaf V)} (hd : ∀ d ∈ ds, Good d) (he : ∀ e ∈ es, Good e)
    (h : termLines txt ds = termLines txt es) :
    ds.map (fun d => (d.cls, d.single, d.rep)) = es.map (fun d => (d.cls, d.single, d.rep)) := by
  match ds, es with
  | [], [] => rfl
  | [], e :: es =>
    simp only [termLines, blocks, lines, List.cons_append, List.cons.injEq, true_and] at h
    exact absurd h.1.symm (he e (by simp)).cls.1
  | d :: ds, [] =>
    simp only [termLines, blocks, lines, List.cons_append, List.cons.injEq, true_and] at h
    exact absurd h.1 (hd d (by simp)).cls.1
  | d :: ds, e :: es => exact blocks_inj ht hd he h

/-- The lines of a printed object. -/
def objLines (txt : V → Text) : Obj V → List Text
  | .term t => lines txt t.shown
  | .epsSum ts => epsTitle :: List.replicate 13 '=' :: termLines txt (ts.map Term.shown)
  | .idxSum ts => idxTitle :: List.replicate 13 '=' :: termLines txt (ts.map Term.shown)

theorem repr_lines (txt : V → Text) (o : Obj V) : o.repr txt = join ['\n'] (objLines txt o) := by
  cases o with
  | term t => exact baseRepr_lines txt _
  | epsSum ts => exact sumRepr_lines txt _ ts
  | idxSum ts => exact sumRepr_lines txt _ ts

/-- What the terms of an object show. -/
def shownList : Obj V → List (Leaf V)
  | .term t => [t.shown]
  | .epsSum ts | .idxSum ts => ts.map Term.shown

theorem contents_eq (o : Obj V) : (contents o).2 = (shownList o).map fun d => (d.cls, d.single, d.rep) := by
  have key : ∀ ts : List (Term V), ts.map (fun t => match t with
      | .leaf d => (d.cls, d.single, d.rep)
      | .view d => ("AnonymousIndexDispersion".toList, d.single, d.rep)
      | .viewSum _ => ("AnonymousIndexDispersion".toList, [], [])) =
      (ts.map Term.shown).map (fun d => (d.cls, d.single, d.rep)) := by
    intro ts
    rw [List.map_map]
    apply List.map_congr_left
    intro t _
    cases t <;> rfl
  cases o with
  | term t => cases t <;> rfl
  | epsSum ts => exact key ts
  | idxSum ts => exact key ts

theorem anonymous_name : PyName anonymous := ⟨by decide, by decide⟩

theorem good_shown {o : Obj V} (h : ∀ d ∈ leaves o, ProperLeaf d) : ∀ d ∈ shownList o, Good d := by
  have title : anonymous ≠ oscTitle ∧ anonymous ≠ epsTitle ∧ anonymous ≠ idxTitle := ⟨by decide, by decide, by decide⟩
  have key : ∀ t : Term V, (∀ d, (t = .leaf d ∨ t = .view d) → ProperLeaf d) → Good t.shown := by
    intro t ht
    cases t with
    | leaf d =>
      have hd := ht d (Or.inl rfl)
      exact ⟨hd.cls, hd.not_title, hd.single, hd.rep⟩
    | view d =>
      have hd := ht d (Or.inr rfl)
      exact ⟨anonymous_name, title, hd.single, hd.rep⟩
    | viewSum ds => exact ⟨anonymous_name, title, by simp [Term.shown], by simp [Term.shown]⟩
  have sums : ∀ ts : List (Term V), (∀ d ∈ (ts.flatMap fun t => match t with
      | .leaf d | .view d => [d]
      | .viewSum _ => []), ProperLeaf d) → ∀ d ∈ ts.map Term.shown, Good d := by
    intro ts hts d hd
    obtain ⟨t, ht, rfl⟩ := List.mem_map.1 hd
    apply key
    intro d hd
    apply hts
    rw [List.mem_flatMap]
    refine ⟨t, ht, ?_⟩
    rcases hd with rfl | rfl <;> simp
  cases o with
  | term t =>
    intro d hd
    simp only [shownList, List.mem_singleton] at hd
    subst hd
    apply key
    rintro d (rfl | rfl) <;> exact h d (by simp [leaves])
  | epsSum ts => exact sums ts h
  | idxSum ts => exact sums ts h

theorem objLines_char {txt : V → Text} (ht : NumberText txt) {o : Obj V} (h : ∀ d ∈ shownList o, Good d) :
    ∀ l ∈ objLines txt o, '\n' ∉ l := by
  have sums : ∀ (title : Text), (∀ c ∈ title, c ≠ '\n') → ∀ ds : List (Leaf V), (∀ d ∈ ds, Good d) →
      ∀ l ∈ title :: List.replicate 13 '=' :: termLines txt ds, '\n' ∉ l := by
    intro title htitle ds hds l hl
    simp only [List.mem_cons] at hl
    rcases hl with rfl | rfl | hl
    · exact fun hc => htitle _ hc rfl
    · decide
    · exact termLines_char ht hds l hl
  cases o with
  | term t =>
    have hd := h t.shown (by simp [shownList])
    exact lines_char ht hd.cls hd.single (fun p hp => (hd.rep p hp).2)
  | epsSum ts => exact sums epsTitle (by decide) _ h
  | idxSum ts => exact sums idxTitle (by decide) _ h

/-! ## C124 -/

/-- **C124** (partial). For every way to write numbers that tells them apart: two printed dispersions are equal exactly when class,
parameters and oscillators, and for sums the terms in order, are equal. Not settled by the printed text: what dispersions keep
outside of their parameters and what `as_index()` hides (see the refutations below). -/
theorem C124_determines_partial (txt : V → Text) (ht : NumberText txt) (o o' : Obj V) (h : ∀ d ∈ leaves o, ProperLeaf d)
    (h' : ∀ d ∈ leaves o', ProperLeaf d) : o.repr txt = o'.repr txt ↔ contents o = contents o' := by
  have g := good_shown h
  have g' := good_shown h'
  constructor
  · intro e
    rw [repr_lines, repr_lines] at e
    have e := join_one (objLines_char ht g) (objLines_char ht g') (by cases o <;> simp [objLines, lines])
      (by cases o' <;> simp [objLines, lines]) e
    have c2 : (contents o).2 = (contents o').2 → (contents o).1 = (contents o').1 → contents o = contents o' :=
      fun h2 h1 => Prod.ext h1 h2
    have ne : epsTitle ≠ idxTitle := by decide
    cases o with
    | term t =>
      have gt := g t.shown (by simp [shownList])
      cases o' with
      | term t' =>
        have gt' := g' t'.shown (by simp [shownList])
        have := lines_inj ht gt gt' (R := []) (S := []) (Or.inl rfl) (Or.inl rfl) (by simpa [objLines] using e)
        apply c2
        · rw [contents_eq, contents_eq]
          simp only [shownList, List.map_cons, List.map_nil, this.1.1, this.1.2.1, this.1.2.2]
        · cases t <;> cases t' <;> rfl
      | epsSum ts => exact absurd (List.cons.inj e).1 gt.title.2.1
      | idxSum ts => exact absurd (List.cons.inj e).1 gt.title.2.2
    | epsSum ts =>
      cases o' with
      | term t' => exact absurd (List.cons.inj e).1.symm (g' t'.shown (by simp [shownList])).title.2.1
      | epsSum ts' =>
        refine c2 ?_ rfl
        rw [contents_eq, contents_eq]
        exact termLines_inj ht g g' (List.cons.inj (List.cons.inj e).2).2
      | idxSum ts' => exact absurd (List.cons.inj e).1 ne
    | idxSum ts =>
      cases o' with
      | term t' => exact absurd (List.cons.inj e).1.symm (g' t'.shown (by simp [shownList])).title.2.2
      | epsSum ts' => exact absurd (List.cons.inj e).1.symm ne
      | idxSum ts' =>
        refine c2 ?_ rfl
        rw [contents_eq, contents_eq]
        exact termLines_inj ht g g' (List.cons.inj (List.cons.inj e).2).2
  · intro e
    have hl : ∀ (ds es : List (Leaf V)), ds.map (fun d => (d.cls, d.single, d.rep)) = es.map (fun d => (d.cls, d.single, d.rep)) →
        ds.map (baseRepr txt) = es.map (baseRepr txt) := by
      intro ds
      induction ds with
      | nil => intro es hes; cases es with
        | nil => rfl
        | cons e es => simp at hes
      | cons d ds ih => intro es hes; cases es with
        | nil => simp at hes
        | cons e es =>
          simp only [List.map_cons, List.cons.injEq, Prod.mk.injEq] at hes
          simp only [List.map_cons, ih es hes.2, baseRepr, hes.1.1, hes.1.2.1, hes.1.2.2]
    have e2 := congrArg Prod.snd e
    rw [contents_eq, contents_eq] at e2
    have e2 := hl _ _ e2
    have e1 := congrArg Prod.fst e
    have m : ∀ ts : List (Term V), ts.map (Term.repr txt) = (ts.map Term.shown).map (baseRepr txt) := fun ts => by
      rw [List.map_map]; rfl
    have ft : ∀ t : Term V, (contents (.term t)).1 = none := fun t => by cases t <;> rfl
    cases o with
    | term t =>
      rw [ft] at e1
      cases o' with
      | term t' =>
        simp only [shownList, List.map_cons, List.map_nil, List.cons.injEq, and_true] at e2
        exact e2
      | epsSum ts => simp [contents] at e1
      | idxSum ts => simp [contents] at e1
    | epsSum ts =>
      cases o' with
      | term t' => rw [ft] at e1; simp [contents] at e1
      | epsSum ts' =>
        simp only [shownList] at e2
        simp only [Obj.repr, sumRepr, m, e2]
      | idxSum ts' => simp [contents] at e1
    | idxSum ts =>
      cases o' with
      | term t' => rw [ft] at e1; simp [contents] at e1
      | epsSum ts' => simp [contents] at e1
      | idxSum ts' =>
        simp only [shownList] at e2
        simp only [Obj.repr, sumRepr, m, e2]

/-- Writing natural numbers by strokes, for the example. -/
def strokes (n : ℕ) : Text := List.replicate n '1'

theorem strokes_number : NumberText strokes := by
  refine ⟨fun a b h => by simpa [strokes] using congrArg List.length h, fun v c hc => ?_⟩
  obtain rfl := List.eq_of_mem_replicate hc
  decide

/-- A Sellmeier dispersion with two oscillators, for the example. -/
def sellmeier : Leaf ℕ := ⟨"Sellmeier".toList, [], [[(['A'], 1), (['B'], 2)], [(['A'], 3), (['B'], 0)]], []⟩

/-- A constant, for the example. -/
def epsInf : Leaf ℕ := ⟨"EpsilonInf".toList, [("eps".toList, 4)], [], []⟩

theorem sellmeier_proper : ProperLeaf sellmeier := by
  refine ⟨⟨by decide, by decide⟩, ⟨by decide, by decide, by decide⟩, fun item h => absurd h List.not_mem_nil, ?_⟩
  intro p hp
  have hp : p ∈ [[(['A'], 1), (['B'], 2)], [(['A'], 3), (['B'], 0)]] := hp
  simp only [List.mem_cons, List.not_mem_nil, or_false] at hp
  rcases hp with rfl | rfl <;>
  · refine ⟨by simp, ?_⟩
    intro item hi
    simp only [List.mem_cons, List.not_mem_nil, or_false] at hi
    rcases hi with rfl | rfl <;> exact ⟨by decide, by decide⟩

theorem epsInf_proper : ProperLeaf epsInf := by
  refine ⟨⟨by decide, by decide⟩, ⟨by decide, by decide, by decide⟩, ?_, fun p h => absurd h List.not_mem_nil⟩
  intro item hi
  obtain rfl := List.mem_singleton.1 hi
  exact ⟨by decide, by decide⟩

/-- The hypotheses are met by a sum of two dispersions with different parameters; printed in the other order it reads differently. -/
example : (Obj.epsSum [.leaf sellmeier, .leaf epsInf]).repr strokes ≠ (Obj.epsSum [.leaf epsInf, .leaf sellmeier]).repr strokes := by
  intro h
  have := (C124_determines_partial strokes strokes_number (.epsSum [.leaf sellmeier, .leaf epsInf]) (.epsSum [.leaf epsInf, .leaf sellmeier])
    (by intro d hd
        simp only [leaves, List.flatMap_cons, List.flatMap_nil, List.append_nil, List.cons_append, List.nil_append, List.mem_cons,
          List.not_mem_nil, or_false] at hd
        rcases hd with rfl | rfl
        · exact sellmeier_proper
        · exact epsInf_proper)
    (by intro d hd
        simp only [leaves, List.flatMap_cons, List.flatMap_nil, List.append_nil, List.cons_append, List.nil_append, List.mem_cons,
          List.not_mem_nil, or_false] at hd
        rcases hd with rfl | rfl
        · exact epsInf_proper
        · exact sellmeier_proper)).1 h
  have := congrArg (fun c => (c.2.head?.map Prod.fst)) this
  revert this
  decide

/-- The text of the sum. -/
example : (Obj.epsSum [.leaf epsInf]).repr strokes = "DispersionSum\n=============\n\nEpsilonInf\n==========\neps = 1111".toList := by
  decide

theorem infix_join {sep p : Text} : ∀ {ps : List Text}, p ∈ ps → p <:+: join sep ps
  | [q], h => by
    rw [List.mem_singleton.1 h]
    exact List.infix_refl _
  | q :: r :: ps, h => by
    rcases List.mem_cons.1 h with rfl | h
    · simp only [join, List.append_assoc]
      exact (List.prefix_append _ _).isInfix
    · exact (infix_join h).trans (by simp only [join]; exact (List.suffix_append _ _).isInfix)

/-- **C124** (partial). Every parameter of every term can be read as `name = value`. Missing for what `as_index()` of a sum hides. -/
theorem C124_every_parameter_partial (txt : V → Text) (o : Obj V) (d : Leaf V) (hd : d ∈ leaves o) (k : Text) (v : V)
    (hk : (k, v) ∈ d.single ∨ ∃ p ∈ d.rep, (k, v) ∈ p) : (k ++ " = ".toList ++ txt v) <:+: o.repr txt := by
  have item : (k ++ " = ".toList ++ txt v) = itemStr txt (k, v) := by
    simp [itemStr]
  rw [item]
  have dict : ∀ p : PDict V, (k, v) ∈ p → itemStr txt (k, v) <:+: dictToStr txt p := fun p hp =>
    infix_join (List.mem_map_of_mem hp)
  have one : ∀ e : Leaf V, e.single = d.single → e.rep = d.rep → itemStr txt (k, v) <:+: baseRepr txt e := by
    intro e h1 h2
    rw [baseRepr_lines]
    rcases hk with hk | ⟨p, hp, hk⟩
    · refine (dict _ hk).trans (infix_join ?_)
      simp [lines, h1]
    · refine (dict _ hk).trans (infix_join ?_)
      have : 0 < d.rep.length := List.length_pos_of_mem hp
      simp only [lines, oscLines, h2, gt_iff_lt, this, if_true, List.mem_cons, List.mem_map]
      exact Or.inr (Or.inr (Or.inr (Or.inr (Or.inr (Or.inr ⟨p, hp, rfl⟩)))))
  have sums : ∀ (title : Text) (ts : List (Term V)), d ∈ (ts.flatMap fun t => match t with
      | .leaf d | .view d => [d]
      | .viewSum _ => []) → itemStr txt (k, v) <:+: sumRepr txt title ts := by
    intro title ts hts
    obtain ⟨t, ht, hdt⟩ := List.mem_flatMap.1 hts
    have h1 : itemStr txt (k, v) <:+: t.repr txt := by
      cases t with
      | leaf e => obtain rfl := List.mem_singleton.1 hdt; exact one d rfl rfl
      | view e => obtain rfl := List.mem_singleton.1 hdt; exact one _ rfl rfl
      | viewSum es => simp at hdt
    refine h1.trans ((infix_join (sep := ['\n', '\n']) (List.mem_map_of_mem ht)).trans ?_)
    unfold sumRepr
    exact (List.suffix_append _ _).isInfix
  cases o with
  | term t =>
    cases t with
    | leaf e => obtain rfl := List.mem_singleton.1 hd; exact one d rfl rfl
    | view e => obtain rfl := List.mem_singleton.1 hd; exact one _ rfl rfl
    | viewSum es => simp [leaves] at hd
  | epsSum ts => exact sums _ ts hd
  | idxSum ts => exact sums _ ts hd

/-- A parameter of an oscillator in a sum. -/
example : ("B = 11".toList) <:+: (Obj.epsSum [.leaf epsInf, .leaf sellmeier]).repr strokes :=
  C124_every_parameter_partial strokes _ sellmeier (by simp [leaves]) ['B'] 2
    (Or.inr ⟨[(['A'], 1), (['B'], 2)], List.mem_cons_self, by simp⟩)

/-- **C124 fails**: all sums print alike after `as_index()`, whatever their terms are, although the objects compute different
indices. -/
theorem C124_as_index_refuted (txt : V → Text) (ts ts' : List (Term V)) : ∃ v v',
    (Obj.epsSum ts).asIndex = .ok v ∧ (Obj.epsSum ts').asIndex = .ok v' ∧ v.repr txt = v'.repr txt ∧
      v.repr txt = "AnonymousIndexDispersion\n========================\n".toList := by
  refine ⟨_, _, rfl, rfl, rfl, ?_⟩
  simp only [Obj.repr, Term.repr, Term.shown, baseRepr, dictToStr, join, List.map_nil, List.length_nil, gt_iff_lt, lt_self_iff_false,
    if_false]
  decide

/-- **C124 fails**: dispersions that differ only in what they keep outside of the parameters (interpolation of a table, formula, axis
and unit of a formula dispersion) print alike. -/
theorem C124_other_refuted (txt : V → Text) (cls : Text) (single : PDict V) (rep : List (PDict V)) (a b : Text) (hab : a ≠ b) :
    (Obj.term (.leaf ⟨cls, single, rep, a⟩)) ≠ .term (.leaf ⟨cls, single, rep, b⟩) ∧
      (Obj.term (.leaf ⟨cls, single, rep, a⟩)).repr txt = (Obj.term (.leaf ⟨cls, single, rep, b⟩)).repr txt := by
  refine ⟨?_, rfl⟩
  intro h
  simp only [Obj.term.injEq, Term.leaf.injEq, Leaf.mk.injEq, true_and] at h
  exact hab h

/-- Two tables with the same data and different interpolation. -/
example : (Obj.term (.leaf ⟨"Table".toList, [("n".toList, 1)], [], "linear".toList⟩)).repr strokes =
    (Obj.term (.leaf ⟨"Table".toList, [("n".toList, 1)], [], "cubic".toList⟩)).repr strokes :=
  (C124_other_refuted strokes _ _ _ _ _ (by decide)).2

end PyElli.Print
