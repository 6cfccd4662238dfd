import Verif.Model.CatalogFile
import Verif.Props.Catalog
import Mathlib.Tactic.Linarith

/-! # C142: the catalog of refractiveindex.info as read from its file -/

namespace PyElli.Catalog

open PyElli

/-! ## Patterns -/

lemma seq_head {a b : Pat} {s : Letters} {x y : Found} {xs ys : List Found} (ha : a s = x :: xs) (hb : b x.rest = y :: ys) :
    ∃ zs, (a ⬝ b) s = ⟨x.groups ++ y.groups, x.text ++ y.text, y.rest⟩ :: zs := by
  unfold Pat.seq
  rw [ha, List.flatMap_cons, hb, List.map_cons, List.cons_append]
  exact ⟨_, rfl⟩

lemma seq_skip {a b : Pat} {s : Letters} {x y : Found} {pre xs ys : List Found} (ha : a s = pre ++ x :: xs) (hpre : ∀ p ∈ pre, b p.rest = [])
    (hb : b x.rest = y :: ys) : ∃ zs, (a ⬝ b) s = ⟨x.groups ++ y.groups, x.text ++ y.text, y.rest⟩ :: zs := by
  unfold Pat.seq
  rw [ha, List.flatMap_append, List.flatMap_eq_nil_iff.2 (fun p hp => by rw [hpre p hp]; rfl), List.nil_append, List.flatMap_cons, hb, List.map_cons,
    List.cons_append]
  exact ⟨_, rfl⟩

lemma seq_nil {a b : Pat} {s : Letters} (h : ∀ x ∈ a s, b x.rest = []) : (a ⬝ b) s = [] := by
  unfold Pat.seq
  exact List.flatMap_eq_nil_iff.2 fun p hp => by rw [h p hp]; rfl

lemma lit_append (t r : Letters) : lit t (t ++ r) = [⟨[], t, r⟩] := by
  unfold lit
  rw [if_pos (by simp), List.drop_left]

lemma lit_mem {t s : Letters} {x : Found} (h : x ∈ lit t s) : s = t ++ x.rest := by
  unfold lit at h
  split_ifs at h with hp
  · rw [List.mem_singleton.1 h]
    obtain ⟨r, rfl⟩ := List.isPrefixOf_iff_prefix.1 hp
    simp
  · simp at h

lemma many_mem {p : Char → Bool} : ∀ {s : Letters} {x : Found}, x ∈ many p s → s = x.text ++ x.rest ∧ x.groups = []
  | [], x, h => by
    rw [many, List.mem_singleton] at h
    rw [h]
    exact ⟨rfl, rfl⟩
  | c :: s, x, h => by
    unfold many at h
    split_ifs at h with hc
    · rw [List.mem_append, List.mem_map, List.mem_singleton] at h
      rcases h with ⟨y, hy, rfl⟩ | rfl
      · exact ⟨by rw [List.cons_append, ← (many_mem hy).1], rfl⟩
      · exact ⟨rfl, rfl⟩
    · rw [List.mem_singleton] at h
      rw [h]
      exact ⟨rfl, rfl⟩

lemma many_split {p : Char → Bool} : ∀ (u v : Letters), (∀ c ∈ u, p c = true) →
    ∃ pre post, many p (u ++ v) = pre ++ ⟨[], u, v⟩ :: post ∧ (∀ y ∈ pre, ∃ d ≠ [], v = d ++ y.rest) ∧ (∀ y ∈ post, ∃ e ≠ [], u = y.text ++ e ∧ y.rest = e ++ v)
  | [], [], _ => ⟨[], [], rfl, by simp, by simp⟩
  | [], c :: v, _ => by
    by_cases hc : p c = true
    · refine ⟨(many p v).map fun x => ⟨[], c :: x.text, x.rest⟩, [], by rw [List.nil_append, many, if_pos hc], ?_, by simp⟩
      intro y hy
      obtain ⟨z, hz, rfl⟩ := List.mem_map.1 hy
      exact ⟨c :: z.text, by simp, by rw [List.cons_append, ← (many_mem hz).1]⟩
    · exact ⟨[], [], by rw [List.nil_append, many, if_neg hc]; rfl, by simp, by simp⟩
  | c :: u, v, h => by
    obtain ⟨pre, post, e, h1, h2⟩ := many_split u v fun d hd => h d (List.mem_cons_of_mem _ hd)
    have hc : p c = true := h c List.mem_cons_self
    refine ⟨pre.map fun x => ⟨[], c :: x.text, x.rest⟩, post.map (fun x => ⟨[], c :: x.text, x.rest⟩) ++ [⟨[], [], c :: (u ++ v)⟩], ?_, ?_, ?_⟩
    · rw [List.cons_append, many, if_pos hc, e]
      simp
    · intro y hy
      obtain ⟨z, hz, rfl⟩ := List.mem_map.1 hy
      exact h1 z hz
    · intro y hy
      rw [List.mem_append, List.mem_map, List.mem_singleton] at hy
      rcases hy with ⟨z, hz, rfl⟩ | rfl
      · obtain ⟨d, hd, e1, e2⟩ := h2 z hz
        exact ⟨d, hd, by rw [List.cons_append, ← e1], e2⟩
      · exact ⟨c :: u, by simp, rfl, rfl⟩

lemma many_head {p : Char → Bool} (u v : Letters) (hu : ∀ c ∈ u, p c = true) (hv : ∀ c r, v = c :: r → p c = false) :
    ∃ post, many p (u ++ v) = ⟨[], u, v⟩ :: post := by
  induction u with
  | nil =>
    cases v with
    | nil => exact ⟨[], rfl⟩
    | cons c r => exact ⟨[], by rw [List.nil_append, many, if_neg (by simp [hv c r rfl])]⟩
  | cons c u ih =>
    obtain ⟨post, e⟩ := ih fun d hd => hu d (List.mem_cons_of_mem _ hd)
    rw [List.cons_append, many, if_pos (hu c List.mem_cons_self), e]
    exact ⟨_, rfl⟩

lemma named_head {n : String} {a : Pat} {s : Letters} {x : Found} {xs : List Found} (h : a s = x :: xs) :
    ∃ zs, named n a s = ⟨x.groups ++ [(n, x.text)], x.text, x.rest⟩ :: zs := by
  unfold named
  rw [h]
  exact ⟨_, rfl⟩

lemma named_mem {n : String} {a : Pat} {s : Letters} {x : Found} (h : x ∈ named n a s) : ∃ y ∈ a s, x = ⟨y.groups ++ [(n, y.text)], y.text, y.rest⟩ := by
  obtain ⟨y, hy, rfl⟩ := List.mem_map.1 h
  exact ⟨y, hy, rfl⟩

lemma named_nil {n : String} {a : Pat} {s : Letters} (h : a s = []) : named n a s = [] := by unfold named; rw [h]; rfl

lemma opt_head {a : Pat} {s : Letters} {x : Found} {xs : List Found} (h : a s = x :: xs) : ∃ zs, opt a s = x :: zs := by
  unfold opt
  rw [h]
  exact ⟨_, rfl⟩

lemma opt_nil {a : Pat} {s : Letters} (h : a s = []) : opt a s = [⟨[], [], s⟩] := by
  unfold opt
  rw [h]
  rfl

lemma plus_mem {p : Char → Bool} {s : Letters} {x : Found} (h : x ∈ plus p s) : s = x.text ++ x.rest ∧ x.groups = [] ∧ x.text ≠ [] := by
  unfold plus Pat.seq at h
  obtain ⟨y, hy, hx⟩ := List.mem_flatMap.1 h
  obtain ⟨z, hz, rfl⟩ := List.mem_map.1 hx
  cases s with
  | nil => simp [one] at hy
  | cons c s =>
    simp only [one] at hy
    split_ifs at hy
    · rw [List.mem_singleton] at hy
      subst hy
      have := many_mem hz
      exact ⟨by simpa using this.1, by simpa using this.2, by simp⟩
    · simp at hy

lemma plus_head {p : Char → Bool} (u v : Letters) (hu : ∀ c ∈ u, p c = true) (h0 : u ≠ []) (hv : ∀ c r, v = c :: r → p c = false) :
    ∃ post, plus p (u ++ v) = ⟨[], u, v⟩ :: post := by
  cases u with
  | nil => exact absurd rfl h0
  | cons c u =>
    obtain ⟨post, e⟩ := many_head u v (fun d hd => hu d (List.mem_cons_of_mem _ hd)) hv
    exact seq_head (a := one p) (x := ⟨[], [c], u ++ v⟩) (xs := []) (by rw [List.cons_append, one, if_pos (hu c List.mem_cons_self)]) e

lemma plus_split {p : Char → Bool} (u v : Letters) (hu : ∀ c ∈ u, p c = true) (h0 : u ≠ []) :
    ∃ pre post, plus p (u ++ v) = pre ++ ⟨[], u, v⟩ :: post ∧ ∀ y ∈ pre, ∃ d ≠ [], v = d ++ y.rest := by
  cases u with
  | nil => exact absurd rfl h0
  | cons c u =>
    obtain ⟨pre, post, e, h1, -⟩ := many_split (p := p) u v fun d hd => hu d (List.mem_cons_of_mem _ hd)
    refine ⟨pre.map fun y => ⟨[] ++ y.groups, [c] ++ y.text, y.rest⟩, post.map fun y => ⟨[] ++ y.groups, [c] ++ y.text, y.rest⟩, ?_, ?_⟩
    · unfold plus Pat.seq
      rw [List.cons_append, one, if_pos (hu c List.mem_cons_self), List.flatMap_cons, List.flatMap_nil, List.append_nil, e]
      simp
    · intro y hy
      obtain ⟨z, hz, rfl⟩ := List.mem_map.1 hy
      exact h1 z hz

/-! ## Numbers -/

/-- A decimal number: digits, with or without a point and more digits. -/
def _root_.Spec.Decimal (t : Letters) : Prop :=
  ∃ a b : Letters, a ≠ [] ∧ (∀ c ∈ a, digit c = true) ∧ (∀ c ∈ b, digit c = true) ∧ (t = a ∨ t = a ++ '.' :: b)

lemma number_head (word : Char → Bool) {t : Letters} (ht : Spec.Decimal t) (c : Char) (r : Letters) (h1 : digit c = false) (h2 : c ≠ '.') (h3 : c ≠ 'e') :
    ∃ post, number word (t ++ c :: r) = ⟨[], t, c :: r⟩ :: post := by
  obtain ⟨a, b, ha, hda, hdb, h⟩ := ht
  have he : opt (lit ['e'] ⬝ opt (one fun c => !word c) ⬝ plus digit) (c :: r) = [⟨[], [], c :: r⟩] := by
    apply opt_nil
    apply seq_nil
    intro x hx
    have := lit_mem hx
    simp at this
    exact absurd this.1 h3
  rcases h with rfl | rfl
  · obtain ⟨p1, e1⟩ := plus_head t (c :: r) hda ha (by rintro d s hd; rw [List.cons.injEq] at hd; rw [← hd.1]; exact h1)
    have hp : opt (lit ['.'] ⬝ many digit) (c :: r) = [⟨[], [], c :: r⟩] := by
      apply opt_nil
      apply seq_nil
      intro x hx
      have := lit_mem hx
      simp at this
      exact absurd this.1 h2
    obtain ⟨p2, e2⟩ := seq_head hp he
    obtain ⟨p3, e3⟩ := seq_head e1 e2
    refine ⟨p3, ?_⟩
    unfold number
    rw [e3]
    simp
  · obtain ⟨p1, e1⟩ := plus_head a ('.' :: (b ++ c :: r)) hda ha (by rintro d s hd; rw [List.cons.injEq] at hd; rw [← hd.1]; rfl)
    obtain ⟨p2, e2⟩ := many_head b (c :: r) hdb (by rintro d s hd; rw [List.cons.injEq] at hd; rw [← hd.1]; exact h1)
    obtain ⟨p3, e3⟩ := seq_head (lit_append ['.'] (b ++ c :: r)) e2
    obtain ⟨p4, e4⟩ := opt_head e3
    obtain ⟨p5, e5⟩ := seq_head e4 he
    obtain ⟨p6, e6⟩ := seq_head e1 e5
    refine ⟨p6, ?_⟩
    unfold number
    rw [List.append_assoc, List.cons_append, e6]
    simp

/-- A number begins with a digit. -/
lemma number_nil (word : Char → Bool) {s : Letters} (h : ∀ c r, s = c :: r → digit c = false) : number word s = [] := by
  unfold number
  apply seq_nil
  intro x hx
  exfalso
  unfold plus Pat.seq at hx
  obtain ⟨y, hy, -⟩ := List.mem_flatMap.1 hx
  cases s with
  | nil => simp [one] at hy
  | cons c s => simp [one, h c s rfl] at hy

/-! ## Places where a range can begin -/

/-- A space followed by a digit, and a "µ" later on. -/
def spDigit : Letters → Bool
  | [] => false
  | a :: s => (a == ' ' && (s.head?.map digit).getD false && s.contains 'µ') || spDigit s

lemma spDigit_suffix (d v : Letters) (h : spDigit (d ++ v) = false) : spDigit v = false := by
  induction d with
  | nil => exact h
  | cons a d ih =>
    apply ih
    rw [List.cons_append, spDigit, Bool.or_eq_false_iff] at h
    exact h.2

lemma spDigit_append (s t : Letters) (h : ∀ c ∈ s, c ≠ ' ') : spDigit (s ++ t) = spDigit t := by
  induction s with
  | nil => rfl
  | cons a s ih =>
    rw [List.cons_append, spDigit, ih fun c hc => h c (List.mem_cons_of_mem _ hc)]
    have : a ≠ ' ' := h a List.mem_cons_self
    simp [this]

lemma spDigit_none (s : Letters) (h : 'µ' ∉ s) : spDigit s = false := by
  induction s with
  | nil => rfl
  | cons a s ih =>
    have hs : 'µ' ∉ s := fun hc => h (List.mem_cons_of_mem _ hc)
    rw [spDigit, ih hs, Bool.or_false]
    have : s.contains 'µ' = false := by simpa using hs
    rw [this, Bool.and_false]

/-- A pattern matches a part of the text. -/
def Honest (a : Pat) : Prop := ∀ s, ∀ x ∈ a s, ∃ t, s = t ++ x.rest

lemma Honest.seq {a b : Pat} (ha : Honest a) (hb : Honest b) : Honest (a ⬝ b) := by
  intro s x hx
  obtain ⟨y, hy, hx⟩ := List.mem_flatMap.1 hx
  obtain ⟨z, hz, rfl⟩ := List.mem_map.1 hx
  obtain ⟨t, e⟩ := ha s y hy
  obtain ⟨u, e'⟩ := hb _ z hz
  exact ⟨t ++ u, by rw [e, e', List.append_assoc]⟩

lemma Honest.opt {a : Pat} (ha : Honest a) : Honest (opt a) := by
  intro s x hx
  rcases List.mem_append.1 hx with hx | hx
  · exact ha s x hx
  · rw [Pat.none, List.mem_singleton] at hx
    exact ⟨[], by rw [hx]; rfl⟩

lemma Honest.named {a : Pat} (n : String) (ha : Honest a) : Honest (named n a) := by
  intro s x hx
  obtain ⟨y, hy, rfl⟩ := named_mem hx
  exact ha s y hy

lemma honest_lit (t : Letters) : Honest (lit t) := fun _ _ hx => ⟨t, lit_mem hx⟩

lemma honest_one (p : Char → Bool) : Honest (one p) := by
  intro s x hx
  cases s with
  | nil => simp [one] at hx
  | cons c s =>
    simp only [one] at hx
    split_ifs at hx
    · rw [List.mem_singleton.1 hx]
      exact ⟨[c], rfl⟩
    · simp at hx

lemma honest_many (p : Char → Bool) : Honest (many p) := fun _ x hx => ⟨x.text, (many_mem hx).1⟩

lemma honest_plus (p : Char → Bool) : Honest (plus p) := fun _ x hx => ⟨x.text, (plus_mem hx).1⟩

lemma honest_number (word : Char → Bool) : Honest (number word) :=
  (honest_plus _).seq (((honest_lit _).seq (honest_many _)).opt.seq ((honest_lit _).seq ((honest_one _).opt.seq (honest_plus _))).opt)

/-- A pattern with the unit in it needs the unit. -/
def NeedsUnit (b : Pat) : Prop := ∀ s, 'µ' ∉ s → b s = []

lemma NeedsUnit.after {a b : Pat} (ha : Honest a) (hb : NeedsUnit b) : NeedsUnit (a ⬝ b) := by
  intro s hs
  apply seq_nil
  intro x hx
  obtain ⟨t, e⟩ := ha s x hx
  exact hb _ fun hc => hs (by rw [e]; simp [hc])

lemma needsUnit_lit (b : Pat) : NeedsUnit (lit [' ', 'µ', 'm'] ⬝ b) := by
  intro s hs
  apply seq_nil
  intro x hx
  exact absurd (by rw [lit_mem hx]; simp) hs

lemma needsUnit_lit' : NeedsUnit (lit [' ', 'µ', 'm']) := by
  intro s hs
  rw [List.eq_nil_iff_forall_not_mem]
  intro x hx
  exact absurd (by rw [lit_mem hx]; simp) hs

/-- Nothing in the pattern matches from here on without a space and a digit, and the unit behind them. -/
lemma after_type_nil (word : Char → Bool) {b : Pat} (hb : NeedsUnit b) (n : String) {s : Letters} (h : spDigit s = false) :
    (lit [' '] ⬝ named n (number word) ⬝ b) s = [] := by
  apply seq_nil
  intro x hx
  have e := lit_mem hx
  by_cases hu : 'µ' ∈ x.rest
  · apply seq_nil
    intro y hy
    rw [named_nil (number_nil word ?_)] at hy
    · simp at hy
    · intro c r hc
      rw [e] at h
      have hu' : x.rest.contains 'µ' = true := by simpa using hu
      simp only [List.cons_append, List.nil_append, spDigit, hu', Bool.and_true] at h
      rw [hc] at h
      simp at h
      exact h.1
  · exact NeedsUnit.after ((honest_number word).named n) hb _ hu

lemma needsUnit_first (word : Char → Bool) : NeedsUnit (one (fun c => !word c) ⬝ named "upper_range1" (number word) ⬝ lit [' ', 'µ', 'm'] ⬝ tailPattern word) :=
  .after (honest_one _) (.after ((honest_number _).named _) (needsUnit_lit _))

lemma needsUnit_second (word : Char → Bool) : NeedsUnit (one anyChar ⬝ named "upper_range2" (number word) ⬝ lit [' ', 'µ', 'm']) :=
  .after (honest_one _) (.after ((honest_number _).named _) needsUnit_lit')

/-! ## Page names -/

/-- A page name: authors, year with a suffix, what is given, and a range of wavelengths in micrometres. -/
structure _root_.Spec.PageName where
  authors : Letters
  year : Letters
  suffix : Letters
  about : Letters
  lower : Letters
  sep : Char
  upper : Letters
  after : Letters

/-- The range and what follows it. -/
def _root_.Spec.PageName.range (n : Spec.PageName) : Letters := n.lower ++ n.sep :: (n.upper ++ ' ' :: 'µ' :: 'm' :: n.after)

/-- The name as it stands in the catalog. -/
def _root_.Spec.PageName.text (n : Spec.PageName) : Letters :=
  n.authors ++ ' ' :: (n.year ++ (n.suffix ++ ':' :: ' ' :: (n.about ++ ' ' :: n.range)))

/-- One line; a year of four digits, followed by no other digit before the first colon; no other colon behind it; plain numbers with a sign that is no
letter between them; no other "µ" behind the range. -/
structure _root_.Spec.PageName.Proper (word : Char → Bool) (n : Spec.PageName) : Prop where
  authors : '\n' ∉ n.authors
  year : n.year.length = 4 ∧ ∀ c ∈ n.year, digit c = true
  suffix : ∀ c ∈ n.suffix, digit c = false ∧ c ≠ ':'
  about : n.about ≠ [] ∧ '\n' ∉ n.about ∧ ':' ∉ n.about
  lower : Spec.Decimal n.lower
  upper : Spec.Decimal n.upper
  sep : word n.sep = false ∧ digit n.sep = false ∧ n.sep ∉ ['.', 'e', ' ', ':']
  after : ∀ c ∈ n.after, c ≠ 'µ' ∧ c ≠ ':' ∧ c ≠ '\n'

lemma decimal_chars {t : Letters} (ht : Spec.Decimal t) : ∀ c ∈ t, c ≠ ' ' ∧ c ≠ ':' ∧ c ≠ ';' := by
  have hd : ∀ c : Char, digit c = true → c ≠ ' ' ∧ c ≠ ':' ∧ c ≠ ';' := by
    intro c hc
    refine ⟨?_, ?_, ?_⟩ <;> (rintro rfl; simp [digit, Char.isDigit] at hc)
  obtain ⟨a, b, -, ha, hb, rfl | rfl⟩ := ht
  · exact fun c hc => hd c (ha c hc)
  · intro c hc
    rw [List.mem_append, List.mem_cons] at hc
    rcases hc with hc | rfl | hc
    · exact hd c (ha c hc)
    · decide
    · exact hd c (hb c hc)

lemma range_spDigit {word : Char → Bool} {n : Spec.PageName} (h : n.Proper word) : spDigit n.range = false := by
  unfold Spec.PageName.range
  have hs : n.sep ≠ ' ' := fun e => h.sep.2.2 (by rw [e]; simp)
  rw [spDigit_append _ _ fun c hc => (decimal_chars h.lower c hc).1, ← List.singleton_append, spDigit_append _ _ (by simpa using hs),
    spDigit_append _ _ fun c hc => (decimal_chars h.upper c hc).1]
  have := spDigit_none n.after fun hc => (h.after _ hc).1 rfl
  simp [spDigit, this, digit, Char.isDigit]

lemma range_colon {word : Char → Bool} {n : Spec.PageName} (h : n.Proper word) : ':' ∉ n.range := by
  unfold Spec.PageName.range
  have hs : n.sep ≠ ':' := fun e => h.sep.2.2 (by rw [e]; simp)
  simp only [List.mem_append, List.mem_cons, not_or]
  exact ⟨fun hc => (decimal_chars h.lower _ hc).2.1 rfl, fun e => hs e.symm, fun hc => (decimal_chars h.upper _ hc).2.1 rfl, by decide, by decide, by decide,
    fun hc => (h.after _ hc).2.1 rfl⟩

/-- The end of the pattern finds the second comment. -/
lemma tail_head (word : Char → Bool) {Z : Letters} (hZ : ∀ c ∈ Z, c ≠ 'µ' ∧ c ≠ ':' ∧ c ≠ '\n') :
    ∃ y ys, tailPattern word Z = y :: ys ∧ ((∃ C, Z = ';' :: ' ' :: C ∧ y.groups = [("comment2", C)]) ∨ ((∀ C, Z ≠ ';' :: ' ' :: C) ∧ y.groups = [])) := by
  have h1 : opt (lit [',', ' '] ⬝ named "type2" (plus anyChar) ⬝ lit [' '] ⬝ named "lower_range2" (number word) ⬝ one anyChar ⬝ named "upper_range2" (number word) ⬝
      lit [' ', 'µ', 'm']) Z = [⟨[], [], Z⟩] := by
    apply opt_nil
    apply seq_nil
    intro x hx
    apply seq_nil
    intro y hy
    apply after_type_nil _ (needsUnit_second _)
    obtain ⟨z, hz, rfl⟩ := named_mem hy
    have e1 := lit_mem hx
    have e2 := (plus_mem hz).1
    apply spDigit_none
    intro hc
    refine (hZ _ ?_).1 rfl
    rw [e1, e2]
    simp [show 'µ' ∈ z.rest from hc]
  by_cases hC : ∃ C, Z = ';' :: ' ' :: C
  · obtain ⟨C, rfl⟩ := hC
    obtain ⟨p1, e1⟩ := many_head (p := anyChar) C [] (fun c hc => by simp [anyChar, (hZ c (by simp [hc])).2.2]) (by simp)
    rw [List.append_nil] at e1
    obtain ⟨p2, e2⟩ := named_head (n := "comment2") e1
    obtain ⟨p3, e3⟩ := seq_head (lit_append [';', ' '] C) e2
    obtain ⟨p4, e4⟩ := opt_head e3
    obtain ⟨p5, e5⟩ := seq_head h1 e4
    exact ⟨_, p5, e5, Or.inl ⟨C, rfl, rfl⟩⟩
  · have h2 : opt (lit [';', ' '] ⬝ named "comment2" (many anyChar)) Z = [⟨[], [], Z⟩] := by
      apply opt_nil
      apply seq_nil
      intro x hx
      exact absurd ⟨x.rest, lit_mem hx⟩ hC
    obtain ⟨p5, e5⟩ := seq_head h1 h2
    exact ⟨_, p5, e5, Or.inr ⟨fun C hC' => hC ⟨C, hC'⟩, rfl⟩⟩

/-- The type is all up to the last range. -/
lemma type_head {word : Char → Bool} {n : Spec.PageName} (h : n.Proper word) {M : Letters} (hM : M ≠ []) (hM' : '\n' ∉ M) :
    ∃ y ys, typePattern word (M ++ ' ' :: n.range) = y :: ys ∧
      ((∃ C, n.after = ';' :: ' ' :: C ∧ y.groups = [("type1", M), ("lower_range1", n.lower), ("upper_range1", n.upper), ("comment2", C)]) ∨
        ((∀ C, n.after ≠ ';' :: ' ' :: C) ∧ y.groups = [("type1", M), ("lower_range1", n.lower), ("upper_range1", n.upper)])) := by
  obtain ⟨pre, post, e, hpre⟩ := plus_split (p := anyChar) M (' ' :: n.range) (fun c hc => by
    have : c ≠ '\n' := fun e => hM' (e ▸ hc)
    simp [anyChar, this]) hM
  have e1 : named "type1" (plus anyChar) (M ++ ' ' :: n.range) =
      pre.map (fun x => { x with groups := x.groups ++ [("type1", x.text)] }) ++ ⟨[("type1", M)], M, ' ' :: n.range⟩ ::
        post.map (fun x => { x with groups := x.groups ++ [("type1", x.text)] }) := by
    unfold named
    rw [e]
    simp
  obtain ⟨y0, ys0, t1, t2⟩ := tail_head word h.after
  obtain ⟨q1, l1⟩ := seq_head (lit_append [' ', 'µ', 'm'] n.after) t1
  obtain ⟨q2, l2⟩ := number_head word h.upper ' ' ('µ' :: 'm' :: n.after) (by decide) (by decide) (by decide)
  obtain ⟨q3, l3⟩ := named_head (n := "upper_range1") l2
  obtain ⟨q4, l4⟩ := seq_head l3 l1
  have l5 : one (fun c => !word c) (n.sep :: (n.upper ++ ' ' :: 'µ' :: 'm' :: n.after)) = [⟨[], [n.sep], n.upper ++ ' ' :: 'µ' :: 'm' :: n.after⟩] := by
    rw [one, if_pos (by simp [h.sep.1])]
  obtain ⟨q6, l6⟩ := seq_head l5 l4
  have hs := h.sep.2.2
  simp only [List.mem_cons, not_or] at hs
  obtain ⟨q7, l7⟩ := number_head word h.lower n.sep (n.upper ++ ' ' :: 'µ' :: 'm' :: n.after) h.sep.2.1 hs.1 hs.2.1
  obtain ⟨q8, l8⟩ := named_head (n := "lower_range1") l7
  obtain ⟨q9, l9⟩ := seq_head l8 l6
  obtain ⟨q10, l10⟩ := seq_head (lit_append [' '] n.range) l9
  obtain ⟨zs, e2⟩ := seq_skip (b := lit [' '] ⬝ named "lower_range1" (number word) ⬝ one (fun c => !word c) ⬝ named "upper_range1" (number word) ⬝
    lit [' ', 'µ', 'm'] ⬝ tailPattern word) e1 (fun p hp => by
      obtain ⟨z, hz, rfl⟩ := List.mem_map.1 hp
      obtain ⟨d, hd, ed⟩ := hpre z hz
      apply after_type_nil _ (needsUnit_first _)
      cases d with
      | nil => exact absurd rfl hd
      | cons c d =>
        rw [List.cons_append, List.cons.injEq] at ed
        have := range_spDigit h
        rw [ed.2] at this
        exact spDigit_suffix d _ this) l10
  refine ⟨_, zs, e2, ?_⟩
  rcases t2 with ⟨C, hC, g⟩ | ⟨hC, g⟩
  · exact Or.inl ⟨C, hC, by simp [g]⟩
  · exact Or.inr ⟨hC, by simp [g]⟩

/-- Behind the last range nothing matches. -/
lemma type_nil (word : Char → Bool) {s : Letters} (hs : spDigit s = false) : typePattern word s = [] := by
  apply seq_nil
  intro x hx
  apply after_type_nil _ (needsUnit_first _)
  obtain ⟨z, hz, rfl⟩ := named_mem hx
  have e := (plus_mem hz).1
  rw [e] at hs
  exact spDigit_suffix _ _ hs

lemma type_nil' {word : Char → Bool} {n : Spec.PageName} (h : n.Proper word) : typePattern word (' ' :: n.range) = [] := by
  apply seq_nil
  intro x hx
  apply after_type_nil _ (needsUnit_first _)
  obtain ⟨z, hz, rfl⟩ := named_mem hx
  obtain ⟨e, -, hne⟩ := plus_mem hz
  cases ht : z.text with
  | nil => exact absurd ht hne
  | cons c t =>
    rw [ht, List.cons_append, List.cons.injEq] at e
    have := range_spDigit h
    rw [e.2] at this
    exact spDigit_suffix _ _ this

/-- What stands behind a semicolon that is not part of `M`. -/
lemma behind_semicolon {M Q t r : Letters} (hM : ';' ∉ M) (e : M ++ ' ' :: Q = t ++ ';' :: r) : ∃ d, Q = d ++ r := by
  rcases List.append_eq_append_iff.1 e with ⟨a, h1, h2⟩ | ⟨a, h1, h2⟩
  · cases a with
    | nil => simp at h2
    | cons c a =>
      rw [List.cons_append, List.cons.injEq] at h2
      exact ⟨a ++ [';'], by rw [h2.2]; simp⟩
  · cases a with
    | nil => simp at h2
    | cons c a =>
      rw [List.cons_append, List.cons.injEq] at h2
      exact absurd (by rw [h1, ← h2.1]; simp) hM

lemma seq_all {a b : Pat} {s : Letters} {P : Found → Prop}
    (h : ∀ x ∈ a s, b x.rest = [] ∨ ∃ y ys, b x.rest = y :: ys ∧ P ⟨x.groups ++ y.groups, x.text ++ y.text, y.rest⟩) (hne : ∃ x ∈ a s, b x.rest ≠ []) :
    ∃ z zs, (a ⬝ b) s = z :: zs ∧ P z := by
  unfold Pat.seq
  generalize a s = l at h hne
  induction l with
  | nil => simp at hne
  | cons x l ih =>
    rcases h x List.mem_cons_self with h0 | ⟨y, ys, h0, hP⟩
    · obtain ⟨z, zs, e, hz⟩ := ih (fun x hx => h x (List.mem_cons_of_mem _ hx)) (by
        obtain ⟨w, hw, hne⟩ := hne
        rcases List.mem_cons.1 hw with rfl | hw
        · exact absurd h0 hne
        · exact ⟨w, hw, hne⟩)
      exact ⟨z, zs, by rw [List.flatMap_cons, h0, List.map_nil, List.nil_append, e], hz⟩
    · exact ⟨_, _, by rw [List.flatMap_cons, h0, List.map_cons, List.cons_append], hP⟩

/-- The parts of the first comment, and what is left. -/
lemma comment_mem {s : Letters} {x : Found} (hx : x ∈ (named "comment1" (many anyChar) ⬝ lit [';', ' ']) s) :
    ∃ t, s = t ++ ';' :: ' ' :: x.rest ∧ x.groups = [("comment1", t)] := by
  obtain ⟨y, hy, hx⟩ := List.mem_flatMap.1 hx
  obtain ⟨z, hz, rfl⟩ := List.mem_map.1 hx
  obtain ⟨u, hu, rfl⟩ := named_mem hy
  obtain ⟨e, g⟩ := many_mem hu
  have e2 := lit_mem hz
  have g2 : z.groups = [] := by
    unfold lit at hz
    split_ifs at hz
    · rw [List.mem_singleton.1 hz]
    · simp at hz
  refine ⟨u.text, ?_, by simp [g, g2]⟩
  rw [e]
  simp only at e2
  rw [e2]
  rfl

/-- What the pattern finds behind the year. -/
def RestFound (n : Spec.PageName) (y : Found) : Prop :=
  y.group "lower_range1" = some n.lower ∧ y.group "upper_range1" = some n.upper ∧
    ((∃ C, n.after = ';' :: ' ' :: C ∧ y.group "comment2" = some C) ∨ ((∀ C, n.after ≠ ';' :: ' ' :: C) ∧ y.group "comment2" = none)) ∧
    (';' ∉ n.about → y.group "comment1" = none) ∧
    (∀ C T, n.about = C ++ ';' :: ' ' :: T → T ≠ [] → ';' ∉ T → y.group "comment1" = some C)

lemma rest_head {word : Char → Bool} {n : Spec.PageName} (h : n.Proper word) :
    ∃ y ys, restPattern word (n.about ++ ' ' :: n.range) = y :: ys ∧ RestFound n y := by
  have hQ := range_spDigit h
  -- a part of the name behind a semicolon
  have hsuf : ∀ t s : Letters, n.about ++ ' ' :: n.range = t ++ s →
      typePattern word s = [] ∨ ∃ M, M ≠ [] ∧ '\n' ∉ M ∧ s = M ++ ' ' :: n.range ∧ n.about = t ++ M := by
    intro t s e
    rcases List.append_eq_append_iff.1 e with ⟨a, h1, h2⟩ | ⟨a, h1, h2⟩
    · cases a with
      | nil =>
        left
        rw [← List.nil_append s, ← h2]
        exact type_nil' h
      | cons c a =>
        rw [List.cons_append, List.cons.injEq] at h2
        left
        rw [h2.2] at hQ
        exact type_nil word (spDigit_suffix _ _ hQ)
    · by_cases ha : a = []
      · left
        rw [h2, ha]
        exact type_nil' h
      · exact Or.inr ⟨a, ha, fun hc => h.about.2.1 (by rw [h1]; simp [hc]), h2, h1⟩
  have hfin : ∀ (g : List (String × Letters)) (u : Letters) (M : Letters), M ≠ [] → '\n' ∉ M → (g = [] ∨ ∃ t, g = [("comment1", t)]) →
      ∃ y ys, typePattern word (M ++ ' ' :: n.range) = y :: ys ∧
        (Found.group ⟨g ++ y.groups, u ++ y.text, y.rest⟩ "lower_range1" = some n.lower ∧
         Found.group ⟨g ++ y.groups, u ++ y.text, y.rest⟩ "upper_range1" = some n.upper ∧
         ((∃ C, n.after = ';' :: ' ' :: C ∧ Found.group ⟨g ++ y.groups, u ++ y.text, y.rest⟩ "comment2" = some C) ∨
          ((∀ C, n.after ≠ ';' :: ' ' :: C) ∧ Found.group ⟨g ++ y.groups, u ++ y.text, y.rest⟩ "comment2" = none)) ∧
         Found.group ⟨g ++ y.groups, u ++ y.text, y.rest⟩ "comment1" = g.lookup "comment1") := by
    intro g u M hM hM' hg
    obtain ⟨y, ys, e, hy⟩ := type_head h hM hM'
    refine ⟨y, ys, e, ?_⟩
    rcases hy with ⟨C, hC, gy⟩ | ⟨hC, gy⟩ <;> rcases hg with rfl | ⟨t, rfl⟩ <;> simp [Found.group, gy, List.lookup, hC]
  by_cases hcase : ∃ C T, n.about = C ++ ';' :: ' ' :: T ∧ T ≠ [] ∧ ';' ∉ T
  · obtain ⟨C, T, eM, hT, hT'⟩ := hcase
    obtain ⟨pre, post, e, hpre, -⟩ := many_split (p := anyChar) C (';' :: ' ' :: (T ++ ' ' :: n.range)) (fun c hc => by
      have : c ≠ '\n' := fun e => h.about.2.1 (by rw [eM, ← e]; simp [hc])
      simp [anyChar, this])
    have hTn : '\n' ∉ T := fun hc => h.about.2.1 (by rw [eM]; simp [hc])
    obtain ⟨y, ys, e3, hy⟩ := hfin [("comment1", C)] (C ++ [';', ' ']) T hT hTn (Or.inr ⟨C, rfl⟩)
    have eR : n.about ++ ' ' :: n.range = C ++ ';' :: ' ' :: (T ++ ' ' :: n.range) := by rw [eM]; simp
    obtain ⟨pre', post', e4, hpre'⟩ : ∃ pre' post', opt (named "comment1" (many anyChar) ⬝ lit [';', ' ']) (n.about ++ ' ' :: n.range) =
        pre' ++ ⟨[("comment1", C)], C ++ [';', ' '], T ++ ' ' :: n.range⟩ :: post' ∧ ∀ p ∈ pre', typePattern word p.rest = [] := by
      refine ⟨(pre.map (fun x => ({ x with groups := x.groups ++ [("comment1", x.text)] } : Found))).flatMap fun x => (lit [';', ' '] x.rest).map fun y =>
        ⟨x.groups ++ y.groups, x.text ++ y.text, y.rest⟩, (post.map (fun x => ({ x with groups := x.groups ++ [("comment1", x.text)] } : Found))).flatMap
        (fun x => (lit [';', ' '] x.rest).map fun y => ⟨x.groups ++ y.groups, x.text ++ y.text, y.rest⟩) ++ Pat.none (n.about ++ ' ' :: n.range), ?_, ?_⟩
      · unfold opt Pat.seq named
        rw [eR, e, List.map_append, List.flatMap_append, List.map_cons, List.flatMap_cons]
        have := lit_append [';', ' '] (T ++ ' ' :: n.range)
        simp only [List.cons_append, List.nil_append] at this
        simp only [this]
        simp
      · intro p hp
        obtain ⟨x, hx, hp⟩ := List.mem_flatMap.1 hp
        obtain ⟨z, hz, rfl⟩ := List.mem_map.1 hx
        obtain ⟨y, hy, rfl⟩ := List.mem_map.1 hp
        obtain ⟨d, hd, ed⟩ := hpre z hz
        have e5 := lit_mem hy
        simp only at e5
        cases d with
        | nil => exact absurd rfl hd
        | cons c d =>
          rw [e5, List.cons_append, List.cons.injEq] at ed
          have e6 : (' ' :: T) ++ ' ' :: n.range = d ++ ';' :: (' ' :: y.rest) := ed.2
          obtain ⟨q, hq⟩ := behind_semicolon (by simpa using hT') e6
          rw [hq] at hQ
          have := spDigit_suffix _ _ hQ
          exact type_nil word (spDigit_suffix [' '] _ this)
    obtain ⟨zs, e6⟩ := seq_skip e4 hpre' e3
    refine ⟨_, zs, e6, hy.1, hy.2.1, hy.2.2.1, fun hn => absurd (by rw [eM]; simp) hn, ?_⟩
    intro C' T' eM' hT0 hT1
    rw [hy.2.2.2]
    have : C' = C := by
      rw [eM] at eM'
      rcases List.append_eq_append_iff.1 eM' with ⟨a, h1, h2⟩ | ⟨a, h1, h2⟩
      · cases a with
        | nil => simpa using h1
        | cons c a =>
          rw [List.cons_append, List.cons.injEq] at h2
          cases a with
          | nil => simp at h2
          | cons b a =>
            rw [List.cons_append, List.cons.injEq] at h2
            exact absurd (by rw [h2.2.2]; simp) hT'
      · cases a with
        | nil => simpa using h1.symm
        | cons c a =>
          rw [List.cons_append, List.cons.injEq] at h2
          cases a with
          | nil => simp at h2
          | cons b a =>
            rw [List.cons_append, List.cons.injEq] at h2
            exact absurd (by rw [h2.2.2]; simp) hT1
    rw [this]
    rfl
  · obtain ⟨y0, ys0, e0, -⟩ := hfin [] [] n.about h.about.1 h.about.2.1 (Or.inl rfl)
    refine seq_all (fun x hx => ?_) ⟨⟨[], [], n.about ++ ' ' :: n.range⟩, by simp [opt, Pat.none], by simp [e0]⟩
    unfold opt at hx
    rw [List.mem_append] at hx
    rcases hx with hx | hx
    · obtain ⟨t, et, g⟩ := comment_mem hx
      have et' : n.about ++ ' ' :: n.range = (t ++ [';', ' ']) ++ x.rest := by rw [et]; simp
      rcases hsuf _ _ et' with h0 | ⟨M, hM, hM', e1, e2⟩
      · exact Or.inl h0
      · right
        obtain ⟨y, ys, e3, hy⟩ := hfin x.groups x.text M hM hM' (Or.inr ⟨t, g⟩)
        rw [e1]
        refine ⟨y, ys, e3, hy.1, hy.2.1, hy.2.2.1, fun hn => absurd (by rw [e2]; simp) hn, fun C T e hT hT' => absurd ⟨C, T, e, hT, hT'⟩ hcase⟩
    · right
      rw [Pat.none, List.mem_singleton] at hx
      subst hx
      obtain ⟨y, ys, e3, hy⟩ := hfin [] [] n.about h.about.1 h.about.2.1 (Or.inl rfl)
      exact ⟨y, ys, e3, hy.1, hy.2.1, hy.2.2.1, fun _ => hy.2.2.2, fun C T e hT hT' => absurd ⟨C, T, e, hT, hT'⟩ hcase⟩

lemma colon_nil (b : Pat) {s : Letters} (hs : ':' ∉ s) : (few (fun c => c != ':') ⬝ lit [':', ' '] ⬝ b) s = [] := by
  apply seq_nil
  intro x hx
  rw [few, List.mem_reverse] at hx
  have e := (many_mem hx).1
  apply seq_nil
  intro y hy
  have e2 := lit_mem hy
  exact absurd (by rw [e, e2]; simp) hs

lemma year_mem {s : Letters} {x : Found} (hx : x ∈ named "year" (one digit ⬝ one digit ⬝ one digit ⬝ one digit) s) :
    (∃ t, s = t ++ x.rest) ∧ ∃ c r, s = c :: r ∧ digit c = true := by
  have h1 : ∀ (s : Letters) (x : Found), x ∈ one digit s → ∃ c, s = c :: x.rest ∧ digit c = true := by
    intro s x hx
    cases s with
    | nil => simp [one] at hx
    | cons c s =>
      simp only [one] at hx
      split_ifs at hx with hc
      · rw [List.mem_singleton.1 hx]
        exact ⟨c, rfl, hc⟩
      · simp at hx
  obtain ⟨y, hy, rfl⟩ := named_mem hx
  obtain ⟨a, ha, hy⟩ := List.mem_flatMap.1 hy
  obtain ⟨y1, hy1, rfl⟩ := List.mem_map.1 hy
  obtain ⟨b, hb, hy1⟩ := List.mem_flatMap.1 hy1
  obtain ⟨y2, hy2, rfl⟩ := List.mem_map.1 hy1
  obtain ⟨c, hc, hy2⟩ := List.mem_flatMap.1 hy2
  obtain ⟨y3, hy3, rfl⟩ := List.mem_map.1 hy2
  obtain ⟨c1, e1, d1⟩ := h1 _ _ ha
  obtain ⟨c2, e2, -⟩ := h1 _ _ hb
  obtain ⟨c3, e3, -⟩ := h1 _ _ hc
  obtain ⟨c4, e4, -⟩ := h1 _ _ hy3
  refine ⟨⟨[c1, c2, c3, c4], ?_⟩, c1, _, e1, d1⟩
  rw [e1, e2, e3, e4]
  rfl

lemma year_head {y : Letters} (hy : y.length = 4 ∧ ∀ c ∈ y, digit c = true) (r : Letters) :
    ∃ ys, named "year" (one digit ⬝ one digit ⬝ one digit ⬝ one digit) (y ++ r) = ⟨[("year", y)], y, r⟩ :: ys := by
  obtain ⟨hl, hd⟩ := hy
  match y, hl with
  | [a, b, c, d], _ =>
    simp only [List.mem_cons, List.not_mem_nil, or_false, forall_eq_or_imp, forall_eq] at hd
    refine ⟨[], ?_⟩
    simp [named, Pat.seq, one, hd]

lemma front_head {word : Char → Bool} {A Y X R : Letters} {y1 : Found} {ys1 : List Found} (hA : '\n' ∉ A) (hY : Y.length = 4 ∧ ∀ c ∈ Y, digit c = true)
    (hX : ∀ c ∈ X, digit c = false ∧ c ≠ ':') (hR : ':' ∉ R) (e1 : restPattern word R = y1 :: ys1) :
    ∃ y ys, pagename word (A ++ ' ' :: (Y ++ (X ++ ':' :: ' ' :: R))) = y :: ys ∧ y.group "authors" = some A ∧ y.group "year" = some Y ∧
      ∀ name : String, name ≠ "authors" → name ≠ "year" → y.group name = y1.group name := by
  -- the suffix of the year
  obtain ⟨ys2, e2⟩ := seq_head (lit_append [':', ' '] R) e1
  obtain ⟨ys3, e3⟩ : ∃ ys3, (few (fun c => c != ':') ⬝ lit [':', ' '] ⬝ restPattern word) (X ++ ':' :: ' ' :: R) =
      ⟨[] ++ ([] ++ y1.groups), X ++ ([':', ' '] ++ y1.text), y1.rest⟩ :: ys3 := by
    obtain ⟨pre, post, e, -, hpost⟩ := many_split (p := fun c => c != ':') X (':' :: ' ' :: R) (fun c hc => by
      simp [(hX c hc).2])
    refine seq_skip (pre := post.reverse) (x := ⟨[], X, ':' :: ' ' :: R⟩) (xs := pre.reverse) ?_ ?_ e2
    · unfold few
      rw [e]
      simp
    · intro p hp
      obtain ⟨d, hd, e4, e5⟩ := hpost p (List.mem_reverse.1 hp)
      apply seq_nil
      intro x hx
      have e6 := lit_mem hx
      cases d with
      | nil => exact absurd rfl hd
      | cons c d =>
        rw [e5, List.cons_append, List.cons_append, List.cons.injEq] at e6
        exact absurd e6.1 (hX c (by rw [e4]; simp)).2
  obtain ⟨ys4, e4⟩ := year_head hY (X ++ ':' :: ' ' :: R)
  obtain ⟨ys5, e5⟩ := seq_head e4 e3
  obtain ⟨ys6, e6⟩ := seq_head (lit_append [' '] (Y ++ (X ++ ':' :: ' ' :: R))) e5
  obtain ⟨pre, post, e7, hpre, -⟩ := many_split (p := anyChar) A (' ' :: (Y ++ (X ++ ':' :: ' ' :: R)))
    (fun c hc => by
      have : c ≠ '\n' := fun e => hA (e ▸ hc)
      simp [anyChar, this])
  have e8 : named "authors" (many anyChar) (A ++ ' ' :: (Y ++ (X ++ ':' :: ' ' :: R))) =
      pre.map (fun x => { x with groups := x.groups ++ [("authors", x.text)] }) ++
        ⟨[("authors", A)], A, ' ' :: (Y ++ (X ++ ':' :: ' ' :: R))⟩ ::
        post.map (fun x => { x with groups := x.groups ++ [("authors", x.text)] }) := by
    unfold named
    rw [e7]
    simp
  obtain ⟨ys9, e9⟩ := seq_skip (b := lit [' '] ⬝ named "year" (one digit ⬝ one digit ⬝ one digit ⬝ one digit) ⬝ few (fun c => c != ':') ⬝ lit [':', ' '] ⬝
    restPattern word) e8 (fun p hp => by
      obtain ⟨z, hz, rfl⟩ := List.mem_map.1 hp
      obtain ⟨d, hd, ed⟩ := hpre z hz
      apply seq_nil
      intro x hx
      have ex := lit_mem hx
      simp only at ex
      apply seq_nil
      intro v hv
      obtain ⟨⟨t, et⟩, c, r, ec, hc⟩ := year_mem hv
      by_cases hco : ':' ∈ x.rest
      · exfalso
        cases d with
        | nil => exact absurd rfl hd
        | cons a d =>
          rw [ex, List.cons_append, List.cons.injEq] at ed
          have ed2 : (Y ++ X) ++ (':' :: ' ' :: R) = d ++ ' ' :: x.rest := by
            rw [List.append_assoc]
            exact ed.2
          rcases List.append_eq_append_iff.1 ed2 with ⟨q, q1, q2⟩ | ⟨q, q1, q2⟩
          · -- beyond the year and its suffix
            match q, q2 with
            | [], q2 => simp at q2
            | [b], q2 =>
              simp only [List.cons_append, List.nil_append, List.cons.injEq, true_and] at q2
              exact hR (q2.2 ▸ hco)
            | b :: b' :: q, q2 =>
              simp only [List.cons_append, List.cons.injEq] at q2
              have : ':' ∈ R := by rw [q2.2.2]; simp [hco]
              exact hR this
          · cases q with
            | nil => simp at q2
            | cons b q =>
              rw [List.cons_append, List.cons.injEq] at q2
              -- a space in the year or its suffix, followed by a digit
              have hb : ' ' ∈ Y ++ X := by rw [q1, ← q2.1]; simp
              rcases List.append_eq_append_iff.1 q1 with ⟨w, w1, w2⟩ | ⟨w, w1, w2⟩
              · cases q with
                | nil =>
                  rw [ec, List.nil_append, List.cons.injEq] at q2
                  rw [q2.2.1] at hc
                  exact absurd hc (by decide)
                | cons f q =>
                  rw [ec, List.cons_append, List.cons.injEq] at q2
                  have : f ∈ X := by rw [w2]; simp
                  have := (hX f this).1
                  rw [← q2.2.1, hc] at this
                  exact absurd this (by decide)
              · cases w with
                | nil =>
                  rw [List.nil_append] at w2
                  cases q with
                  | nil =>
                    rw [ec, List.nil_append, List.cons.injEq] at q2
                    rw [q2.2.1] at hc
                    exact absurd hc (by decide)
                  | cons f q =>
                    rw [ec, List.cons_append, List.cons.injEq] at q2
                    have : f ∈ X := by rw [← w2]; simp
                    have := (hX f this).1
                    rw [← q2.2.1, hc] at this
                    exact absurd this (by decide)
                | cons f w =>
                  rw [List.cons_append, List.cons.injEq] at w2
                  have : digit f = true := hY.2 f (by rw [w1]; simp)
                  rw [← w2.1, ← q2.1] at this
                  exact absurd this (by decide)
      · have : ':' ∉ v.rest := fun hv' => hco (by rw [et]; simp [hv'])
        exact colon_nil _ this) e6
  refine ⟨_, ys9, e9, rfl, rfl, ?_⟩
  intro name h1 h2
  have h1' : (name == "authors") = false := by simpa using h1
  have h2' : (name == "year") = false := by simpa using h2
  simp [Found.group, List.lookup, h1', h2']

lemma pagename_head {word : Char → Bool} {n : Spec.PageName} (h : n.Proper word) :
    ∃ y ys, pagename word n.text = y :: ys ∧ y.group "authors" = some n.authors ∧ y.group "year" = some n.year ∧ RestFound n y := by
  obtain ⟨y1, ys1, e1, hr⟩ := rest_head h
  have hR : ':' ∉ n.about ++ ' ' :: n.range := by
    simp only [List.mem_append, List.mem_cons, not_or]
    exact ⟨h.about.2.2, by decide, range_colon h⟩
  obtain ⟨y, ys, e, h1, h2, hl⟩ := front_head h.authors h.year h.suffix hR e1
  refine ⟨y, ys, e, h1, h2, ?_⟩
  unfold RestFound at hr ⊢
  rw [hl _ (by decide) (by decide), hl _ (by decide) (by decide), hl _ (by decide) (by decide), hl _ (by decide) (by decide)]
  exact hr

/-! ## The theorems -/

/-- The first comment ends at the last semicolon of what is said before the range. -/
def _root_.Spec.FirstComment (about c : Letters) : Prop := (';' ∉ about ∧ c = []) ∨ ∃ T, about = c ++ ';' :: ' ' :: T ∧ T ≠ [] ∧ ';' ∉ T

/-- The second comment follows the range and a semicolon. -/
def _root_.Spec.SecondComment (after c : Letters) : Prop := ((∀ C, after ≠ ';' :: ' ' :: C) ∧ c = []) ∨ after = ';' :: ' ' :: c

/-- **C142.** Page names are taken apart as the catalog means them: authors, year, the range in front of the last "µm", and both comments. -/
theorem C142_name (lib : Lib) (n : Spec.PageName) (h : n.Proper lib.word) :
    ∃ c, nameColumns lib (String.ofList n.text) = (some n.authors, some n.year, c, some n.lower, some n.upper) ∧
      ∀ c1 c2, Spec.FirstComment n.about c1 → Spec.SecondComment n.after c2 →
        c = (if c1 = [] then c2 else if c2 = [] then c1 else c1 ++ [' '] ++ c2) := by
  obtain ⟨y, ys, e, h1, h2, h3, h4, h5, h6, h7⟩ := pagename_head h
  refine ⟨joinComments (y.group "comment1") (y.group "comment2"), ?_, ?_⟩
  · unfold nameColumns
    rw [String.toList_ofList, e]
    simp [h1, h2, h3, h4]
  · intro c1 c2 hc1 hc2
    have e1 : (y.group "comment1").getD [] = c1 := by
      rcases hc1 with ⟨hn, rfl⟩ | ⟨T, eT, hT, hT'⟩
      · rw [h6 hn]
        rfl
      · rw [h7 c1 T eT hT hT']
        rfl
    have e2 : (y.group "comment2").getD [] = c2 := by
      rcases hc2 with ⟨hn, rfl⟩ | hc
      · rcases h5 with ⟨C, hC, -⟩ | ⟨-, hg⟩
        · exact absurd hC (hn C)
        · rw [hg]
          rfl
      · rcases h5 with ⟨C, hC, hg⟩ | ⟨hC, -⟩
        · rw [hg]
          rw [hC] at hc
          simpa using hc
        · exact absurd hc (hC _)
    unfold joinComments
    rw [e1, e2]
    cases c1 <;> cases c2 <;> simp

/-- The row of a page with such a name covers the wavelengths of its range. -/
lemma covers_row (lib : Lib) (sh shn : String) (bd : Option String) (b bn pg : String) (pd : Option String) (nm data : String) (lo hi : Letters) (x y wl : ℝ)
    (h1 : (nameColumns lib nm).2.2.2 = (some lo, some hi)) (h2 : lib.number lo = some x) (h3 : lib.number hi = some y) :
    covers (entryRow lib sh shn bd b bn pg pd nm data) wl ↔ 1000 * x ≤ wl ∧ wl ≤ 1000 * y := by
  have e1 : entryRow lib sh shn bd b bn pg pd nm data "lower_range" = .num (1000 * x) := by simp [entryRow, h1, numCell, h2]
  have e2 : entryRow lib sh shn bd b bn pg pd nm data "upper_range" = .num (1000 * y) := by simp [entryRow, h1, numCell, h3]
  constructor
  · rintro ⟨u, v, hu, hv, h4, h5⟩
    rw [e1, Cell.num.injEq] at hu
    rw [e2, Cell.num.injEq] at hv
    exact ⟨hu ▸ h4, hv ▸ h5⟩
  · rintro ⟨h4, h5⟩
    exact ⟨_, _, e1, e2, h4, h5⟩

/-- **C142.** The wavelength filter of `search` keeps such a page for the wavelengths of its range, in nanometres. -/
theorem C142_filter (lib : Lib) (n : Spec.PageName) (h : n.Proper lib.word) (x y : ℝ) (hx : lib.number n.lower = some x) (hy : lib.number n.upper = some y)
    (sh shn : String) (bd : Option String) (b bn pg : String) (pd : Option String) (data : String) (wl : ℝ) :
    covers (entryRow lib sh shn bd b bn pg pd (String.ofList n.text) data) wl ↔ 1000 * x ≤ wl ∧ wl ≤ 1000 * y := by
  obtain ⟨c, e, -⟩ := C142_name lib n h
  exact covers_row lib sh shn bd b bn pg pd _ data n.lower n.upper x y wl (by rw [e]) hx hy

/-- **C142.** The second range of a name is meant to be a range of its own, but the first group takes all it can: where a name lists one range
for n and another for k, the catalog keeps the last one only. -/
theorem C142_two_ranges_refuted (lib : Lib) (A y T1 lo1 hi1 T2 lo2 hi2 : Letters) (d : Char) (hA : '\n' ∉ A) (hy : y.length = 4 ∧ ∀ c ∈ y, digit c = true)
    (hT1 : '\n' ∉ T1 ∧ ':' ∉ T1) (hT2 : '\n' ∉ T2 ∧ ':' ∉ T2) (h1 : Spec.Decimal lo1) (h2 : Spec.Decimal hi1) (h3 : Spec.Decimal lo2) (h4 : Spec.Decimal hi2)
    (hd : lib.word d = false ∧ digit d = false ∧ d ∉ ['.', 'e', ' ', ':', '\n']) :
    (nameColumns lib (String.ofList (A ++ " ".toList ++ y ++ ": ".toList ++ T1 ++ " ".toList ++ lo1 ++ [d] ++ hi1 ++ " µm, ".toList ++ T2 ++ " ".toList ++
      lo2 ++ [d] ++ hi2 ++ " µm".toList))).2.2.2 = (some lo2, some hi2) := by
  have hdec : ∀ t : Letters, Spec.Decimal t → '\n' ∉ t ∧ ':' ∉ t := by
    intro t ht
    refine ⟨?_, fun hc => (decimal_chars ht _ hc).2.1 rfl⟩
    obtain ⟨a, b, -, ha, hb, rfl | rfl⟩ := ht
    · exact fun hc => absurd (ha _ hc) (by decide)
    · intro hc
      rw [List.mem_append, List.mem_cons] at hc
      rcases hc with hc | hc | hc
      · exact absurd (ha _ hc) (by decide)
      · exact absurd hc (by decide)
      · exact absurd (hb _ hc) (by decide)
  simp only [List.mem_cons, List.not_mem_nil, not_or, or_false] at hd
  obtain ⟨d1, d2, d3, d4, d5, d6, d7⟩ := hd
  have hp : Spec.PageName.Proper lib.word ⟨A, y, [], T1 ++ ' ' :: (lo1 ++ d :: (hi1 ++ ' ' :: 'µ' :: 'm' :: ',' :: ' ' :: T2)), lo2, d, hi2, []⟩ := by
    refine ⟨hA, hy, by simp, ⟨by simp, ?_, ?_⟩, h3, h4, ⟨d1, d2, by simp [d3, d4, d5, d6]⟩, by simp⟩
    · simp only [List.mem_append, List.mem_cons, not_or]
      exact ⟨hT1.1, by decide, (hdec _ h1).1, fun e => d7 e.symm, (hdec _ h2).1, by decide, by decide, by decide, by decide, by decide, hT2.1⟩
    · simp only [List.mem_append, List.mem_cons, not_or]
      exact ⟨hT1.2, by decide, (hdec _ h1).2, fun e => d6 e.symm, (hdec _ h2).2, by decide, by decide, by decide, by decide, by decide, hT2.2⟩
  obtain ⟨c, e, -⟩ := C142_name lib _ hp
  have et : A ++ " ".toList ++ y ++ ": ".toList ++ T1 ++ " ".toList ++ lo1 ++ [d] ++ hi1 ++ " µm, ".toList ++ T2 ++ " ".toList ++
      lo2 ++ [d] ++ hi2 ++ " µm".toList = Spec.PageName.text ⟨A, y, [], T1 ++ ' ' :: (lo1 ++ d :: (hi1 ++ ' ' :: 'µ' :: 'm' :: ',' :: ' ' :: T2)), lo2, d, hi2, []⟩ := by
    simp [Spec.PageName.text, Spec.PageName.range]
  rw [et, e]

/-- The dividers and entries of a list, each with all that stands before it. -/
def _root_.Spec.places {α : Type} (l : List α) : List (List α × α) := (List.range l.length).filterMap fun i => (l[i]?).map fun x => (l.take i, x)

lemma places_cons {α : Type} (x : α) (l : List α) : Spec.places (x :: l) = ([], x) :: (Spec.places l).map fun p => (x :: p.1, p.2) := by
  unfold Spec.places
  rw [List.length_cons, List.range_succ_eq_map, List.filterMap_cons]
  simp only [List.getElem?_cons_zero, Option.map_some, List.take_zero, List.filterMap_map, List.map_filterMap]
  congr 1
  apply List.filterMap_congr
  intro i _
  cases h : l[i]? <;> simp [h]

/-- The text of a divider of pages. -/
def _root_.Spec.pageDivider : PageNode → Option String
  | .divider t => some t
  | .page _ _ _ => none

/-- The text of a divider of books. -/
def _root_.Spec.bookDivider : BookNode → Option String
  | .divider t => some t
  | .book _ _ _ => none

lemma pageRows_places (row : Option String → String → String → String → Row) (l : List PageNode) : ∀ d : Option String,
    pageRows row d l = (Spec.places l).filterMap fun p => match p.2 with
      | .divider _ => none
      | .page key name data => some (row (d.toList ++ p.1.filterMap Spec.pageDivider).getLast? key name data) := by
  induction l with
  | nil => intro d; rfl
  | cons x l ih =>
    intro d
    rw [places_cons, List.filterMap_cons, List.filterMap_map]
    cases x with
    | divider t =>
      rw [pageRows, ih]
      apply List.filterMap_congr
      rintro ⟨pre, q⟩ -
      cases q with
      | divider u => rfl
      | page key name data =>
        simp only [Function.comp, List.filterMap_cons, Spec.pageDivider]
        rw [List.getLast?_append, List.getLast?_append, List.getLast?_cons]
        cases hq : (pre.filterMap Spec.pageDivider).getLast? <;> simp [hq]
    | page key name data =>
      rw [pageRows, ih]
      simp only [List.filterMap_nil, List.append_nil]
      have hd : d.toList.getLast? = d := by cases d <;> rfl
      rw [hd]
      congr 1

lemma bookRows_places (lib : Lib) (sh shn : String) (l : List BookNode) : ∀ d : Option String,
    bookRows lib sh shn d l = (Spec.places l).flatMap fun p => match p.2 with
      | .divider _ => []
      | .book key name content => pageRows (fun pd page pname data =>
          entryRow lib sh shn (d.toList ++ p.1.filterMap Spec.bookDivider).getLast? key name page pd pname data) none content := by
  induction l with
  | nil => intro d; rfl
  | cons x l ih =>
    intro d
    rw [places_cons, List.flatMap_cons, List.flatMap_map]
    cases x with
    | divider t =>
      rw [bookRows, ih, List.nil_append]
      congr 1
      funext ⟨pre, q⟩
      cases q with
      | divider u => rfl
      | book key name content =>
        simp only [List.filterMap_cons, Spec.bookDivider]
        rw [List.getLast?_append, List.getLast?_append, List.getLast?_cons]
        cases hq : (pre.filterMap Spec.bookDivider).getLast? <;> simp [hq]
    | book key name content =>
      rw [bookRows, ih]
      simp only [List.filterMap_nil, List.append_nil]
      have hd : d.toList.getLast? = d := by cases d <;> rfl
      rw [hd]
      congr 1

/-- **C142.** The catalog has one row for every page, in the order of the file. Each row carries its own shelf and book, the last divider before its
book in the same shelf and the last divider before its page in the same book. -/
theorem C142_rows (lib : Lib) (yml : List ShelfNode) :
    readCatalog lib yml = yml.flatMap fun s => match s with
      | .divider _ => []
      | .shelf sh shn books => (Spec.places books).flatMap fun b => match b.2 with
        | .divider _ => []
        | .book key name pages => (Spec.places pages).filterMap fun p => match p.2 with
          | .divider _ => none
          | .page pg pname data => some (entryRow lib sh shn (b.1.filterMap Spec.bookDivider).getLast? key name pg (p.1.filterMap Spec.pageDivider).getLast?
              pname data) := by
  induction yml with
  | nil => rfl
  | cons s l ih =>
    rw [List.flatMap_cons, ← ih]
    cases s with
    | divider t => rfl
    | shelf sh shn books =>
      rw [readCatalog, bookRows_places]
      congr 1
      congr 1
      funext ⟨pre, q⟩
      cases q with
      | divider u => rfl
      | book key name content =>
        simp only
        rw [pageRows_places]
        rfl

/-- **C142.** A name without a colon is kept as the comment; author, year and range are missing, so no wavelength filter keeps the page. -/
theorem C142_other_names (lib : Lib) (name : String) (h : ':' ∉ name.toList) :
    nameColumns lib name = (none, none, name.toList, none, none) ∧
    ∀ sh shn bd b bn pg pd data wl, ¬ covers (entryRow lib sh shn bd b bn pg pd name data) wl := by
  have e : pagename lib.word name.toList = [] := by
    apply seq_nil
    intro x hx
    obtain ⟨z, hz, rfl⟩ := named_mem hx
    have e1 := (many_mem hz).1
    apply seq_nil
    intro y hy
    have e2 := lit_mem hy
    apply seq_nil
    intro v hv
    obtain ⟨⟨t, et⟩, -⟩ := year_mem hv
    apply colon_nil
    intro hc
    apply h
    simp only at e2
    rw [e1, e2, et]
    simp [hc]
  have e' : nameColumns lib name = (none, none, name.toList, none, none) := by
    unfold nameColumns
    rw [e]
    rfl
  refine ⟨e', ?_⟩
  rintro sh shn bd b bn pg pd data wl ⟨lo, hi, h1, -⟩
  simp [entryRow, e', numCell] at h1

/-- **C142.** `get_reference` and `get_comment` give the entry of the file of the only page with this book and page; they fail if there is no such page or
more than one, or if its file has no such entry. -/
theorem C142_texts {V : Type} (file : Row → String → Option V) (cat : List Row) (book page key : String) (v : V) :
    fileEntry file cat book page key = .ok v ↔
      ∃ pre r post, cat = pre ++ r :: post ∧ (r "book" = .str book ∧ r "page" = .str page) ∧
        (∀ r' ∈ pre ++ post, ¬ (r' "book" = .str book ∧ r' "page" = .str page)) ∧ file r key = some v := by
  unfold fileEntry
  constructor
  · intro h
    cases ho : openFile cat book page with
    | error e => simp [ho] at h
    | ok r =>
      simp only [ho] at h
      obtain ⟨pre, post, e, h1, h2⟩ := (C68_open cat book page r).1.1 ho
      cases hf : file r key with
      | none => simp [hf] at h
      | some w =>
        simp only [hf, Except.ok.injEq] at h
        exact ⟨pre, r, post, e, h1, h2, by rw [hf, h]⟩
  · rintro ⟨pre, r, post, e, h1, h2, hf⟩
    rw [(C68_open cat book page r).1.2 ⟨pre, post, e, h1, h2⟩]
    simp [hf]

/-- **C142.** The errors of `get_reference` and `get_comment`: `KeyError` exactly if the only page with this book and page has no such entry in its file,
`ValueError` exactly if there is no such page or more than one. -/
theorem C142_texts_errors {V : Type} (file : Row → String → Option V) (cat : List Row) (book page key : String) :
    (fileEntry file cat book page key = .error .keyError ↔
      ∃ pre r post, cat = pre ++ r :: post ∧ (r "book" = .str book ∧ r "page" = .str page) ∧
        (∀ r' ∈ pre ++ post, ¬ (r' "book" = .str book ∧ r' "page" = .str page)) ∧ file r key = none) ∧
    (fileEntry file cat book page key = .error .valueError ↔
      ¬ ∃ pre r post, cat = pre ++ r :: post ∧ (r "book" = .str book ∧ r "page" = .str page) ∧
        ∀ r' ∈ pre ++ post, ¬ (r' "book" = .str book ∧ r' "page" = .str page)) := by
  unfold fileEntry
  cases ho : openFile cat book page with
  | error e =>
    have hno : ∀ r, openFile cat book page ≠ .ok r := fun r hr => by rw [ho] at hr; cases hr
    have he : e = .valueError := by
      have := (C68_open cat book page (fun _ => .na)).2 hno
      rw [ho] at this
      exact Except.error.inj this
    have hnone : ¬ ∃ pre r post, cat = pre ++ r :: post ∧ (r "book" = .str book ∧ r "page" = .str page) ∧
        ∀ r' ∈ pre ++ post, ¬ (r' "book" = .str book ∧ r' "page" = .str page) := by
      rintro ⟨pre, r, post, e1, h1, h2⟩
      exact hno r ((C68_open cat book page r).1.2 ⟨pre, post, e1, h1, h2⟩)
    subst he
    refine ⟨⟨fun h => ?_, ?_⟩, fun _ => hnone, fun _ => rfl⟩
    · simp at h
    · rintro ⟨pre, r, post, e1, h1, h2, -⟩
      exact absurd ⟨pre, r, post, e1, h1, h2⟩ hnone
  | ok r =>
    obtain ⟨pre, post, e1, h1, h2⟩ := (C68_open cat book page r).1.1 ho
    have hex : ∃ pre r post, cat = pre ++ r :: post ∧ (r "book" = .str book ∧ r "page" = .str page) ∧
        ∀ r' ∈ pre ++ post, ¬ (r' "book" = .str book ∧ r' "page" = .str page) := ⟨pre, r, post, e1, h1, h2⟩
    cases hf : file r key with
    | none =>
      simp only [hf]
      refine ⟨⟨fun _ => ⟨pre, r, post, e1, h1, h2, hf⟩, fun _ => trivial⟩, fun h => ?_, fun h => absurd hex h⟩
      cases h
    | some v =>
      simp only [hf]
      refine ⟨⟨fun h => ?_, ?_⟩, fun h => ?_, fun h => absurd hex h⟩
      · cases h
      · rintro ⟨pre', r', post', e', h1', h2', hf'⟩
        have := (C68_open cat book page r').1.2 ⟨pre', post', e', h1', h2'⟩
        rw [ho] at this
        rw [← Except.ok.inj this, hf] at hf'
        cases hf'
      · cases h

lemma seq_split {a b : Pat} {s : Letters} {x y : Found} {pre post ys : List Found} (ha : a s = pre ++ x :: post) (hb : b x.rest = y :: ys) :
    ∃ pre' post', (a ⬝ b) s = pre' ++ ⟨x.groups ++ y.groups, x.text ++ y.text, y.rest⟩ :: post' ∧
      ∀ z ∈ pre', ∃ p ∈ pre, ∃ q ∈ b p.rest, z = ⟨p.groups ++ q.groups, p.text ++ q.text, q.rest⟩ := by
  refine ⟨pre.flatMap fun x => (b x.rest).map fun y => ⟨x.groups ++ y.groups, x.text ++ y.text, y.rest⟩,
    ys.map (fun y => ⟨x.groups ++ y.groups, x.text ++ y.text, y.rest⟩) ++
      post.flatMap fun x => (b x.rest).map fun y => ⟨x.groups ++ y.groups, x.text ++ y.text, y.rest⟩, ?_, ?_⟩
  · unfold Pat.seq
    rw [ha, List.flatMap_append, List.flatMap_cons, hb]
    simp
  · intro z hz
    obtain ⟨p, hp, hz⟩ := List.mem_flatMap.1 hz
    obtain ⟨q, hq, rfl⟩ := List.mem_map.1 hz
    exact ⟨p, hp, q, hq, rfl⟩

lemma seq_head_split {a b : Pat} {s : Letters} {x y : Found} {xs pre ys : List Found} (ha : a s = x :: xs) (hb : b x.rest = pre ++ y :: ys) :
    ∃ post, (a ⬝ b) s = pre.map (fun y => ⟨x.groups ++ y.groups, x.text ++ y.text, y.rest⟩) ++ ⟨x.groups ++ y.groups, x.text ++ y.text, y.rest⟩ :: post := by
  refine ⟨ys.map (fun y => ⟨x.groups ++ y.groups, x.text ++ y.text, y.rest⟩) ++
      xs.flatMap fun x => (b x.rest).map fun y => ⟨x.groups ++ y.groups, x.text ++ y.text, y.rest⟩, ?_⟩
  unfold Pat.seq
  rw [ha, List.flatMap_cons, hb]
  simp

/-- The matches of the number in "a.b µm", up to the one that stops at the point. -/
lemma number_single (word : Char → Bool) {a b r : Letters} (ha : a ≠ []) (hda : ∀ c ∈ a, digit c = true) (hdb : ∀ c ∈ b, digit c = true) :
    ∃ pre post, number word (a ++ '.' :: (b ++ ' ' :: r)) = pre ++ ⟨[], a, '.' :: (b ++ ' ' :: r)⟩ :: post ∧
      ∀ x ∈ pre, x.rest = ' ' :: r ∨ ∃ c s, digit c = true ∧ x.rest = c :: s := by
  obtain ⟨p1, e1⟩ := plus_head a ('.' :: (b ++ ' ' :: r)) hda ha (by rintro d s hd; rw [List.cons.injEq] at hd; rw [← hd.1]; rfl)
  have hrest : ∀ x ∈ many digit (b ++ ' ' :: r), x.rest = ' ' :: r ∨ ∃ c s, digit c = true ∧ x.rest = c :: s := by
    intro x hx
    obtain ⟨pre, post, e, hpre, hpost⟩ := many_split (p := digit) b (' ' :: r) hdb
    obtain ⟨q, eq⟩ := many_head (p := digit) b (' ' :: r) hdb (by rintro d s hd; rw [List.cons.injEq] at hd; rw [← hd.1]; rfl)
    rw [e] at hx
    rw [List.mem_append, List.mem_cons] at hx
    rcases hx with hx | rfl | hx
    · cases pre with
      | nil => simp at hx
      | cons z pre =>
        rw [e, List.cons_append, List.cons.injEq] at eq
        obtain ⟨d, hd, ed⟩ := hpre z List.mem_cons_self
        rw [eq.1] at ed
        simp only at ed
        have := congrArg List.length ed
        rw [List.length_append] at this
        have hl := List.length_pos_iff.2 hd
        omega
    · exact Or.inl rfl
    · obtain ⟨d, hd, e1, e2⟩ := hpost x hx
      cases d with
      | nil => exact absurd rfl hd
      | cons c d => exact Or.inr ⟨c, d ++ ' ' :: r, hdb c (by rw [e1]; simp), by rw [e2]; rfl⟩
  have hE : ∀ s : Letters, (∀ s', s ≠ 'e' :: s') → opt (lit ['e'] ⬝ opt (one fun c => !word c) ⬝ plus digit) s = [⟨[], [], s⟩] := by
    intro s hs
    apply opt_nil
    apply seq_nil
    intro x hx
    exact absurd (lit_mem hx) (hs _)
  have e2 : opt (lit ['.'] ⬝ many digit) ('.' :: (b ++ ' ' :: r)) =
      ((many digit (b ++ ' ' :: r)).map fun y => ⟨[] ++ y.groups, ['.'] ++ y.text, y.rest⟩) ++ [⟨[], [], '.' :: (b ++ ' ' :: r)⟩] := by
    unfold opt Pat.seq
    have := lit_append ['.'] (b ++ ' ' :: r)
    simp only [List.cons_append, List.nil_append] at this
    rw [this]
    simp [Pat.none]
  obtain ⟨pre1, post1, e3, h3⟩ := seq_split (b := opt (lit ['e'] ⬝ opt (one fun c => !word c) ⬝ plus digit)) e2 (hE _ (by simp))
  obtain ⟨post2, e4⟩ := seq_head_split e1 e3
  refine ⟨_, post2, by unfold number; rw [e4]; simp only [List.nil_append, List.append_nil]; rfl, ?_⟩
  intro x hx
  obtain ⟨z, hz, rfl⟩ := List.mem_map.1 hx
  obtain ⟨u, hu, t, ht, rfl⟩ := h3 z hz
  obtain ⟨v, hv, rfl⟩ := List.mem_map.1 hu
  have hr := hrest v hv
  simp only at ht
  rw [hE _ (by
    intro s' hs'
    rcases hr with h | ⟨c, s, hc, h⟩
    · rw [h] at hs'
      simp at hs'
    · rw [h, List.cons.injEq] at hs'
      rw [hs'.1] at hc
      exact absurd hc (by decide)), List.mem_singleton] at ht
  rw [ht]
  exact hr

/-- **C142.** A page measured at one wavelength only is given a range by its decimal point: "n 10.6 µm" is kept as 10 µm to 6 µm. -/
theorem C142_single_refuted (lib : Lib) (hw : ∀ c, digit c = true → lib.word c = true) (hp : lib.word '.' = false) (A y T a b : Letters) (hA : '\n' ∉ A)
    (hy : y.length = 4 ∧ ∀ c ∈ y, digit c = true) (hT : T ≠ [] ∧ '\n' ∉ T ∧ ':' ∉ T ∧ ';' ∉ T) (ha : a ≠ [] ∧ ∀ c ∈ a, digit c = true)
    (hb : b ≠ [] ∧ ∀ c ∈ b, digit c = true) :
    nameColumns lib (String.ofList (A ++ " ".toList ++ y ++ ": ".toList ++ T ++ " ".toList ++ a ++ ".".toList ++ b ++ " µm".toList)) =
      (some A, some y, [], some a, some b) := by
  have hdig : ∀ (t : Letters) (d : Char), digit d = false → (∀ c ∈ t, digit c = true) → d ∉ t := by
    intro t d hd ht hm
    rw [ht d hm] at hd
    exact absurd hd (by decide)
  have hsp : spDigit (a ++ '.' :: (b ++ [' ', 'µ', 'm'])) = false := by
    rw [spDigit_append _ _ fun c hc e => hdig a ' ' (by decide) ha.2 (e ▸ hc), ← List.singleton_append, spDigit_append _ _ (by simp),
      spDigit_append _ _ fun c hc e => hdig b ' ' (by decide) hb.2 (e ▸ hc)]
    decide
  -- the numbers
  obtain ⟨y0, ys0, t1, t2⟩ := tail_head lib.word (Z := []) (by simp)
  obtain ⟨q1, l1⟩ := seq_head (lit_append [' ', 'µ', 'm'] []) t1
  obtain ⟨q2, l2⟩ := number_head lib.word (t := b) ⟨b, [], hb.1, hb.2, by simp, Or.inl rfl⟩ ' ' ['µ', 'm'] (by decide) (by decide) (by decide)
  obtain ⟨q3, l3⟩ := named_head (n := "upper_range1") l2
  obtain ⟨q4, l4⟩ := seq_head l3 l1
  have l5 : one (fun c => !lib.word c) ('.' :: (b ++ [' ', 'µ', 'm'])) = [⟨[], ['.'], b ++ [' ', 'µ', 'm']⟩] := by
    rw [one, if_pos (by simp [hp])]
  obtain ⟨q6, l6⟩ := seq_head l5 l4
  obtain ⟨pre, post, e7, hpre⟩ := number_single lib.word (r := ['µ', 'm']) ha.1 ha.2 hb.2
  have l7 : named "lower_range1" (number lib.word) (a ++ '.' :: (b ++ [' ', 'µ', 'm'])) =
      pre.map (fun x => { x with groups := x.groups ++ [("lower_range1", x.text)] }) ++ ⟨[("lower_range1", a)], a, '.' :: (b ++ [' ', 'µ', 'm'])⟩ ::
        post.map (fun x => { x with groups := x.groups ++ [("lower_range1", x.text)] }) := by
    unfold named
    rw [e7]
    simp
  obtain ⟨q8, l8⟩ := seq_skip l7 (fun p hp' => by
    obtain ⟨z, hz, rfl⟩ := List.mem_map.1 hp'
    apply seq_nil
    intro x hx
    apply seq_nil
    intro v hv
    exfalso
    rcases hpre z hz with h0 | ⟨c, s, hc, h0⟩
    · simp only [h0, one] at hx
      split_ifs at hx
      · rw [List.mem_singleton.1 hx, named_nil (number_nil lib.word (by
          intro c r hcr
          rw [List.cons.injEq] at hcr
          rw [← hcr.1]
          decide))] at hv
        simp at hv
      · simp at hx
    · simp only [h0, one, hw c hc] at hx
      simp at hx) l6
  obtain ⟨q10, l10⟩ := seq_head (lit_append [' '] (a ++ '.' :: (b ++ [' ', 'µ', 'm']))) l8
  -- the type
  obtain ⟨pre2, post2, e, hpre2⟩ := plus_split (p := anyChar) T (' ' :: (a ++ '.' :: (b ++ [' ', 'µ', 'm']))) (fun c hc => by
    have : c ≠ '\n' := fun e => hT.2.1 (e ▸ hc)
    simp [anyChar, this]) hT.1
  have e1 : named "type1" (plus anyChar) (T ++ ' ' :: (a ++ '.' :: (b ++ [' ', 'µ', 'm']))) =
      pre2.map (fun x => { x with groups := x.groups ++ [("type1", x.text)] }) ++ ⟨[("type1", T)], T, ' ' :: (a ++ '.' :: (b ++ [' ', 'µ', 'm']))⟩ ::
        post2.map (fun x => { x with groups := x.groups ++ [("type1", x.text)] }) := by
    unfold named
    rw [e]
    simp
  obtain ⟨q11, l11⟩ := seq_skip (b := lit [' '] ⬝ named "lower_range1" (number lib.word) ⬝ one (fun c => !lib.word c) ⬝
    named "upper_range1" (number lib.word) ⬝ lit [' ', 'µ', 'm'] ⬝ tailPattern lib.word) e1 (fun p hp' => by
      obtain ⟨z, hz, rfl⟩ := List.mem_map.1 hp'
      obtain ⟨d, hd, ed⟩ := hpre2 z hz
      apply after_type_nil _ (needsUnit_first _)
      cases d with
      | nil => exact absurd rfl hd
      | cons c d =>
        rw [List.cons_append, List.cons.injEq] at ed
        rw [ed.2] at hsp
        exact spDigit_suffix d _ hsp) l10
  -- no comment
  have hnot : ∀ d, digit d = false → d ≠ '.' → d ∉ [' ', 'µ', 'm'] → d ∉ T → d ∉ T ++ ' ' :: (a ++ '.' :: (b ++ [' ', 'µ', 'm'])) := by
    intro d h1 h2 h3 h4
    simp only [List.mem_append, List.mem_cons, not_or] at h3 ⊢
    exact ⟨h4, h3.1, hdig a d h1 ha.2, h2, hdig b d h1 hb.2, h3⟩
  have l12 : opt (named "comment1" (many anyChar) ⬝ lit [';', ' ']) (T ++ ' ' :: (a ++ '.' :: (b ++ [' ', 'µ', 'm']))) =
      [⟨[], [], T ++ ' ' :: (a ++ '.' :: (b ++ [' ', 'µ', 'm']))⟩] := by
    apply opt_nil
    rw [List.eq_nil_iff_forall_not_mem]
    intro x hx
    obtain ⟨t, et, -⟩ := comment_mem hx
    exact hnot ';' (by decide) (by decide) (by decide) hT.2.2.2 (by rw [et]; simp)
  obtain ⟨q13, l13⟩ := seq_head l12 l11
  obtain ⟨z, zs, ez, z1, z2, z3⟩ := front_head (X := []) hA hy (by simp) (hnot ':' (by decide) (by decide) (by decide) hT.2.2.1) l13
  have hg : y0.groups = [] := by
    rcases t2 with ⟨C, hC, -⟩ | ⟨-, g⟩
    · simp at hC
    · exact g
  have et : A ++ " ".toList ++ y ++ ": ".toList ++ T ++ " ".toList ++ a ++ ".".toList ++ b ++ " µm".toList =
      A ++ ' ' :: (y ++ ([] ++ ':' :: ' ' :: (T ++ ' ' :: (a ++ '.' :: (b ++ [' ', 'µ', 'm']))))) := by simp
  unfold nameColumns
  rw [String.toList_ofList, et, ez]
  simp only [List.head?_cons]
  rw [z1, z2, z3 _ (by decide) (by decide), z3 _ (by decide) (by decide), z3 _ (by decide) (by decide), z3 _ (by decide) (by decide)]
  simp [Found.group, hg, List.lookup, joinComments]

/-- **C142.** So the wavelength filter leaves out a page whose refractive index is listed for the wavelength. -/
theorem C142_filter_refuted (lib : Lib) (hw : lib.word '–' = false) (h1 : lib.number "0.5".toList = some (1 / 2)) (h2 : lib.number "1".toList = some 1)
    (sh shn : String) (bd : Option String) (b bn pg : String) (pd : Option String) (data : String) :
    ¬ covers (entryRow lib sh shn bd b bn pg pd "Li 1993: n 0.2–2 µm, k 0.5–1 µm" data) 300 ∧
      covers (entryRow lib sh shn bd b bn pg pd "Li 1993: n 0.2–2 µm" data) 300 = (∃ x y, lib.number "0.2".toList = some x ∧ lib.number "2".toList = some y ∧
        1000 * x ≤ 300 ∧ 300 ≤ 1000 * y) := by
  have hd : ∀ c d : Char, digit c = true → digit d = true → Spec.Decimal [c, '.', d] := fun c d hc hd' =>
    ⟨[c], [d], by simp, by simpa using hc, by simpa using hd', Or.inr rfl⟩
  have hd1 : ∀ c : Char, digit c = true → Spec.Decimal [c] := fun c hc => ⟨[c], [], by simp, by simpa using hc, by simp, Or.inl rfl⟩
  constructor
  · have e := C142_two_ranges_refuted lib ['L', 'i'] ['1', '9', '9', '3'] ['n'] ['0', '.', '2'] ['2'] ['k'] ['0', '.', '5'] ['1'] '–' (by decide)
      ⟨rfl, by decide⟩ (by decide) (by decide) (hd _ _ (by decide) (by decide)) (hd1 _ (by decide)) (hd _ _ (by decide) (by decide)) (hd1 _ (by decide))
      ⟨hw, by decide, by decide⟩
    have key : ∀ (s t : String) (q : Option Letters × Option Letters), s = t → (nameColumns lib s).2.2.2 = q → (nameColumns lib t).2.2.2 = q := by
      rintro s t q rfl h
      exact h
    have e' := key _ "Li 1993: n 0.2–2 µm, k 0.5–1 µm" _ (by decide) e
    rw [covers_row lib sh shn bd b bn pg pd _ data _ _ (1 / 2) 1 300 e' h1 h2]
    norm_num
  · have hp : Spec.PageName.Proper lib.word ⟨['L', 'i'], ['1', '9', '9', '3'], [], ['n'], ['0', '.', '2'], '–', ['2'], []⟩ :=
      ⟨by decide, ⟨rfl, by decide⟩, by simp, by decide, hd _ _ (by decide) (by decide), hd1 _ (by decide), ⟨hw, by decide, by decide⟩, by simp⟩
    obtain ⟨c, e, -⟩ := C142_name lib _ hp
    have es : String.ofList (Spec.PageName.text ⟨['L', 'i'], ['1', '9', '9', '3'], [], ['n'], ['0', '.', '2'], '–', ['2'], []⟩) = "Li 1993: n 0.2–2 µm" := by decide
    rw [es] at e
    apply propext
    constructor
    · rintro ⟨u, v, hu, hv, h4, h5⟩
      have hu' : numCell lib 1000 (nameColumns lib "Li 1993: n 0.2–2 µm").2.2.2.1 = .num u := hu
      have hv' : numCell lib 1000 (nameColumns lib "Li 1993: n 0.2–2 µm").2.2.2.2 = .num v := hv
      rw [e] at hu' hv'
      simp only [numCell, Option.bind_some] at hu' hv'
      cases hx : lib.number ['0', '.', '2'] with
      | none => simp [hx] at hu'
      | some x =>
        cases hy : lib.number ['2'] with
        | none => simp [hy] at hv'
        | some y =>
          simp only [hx, hy, Cell.num.injEq] at hu' hv'
          exact ⟨x, y, hx, hy, hu' ▸ h4, hv' ▸ h5⟩
    · rintro ⟨x, y, hx, hy, h⟩
      exact (covers_row lib sh shn bd b bn pg pd _ data _ _ x y 300 (congrArg (fun q => q.2.2.2) e) hx hy).2 h

/-- The hypotheses are met: a name with a suffix of the year and two comments. -/
example (lib : Lib) (hw : lib.word '–' = false) : nameColumns lib "Li 1993a: film; n,k 0.2–2.5 µm; 293 K" =
    (some "Li".toList, some "1993".toList, "film 293 K".toList, some "0.2".toList, some "2.5".toList) := by
  have hp : Spec.PageName.Proper lib.word ⟨['L', 'i'], ['1', '9', '9', '3'], ['a'], "film; n,k".toList, ['0', '.', '2'], '–', ['2', '.', '5'], "; 293 K".toList⟩ :=
    ⟨by decide, ⟨rfl, by decide⟩, by decide, by decide, ⟨['0'], ['2'], by decide, by decide, by decide, Or.inr rfl⟩,
      ⟨['2'], ['5'], by decide, by decide, by decide, Or.inr rfl⟩, ⟨hw, by decide, by decide⟩, by decide⟩
  obtain ⟨c, e, hc⟩ := C142_name lib _ hp
  have es : String.ofList (Spec.PageName.text ⟨['L', 'i'], ['1', '9', '9', '3'], ['a'], "film; n,k".toList, ['0', '.', '2'], '–', ['2', '.', '5'],
      "; 293 K".toList⟩) = "Li 1993a: film; n,k 0.2–2.5 µm; 293 K" := by decide
  rw [es] at e
  rw [e, hc "film".toList "293 K".toList (Or.inr ⟨"n,k".toList, by decide, by decide, by decide⟩) (Or.inr (by decide))]
  decide

/-- The hypotheses are met: a carbon dioxide laser. -/
example (lib : Lib) (hw : ∀ c, digit c = true → lib.word c = true) (hp : lib.word '.' = false) :
    nameColumns lib "Li 1993: n 10.6 µm" = (some "Li".toList, some "1993".toList, [], some "10".toList, some "6".toList) := by
  have := C142_single_refuted lib hw hp ['L', 'i'] ['1', '9', '9', '3'] ['n'] ['1', '0'] ['6'] (by decide) ⟨rfl, by decide⟩ (by decide) (by decide) (by decide)
  rw [show "Li 1993: n 10.6 µm" = String.ofList (['L', 'i'] ++ " ".toList ++ ['1', '9', '9', '3'] ++ ": ".toList ++ ['n'] ++ " ".toList ++ ['1', '0'] ++
    ".".toList ++ ['6'] ++ " µm".toList) by decide, this]
  decide

/-- A catalog with dividers. -/
example (lib : Lib) :
    readCatalog lib [.divider "x", .shelf "main" "Main" [.divider "metals", .book "Au" "Gold" [.page "J" "a" "f", .divider "old", .page "K" "b" "g"], .book "Ag" "Silver" [.page "J" "c" "h"]],
      .shelf "other" "Other" [.book "Au" "Gold" [.page "L" "d" "i"]]] =
    [entryRow lib "main" "Main" (some "metals") "Au" "Gold" "J" none "a" "f", entryRow lib "main" "Main" (some "metals") "Au" "Gold" "K" (some "old") "b" "g",
      entryRow lib "main" "Main" (some "metals") "Ag" "Silver" "J" none "c" "h", entryRow lib "other" "Other" none "Au" "Gold" "L" none "d" "i"] := by
  rfl

/-- The texts of the file of a page. -/
example (lib : Lib) : fileEntry (fun _ key => if key = "COMMENTS" then some "film" else none) (readCatalog lib [.shelf "main" "Main" [.book "Au" "Gold" [.page "J" "a" "f"]]])
    "Au" "J" "COMMENTS" = .ok "film" :=
  (C142_texts _ _ _ _ _ _).2 ⟨[], entryRow lib "main" "Main" none "Au" "Gold" "J" none "a" "f", [], rfl, ⟨rfl, rfl⟩, by simp, rfl⟩

/-- An entry the file does not have, and a page the catalog does not have. -/
example (lib : Lib) : fileEntry (fun _ key => if key = "COMMENTS" then some "film" else none) (readCatalog lib [.shelf "main" "Main" [.book "Au" "Gold" [.page "J" "a" "f"]]])
      "Au" "J" "REFERENCES" = .error .keyError ∧
    fileEntry (fun _ key => if key = "COMMENTS" then some "film" else none) (readCatalog lib [.shelf "main" "Main" [.book "Au" "Gold" [.page "J" "a" "f"]]])
      "Au" "K" "COMMENTS" = .error .valueError := by
  refine ⟨(C142_texts_errors _ _ _ _ _).1.2 ⟨[], entryRow lib "main" "Main" none "Au" "Gold" "J" none "a" "f", [], rfl, ⟨rfl, rfl⟩, by simp, rfl⟩,
    (C142_texts_errors _ _ _ _ _).2.2 ?_⟩
  rintro ⟨pre, r, post, e, ⟨h1, h2⟩, -⟩
  have hr : r ∈ readCatalog lib [.shelf "main" "Main" [.book "Au" "Gold" [.page "J" "a" "f"]]] := by rw [e]; simp
  have hr' : r = entryRow lib "main" "Main" none "Au" "Gold" "J" none "a" "f" := List.mem_singleton.1 hr
  rw [hr'] at h2
  simp [entryRow] at h2

end PyElli.Catalog
