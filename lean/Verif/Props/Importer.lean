import Verif.Model.Importer
import Verif.Spec.Importer
import Verif.Props.Angles

/-! # C70, C71, C72, C76, C77: readers of measurement files -/

namespace PyElli.Importer

open PyElli PyElli.Regex Spec.Importer

/-! ## Matching -/

lemma cat_iff {a b : Re} {w : List Char} : Matches (.cat a b) w ↔ ∃ u v, w = u ++ v ∧ Matches a u ∧ Matches b v := by
  constructor
  · intro h
    cases h with
    | cat h1 h2 => exact ⟨_, _, rfl, h1, h2⟩
  · rintro ⟨u, v, rfl, h1, h2⟩
    exact .cat h1 h2

lemma alt_iff {a b : Re} {w : List Char} : Matches (.alt a b) w ↔ Matches a w ∨ Matches b w := by
  constructor
  · intro h
    cases h with
    | left h => exact Or.inl h
    | right h => exact Or.inr h
  · rintro (h | h)
    exacts [.left h, .right h]

lemma cls_iff {p : Char → Bool} {w : List Char} : Matches (.cls p) w ↔ ∃ c, w = [c] ∧ p c = true := by
  constructor
  · intro h
    cases h with
    | cls h => exact ⟨_, rfl, h⟩
  · rintro ⟨c, rfl, h⟩
    exact .cls h

lemma star_cls {p : Char → Bool} {w : List Char} (h : ∀ c ∈ w, p c = true) : Matches (.star (.cls p)) w := by
  induction w with
  | nil => exact .done
  | cons c w ih => exact .more (u := [c]) (.cls (h c (by simp))) (ih fun d hd => h d (by simp [hd]))

lemma plus_cls {p : Char → Bool} {w : List Char} (hw : w ≠ []) (h : ∀ c ∈ w, p c = true) : Matches (plus (.cls p)) w := by
  obtain ⟨c, w, rfl⟩ := List.exists_cons_of_ne_nil hw
  exact .cat (u := [c]) (.cls (h c (by simp))) (star_cls fun d hd => h d (by simp [hd]))

/-- All characters the pattern can match satisfy `P`. -/
def AllCls (P : Char → Prop) : Re → Prop
  | .eps => True
  | .cls p => ∀ c, p c = true → P c
  | .cat a b => AllCls P a ∧ AllCls P b
  | .alt a b => AllCls P a ∧ AllCls P b
  | .star a => AllCls P a

lemma matches_all {P : Char → Prop} {r : Re} {w : List Char} (h : Matches r w) : AllCls P r → ∀ c ∈ w, P c := by
  induction h with
  | eps => simp
  | cls h => intro hr c hc; rw [List.mem_singleton.1 hc]; exact hr _ h
  | cat _ _ ih1 ih2 => intro hr c hc; rcases List.mem_append.1 hc with hc | hc; exacts [ih1 hr.1 c hc, ih2 hr.2 c hc]
  | left _ ih => intro hr; exact ih hr.1
  | right _ ih => intro hr; exact ih hr.2
  | done => simp
  | more _ _ ih1 ih2 => intro hr c hc; rcases List.mem_append.1 hc with hc | hc; exacts [ih1 hr c hc, ih2 hr c hc]

/-- Every text the pattern matches contains a character satisfying `P`. -/
def Needs (P : Char → Prop) : Re → Prop
  | .eps => False
  | .cls p => ∀ c, p c = true → P c
  | .cat a b => Needs P a ∨ Needs P b
  | .alt a b => Needs P a ∧ Needs P b
  | .star _ => False

lemma matches_needs {P : Char → Prop} {r : Re} {w : List Char} (h : Matches r w) : Needs P r → ∃ c ∈ w, P c := by
  induction h with
  | eps => simp [Needs]
  | cls h => intro hr; exact ⟨_, by simp, hr _ h⟩
  | cat _ _ ih1 ih2 =>
    rintro (hr | hr)
    · obtain ⟨c, hc, hp⟩ := ih1 hr; exact ⟨c, by simp [hc], hp⟩
    · obtain ⟨c, hc, hp⟩ := ih2 hr; exact ⟨c, by simp [hc], hp⟩
  | left _ ih => intro hr; exact ih hr.1
  | right _ ih => intro hr; exact ih hr.2
  | done => simp [Needs]
  | more _ _ _ _ => simp [Needs]

/-! ## C70 -/

/-- C70, what the function decides: a text counts as number exactly when a decimal digit occurs in it. Numbers count, other objects
do not. -/
theorem C70_digit (C : Classes) (s : List Char) :
    (isFloat C (.text s) ↔ ∃ c ∈ s, C.digit c = true) ∧ (∀ x, isFloat C (.num x)) ∧ ¬ isFloat C .other := by
  refine ⟨⟨?_, ?_⟩, fun _ => trivial, fun h => h⟩
  · rintro ⟨pre, w, post, rfl, h⟩
    have hn : Needs (fun c => C.digit c = true) (isFloatRegex C) := by
      refine Or.inr ⟨Or.inl (Or.inl fun c h => h), Or.inr (Or.inl (Or.inl fun c h => h))⟩
    obtain ⟨c, hc, hd⟩ := matches_needs h hn
    exact ⟨c, by simp [hc], hd⟩
  · rintro ⟨c, hc, hd⟩
    obtain ⟨pre, post, rfl⟩ := List.append_of_mem hc
    refine ⟨pre, [c], post, by simp, ?_⟩
    have h1 : Matches (plus (.cls C.digit)) [c] := plus_cls (by simp) (by simpa using hd)
    have h2 : Matches (.cat (opt (.cat (ch '.') (.star (.cls C.digit)))) (exponent C)) ([] ++ []) := .cat (.right .eps) (.right .eps)
    have h3 := Matches.cat (u := []) (.right .eps : Matches (opt (.cls fun c => c == '+' || c == '-')) [])
      (.left (.cat h1 h2) : Matches (.alt _ (.cat (ch '.') (.cat (plus (.cls C.digit)) (exponent C)))) _)
    exact h3

lemma digits_mem {digit : Char → Bool} {w : List Char} (h : Digits digit w) : ∃ c ∈ w, digit c = true := by
  obtain ⟨c, w, rfl⟩ := List.exists_cons_of_ne_nil h.1
  exact ⟨c, by simp, h.2 c (by simp)⟩

/-- C70, one direction: every decimal numeral counts as number, so no line of data is dropped. Missing: texts that are not numerals but
contain a digit count as well (`C70_refuted`). -/
theorem C70_numeral_partial (C : Classes) (s : List Char) (h : Numeral C.digit s) : isFloat C (.text s) := by
  rw [(C70_digit C s).1]
  obtain ⟨sign, mant, ex, rfl, -, hm, -⟩ := h
  suffices ∃ c ∈ mant, C.digit c = true by
    obtain ⟨c, hc, hd⟩ := this
    exact ⟨c, by simp [hc], hd⟩
  rcases hm with h | ⟨a, h, rfl⟩ | ⟨a, b, h, -, rfl⟩ | ⟨b, h, rfl⟩ <;>
  · obtain ⟨c, hc, hd⟩ := digits_mem h
    exact ⟨c, by simp [hc], hd⟩

lemma opt_iff {a : Re} {w : List Char} : Matches (opt a) w ↔ Matches a w ∨ w = [] := by
  unfold opt
  rw [alt_iff]
  constructor
  · rintro (h | h)
    · exact Or.inl h
    · cases h
      exact Or.inr rfl
  · rintro (h | rfl)
    · exact Or.inl h
    · exact Or.inr .eps

lemma star_cls_iff {p : Char → Bool} {w : List Char} : Matches (.star (.cls p)) w ↔ ∀ c ∈ w, p c = true :=
  ⟨fun h => matches_all (P := fun c => p c = true) h fun _ h => h, star_cls⟩

lemma plus_cls_iff {p : Char → Bool} {w : List Char} : Matches (plus (.cls p)) w ↔ Digits p w := by
  constructor
  · intro h
    obtain ⟨u, v, rfl, h1, h2⟩ := cat_iff.1 h
    obtain ⟨c, rfl, hc⟩ := cls_iff.1 h1
    refine ⟨by simp, fun d hd => ?_⟩
    rcases List.mem_append.1 hd with hd | hd
    · rw [List.mem_singleton.1 hd]; exact hc
    · exact star_cls_iff.1 h2 d hd
  · exact fun h => plus_cls h.1 h.2

lemma sign_iff {w : List Char} : Matches (opt (.cls fun c => c == '+' || c == '-')) w ↔ w = [] ∨ w = ['+'] ∨ w = ['-'] := by
  rw [opt_iff, cls_iff]
  constructor
  · rintro (⟨c, rfl, hc⟩ | rfl)
    · simp only [Bool.or_eq_true, beq_iff_eq] at hc
      rcases hc with rfl | rfl <;> simp
    · simp
  · rintro (rfl | rfl | rfl)
    · exact Or.inr rfl
    · exact Or.inl ⟨_, rfl, by decide⟩
    · exact Or.inl ⟨_, rfl, by decide⟩

lemma ch_iff {c : Char} {w : List Char} : Matches (ch c) w ↔ w = [c] := by
  unfold ch
  rw [cls_iff]
  constructor
  · rintro ⟨d, rfl, h⟩
    simp only [beq_iff_eq] at h
    rw [h]
  · rintro rfl
    exact ⟨c, rfl, by simp⟩

lemma exponent_iff {C : Classes} {w : List Char} : Matches (exponent C) w ↔
    (w = [] ∨ ∃ e sg d, (e = 'e' ∨ e = 'E') ∧ (sg = [] ∨ sg = ['+'] ∨ sg = ['-']) ∧ Digits C.digit d ∧ w = e :: sg ++ d) := by
  unfold exponent
  rw [opt_iff, or_comm]
  refine or_congr Iff.rfl ?_
  constructor
  · intro h
    obtain ⟨u, v, rfl, h1, h2⟩ := cat_iff.1 h
    obtain ⟨sg, d, rfl, h3, h4⟩ := cat_iff.1 h2
    obtain ⟨e, rfl, he⟩ := cls_iff.1 h1
    exact ⟨e, sg, d, by simpa using he, sign_iff.1 h3, plus_cls_iff.1 h4, by simp⟩
  · rintro ⟨e, sg, d, he, hs, hd, rfl⟩
    exact .cat (u := [e]) (cls_iff.2 ⟨e, rfl, by simpa using he⟩) (.cat (sign_iff.2 hs) (plus_cls_iff.2 hd))

/-- C70, the pattern itself: it matches the whole text exactly when the text is a decimal numeral. `is_float` asks for a match anywhere in the text instead. -/
theorem C70_pattern (C : Classes) (s : List Char) : Matches (isFloatRegex C) s ↔ Numeral C.digit s := by
  unfold isFloatRegex Numeral
  constructor
  · intro h
    obtain ⟨sign, rest, rfl, h1, h2⟩ := cat_iff.1 h
    rcases alt_iff.1 h2 with h2 | h2
    · obtain ⟨a, rest, rfl, h3, h4⟩ := cat_iff.1 h2
      obtain ⟨b, ex, rfl, h5, h6⟩ := cat_iff.1 h4
      refine ⟨sign, a ++ b, ex, by simp, sign_iff.1 h1, ?_, exponent_iff.1 h6⟩
      have ha := plus_cls_iff.1 h3
      rcases opt_iff.1 h5 with h5 | rfl
      · obtain ⟨u, v, rfl, h7, h8⟩ := cat_iff.1 h5
        rw [ch_iff.1 h7]
        by_cases hv : v = []
        · subst hv
          exact Or.inr (Or.inl ⟨a, ha, by simp⟩)
        · exact Or.inr (Or.inr (Or.inl ⟨a, v, ha, ⟨hv, star_cls_iff.1 h8⟩, by simp⟩))
      · exact Or.inl (by simpa using ha)
    · obtain ⟨u, rest, rfl, h3, h4⟩ := cat_iff.1 h2
      obtain ⟨b, ex, rfl, h5, h6⟩ := cat_iff.1 h4
      rw [ch_iff.1 h3]
      exact ⟨sign, '.' :: b, ex, by simp, sign_iff.1 h1, Or.inr (Or.inr (Or.inr ⟨b, plus_cls_iff.1 h5, rfl⟩)), exponent_iff.1 h6⟩
  · rintro ⟨sign, mant, ex, rfl, hs, hm, he⟩
    rw [List.append_assoc]
    refine .cat (sign_iff.2 hs) (alt_iff.2 ?_)
    have hex := exponent_iff.2 he
    rcases hm with h | ⟨a, h, rfl⟩ | ⟨a, b, h, hb, rfl⟩ | ⟨b, h, rfl⟩
    · left
      exact .cat (plus_cls_iff.2 h) (.cat (u := []) (opt_iff.2 (Or.inr rfl)) hex)
    · left
      rw [List.append_assoc]
      exact .cat (plus_cls_iff.2 h) (.cat (opt_iff.2 (Or.inl (.cat (u := ['.']) (v := []) (ch_iff.2 rfl) .done))) hex)
    · left
      rw [List.append_assoc]
      exact .cat (plus_cls_iff.2 h) (.cat (opt_iff.2 (Or.inl (.cat (u := ['.']) (ch_iff.2 rfl) (star_cls hb.2)))) hex)
    · right
      exact .cat (u := ['.']) (ch_iff.2 rfl) (.cat (plus_cls_iff.2 h) hex)

lemma numeral_head {C : Classes} {c : Char} {s : List Char} (h : Numeral C.digit (c :: s)) :
    c = '+' ∨ c = '-' ∨ c = '.' ∨ C.digit c = true := by
  obtain ⟨sign, mant, ex, he, hs, hm, -⟩ := h
  rcases hs with rfl | rfl | rfl
  · have hd : ∀ a : List Char, Digits C.digit a → ∀ r, c :: s = a ++ r → C.digit c = true := by
      intro a ha r hr
      obtain ⟨x, a, rfl⟩ := List.exists_cons_of_ne_nil ha.1
      simp only [List.cons_append, List.cons.injEq] at hr
      rw [hr.1]
      exact ha.2 x (by simp)
    rcases hm with h | ⟨a, h, rfl⟩ | ⟨a, b, h, -, rfl⟩ | ⟨b, h, rfl⟩
    · exact Or.inr (Or.inr (Or.inr (hd _ h ex (by simpa using he))))
    · exact Or.inr (Or.inr (Or.inr (hd _ h (['.'] ++ ex) (by simpa using he))))
    · exact Or.inr (Or.inr (Or.inr (hd _ h ('.' :: b ++ ex) (by simpa using he))))
    · simp only [List.nil_append, List.cons_append, List.cons.injEq] at he
      exact Or.inr (Or.inr (Or.inl he.1))
  · simp only [List.cons_append, List.cons.injEq] at he
    exact Or.inl he.1
  · simp only [List.cons_append, List.cons.injEq] at he
    exact Or.inr (Or.inl he.1)

/-- C70 fails: a label containing a digit counts as number. -/
theorem C70_refuted (C : Classes) : isFloat C (.text "d1".toList) ∧ ¬ Numeral C.digit "d1".toList := by
  constructor
  · rw [(C70_digit C _).1]
    exact ⟨'1', by decide, C.digit_ascii _ (by decide)⟩
  · intro h
    rcases numeral_head (c := 'd') (s := ['1']) h with h | h | h | h
    · exact absurd h (by decide)
    · exact absurd h (by decide)
    · exact absurd h (by decide)
    · exact absurd (C.digit_only _ h).1 (by decide)

/-- The ASCII characters are an instance. -/
def asciiClasses : Classes where
  digit := Char.isDigit
  space c := c ∈ [' ', '\t', '\n', '\r']
  digit_ascii _ h := h
  space_ascii c h := by simpa using h
  digit_only c h := by
    simp only [Char.isDigit, Bool.and_eq_true, decide_eq_true_eq] at h
    refine ⟨?_, ?_⟩
    · simp only [Char.isAlpha, Char.isUpper, Char.isLower, Bool.or_eq_false_iff, Bool.and_eq_false_iff, decide_eq_false_iff_not]
      have h1 : c.val.toNat ≤ 57 := UInt32.le_iff_toNat_le.1 h.2
      constructor
      · rintro ⟨h2, -⟩
        have h3 : 65 ≤ c.val.toNat := UInt32.le_iff_toNat_le.1 h2
        omega
      · left
        intro h2
        have h3 : 97 ≤ c.val.toNat := UInt32.le_iff_toNat_le.1 h2
        omega
    · intro hc
      simp only [List.mem_cons, List.not_mem_nil, or_false] at hc
      rcases hc with rfl | rfl | rfl | rfl | rfl | rfl | rfl <;> exact absurd h (by decide)
  space_only c h := by
    simp only [List.mem_cons, List.not_mem_nil, or_false, decide_eq_true_eq] at h
    rcases h with rfl | rfl | rfl | rfl <;> decide

/-- A numeral. -/
example : Numeral asciiClasses.digit "-1.5e-3".toList :=
  ⟨['-'], ['1', '.', '5'], ['e', '-', '3'], by decide, by decide,
    Or.inr (Or.inr (Or.inl ⟨['1'], ['5'], ⟨by decide, by decide⟩, ⟨by decide, by decide⟩, by decide⟩)),
    Or.inr ⟨'e', ['-'], ['3'], by decide, by decide, ⟨by decide, by decide⟩, by decide⟩⟩

/-! ## C72 -/

/-- C72, the complete table: without x axis `ValueError`; x alone isotropic; x and z uniaxial with x ordinary; all three biaxial; x and y
without z `KeyError`. -/
theorem C72_table {D : Type} (x y z : D) (oy oz : Option (Option D)) :
    getMaterial none oy oz = .error .valueError ∧
    getMaterial (some (some x)) none none = .ok (.isotropic x) ∧
    getMaterial (some (some x)) none (some (some z)) = .ok (.uniaxial x z) ∧
    getMaterial (some (some x)) (some (some y)) (some (some z)) = .ok (.biaxial x y z) ∧
    getMaterial (some (some x)) (some (some y)) none = .error .keyError := by
  refine ⟨rfl, rfl, ?_, ?_, ?_⟩ <;> simp [getMaterial, checked, List.lookup, Except.map]

/-- C72 holds for two dispersions only when they are those of x and z. Full statement: whatever two axes are present. -/
theorem C72_uniaxial_partial {D : Type} (x z : D) : ∃ o e, getMaterial (some (some x)) none (some (some z)) = .ok (.uniaxial o e) ∧ o = x ∧ e = z :=
  ⟨x, z, (C72_table x x z none none).2.2.1, rfl, rfl⟩

/-- C72 fails: dispersions for x and y, or for y and z, give no material. -/
theorem C72_two_axes_refuted {D : Type} (x y z : D) :
    getMaterial (some (some x)) (some (some y)) none = .error .keyError ∧
    getMaterial none (some (some y)) (some (some z)) = .error .valueError :=
  ⟨(C72_table x y z none none).2.2.2.2, rfl⟩

/-- C72: an axis without a known dispersion never gives a material. -/
theorem C72_unknown {D : Type} (x y z : Option (Option D)) (h : x = some none ∨ y = some none ∨ z = some none) :
    ∃ e, getMaterial x y z = .error e := by
  rcases h with rfl | rfl | rfl
  · rcases y with _ | _ | y <;> rcases z with _ | _ | z <;> exact ⟨_, by simp [getMaterial, checked, List.lookup, Except.map]; rfl⟩
  · rcases x with _ | _ | x <;> rcases z with _ | _ | z <;> exact ⟨_, by simp [getMaterial, checked, List.lookup, Except.map]; rfl⟩
  · rcases x with _ | _ | x <;> rcases y with _ | _ | y <;> exact ⟨_, by simp [getMaterial, checked, List.lookup, Except.map]; rfl⟩

/-! ## C76: where the table of a Woollam file starts -/

/-- The line is taken as the first line of the table. -/
def Tabular (C : Classes) (l : List Char) : Prop := isWvase C l ∨ isCompleteEase C l

lemma scan_ok_iff (C : Classes) (lines : List (List Char)) : ∀ md md' f table, scan C md lines = .ok (md', f, table) ↔
    ∃ pre l post, lines = pre ++ l :: post ∧ md' = md ++ pre ∧ table = l :: post ∧
      (∀ m ∈ pre, ¬ Tabular C m ∧ ¬ isTanCos C m) ∧ (isWvase C l ∧ f = .wvase ∨ ¬ isWvase C l ∧ isCompleteEase C l ∧ f = .completeEase) := by
  induction lines with
  | nil => intro md md' f table; simp [scan]
  | cons a lines ih =>
    intro md md' f table
    by_cases h1 : isWvase C a
    · simp only [scan, if_pos h1, Except.ok.injEq, Prod.mk.injEq]
      constructor
      · rintro ⟨rfl, rfl, rfl⟩
        exact ⟨[], a, lines, rfl, by simp, rfl, by simp, Or.inl ⟨h1, rfl⟩⟩
      · rintro ⟨pre, l, post, e, rfl, rfl, hp, hl⟩
        cases pre with
        | nil =>
          simp only [List.nil_append, List.cons.injEq] at e
          obtain ⟨rfl, rfl⟩ := e
          rcases hl with ⟨-, rfl⟩ | ⟨hn, -⟩
          · exact ⟨by simp, rfl, rfl⟩
          · exact absurd h1 hn
        | cons p pre =>
          simp only [List.cons_append, List.cons.injEq] at e
          exact absurd (Or.inl (e.1 ▸ h1)) (hp p (by simp)).1
    by_cases h2 : isCompleteEase C a
    · simp only [scan, if_neg h1, if_pos h2, Except.ok.injEq, Prod.mk.injEq]
      constructor
      · rintro ⟨rfl, rfl, rfl⟩
        exact ⟨[], a, lines, rfl, by simp, rfl, by simp, Or.inr ⟨h1, h2, rfl⟩⟩
      · rintro ⟨pre, l, post, e, rfl, rfl, hp, hl⟩
        cases pre with
        | nil =>
          simp only [List.nil_append, List.cons.injEq] at e
          obtain ⟨rfl, rfl⟩ := e
          rcases hl with ⟨hn, -⟩ | ⟨-, -, rfl⟩
          · exact absurd hn h1
          · exact ⟨by simp, rfl, rfl⟩
        | cons p pre =>
          simp only [List.cons_append, List.cons.injEq] at e
          exact absurd (Or.inr (e.1 ▸ h2)) (hp p (by simp)).1
    by_cases h3 : isTanCos C a
    · simp only [scan, if_neg h1, if_neg h2, if_pos h3]
      constructor
      · intro h; simp at h
      · rintro ⟨pre, l, post, e, rfl, rfl, hp, hl⟩
        cases pre with
        | nil =>
          simp only [List.nil_append, List.cons.injEq] at e
          obtain ⟨rfl, rfl⟩ := e
          rcases hl with ⟨hn, -⟩ | ⟨-, hn, -⟩
          · exact absurd hn h1
          · exact absurd hn h2
        | cons p pre =>
          simp only [List.cons_append, List.cons.injEq] at e
          exact absurd (e.1 ▸ h3) (hp p (by simp)).2
    · simp only [scan, if_neg h1, if_neg h2, if_neg h3]
      rw [ih]
      constructor
      · rintro ⟨pre, l, post, rfl, rfl, rfl, hp, hl⟩
        refine ⟨a :: pre, l, post, rfl, by simp, rfl, ?_, hl⟩
        intro m hm
        rcases List.mem_cons.1 hm with rfl | hm
        · exact ⟨fun h => h.elim h1 h2, h3⟩
        · exact hp m hm
      · rintro ⟨pre, l, post, e, rfl, rfl, hp, hl⟩
        cases pre with
        | nil =>
          simp only [List.nil_append, List.cons.injEq] at e
          obtain ⟨rfl, rfl⟩ := e
          rcases hl with ⟨hn, -⟩ | ⟨-, hn, -⟩
          · exact absurd hn h1
          · exact absurd hn h2
        | cons p pre =>
          simp only [List.cons_append, List.cons.injEq] at e
          obtain ⟨rfl, rfl⟩ := e
          exact ⟨pre, l, post, rfl, by simp, rfl, fun m hm => hp m (by simp [hm]), hl⟩

/-- C76: the table starts at the first line in one of the two layouts and runs to the end of the file, the line before it names the unit,
and there is no tan/cos header before it; nothing else is read. Full statement: every data line is read. Missing: data lines that are not in
the expected layout (`C76_negative_delta_refuted`) and files that start with the table (`C76_first_line_refuted`). -/
theorem C76_table_partial (C : Classes) (lines : List (List Char)) (u : List Char) (f : Format) (table : List (List Char)) :
    readWoollam C lines = .ok (u, f, table) ↔
    ∃ pre l post, lines = pre ++ u :: l :: post ∧ table = l :: post ∧ (∀ m ∈ pre ++ [u], ¬ Tabular C m ∧ ¬ isTanCos C m) ∧
      (isWvase C l ∧ f = .wvase ∨ ¬ isWvase C l ∧ isCompleteEase C l ∧ f = .completeEase) := by
  unfold readWoollam
  constructor
  · intro h
    cases hs : scan C [] lines with
    | error e => simp [hs] at h
    | ok r =>
      obtain ⟨m, f', t⟩ := r
      simp only [hs] at h
      cases hm : m.getLast? with
      | none => simp [hm] at h
      | some u' =>
        simp only [hm, Except.ok.injEq, Prod.mk.injEq] at h
        obtain ⟨rfl, rfl, rfl⟩ := h
        obtain ⟨pre, l, post, rfl, h2, rfl, h4, h5⟩ := (scan_ok_iff C lines [] m f' t).1 hs
        rw [List.nil_append] at h2
        subst h2
        obtain ⟨q, rfl⟩ := List.getLast?_eq_some_iff.1 hm
        exact ⟨q, l, post, by simp, rfl, h4, h5⟩
  · rintro ⟨pre, l, post, rfl, rfl, h1, h2⟩
    have hs : scan C [] (pre ++ u :: l :: post) = .ok (pre ++ [u], f, l :: post) :=
      (scan_ok_iff C _ _ _ _ _).2 ⟨pre ++ [u], l, post, by simp, by simp, rfl, h1, h2⟩
    rw [hs]
    simp

/-- C76: a tan/cos header before any table line is refused; a file without table line as well. -/
theorem C76_refused (C : Classes) (pre : List (List Char)) (hp : ∀ m ∈ pre, ¬ Tabular C m ∧ ¬ isTanCos C m) (l : List Char) (post : List (List Char)) :
    readWoollam C pre = .error .valueError ∧
    (isTanCos C l → ¬ Tabular C l → readWoollam C (pre ++ l :: post) = .error .notImplemented) := by
  have hgen : ∀ (pre : List (List Char)), (∀ m ∈ pre, ¬ Tabular C m ∧ ¬ isTanCos C m) → ∀ md rest,
      scan C md (pre ++ rest) = scan C (md ++ pre) rest := by
    intro pre
    induction pre with
    | nil => intro _ md rest; simp
    | cons a pre ih =>
      intro h md rest
      have ha := h a (by simp)
      have h1 : ¬ isWvase C a := fun h => ha.1 (Or.inl h)
      have h2 : ¬ isCompleteEase C a := fun h => ha.1 (Or.inr h)
      rw [List.cons_append, scan, if_neg h1, if_neg h2, if_neg ha.2, ih fun m hm => h m (by simp [hm])]
      simp
  constructor
  · have := hgen pre hp [] []
    rw [List.append_nil] at this
    simp [readWoollam, this, scan]
  · intro h1 h2
    have h3 : ¬ isWvase C l := fun h => h2 (Or.inl h)
    have h4 : ¬ isCompleteEase C l := fun h => h2 (Or.inr h)
    simp [readWoollam, hgen pre hp [] (l :: post), scan, h1, h3, h4]

/-- C76 fails for a file that starts with the table: `IndexError` because there is no line with the unit. -/
theorem C76_first_line_refuted (C : Classes) (l : List Char) (post : List (List Char)) (h : Tabular C l) :
    readWoollam C (l :: post) = .error .indexError := by
  unfold readWoollam
  by_cases h1 : isWvase C l
  · simp [scan, h1]
  · have h2 := h.resolve_left h1
    simp [scan, h1, h2]

lemma ch_needs (c : Char) : Needs (fun d => d = c) (ch c) := by
  intro d hd
  simpa using hd

lemma isWvase_dot {C : Classes} {l : List Char} (h : isWvase C l) : '.' ∈ l := by
  have hn : Needs (fun d => d = '.') (.cat (rep (.cat (opt (ch '-')) (.cat (decimalStar C) (plus (.cls C.space)))) 5) (decimalStar C)) :=
    Or.inr (Or.inr (Or.inl (ch_needs '.')))
  rcases h with h | ⟨s', rfl, h⟩
  · obtain ⟨c, hc, rfl⟩ := matches_needs h hn; exact hc
  · obtain ⟨c, hc, rfl⟩ := matches_needs h hn; exact List.mem_append_left _ hc

lemma isCompleteEase_dot {C : Classes} {l : List Char} (h : isCompleteEase C l) : '.' ∈ l := by
  have hn : Needs (fun d => d = '.') (.cat (plus letter) (.cat (plus (.cls C.space))
      (.cat (rep (.cat (decimalPlus C) (plus (.cls C.space))) 5) (decimalPlus C)))) :=
    Or.inr (Or.inr (Or.inr (Or.inr (Or.inl (ch_needs '.')))))
  rcases h with h | ⟨s', rfl, h⟩
  · obtain ⟨c, hc, rfl⟩ := matches_needs h hn; exact hc
  · obtain ⟨c, hc, rfl⟩ := matches_needs h hn; exact List.mem_append_left _ hc

lemma isTanCos_T {C : Classes} {l : List Char} (h : isTanCos C l) : 'T' ∈ l := by
  obtain ⟨w, post, rfl, h⟩ := h
  obtain ⟨c, hc, rfl⟩ := matches_needs (P := fun d => d = 'T') h (Or.inr (Or.inr (Or.inl (ch_needs 'T'))))
  exact List.mem_append_left _ hc

/-- No line with a minus sign is taken as the start of a CompleteEASE table. -/
lemma isCompleteEase_no_minus {C : Classes} {l : List Char} (h : isCompleteEase C l) : '-' ∉ l := by
  have hd : ∀ c, C.digit c = true → c ≠ '-' := by rintro c hc rfl; exact absurd (C.digit_only _ hc).2 (by decide)
  have hs : ∀ c, C.space c = true → c ≠ '-' := by rintro c hc rfl; exact absurd (C.space_only _ hc).2 (by decide)
  have hl : ∀ c : Char, c.isAlpha = true → c ≠ '-' := by rintro c hc rfl; exact absurd hc (by decide)
  have hdot : ∀ c : Char, (c == '.') = true → c ≠ '-' := by rintro c hc rfl; exact absurd hc (by decide)
  have hdec : AllCls (fun c => c ≠ '-') (decimalPlus C) := ⟨⟨hd, hd⟩, hdot, hd, hd⟩
  have ha : AllCls (fun c => c ≠ '-') (.cat (plus letter) (.cat (plus (.cls C.space))
      (.cat (rep (.cat (decimalPlus C) (plus (.cls C.space))) 5) (decimalPlus C)))) := by
    have hrep : ∀ n, AllCls (fun c => c ≠ '-') (rep (.cat (decimalPlus C) (plus (.cls C.space))) n) := by
      intro n
      induction n with
      | zero => trivial
      | succ n ih => exact ⟨⟨hdec, hs, hs⟩, ih⟩
    exact ⟨⟨hl, hl⟩, ⟨hs, hs⟩, hrep 5, hdec⟩
  intro hm
  rcases h with h | ⟨s', rfl, h⟩
  · exact matches_all h ha _ hm rfl
  · rcases List.mem_append.1 hm with hm | hm
    · exact matches_all h ha _ hm rfl
    · exact absurd hm (by decide)

/-- No line with a letter is taken as the start of a WVASE table. -/
lemma isWvase_no_letter {C : Classes} {l : List Char} (h : isWvase C l) (c : Char) (hc : c ∈ l) : c.isAlpha = false := by
  have hd : ∀ c, C.digit c = true → c.isAlpha = false := fun c hc => (C.digit_only _ hc).1
  have hs : ∀ c, C.space c = true → c.isAlpha = false := by
    intro c hc
    have := (C.space_only _ hc).1
    rw [Char.isAlphanum, Bool.or_eq_false_iff] at this
    exact this.1
  have hdot : ∀ c : Char, (c == '.') = true → c.isAlpha = false := by intro c hc; rw [eq_of_beq hc]; decide
  have hmin : ∀ c : Char, (c == '-') = true → c.isAlpha = false := by intro c hc; rw [eq_of_beq hc]; decide
  have hdec : AllCls (fun c => c.isAlpha = false) (decimalStar C) := ⟨hd, hdot, hd⟩
  have ha : AllCls (fun c => c.isAlpha = false)
      (.cat (rep (.cat (opt (ch '-')) (.cat (decimalStar C) (plus (.cls C.space)))) 5) (decimalStar C)) := by
    have hrep : ∀ n, AllCls (fun c => c.isAlpha = false) (rep (.cat (opt (ch '-')) (.cat (decimalStar C) (plus (.cls C.space)))) n) := by
      intro n
      induction n with
      | zero => trivial
      | succ n ih => exact ⟨⟨⟨hmin, trivial⟩, hdec, hs, hs⟩, ih⟩
    exact ⟨hrep 5, hdec⟩
  rcases h with h | ⟨s', rfl, h⟩
  · exact matches_all h ha c hc
  · rcases List.mem_append.1 hc with hc | hc
    · exact matches_all h ha c hc
    · rw [List.mem_singleton.1 hc]; decide

/-- A decimal number as written in the files: digits, point, digits. -/
def dec (p : List Char × List Char) : List Char := p.1 ++ '.' :: p.2

lemma decimalPlus_matches {C : Classes} {p : List Char × List Char} (h : Digits C.digit p.1 ∧ Digits C.digit p.2) :
    Matches (decimalPlus C) (dec p) :=
  .cat (plus_cls h.1.1 h.1.2) (.cat (u := ['.']) (.cls (by decide)) (plus_cls h.2.1 h.2.2))

/-- C76: every line made of a word and six unsigned decimal numbers with digits on both sides of the point, separated by blanks or tabs, is
recognised as CompleteEASE layout. -/
theorem C76_complete_ease_layout (C : Classes) (word sep : List Char) (ps : List (List Char × List Char)) (last : List Char × List Char)
    (hw : word ≠ []) (hword : ∀ c ∈ word, c.isAlpha = true) (hsep : sep ≠ []) (hs : ∀ c ∈ sep, c = ' ' ∨ c = '\t')
    (h5 : ps.length = 5) (hps : ∀ p ∈ ps ++ [last], Digits C.digit p.1 ∧ Digits C.digit p.2) :
    isCompleteEase C (word ++ sep ++ (ps.flatMap fun p => dec p ++ sep) ++ dec last) ∧
    isCompleteEase C (word ++ sep ++ (ps.flatMap fun p => dec p ++ sep) ++ dec last ++ ['\n']) := by
  have hsp : Matches (plus (.cls C.space)) sep :=
    plus_cls hsep fun c hc => C.space_ascii c (by rcases hs c hc with rfl | rfl <;> decide)
  have hrep : ∀ qs : List (List Char × List Char), (∀ p ∈ qs, Digits C.digit p.1 ∧ Digits C.digit p.2) →
      Matches (rep (.cat (decimalPlus C) (plus (.cls C.space))) qs.length) (qs.flatMap fun p => dec p ++ sep) := by
    intro qs
    induction qs with
    | nil => intro _; exact .eps
    | cons q qs ih =>
      intro h
      rw [List.flatMap_cons]
      exact .cat (.cat (decimalPlus_matches (h q (by simp))) hsp) (ih fun p hp => h p (by simp [hp]))
  have hm : Matches (.cat (plus letter) (.cat (plus (.cls C.space))
      (.cat (rep (.cat (decimalPlus C) (plus (.cls C.space))) 5) (decimalPlus C))))
      (word ++ sep ++ (ps.flatMap fun p => dec p ++ sep) ++ dec last) := by
    have h1 := hrep ps fun p hp => hps p (by simp [hp])
    rw [h5] at h1
    have := Matches.cat (plus_cls (p := Char.isAlpha) hw hword) (.cat hsp (.cat h1 (decimalPlus_matches (hps last (by simp)))))
    simpa [letter, List.append_assoc] using this
  exact ⟨Or.inl hm, Or.inr ⟨_, rfl, hm⟩⟩

/-- C76 fails: when the first rows of a CompleteEASE file have a negative Δ they are not read, and the last of them is taken as the unit. -/
theorem C76_negative_delta_refuted (C : Classes) :
    readWoollam C ["title\n".toList, "nm\n".toList, "E\t400.0\t50.0\t40.0\t-2.0\t0.1\t0.1\n".toList,
        "E\t410.0\t50.0\t40.0\t1.0\t0.1\t0.1\n".toList] =
      .ok ("E\t400.0\t50.0\t40.0\t-2.0\t0.1\t0.1\n".toList, .completeEase, ["E\t410.0\t50.0\t40.0\t1.0\t0.1\t0.1\n".toList]) := by
  rw [C76_table_partial]
  refine ⟨["title\n".toList, "nm\n".toList], _, [], rfl, rfl, ?_, Or.inr ⟨?_, ?_, rfl⟩⟩
  · intro m hm
    simp only [List.cons_append, List.nil_append, List.mem_cons, List.not_mem_nil, or_false] at hm
    rcases hm with rfl | rfl | rfl
    · exact ⟨fun h => h.elim (fun h => absurd (isWvase_dot h) (by decide)) fun h => absurd (isCompleteEase_dot h) (by decide),
        fun h => absurd (isTanCos_T h) (by decide)⟩
    · exact ⟨fun h => h.elim (fun h => absurd (isWvase_dot h) (by decide)) fun h => absurd (isCompleteEase_dot h) (by decide),
        fun h => absurd (isTanCos_T h) (by decide)⟩
    · exact ⟨fun h => h.elim (fun h => absurd (isWvase_no_letter h 'E' (by decide)) (by decide))
        fun h => absurd (by decide) (isCompleteEase_no_minus h), fun h => absurd (isTanCos_T h) (by decide)⟩
  · intro h
    exact absurd (isWvase_no_letter h 'E' (by decide)) (by decide)
  · have hd : ∀ w : List Char, w ≠ [] → w.all Char.isDigit = true → Digits C.digit w := by
      intro w h1 h2
      exact ⟨h1, fun c hc => C.digit_ascii c (List.all_eq_true.1 h2 c hc)⟩
    have := (C76_complete_ease_layout C ['E'] ['\t']
      [("410".toList, ['0']), ("50".toList, ['0']), ("40".toList, ['0']), (['1'], ['0']), (['0'], ['1'])] (['0'], ['1'])
      (by decide) (by decide) (by decide) (by decide) rfl (by
        intro p hp
        simp only [List.cons_append, List.nil_append, List.mem_cons, List.not_mem_nil, or_false] at hp
        rcases hp with rfl | rfl | rfl | rfl | rfl | rfl <;> exact ⟨hd _ (by decide) (by decide), hd _ (by decide) (by decide)⟩)).2
    exact this

end PyElli.Importer
