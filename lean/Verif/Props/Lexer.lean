import Verif.Model.Lexer
import Verif.Spec.FormulaText
import Verif.Props.Grammar

/-! # C97: formulas as text -/

namespace PyElli.FormulaText

open PyElli.Formula (Tok Tree NT D DRhs DAssign Rhs Assignment)
open Spec.FormulaText Spec.Importer

/-! ## Words -/

/-- What can follow a word in a text. -/
def Stop (s : List Char) : Prop := ∀ c, s.head? = some c → c ∈ [' ', '\t', '*', '/', '+', '-', ')', ']', '(', '[']

lemma take_word (p : Char → Bool) (w rest : List Char) (hw : ∀ c ∈ w, p c = true) (hr : ∀ c, rest.head? = some c → p c = false) :
    (w ++ rest).takeWhile p = w ∧ (w ++ rest).dropWhile p = rest := by
  have h : rest.takeWhile p = [] ∧ rest.dropWhile p = rest := by
    cases rest with
    | nil => exact ⟨rfl, rfl⟩
    | cons c r => simp [List.takeWhile_cons, List.dropWhile_cons, hr c rfl]
  rw [List.takeWhile_append_of_pos hw, List.dropWhile_append_of_pos hw, h.1, h.2]
  simp

lemma Stop.class (p : Char → Bool) (hp : ∀ c ∈ [' ', '\t', '*', '/', '+', '-', ')', ']', '(', '['], p c = false) {s : List Char} (h : Stop s) :
    ∀ c, s.head? = some c → p c = false := fun c hc => hp c (h c hc)

lemma Stop.ident {s : List Char} (h : Stop s) : ∀ c, s.head? = some c → identChar c = false := h.class _ (by decide)
lemma Stop.digit {s : List Char} (h : Stop s) : ∀ c, s.head? = some c → c.isDigit = false := h.class _ (by decide)

lemma lit_append (p r : List Char) : lit p (p ++ r) = some r := by simp [lit]

lemma lit_word {p w rest : List Char} (hp : ∀ c ∈ p, identChar c = true) (hr : Stop rest) :
    lit p (w ++ rest) = (lit p w).map (· ++ rest) := by
  induction p generalizing w with
  | nil => simp [lit]
  | cons c p ih =>
    cases w with
    | nil =>
      cases rest with
      | nil => simp [lit]
      | cons d r =>
        have hd := hr.ident d rfl
        have hc := hp c (by simp)
        have hne : c ≠ d := by rintro rfl; rw [hc] at hd; cases hd
        simp [lit, List.isPrefixOf, hne]
    | cons d w =>
      have := ih (w := w) fun x hx => hp x (by simp [hx])
      simp only [lit, List.cons_append, List.isPrefixOf, List.drop_succ_cons, List.length_cons] at this ⊢
      by_cases hcd : c = d
      · subst hcd; simpa using this
      · simp [hcd]

lemma firstLit_word {ps : List String} {w rest : List Char} (hp : ∀ p ∈ ps, ∀ c ∈ p.toList, identChar c = true) (hr : Stop rest) :
    firstLit ps (w ++ rest) = (firstLit ps w).map fun x => (x.1, x.2 ++ rest) := by
  induction ps with
  | nil => rfl
  | cons p ps ih =>
    simp only [firstLit]
    rw [lit_word (hp p (by simp)) hr]
    cases lit p.toList w with
    | none => simpa using ih fun q hq => hp q (by simp [hq])
    | some r => simp

lemma funcWords_ident : ∀ p ∈ funcWords, ∀ c ∈ p.toList, identChar c = true := by decide
lemma builtinWords_ident : ∀ p ∈ builtinWords, ∀ c ∈ p.toList, identChar c = true := by decide

lemma firstLit_none {ps : List String} {s : List Char} : firstLit ps s = none ↔ ∀ p ∈ ps, ¬ p.toList <+: s := by
  induction ps with
  | nil => simp [firstLit]
  | cons p ps ih =>
    simp only [firstLit, lit]
    by_cases h : p.toList.isPrefixOf s
    · simp only [h, if_true]
      have := List.isPrefixOf_iff_prefix.1 h
      simp [this]
    · simp only [h]
      have : ¬ p.toList <+: s := fun hp => h (List.isPrefixOf_iff_prefix.2 hp)
      simp [this, ih]

lemma firstLit_some {ps : List String} {s r : List Char} {p : String} (h : firstLit ps s = some (p, r)) :
    p ∈ ps ∧ s = p.toList ++ r := by
  induction ps with
  | nil => cases h
  | cons q ps ih =>
    simp only [firstLit, lit] at h
    by_cases hq : q.toList.isPrefixOf s
    · simp only [hq, if_true, Option.some.injEq, Prod.mk.injEq] at h
      obtain ⟨rfl, rfl⟩ := h
      obtain ⟨t, rfl⟩ := List.isPrefixOf_iff_prefix.1 hq
      simp
    · simp only [hq] at h
      obtain ⟨h1, h2⟩ := ih h
      exact ⟨by simp [h1], h2⟩

lemma func_mem {f : String} : f ∈ funcWords ↔ f ∈ functions := by
  simp only [funcWords, functions, List.mem_cons, List.not_mem_nil, or_false]
  tauto

lemma builtin_mem {f : String} : f ∈ builtinWords ↔ f ∈ constants := by
  simp only [builtinWords, constants, List.mem_cons, List.not_mem_nil, or_false]
  tauto

lemma func_lit : ∀ f ∈ functions, firstLit funcWords f.toList = some (f, []) := by decide

lemma builtin_lit : ∀ b ∈ constants, firstLit funcWords b.toList = none ∧ firstLit builtinWords b.toList = some (b, []) := by decide

/-! ## Numbers -/

lemma signOpt_sign (sg s : List Char) (h : sg = [] ∨ sg = ['+'] ∨ sg = ['-']) (hs : ∀ c, s.head? = some c → c ≠ '+' ∧ c ≠ '-') :
    signOpt (sg ++ s) = (sg, s) := by
  rcases h with rfl | rfl | rfl
  · cases s with
    | nil => rfl
    | cons c s =>
      obtain ⟨h1, h2⟩ := hs c rfl
      simp only [List.nil_append]
      unfold signOpt
      split
      · rename_i h; simp at h; exact absurd h.1 h1
      · rename_i h; simp at h; exact absurd h.1 h2
      · rfl
  · rfl
  · rfl

lemma digits_head {d rest : List Char} (h : Digits Char.isDigit d) : ∃ c w, d ++ rest = c :: w ∧ c.isDigit = true := by
  obtain ⟨h1, h2⟩ := h
  cases d with
  | nil => exact absurd rfl h1
  | cons c w => exact ⟨c, w ++ rest, rfl, h2 c (by simp)⟩

lemma digit_not_sign {c : Char} (h : c.isDigit = true) : c ≠ '+' ∧ c ≠ '-' ∧ c ≠ '.' := by
  refine ⟨?_, ?_, ?_⟩ <;> rintro rfl <;> revert h <;> decide

lemma lexExp_stop {s : List Char} (h : Stop s) : lexExp s = none := by
  cases s with
  | nil => rfl
  | cons c s =>
    have hc := h c rfl
    have : ¬ (c = 'e' ∨ c = 'E') := by rintro (rfl | rfl) <;> revert hc <;> decide
    simp [lexExp, this]

/-- What can follow the mantissa of a numeral. -/
def ExpTail (ex : List Char) : Prop :=
  ex = [] ∨ ∃ e sg d, (e = 'e' ∨ e = 'E') ∧ (sg = [] ∨ sg = ['+'] ∨ sg = ['-']) ∧ Digits Char.isDigit d ∧ ex = e :: sg ++ d

lemma withExp_tail (w ex rest : List Char) (h : ExpTail ex) (hr : Stop rest) : withExp w (ex ++ rest) = (w ++ ex, rest) := by
  rcases h with rfl | ⟨e, sg, d, he, hs, hd, rfl⟩
  · simp [withExp, lexExp_stop hr]
  · have h1 : signOpt (sg ++ (d ++ rest)) = (sg, d ++ rest) := by
      refine signOpt_sign _ _ hs fun c hc => ?_
      obtain ⟨c', w', h1, h2⟩ := digits_head (rest := rest) hd
      rw [h1] at hc
      obtain rfl : c' = c := by simpa using hc
      exact ⟨(digit_not_sign h2).1, (digit_not_sign h2).2.1⟩
    have h2 := take_word Char.isDigit d rest hd.2 hr.digit
    have h3 : lexExp (e :: sg ++ d ++ rest) = some (e :: sg ++ d, rest) := by
      rw [show e :: sg ++ d ++ rest = e :: (sg ++ (d ++ rest)) by simp]
      simp only [lexExp, if_pos he, h1, h2.1, h2.2, if_neg hd.1]
    rw [withExp, h3]

lemma tail_head {ex rest : List Char} (h : ExpTail ex) (hr : Stop rest) :
    ∀ c, (ex ++ rest).head? = some c → c.isDigit = false ∧ c ≠ '.' := by
  intro c hc
  rcases h with rfl | ⟨e, sg, d, he, hs, hd, rfl⟩
  · rw [List.nil_append] at hc
    refine ⟨hr.digit c hc, ?_⟩
    rintro rfl
    have := hr _ hc
    revert this
    decide
  · obtain rfl : e = c := by simpa using hc
    rcases he with rfl | rfl <;> decide

lemma lexUnsigned_numeral (mant ex rest : List Char)
    (hm : Digits Char.isDigit mant ∨ (∃ a, Digits Char.isDigit a ∧ mant = a ++ ['.']) ∨
      (∃ a b, Digits Char.isDigit a ∧ Digits Char.isDigit b ∧ mant = a ++ '.' :: b) ∨ (∃ b, Digits Char.isDigit b ∧ mant = '.' :: b))
    (he : ExpTail ex) (hr : Stop rest) : lexUnsigned (mant ++ (ex ++ rest)) = some (mant ++ ex, rest) := by
  have htail := tail_head he hr
  have hdig : ∀ c, (ex ++ rest).head? = some c → c.isDigit = false := fun c hc => (htail c hc).1
  have hpoint : ∀ (b : List Char), ∀ c, ('.' :: b).head? = some c → c.isDigit = false := by
    intro b c hc
    obtain rfl : '.' = c := by simpa using hc
    decide
  rcases hm with hd | ⟨a, ha, rfl⟩ | ⟨a, b, ha, hb, rfl⟩ | ⟨b, hb, rfl⟩
  · have h1 := take_word Char.isDigit mant (ex ++ rest) hd.2 hdig
    unfold lexUnsigned
    rw [h1.1, h1.2, if_neg hd.1]
    have h2 := withExp_tail mant ex rest he hr
    split
    · rename_i s' heq
      exact absurd rfl ((htail '.' (by rw [heq]; rfl)).2)
    · rw [h2]
  · have h1 := take_word Char.isDigit a ('.' :: (ex ++ rest)) ha.2 (hpoint _)
    have h3 := take_word Char.isDigit [] (ex ++ rest) (by simp) hdig
    rw [List.nil_append] at h3
    unfold lexUnsigned
    rw [show a ++ ['.'] ++ (ex ++ rest) = a ++ '.' :: (ex ++ rest) by simp, h1.1, h1.2, if_neg ha.1]
    simp only [h3.1, h3.2, withExp_tail _ ex rest he hr]
  · have h1 := take_word Char.isDigit a ('.' :: (b ++ (ex ++ rest))) ha.2 (hpoint _)
    have h3 := take_word Char.isDigit b (ex ++ rest) hb.2 hdig
    unfold lexUnsigned
    rw [show a ++ '.' :: b ++ (ex ++ rest) = a ++ '.' :: (b ++ (ex ++ rest)) by simp, h1.1, h1.2, if_neg ha.1]
    simp only [h3.1, h3.2, withExp_tail _ ex rest he hr]
  · have h3 := take_word Char.isDigit b (ex ++ rest) hb.2 hdig
    have h1 : ('.' :: (b ++ (ex ++ rest))).takeWhile Char.isDigit = [] := by
      rw [List.takeWhile_cons, if_neg (by decide)]
    unfold lexUnsigned
    rw [show '.' :: b ++ (ex ++ rest) = '.' :: (b ++ (ex ++ rest)) by simp, h1, if_pos rfl]
    simp only [h3.1, h3.2, if_neg hb.1, withExp_tail _ ex rest he hr]

lemma mantissa_head {mant rest : List Char} (hm : Digits Char.isDigit mant ∨ (∃ a, Digits Char.isDigit a ∧ mant = a ++ ['.']) ∨
      (∃ a b, Digits Char.isDigit a ∧ Digits Char.isDigit b ∧ mant = a ++ '.' :: b) ∨ (∃ b, Digits Char.isDigit b ∧ mant = '.' :: b)) :
    ∃ c w, mant ++ rest = c :: w ∧ (c.isDigit = true ∨ c = '.') := by
  rcases hm with hd | ⟨a, ha, rfl⟩ | ⟨a, b, ha, hb, rfl⟩ | ⟨b, hb, rfl⟩
  · obtain ⟨c, w, h1, h2⟩ := digits_head (rest := rest) hd
    exact ⟨c, w, h1, Or.inl h2⟩
  · obtain ⟨c, w, h1, h2⟩ := digits_head (rest := ['.'] ++ rest) ha
    exact ⟨c, w, by rw [List.append_assoc, h1], Or.inl h2⟩
  · obtain ⟨c, w, h1, h2⟩ := digits_head (rest := '.' :: b ++ rest) ha
    exact ⟨c, w, by rw [List.append_assoc, h1], Or.inl h2⟩
  · exact ⟨'.', b ++ rest, rfl, Or.inr rfl⟩

lemma lexNumber_numeral (w rest : List Char) (h : Numeral Char.isDigit w) (hr : Stop rest) : lexNumber (w ++ rest) = some (w, rest) := by
  obtain ⟨sg, mant, ex, rfl, hs, hm, he⟩ := h
  have h1 : signOpt (sg ++ (mant ++ (ex ++ rest))) = (sg, mant ++ (ex ++ rest)) := by
    refine signOpt_sign _ _ hs fun c hc => ?_
    obtain ⟨c', w', h1, h2⟩ := mantissa_head (rest := ex ++ rest) hm
    rw [h1] at hc
    obtain rfl : c' = c := by simpa using hc
    rcases h2 with h2 | rfl
    · exact ⟨(digit_not_sign h2).1, (digit_not_sign h2).2.1⟩
    · decide
  rw [show sg ++ mant ++ ex ++ rest = sg ++ (mant ++ (ex ++ rest)) by simp, lexNumber, h1]
  simp only [lexUnsigned_numeral mant ex rest hm he hr, List.append_assoc]

/-- The first character of a numeral. -/
lemma numeral_head {w : List Char} (h : Numeral Char.isDigit w) : ∃ c v, w = c :: v ∧ (c.isDigit = true ∨ c ∈ ['.', '+', '-']) := by
  obtain ⟨sg, mant, ex, rfl, hs, hm, he⟩ := h
  obtain ⟨c, v, h1, h2⟩ := mantissa_head (rest := ex) hm
  rcases hs with rfl | rfl | rfl
  · refine ⟨c, v, by rw [List.nil_append, h1], ?_⟩
    rcases h2 with h2 | rfl
    · exact Or.inl h2
    · exact Or.inr (by simp)
  · exact ⟨'+', mant ++ ex, by simp, Or.inr (by simp)⟩
  · exact ⟨'-', mant ++ ex, by simp, Or.inr (by simp)⟩

lemma numeral_no_j {w : List Char} (h : Numeral Char.isDigit w) : 'j' ∉ w := by
  have hd : ∀ d, Digits Char.isDigit d → 'j' ∉ d := fun d hd hj => absurd (hd.2 _ hj) (by decide)
  have hsg : ∀ sg : List Char, (sg = [] ∨ sg = ['+'] ∨ sg = ['-']) → 'j' ∉ sg := by
    rintro sg (rfl | rfl | rfl) <;> decide
  obtain ⟨sg, mant, ex, rfl, hs, hm, he⟩ := h
  simp only [List.mem_append, not_or]
  refine ⟨⟨hsg sg hs, ?_⟩, ?_⟩
  · rcases hm with h | ⟨a, ha, rfl⟩ | ⟨a, b, ha, hb, rfl⟩ | ⟨b, hb, rfl⟩
    · exact hd _ h
    · simp [hd a ha]
    · simp [hd a ha, hd b hb]
    · simp [hd b hb]
  · rcases he with rfl | ⟨e, sg, d, he, hs, hdd, rfl⟩
    · simp
    · rcases he with rfl | rfl <;> simp [hsg sg hs, hd d hdd]

lemma funcs_not_number {s : List Char} {c : Char} {v : List Char} (hs : s = c :: v) (hc : c.isDigit = true ∨ c ∈ ['.', '+', '-', '(']) :
    firstLit funcWords s = none ∧ lexName s = none := by
  have hn : c.isAlpha = false := by
    rcases hc with h | h
    · by_contra hc
      simp only [Bool.not_eq_false] at hc
      simp only [Char.isAlpha, Char.isUpper, Char.isLower, Char.isDigit, Bool.or_eq_true, Bool.and_eq_true, decide_eq_true_eq, UInt32.le_iff_toNat_le, ge_iff_le] at h hc
      have e1 : '0'.val.toNat = 48 := rfl
      have e2 : '9'.val.toNat = 57 := rfl
      have e3 : 'A'.val.toNat = 65 := rfl
      have e4 : 'Z'.val.toNat = 90 := rfl
      have e5 : 'a'.val.toNat = 97 := rfl
      have e6 : 'z'.val.toNat = 122 := rfl
      rw [e1, e2] at h
      rw [e3, e4, e5, e6] at hc
      omega
    · simp only [List.mem_cons, List.not_mem_nil, or_false] at h
      rcases h with rfl | rfl | rfl | rfl <;> decide
  have hu : c ≠ '_' := by
    rcases hc with h | h
    · rintro rfl; revert h; decide
    · simp only [List.mem_cons, List.not_mem_nil, or_false] at h
      rcases h with rfl | rfl | rfl | rfl <;> decide
  constructor
  · rw [firstLit_none]
    intro p hp hpre
    have : ∀ p ∈ funcWords, ∃ d w, p.toList = d :: w ∧ d.isAlpha = true := by
      simp only [funcWords, List.mem_cons, List.not_mem_nil, or_false]
      rintro p (rfl | rfl | rfl | rfl | rfl | rfl | rfl | rfl) <;> exact ⟨_, _, rfl, by decide⟩
    obtain ⟨d, w, h1, h2⟩ := this p hp
    rw [h1, hs, List.cons_prefix_cons] at hpre
    rw [hpre.1, hn] at h2
    cases h2
  · rw [hs, lexName, if_neg]
    simp [identStart, hn, hu]

lemma builtins_not {s : List Char} {c : Char} {v : List Char} (hs : s = c :: v) (hc : c.isDigit = true ∨ c ∈ ['.', '+', '-', '('])
    (hj : ∀ d, v.head? = some d → d ≠ 'j') : firstLit builtinWords s = none := by
  rw [firstLit_none]
  intro p hp hpre
  have hlet : ∀ d : Char, d.isAlpha = true → c ≠ d := by
    rintro d hd rfl
    have := (funcs_not_number (s := c :: v) rfl hc).2
    simp [lexName, identStart, hd] at this
  simp only [builtinWords, List.mem_cons, List.not_mem_nil, or_false] at hp
  have hcase : ∀ (d : Char) (w : List Char), p.toList = d :: w → d.isAlpha = true → False := by
    intro d w h1 h2
    rw [h1, hs, List.cons_prefix_cons] at hpre
    exact hlet d h2 hpre.1.symm
  rcases hp with rfl | rfl | rfl | rfl | rfl | rfl
  · exact hcase 'e' _ rfl (by decide)
  · exact hcase 'h' _ rfl (by decide)
  · rw [show ("1j" : String).toList = ['1', 'j'] from rfl, hs, List.cons_prefix_cons] at hpre
    obtain ⟨-, t, ht⟩ := hpre
    exact hj 'j' (by rw [← ht]; rfl) rfl
  · exact hcase 'p' _ rfl (by decide)
  · exact hcase 'h' _ rfl (by decide)
  · exact hcase 'c' _ rfl (by decide)

/-! ## One operand -/

lemma operand_number (r : Bool) (s : String) (rest : List Char) (h : Numeral Char.isDigit s.toList) (hr : Stop rest) :
    lexOperand r (s.toList ++ rest) = some (.number s, .operator r, rest) := by
  obtain ⟨c, v, hw, hc⟩ := numeral_head h
  have hc' : c.isDigit = true ∨ c ∈ ['.', '+', '-', '('] := by
    rcases hc with hc | hc
    · exact Or.inl hc
    · right
      simp only [List.mem_cons, List.not_mem_nil, or_false] at hc ⊢
      tauto
  have hs : s.toList ++ rest = c :: (v ++ rest) := by rw [hw]; rfl
  obtain ⟨h1, h2⟩ := funcs_not_number hs hc'
  have h3 : firstLit builtinWords (s.toList ++ rest) = none := by
    refine builtins_not hs hc' fun d hd => ?_
    cases v with
    | nil =>
      rw [List.nil_append] at hd
      rintro rfl
      have := hr _ hd
      revert this
      decide
    | cons e v =>
      obtain rfl : e = d := by simpa using hd
      rintro rfl
      exact numeral_no_j h (by rw [hw]; simp)
  simp only [lexOperand, h1, h2, h3, lexNumber_numeral _ _ h hr, String.ofList_toList]

lemma operand_func (r : Bool) (f : String) (rest : List Char) (h : f ∈ functions) (hr : Stop rest) :
    lexOperand r (f.toList ++ rest) = some (.func f, .afterFunc r, rest) := by
  have h1 := firstLit_word (w := f.toList) funcWords_ident hr
  rw [func_lit f h] at h1
  simp only [lexOperand, h1, Option.map_some, List.nil_append]

lemma operand_builtin (r : Bool) (b : String) (rest : List Char) (h : b ∈ constants) (hr : Stop rest) :
    lexOperand r (b.toList ++ rest) = some (.builtin b, .operator r, rest) := by
  have h1 := firstLit_word (w := b.toList) funcWords_ident hr
  have h2 := firstLit_word (w := b.toList) builtinWords_ident hr
  rw [(builtin_lit b h).1] at h1
  rw [(builtin_lit b h).2] at h2
  simp only [lexOperand, h1, h2, Option.map_some, Option.map_none, List.nil_append]

lemma identifier_chars {w : List Char} (h : Identifier w) : ∃ c v, w = c :: v ∧ identStart c = true ∧ ∀ d ∈ v, identChar d = true := by
  obtain ⟨c, v, rfl, hc, hv⟩ := h
  exact ⟨c, v, rfl, by simpa [identStart] using hc, fun d hd => by simpa [identChar] using hv d hd⟩

lemma lexName_word {w rest : List Char} (h : Identifier w) (hr : Stop rest) : lexName (w ++ rest) = some (w, rest) := by
  obtain ⟨c, v, rfl, hc, hv⟩ := identifier_chars h
  have h1 := take_word identChar v rest hv hr.ident
  simp only [List.cons_append, lexName, if_pos hc, h1.1, h1.2]

lemma operand_name (r : Bool) (s : String) (rest : List Char) (h : Words (.name s)) (hu : Usable (.name s)) (hr : Stop rest) :
    lexOperand r (s.toList ++ rest) = some (.name s, .operator r, rest) := by
  have h1 := firstLit_word (w := s.toList) funcWords_ident hr
  have h2 := firstLit_word (w := s.toList) builtinWords_ident hr
  rw [firstLit_none.2 fun p hp => hu p (List.mem_append_left _ (func_mem.1 hp))] at h1
  rw [firstLit_none.2 fun p hp => hu p (List.mem_append_right _ (builtin_mem.1 hp))] at h2
  have h3 : ¬ (r = false ∧ s.toList = "sum".toList) := fun hc => h.2.2.2 (String.toList_inj.1 hc.2)
  simp only [lexOperand, h1, h2, Option.map_none, lexName_word h.1 hr, if_neg h3, String.ofList_toList]

lemma operand_sum (rest : List Char) (hr : Stop rest) : lexOperand false ("sum".toList ++ rest) = some (.kwSum, .afterSum, rest) := by
  have h1 := firstLit_word (w := "sum".toList) funcWords_ident hr
  have h2 := firstLit_word (w := "sum".toList) builtinWords_ident hr
  rw [show firstLit funcWords "sum".toList = none by decide] at h1
  rw [show firstLit builtinWords "sum".toList = none by decide] at h2
  have h3 : Identifier "sum".toList := ⟨'s', ['u', 'm'], rfl, by decide, by decide⟩
  simp only [lexOperand, h1, h2, Option.map_none, lexName_word h3 hr, and_self, if_true]

lemma operand_lpar (r : Bool) (rest : List Char) : lexOperand r ('(' :: rest) = some (.lpar, .operand r, rest) := by
  have h1 := funcs_not_number (s := '(' :: rest) rfl (Or.inr (by simp))
  have h2 : firstLit builtinWords ('(' :: rest) = none := by
    rw [firstLit_none]
    intro p hp hpre
    simp only [builtinWords, List.mem_cons, List.not_mem_nil, or_false] at hp
    have hcase : ∀ (d : Char) (w : List Char), p.toList = d :: w → d ≠ '(' → False := by
      intro d w h1 h2
      rw [h1, List.cons_prefix_cons] at hpre
      exact h2 hpre.1
    rcases hp with rfl | rfl | rfl | rfl | rfl | rfl <;> exact hcase _ _ rfl (by decide)
  have h3 : lexNumber ('(' :: rest) = none := rfl
  simp only [lexOperand, h1.1, h1.2, h2, h3]

/-! ## Token sequences -/

/-- The mode after a token, where the grammar allows it. -/
def next : Mode → Tok → Option Mode
  | .start, .kwEps => some .assign
  | .start, .kwN => some .assign
  | .assign, .eq => some .rhs
  | .rhs, .kkr => some .kkrPlus
  | .rhs, .func _ => some (.afterFunc false)
  | .rhs, .builtin _ => some (.operator false)
  | .rhs, .name _ => some (.operator false)
  | .rhs, .number _ => some (.operator false)
  | .rhs, .kwSum => some .afterSum
  | .rhs, .lpar => some (.operand false)
  | .operand r, .func _ => some (.afterFunc r)
  | .operand r, .builtin _ => some (.operator r)
  | .operand r, .name _ => some (.operator r)
  | .operand r, .number _ => some (.operator r)
  | .operand false, .kwSum => some .afterSum
  | .operand r, .lpar => some (.operand r)
  | .operator r, .pow => some (.operand r)
  | .operator r, .star => some (.operand r)
  | .operator r, .slash => some (.operand r)
  | .operator r, .plus => some (.operand r)
  | .operator r, .minus => some (.operand r)
  | .operator r, .rpar => some (.operator r)
  | .operator _, .rbrk => some (.operator false)
  | .afterFunc r, .lpar => some (.operand r)
  | .afterSum, .lbrk => some (.operand true)
  | .kkrPlus, .plus => some .kkrJ
  | .kkrJ, .oneJ => some .kkrStar
  | .kkrStar, .star => some (.operand false)
  | _, _ => none

/-- Token sequences that follow the modes. -/
def Path : Mode → List Tok → Prop
  | _, [] => True
  | m, t :: ts => ∃ m', next m t = some m' ∧ Path m' ts

/-- Inside `sum[…]` or not. -/
def inside : NT → Bool
  | .expression r | .term r | .factor r | .power r => r

lemma path_nt {n : NT} {u : List Tok} {t : Tree} (h : D n u t) (rest : List Tok) :
    Path (.operator (inside n)) rest → Path (.operand (inside n)) (u ++ rest) := by
  induction h generalizing rest with
  | exprTerm _ ih => exact ih rest
  | exprAdd _ _ h1 h2 => intro hp; rw [List.append_assoc]; exact h1 _ ⟨_, rfl, h2 _ hp⟩
  | exprSub _ _ h1 h2 => intro hp; rw [List.append_assoc]; exact h1 _ ⟨_, rfl, h2 _ hp⟩
  | termFactor _ ih => exact ih rest
  | termMul _ _ h1 h2 => intro hp; rw [List.append_assoc]; exact h1 _ ⟨_, rfl, h2 _ hp⟩
  | termDiv _ _ h1 h2 => intro hp; rw [List.append_assoc]; exact h1 _ ⟨_, rfl, h2 _ hp⟩
  | factorPower _ ih => exact ih rest
  | factorPow _ _ h1 h2 => intro hp; rw [List.append_assoc]; exact h1 _ ⟨_, rfl, h2 _ hp⟩
  | @powParen r _ _ _ ih =>
    intro hp
    simp only [List.cons_append, List.append_assoc, List.nil_append]
    exact ⟨.operand r, by cases r <;> rfl, ih _ ⟨_, rfl, hp⟩⟩
  | @powFunc r _ _ _ _ ih =>
    intro hp
    simp only [List.cons_append, List.append_assoc, List.nil_append]
    exact ⟨.afterFunc r, by cases r <;> rfl, .operand r, rfl, ih _ ⟨_, rfl, hp⟩⟩
  | powSum _ ih =>
    intro hp
    simp only [List.cons_append, List.append_assoc, List.nil_append]
    exact ⟨.afterSum, rfl, .operand true, rfl, ih _ ⟨_, rfl, hp⟩⟩
  | powSingle => exact fun hp => ⟨_, rfl, hp⟩
  | powParam => exact fun hp => ⟨_, rfl, hp⟩
  | powNumber => exact fun hp => ⟨_, rfl, hp⟩
  | powBuiltin => exact fun hp => ⟨_, rfl, hp⟩

lemma path_rhs {u : List Tok} (h : Path (.operand false) u) : Path .rhs u := by
  cases u with
  | nil => trivial
  | cons t ts =>
    obtain ⟨m', h1, h2⟩ := h
    refine ⟨m', ?_, h2⟩
    cases t <;> simp_all [next]

lemma path_assign {u : List Tok} {a : Assignment} (h : DAssign u a) : Path .start u := by
  have hr : ∀ v r, DRhs v r → Path .rhs v := by
    intro v r h
    cases h with
    | expr h =>
      have := path_nt h [] trivial
      rw [List.append_nil] at this
      exact path_rhs this
    | kkr h =>
      have := path_nt h [] trivial
      rw [List.append_nil] at this
      exact ⟨_, rfl, _, rfl, _, rfl, _, rfl, this⟩
  cases h with
  | eps h => exact ⟨_, rfl, _, rfl, hr _ _ h⟩
  | n h => exact ⟨_, rfl, _, rfl, hr _ _ h⟩

/-- Which texts can follow in a mode. -/
def TailOk : Mode → List Char → Prop
  | .operator _, s | .afterFunc _, s | .afterSum, s => Stop s
  | .operand _, s => s.head? ≠ some '*'
  | _, _ => True

lemma written_step {m m' : Mode} {t : Tok} (rest : List Char) (h : next m t = some m') (hw : Words t) (hu : Usable t)
    (ht : TailOk m' rest) : lexStep m (written t ++ rest) = some (t, m', rest) := by
  have hop : ∀ r, next (.operand r) t = some m' → lexOperand r (written t ++ rest) = some (t, m', rest) := by
    intro r h
    cases t with
    | func f => obtain rfl := Option.some.inj (show some (Mode.afterFunc r) = some m' by cases r <;> exact h)
                exact operand_func r f rest hw ht
    | builtin b => obtain rfl := Option.some.inj (show some (Mode.operator r) = some m' by cases r <;> exact h)
                   exact operand_builtin r b rest hw ht
    | name w => obtain rfl := Option.some.inj (show some (Mode.operator r) = some m' by cases r <;> exact h)
                exact operand_name r w rest hw hu ht
    | number w => obtain rfl := Option.some.inj (show some (Mode.operator r) = some m' by cases r <;> exact h)
                  exact operand_number r w rest hw ht
    | lpar => obtain rfl := Option.some.inj (show some (Mode.operand r) = some m' by cases r <;> exact h)
              exact operand_lpar r rest
    | kwSum =>
      cases r with
      | true => cases h
      | false =>
        obtain rfl := Option.some.inj h
        exact operand_sum rest ht
    | _ => cases r <;> cases h
  cases m with
  | operand r => exact hop r h
  | rhs =>
    by_cases hk : t = .kkr
    · subst hk
      obtain rfl := Option.some.inj h
      simp only [lexStep, written]
      rw [show ['<', 'k', 'k', 'r', '>'] = "<kkr>".toList from rfl, lit_append]
    · have h1 : next (.operand false) t = some m' := by cases t <;> first | exact h | exact absurd rfl hk
      have h2 := hop false h1
      have h3 : lit "<kkr>".toList (written t ++ rest) = none := by
        by_contra hne
        have hpre : ∃ q, written t ++ rest = '<' :: q := by
          simp only [lit, ite_eq_right_iff, not_forall] at hne
          obtain ⟨hp, -⟩ := hne
          obtain ⟨q, hq⟩ := List.isPrefixOf_iff_prefix.1 hp
          exact ⟨_, hq.symm⟩
        obtain ⟨q, hq⟩ := hpre
        rw [hq] at h2
        have : lexOperand false ('<' :: q) = none := by
          have e1 : firstLit funcWords ('<' :: q) = none := by
            rw [firstLit_none]
            intro p hp hpre
            simp only [funcWords, List.mem_cons, List.not_mem_nil, or_false] at hp
            rcases hp with rfl | rfl | rfl | rfl | rfl | rfl | rfl | rfl <;>
              exact absurd (List.cons_prefix_cons.1 hpre).1 (by decide)
          have e2 : firstLit builtinWords ('<' :: q) = none := by
            rw [firstLit_none]
            intro p hp hpre
            simp only [builtinWords, List.mem_cons, List.not_mem_nil, or_false] at hp
            rcases hp with rfl | rfl | rfl | rfl | rfl | rfl <;> exact absurd (List.cons_prefix_cons.1 hpre).1 (by decide)
          have e3 : lexName ('<' :: q) = none := rfl
          have e4 : lexNumber ('<' :: q) = none := rfl
          simp only [lexOperand, e1, e2, e3, e4]
          rfl
        rw [this] at h2
        cases h2
      simp only [lexStep, h3, h2]
  | operator r =>
    cases t with
    | star =>
      obtain rfl := Option.some.inj h
      simp only [lexStep, written, List.cons_append, List.nil_append]
      cases rest with
      | nil => rfl
      | cons c q =>
        have hc : c ≠ '*' := fun hc => ht (by rw [hc]; rfl)
        unfold lexOperator
        split <;> simp_all
    | _ => first
      | (cases h; done)
      | (cases h; rfl)
  | start =>
    cases t with
    | kwEps => obtain rfl := Option.some.inj h; rfl
    | kwN => obtain rfl := Option.some.inj h; rfl
    | _ => cases h
  | assign => cases t with
    | eq => obtain rfl := Option.some.inj h; rfl
    | _ => cases h
  | afterFunc r => cases t with
    | lpar => obtain rfl := Option.some.inj h; rfl
    | _ => cases h
  | afterSum => cases t with
    | lbrk => obtain rfl := Option.some.inj h; rfl
    | _ => cases h
  | kkrPlus => cases t with
    | plus => obtain rfl := Option.some.inj h; rfl
    | _ => cases h
  | kkrJ => cases t with
    | oneJ => obtain rfl := Option.some.inj h; rfl
    | _ => cases h
  | kkrStar => cases t with
    | star => obtain rfl := Option.some.inj h; rfl
    | _ => cases h

lemma drop_blanks {b s : List Char} (hb : ∀ c ∈ b, c = ' ' ∨ c = '\t') (hs : ∀ c, s.head? = some c → blank c = false) :
    (b ++ s).dropWhile blank = s :=
  (take_word blank b s (fun c hc => by rcases hb c hc with rfl | rfl <;> rfl) hs).2

/-- No token begins with a blank or is empty. -/
lemma written_head (t : Tok) (hw : Words t) (rest : List Char) : ∃ c v, written t ++ rest = c :: v ∧ blank c = false := by
  have hdig : ∀ c : Char, c.isDigit = true → blank c = false := by
    intro c hc
    by_contra hb
    simp only [blank, Bool.not_eq_false, Bool.or_eq_true, beq_iff_eq] at hb
    rcases hb with rfl | rfl <;> revert hc <;> decide
  cases t with
  | func s =>
    simp only [Words, functions, List.mem_cons, List.not_mem_nil, or_false] at hw
    rcases hw with rfl | rfl | rfl | rfl | rfl | rfl | rfl | rfl <;> exact ⟨_, _, rfl, by decide⟩
  | builtin s =>
    simp only [Words, constants, List.mem_cons, List.not_mem_nil, or_false] at hw
    rcases hw with rfl | rfl | rfl | rfl | rfl | rfl <;> exact ⟨_, _, rfl, by decide⟩
  | name s =>
    obtain ⟨c, v, h1, h2, -⟩ := identifier_chars hw.1
    refine ⟨c, v ++ rest, by simp only [written, h1, List.cons_append], ?_⟩
    by_contra hb
    simp only [blank, Bool.not_eq_false, Bool.or_eq_true, beq_iff_eq] at hb
    rcases hb with rfl | rfl <;> revert h2 <;> decide
  | number s =>
    obtain ⟨c, v, h1, h2⟩ := numeral_head hw
    refine ⟨c, v ++ rest, by simp only [written, h1, List.cons_append], ?_⟩
    rcases h2 with h2 | h2
    · exact hdig c h2
    · simp only [List.mem_cons, List.not_mem_nil, or_false] at h2
      rcases h2 with rfl | rfl | rfl <;> decide
  | _ => exact ⟨_, _, rfl, by decide⟩

lemma tail_ok {m : Mode} {ts : List Tok} {s : List Char} (hp : Path m ts) (hw : ∀ t ∈ ts, Words t) (ht : Text ts s) : TailOk m s := by
  have hblank : ∀ (b : List Char) (q : List Char), (∀ c ∈ b, c = ' ' ∨ c = '\t') → ∀ c, (b ++ q).head? = some c →
      (c = ' ' ∨ c = '\t') ∨ (b = [] ∧ q.head? = some c) := by
    intro b q hb c hc
    cases b with
    | nil => exact Or.inr ⟨rfl, hc⟩
    | cons d b =>
      obtain rfl : d = c := by simpa using hc
      exact Or.inl (hb _ (by simp))
  cases ht with
  | nil hb =>
    have : ∀ c, s.head? = some c → c = ' ' ∨ c = '\t' := by
      intro c hc
      rcases hblank s [] hb c (by simpa using hc) with h | ⟨-, h⟩
      · exact h
      · cases h
    have hstop : Stop s := fun c hc => by rcases this c hc with rfl | rfl <;> decide
    cases m <;> first
      | exact hstop
      | trivial
      | (intro hc; rcases this _ hc with h | h <;> exact absurd h (by decide))
  | @cons b t ts s hb hs =>
    obtain ⟨m', hn, -⟩ := hp
    have hstop : (∀ c, (written t ++ s).head? = some c → c ∈ [' ', '\t', '*', '/', '+', '-', ')', ']', '(', '[']) →
        Stop (b ++ written t ++ s) := by
      intro h c hc
      rw [List.append_assoc] at hc
      rcases hblank b _ hb c hc with h' | ⟨-, h'⟩
      · rcases h' with rfl | rfl <;> decide
      · exact h c h'
    cases m with
    | operator r =>
      refine hstop fun c hc => ?_
      cases t <;> first
        | (cases hn; done)
        | (obtain rfl := Option.some.inj hc; decide)
    | afterFunc r =>
      refine hstop fun c hc => ?_
      cases t <;> first
        | (cases hn; done)
        | (obtain rfl := Option.some.inj hc; decide)
    | afterSum =>
      refine hstop fun c hc => ?_
      cases t <;> first
        | (cases hn; done)
        | (obtain rfl := Option.some.inj hc; decide)
    | operand r =>
      intro hc
      rw [List.append_assoc] at hc
      rcases hblank b _ hb _ hc with h' | ⟨-, h'⟩
      · rcases h' with h | h <;> exact absurd h (by decide)
      · have hwt := hw t (by simp)
        cases t with
        | func f =>
          simp only [Words, functions, List.mem_cons, List.not_mem_nil, or_false] at hwt
          rcases hwt with rfl | rfl | rfl | rfl | rfl | rfl | rfl | rfl <;> exact absurd (Option.some.inj h') (by decide)
        | builtin f =>
          simp only [Words, constants, List.mem_cons, List.not_mem_nil, or_false] at hwt
          rcases hwt with rfl | rfl | rfl | rfl | rfl | rfl <;> exact absurd (Option.some.inj h') (by decide)
        | name w =>
          obtain ⟨c, v, h1, h2, -⟩ := identifier_chars hwt.1
          simp only [written, h1, List.cons_append, List.head?_cons] at h'
          obtain rfl := Option.some.inj h'
          revert h2
          decide
        | number w =>
          obtain ⟨c, v, h1, h2⟩ := numeral_head hwt
          simp only [written, h1, List.cons_append, List.head?_cons] at h'
          obtain rfl := Option.some.inj h'
          rcases h2 with h2 | h2 <;> revert h2 <;> decide
        | lpar => exact absurd (Option.some.inj h') (by decide)
        | kwSum => exact absurd (Option.some.inj h') (by decide)
        | _ => cases r <;> cases hn
    | _ => trivial

lemma lexes_text {ts : List Tok} {s : List Char} (ht : Text ts s) : ∀ {m : Mode}, Path m ts → (∀ t ∈ ts, Words t) → (∀ t ∈ ts, Usable t) →
    Lexes m s ts := by
  induction ht with
  | nil hb =>
    intro m _ _ _
    exact .stop (by simpa using drop_blanks (s := []) hb (by simp))
  | @cons b t ts s hb hs ih =>
    intro m hp hw hu
    obtain ⟨m', hn, hp'⟩ := hp
    have hw' : ∀ t ∈ ts, Words t := fun t h => hw t (by simp [h])
    have hstep := written_step s hn (hw t (by simp)) (hu t (by simp)) (tail_ok hp' hw' hs)
    refine .tok (m' := m') (r := s) ?_ (ih hp' hw' fun t h => hu t (by simp [h]))
    rw [List.append_assoc, drop_blanks hb, hstep]
    obtain ⟨c, v, h1, h2⟩ := written_head t (hw t (by simp)) s
    intro d hd
    rw [h1] at hd
    obtain rfl : c = d := by simpa using hd
    exact h2

lemma lexes_det {m : Mode} {s : List Char} {ts ts' : List Tok} (h : Lexes m s ts) (h' : Lexes m s ts') : ts = ts' := by
  have hnil : ∀ m, lexStep m [] = none := by intro m; cases m <;> rfl
  induction h generalizing ts' with
  | stop h =>
    cases h' with
    | stop => rfl
    | tok h1 => rw [h, hnil] at h1; cases h1
  | tok h1 _ ih =>
    cases h' with
    | stop h => rw [h, hnil] at h1; cases h1
    | tok h1' h2' =>
      rw [h1] at h1'
      simp only [Option.some.injEq, Prod.mk.injEq] at h1'
      obtain ⟨rfl, rfl, rfl⟩ := h1'
      rw [ih h2']

/-- C97: every text has at most one reading. -/
theorem C97_unique (s : List Char) (a a' : Assignment) (h : ReadsText s a) (h' : ReadsText s a') : a = a' := by
  obtain ⟨ts, h1, h2⟩ := h
  obtain ⟨ts', h1', h2'⟩ := h'
  rw [lexes_det h1' h1] at h2'
  exact PyElli.Formula.C58_formula_unambiguous ts a a' h2 h2'

/-- C97: a formula written as text, with any blanks between its words or none, is read as that formula and nothing else. Missing: names
that begin with the name of a function or constant (`C97_names_refuted`). -/
theorem C97_text_partial (ts : List Tok) (a : Assignment) (h : DAssign ts a) (s : List Char) (hs : Text ts s) (hw : ∀ t ∈ ts, Words t)
    (hu : ∀ t ∈ ts, Usable t) (a' : Assignment) : ReadsText s a' ↔ a' = a := by
  have h1 : ReadsText s a := ⟨ts, lexes_text hs (path_assign h) hw hu, h⟩
  exact ⟨fun h' => C97_unique s a' a h' h1, fun h' => h' ▸ h1⟩

/-- C97: writing an expression with the usual minimal brackets, as text with or without blanks, and reading it gives it back. -/
theorem C97_print_partial (isEps : Bool) (t : Tree) (h : Spec.Formula.WellFormed false t) (s : List Char)
    (hs : Text ((if isEps then .kwEps else .kwN) :: .eq :: Spec.Formula.print 0 t) s) (hw : ∀ x ∈ Spec.Formula.print 0 t, Words x)
    (hu : ∀ x ∈ Spec.Formula.print 0 t, Usable x) (a : Assignment) :
    ReadsText s a ↔ a = if isEps then .eps (.expr t) else .n (.expr t) := by
  have hd := (PyElli.Formula.C58_print_parse false t h t).2 rfl
  have ha : DAssign ((if isEps then .kwEps else .kwN) :: .eq :: Spec.Formula.print 0 t) (if isEps then .eps (.expr t) else .n (.expr t)) := by
    cases isEps
    · exact .n (.expr hd)
    · exact .eps (.expr hd)
  refine C97_text_partial _ _ ha s hs ?_ ?_ a
  · intro x hx
    rcases List.mem_cons.1 hx with rfl | hx
    · cases isEps <;> trivial
    · rcases List.mem_cons.1 hx with rfl | hx
      · trivial
      · exact hw x hx
  · intro x hx
    rcases List.mem_cons.1 hx with rfl | hx
    · cases isEps <;> trivial
    · rcases List.mem_cons.1 hx with rfl | hx
      · trivial
      · exact hu x hx

lemma no_step {c : Char} (hc : identChar c = true) (v : List Char) (r : Bool) :
    lexStep (.operator r) (c :: v) = none ∧ lexStep (.afterFunc r) (c :: v) = none := by
  constructor
  · simp only [lexStep]
    unfold lexOperator
    split <;> first
      | rfl
      | (rename_i h; simp only [List.cons.injEq] at h; rw [h.1] at hc; exact absurd hc (by decide))
  · have : lit "(".toList (c :: v) = none := by
      have hne : ('(' : Char) ≠ c := by rintro rfl; exact absurd hc (by decide)
      simp [lit, hne]
    simp only [lexStep, this]

/-- A name with a reserved beginning is cut into two words, which nothing can join. -/
lemma unusable_operand (r : Bool) (w : String) (s : List Char) (hw : Words (.name w)) (hu : ¬ Usable (.name w)) (hs : Stop s) :
    ∃ t m q, lexOperand r (w.toList ++ s) = some (t, m, q) ∧ ∀ ts, ¬ Lexes m q ts := by
  obtain ⟨c₀, v₀, hw0, -, hchars⟩ := identifier_chars hw.1
  have hall : ∀ p r', w.toList = p ++ r' → p ≠ [] → ∀ d ∈ r', identChar d = true := by
    intro p r' h hp d hd
    cases p with
    | nil => exact absurd rfl hp
    | cons x p =>
      rw [hw0] at h
      simp only [List.cons_append, List.cons.injEq] at h
      exact hchars d (by rw [h.2]; simp [hd])
  have hdead : ∀ (m : Mode) (r' : List Char), (m = .operator r ∨ m = .afterFunc r) → r' ≠ [] → (∀ d ∈ r', identChar d = true) →
      ∀ ts, ¬ Lexes m (r' ++ s) ts := by
    intro m r' hm hne hid ts hl
    obtain ⟨d, v, rfl⟩ := List.exists_cons_of_ne_nil hne
    have hd := hid d (by simp)
    have hb : blank d = false := by
      by_contra hb
      simp only [blank, Bool.not_eq_false, Bool.or_eq_true, beq_iff_eq] at hb
      rcases hb with rfl | rfl <;> exact absurd hd (by decide)
    have hdrop : (d :: v ++ s).dropWhile blank = d :: (v ++ s) := by
      rw [List.cons_append, List.dropWhile_cons, if_neg (by simp [hb])]
    cases hl with
    | stop h => rw [hdrop] at h; cases h
    | tok h _ =>
      rw [hdrop] at h
      rcases hm with rfl | rfl
      · rw [(no_step hd _ r).1] at h; cases h
      · rw [(no_step hd _ r).2] at h; cases h
  have h1 := firstLit_word (w := w.toList) funcWords_ident hs
  have h2 := firstLit_word (w := w.toList) builtinWords_ident hs
  cases hf : firstLit funcWords w.toList with
  | some x =>
    obtain ⟨f, q⟩ := x
    obtain ⟨h3, h4⟩ := firstLit_some hf
    have hf0 : f.toList ≠ [] := by
      rintro h
      have : ∀ p ∈ funcWords, p.toList ≠ [] := by decide
      exact this f h3 h
    have hq : q ≠ [] := by
      rintro rfl
      rw [List.append_nil] at h4
      exact hw.2.1 (String.toList_inj.1 h4 ▸ func_mem.1 h3)
    refine ⟨.func f, .afterFunc r, q ++ s, ?_, hdead _ q (Or.inr rfl) hq (hall _ _ h4 hf0)⟩
    rw [hf] at h1
    simp only [lexOperand, h1, Option.map_some]
  | none =>
    cases hb : firstLit builtinWords w.toList with
    | none =>
      refine absurd (fun p hp => ?_) hu
      rcases List.mem_append.1 hp with hp | hp
      · exact firstLit_none.1 hf p (func_mem.2 hp)
      · exact firstLit_none.1 hb p (builtin_mem.2 hp)
    | some x =>
      obtain ⟨b, q⟩ := x
      obtain ⟨h3, h4⟩ := firstLit_some hb
      have hb0 : b.toList ≠ [] := by
        rintro h
        have : ∀ p ∈ builtinWords, p.toList ≠ [] := by decide
        exact this b h3 h
      have hq : q ≠ [] := by
        rintro rfl
        rw [List.append_nil] at h4
        exact hw.2.2.1 (String.toList_inj.1 h4 ▸ builtin_mem.1 h3)
      refine ⟨.builtin b, .operator r, q ++ s, ?_, hdead _ q (Or.inl rfl) hq (hall _ _ h4 hb0)⟩
      rw [hf] at h1
      rw [hb] at h2
      simp only [lexOperand, h1, h2, Option.map_some, Option.map_none]

lemma not_lexes {ts : List Tok} {s : List Char} (ht : Text ts s) : ∀ {m : Mode}, Path m ts → (∀ t ∈ ts, Words t) →
    (∃ t ∈ ts, ¬ Usable t) → ∀ ts', ¬ Lexes m s ts' := by
  induction ht with
  | nil => rintro m - - ⟨t, h, -⟩; cases h
  | @cons b t ts s hb hs ih =>
    intro m hp hw hu ts' hl
    obtain ⟨m', hn, hp'⟩ := hp
    have hwt := hw t (by simp)
    have hw' : ∀ t ∈ ts, Words t := fun t h => hw t (by simp [h])
    have htail := tail_ok hp' hw' hs
    obtain ⟨c, v, h1, h2⟩ := written_head t hwt s
    have hdrop : (b ++ written t ++ s).dropWhile blank = written t ++ s := by
      rw [List.append_assoc, drop_blanks hb]
      intro d hd
      rw [h1] at hd
      obtain rfl : c = d := by simpa using hd
      exact h2
    by_cases hut : Usable t
    · have hstep := written_step s hn hwt hut htail
      cases hl with
      | stop h => rw [hdrop, h1] at h; cases h
      | tok h hl' =>
        rw [hdrop, hstep] at h
        simp only [Option.some.injEq, Prod.mk.injEq] at h
        obtain ⟨rfl, rfl, rfl⟩ := h
        refine ih hp' hw' ?_ _ hl'
        obtain ⟨u, hu1, hu2⟩ := hu
        rcases List.mem_cons.1 hu1 with rfl | hu1
        · exact absurd hut hu2
        · exact ⟨u, hu1, hu2⟩
    · cases t with
      | name w =>
        have key : ∀ r, Stop s → lexStep m (w.toList ++ s) = lexOperand r (w.toList ++ s) → False := by
          intro r hst heq
          obtain ⟨t, m1, q, h3, h4⟩ := unusable_operand r w s hwt hut hst
          cases hl with
          | stop h => rw [hdrop, h1] at h; cases h
          | tok h hl' =>
            rw [hdrop, written, heq, h3] at h
            simp only [Option.some.injEq, Prod.mk.injEq] at h
            obtain ⟨rfl, rfl, rfl⟩ := h
            exact h4 _ hl'
        cases m with
        | operand r =>
          obtain rfl := Option.some.inj (show some (Mode.operator r) = some m' by cases r <;> exact hn)
          exact key r htail rfl
        | rhs =>
          obtain rfl := Option.some.inj hn
          refine key false htail ?_
          obtain ⟨c, v, h3, h4, -⟩ := identifier_chars hwt.1
          have hne : ('<' : Char) ≠ c := by rintro rfl; exact absurd h4 (by decide)
          have : lit "<kkr>".toList (w.toList ++ s) = none := by
            rw [h3]
            simp [lit, hne]
          simp only [lexStep, this]
        | _ => cases hn
      | _ => exact absurd trivial hut

/-- C97 fails for names that begin with the name of a function or a constant, such as `c1`, `height` or `since`: every formula with such a
name is refused, however it is written. Together with `C97_text_partial` this decides which formulas can be read. -/
theorem C97_names_refuted (ts : List Tok) (a : Assignment) (h : DAssign ts a) (s : List Char) (hs : Text ts s) (hw : ∀ t ∈ ts, Words t) :
    (∃ a', ReadsText s a') ↔ ∀ t ∈ ts, Usable t := by
  constructor
  · rintro ⟨a', ts', h1, -⟩
    by_contra hu
    push Not at hu
    exact not_lexes hs (path_assign h) hw hu ts' h1
  · exact fun hu => ⟨a, (C97_text_partial ts a h s hs hw hu a).2 rfl⟩

/-- C97 fails for parameters called like a constant: the formula `n = c` means the speed of light, whatever the parameters are. -/
theorem C97_constant_name_refuted (b : String) (h : b ∈ constants) (s : List Char) (hs : Text [.kwN, .eq, .name b] s) (a : Assignment) :
    ReadsText s a ↔ a = .n (.expr (.builtin b)) := by
  have hs' : Text [.kwN, .eq, .builtin b] s := by
    cases hs with
    | cons h1 hs => cases hs with
      | cons h2 hs => cases hs with
        | cons h3 hs => exact .cons h1 (.cons h2 (.cons (t := .builtin b) h3 hs))
  refine C97_text_partial [.kwN, .eq, .builtin b] _ (.n (.expr (.exprTerm (.termFactor (.factorPower .powBuiltin))))) s hs' ?_ ?_ a
  · simp only [List.mem_cons, List.not_mem_nil, or_false]
    rintro t (rfl | rfl | rfl)
    · trivial
    · trivial
    · exact h
  · simp only [List.mem_cons, List.not_mem_nil, or_false]
    rintro t (rfl | rfl | rfl) <;> trivial

/-- C97: a sign after an operand is an operator, a sign before a number belongs to the number: `x-2` is a difference, `x--2` and `x+-2` are
read too, with or without blanks. -/
theorem C97_signs (x n : String) (hx : Words (.name x)) (hu : Usable (.name x)) (hn : Numeral Char.isDigit n.toList) (s : List Char)
    (hs : Text [.kwN, .eq, .name x, .minus, .number n] s) (a : Assignment) :
    ReadsText s a ↔ a = .n (.expr (.sub (.singleParamName x) (.number n))) := by
  refine C97_text_partial [.kwN, .eq, .name x, .minus, .number n] _ (.n (.expr (.exprSub (u := [.name x]) (v := [.number n])
    (.exprTerm (.termFactor (.factorPower .powSingle))) (.termFactor (.factorPower .powNumber))))) s hs ?_ ?_ a
  · simp only [List.mem_cons, List.not_mem_nil, or_false]
    rintro t (rfl | rfl | rfl | rfl | rfl) <;> first | trivial | exact hx | exact hn
  · simp only [List.mem_cons, List.not_mem_nil, or_false]
    rintro t (rfl | rfl | rfl | rfl | rfl) <;> first | trivial | exact hu

lemma one_numeral : Numeral Char.isDigit "2".toList :=
  ⟨[], ['2'], [], rfl, Or.inl rfl, Or.inl ⟨by simp, by decide⟩, Or.inl rfl⟩

/-- Non-trivial case: `n=B -2` is the difference of `B` and 2. -/
example (a : Assignment) : ReadsText "n=B -2".toList a ↔ a = .n (.expr (.sub (.singleParamName "B") (.number "2"))) :=
  C97_signs "B" "2" ⟨⟨'B', [], rfl, by decide, by simp⟩, by decide, by decide, by decide⟩ (by unfold Usable; decide) one_numeral _
    (.cons (b := []) (by simp) (.cons (b := []) (by simp) (.cons (b := []) (by simp) (.cons (b := [' ']) (by simp)
      (.cons (b := []) (by simp) (.nil (b := []) (by simp))))))) a

/-- Non-trivial case: `eps = c1` is refused. -/
example : ¬ ∃ a, ReadsText "eps = c1".toList a := by
  have key := C97_names_refuted [.kwEps, .eq, .name "c1"] _ (.eps (.expr (.exprTerm (.termFactor (.factorPower .powSingle)))))
    "eps = c1".toList (.cons (b := []) (by simp) (.cons (b := [' ']) (by simp) (.cons (b := [' ']) (by simp) (.nil (b := []) (by simp))))) ?_
  · intro hr
    have := key.1 hr (.name "c1") (by simp)
    unfold Usable at this
    revert this
    decide
  · simp only [List.mem_cons, List.not_mem_nil, or_false]
    rintro t (rfl | rfl | rfl)
    · trivial
    · trivial
    · exact ⟨⟨'c', ['1'], rfl, by decide, by decide⟩, by decide, by decide, by decide⟩

end PyElli.FormulaText
