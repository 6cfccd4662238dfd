import Mathlib.Data.List.Basic

/-! # Regular expressions as used by `importer/woollam.py`

Only what the module's patterns need: character classes, sequence, choice, repetition. Whether a pattern matches a text is the usual
relation; greediness does not matter because only the truth of a match is used. -/

namespace PyElli.Regex

/-- A pattern. -/
inductive Re
  | eps
  | cls (p : Char → Bool)
  | cat (a b : Re)
  | alt (a b : Re)
  | star (a : Re)

/-- The pattern matches exactly this text. -/
inductive Matches : Re → List Char → Prop
  | eps : Matches .eps []
  | cls {p : Char → Bool} {c : Char} : p c = true → Matches (.cls p) [c]
  | cat {a b : Re} {u v : List Char} : Matches a u → Matches b v → Matches (.cat a b) (u ++ v)
  | left {a b : Re} {u : List Char} : Matches a u → Matches (.alt a b) u
  | right {a b : Re} {u : List Char} : Matches b u → Matches (.alt a b) u
  | done {a : Re} : Matches (.star a) []
  | more {a : Re} {u v : List Char} : Matches a u → Matches (.star a) v → Matches (.star a) (u ++ v)

/-- `a?`. -/
def opt (a : Re) : Re := .alt a .eps

/-- `a+`. -/
def plus (a : Re) : Re := .cat a (.star a)

/-- `a{n}`. -/
def rep (a : Re) : ℕ → Re
  | 0 => .eps
  | n + 1 => .cat a (rep a n)

/-- One given character. -/
def ch (c : Char) : Re := .cls fun d => d == c

/-- `re.search(r, s)` is a match, for a pattern without anchors: some part of the text matches. -/
def Search (r : Re) (s : List Char) : Prop := ∃ pre w post, s = pre ++ w ++ post ∧ Matches r w

/-- `re.search("^r", s)`: some prefix matches. -/
def SearchStart (r : Re) (s : List Char) : Prop := ∃ w post, s = w ++ post ∧ Matches r w

/-- `re.search("^r$", s)`: the whole text matches, or all of it but a final newline. -/
def SearchLine (r : Re) (s : List Char) : Prop := Matches r s ∨ ∃ s', s = s' ++ ['\n'] ∧ Matches r s'

end PyElli.Regex
