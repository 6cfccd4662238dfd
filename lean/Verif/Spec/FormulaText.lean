import Verif.Model.Grammar
import Verif.Spec.Importer

/-! # Formulas as text (specification) -/

namespace Spec.FormulaText

open PyElli.Formula

/-- Identifiers: a letter or underscore, then letters, digits and underscores. -/
def Identifier (s : List Char) : Prop :=
  ∃ c w, s = c :: w ∧ (c.isAlpha = true ∨ c = '_') ∧ ∀ d ∈ w, d.isAlphanum = true ∨ d = '_'

/-- Function and constant names of the formula language. -/
def functions : List String := ["sin", "cos", "tan", "sqrt", "dawsn", "ln", "log", "heaviside"]
def constants : List String := ["1j", "pi", "eps_0", "hbar", "h", "c"]

/-- How a token is written. -/
def written : Tok → List Char
  | .plus => ['+'] | .minus => ['-'] | .star => ['*'] | .slash => ['/'] | .pow => ['*', '*']
  | .lpar => ['('] | .rpar => [')'] | .lbrk => ['['] | .rbrk => [']'] | .eq => ['=']
  | .kwSum => ['s', 'u', 'm'] | .kwEps => ['e', 'p', 's'] | .kwN => ['n'] | .kkr => ['<', 'k', 'k', 'r', '>'] | .oneJ => ['1', 'j']
  | .func s | .name s | .number s | .builtin s => s.toList

/-- A text of these tokens: any number of blanks (also none) before each of them and at the end. -/
inductive Text : List Tok → List Char → Prop
  | nil {b} : (∀ c ∈ b, c = ' ' ∨ c = '\t') → Text [] b
  | cons {b t ts s} : (∀ c ∈ b, c = ' ' ∨ c = '\t') → Text ts s → Text (t :: ts) (b ++ written t ++ s)

/-- Words are what they should be: numbers are numerals, names are identifiers other than `sum` and the reserved words. -/
def Words : Tok → Prop
  | .func s => s ∈ functions
  | .builtin s => s ∈ constants
  | .number s => Spec.Importer.Numeral Char.isDigit s.toList
  | .name s => Identifier s.toList ∧ s ∉ functions ∧ s ∉ constants ∧ s ≠ "sum"
  | _ => True

/-- No function or constant name is a beginning of the name. -/
def Usable : Tok → Prop
  | .name s => ∀ w ∈ functions ++ constants, ¬ w.toList <+: s.toList
  | _ => True

end Spec.FormulaText
