import Verif.Model.Grammar

/-! # From text to tokens: terminals of `/repo/src/elli/formula_parser/dispersion_function_grammar.lark`

`parser.py:165-169` builds `Lark(grammar, start="assignment", parser="lalr")`, which reads text with lark's contextual lexer: at every
position only the terminals that the parser can use next (and blanks, `%ignore WS_INLINE`, line 51) are tried, terminals of higher
priority first (`FUNC.1`, `BUILTIN.1`), then longer ones, and the first that matches is taken. A literal that `NAME` matches too (`sum`) is
read as a name first. The states of the parser are reduced to what decides the terminals (`Mode`); in states where the parser is
stricter than its mode the text is refused by the grammar instead. -/

namespace PyElli.FormulaText

open PyElli.Formula (Tok Tree NT D DRhs DAssign Rhs Assignment)

/-- `CNAME` of lark's common terminals: letters, digits and underscores of ASCII, no digit first. -/
def identChar (c : Char) : Bool := c.isAlphanum || c == '_'
def identStart (c : Char) : Bool := c.isAlpha || c == '_'

/-- `WS_INLINE` of lark's common terminals. -/
def blank (c : Char) : Bool := c == ' ' || c == '\t'

/-- `FUNC.1`, `dispersion_function_grammar.lark:44`; lark sorts the alternatives by length. -/
def funcWords : List String := ["heaviside", "dawsn", "sqrt", "sin", "cos", "tan", "log", "ln"]

/-- `BUILTIN.1`, `dispersion_function_grammar.lark:45`. -/
def builtinWords : List String := ["eps_0", "hbar", "1j", "pi", "h", "c"]

/-- A fixed text at the current position: the rest after it. -/
def lit (p s : List Char) : Option (List Char) := if p.isPrefixOf s then some (s.drop p.length) else none

/-- The first of several fixed texts. -/
def firstLit : List String → List Char → Option (String × List Char)
  | [], _ => none
  | p :: ps, s => match lit p.toList s with
    | some r => some (p, r)
    | none => firstLit ps s

/-- `NAME`. -/
def lexName : List Char → Option (List Char × List Char)
  | [] => none
  | c :: s => if identStart c then some (c :: s.takeWhile identChar, s.dropWhile identChar) else none

/-- Optional sign. -/
def signOpt : List Char → List Char × List Char
  | '+' :: s => (['+'], s)
  | '-' :: s => (['-'], s)
  | s => ([], s)

/-- `_EXP: ("e"|"E") SIGNED_INT`. -/
def lexExp : List Char → Option (List Char × List Char)
  | [] => none
  | c :: s =>
    if c = 'e' ∨ c = 'E' then
      if (signOpt s).2.takeWhile Char.isDigit = [] then none
      else some (c :: (signOpt s).1 ++ (signOpt s).2.takeWhile Char.isDigit, (signOpt s).2.dropWhile Char.isDigit)
    else none

/-- What may follow a mantissa: `_EXP?`. -/
def withExp (w s : List Char) : List Char × List Char :=
  match lexExp s with
  | some (e, r) => (w ++ e, r)
  | none => (w, s)

/-- `NUMBER: FLOAT | INT` with `FLOAT: INT _EXP | DECIMAL _EXP?` and `DECIMAL: INT "." INT? | "." INT`. The alternatives differ in the
character after the first digits, so their order does not matter except that `INT` comes last. -/
def lexUnsigned (s : List Char) : Option (List Char × List Char) :=
  if s.takeWhile Char.isDigit = [] then
    match s with
    | '.' :: s' =>
      if s'.takeWhile Char.isDigit = [] then none
      else some (withExp ('.' :: s'.takeWhile Char.isDigit) (s'.dropWhile Char.isDigit))
    | _ => none
  else
    match s.dropWhile Char.isDigit with
    | '.' :: s' =>
      some (withExp (s.takeWhile Char.isDigit ++ '.' :: s'.takeWhile Char.isDigit) (s'.dropWhile Char.isDigit))
    | r => some (withExp (s.takeWhile Char.isDigit) r)

/-- `SIGNED_NUMBER`. -/
def lexNumber (s : List Char) : Option (List Char × List Char) :=
  match lexUnsigned (signOpt s).2 with
  | some (w, r) => some ((signOpt s).1 ++ w, r)
  | none => none

/-- Where the parser is, as far as the lexer is concerned; the flag tells whether it is inside `sum[…]`. -/
inductive Mode
  | start | assign | rhs
  | operand (rep : Bool) | operator (rep : Bool) | afterFunc (rep : Bool) | afterSum
  | kkrPlus | kkrJ | kkrStar
  deriving DecidableEq

/-- One token where an operand may begin, `?power` and `?repeated_power` (19-24, 38-42). -/
def lexOperand (r : Bool) (s : List Char) : Option (Tok × Mode × List Char) :=
  match firstLit funcWords s with
  | some (f, s') => some (.func f, .afterFunc r, s')
  | none =>
    match firstLit builtinWords s with
    | some (b, s') => some (.builtin b, .operator r, s')
    | none =>
      match lexName s with
      | some (w, s') =>
        if r = false ∧ w = "sum".toList then some (.kwSum, .afterSum, s') else some (.name (String.ofList w), .operator r, s')
      | none =>
        match lexNumber s with
        | some (w, s') => some (.number (String.ofList w), .operator r, s')
        | none =>
          match s with
          | '(' :: s' => some (.lpar, .operand r, s')
          | _ => none

/-- One token where an operand has ended. -/
def lexOperator (r : Bool) : List Char → Option (Tok × Mode × List Char)
  | '*' :: '*' :: s => some (.pow, .operand r, s)
  | '*' :: s => some (.star, .operand r, s)
  | '/' :: s => some (.slash, .operand r, s)
  | '+' :: s => some (.plus, .operand r, s)
  | '-' :: s => some (.minus, .operand r, s)
  | ')' :: s => some (.rpar, .operator r, s)
  | ']' :: s => some (.rbrk, .operator false, s)
  | _ => none

/-- One token; `none` where lark raises `UnexpectedInput`. -/
def lexStep : Mode → List Char → Option (Tok × Mode × List Char)
  | .start, s => match lit "eps".toList s with
    | some r => some (.kwEps, .assign, r)
    | none => match lit "n".toList s with
      | some r => some (.kwN, .assign, r)
      | none => none
  | .assign, s => match lit "=".toList s with
    | some r => some (.eq, .rhs, r)
    | none => none
  | .rhs, s => match lit "<kkr>".toList s with
    | some r => some (.kkr, .kkrPlus, r)
    | none => lexOperand false s
  | .operand r, s => lexOperand r s
  | .operator r, s => lexOperator r s
  | .afterFunc r, s => match lit "(".toList s with
    | some q => some (.lpar, .operand r, q)
    | none => none
  | .afterSum, s => match lit "[".toList s with
    | some q => some (.lbrk, .operand true, q)
    | none => none
  | .kkrPlus, s => match lit "+".toList s with
    | some q => some (.plus, .kkrJ, q)
    | none => none
  | .kkrJ, s => match lit "1j".toList s with
    | some q => some (.oneJ, .kkrStar, q)
    | none => none
  | .kkrStar, s => match lit "*".toList s with
    | some q => some (.star, .operand false, q)
    | none => none

/-- The tokens of a text. -/
inductive Lexes : Mode → List Char → List Tok → Prop
  | stop {m s} : s.dropWhile blank = [] → Lexes m s []
  | tok {m m' s r t ts} : lexStep m (s.dropWhile blank) = some (t, m', r) → Lexes m' r ts → Lexes m s (t :: ts)

/-- `parse_formula`, `parser.py:172-184`: the text is read as this formula; texts without a reading raise `UnexpectedInput`. -/
def ReadsText (s : List Char) (a : Assignment) : Prop := ∃ ts, Lexes .start s ts ∧ DAssign ts a

end PyElli.FormulaText
