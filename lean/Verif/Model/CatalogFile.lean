import Verif.Model.Catalog
import Mathlib.Data.List.Basic

/-! # Reading the catalog of refractiveindex.info: `/repo/src/elli/database/refractive_index_info.py:95-201, 425-451`

The page names are taken apart by a regular expression. Python's `re` takes the first match it finds, so a pattern is modelled as the list of
its matches at the start of a text, in the order in which `re` tries them. All repetitions of the pattern are repetitions of one character
class. `\d` are the ASCII digits (Python accepts the digits of other scripts as well); which characters are word characters (`\W` is the
rest) is a parameter. The YAML reader and the files are not modelled. -/

namespace PyElli.Catalog

open PyElli

/-- A text. -/
abbrev Letters := List Char

/-- A match: the named groups, the text matched and the text that is left. -/
structure Found where
  groups : List (String × Letters)
  text : Letters
  rest : Letters

/-- A pattern: its matches at the start of a text, in the order in which they are tried. -/
abbrev Pat := Letters → List Found

/-- One pattern after the other. -/
def Pat.seq (a b : Pat) : Pat := fun s => (a s).flatMap fun x => (b x.rest).map fun y => ⟨x.groups ++ y.groups, x.text ++ y.text, y.rest⟩

@[inherit_doc] infixr:65 " ⬝ " => Pat.seq

/-- The empty pattern. -/
def Pat.none : Pat := fun s => [⟨[], [], s⟩]

/-- A fixed text. -/
def lit (t : Letters) : Pat := fun s => if t.isPrefixOf s then [⟨[], t, s.drop t.length⟩] else []

/-- One character of a class. -/
def one (p : Char → Bool) : Pat
  | [] => []
  | c :: s => if p c then [⟨[], [c], s⟩] else []

/-- `p*`, the longest match first. -/
def many (p : Char → Bool) : Pat
  | [] => [⟨[], [], []⟩]
  | c :: s => if p c then (many p s).map (fun x => ⟨[], c :: x.text, x.rest⟩) ++ [⟨[], [], c :: s⟩] else [⟨[], [], c :: s⟩]

/-- `p*?`, the shortest match first. -/
def few (p : Char → Bool) : Pat := fun s => (many p s).reverse

/-- `p+`. -/
def plus (p : Char → Bool) : Pat := one p ⬝ many p

/-- `a?`: with `a` first, then without. -/
def opt (a : Pat) : Pat := fun s => a s ++ Pat.none s

/-- `(?P<name>a)`. -/
def named (name : String) (a : Pat) : Pat := fun s => (a s).map fun x => { x with groups := x.groups ++ [(name, x.text)] }

/-- `\d`. -/
def digit (c : Char) : Bool := c.isDigit

/-- `.`. -/
def anyChar (c : Char) : Bool := c != '\n'

/-- `\d+(\.\d*)?(e\W?\d+)?`. -/
def number (word : Char → Bool) : Pat :=
  plus digit ⬝ opt (lit ['.'] ⬝ many digit) ⬝ opt (lit ['e'] ⬝ opt (one fun c => !word c) ⬝ plus digit)

/-- `(, (?P<type2>.+) (?P<lower_range2>…).(?P<upper_range2>…) µm)?(; (?P<comment2>.*))?`, `refractive_index_info.py:105-106`. -/
def tailPattern (word : Char → Bool) : Pat :=
  opt (lit [',', ' '] ⬝ named "type2" (plus anyChar) ⬝ lit [' '] ⬝ named "lower_range2" (number word) ⬝ one anyChar ⬝ named "upper_range2" (number word) ⬝
    lit [' ', 'µ', 'm']) ⬝ opt (lit [';', ' '] ⬝ named "comment2" (many anyChar))

/-- The pattern from `(?P<type1>.+)` on, `refractive_index_info.py:104-106`. -/
def typePattern (word : Char → Bool) : Pat :=
  named "type1" (plus anyChar) ⬝ lit [' '] ⬝ named "lower_range1" (number word) ⬝ one (fun c => !word c) ⬝ named "upper_range1" (number word) ⬝
    lit [' ', 'µ', 'm'] ⬝ tailPattern word

/-- The pattern from `((?P<comment1>.*); )?` on, `refractive_index_info.py:103-106`. -/
def restPattern (word : Char → Bool) : Pat := opt (named "comment1" (many anyChar) ⬝ lit [';', ' ']) ⬝ typePattern word

/-- `pagename_pattern`, `refractive_index_info.py:100-107`. -/
def pagename (word : Char → Bool) : Pat :=
  named "authors" (many anyChar) ⬝ lit [' '] ⬝ named "year" (one digit ⬝ one digit ⬝ one digit ⬝ one digit) ⬝ few (fun c => c != ':') ⬝ lit [':', ' '] ⬝
    restPattern word

/-- `infos.group(name)`: `None` for a group that took no part. -/
def Found.group (x : Found) (name : String) : Option Letters := x.groups.lookup name

/-- `" ".join(filter(None, (comment1, comment2)))`, `refractive_index_info.py:150-158`: missing and empty comments are left out. -/
def joinComments (a b : Option Letters) : Letters :=
  match a.getD [], b.getD [] with
  | [], y => y
  | x, [] => x
  | x, y => x ++ ' ' :: y

/-- A page of a book in the catalog file. -/
inductive PageNode
  | divider (text : String)
  | page (key name data : String)

/-- A book of a shelf. -/
inductive BookNode
  | divider (text : String)
  | book (key name : String) (content : List PageNode)

/-- A shelf. -/
inductive ShelfNode
  | divider (text : String)
  | shelf (key name : String) (content : List BookNode)

/-- What the library functions do: word characters, `pd.to_numeric` (nothing for a text that is no number) and
`os.path.join("data", os.path.normpath(…))`. -/
structure Lib where
  word : Char → Bool
  number : Letters → Option ℝ
  path : String → String

/-- A text cell; `None` and `pd.NA` are missing. -/
def textCell : Option String → Cell
  | none => .na
  | some s => .str s

/-- A cell after `pd.to_numeric(…, errors="coerce")`, times a factor, `refractive_index_info.py:176-184`. -/
noncomputable def numCell (lib : Lib) (factor : ℝ) (t : Option Letters) : Cell :=
  match t.bind lib.number with
  | none => .na
  | some x => .num (factor * x)

/-- The columns that come from the page name: author, year, comment, lower and upper range, `refractive_index_info.py:116-168`. -/
def nameColumns (lib : Lib) (name : String) : Option Letters × Option Letters × Letters × Option Letters × Option Letters :=
  match (pagename lib.word name.toList).head? with
  | none => (none, none, name.toList, none, none)
  | some x => (x.group "authors", x.group "year", joinComments (x.group "comment1") (x.group "comment2"), x.group "lower_range1", x.group "upper_range1")

/-- A row of the catalog, `refractive_index_info.py:116-184`. -/
noncomputable def entryRow (lib : Lib) (shelf shelfName : String) (bookDiv : Option String) (book bookName page : String) (pageDiv : Option String)
    (name data : String) : Row := fun col =>
  let c := nameColumns lib name
  match col with
  | "shelf" => .str shelf
  | "shelf_longname" => .str shelfName
  | "book_divider" => textCell bookDiv
  | "book" => .str book
  | "book_longname" => .str bookName
  | "page" => .str page
  | "page_type" => textCell pageDiv
  | "author" => textCell (c.1.map String.ofList)
  | "year" => numCell lib 1 c.2.1
  | "comment" => .str (String.ofList c.2.2.1)
  | "lower_range" => numCell lib 1000 c.2.2.2.1
  | "upper_range" => numCell lib 1000 c.2.2.2.2
  | "path" => .str (lib.path data)
  | _ => .na

/-- The loop over the pages of a book, `refractive_index_info.py:114-170`. -/
noncomputable def pageRows (row : Option String → String → String → String → Row) : Option String → List PageNode → List Row
  | _, [] => []
  | _, .divider t :: l => pageRows row (some t) l
  | d, .page key name data :: l => row d key name data :: pageRows row d l

/-- The loop over the books of a shelf, `refractive_index_info.py:111-172`. -/
noncomputable def bookRows (lib : Lib) (shelf shelfName : String) : Option String → List BookNode → List Row
  | _, [] => []
  | _, .divider t :: l => bookRows lib shelf shelfName (some t) l
  | d, .book key name content :: l =>
    pageRows (fun pd page pname data => entryRow lib shelf shelfName d key name page pd pname data) none content ++ bookRows lib shelf shelfName d l

/-- The catalog, `refractive_index_info.py:108-184`. -/
noncomputable def readCatalog (lib : Lib) : List ShelfNode → List Row
  | [] => []
  | .divider _ :: l => readCatalog lib l
  | .shelf key name content :: l => bookRows lib key name none content ++ readCatalog lib l

/-- `get_reference` (key `REFERENCES`) and `get_comment` (key `COMMENTS`), `refractive_index_info.py:425-451`: an entry of the file of the
page. `file` gives the file of a row as a dictionary. -/
noncomputable def fileEntry {V : Type} (file : Row → String → Option V) (cat : List Row) (book page key : String) : Except PyErr V :=
  match openFile cat book page with
  | .error e => .error e
  | .ok r =>
    match file r key with
    | none => .error .keyError
    | some v => .ok v

end PyElli.Catalog
