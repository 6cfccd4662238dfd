import Verif.Model.Angles
import Verif.Model.Regex
import Mathlib.Data.List.Sort
import Mathlib.Data.List.Dedup
import Mathlib.Data.Real.Archimedean

/-! # Readers of measurement files: `/repo/src/elli/importer/*.py`

Files are given as lines of text, or as the table of numbers pandas reads from them; decoding and the number parsing of pandas are not
modelled. -/

namespace PyElli.Importer

open PyElli PyElli.Regex

/-! ## `woollam.py` -/

/-- The character classes `\d` and `\s` of Python's `re` for text: decimal digits and white space. ASCII characters are fixed, others are
left open. -/
structure Classes where
  digit : Char → Bool
  space : Char → Bool
  digit_ascii : ∀ c : Char, c.isDigit = true → digit c = true
  space_ascii : ∀ c : Char, c ∈ [' ', '\t', '\n', '\r'] → space c = true
  digit_only : ∀ c : Char, digit c = true → c.isAlpha = false ∧ c ∉ [' ', '\t', '\n', '\r', '.', '-', '+']
  space_only : ∀ c : Char, space c = true → c.isAlphanum = false ∧ c ∉ ['.', '-', '+']

/-- `[a-zA-Z]`. -/
def letter : Re := .cls Char.isAlpha

/-- `([eE][+-]?\d+)?`. -/
def exponent (C : Classes) : Re := opt (.cat (.cls fun c => c == 'e' || c == 'E') (.cat (opt (.cls fun c => c == '+' || c == '-')) (plus (.cls C.digit))))

/-- `is_float_regex`, `/repo/src/elli/importer/woollam.py:19`. -/
def isFloatRegex (C : Classes) : Re :=
  .cat (opt (.cls fun c => c == '+' || c == '-'))
    (.alt
      (.cat (plus (.cls C.digit)) (.cat (opt (.cat (ch '.') (.star (.cls C.digit)))) (exponent C)))
      (.cat (ch '.') (.cat (plus (.cls C.digit)) (exponent C))))

/-- A cell given to `is_float`. -/
inductive Line
  | num (x : ℝ)
  | text (s : List Char)
  | other

/-- `is_float`, `woollam.py:22-35`. -/
def isFloat (C : Classes) : Line → Prop
  | .num _ => True
  | .text s => Search (isFloatRegex C) s
  | .other => False

/-- `\d*\.\d*`. -/
def decimalStar (C : Classes) : Re := .cat (.star (.cls C.digit)) (.cat (ch '.') (.star (.cls C.digit)))

/-- `\d+\.\d+`. -/
def decimalPlus (C : Classes) : Re := .cat (plus (.cls C.digit)) (.cat (ch '.') (plus (.cls C.digit)))

/-- `_is_wvase_tabular`, `woollam.py:38-48`. -/
def isWvase (C : Classes) (s : List Char) : Prop :=
  SearchLine (.cat (rep (.cat (opt (ch '-')) (.cat (decimalStar C) (plus (.cls C.space)))) 5) (decimalStar C)) s

/-- `_is_complete_ease_tabular`, `woollam.py:51-61`. -/
def isCompleteEase (C : Classes) (s : List Char) : Prop :=
  SearchLine (.cat (plus letter) (.cat (plus (.cls C.space))
    (.cat (rep (.cat (decimalPlus C) (plus (.cls C.space))) 5) (decimalPlus C)))) s

/-- `_is_tan_cos_format`, `woollam.py:64-74`. -/
def isTanCos (C : Classes) (s : List Char) : Prop :=
  SearchStart (.cat (plus letter) (.cat (plus (.cls C.space)) (.cat (ch 'T') (.cat (ch 'R') (.cat (ch 'I') (ch 'G')))))) s

/-- The value of `file_format`. -/
inductive Format
  | wvase
  | completeEase
  deriving DecidableEq

open Classical in
/-- The loop of `read_woollam_psi_delta`, `woollam.py:183-205`: the lines before the table, the format, and the lines of the table. -/
noncomputable def scan (C : Classes) : List (List Char) → List (List Char) → Except PyErr (List (List Char) × Format × List (List Char))
  | _, [] => .error .valueError
  | metadata, l :: ls =>
    if isWvase C l then .ok (metadata, .wvase, l :: ls)
    else if isCompleteEase C l then .ok (metadata, .completeEase, l :: ls)
    else if isTanCos C l then .error .notImplemented
    else scan C (metadata ++ [l]) ls

/-- `read_woollam_psi_delta`, `woollam.py:167-219`, up to the parsing of the table lines by pandas: the line naming the unit
(`metadata[-1]`), the format and the lines of the table. -/
noncomputable def readWoollam (C : Classes) (lines : List (List Char)) : Except PyErr (List Char × Format × List (List Char)) :=
  match scan C [] lines with
  | .error e => .error e
  | .ok (metadata, f, table) =>
    match metadata.getLast? with
    | none => .error .indexError
    | some u => .ok (u, f, table)

/-! ## `accurion.py` -/

/-- One row of a data frame of measurements: angle and wavelength, then Δ and Ψ. -/
abbrev Meas := (ℝ × ℝ) × (ℝ × ℝ)

open Classical in
/-- Order of the row keys: by angle, then by wavelength. -/
noncomputable def keyLE (a b : ℝ × ℝ) : Bool := decide (a.1 < b.1 ∨ (a.1 = b.1 ∧ a.2 ≤ b.2))

open Classical in
/-- `df.groupby(["Angle of Incidence", "Wavelength"]).sum()` (library behaviour): one row per key, sorted, with the sums of the rows having
this key. -/
noncomputable def groupSum (rows : List Meas) : List Meas :=
  ((rows.map Prod.fst).dedup.mergeSort keyLE).map fun k =>
    (k, (((rows.filter fun r => decide (r.1 = k)).map fun r => r.2.1).sum, ((rows.filter fun r => decide (r.1 = k)).map fun r => r.2.2).sum))

/-- `convert_delta_range` on the Δ column. -/
noncomputable def wrapDelta : List Meas → Except PyErr (List Meas)
  | [] => .ok []
  | (k, d, p) :: rows =>
    match convertDeltaRange d (.int (-180)) (.int 180) with
    | .error e => .error e
    | .ok d' =>
      match wrapDelta rows with
      | .error e => .error e
      | .ok rows' => .ok ((k, d', p) :: rows')

/-- `read_accurion_psi_delta`, `/repo/src/elli/importer/accurion.py:11-39`, given the numeric rows after the line of units (`[1:]`), all of
them complete. -/
noncomputable def readAccurion (rows : List Meas) : Except PyErr (List Meas) := wrapDelta (groupSum rows)

/-! ## `spectraray.py` -/

/-- `[start::2]`. -/
def everyOther : List α → List α
  | [] => []
  | [x] => [x]
  | x :: _ :: l => x :: everyOther l

/-- `list(map(float, …))`: `none` is a token that `float` refuses. -/
def floats : List (Option ℝ) → Except PyErr (List ℝ)
  | [] => .ok []
  | none :: _ => .error .valueError
  | some x :: l => match floats l with
    | .error e => .error e
    | .ok xs => .ok (x :: xs)

/-- The pairs `(Ψ, Δ)` of one row. -/
def pairUp : List ℝ → List (ℝ × ℝ)
  | a :: b :: l => (a, b) :: pairUp l
  | _ => []

/-- `read_spectraray_psi_delta`, `/repo/src/elli/importer/spectraray.py:14-68`, given the tokens of the first line and the numeric rows
(wavelength, then the values; at least one row, all rows complete and of the same length). Setting the column names fails unless their number is that of the columns; stacking makes one
row per wavelength and angle, `sort_index` sorts them (library behaviour; the angles and the wavelengths are taken to be distinct). -/
noncomputable def readSpectraray (header : List (Option ℝ)) (rows : List (ℝ × List ℝ)) : Except PyErr (List Meas) :=
  match floats (everyOther (header.drop 3)) with
  | .error e => .error e
  | .ok aois =>
    if rows.all (fun r => r.2.length = 2 * aois.length) then
      let stacked : List Meas := rows.flatMap fun r => (aois.zip (pairUp r.2)).map fun p => ((p.1, r.1), (p.2.2, p.2.1))
      wrapDelta (stacked.mergeSort fun a b => keyLE a.1 b.1)
    else .error .valueError

/-! ## `nexus.py` -/

/-- A material read from a NeXus file. -/
inductive Mat (D : Type)
  | isotropic (d : D)
  | uniaxial (o e : D)
  | biaxial (x y z : D)

/-- The checks `isinstance(dispersion, BaseDispersion)` of `IsotropicMaterial`, `UniaxialMaterial` and `BiaxialMaterial`,
`/repo/src/elli/materials.py:136-139, 175-178, 218-221`. -/
def checked {D : Type} : Option D → Except PyErr D
  | none => .error .typeError
  | some d => .ok d

/-- The local function `get_material` of `read_nexus_materials`, `/repo/src/elli/importer/nexus.py:267-290`. Each axis is missing in the
file, or holds a dispersion, or no dispersion that is known (`get_dispersion` returns `None`). -/
def getMaterial {D : Type} (x y z : Option (Option D)) : Except PyErr (Mat D) :=
  match x with
  | none => .error .valueError
  | some dx =>
    let dict : List (String × Option D) := [("dispersion_x", dx)] ++ (y.map fun d => ("dispersion_y", d)).toList ++ (z.map fun d => ("dispersion_z", d)).toList
    if dict.length = 1 then (checked dx).map .isotropic
    else if dict.length = 2 then
      match dict.lookup "dispersion_z" with
      | none => .error .keyError
      | some dz =>
        match checked dx, checked dz with
        | .ok a, .ok b => .ok (.uniaxial a b)
        | _, _ => .error .typeError
    else
      match dict.lookup "dispersion_y", dict.lookup "dispersion_z" with
      | some dy, some dz =>
        match checked dx, checked dy, checked dz with
        | .ok a, .ok b, .ok c => .ok (.biaxial a b c)
        | _, _, _ => .error .typeError
      | _, _ => .error .typeError

end PyElli.Importer
