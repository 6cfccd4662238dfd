import Verif.Model.SpectraRayTable
import Verif.Props.Table
import Verif.Props.Dispersion

/-! # Tables of dielectric functions from SpectraRay files -/

namespace PyElli.SpectraRay

open PyElli

/-- A SpectraRay file as a user sees it: header with a line of units, then the array between its two markers, then a footer. -/
structure File where
  first : List Char
  header : List (List Char)
  units : List Char
  header' : List (List Char)
  begin : List Char
  data : List (List Char)
  stop : List Char
  footer : List (List Char)

/-- The lines of the file. -/
def File.lines (f : File) : List (List Char) :=
  f.first :: (f.header ++ f.units :: (f.header' ++ f.begin :: (f.data ++ f.stop :: f.footer)))

/-- The line is none of the two markers. -/
def Text.NoMarker (T : Text) (l : List Char) : Prop := T.strip l ≠ "Begin of array".toList ∧ T.strip l ≠ "End of array".toList

/-- The line does not start with the word for units. -/
def NoUnits (l : List Char) : Prop := "Units=".toList.isPrefixOf l = false

/-- The line says nothing about the array. -/
def Text.Plain (T : Text) (l : List Char) : Prop := T.NoMarker l ∧ NoUnits l

/-- The parts of the file are what their names say; `u` is the word between `Units=` and the next comma. -/
structure File.Is (T : Text) (f : File) (u tail : List Char) : Prop where
  first : T.NoMarker f.first
  header : ∀ l ∈ f.header, T.Plain l
  header' : ∀ l ∈ f.header', T.Plain l
  data : ∀ l ∈ f.data, T.Plain l
  footer : ∀ l ∈ f.footer, T.Plain l
  units : f.units = "Units=".toList ++ u ++ tail
  word : ∀ c ∈ u, c ≠ '=' ∧ c ≠ ','
  tail : tail = [] ∨ ∃ t, tail = ',' :: t
  unitsMarker : T.NoMarker f.units
  begin : T.strip f.begin = "Begin of array".toList ∧ NoUnits f.begin
  stop : T.strip f.stop = "End of array".toList ∧ NoUnits f.stop

/-! ## The scan -/

/-- The loop from the second line on. -/
def Text.rest (T : Text) : ℕ → List (List Char) → Scan → Scan
  | _, [], s => s
  | cnt, l :: r, s => T.rest (cnt + 1) r (T.markers cnt l (unitLine l s))

lemma loop_eq (T : Text) (r : List (List Char)) : ∀ (cnt : ℕ) (l : List Char) (s : Scan),
    T.loop cnt (l :: r) s = T.rest (cnt + 1) r (T.markers cnt l s) := by
  induction r with
  | nil => intro cnt l s; simp [Text.loop, Text.rest]
  | cons l' r ih => intro cnt l s; rw [Text.loop, Text.rest]; exact ih (cnt + 1) l' _

lemma rest_append (T : Text) (a b : List (List Char)) : ∀ (cnt : ℕ) (s : Scan),
    T.rest cnt (a ++ b) s = T.rest (cnt + a.length) b (T.rest cnt a s) := by
  induction a with
  | nil => intro cnt s; rfl
  | cons l a ih =>
    intro cnt s
    simp only [List.cons_append, Text.rest, ih, List.length_cons]
    congr 1
    omega

lemma markers_none (T : Text) {l : List Char} (h : T.NoMarker l) (cnt : ℕ) (s : Scan) : T.markers cnt l s = s := by
  unfold Text.markers
  rw [if_neg h.1, if_neg h.2]

lemma unitLine_none {l : List Char} (h : NoUnits l) (s : Scan) : unitLine l s = s := by
  rw [unitLine, if_neg (by rw [NoUnits] at h; rw [h]; simp)]

lemma rest_plain (T : Text) (a : List (List Char)) (h : ∀ l ∈ a, T.Plain l) : ∀ (cnt : ℕ) (s : Scan), T.rest cnt a s = s := by
  induction a with
  | nil => intro cnt s; rfl
  | cons l a ih =>
    intro cnt s
    have hl := h l (by simp)
    rw [Text.rest, unitLine_none hl.2, markers_none T hl.1]
    exact ih (fun x hx => h x (by simp [hx])) _ _

lemma headD_splitOnP (p : Char → Bool) (l : List Char) : (l.splitOnP p).headD [] = l.takeWhile fun c => !p c := by
  induction l with
  | nil => simp
  | cons c l ih =>
    rw [List.splitOnP_cons_eq_if_modifyHead]
    by_cases h : p c
    · simp [h]
    · simp only [h, Bool.false_eq_true, if_false, List.takeWhile_cons, Bool.not_false, if_true]
      rw [← ih]
      cases hs : l.splitOnP p with
      | nil => exact absurd hs (List.splitOnP_ne_nil p l)
      | cons a b => rfl

lemma unitText_eq {u tail : List Char} (hw : ∀ c ∈ u, c ≠ '=' ∧ c ≠ ',') (ht : tail = [] ∨ ∃ t, tail = ',' :: t) :
    unitText ("Units=".toList ++ u ++ tail) = u := by
  have e : "Units=".toList ++ u ++ tail = "Units".toList ++ '=' :: (u ++ tail) := by simp
  rw [e, unitText]
  have h1 : ("Units".toList ++ '=' :: (u ++ tail)).splitOn '=' = "Units".toList :: (u ++ tail).splitOn '=' := by
    apply List.splitOnP_first
    · decide
    · simp
  rw [h1]
  have h2 : ("Units".toList :: (u ++ tail).splitOn '=').getD 1 [] = ((u ++ tail).splitOn '=').headD [] := by
    cases (u ++ tail).splitOn '=' <;> rfl
  rw [h2, List.splitOn, List.splitOn, headD_splitOnP, headD_splitOnP]
  have h3 : ∀ c ∈ u, (!(c == '=')) = true := fun c hc => by simp [(hw c hc).1]
  have h4 : ∀ c ∈ u, (!(c == ',')) = true := fun c hc => by simp [(hw c hc).2]
  rw [List.takeWhile_append_of_pos h3, List.takeWhile_append_of_pos h4]
  rcases ht with rfl | ⟨t, rfl⟩
  · simp
  · simp [List.takeWhile_cons]

lemma units_prefix (u tail : List Char) : "Units=".toList.isPrefixOf ("Units=".toList ++ u ++ tail) = true := by
  rw [List.append_assoc, List.isPrefixOf_iff_prefix]
  exact List.prefix_append _ _

/-- What the scan finds. -/
lemma scan_file {T : Text} {f : File} {u tail : List Char} (h : f.Is T u tail) :
    T.loop 0 f.lines ⟨0, 0, none⟩ =
      ⟨f.header.length + f.header'.length + 3, f.header.length + f.header'.length + 3 + f.data.length, some u⟩ := by
  have hne : "Begin of array".toList ≠ "End of array".toList := by decide
  rw [File.lines, loop_eq, markers_none T h.first, rest_append, rest_plain T _ h.header, Text.rest, rest_append, rest_plain T _ h.header',
    Text.rest, rest_append, rest_plain T _ h.data, Text.rest, rest_plain T _ h.footer, markers_none T h.unitsMarker, unitLine_none h.begin.2,
    unitLine_none h.stop.2, Text.markers, Text.markers, h.begin.1, h.stop.1]
  simp only [if_true, if_neg hne, if_neg hne.symm]
  rw [unitLine, h.units, units_prefix, if_pos rfl, unitText_eq h.word h.tail]
  simp only [Scan.mk.injEq]
  exact ⟨by omega, by omega, trivial⟩

lemma drop_file (f : File) : f.lines.drop (f.header.length + f.header'.length + 3) = f.data ++ f.stop :: f.footer := by
  have e : f.lines = (f.first :: (f.header ++ f.units :: (f.header' ++ [f.begin]))) ++ (f.data ++ f.stop :: f.footer) := by
    simp [File.lines]
  rw [e]
  apply List.drop_left'
  simp
  omega

/-! ## Properties -/

/-- C108: a file with energies (any word but `Wavelength` in the line of units, which is not the first line): the table consists of the
lines of the array in their order, with the wavelength of each energy and `ε1 + iε2`. Missing: files with wavelengths
(`C108_wavelength_refuted`, `C108_no_comma_refuted`), blank lines (`C108_blank_refuted`), the line of units at the top of the file
(`C108_units_first_refuted`). -/
theorem C108_energy_partial (T : Text) (K : PhysConst) (f : File) (u tail : List Char) (h : f.Is T u tail) (hu : u ≠ "Wavelength".toList)
    (rows : List (ℝ × ℝ × ℝ)) (hrows : f.data.map T.row = rows.map some) :
    T.load K f.lines = mkTable (rows.map fun r => K.c * K.h / (r.1 * 1e-9)) (rows.map fun r => ⟨r.2.1, r.2.2⟩) := by
  have hblank : ∀ l ∈ f.data, (!(T.fields l).isEmpty) = true := by
    intro l hl
    have h1 : T.row l ∈ f.data.map T.row := List.mem_map_of_mem hl
    rw [hrows] at h1
    obtain ⟨r, -, hr⟩ := List.mem_map.1 h1
    cases hf : T.fields l with
    | nil => rw [Text.row, hf] at hr; cases hr
    | cons a b => rfl
  have hm : ∀ rs : List (ℝ × ℝ × ℝ), (rs.map some).mapM id = some rs := by
    intro rs
    induction rs with
    | nil => rfl
    | cons r rs ih => simp [ih]
  rw [Text.load, scan_file h]
  simp only
  rw [if_neg (by omega), if_neg hu, Text.readCsv, drop_file, List.filter_append, List.filter_eq_self.2 hblank,
    show f.header.length + f.header'.length + 3 + f.data.length - (f.header.length + f.header'.length + 3) = f.data.length by omega,
    List.take_left, hrows, hm]
  simp only
  congr 1
  apply List.map_congr_left
  intro r _
  apply Complex.ext <;> simp

/-- C108: with at least two rows of distinct positive energies the dispersion takes the value of each row at the wavelength of its
energy. -/
theorem C108_value (T : Text) (K : PhysConst) (f : File) (u tail : List Char) (h : f.Is T u tail) (hu : u ≠ "Wavelength".toList)
    (rows : List (ℝ × ℝ × ℝ)) (hrows : f.data.map T.row = rows.map some) (h2 : 2 ≤ rows.length) (hpos : ∀ r ∈ rows, 0 < r.1)
    (hd : (rows.map Prod.fst).Nodup) (r : ℝ × ℝ × ℝ) (hr : r ∈ rows) :
    ∃ t lbda, T.load K f.lines = .ok t ∧ conversionWavelengthEnergy K r.1 = some lbda ∧ t.value lbda = .ok (some ⟨r.2.1, r.2.2⟩) := by
  have hch : 0 < K.c * K.h := mul_pos K.c_pos K.h_pos
  have hnd : (rows.map fun r => K.c * K.h / (r.1 * 1e-9)).Nodup := by
    rw [List.nodup_map_iff_inj_on (List.Nodup.of_map _ hd)]
    intro x hx y hy hxy
    have p1 := hpos x hx
    have p2 := hpos y hy
    have : x.1 = y.1 := by
      rw [div_eq_div_iff (by positivity) (by positivity)] at hxy
      have := mul_left_cancel₀ hch.ne' hxy
      linarith
    exact List.inj_on_of_nodup_map hd hx hy this
  have hz : (K.c * K.h / (r.1 * 1e-9), (⟨r.2.1, r.2.2⟩ : ℂ)) ∈
      (rows.map fun r => K.c * K.h / (r.1 * 1e-9)).zip (rows.map fun r => (⟨r.2.1, r.2.2⟩ : ℂ)) := by
    rw [List.zip_map']
    exact List.mem_map.2 ⟨r, hr, rfl⟩
  obtain ⟨t, ht, hv⟩ := C53_node _ _ (by simp) (by simpa using h2) hnd _ hz
  exact ⟨t, _, (C108_energy_partial T K f u tail h hu rows hrows).trans ht, energy_some K (hpos r hr).ne', hv⟩

/-- C108 fails for files with wavelengths: `Units=Wavelength,…` always raises `ValueError`. -/
theorem C108_wavelength_refuted (T : Text) (K : PhysConst) (f : File) (tail : List Char) (h : f.Is T "Wavelength".toList tail) :
    T.load K f.lines = .error .valueError := by
  rw [Text.load, scan_file h]
  simp only
  rw [if_neg (by omega), if_pos trivial]

/-- C108 fails for files with wavelengths whose line of units ends after the word: the word then contains the end of the line, so the
wavelengths are taken for energies, without a warning. -/
theorem C108_no_comma_refuted (T : Text) (K : PhysConst) (f : File) (h : f.Is T "Wavelength\n".toList [])
    (rows : List (ℝ × ℝ × ℝ)) (hrows : f.data.map T.row = rows.map some) :
    f.units = "Units=Wavelength\n".toList ∧
    T.load K f.lines = mkTable (rows.map fun r => K.c * K.h / (r.1 * 1e-9)) (rows.map fun r => ⟨r.2.1, r.2.2⟩) :=
  ⟨by rw [h.units]; decide, C108_energy_partial T K f _ _ h (by decide) rows hrows⟩

/-- C108 fails for arrays with a blank line: blank lines are counted but not read, so the line `End of array` is read as data and the
arithmetic with its words raises `TypeError`. -/
theorem C108_blank_refuted (T : Text) (K : PhysConst) (f : File) (u tail : List Char) (h : f.Is T u tail) (hu : u ≠ "Wavelength".toList)
    (hend : T.fields f.stop ≠ []) (hend' : T.row f.stop = none) (hblank : ∃ l ∈ f.data, T.fields l = []) :
    T.load K f.lines = .error .typeError := by
  rw [Text.load, scan_file h]
  simp only
  rw [if_neg (by omega), if_neg hu, Text.readCsv, drop_file, List.filter_append,
    show f.header.length + f.header'.length + 3 + f.data.length - (f.header.length + f.header'.length + 3) = f.data.length by omega]
  have hkeep : (!(T.fields f.stop).isEmpty) = true := by simpa using hend
  rw [List.filter_cons_of_pos (p := fun l => !(T.fields l).isEmpty) hkeep]
  have hlt : (f.data.filter fun l => !(T.fields l).isEmpty).length < f.data.length := by
    obtain ⟨l, hl, hl'⟩ := hblank
    apply List.length_filter_lt_length_iff_exists.2
    exact ⟨l, hl, by simp [hl']⟩
  have hmem : (none : Option (ℝ × ℝ × ℝ)) ∈ ((List.take f.data.length ((f.data.filter fun l => !(T.fields l).isEmpty) ++
      f.stop :: f.footer.filter fun l => !(T.fields l).isEmpty)).map T.row) := by
    refine List.mem_map.2 ⟨f.stop, ?_, hend'⟩
    rw [List.take_append]
    apply List.mem_append_right
    obtain ⟨n, hn⟩ : ∃ n, f.data.length - (f.data.filter fun l => !(T.fields l).isEmpty).length = n + 1 := ⟨_, (Nat.succ_pred_eq_of_pos (by omega)).symm⟩
    rw [hn]
    simp
  have hnone : ∀ L : List (Option (ℝ × ℝ × ℝ)), none ∈ L → L.mapM id = none := by
    intro L
    induction L with
    | nil => simp
    | cons a L ih =>
      intro hm
      cases a with
      | none => simp
      | some a =>
        have := ih (by simpa using hm)
        simp [this]
  rw [hnone _ hmem]

/-- C108 fails when the line of units is the first line of the file, or when there is none: `UnboundLocalError`. -/
theorem C108_units_first_refuted (T : Text) (K : PhysConst) (first : List Char) (others : List (List Char)) (h : ∀ l ∈ others, NoUnits l) :
    T.load K (first :: others) = .error .unboundLocal := by
  have key : ∀ (r : List (List Char)) (_ : ∀ l ∈ r, NoUnits l) (cnt : ℕ) (s : Scan), s.unit = none → (T.rest cnt r s).unit = none := by
    intro r
    induction r with
    | nil => intro _ cnt s hs; exact hs
    | cons l r ih =>
      intro hr cnt s hs
      rw [Text.rest, unitLine_none (hr l (by simp))]
      apply ih (fun x hx => hr x (by simp [hx]))
      unfold Text.markers
      split_ifs <;> exact hs
  have h1 : (T.loop 0 (first :: others) ⟨0, 0, none⟩).unit = none := by
    rw [loop_eq]
    apply key _ h
    unfold Text.markers
    split_ifs <;> rfl
  rw [Text.load]
  simp only
  rw [h1]

/-! ## Non-trivial cases -/

/-- White space as in ASCII files; four numbers can be read. -/
noncomputable def exampleText : Text where
  space := fun c => c == ' ' || c == '\n' || c == '\t'
  float := fun s => if s = "1.0".toList then some 1 else if s = "2.0".toList then some 2 else if s = "11.7".toList then some 11.7
    else if s = "0.3".toList then some 0.3 else none

/-- A file with two rows. -/
def exampleFile (units : List Char) : File :=
  ⟨"# SpectraRay\n".toList, ["Name=Si\n".toList], units, [], "Begin of array\n".toList,
    ["1.0 11.7 0.3\n".toList, "2.0 11.7 1.0\n".toList], "End of array\n".toList, ["\n".toList]⟩

lemma plain_name : exampleText.Plain "Name=Si\n".toList := by
  simp [Text.Plain, Text.NoMarker, NoUnits, Text.strip, exampleText, List.dropWhile, List.isPrefixOf]

lemma plain_row1 : exampleText.Plain "1.0 11.7 0.3\n".toList := by
  simp [Text.Plain, Text.NoMarker, NoUnits, Text.strip, exampleText, List.dropWhile, List.isPrefixOf]

lemma plain_row2 : exampleText.Plain "2.0 11.7 1.0\n".toList := by
  simp [Text.Plain, Text.NoMarker, NoUnits, Text.strip, exampleText, List.dropWhile, List.isPrefixOf]

lemma plain_end : exampleText.Plain "\n".toList := by
  simp [Text.Plain, Text.NoMarker, NoUnits, Text.strip, exampleText, List.dropWhile, List.isPrefixOf]

lemma noMarker_first : exampleText.NoMarker "# SpectraRay\n".toList := by
  simp [Text.NoMarker, Text.strip, exampleText, List.dropWhile]

lemma is_begin : exampleText.strip "Begin of array\n".toList = "Begin of array".toList ∧ NoUnits "Begin of array\n".toList := by
  simp [NoUnits, Text.strip, exampleText, List.dropWhile, List.isPrefixOf]

lemma is_end : exampleText.strip "End of array\n".toList = "End of array".toList ∧ NoUnits "End of array\n".toList := by
  simp [NoUnits, Text.strip, exampleText, List.dropWhile, List.isPrefixOf]

lemma exampleFile_is (u tail : List Char) (hw : ∀ c ∈ u, c ≠ '=' ∧ c ≠ ',') (ht : tail = [] ∨ ∃ t, tail = ',' :: t)
    (hm : exampleText.NoMarker ("Units=".toList ++ u ++ tail)) : (exampleFile ("Units=".toList ++ u ++ tail)).Is exampleText u tail where
  first := noMarker_first
  header := List.forall_mem_singleton.2 plain_name
  header' := fun l hl => absurd hl List.not_mem_nil
  data := List.forall_mem_cons.2 ⟨plain_row1, List.forall_mem_singleton.2 plain_row2⟩
  footer := List.forall_mem_singleton.2 plain_end
  units := rfl
  word := hw
  tail := ht
  unitsMarker := hm
  begin := is_begin
  stop := is_end

lemma row1 : exampleText.row "1.0 11.7 0.3\n".toList = some (1, 11.7, 0.3) := by
  simp [Text.row, Text.fields, exampleText, List.splitOnP_cons_eq_if_modifyHead]

lemma row2 : exampleText.row "2.0 11.7 1.0\n".toList = some (2, 11.7, 1) := by
  simp [Text.row, Text.fields, exampleText, List.splitOnP_cons_eq_if_modifyHead]

lemma exampleFile_rows (s : List Char) :
    (exampleFile s).data.map exampleText.row = [((1 : ℝ), (11.7 : ℝ), (0.3 : ℝ)), (2, 11.7, 1)].map some := by
  show ["1.0 11.7 0.3\n".toList, "2.0 11.7 1.0\n".toList].map exampleText.row = _
  rw [List.map_cons, List.map_cons, row1, row2]
  rfl

/-- The file with energies is read. -/
example (K : PhysConst) : ∃ t lbda, exampleText.load K (exampleFile ("Units=".toList ++ "Energy".toList ++ ", eV\n".toList)).lines = .ok t ∧
    conversionWavelengthEnergy K 2 = some lbda ∧ t.value lbda = .ok (some ⟨11.7, 1⟩) :=
  C108_value exampleText K _ _ _ (exampleFile_is _ _ (by simp) (Or.inr ⟨" eV\n".toList, by simp⟩)
    (by simp [Text.NoMarker, Text.strip, exampleText, List.dropWhile])) (by simp) _ (exampleFile_rows _) (by simp) (by simp)
    (by simp) (2, 11.7, 1) (by simp)

/-- The same file with `Units=Wavelength, nm`. -/
example (K : PhysConst) :
    exampleText.load K (exampleFile ("Units=".toList ++ "Wavelength".toList ++ ", nm\n".toList)).lines = .error .valueError :=
  C108_wavelength_refuted exampleText K _ _ (exampleFile_is _ _ (by simp) (Or.inr ⟨" nm\n".toList, by simp⟩)
    (by simp [Text.NoMarker, Text.strip, exampleText, List.dropWhile]))

/-- The same file with `Units=Wavelength` alone: the row at 2 nm becomes a row at the wavelength of 2 eV. -/
example (K : PhysConst) : exampleText.load K (exampleFile ("Units=".toList ++ "Wavelength\n".toList ++ [])).lines =
    mkTable [K.c * K.h / (1 * 1e-9), K.c * K.h / (2 * 1e-9)] [⟨11.7, 0.3⟩, ⟨11.7, 1⟩] :=
  (C108_no_comma_refuted exampleText K _ (exampleFile_is _ _ (by simp) (Or.inl rfl)
    (by simp [Text.NoMarker, Text.strip, exampleText, List.dropWhile])) _ (exampleFile_rows _)).2

/-- The same array with a blank line. -/
example (K : PhysConst) : exampleText.load K ({ exampleFile ("Units=".toList ++ "Energy".toList ++ ", eV\n".toList) with
    data := ["1.0 11.7 0.3\n".toList, "\n".toList, "2.0 11.7 1.0\n".toList] } : File).lines = .error .typeError := by
  have h := exampleFile_is "Energy".toList ", eV\n".toList (by simp) (Or.inr ⟨" eV\n".toList, by simp⟩)
    (by simp [Text.NoMarker, Text.strip, exampleText, List.dropWhile])
  refine C108_blank_refuted exampleText K _ "Energy".toList ", eV\n".toList ?_ (by simp) ?_ ?_ ?_
  · exact { h with data := List.forall_mem_cons.2 ⟨plain_row1, List.forall_mem_cons.2 ⟨plain_end, List.forall_mem_singleton.2 plain_row2⟩⟩ }
  · show exampleText.fields "End of array\n".toList ≠ []
    simp [Text.fields, exampleText, List.splitOnP_cons_eq_if_modifyHead]
  · show exampleText.row "End of array\n".toList = none
    simp [Text.row, Text.fields, exampleText, List.splitOnP_cons_eq_if_modifyHead]
  · refine ⟨"\n".toList, List.mem_cons_of_mem _ List.mem_cons_self, ?_⟩
    simp [Text.fields, exampleText, List.splitOnP_cons_eq_if_modifyHead]

/-- The line of units at the top. -/
example (K : PhysConst) : exampleText.load K ["Units=Energy, eV\n".toList, "Begin of array\n".toList, "1.0 11.7 0.3\n".toList,
    "End of array\n".toList] = .error .unboundLocal :=
  C108_units_first_refuted _ _ _ _ (List.forall_mem_cons.2 ⟨is_begin.2, List.forall_mem_cons.2 ⟨plain_row1.2, List.forall_mem_singleton.2 is_end.2⟩⟩)

end PyElli.SpectraRay
