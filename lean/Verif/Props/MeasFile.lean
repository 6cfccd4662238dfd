import Verif.Model.MeasFile
import Verif.Spec.MeasFile
import Verif.Props.Importer

/-! # C96: the wavelength axis of imported measurements -/

namespace PyElli.Importer

open PyElli PyElli.Regex Spec.MeasFile Spec.Importer

/-! ## Woollam -/

lemma scaleRows_ok (float : List Char → Option ℝ) (s : ℝ) (rows : List Labelled) (x : Labelled → ℝ)
    (h : ∀ r ∈ rows, asFloat float r.1.2 = .ok (x r)) :
    scaleRows float s rows = .ok (rows.map fun r => ((r.1.1, .num (x r * s)), r.2)) := by
  induction rows with
  | nil => rfl
  | cons r rows ih =>
    obtain ⟨⟨a, w⟩, v⟩ := r
    have h1 := h ((a, w), v) (by simp)
    simp only at h1
    simp only [scaleRows, h1, ih fun r hr => h r (by simp [hr]), List.map_cons]

/-- What a user reads in a CompleteEASE file: the lines of the kind `E`. -/
def easeMeas (w : ℝ → ℝ) (rows : List EaseRow) : List Labelled :=
  (rows.filter fun r => r.kind == "E").map fun r => ((r.aoi, .num (w r.wavelength)), (r.psi, r.delta))

/-- C96 for files whose axis is a length (nm, Å, µm, …): every ellipsometry line of the table becomes one row with its angle, Ψ and Δ, in
the order of the file, at its wavelength in nanometres. Missing: other axis units (`C96_woollam_energy_refuted`). -/
theorem C96_woollam_length_partial (C : Classes) (float : List Char → Option ℝ) (nm : ℝ) :
    (∀ rows : List EaseRow, woollamFrame C float (.length nm) (.completeEase rows) =
      .ok (easeMeas (wavelengthOf (.length nm)) rows)) ∧
    (∀ (rows : List WvaseRow) (x : WvaseRow → ℝ), (∀ r ∈ rows, isFloat C r.wavelength ∧ asFloat float r.wavelength = .ok (x r)) →
      woollamFrame C float (.length nm) (.wvase rows) =
        .ok (rows.map fun r => ((r.aoi, .num (wavelengthOf (.length nm) (x r))), (r.psi, r.delta)))) := by
  constructor
  · intro rows
    simp only [woollamFrame, scaleToNm, UnitSort.scaling]
    rw [scaleRows_ok float nm (easeFrame rows) (fun r => match r.1.2 with | .num x => x | _ => 0)]
    · simp [easeFrame, easeMeas, List.map_map, Function.comp_def, wavelengthOf]
    · intro r hr
      obtain ⟨q, -, rfl⟩ := List.mem_map.1 hr
      rfl
  · intro rows x h
    have hf : wvaseFrame C rows = rows.map fun r => ((r.aoi, r.wavelength), (r.psi, r.delta)) := by
      unfold wvaseFrame
      rw [List.filter_eq_self.2 fun r hr => by simpa using (h r hr).1]
    simp only [woollamFrame, scaleToNm, UnitSort.scaling, hf]
    clear hf
    induction rows with
    | nil => rfl
    | cons r rows ih =>
      have ih' := ih fun q hq => h q (by simp [hq])
      simp only [List.map_cons, scaleRows, (h r (by simp)).2, ih', wavelengthOf]

/-- C96 fails for an axis in energy (eV), frequency or wavenumber: pint converts such a unit because of the context `spectroscopy`, no
warning is given, and every label is multiplied with the conversion factor although the wavelength is the factor divided by the label. A
label other than 1 (or -1) therefore gets a wrong wavelength. -/
theorem C96_woollam_energy_refuted (C : Classes) (float : List Char → Option ℝ) (nm : ℝ) (hnm : nm ≠ 0) (rows : List EaseRow) :
    woollamFrame C float (.spectral nm) (.completeEase rows) = .ok (easeMeas (fun x => x * nm) rows) ∧
    ∀ x, x ≠ 0 → (x * nm = wavelengthOf (.reciprocal nm) x ↔ x = 1 ∨ x = -1) := by
  refine ⟨(C96_woollam_length_partial C float nm).1 rows, fun x hx => ?_⟩
  simp only [wavelengthOf]
  rw [eq_div_iff hx]
  constructor
  · intro h
    have h1 : nm * ((x - 1) * (x + 1)) = 0 := by linear_combination h
    rcases mul_eq_zero.1 h1 with h | h
    · exact absurd h hnm
    · rcases mul_eq_zero.1 h with h | h
      · left; linarith
      · right; linarith
  · rintro (rfl | rfl) <;> ring

/-- With a unit pint does not know or cannot convert, the labels stay as they are in the file (the code warns about it). -/
theorem C96_woollam_unknown_unit (C : Classes) (float : List Char → Option ℝ) (u : UnitSort) (h : u = .incompatible ∨ u = .undefined)
    (rows : List EaseRow) : woollamFrame C float u (.completeEase rows) = .ok (easeMeas id rows) := by
  rcases h with rfl | rfl <;> rfl

/-- C96, lines that are not data: a line of a wvase table whose first cell has no digit is left out; a first cell that is text with a digit
but no number makes reading fail with `ValueError`. -/
theorem C96_wvase_other_lines (C : Classes) (float : List Char → Option ℝ) (nm : ℝ) (r : WvaseRow) (rows : List WvaseRow) (s : List Char)
    (hr : r.wavelength = .text s) :
    ((∀ c ∈ s, C.digit c = false) →
      woollamFrame C float (.length nm) (.wvase (r :: rows)) = woollamFrame C float (.length nm) (.wvase rows)) ∧
    ((∃ c ∈ s, C.digit c = true) → float s = none → woollamFrame C float (.length nm) (.wvase (r :: rows)) = .error .valueError) := by
  constructor
  · intro h
    have hn : ¬ isFloat C r.wavelength := by
      rw [hr, (C70_digit C s).1]
      rintro ⟨c, hc, hd⟩
      rw [h c hc] at hd
      cases hd
    simp only [woollamFrame, wvaseFrame]
    rw [List.filter_cons_of_neg (by simpa using hn)]
  · intro h hf
    have hy : isFloat C r.wavelength := by
      rw [hr, (C70_digit C s).1]
      exact h
    simp only [woollamFrame, wvaseFrame]
    rw [List.filter_cons_of_pos (by simpa using hy)]
    simp only [List.map_cons, scaleToNm, UnitSort.scaling, scaleRows, hr, asFloat, hf]

/-! ## NeXus -/

lemma vector_map (l : List ℝ) : (NdArray.arr (l.map NdArray.num)).vector = some l := by
  simp only [NdArray.vector]
  induction l with
  | nil => rfl
  | cons x l ih =>
    rw [List.map_cons, List.mapM_cons, ih]
    rfl

/-- The array of one angle: Ψ and Δ over the wavelengths (further observables may follow). -/
def angleBlock (psi delta : List ℝ) (more : List NdArray) : NdArray :=
  .arr (.arr (psi.map .num) :: .arr (delta.map .num) :: more)

/-- What is measured at one angle. -/
structure Scan where
  aoi : ℝ
  psi : List ℝ
  delta : List ℝ
  more : List NdArray

/-- The rows of a list of scans over common wavelengths. -/
noncomputable def scanRows (wls : List ℝ) (scans : List Scan) : List Meas :=
  scans.flatMap fun s => (wls.zip (s.delta.zip s.psi)).map fun p => ((s.aoi, p.1), p.2)

lemma fill_scans (data : NdArray) (indexing : ℕ → ℕ → List ℕ) (wls : List ℝ) (scans : List Scan) : ∀ i,
    (∀ j, (hj : j < scans.length) → column data (indexing (i + j) 0) wls.length = .ok scans[j].psi ∧
      column data (indexing (i + j) 1) wls.length = .ok scans[j].delta) →
    fillRows data indexing wls i (scans.map Scan.aoi) = .ok (scanRows wls scans) := by
  induction scans with
  | nil => intro i _; rfl
  | cons s scans ih =>
    intro i h
    obtain ⟨h1, h2⟩ := h 0 (by simp)
    simp only [Nat.add_zero, List.getElem_cons_zero] at h1 h2
    have h3 := ih (i + 1) fun j hj => by
      have := h (j + 1) (by simpa using hj)
      simp only [List.getElem_cons_succ] at this
      rw [show i + 1 + j = i + (j + 1) by omega]
      exact this
    simp only [List.map_cons, fillRows, h1, h2, h3, scanRows, List.flatMap_cons]

lemma column_block (blocks : List NdArray) (pre : List ℕ) (data : NdArray) (hd : ∀ is, data.index (pre ++ is) = (NdArray.arr blocks).index is)
    (j : ℕ) (hj : j < blocks.length) (psi delta : List ℝ) (more : List NdArray) (hb : blocks[j] = angleBlock psi delta more) (n : ℕ)
    (hp : psi.length = n) (hdl : delta.length = n) :
    column data (pre ++ [j, 0]) n = .ok psi ∧ column data (pre ++ [j, 1]) n = .ok delta := by
  have hg : blocks[j]? = some (angleBlock psi delta more) := by rw [List.getElem?_eq_getElem hj, hb]
  constructor
  · unfold column
    rw [hd]
    simp [NdArray.index, hg, angleBlock, vector_map, hp]
  · unfold column
    rw [hd]
    simp [NdArray.index, hg, angleBlock, vector_map, hdl]

/-- The scans as stored. -/
def blocks (scans : List Scan) : List NdArray := scans.map fun s => angleBlock s.psi s.delta s.more

lemma fill_data (scans : List Scan) (wls : List ℝ) (pre : List ℕ) (data : NdArray)
    (hd : ∀ is, data.index (pre ++ is) = (NdArray.arr (blocks scans)).index is)
    (hl : ∀ s ∈ scans, s.psi.length = wls.length ∧ s.delta.length = wls.length) :
    fillRows data (fun i k => pre ++ [i, k]) wls 0 (scans.map Scan.aoi) = .ok (scanRows wls scans) := by
  refine fill_scans data _ wls scans 0 fun j hj => ?_
  rw [Nat.zero_add]
  have hs := hl scans[j] (List.getElem_mem hj)
  exact column_block (blocks scans) pre data hd j (by simpa [blocks] using hj) scans[j].psi scans[j].delta scans[j].more
    (by simp [blocks]) wls.length hs.1 hs.2

/-- The names a caller means. -/
def NamesArg.value : NamesArg → Option GroupNames
  | .none => some {}
  | .names n => some n
  | .other => Option.none

lemma readNexus_go {f : H5File} {arg : NamesArg} {n : GroupNames} (h : arg.value = some n) : readNexus f arg = readNexus.go f n := by
  cases arg with
  | none => obtain rfl := Option.some.inj h; rfl
  | names m => obtain rfl := Option.some.inj h; rfl
  | other => cases h

/-- C96 for NeXus files in both layouts, with wavelengths in Å: every Ψ and Δ of the file is in the result under its angle and its
wavelength in nanometres. Missing: wavelengths in other units (`C96_nexus_units_refuted`), renamed sample groups
(`C96_nexus_sample_refuted`). -/
theorem C96_nexus_partial (f : H5File) (arg : NamesArg) (n : GroupNames) (hn : arg.value = some n) (scans : List Scan) (wl : List ℝ)
    (u₁ u₂ u₃ : String) (hl : ∀ s ∈ scans, s.psi.length = wl.length ∧ s.delta.length = wl.length)
    (ha : f (n.instrumentPath ++ "/angle_of_incidence") = some (.array u₁ (.arr (scans.map fun s => .num s.aoi))))
    (hfile :
      (f (n.entry ++ "/sample/data_type") = some (.text "psi/delta") ∧
        f (n.instrumentPath ++ "/spectrometer/wavelength") = some (.array u₂ (.arr (wl.map .num))) ∧
        ∃ r₁ r₂, f (n.samplePath ++ "/measured_data") = some (.array u₃ (.arr (.arr (.arr (blocks scans) :: r₁) :: r₂)))) ∨
      (f (n.entry ++ "/sample/data_type") = none ∧ f (n.entry ++ "/data_collection/data_type") = some (.text "Psi/Delta") ∧
        f (n.entry ++ "/data_collection/wavelength_spectrum") = some (.array u₂ (.arr (wl.map .num))) ∧
        f (n.entry ++ "/data_collection/measured_data") = some (.array u₃ (.arr (blocks scans))))) :
    readNexus f arg = .ok (scanRows (wl.map (wavelengthOf (.length 0.1))) scans) := by
  have hw : wl.map (wavelengthOf (.length 0.1)) = wl.map (· / 10) := by
    refine List.map_congr_left fun x _ => ?_
    simp only [wavelengthOf]
    ring
  have hlen : ∀ s ∈ scans, s.psi.length = (wl.map (· / 10)).length ∧ s.delta.length = (wl.map (· / 10)).length := by simpa using hl
  have haoi : readVector f (n.instrumentPath ++ "/angle_of_incidence") = .ok (scans.map Scan.aoi) := by
    simp only [readVector, ha]
    rw [show (scans.map fun s => NdArray.num s.aoi) = (scans.map Scan.aoi).map NdArray.num by simp [Function.comp_def], vector_map]
  rw [readNexus_go hn, hw]
  unfold readNexus.go dataType
  rcases hfile with ⟨h1, h2, r₁, r₂, h3⟩ | ⟨h0, h1, h2, h3⟩
  · simp only [h1, decode, if_true, readLegacy, readData, haoi]
    have h4 : readVector f (n.instrumentPath ++ "/spectrometer/wavelength") = .ok wl := by simp only [readVector, h2, vector_map]
    simp only [h4, readArray, h3]
    refine fill_data scans (wl.map (· / 10)) [0, 0] _ (fun is => ?_) hlen
    simp [NdArray.index]
  · have hne : ("Psi/Delta" : String) ≠ "psi/delta" := by decide
    simp only [h0, h1, decode, if_neg hne, if_true, readOptDef, readData, haoi]
    have h4 : readVector f (n.entry ++ "/data_collection/wavelength_spectrum") = .ok wl := by simp only [readVector, h2, vector_map]
    simp only [h4, readArray, h3]
    exact fill_data scans (wl.map (· / 10)) [] _ (fun is => rfl) hlen

lemma column_any (blocks : List NdArray) (pre : List ℕ) (data : NdArray) (hd : ∀ is, data.index (pre ++ is) = (NdArray.arr blocks).index is)
    (j : ℕ) (hj : j < blocks.length) (psi delta : List ℝ) (more : List NdArray) (hb : blocks[j] = angleBlock psi delta more) (n : ℕ) :
    column data (pre ++ [j, 0]) n = (if psi.length = n then .ok psi else .error .valueError) ∧
    column data (pre ++ [j, 1]) n = (if delta.length = n then .ok delta else .error .valueError) := by
  have hg : blocks[j]? = some (angleBlock psi delta more) := by rw [List.getElem?_eq_getElem hj, hb]
  constructor
  · unfold column
    rw [hd]
    simp [NdArray.index, hg, angleBlock, vector_map]
  · unfold column
    rw [hd]
    simp [NdArray.index, hg, angleBlock, vector_map]

lemma fill_misfit (scans : List Scan) (wls : List ℝ) (pre : List ℕ) (data : NdArray)
    (hd : ∀ is, data.index (pre ++ is) = (NdArray.arr (blocks scans)).index is)
    (hl : ∃ s ∈ scans, s.psi.length ≠ wls.length ∨ s.delta.length ≠ wls.length) :
    fillRows data (fun i k => pre ++ [i, k]) wls 0 (scans.map Scan.aoi) = .error .valueError := by
  have hcol : ∀ (j : ℕ) (hj : j < scans.length),
      column data (pre ++ [j, 0]) wls.length = (if scans[j].psi.length = wls.length then .ok scans[j].psi else .error .valueError) ∧
      column data (pre ++ [j, 1]) wls.length = (if scans[j].delta.length = wls.length then .ok scans[j].delta else .error .valueError) :=
    fun j hj => column_any (blocks scans) pre data hd j (by simpa [blocks] using hj) _ _ scans[j].more (by simp [blocks]) _
  clear hd
  suffices H : ∀ (rest : List Scan) (i : ℕ), (∀ (j : ℕ) (hj : j < rest.length),
      column data (pre ++ [i + j, 0]) wls.length = (if rest[j].psi.length = wls.length then .ok rest[j].psi else .error .valueError) ∧
      column data (pre ++ [i + j, 1]) wls.length = (if rest[j].delta.length = wls.length then .ok rest[j].delta else .error .valueError)) →
      (∃ s ∈ rest, s.psi.length ≠ wls.length ∨ s.delta.length ≠ wls.length) →
      fillRows data (fun i k => pre ++ [i, k]) wls i (rest.map Scan.aoi) = .error .valueError from
    H scans 0 (by simpa using hcol) hl
  intro rest
  induction rest with
  | nil => rintro i - ⟨s, hs, -⟩; simp at hs
  | cons s rest ih =>
    intro i h hex
    obtain ⟨h1, h2⟩ := h 0 (by simp)
    simp only [Nat.add_zero, List.getElem_cons_zero] at h1 h2
    simp only [List.map_cons, fillRows, h1, h2]
    by_cases hp : s.psi.length = wls.length
    · by_cases hdl : s.delta.length = wls.length
      · have h3 := ih (i + 1) (fun j hj => by
          have := h (j + 1) (by simpa using hj)
          simp only [List.getElem_cons_succ] at this
          rw [show i + 1 + j = i + (j + 1) by omega]
          exact this) (by
          obtain ⟨q, hq, hne⟩ := hex
          rcases List.mem_cons.1 hq with rfl | hq
          · rcases hne with hne | hne
            · exact (hne hp).elim
            · exact (hne hdl).elim
          · exact ⟨q, hq, hne⟩)
        simp [hp, hdl, h3]
      · simp [hp, hdl]
    · simp [hp]

/-- C96: data that do not fit the wavelengths are refused: if at some angle Ψ or Δ has more or fewer values than there are wavelengths, reading
raises `ValueError`, in both layouts; nothing is cut off or filled up. -/
theorem C96_nexus_lengths (f : H5File) (arg : NamesArg) (n : GroupNames) (hn : arg.value = some n) (scans : List Scan) (wl : List ℝ)
    (u₁ u₂ u₃ : String) (hl : ∃ s ∈ scans, s.psi.length ≠ wl.length ∨ s.delta.length ≠ wl.length)
    (ha : f (n.instrumentPath ++ "/angle_of_incidence") = some (.array u₁ (.arr (scans.map fun s => .num s.aoi))))
    (hfile :
      (f (n.entry ++ "/sample/data_type") = some (.text "psi/delta") ∧
        f (n.instrumentPath ++ "/spectrometer/wavelength") = some (.array u₂ (.arr (wl.map .num))) ∧
        ∃ r₁ r₂, f (n.samplePath ++ "/measured_data") = some (.array u₃ (.arr (.arr (.arr (blocks scans) :: r₁) :: r₂)))) ∨
      (f (n.entry ++ "/sample/data_type") = none ∧ f (n.entry ++ "/data_collection/data_type") = some (.text "Psi/Delta") ∧
        f (n.entry ++ "/data_collection/wavelength_spectrum") = some (.array u₂ (.arr (wl.map .num))) ∧
        f (n.entry ++ "/data_collection/measured_data") = some (.array u₃ (.arr (blocks scans))))) :
    readNexus f arg = .error .valueError := by
  have hlen : ∃ s ∈ scans, s.psi.length ≠ (wl.map (· / 10)).length ∨ s.delta.length ≠ (wl.map (· / 10)).length := by simpa using hl
  have haoi : readVector f (n.instrumentPath ++ "/angle_of_incidence") = .ok (scans.map Scan.aoi) := by
    simp only [readVector, ha]
    rw [show (scans.map fun s => NdArray.num s.aoi) = (scans.map Scan.aoi).map NdArray.num by simp [Function.comp_def], vector_map]
  rw [readNexus_go hn]
  unfold readNexus.go dataType
  rcases hfile with ⟨h1, h2, r₁, r₂, h3⟩ | ⟨h0, h1, h2, h3⟩
  · simp only [h1, decode, if_true, readLegacy, readData, haoi]
    have h4 : readVector f (n.instrumentPath ++ "/spectrometer/wavelength") = .ok wl := by simp only [readVector, h2, vector_map]
    simp only [h4, readArray, h3]
    refine fill_misfit scans (wl.map (· / 10)) [0, 0] _ (fun is => ?_) hlen
    simp [NdArray.index]
  · have hne : ("Psi/Delta" : String) ≠ "psi/delta" := by decide
    simp only [h0, h1, decode, if_neg hne, if_true, readOptDef, readData, haoi]
    have h4 : readVector f (n.entry ++ "/data_collection/wavelength_spectrum") = .ok wl := by simp only [readVector, h2, vector_map]
    simp only [h4, readArray, h3]
    exact fill_misfit scans (wl.map (· / 10)) [] _ (fun is => rfl) hlen

lemma mem_scanRows {wls : List ℝ} {scans : List Scan} (i j : ℕ) (hi : i < scans.length) (hj : j < wls.length)
    (hp : scans[i].psi.length = wls.length) (hd : scans[i].delta.length = wls.length) :
    ((scans[i].aoi, wls[j]), (scans[i].delta[j]'(by omega), scans[i].psi[j]'(by omega))) ∈ scanRows wls scans := by
  unfold scanRows
  rw [List.mem_flatMap]
  refine ⟨scans[i], List.getElem_mem hi, List.mem_map.2 ⟨(wls[j], (scans[i].delta[j]'(by omega), scans[i].psi[j]'(by omega))), ?_, rfl⟩⟩
  rw [List.mem_iff_getElem]
  exact ⟨j, by simp; omega, by simp⟩

/-- The rows of `C96_nexus_partial` contain every measurement: at each angle and wavelength the Ψ and Δ of the file; there are as many
rows as measurements. -/
theorem C96_nexus_rows (wls : List ℝ) (scans : List Scan) (hl : ∀ s ∈ scans, s.psi.length = wls.length ∧ s.delta.length = wls.length) :
    (scanRows wls scans).length = scans.length * wls.length ∧
    ∀ (i j : ℕ) (hi : i < scans.length) (hj : j < wls.length),
      ((scans[i].aoi, wls[j]), (scans[i].delta[j]'(by have := hl _ (List.getElem_mem hi); omega),
        scans[i].psi[j]'(by have := hl _ (List.getElem_mem hi); omega))) ∈ scanRows wls scans := by
  refine ⟨?_, fun i j hi hj => ?_⟩
  · induction scans with
    | nil => simp [scanRows]
    | cons s scans ih =>
      have h1 := hl s (by simp)
      have h2 := ih fun q hq => hl q (by simp [hq])
      simp only [scanRows, List.flatMap_cons, List.length_append, List.length_map, List.length_zip, h1.1, h1.2, min_self,
        List.length_cons] at h2 ⊢
      rw [h2]
      ring
  · have h := hl _ (List.getElem_mem hi)
    exact mem_scanRows i j hi hj h.1 h.2

/-- C96 fails for NeXus files with wavelengths in nanometres: the unit stored with the dataset is never looked at and all values are
divided by 10. So is every axis that is not in Å. -/
theorem C96_nexus_units_refuted (f : H5File) (scans : List Scan) (wl : List ℝ) (hl : ∀ s ∈ scans, s.psi.length = wl.length ∧ s.delta.length = wl.length)
    (ha : f "entry/instrument/angle_of_incidence" = some (.array "degree" (.arr (scans.map fun s => .num s.aoi))))
    (h1 : f "entry/sample/data_type" = some (.text "psi/delta"))
    (h2 : f "entry/instrument/spectrometer/wavelength" = some (.array "nm" (.arr (wl.map .num))))
    (h3 : f "entry/sample/measured_data" = some (.array "degree" (.arr [.arr [.arr (blocks scans)]]))) :
    readNexus f .none = .ok (scanRows (wl.map (· / 10)) scans) ∧
    ∀ x : ℝ, x ≠ 0 → x / 10 ≠ wavelengthOf (.length 1) x := by
  constructor
  · have h := C96_nexus_partial f .none {} rfl scans wl "degree" "nm" "degree" hl ha (Or.inl ⟨h1, h2, [], [], h3⟩)
    rw [h]
    congr 2
    refine List.map_congr_left fun x _ => ?_
    simp only [wavelengthOf]
    ring
  · intro x hx h
    simp only [wavelengthOf] at h
    apply hx
    linarith

/-- C96 fails for files whose sample group has another name, although the caller can give that name: the data type is always looked for
in `sample`, so the file is refused. -/
theorem C96_nexus_sample_refuted (f : H5File) (n : GroupNames)
    (h1 : f (n.entry ++ "/sample/data_type") = none) (h2 : f (n.entry ++ "/data_collection/data_type") = none) :
    readNexus f (.names n) = .error .valueError ∧
    ∃ f' : H5File, f' "entry/probe/data_type" = some (.text "psi/delta") ∧
      readNexus f' (.names { sample := "probe" }) = .error .valueError := by
  constructor
  · simp [readNexus, readNexus.go, dataType, h1, h2]
  · refine ⟨fun p => if p = "entry/probe/data_type" then some (.text "psi/delta") else none, by simp, ?_⟩
    have e1 : ("entry" ++ "/sample/data_type" : String) ≠ "entry/probe/data_type" := by decide
    have e2 : ("entry" ++ "/data_collection/data_type" : String) ≠ "entry/probe/data_type" := by decide
    simp only [readNexus, readNexus.go, dataType, if_neg e1, if_neg e2]

/-- C96: files of other types and wrong arguments are refused; the documentation promises `ValueError` for another type, the code raises
`NotImplementedError`. -/
theorem C96_nexus_refused (f : H5File) (n : GroupNames) (t : String) (h1 : f (n.entry ++ "/sample/data_type") = some (.text t))
    (ht : t ≠ "psi/delta") (ht' : t ≠ "Psi/Delta") :
    readNexus f (.names n) = .error .notImplemented ∧ readNexus f .other = .error .valueError := by
  constructor
  · simp [readNexus, readNexus.go, dataType, h1, decode, ht, ht']
  · rfl

/-- A small NeXus file: two angles, two wavelengths in Å. -/
noncomputable def sampleFile : H5File := fun p =>
  if p = "entry/sample/data_type" then some (.text "psi/delta")
  else if p = "entry/instrument/angle_of_incidence" then some (.array "degree" (.arr [.num 50, .num 60]))
  else if p = "entry/instrument/spectrometer/wavelength" then some (.array "angstrom" (.arr [.num 4000, .num 5000]))
  else if p = "entry/sample/measured_data" then some (.array "degree" (.arr [.arr [.arr
    [angleBlock [10, 11] [100, 101] [], angleBlock [20, 21] [110, 111] []]]]))
  else none

/-- Non-trivial case of C96_nexus_partial and C96_nexus_rows. -/
example : readNexus sampleFile .none = .ok (scanRows ([4000, 5000].map (wavelengthOf (.length 0.1)))
    [⟨50, [10, 11], [100, 101], []⟩, ⟨60, [20, 21], [110, 111], []⟩]) :=
  C96_nexus_partial sampleFile .none {} rfl [⟨50, [10, 11], [100, 101], []⟩, ⟨60, [20, 21], [110, 111], []⟩] [4000, 5000] "degree" "angstrom"
    "degree" (by simp) rfl (Or.inl ⟨rfl, rfl, [], [], rfl⟩)

/-- Non-trivial case of C96_nexus_lengths: the same file with three Δ at the second angle. -/
example (f : H5File) (h1 : f "entry/sample/data_type" = some (.text "psi/delta"))
    (h2 : f "entry/instrument/angle_of_incidence" = some (.array "degree" (.arr [.num 50, .num 60])))
    (h3 : f "entry/instrument/spectrometer/wavelength" = some (.array "angstrom" (.arr [.num 4000, .num 5000])))
    (h4 : f "entry/sample/measured_data" = some (.array "degree" (.arr [.arr [.arr
      [angleBlock [10, 11] [100, 101] [], angleBlock [20, 21] [110, 111, 112] []]]]))) : readNexus f .none = .error .valueError :=
  C96_nexus_lengths f .none {} rfl [⟨50, [10, 11], [100, 101], []⟩, ⟨60, [20, 21], [110, 111, 112], []⟩] [4000, 5000] "degree" "angstrom"
    "degree" ⟨⟨60, [20, 21], [110, 111, 112], []⟩, by simp, by simp⟩ h2 (Or.inl ⟨h1, h3, [], [], h4⟩)

/-- Non-trivial case of C96_woollam_energy_refuted: light of 2 eV. -/
example (C : Classes) (float : List Char → Option ℝ) :
    woollamFrame C float (.spectral 1240) (.completeEase [⟨"E", 2, 70, 30, 120, 0.1, 0.1⟩]) =
      .ok [((70, .num 2480), (30, 120))] ∧ wavelengthOf (.reciprocal 1240) 2 = 620 := by
  refine ⟨?_, by norm_num [wavelengthOf]⟩
  rw [(C96_woollam_energy_refuted C float 1240 (by norm_num) _).1]
  norm_num [easeMeas]

end PyElli.Importer
