import Verif.Model.Importer

/-! # The wavelength axis of imported measurements: `/repo/src/elli/importer/woollam.py:77-231`, `/repo/src/elli/importer/nexus.py:27-142` -/

namespace PyElli.Importer

open PyElli

/-! ## `woollam.py` -/

/-- What pint makes of the line naming the unit (library behaviour). The registry has the context `spectroscopy` switched on
(`/repo/src/elli/units.py:5-6`), so energies, frequencies and wavenumbers are converted to the wavelength of such light.
* `length nm`: a length of so many nanometres;
* `spectral nm`: light of one such unit has this wavelength in nanometres;
* `incompatible`: `DimensionalityError`; `undefined`: `UndefinedUnitError`. -/
inductive UnitSort
  | length (nm : ℝ)
  | spectral (nm : ℝ)
  | incompatible
  | undefined

/-- `ureg(unit).to("nm").magnitude`, `woollam.py:90`; `none` for the two exceptions that are caught. -/
def UnitSort.scaling : UnitSort → Option ℝ
  | .length nm => some nm
  | .spectral nm => some nm
  | .incompatible => none
  | .undefined => none

/-- A row of the data frame: angle and wavelength label, then Ψ and Δ. Labels stay text where they are not converted. -/
abbrev Labelled := (ℝ × Line) × (ℝ × ℝ)

/-- `astype(float)` of one label; `float` reads a text. -/
def asFloat (float : List Char → Option ℝ) : Line → Except PyErr ℝ
  | .num x => .ok x
  | .text s => match float s with
    | some x => .ok x
    | none => .error .valueError
  | .other => .error .typeError

/-- The scaling of all labels. -/
noncomputable def scaleRows (float : List Char → Option ℝ) (s : ℝ) : List Labelled → Except PyErr (List Labelled)
  | [] => .ok []
  | ((a, w), v) :: rows =>
    match asFloat float w with
    | .error e => .error e
    | .ok x =>
      match scaleRows float s rows with
      | .error e => .error e
      | .ok rows' => .ok (((a, .num (x * s)), v) :: rows')

/-- `scale_to_nm`, `woollam.py:77-109`. Replacing the levels of the index replaces the label of every row. -/
noncomputable def scaleToNm (float : List Char → Option ℝ) (u : UnitSort) (rows : List Labelled) : Except PyErr (List Labelled) :=
  match u.scaling with
  | some s => scaleRows float s rows
  | none => .ok rows

/-- A line of a wvase table as pandas reads it: `Wavelength`, `Angle of Incidence`, Ψ, Δ and their errors. -/
structure WvaseRow where
  wavelength : Line
  aoi : ℝ
  psi : ℝ
  delta : ℝ
  psiErr : ℝ
  deltaErr : ℝ

open Classical in
/-- `_read_wvase_dataframe`, `woollam.py:112-138`, followed by `iloc[:, :-2]` (`woollam.py:219`). -/
noncomputable def wvaseFrame (C : Classes) (rows : List WvaseRow) : List Labelled :=
  (rows.filter fun r => decide (isFloat C r.wavelength)).map fun r => ((r.aoi, r.wavelength), (r.psi, r.delta))

/-- A line of a CompleteEASE table: the kind of data, wavelength, angle, Ψ, Δ and their errors. -/
structure EaseRow where
  kind : String
  wavelength : ℝ
  aoi : ℝ
  psi : ℝ
  delta : ℝ
  psiErr : ℝ
  deltaErr : ℝ

/-- `_read_complete_ease_dataframe`, `woollam.py:141-160`, followed by `iloc[:, :-2]`. -/
noncomputable def easeFrame (rows : List EaseRow) : List Labelled :=
  (rows.filter fun r => r.kind == "E").map fun r => ((r.aoi, .num r.wavelength), (r.psi, r.delta))

/-- The table of a file, by its format. -/
inductive WoollamTable
  | wvase (rows : List WvaseRow)
  | completeEase (rows : List EaseRow)

/-- The last lines of `read_woollam_psi_delta`, `woollam.py:209-219`. -/
noncomputable def woollamFrame (C : Classes) (float : List Char → Option ℝ) (u : UnitSort) : WoollamTable → Except PyErr (List Labelled)
  | .wvase rows => scaleToNm float u (wvaseFrame C rows)
  | .completeEase rows => scaleToNm float u (easeFrame rows)

/-! ## `nexus.py` -/

/-- `NexusGroupNames`, `nexus.py:27-44`. -/
structure GroupNames where
  entry : String := "entry"
  sample : String := "sample"
  instrument : String := "instrument"

/-- `full_instrument_path`, `nexus.py:36-39`. -/
def GroupNames.instrumentPath (n : GroupNames) : String := n.entry ++ "/" ++ n.instrument

/-- `full_sample_path`, `nexus.py:41-44`. -/
def GroupNames.samplePath (n : GroupNames) : String := n.entry ++ "/" ++ n.sample

/-- The argument `group_names`. -/
inductive NamesArg
  | none
  | names (n : GroupNames)
  | other

/-- A numpy array of numbers, of any number of axes. -/
inductive NdArray
  | num (x : ℝ)
  | arr (l : List NdArray)

/-- Indexing with numbers, the remaining axes in full (`data[0, 0, i, k, :]`). -/
def NdArray.index : NdArray → List ℕ → Except PyErr NdArray
  | a, [] => .ok a
  | .num _, _ :: _ => .error .indexError
  | .arr l, i :: is => match l[i]? with
    | some a => a.index is
    | none => .error .indexError

/-- An array of one axis. -/
def NdArray.vector : NdArray → Option (List ℝ)
  | .num _ => none
  | .arr l => l.mapM fun a => match a with
    | .num x => some x
    | .arr _ => none

/-- A dataset of the file: text, or numbers with their attribute `units`. -/
inductive Dataset
  | text (s : String)
  | array (units : String) (a : NdArray)

/-- A file: the datasets by their path. -/
abbrev H5File := String → Option Dataset

/-- `np.array(h5file[path])` for an array of one axis. -/
def readVector (f : H5File) (path : String) : Except PyErr (List ℝ) :=
  match f path with
  | some (.array _ a) => match a.vector with
    | some l => .ok l
    | none => .error .valueError
  | some (.text _) => .error .typeError
  | none => .error .keyError

/-- `np.array(h5file[path])`. -/
def readArray (f : H5File) (path : String) : Except PyErr NdArray :=
  match f path with
  | some (.array _ a) => .ok a
  | some (.text _) => .error .typeError
  | none => .error .keyError

/-- The values assigned to one column at one angle, `nexus.py:84-85`. Simplification: pandas would also accept a single number. -/
def column (data : NdArray) (idx : List ℕ) (n : ℕ) : Except PyErr (List ℝ) :=
  match data.index idx with
  | .error e => .error e
  | .ok a => match a.vector with
    | none => .error .valueError
    | some l => if l.length = n then .ok l else .error .valueError

/-- The loop `nexus.py:83-85`, from angle number `i` on: rows by angle and wavelength. `indexing` is the position of angle and
observable. -/
noncomputable def fillRows (data : NdArray) (indexing : ℕ → ℕ → List ℕ) (wls : List ℝ) : ℕ → List ℝ → Except PyErr (List Meas)
  | _, [] => .ok []
  | i, a :: aois =>
    match column data (indexing i 0) wls.length with
    | .error e => .error e
    | .ok psi =>
      match column data (indexing i 1) wls.length with
      | .error e => .error e
      | .ok delta =>
        match fillRows data indexing wls (i + 1) aois with
        | .error e => .error e
        | .ok rest => .ok ((wls.zip (delta.zip psi)).map (fun p => ((a, p.1), p.2)) ++ rest)

/-- `read_data`, `nexus.py:64-87`; the angles are taken to be distinct. Rows hold Δ, then Ψ. -/
noncomputable def readData (f : H5File) (wavelengthPath aoisPath dataPath : String) (indexing : ℕ → ℕ → List ℕ) : Except PyErr (List Meas) :=
  match readVector f aoisPath with
  | .error e => .error e
  | .ok aois =>
    match readVector f wavelengthPath with
    | .error e => .error e
    | .ok w =>
      match readArray f dataPath with
      | .error e => .error e
      | .ok data => fillRows data indexing (w.map (· / 10)) 0 aois

/-- `read_legacy`, `nexus.py:89-97`. -/
noncomputable def readLegacy (f : H5File) (n : GroupNames) : Except PyErr (List Meas) :=
  readData f (n.instrumentPath ++ "/spectrometer/wavelength") (n.instrumentPath ++ "/angle_of_incidence") (n.samplePath ++ "/measured_data")
    fun i k => [0, 0, i, k]

/-- `read_nx_opt_def`, `nexus.py:99-105`. -/
noncomputable def readOptDef (f : H5File) (n : GroupNames) : Except PyErr (List Meas) :=
  readData f (n.entry ++ "/data_collection/wavelength_spectrum") (n.instrumentPath ++ "/angle_of_incidence")
    (n.entry ++ "/data_collection/measured_data") fun i k => [i, k]

/-- A dataset that must be text (`[()].decode("utf-8")`). -/
def decode : Dataset → Except PyErr String
  | .text s => .ok s
  | .array _ _ => .error .attributeError

/-- The search for the data type, `nexus.py:117-128`. -/
def dataType (f : H5File) (n : GroupNames) : Except PyErr String :=
  match f (n.entry ++ "/sample/data_type") with
  | some d => decode d
  | none => match f (n.entry ++ "/data_collection/data_type") with
    | some d => decode d
    | none => .error .valueError

/-- `read_nexus_psi_delta`, `nexus.py:47-142`. -/
noncomputable def readNexus (f : H5File) : NamesArg → Except PyErr (List Meas)
  | .other => .error .valueError
  | .none => go f {}
  | .names n => go f n
where
  go (f : H5File) (n : GroupNames) : Except PyErr (List Meas) :=
    match dataType f n with
    | .error e => .error e
    | .ok t =>
      if t = "psi/delta" then readLegacy f n
      else if t = "Psi/Delta" then readOptDef f n
      else .error .notImplemented

end PyElli.Importer
