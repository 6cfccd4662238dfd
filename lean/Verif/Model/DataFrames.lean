import Verif.Model.DispSum
import Verif.Model.Table

/-! # Data frames of dispersions: `/repo/src/elli/dispersions/base_dispersion.py:112-179`

A dispersion is its class family, its own function of the wavelength (`dielectric_function` of a `Dispersion`, `refractive_index` of an
`IndexDispersion`; the values and exceptions at one wavelength as in `Model/DispSum.lean`) and its `default_lbda_range`.

Simplifications: wavelengths are a one-dimensional array. Dispersions that return a number for an array of wavelengths are modelled by the
array with this number everywhere, as `pandas.DataFrame` repeats a number for all labels of the index (library behaviour). An array
operation raises if it raises for one of the elements. -/

namespace PyElli.Disp

/-- A dispersion object as seen by the functions below. -/
structure Src where
  /-- `isinstance(self, IndexDispersion)` -/
  isIndex : Bool
  /-- the object's own function at one wavelength -/
  value : ℝ → Val
  /-- `self.default_lbda_range` -/
  range : List ℝ

/-- `BaseDispersion.default_lbda_range = np.linspace(200, 1000, 801)`, `base_dispersion.py:26`. -/
noncomputable def defaultRange : List ℝ := (List.range 801).map fun i : ℕ => (200 : ℝ) + (i : ℝ) * ((1000 - 200) / 800)

/-- An object of a class without an own `default_lbda_range`. -/
noncomputable def Src.plain (isIndex : Bool) (value : ℝ → Val) : Src := ⟨isIndex, value, defaultRange⟩

/-- `TableEpsilon(lbda, epsilon)`, `/repo/src/elli/dispersions/table_epsilon.py:34-55`. -/
noncomputable def tableEpsilon (lbda : List ℝ) (epsilon : List ℂ) : Except PyErr Src :=
  match mkTable lbda epsilon with
  | .error e => .error e
  | .ok t => .ok ⟨false, t.value, lbda⟩

/-- `Table(lbda, n)`, `/repo/src/elli/dispersions/table_index.py:35-54`. -/
noncomputable def tableIndex (lbda : List ℝ) (n : List ℂ) : Except PyErr Src :=
  match mkTable lbda n with
  | .error e => .error e
  | .ok t => .ok ⟨true, t.value, lbda⟩

/-- `DispersionSum(a, b)` and `IndexDispersionSum(a, b)` for two dispersions of the same family, `base_dispersion.py:336-368, 379-413`: the
values are added, the class attribute `default_lbda_range` is not set again. -/
noncomputable def Src.sum (a b : Src) : Src := .plain a.isIndex fun x => Val.add (a.value x) (b.value x)

/-- `dielectric_function` of the object at one wavelength; for index dispersions `IndexDispersion.dielectric_function`,
`base_dispersion.py:310-311`. -/
noncomputable def Src.dielectric (d : Src) (x : ℝ) : Val := if d.isIndex then Val.app (· ^ 2) (d.value x) else d.value x

/-- The value of `get_refractive_index` at one wavelength, `base_dispersion.py:118-125`. -/
noncomputable def Src.refractiveIndex (d : Src) (x : ℝ) : Val := if d.isIndex then d.value x else Val.app Complex.sqrt (d.dielectric x)

/-- A function applied to an array of wavelengths. -/
def onArray (f : ℝ → Val) : List ℝ → Except PyErr (List (Option ℂ))
  | [] => .ok []
  | x :: xs =>
    match f x with
    | .error e => .error e
    | .ok v =>
      match onArray f xs with
      | .error e => .error e
      | .ok vs => .ok (v :: vs)

/-- `get_dielectric(lbda)`, `base_dispersion.py:112-116`. -/
noncomputable def getDielectric (d : Src) (lbda : Option (List ℝ)) : Except PyErr (List (Option ℂ)) :=
  onArray d.dielectric (lbda.getD d.range)

/-- `get_refractive_index(lbda)`, `base_dispersion.py:118-125`. -/
noncomputable def getIndex (d : Src) (lbda : Option (List ℝ)) : Except PyErr (List (Option ℂ)) :=
  onArray d.refractiveIndex (lbda.getD d.range)

/-- A `pandas.DataFrame` with the wavelengths as index and two columns (`none`: NaN). -/
structure Frame where
  index : List ℝ
  col1 : List (Option ℝ)
  col2 : List (Option ℝ)

/-- The frame made of an array of values, `base_dispersion.py:149-152` and `176-179`. -/
noncomputable def mkFrame (lbda : List ℝ) (conjugate : Bool) (values : List (Option ℂ)) : Frame where
  index := lbda
  col1 := values.map fun v => v.map Complex.re
  col2 := values.map fun v => v.map fun z => if conjugate then -z.im else z.im

/-- `get_dielectric_df(lbda, conjugate)`, `base_dispersion.py:127-152`. -/
noncomputable def getDielectricDf (d : Src) (lbda : Option (List ℝ)) (conjugate : Bool) : Except PyErr Frame :=
  let l := lbda.getD d.range
  match getDielectric d (some l) with
  | .error e => .error e
  | .ok eps => .ok (mkFrame l conjugate eps)

/-- `get_refractive_index_df(lbda, conjugate)`, `base_dispersion.py:154-179`. -/
noncomputable def getIndexDf (d : Src) (lbda : Option (List ℝ)) (conjugate : Bool) : Except PyErr Frame :=
  let l := lbda.getD d.range
  match getIndex d (some l) with
  | .error e => .error e
  | .ok nk => .ok (mkFrame l conjugate nk)

end PyElli.Disp
