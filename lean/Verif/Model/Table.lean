import Verif.Model.Kkr
import Mathlib.Data.List.Sort
import Mathlib.Data.Complex.Basic

/-! # Tabulated dispersions: `/repo/src/elli/dispersions/table_index.py`, `table_epsilon.py`

`scipy.interpolate.interp1d(x, y, kind="linear")` is modelled from its documentation and source (library behaviour): the rows are
sorted by `x` (stable), values outside the range raise `ValueError`, values inside are taken on the chord between the two neighbours found
by `searchsorted`. Simplifications: `kind="linear"` only; the formula is the one for complex data (for real data scipy delegates to
`numpy.interp`, which computes the same chords, and returns the value of a table with a single row). -/

namespace PyElli

/-- A table as stored by `interp1d`: rows sorted by wavelength. -/
structure Table where
  rows : List (ℝ × ℂ)

open Classical in
/-- The sorting done by `interp1d` (`assume_sorted=False`). -/
noncomputable def sortRows (rows : List (ℝ × ℂ)) : List (ℝ × ℂ) := rows.insertionSort fun a b => a.1 ≤ b.1

/-- `Table.__init__`, `/repo/src/elli/dispersions/table_index.py:40-54` and `TableEpsilon.__init__`,
`/repo/src/elli/dispersions/table_epsilon.py:39-55`, after the parameters were filled. -/
noncomputable def mkTable (lbda : List ℝ) (values : List ℂ) : Except PyErr Table :=
  if lbda.length = 0 then .error .invalidParameters
  else if values.length ≠ lbda.length then .error .invalidParameters
  else .ok ⟨sortRows (lbda.zip values)⟩

open Classical in
/-- Call of the interpolation at one wavelength: `Table.refractive_index` (`table_index.py:78-79`), `TableEpsilon.dielectric_function`
(`table_epsilon.py:77-78`). The value is `none` for NaN. -/
noncomputable def Table.value (t : Table) (x : ℝ) : Except PyErr (Option ℂ) :=
  let n := t.rows.length
  let row := fun i => t.rows.getD i (0, 0)
  if x < (row 0).1 ∨ (row (n - 1)).1 < x then .error .valueError
  else
    let idx := (t.rows.filter fun r => r.1 < x).length
    let hi := min (max idx 1) (n - 1)
    let lo := if hi = 0 then n - 1 else hi - 1
    .ok ((divN ((row hi).2 - (row lo).2) (((row hi).1 - (row lo).1 : ℝ) : ℂ)).map fun slope =>
      slope * ((x - (row lo).1 : ℝ) : ℂ) + (row lo).2)

end PyElli
