import Verif.Model.Structure
import Verif.Model.Solver

/-! # `/repo/src/elli/plot/structure.py` -/

namespace PyElli.Plot

open PyElli

/-- `get_permittivity_profile`, `/repo/src/elli/plot/structure.py:17-24`. -/
noncomputable def permittivityProfile (s : Struct) (lbda : ℝ) : List (WithTop ℝ × NumTensor) :=
  (⊤, s.front.getTensor lbda) ::
    ((profileList s.layers lbda).map (fun sl => ((sl.d : WithTop ℝ), sl.eps)) ++ [(⊤, s.back.getTensor lbda)])

/-- `sqrt((v.T * eps * v)[0, 0, 0])`, `/repo/src/elli/plot/structure.py:35`: `v` has shape (3,) and the products are elementwise, so the entry picked is
`v[0] * eps[0, 0, 0] * v[0]`. -/
noncomputable def indexAlong (v : Fin 3 → ℝ) (eps : NumTensor) : Option ℂ :=
  (eps 0 0).map fun e => Complex.sqrt (v 0 * e * v 0)

/-- `E_X`, `/repo/src/elli/utils.py:196`. -/
def eX : Fin 3 → ℝ := ![1, 0, 0]

/-- `get_index_profile`, `/repo/src/elli/plot/structure.py:27-36`, at one wavelength. -/
noncomputable def indexProfile (s : Struct) (lbda : ℝ) (v : Fin 3 → ℝ) : List (WithTop ℝ × Option ℂ) :=
  (permittivityProfile s lbda).map fun p => (p.1, indexAlong v p.2)

/-- `np.hstack((0.0, np.cumsum(h[1:-1])))`, `/repo/src/elli/plot/structure.py:49`. -/
noncomputable def boundaries (h : List ℝ) : List ℝ := h.scanl (· + ·) 0

open Classical in
/-- Positions in `draw_structure`, `/repo/src/elli/plot/structure.py:49-55`, from the thicknesses of the layers (`h[1:-1]`). -/
noncomputable def positions (h : List ℝ) (margin : ℝ) : List ℝ :=
  let zmax := h.sum
  let zmargin := if zmax ≠ 0 then margin * zmax else 1e-6
  [-zmargin] ++ boundaries h ++ [zmax + zmargin]

open Classical in
/-- What matplotlib shows at position `x` for values given on the intervals between consecutive positions: `step(where="post")` and
`pcolormesh` with one value less than positions. Further values are not used. -/
noncomputable def shown {α : Type} : List ℝ → List α → ℝ → Option α
  | z :: z' :: zs, n :: ns, x => if z ≤ x ∧ x < z' then some n else shown (z' :: zs) ns x
  | _, _, _ => none

/-- `draw_structure(method="graph")`, `/repo/src/elli/plot/structure.py:39-58, 66-80`: the drawn value at depth `x`. The last value is repeated. -/
noncomputable def drawGraph (s : Struct) (lbda margin x : ℝ) : Option (Option ℝ) :=
  let n := ((indexProfile s lbda eX).map fun p => p.2.map Complex.re)
  shown (positions ((profileList s.layers lbda).map Slice.d) margin) (n ++ n.getLast?.toList) x

/-- `draw_structure(method="section")`, `/repo/src/elli/plot/structure.py:39-60, 83-101`. -/
noncomputable def drawSection (s : Struct) (lbda margin x : ℝ) : Option (Option ℝ) :=
  shown (positions ((profileList s.layers lbda).map Slice.d) margin) ((indexProfile s lbda eX).map fun p => p.2.map Complex.re) x

end PyElli.Plot
