import Verif.Model.Solver

/-!
# The solvers with the range of double precision numbers

The same steps as in `Verif.Model.Solver`, but every complex number of the matrix products is `none` as soon as its real or imaginary part is not
a finite double (infinity or NaN). Only the range is modelled, not the rounding: a number in range is exact. Indices, angles and Fresnel
coefficients are taken as exact finite numbers; the range is followed from the exponentials on.

Why `none` absorbs: with numpy's product `(ac - bd) + i(ad + bc)`, a factor with an infinite or NaN component makes both components infinite or NaN
(`inf * 0`, `inf - inf` are NaN), and a sum with such a term has such a component. For a quotient with such a numerator the same holds. A finite
number divided by an infinite one is 0 or NaN, depending on the components; this value is left open (parameter `u`).
-/

namespace PyElli

open Matrix Complex

/-- A complex number of numpy; `none`: a component is infinite or NaN. -/
abbrev Fl := Option ℂ

/-- Both components are below the largest power of two that is no double. -/
def InRange (z : ℂ) : Prop := |z.re| < 2 ^ 1024 ∧ |z.im| < 2 ^ 1024

open Classical in
/-- An exact result stored as a complex double. -/
noncomputable def fl (z : ℂ) : Fl := if InRange z then some z else none

open Classical in
/-- numpy's complex product: the four real products and their two sums must be in range. -/
noncomputable def mulF : Fl → Fl → Fl
  | some a, some b =>
    if |a.re * b.re| < 2 ^ 1024 ∧ |a.im * b.im| < 2 ^ 1024 ∧ |a.re * b.im| < 2 ^ 1024 ∧ |a.im * b.re| < 2 ^ 1024 then fl (a * b) else none
  | _, _ => none

noncomputable def addF : Fl → Fl → Fl
  | some a, some b => fl (a + b)
  | _, _ => none

open Classical in
/-- numpy's complex quotient; `u a` is what a finite number `a` divided by a non-finite one gives. -/
noncomputable def divF (u : ℂ → Fl) : Fl → Fl → Fl
  | some a, some b => if b = 0 then none else fl (a / b)
  | some a, none => u a
  | none, _ => none

/-- Matrices of such numbers. -/
abbrev MatF (n : ℕ) := Fin n → Fin n → Fl

/-- `np.einsum("ij...,jk...->ik...", A, B)` for 2x2 matrices, `solver2x2.py:92-97`. -/
noncomputable def mulF2 (A B : MatF 2) : MatF 2 := fun i k => addF (mulF (A i 0) (B 0 k)) (mulF (A i 1) (B 1 k))

/-- `A @ B` for 4x4 matrices (`solver4x4.py:152`, 355, 360). -/
noncomputable def mulF4 (A B : MatF 4) : MatF 4 := fun i k =>
  addF (addF (addF (mulF (A i 0) (B 0 k)) (mulF (A i 1) (B 1 k))) (mulF (A i 2) (B 2 k))) (mulF (A i 3) (B 3 k))

/-! ## `Solver2x2` -/

/-- The factor `[[em, r em], [r ep, ep]] / t` of one loop step, `solver2x2.py:89-97`. -/
noncomputable def layerMatrixF (u : ℂ → Fl) (delta r t : ℂ) : MatF 2 :=
  let em := fl (Complex.exp (-I * delta))
  let ep := fl (Complex.exp (I * delta))
  ![![divF u em (some t), divF u (mulF (some r) em) (some t)], ![divF u (mulF (some r) ep) (some t), divF u ep (some t)]]

/-- The interface matrix, `solver2x2.py:82-83`. -/
noncomputable def interfaceMatrixF (u : ℂ → Fl) (r t : ℂ) : MatF 2 :=
  ![![divF u (some 1) (some t), divF u (some r) (some t)], ![divF u (some r) (some t), divF u (some 1) (some t)]]

/-- The loop, `solver2x2.py:85-97`. -/
noncomputable def loop2x2F (u : ℂ → Fl) (lbda : ℝ) (last : Medium) : MatF 2 → MatF 2 → List (ℝ × Medium) → MatF 2 × MatF 2
  | Ms, Mp, [] => (Ms, Mp)
  | Ms, Mp, (d, n, th) :: rest =>
    let nx := nextMedium rest last
    let f := fresnel n nx.1 th nx.2
    let delta := phase2x2 lbda d n th
    loop2x2F u lbda last (mulF2 Ms (layerMatrixF u delta f.1 f.2.2.1)) (mulF2 Mp (layerMatrixF u delta f.2.1 f.2.2.2)) rest

/-- `Ms` and `Mp` after the loop, `solver2x2.py:81-97`. -/
noncomputable def matrices2x2F (u : ℂ → Fl) (asin : ℂ → ℂ) (s : Stack) (theta lbda : ℝ) : MatF 2 × MatF 2 :=
  let first := frontMedium asin s theta
  let last := backMedium asin s theta
  let inner := innerMedia asin (nOf s.front) theta s.layers
  let nx := nextMedium inner last
  let f := fresnel first.1 nx.1 first.2 nx.2
  loop2x2F u lbda last (interfaceMatrixF u f.1 f.2.2.1) (interfaceMatrixF u f.2.1 f.2.2.2) inner

/-- The reflection and transmission coefficients of `Solver2x2.calculate` (`solver2x2.py:99-102`): `(r_p, r_s, t_p, t_s)`. -/
noncomputable def calculate2x2F (u : ℂ → Fl) (asin : ℂ → ℂ) (s : Stack) (theta lbda : ℝ) : Fl × Fl × Fl × Fl :=
  let M := matrices2x2F u asin s theta lbda
  (divF u (M.2 1 0) (M.2 0 0), divF u (M.1 1 0) (M.1 0 0), divF u (some 1) (M.2 0 0), divF u (some 1) (M.1 0 0))

/-! ## `Solver4x4` -/

/-- A finite exact matrix as an array of doubles. -/
noncomputable def flMat {n : ℕ} (A : Matrix (Fin n) (Fin n) ℂ) : MatF n := fun i j => fl (A i j)

/-- A propagator that returns doubles. -/
abbrev PropagatorF := Mat4 → ℝ → ℝ → MatF 4

/-- `PropagatorExpm.calculate_propagation`, `solver4x4.py:100-117`: an entry of the exponential that is too large for a double is not finite in the
result of `expm`; the inner steps of `expm` (scaling and squaring) are not modelled. -/
noncomputable def propExpmF : PropagatorF := fun delta thickness lbda => flMat (propExpm delta thickness lbda)

/-- `PropagatorEig.calculate_propagation`, `solver4x4.py:123-152`: `w @ p @ w_i` with the diagonal matrix `p` of exponentials. `eig` is
`np.linalg.eig`. -/
noncomputable def propEigF (eig : Mat4 → (Fin 4 → ℂ) × Mat4) : PropagatorF := fun delta thickness lbda =>
  let q := (eig delta).1
  let w := (eig delta).2
  let i := takeIdx (argsort (lexLe q)) (argsort_length _)
  let w' : Mat4 := fun a k => w a (i k)
  let p : MatF 4 := fun a k => if a = k then fl (Complex.exp (q (i a) * (2 * I) * thickness * Real.pi / lbda)) else some 0
  mulF4 (mulF4 (flMat w') p) (flMat w'⁻¹)

/-- The loop over the reversed layers, `solver4x4.py:340, 351-355`. -/
noncomputable def loop4x4F (prop : PropagatorF) (kx : ℂ) (lbda : ℝ) (layers : List (ℝ × Tensor)) (exit : MatF 4) : MatF 4 :=
  layers.reverse.foldl (fun m l => mulF4 (prop (buildDelta kx l.2) (-l.1) lbda) m) exit

/-- `m_t` after line 360 of `solver4x4.py`. -/
noncomputable def transfer4x4F (prop : PropagatorF) (s : Stack) (theta lbda : ℝ) (exitEig : (Fin 4 → ℂ) × Mat4) : MatF 4 :=
  mulF4 (flMat (isoHalfInv (kxOf s theta) s.front)) (loop4x4F prop (kxOf s theta) lbda s.layers (flMat (exitMatrix s (kxOf s theta) exitEig)))

open Classical in
/-- `np.linalg.inv` of a 2x2 matrix, `solver4x4.py:365`. A singular matrix (`LinAlgError`) is `none`. If no entry is finite, the elimination
computes `inf / inf` or with NaN and no entry of the inverse is finite. What it gives if only some entries are finite is left open (`v`). -/
noncomputable def invF2 (v : MatF 2 → MatF 2) (A : MatF 2) : MatF 2 :=
  match A 0 0, A 0 1, A 1 0, A 1 1 with
  | some a, some b, some c, some d => fun i j => if a * d - b * c = 0 then none else fl ((!![a, b; c, d] : Mat2)⁻¹ i j)
  | none, none, none, none => fun _ _ => none
  | _, _, _, _ => v A

/-- The Jones matrices of `Solver4x4.calculate`, `solver4x4.py:362-374`. -/
noncomputable def calculate4x4F (v : MatF 2 → MatF 2) (prop : PropagatorF) (s : Stack) (theta lbda : ℝ) (exitEig : (Fin 4 → ℂ) × Mat4) : MatF 2 × MatF 2 :=
  let m := transfer4x4F prop s theta lbda exitEig
  let tit : MatF 2 := ![![m 2 2, m 2 0], ![m 0 2, m 0 0]]
  let trt : MatF 2 := ![![m 3 2, m 3 0], ![m 1 2, m 1 0]]
  (mulF2 trt (invF2 v tit), invF2 v tit)

end PyElli
