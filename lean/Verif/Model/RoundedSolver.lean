import Verif.Model.Solver

/-!
# `Solver2x2` in computer arithmetic

`solver2x2.py:74-102` with every operation on complex numbers replaced by that of a machine. The indices `n_list` and angles `th_list`
(`solver2x2.py:35-60, 72`) are taken as the numbers the code has at that point. Multiplication by `1j` and negation are exact in IEEE arithmetic;
`einsum` sums two products in the order of the index. Overflow and underflow are not modelled here (see `Model/Overflow.lean`).
-/

namespace PyElli

open Complex

/-- The operations of a machine on complex numbers, and its number for `2 * np.pi`. -/
structure Machine where
  add : ℂ → ℂ → ℂ
  mul : ℂ → ℂ → ℂ
  div : ℂ → ℂ → ℂ
  cos : ℂ → ℂ
  exp : ℂ → ℂ
  twoPi : ℂ

namespace Machine

variable (m : Machine)

/-- `Solver2x2.fresnel`, `solver2x2.py:117-140`, in the order `r_s, r_p, t_s, t_p`. -/
def fresnel (ni nt thi tht : ℂ) : ℂ × ℂ × ℂ × ℂ :=
  let ci := m.cos thi
  let ct := m.cos tht
  (m.div (m.add (m.mul ni ci) (-m.mul nt ct)) (m.add (m.mul ni ci) (m.mul nt ct)),
    m.div (m.add (m.mul nt ci) (-m.mul ni ct)) (m.add (m.mul nt ci) (m.mul ni ct)),
    m.div (m.mul (m.mul 2 ni) ci) (m.add (m.mul ni ci) (m.mul nt ct)),
    m.div (m.mul (m.mul 2 ni) ci) (m.add (m.mul nt ci) (m.mul ni ct)))

/-- The interface matrix `[[1, r], [r, 1]] / t`, `solver2x2.py:82-83`. -/
def interfaceMatrix (r t : ℂ) : Mat2 := !![m.div 1 t, m.div r t; m.div r t, m.div 1 t]

/-- The factor `[[em, r em], [r ep, ep]] / t` of one loop step, `solver2x2.py:89-97`. -/
def layerMatrix (delta r t : ℂ) : Mat2 :=
  let em := m.exp (-I * delta)
  let ep := m.exp (I * delta)
  !![m.div em t, m.div (m.mul r em) t; m.div (m.mul r ep) t, m.div ep t]

/-- `delta` of one layer, `solver2x2.py:74-76`: `2 * np.pi * n * np.cos(th) / lbda`, then times the thickness. -/
def phase (lbda d n th : ℂ) : ℂ := m.mul (m.div (m.mul (m.mul m.twoPi n) (m.cos th)) lbda) d

/-- `np.einsum("ij...,jk...->ik...", A, B)` for 2x2 matrices, `solver2x2.py:78, 92-97`. -/
def matMul (A B : Mat2) : Mat2 := fun i k => m.add (m.mul (A i 0) (B 0 k)) (m.mul (A i 1) (B 1 k))

/-- The loop `solver2x2.py:85-97`. -/
def loop (lbda : ℝ) (last : Medium) : Mat2 → Mat2 → List (ℝ × Medium) → Mat2 × Mat2
  | Ms, Mp, [] => (Ms, Mp)
  | Ms, Mp, (d, n, th) :: rest =>
    let nx := nextMedium rest last
    let f := m.fresnel n nx.1 th nx.2
    let delta := m.phase lbda d n th
    loop lbda last (m.matMul Ms (m.layerMatrix delta f.1 f.2.2.1)) (m.matMul Mp (m.layerMatrix delta f.2.1 f.2.2.2)) rest

/-- `Ms` and `Mp` after the loop, `solver2x2.py:81-97`. -/
def matrices (lbda : ℝ) (first last : Medium) (inner : List (ℝ × Medium)) : Mat2 × Mat2 :=
  let nx := nextMedium inner last
  let f := m.fresnel first.1 nx.1 first.2 nx.2
  m.loop lbda last (m.interfaceMatrix f.1 f.2.2.1) (m.interfaceMatrix f.2.1 f.2.2.2) inner

/-- The coefficients `rtotp, rtots, ttotp, ttots`, `solver2x2.py:99-102`. -/
def coefficients (lbda : ℝ) (first last : Medium) (inner : List (ℝ × Medium)) : ℂ × ℂ × ℂ × ℂ :=
  let M := m.matrices lbda first last inner
  (m.div (M.2 1 0) (M.2 0 0), m.div (M.1 1 0) (M.1 0 0), m.div 1 (M.2 0 0), m.div 1 (M.1 0 0))

end Machine

/-- The same in exact arithmetic, as in `calculate2x2`. -/
noncomputable def coefficients2x2 (lbda : ℝ) (first last : Medium) (inner : List (ℝ × Medium)) : ℂ × ℂ × ℂ × ℂ :=
  let nx := nextMedium inner last
  let f := fresnel first.1 nx.1 first.2 nx.2
  let M := loop2x2 lbda last (interfaceMatrix f.1 f.2.2.1) (interfaceMatrix f.2.1 f.2.2.2) inner
  (M.2 1 0 / M.2 0 0, M.1 1 0 / M.1 0 0, 1 / M.2 0 0, 1 / M.1 0 0)

end PyElli
