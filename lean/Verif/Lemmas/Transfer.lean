import Verif.Model.Solver
import Verif.Lemmas.MatExp
import Verif.Lemmas.Sqrt
import Mathlib.Tactic

/-! Transfer matrices of isotropic media: s and p blocks, and their embedding in the 4x4 matrices. -/

namespace PyElli

open Matrix Complex

/-- Tangential fields (E_y, H_x) of the two s waves. -/
noncomputable def Ds (n c : ℂ) : Mat2 := !![1, 1; -(n * c), n * c]
/-- Tangential fields (E_x, H_y) of the two p waves. -/
noncomputable def Dp (n c : ℂ) : Mat2 := !![c, -c; n, n]
noncomputable def DsInv (n c : ℂ) : Mat2 := !![1 / 2, -(1 / (2 * (n * c))); 1 / 2, 1 / (2 * (n * c))]
noncomputable def DpInv (n c : ℂ) : Mat2 := !![1 / (2 * c), 1 / (2 * n); -(1 / (2 * c)), 1 / (2 * n)]

/-- s block of the delta matrix. -/
noncomputable def deltaS (kx eps : ℂ) : Mat2 := !![0, -1; kx ^ 2 - eps, 0]
/-- p block of the delta matrix. -/
noncomputable def deltaP (kx eps : ℂ) : Mat2 := !![0, 1 - kx ^ 2 / eps; eps, 0]

lemma Ds_mul_inv {n c : ℂ} (hn : n ≠ 0) (hc : c ≠ 0) : Ds n c * DsInv n c = 1 := by
  unfold Ds DsInv
  rw [Matrix.mul_fin_two, Matrix.one_fin_two]
  congr! 1
  congr! 1 <;> · ext i; fin_cases i <;> · simp; try field_simp; try ring

lemma Dp_mul_inv {n c : ℂ} (hn : n ≠ 0) (hc : c ≠ 0) : Dp n c * DpInv n c = 1 := by
  unfold Dp DpInv
  ext i j
  fin_cases i <;> fin_cases j <;> simp [Matrix.mul_apply, Fin.sum_univ_two] <;> field_simp <;> ring

lemma DsInv_mul {n c : ℂ} (hn : n ≠ 0) (hc : c ≠ 0) : DsInv n c * Ds n c = 1 :=
  mul_eq_one_comm.1 (Ds_mul_inv hn hc)

lemma DpInv_mul {n c : ℂ} (hn : n ≠ 0) (hc : c ≠ 0) : DpInv n c * Dp n c = 1 :=
  mul_eq_one_comm.1 (Dp_mul_inv hn hc)

lemma Ds_inv_eq {n c : ℂ} (hn : n ≠ 0) (hc : c ≠ 0) : (Ds n c)⁻¹ = DsInv n c :=
  Matrix.inv_eq_right_inv (Ds_mul_inv hn hc)

lemma Dp_inv_eq {n c : ℂ} (hn : n ≠ 0) (hc : c ≠ 0) : (Dp n c)⁻¹ = DpInv n c :=
  Matrix.inv_eq_right_inv (Dp_mul_inv hn hc)

lemma Ds_isUnit {n c : ℂ} (hn : n ≠ 0) (hc : c ≠ 0) : IsUnit (Ds n c) :=
  IsUnit.of_mul_eq_one _ (Ds_mul_inv hn hc)

lemma Dp_isUnit {n c : ℂ} (hn : n ≠ 0) (hc : c ≠ 0) : IsUnit (Dp n c) :=
  IsUnit.of_mul_eq_one _ (Dp_mul_inv hn hc)

lemma diagonal_two (a b : ℂ) : Matrix.diagonal ![a, b] = !![a, 0; 0, b] := by
  ext i j
  fin_cases i <;> fin_cases j <;> simp

lemma deltaS_diag {kx eps n c : ℂ} (hn : n ≠ 0) (hc : c ≠ 0) (hn2 : n ^ 2 = eps) (hc2 : c ^ 2 = 1 - (kx / n) ^ 2) :
    deltaS kx eps = Ds n c * Matrix.diagonal ![n * c, -(n * c)] * (Ds n c)⁻¹ := by
  rw [Ds_inv_eq hn hc, diagonal_two]
  have h : n ^ 2 * c ^ 2 = eps - kx ^ 2 := by
    rw [hc2, ← hn2]
    field_simp
  unfold deltaS Ds DsInv
  ext i j
  fin_cases i <;> fin_cases j <;> simp [Matrix.mul_apply, Fin.sum_univ_two] <;> field_simp
  · ring
  · linear_combination 2 * h

lemma deltaP_diag {kx eps n c : ℂ} (hn : n ≠ 0) (hc : c ≠ 0) (hn2 : n ^ 2 = eps) (hc2 : c ^ 2 = 1 - (kx / n) ^ 2) :
    deltaP kx eps = Dp n c * Matrix.diagonal ![n * c, -(n * c)] * (Dp n c)⁻¹ := by
  rw [Dp_inv_eq hn hc, diagonal_two]
  have h : n ^ 2 * c ^ 2 = n ^ 2 - kx ^ 2 := by
    rw [hc2]
    field_simp
  subst hn2
  unfold deltaP Dp DpInv
  ext i j
  fin_cases i <;> fin_cases j <;> simp [Matrix.mul_apply, Fin.sum_univ_two] <;> field_simp
  · linear_combination -2 * h
  · ring

/-- Propagation over `-d` for a 2x2 block. -/
noncomputable def charMat (D : Mat2) (lbda d : ℝ) : Mat2 :=
  NormedSpace.exp ((I * ((-d : ℝ) : ℂ) * (wavenumber lbda : ℂ)) • D)

lemma charS_mul {kx eps n c : ℂ} (hn : n ≠ 0) (hc : c ≠ 0) (hn2 : n ^ 2 = eps) (hc2 : c ^ 2 = 1 - (kx / n) ^ 2)
    (lbda d : ℝ) :
    charMat (deltaS kx eps) lbda d * Ds n c =
      Ds n c * !![Complex.exp (-I * (2 * Real.pi * n * c / lbda * d)), 0; 0, Complex.exp (I * (2 * Real.pi * n * c / lbda * d))] := by
  unfold charMat
  rw [deltaS_diag hn hc hn2 hc2, exp_diag_conj _ _ (Ds_isUnit hn hc), Matrix.mul_assoc, Ds_inv_eq hn hc, DsInv_mul hn hc,
    Matrix.mul_one]
  congr 1
  ext i j
  unfold wavenumber
  fin_cases i <;> fin_cases j <;> simp [Matrix.diagonal]
  · congr 1; ring
  · congr 1; ring

lemma charP_mul {kx eps n c : ℂ} (hn : n ≠ 0) (hc : c ≠ 0) (hn2 : n ^ 2 = eps) (hc2 : c ^ 2 = 1 - (kx / n) ^ 2)
    (lbda d : ℝ) :
    charMat (deltaP kx eps) lbda d * Dp n c =
      Dp n c * !![Complex.exp (-I * (2 * Real.pi * n * c / lbda * d)), 0; 0, Complex.exp (I * (2 * Real.pi * n * c / lbda * d))] := by
  unfold charMat
  rw [deltaP_diag hn hc hn2 hc2, exp_diag_conj _ _ (Dp_isUnit hn hc), Matrix.mul_assoc, Dp_inv_eq hn hc, DpInv_mul hn hc,
    Matrix.mul_one]
  congr 1
  ext i j
  unfold wavenumber
  fin_cases i <;> fin_cases j <;> simp [Matrix.diagonal]
  · congr 1; ring
  · congr 1; ring

lemma layerMatrix_eq (delta r t : ℂ) :
    layerMatrix delta r t = !![Complex.exp (-I * delta), 0; 0, Complex.exp (I * delta)] * interfaceMatrix r t := by
  unfold layerMatrix interfaceMatrix
  ext i j
  fin_cases i <;> fin_cases j <;> simp [Matrix.mul_apply, Fin.sum_univ_two] <;> ring

lemma Ds_interface {n c n' c' : ℂ} (hn : n ≠ 0) (hc : c ≠ 0) (h : n * c + n' * c' ≠ 0) :
    Ds n c * interfaceMatrix ((n * c - n' * c') / (n * c + n' * c')) (2 * n * c / (n * c + n' * c')) = Ds n' c' := by
  unfold interfaceMatrix Ds
  ext i j
  fin_cases i <;> fin_cases j <;> simp [Matrix.mul_apply, Fin.sum_univ_two] <;> field_simp <;> ring

lemma Dp_interface {n c n' c' : ℂ} (hn : n ≠ 0) (hc : c ≠ 0) (h : n' * c + n * c' ≠ 0) :
    Dp n c * interfaceMatrix ((n' * c - n * c') / (n' * c + n * c')) (2 * n * c / (n' * c + n * c')) = Dp n' c' := by
  have h' : c * n' + n * c' ≠ 0 := by rwa [mul_comm c]
  unfold interfaceMatrix Dp
  ext i j
  fin_cases i <;> fin_cases j <;> simp [Matrix.mul_apply, Fin.sum_univ_two] <;> field_simp <;> ring

/-- The denominators of `Solver2x2` along a chain of media: `t` is not zero at an interface (`n c ≠ 0`) and the Fresnel denominators do not
vanish. -/
def RegularChain : Medium → List Medium → Prop
  | _, [] => True
  | m, m' :: rest => m.1 * Complex.cos m.2 ≠ 0 ∧ m.1 * Complex.cos m.2 + m'.1 * Complex.cos m'.2 ≠ 0 ∧
      m'.1 * Complex.cos m.2 + m.1 * Complex.cos m'.2 ≠ 0 ∧ RegularChain m' rest

/-- All denominators of `Solver2x2.calculate` before the final division. -/
def Regular2x2 (asin : ℂ → ℂ) (s : Stack) (theta : ℝ) : Prop :=
  RegularChain (frontMedium asin s theta)
    ((innerMedia asin (nOf s.front) theta s.layers).map Prod.snd ++ [backMedium asin s theta])

noncomputable def prodS (kx : ℂ) (lbda : ℝ) (layers : List (ℝ × Tensor)) : Mat2 :=
  (layers.map fun l => charMat (deltaS kx (l.2 0 0)) lbda l.1).prod

noncomputable def prodP (kx : ℂ) (lbda : ℝ) (layers : List (ℝ × Tensor)) : Mat2 :=
  (layers.map fun l => charMat (deltaP kx (l.2 0 0)) lbda l.1).prod

lemma cos_sq_of_asin {asin : ℂ → ℂ} (h : ∀ z, Complex.sin (asin z) = z) (z : ℂ) :
    Complex.cos (asin z) ^ 2 = 1 - z ^ 2 := by
  have := Complex.sin_sq_add_cos_sq (asin z)
  rw [h z] at this
  linear_combination this

lemma nOf_sq (eps : Tensor) : nOf eps ^ 2 = eps 0 0 := csqrt_sq _

lemma loop2x2_eq (asin : ℂ → ℂ) (hasin : ∀ z, Complex.sin (asin z) = z) (n0 : ℂ) (theta lbda : ℝ) (last : Medium)
    (layers : List (ℝ × Tensor)) (Ms Mp Ys Yp : Mat2)
    (hs : Ms = Ys * Ds (nextMedium (innerMedia asin n0 theta layers) last).1
      (Complex.cos (nextMedium (innerMedia asin n0 theta layers) last).2))
    (hp : Mp = Yp * Dp (nextMedium (innerMedia asin n0 theta layers) last).1
      (Complex.cos (nextMedium (innerMedia asin n0 theta layers) last).2))
    (hreg : ∀ m rest, (innerMedia asin n0 theta layers).map Prod.snd ++ [last] = m :: rest → RegularChain m rest) :
    loop2x2 lbda last Ms Mp (innerMedia asin n0 theta layers) =
      (Ys * prodS (n0 * (Real.sin (deg2rad theta) : ℂ)) lbda layers * Ds last.1 (Complex.cos last.2),
       Yp * prodP (n0 * (Real.sin (deg2rad theta) : ℂ)) lbda layers * Dp last.1 (Complex.cos last.2)) := by
  induction layers generalizing Ms Mp Ys Yp with
  | nil => simp [innerMedia, loop2x2, prodS, prodP, hs, hp, nextMedium]
  | cons l rest ih =>
    obtain ⟨d, eps⟩ := l
    set inner := innerMedia asin n0 theta rest with hinner
    have hcons : innerMedia asin n0 theta ((d, eps) :: rest) =
        (d, nOf eps, snellAngle asin n0 theta (nOf eps)) :: inner := rfl
    rw [hcons] at hs hp hreg ⊢
    simp only [nextMedium] at hs hp
    have hr := hreg (nOf eps, snellAngle asin n0 theta (nOf eps)) (inner.map Prod.snd ++ [last]) (by simp)
    obtain ⟨m', rest', hm⟩ : ∃ m' rest', inner.map Prod.snd ++ [last] = m' :: rest' := by
      cases inner with
      | nil => exact ⟨last, [], rfl⟩
      | cons a b => exact ⟨a.2, b.map Prod.snd ++ [last], rfl⟩
    have hnext : nextMedium inner last = m' := by
      cases hi : inner with
      | nil => rw [hi] at hm; simp at hm; exact hm.1
      | cons a b => rw [hi] at hm; simp at hm; exact hm.1
    rw [hm] at hr
    obtain ⟨h1, h2, h3, h4⟩ := hr
    simp only at h1 h2 h3
    have hn := left_ne_zero_of_mul h1
    have hc := right_ne_zero_of_mul h1
    have hc2 : Complex.cos (snellAngle asin n0 theta (nOf eps)) ^ 2 =
        1 - (n0 * (Real.sin (deg2rad theta) : ℂ) / nOf eps) ^ 2 := cos_sq_of_asin hasin _
    simp only [loop2x2, hnext]
    rw [ih _ _ (Ys * charMat (deltaS (n0 * (Real.sin (deg2rad theta) : ℂ)) (eps 0 0)) lbda d)
      (Yp * charMat (deltaP (n0 * (Real.sin (deg2rad theta) : ℂ)) (eps 0 0)) lbda d)]
    · simp [prodS, prodP, Matrix.mul_assoc]
    · rw [hnext, hs, layerMatrix_eq]
      simp only [fresnel, phase2x2]
      rw [Matrix.mul_assoc, ← Matrix.mul_assoc (Ds _ _), ← charS_mul hn hc (nOf_sq eps) hc2 lbda d, Matrix.mul_assoc,
        Ds_interface hn hc h2, ← Matrix.mul_assoc]
    · rw [hnext, hp, layerMatrix_eq]
      simp only [fresnel, phase2x2]
      rw [Matrix.mul_assoc, ← Matrix.mul_assoc (Dp _ _), ← charP_mul hn hc (nOf_sq eps) hc2 lbda d, Matrix.mul_assoc,
        Dp_interface hn hc h3, ← Matrix.mul_assoc]
    · intro m rest'' he
      rw [hm] at he
      obtain ⟨rfl, rfl⟩ := List.cons.inj he
      exact h4

/-- `Solver2x2` computes the textbook transfer matrix, for every branch of the arcsine. -/
lemma matrices2x2_eq (asin : ℂ → ℂ) (hasin : ∀ z, Complex.sin (asin z) = z) (s : Stack) (theta lbda : ℝ)
    (hreg : Regular2x2 asin s theta) :
    matrices2x2 asin s theta lbda =
      (DsInv (frontMedium asin s theta).1 (Complex.cos (frontMedium asin s theta).2) *
          prodS (kxOf s theta) lbda s.layers *
          Ds (backMedium asin s theta).1 (Complex.cos (backMedium asin s theta).2),
       DpInv (frontMedium asin s theta).1 (Complex.cos (frontMedium asin s theta).2) *
          prodP (kxOf s theta) lbda s.layers *
          Dp (backMedium asin s theta).1 (Complex.cos (backMedium asin s theta).2)) := by
  set first := frontMedium asin s theta with hf
  set last := backMedium asin s theta with hl
  set inner := innerMedia asin (nOf s.front) theta s.layers with hi
  obtain ⟨m', rest', hm⟩ : ∃ m' rest', inner.map Prod.snd ++ [last] = m' :: rest' := by
    cases inner with
    | nil => exact ⟨last, [], rfl⟩
    | cons a b => exact ⟨a.2, b.map Prod.snd ++ [last], rfl⟩
  have hnext : nextMedium inner last = m' := by
    cases hi' : inner with
    | nil => rw [hi'] at hm; simp at hm; exact hm.1
    | cons a b => rw [hi'] at hm; simp at hm; exact hm.1
  have hr : RegularChain first (inner.map Prod.snd ++ [last]) := hreg
  rw [hm] at hr
  obtain ⟨h1, h2, h3, h4⟩ := hr
  have hn := left_ne_zero_of_mul h1
  have hc := right_ne_zero_of_mul h1
  unfold matrices2x2 kxOf
  simp only
  rw [← hf, ← hl, ← hi]
  refine loop2x2_eq asin hasin _ theta lbda last s.layers _ _ (DsInv first.1 (Complex.cos first.2))
    (DpInv first.1 (Complex.cos first.2)) ?_ ?_ ?_
  · rw [← hi, hnext]
    simp only [fresnel]
    rw [← Ds_interface hn hc h2, ← Matrix.mul_assoc, DsInv_mul hn hc, Matrix.one_mul]
  · rw [← hi, hnext]
    simp only [fresnel]
    rw [← Dp_interface hn hc h3, ← Matrix.mul_assoc, DpInv_mul hn hc, Matrix.one_mul]
  · intro m rest'' he
    rw [← hi, hm] at he
    obtain ⟨rfl, rfl⟩ := List.cons.inj he
    exact h4

end PyElli
