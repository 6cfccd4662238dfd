import Verif.Lemmas.Balance

/-! # Symmetries of the delta matrix and of a whole stack -/

namespace PyElli

open Matrix Complex

/-- The slabs of a stack as one matrix. -/
noncomputable def slabs (kx : ℂ) (lbda : ℝ) (layers : List (ℝ × Tensor)) : Mat4 :=
  (layers.map fun l => propExpm (buildDelta kx l.2) (-l.1) lbda).prod

lemma transfer_slabs (s : Stack) (theta lbda : ℝ) (ee) :
    transfer4x4 propExpm s theta lbda ee =
      isoHalfInv (kxOf s theta) s.front * (slabs (kxOf s theta) lbda s.layers * exitMatrix s (kxOf s theta) ee) := by
  simp only [transfer4x4, loop4x4_eq, slabs]

lemma exp_intertwine {S X Y : Mat4} (hS : IsUnit S) (h : S * X = Y * S) :
    S * NormedSpace.exp X = NormedSpace.exp Y * S := by
  have hd : IsUnit S.det := (Matrix.isUnit_iff_isUnit_det S).1 hS
  have hY : Y = S * X * S⁻¹ := by rw [h, Matrix.mul_assoc, Matrix.mul_nonsing_inv _ hd, Matrix.mul_one]
  rw [hY, Matrix.exp_conj _ _ hS, Matrix.mul_assoc, Matrix.nonsing_inv_mul _ hd, Matrix.mul_one]

/-- An intertwining of delta matrices carries over to propagation matrices. -/
lemma prop_intertwine {S D D' : Mat4} (hS : IsUnit S) (h : S * D = D' * S) (d lbda : ℝ) :
    S * propExpm D d lbda = propExpm D' d lbda * S := by
  unfold propExpm
  apply exp_intertwine hS
  simp only [Matrix.mul_smul, Matrix.smul_mul, h]

/-- An intertwining with a change of sign: the direction of propagation is reversed. -/
lemma prop_intertwine_neg {S D D' : Mat4} (hS : IsUnit S) (h : S * D = -(D' * S)) (d lbda : ℝ) :
    S * propExpm D d lbda = propExpm D' (-d) lbda * S := by
  unfold propExpm
  apply exp_intertwine hS
  simp only [Matrix.mul_smul, Matrix.smul_mul, h]
  ext i j
  simp

lemma prop_transpose (D : Mat4) (d lbda : ℝ) : (propExpm D d lbda)ᵀ = propExpm Dᵀ d lbda := by
  unfold propExpm
  rw [← Matrix.exp_transpose]
  simp [Matrix.transpose_smul]

lemma prop_inv (D : Mat4) (d lbda : ℝ) : propExpm D d lbda * propExpm D (-d) lbda = 1 := by
  unfold propExpm
  rw [← Matrix.exp_add_of_commute]
  · have : (I * (d : ℂ)) • ((wavenumber lbda : ℂ) • D) + (I * ((-d : ℝ) : ℂ)) • ((wavenumber lbda : ℂ) • D) = 0 := by
      ext i j
      simp
    rw [this, NormedSpace.exp_zero]
  · exact (((Commute.refl D).smul_left _).smul_left _).smul_right _ |>.smul_right _

/-! ## Reciprocity -/

/-- Matrix of the form `E₁ × H₂ - E₂ × H₁` of two tangential fields. -/
def lorentz : Mat4 := !![0, 0, 0, -1; 0, 0, 1, 0; 0, -1, 0, 0; 1, 0, 0, 0]

lemma lorentz_sq : lorentz * lorentz = -1 := by
  ext i j
  fin_cases i <;> fin_cases j <;> simp [lorentz, Matrix.mul_apply, Fin.sum_univ_four]

lemma lorentz_unit : IsUnit lorentz := by
  apply IsUnit.of_mul_eq_one (-lorentz)
  rw [Matrix.mul_neg, lorentz_sq, neg_neg]

lemma lorentz_transpose : lorentzᵀ = -lorentz := by
  ext i j
  fin_cases i <;> fin_cases j <;> simp [lorentz]

/-- For a symmetric tensor the delta matrices of opposite tangential wave numbers are adjoint for the Lorentz form. -/
lemma lorentz_delta (kx : ℂ) (eps : Tensor) (hs : ∀ i j, eps i j = eps j i) :
    lorentz * buildDelta kx eps = -((buildDelta (-kx) eps)ᵀ * lorentz) := by
  have h1 := hs 1 0
  have h2 := hs 2 0
  have h3 := hs 2 1
  ext i j
  fin_cases i <;> fin_cases j <;>
    simp [lorentz, buildDelta, Matrix.mul_apply, Fin.sum_univ_four, h1, h2, h3] <;> ring

lemma lorentz_prop (kx : ℂ) (eps : Tensor) (hs : ∀ i j, eps i j = eps j i) (d lbda : ℝ) :
    (propExpm (buildDelta (-kx) eps) d lbda)ᵀ * lorentz * propExpm (buildDelta kx eps) d lbda = lorentz := by
  rw [Matrix.mul_assoc, prop_intertwine_neg lorentz_unit (lorentz_delta kx eps hs), prop_transpose, ← Matrix.mul_assoc, prop_inv,
    Matrix.one_mul]

lemma lorentz_slabs (kx : ℂ) (lbda : ℝ) (layers : List (ℝ × Tensor)) (hs : ∀ l ∈ layers, ∀ i j, l.2 i j = l.2 j i) :
    (slabs (-kx) lbda layers)ᵀ * lorentz * slabs kx lbda layers = lorentz := by
  induction layers with
  | nil => simp [slabs]
  | cons l ls ih =>
    have h1 := ih fun x hx => hs x (List.mem_cons_of_mem _ hx)
    have h2 := lorentz_prop kx l.2 (hs l List.mem_cons_self) (-l.1) lbda
    simp only [slabs, List.map_cons, List.prod_cons, Matrix.transpose_mul] at h1 ⊢
    generalize propExpm (buildDelta kx l.2) (-l.1) lbda = P at *
    generalize propExpm (buildDelta (-kx) l.2) (-l.1) lbda = P' at *
    generalize (List.map (fun l => propExpm (buildDelta kx l.2) (-l.1) lbda) ls).prod = Q at *
    generalize (List.map (fun l => propExpm (buildDelta (-kx) l.2) (-l.1) lbda) ls).prod = Q' at *
    calc Q'ᵀ * P'ᵀ * lorentz * (P * Q) = Q'ᵀ * (P'ᵀ * lorentz * P) * Q := by simp only [Matrix.mul_assoc]
      _ = lorentz := by rw [h2, h1]

lemma cosPhi_neg (kx : ℂ) (eps : Tensor) : cosPhi (-kx) eps = cosPhi kx eps := by
  simp [cosPhi, neg_div]

lemma isoHalf_neg (kx : ℂ) (eps : Tensor) : isoHalf (-kx) eps = isoHalf kx eps := by
  simp only [isoHalf, cosPhi_neg]

lemma isoHalfInv_neg (kx : ℂ) (eps : Tensor) : isoHalfInv (-kx) eps = isoHalfInv kx eps := by
  simp only [isoHalfInv, cosPhi_neg]

lemma getKz_neg (eps : Tensor) (kx : ℂ) : getKz eps (-kx) = getKz eps kx := by
  simp [getKz]

lemma kxOf_neg (s : Stack) (theta : ℝ) : kxOf s (-theta) = -kxOf s theta := by
  simp [kxOf, deg2rad, neg_div, neg_mul, Real.sin_neg]

/-- The Lorentz form in amplitudes. -/
def ampForm : Mat4 := !![0, 1, 0, 0; -1, 0, 0, 0; 0, 0, 0, -1; 0, 0, 1, 0]

lemma lorentz_isoHalf (kx : ℂ) (eps : Tensor) :
    (isoHalf kx eps)ᵀ * lorentz * isoHalf kx eps = (2 * (nOf eps * cosPhi kx eps)) • ampForm := by
  unfold isoHalf lorentz ampForm
  generalize nOf eps = n
  generalize cosPhi kx eps = c
  ext i j
  fin_cases i <;> fin_cases j <;> simp [Matrix.mul_apply, Fin.sum_univ_four] <;> ring

lemma isoHalf_mul_inv (kx : ℂ) (eps : Tensor) (hn : nOf eps ≠ 0) (hc : cosPhi kx eps ≠ 0) : isoHalf kx eps * isoHalfInv kx eps = 1 := by
  rw [isoHalf_eq, isoHalfInv_eq, blkC_mul_blkR, Ds_mul_inv hn hc, Dp_mul_inv hn hc, blk_one]

lemma isoHalfInv_mul (kx : ℂ) (eps : Tensor) (hn : nOf eps ≠ 0) (hc : cosPhi kx eps ≠ 0) : isoHalfInv kx eps * isoHalf kx eps = 1 :=
  mul_eq_one_comm.1 (isoHalf_mul_inv kx eps hn hc)

/-- Reciprocity for the amplitude transfer matrix. -/
lemma transfer_reciprocal (s : Stack) (theta lbda : ℝ) (ee ee') (hb : s.backIsotropic = true) (hn : nOf s.front ≠ 0)
    (hc : cosPhi (kxOf s theta) s.front ≠ 0) (hs : ∀ l ∈ s.layers, ∀ i j, l.2 i j = l.2 j i) :
    (2 * (nOf s.front * cosPhi (kxOf s theta) s.front)) •
      ((transfer4x4 propExpm s (-theta) lbda ee')ᵀ * ampForm * transfer4x4 propExpm s theta lbda ee) =
    (2 * (nOf s.back * cosPhi (kxOf s theta) s.back)) • ampForm := by
  rw [transfer_slabs, transfer_slabs, kxOf_neg]
  simp only [exitMatrix, hb, if_true, isoHalf_neg, isoHalfInv_neg]
  have h1 := lorentz_slabs (kxOf s theta) lbda s.layers hs
  have h2 := lorentz_isoHalf (kxOf s theta) s.front
  have h3 := lorentz_isoHalf (kxOf s theta) s.back
  have h4 := isoHalf_mul_inv (kxOf s theta) s.front hn hc
  generalize isoHalf (kxOf s theta) s.front = F at *
  generalize isoHalfInv (kxOf s theta) s.front = F' at *
  generalize isoHalf (kxOf s theta) s.back = B at *
  generalize slabs (kxOf s theta) lbda s.layers = L at *
  generalize slabs (-kxOf s theta) lbda s.layers = L' at *
  rw [← h3, ← h1, ← Matrix.smul_mul, ← Matrix.mul_smul, ← h2]
  have h5 : F'ᵀ * Fᵀ = 1 := by rw [← Matrix.transpose_mul, h4, Matrix.transpose_one]
  calc (F' * (L' * B))ᵀ * (Fᵀ * lorentz * F) * (F' * (L * B))
      = Bᵀ * (L'ᵀ * (F'ᵀ * Fᵀ) * lorentz * (F * F') * L) * B := by simp only [Matrix.transpose_mul, Matrix.mul_assoc]
    _ = _ := by rw [h5, h4]; simp only [Matrix.mul_one, Matrix.mul_assoc]

/-- What the form says about the parts of a transfer matrix that make up reflection and transmission. -/
lemma ampForm_parts (m m' : Mat4) (z : ℂ) (h : m'ᵀ * ampForm * m = z • ampForm) :
    (tRt m')ᵀ * !![1, 0; 0, -1] * tIt m = (tIt m')ᵀ * !![1, 0; 0, -1] * tRt m := by
  have e := fun i j => congrFun (congrFun h i) j
  have e00 := e 0 0
  have e02 := e 0 2
  have e20 := e 2 0
  have e22 := e 2 2
  simp [ampForm, Matrix.mul_apply, Fin.sum_univ_four] at e00 e02 e20 e22
  ext i j
  fin_cases i <;> fin_cases j <;> simp [tRt, tIt, Matrix.mul_apply, Fin.sum_univ_two]
  · linear_combination e22
  · linear_combination e20
  · linear_combination e02
  · linear_combination e00

end PyElli
