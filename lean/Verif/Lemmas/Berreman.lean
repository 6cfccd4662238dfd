import Verif.Lemmas.Transfer
import Mathlib.Analysis.Matrix.Normed
import Mathlib.Tactic

/-! Isotropic media in the 4x4 formalism: everything splits into an s and a p block. -/

namespace PyElli

open Matrix Complex

/-- Field space (E_x, E_y, H_x, H_y): s block on (E_y, H_x), p block on (E_x, H_y). -/
def blk (S P : Mat2) : Mat4 :=
  !![P 0 0, 0, 0, P 0 1; 0, S 0 0, S 0 1, 0; 0, S 1 0, S 1 1, 0; P 1 0, 0, 0, P 1 1]

/-- From amplitudes (s+, s-, p+, p-) to fields. -/
def blkC (S P : Mat2) : Mat4 :=
  !![0, 0, P 0 0, P 0 1; S 0 0, S 0 1, 0, 0; S 1 0, S 1 1, 0, 0; 0, 0, P 1 0, P 1 1]

/-- From fields to amplitudes. -/
def blkR (S P : Mat2) : Mat4 :=
  !![0, S 0 0, S 0 1, 0; 0, S 1 0, S 1 1, 0; P 0 0, 0, 0, P 0 1; P 1 0, 0, 0, P 1 1]

/-- Amplitudes to amplitudes. -/
def blkD (S P : Mat2) : Mat4 :=
  !![S 0 0, S 0 1, 0, 0; S 1 0, S 1 1, 0, 0; 0, 0, P 0 0, P 0 1; 0, 0, P 1 0, P 1 1]

lemma blk_mul (S P S' P' : Mat2) : blk S P * blk S' P' = blk (S * S') (P * P') := by
  unfold blk
  ext i j
  fin_cases i <;> fin_cases j <;>
    simp [Matrix.mul_apply, Fin.sum_univ_two, Fin.sum_univ_four]

lemma blk_mul_blkC (S P S' P' : Mat2) : blk S P * blkC S' P' = blkC (S * S') (P * P') := by
  unfold blk blkC
  ext i j
  fin_cases i <;> fin_cases j <;>
    simp [Matrix.mul_apply, Fin.sum_univ_two, Fin.sum_univ_four]

lemma blkR_mul_blkC (S P S' P' : Mat2) : blkR S P * blkC S' P' = blkD (S * S') (P * P') := by
  unfold blkR blkC blkD
  ext i j
  fin_cases i <;> fin_cases j <;>
    simp [Matrix.mul_apply, Fin.sum_univ_two, Fin.sum_univ_four]

lemma blkC_mul_blkR (S P S' P' : Mat2) : blkC S P * blkR S' P' = blk (S * S') (P * P') := by
  unfold blkR blkC blk
  ext i j
  fin_cases i <;> fin_cases j <;>
    simp [Matrix.mul_apply, Fin.sum_univ_two, Fin.sum_univ_four]

lemma blk_one : blk 1 1 = 1 := by
  unfold blk
  ext i j
  fin_cases i <;> fin_cases j <;> simp

lemma blk_smul (a : ℂ) (S P : Mat2) : a • blk S P = blk (a • S) (a • P) := by
  unfold blk
  ext i j
  fin_cases i <;> fin_cases j <;> simp

/-- `blk` as a ring homomorphism. -/
def blkHom : Mat2 × Mat2 →+* Mat4 where
  toFun x := blk x.1 x.2
  map_one' := blk_one
  map_mul' x y := (blk_mul _ _ _ _).symm
  map_zero' := by
    unfold blk
    ext i j
    fin_cases i <;> fin_cases j <;> simp
  map_add' x y := by
    unfold blk
    ext i j
    fin_cases i <;> fin_cases j <;> simp

lemma blkHom_continuous : Continuous blkHom := by
  refine continuous_matrix ?_
  intro i j
  have c1 : ∀ a b : Fin 2, Continuous fun x : Mat2 × Mat2 => x.1 a b := fun a b =>
    (continuous_apply b).comp ((continuous_apply a).comp continuous_fst)
  have c2 : ∀ a b : Fin 2, Continuous fun x : Mat2 × Mat2 => x.2 a b := fun a b =>
    (continuous_apply b).comp ((continuous_apply a).comp continuous_snd)
  fin_cases i <;> fin_cases j <;> simp [blkHom, blk] <;>
    first | exact continuous_const | exact c1 _ _ | exact c2 _ _

lemma map_exp_prod {A B C : Type*} [NormedRing A] [NormedAlgebra ℝ A] [CompleteSpace A]
    [NormedRing B] [NormedAlgebra ℝ B] [CompleteSpace B] [NormedRing C] [NormedAlgebra ℝ C]
    (f : A × B →+* C) (hf : Continuous f) (x : A) (y : B) :
    f (NormedSpace.exp x, NormedSpace.exp y) = NormedSpace.exp (f (x, y)) := by
  let _ : NormedAlgebra ℚ A := NormedAlgebra.restrictScalars ℚ ℝ A
  let _ : NormedAlgebra ℚ B := NormedAlgebra.restrictScalars ℚ ℝ B
  let _ : NormedAlgebra ℚ C := NormedAlgebra.restrictScalars ℚ ℝ C
  rw [← NormedSpace.map_exp f hf]
  congr 1
  ext
  · rw [Prod.fst_exp]
  · rw [Prod.snd_exp]

lemma exp_blk (S P : Mat2) : NormedSpace.exp (blk S P) = blk (NormedSpace.exp S) (NormedSpace.exp P) := by
  let _ : NormedRing Mat2 := Matrix.linftyOpNormedRing
  let _ : NormedAlgebra ℝ Mat2 := Matrix.linftyOpNormedAlgebra
  let _ : NormedRing Mat4 := Matrix.linftyOpNormedRing
  let _ : NormedAlgebra ℝ Mat4 := Matrix.linftyOpNormedAlgebra
  exact (map_exp_prod blkHom blkHom_continuous S P).symm

/-- Scalar tensor. -/
def isoTensor (e : ℂ) : Tensor := fun i j => if i = j then e else 0

lemma buildDelta_iso (kx e : ℂ) : buildDelta kx (isoTensor e) = blk (deltaS kx e) (deltaP kx e) := by
  unfold buildDelta isoTensor blk deltaS deltaP
  ext i j
  fin_cases i <;> fin_cases j <;> simp

lemma propExpm_iso (kx e : ℂ) (d lbda : ℝ) :
    propExpm (buildDelta kx (isoTensor e)) (-d) lbda =
      blk (charMat (deltaS kx e) lbda d) (charMat (deltaP kx e) lbda d) := by
  unfold propExpm charMat
  rw [buildDelta_iso, smul_smul, blk_smul, exp_blk]

lemma isoHalf_eq (kx : ℂ) (eps : Tensor) : isoHalf kx eps = blkC (Ds (nOf eps) (cosPhi kx eps)) (Dp (nOf eps) (cosPhi kx eps)) := by
  unfold isoHalf blkC Ds Dp
  ext i j
  fin_cases i <;> fin_cases j <;> simp

lemma isoHalfInv_eq (kx : ℂ) (eps : Tensor) :
    isoHalfInv kx eps = blkR (DsInv (nOf eps) (cosPhi kx eps)) (DpInv (nOf eps) (cosPhi kx eps)) := by
  unfold isoHalfInv blkR DsInv DpInv
  ext i j
  fin_cases i <;> fin_cases j <;> simp <;> ring

/-- The loop is a product of propagation matrices. -/
lemma loop4x4_eq (prop : Propagator) (kx : ℂ) (lbda : ℝ) (layers : List (ℝ × Tensor)) (exit : Mat4) :
    loop4x4 prop kx lbda layers exit =
      (layers.map fun l => prop (buildDelta kx l.2) (-l.1) lbda).prod * exit := by
  unfold loop4x4
  induction layers with
  | nil => simp
  | cons l rest ih =>
    rw [List.reverse_cons, List.foldl_append]
    simp only [List.foldl_cons, List.foldl_nil, List.map_cons, List.prod_cons]
    rw [ih, Matrix.mul_assoc]

/-- All interior slices are isotropic. -/
def IsoLayers (layers : List (ℝ × Tensor)) : Prop := ∀ l ∈ layers, l.2 = isoTensor (l.2 0 0)

lemma loop4x4_iso (kx : ℂ) (lbda : ℝ) (layers : List (ℝ × Tensor)) (h : IsoLayers layers) :
    (layers.map fun l => propExpm (buildDelta kx l.2) (-l.1) lbda).prod =
      blk (prodS kx lbda layers) (prodP kx lbda layers) := by
  induction layers with
  | nil => simp [prodS, prodP, blk_one]
  | cons l rest ih =>
    have h1 := h l (by simp)
    have h2 : IsoLayers rest := fun x hx => h x (by simp [hx])
    simp only [List.map_cons, List.prod_cons, ih h2]
    rw [h1, propExpm_iso, blk_mul]
    simp [prodS, prodP, isoTensor]

/-- The whole transfer matrix of an isotropic stack. -/
lemma transfer4x4_iso (s : Stack) (theta lbda : ℝ) (ee) (h : IsoLayers s.layers) (hb : s.backIsotropic = true) :
    transfer4x4 propExpm s theta lbda ee =
      blkD (DsInv (nOf s.front) (cosPhi (kxOf s theta) s.front) * prodS (kxOf s theta) lbda s.layers *
              Ds (nOf s.back) (cosPhi (kxOf s theta) s.back))
           (DpInv (nOf s.front) (cosPhi (kxOf s theta) s.front) * prodP (kxOf s theta) lbda s.layers *
              Dp (nOf s.back) (cosPhi (kxOf s theta) s.back)) := by
  unfold transfer4x4
  rw [loop4x4_eq, loop4x4_iso _ _ _ h, exitMatrix, if_pos hb, isoHalf_eq, isoHalfInv_eq, blk_mul_blkC, blkR_mul_blkC,
    Matrix.mul_assoc, Matrix.mul_assoc]

lemma tIt_blkD (S P : Mat2) : tIt (blkD S P) = !![P 0 0, 0; 0, S 0 0] := by
  simp [tIt, blkD]

lemma tRt_blkD (S P : Mat2) : tRt (blkD S P) = !![P 1 0, 0; 0, S 1 0] := by
  simp [tRt, blkD]

lemma inv_diag_two {a b : ℂ} (ha : a ≠ 0) (hb : b ≠ 0) : (!![a, 0; 0, b] : Mat2)⁻¹ = !![1 / a, 0; 0, 1 / b] := by
  apply Matrix.inv_eq_right_inv
  rw [Matrix.mul_fin_two, Matrix.one_fin_two]
  simp [ha, hb]

end PyElli
