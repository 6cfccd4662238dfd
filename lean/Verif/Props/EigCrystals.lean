import Verif.Props.EigLayers
import Verif.Props.CrystalExit
import Mathlib.Analysis.Matrix.Spectrum
import Mathlib.Analysis.Matrix.PosDef

/-! # `PropagatorEig` for transparent crystals in any orientation (C159) -/

namespace PyElli

open Matrix Complex Spec
open scoped ComplexOrder

/-- The product of a Hermitian and a positive definite matrix has a basis of eigenvectors. -/
lemma diag_of_posDef {J H : Mat4} (hJ : J.IsHermitian) (hH : H.PosDef) : Diagonalisable (J * H) := by
  have hs := hH.isHermitian.spectral_theorem
  set U : Mat4 := (hH.isHermitian.eigenvectorUnitary : Mat4) with hU
  have hUU : Uᴴ * U = 1 := by
    rw [hU, ← Matrix.star_eq_conjTranspose]
    exact Unitary.coe_star_mul_self hH.isHermitian.eigenvectorUnitary
  have hUU' : U * Uᴴ = 1 := by
    rw [hU, ← Matrix.star_eq_conjTranspose]
    exact Unitary.coe_mul_star_self hH.isHermitian.eigenvectorUnitary
  have hpos : ∀ i, 0 < hH.isHermitian.eigenvalues i := hH.eigenvalues_pos
  set R : Mat4 := Matrix.diagonal fun i => ((Real.sqrt (hH.isHermitian.eigenvalues i) : ℝ) : ℂ) with hR
  set R' : Mat4 := Matrix.diagonal fun i => (((Real.sqrt (hH.isHermitian.eigenvalues i))⁻¹ : ℝ) : ℂ) with hR'
  have hRR : H = U * R * R * Uᴴ := by
    conv_lhs => rw [hs]
    rw [Unitary.conjStarAlgAut_apply, Matrix.mul_assoc U R R, hR, Matrix.diagonal_mul_diagonal, ← hU, Matrix.star_eq_conjTranspose]
    congr 3
    funext i
    simp only [Function.comp]
    rw [← Complex.ofReal_mul, Real.mul_self_sqrt (hpos i).le]
    rfl
  have hinv : R' * R = 1 := by
    rw [hR, hR', Matrix.diagonal_mul_diagonal, ← Matrix.diagonal_one]
    congr 1
    funext i
    rw [← Complex.ofReal_mul, inv_mul_cancel₀ (Real.sqrt_pos.2 (hpos i)).ne', Complex.ofReal_one]
  have hinv' : R * R' = 1 := mul_eq_one_comm.1 hinv
  have hRh : Rᴴ = R := by
    rw [hR, Matrix.diagonal_conjTranspose]
    congr 1
    funext i
    simp
  have hK : (R * Uᴴ * J * U * R).IsHermitian := by
    unfold Matrix.IsHermitian
    simp only [Matrix.conjTranspose_mul, Matrix.conjTranspose_conjTranspose, hRh, hJ.eq, Matrix.mul_assoc]
  have hk := hK.spectral_theorem
  set V : Mat4 := (hK.eigenvectorUnitary : Mat4) with hV
  have hVV : Vᴴ * V = 1 := by
    rw [hV, ← Matrix.star_eq_conjTranspose]
    exact Unitary.coe_star_mul_self hK.eigenvectorUnitary
  rw [Unitary.conjStarAlgAut_apply, Matrix.star_eq_conjTranspose, ← hV] at hk
  set D : Mat4 := Matrix.diagonal (RCLike.ofReal ∘ hK.eigenvalues) with hD
  have hkv : R * Uᴴ * J * U * R * V = V * D := by
    rw [hk, Matrix.mul_assoc (V * D), hVV, Matrix.mul_one]
  refine ⟨RCLike.ofReal ∘ hK.eigenvalues, U * R' * V, ?_, ?_⟩
  · exact IsUnit.of_mul_eq_one (Vᴴ * R * Uᴴ) (mul_eq_one_comm.1 (by
      calc Vᴴ * R * Uᴴ * (U * R' * V) = Vᴴ * (R * (Uᴴ * U) * R') * V := by simp only [Matrix.mul_assoc]
        _ = 1 := by rw [hUU, Matrix.mul_one, hinv', Matrix.mul_one, hVV]))
  · rw [← hD]
    calc J * H * (U * R' * V) = J * (U * R * R * Uᴴ) * (U * R' * V) := by rw [hRR]
      _ = J * U * R * (R * (Uᴴ * U) * R') * V := by simp only [Matrix.mul_assoc]
      _ = J * U * R * V := by rw [hUU, Matrix.mul_one, hinv', Matrix.mul_one]
      _ = (U * (R' * R) * Uᴴ) * J * U * R * V := by rw [hinv, Matrix.mul_one, hUU', Matrix.one_mul]
      _ = U * R' * (R * Uᴴ * J * U * R * V) := by simp only [Matrix.mul_assoc]
      _ = U * R' * V * D := by rw [hkv]; simp only [Matrix.mul_assoc]

/-- Matrix of the energy flux. -/
def fluxMatrix : Mat4 := !![0, 0, 0, 1; 0, 0, -1, 0; 0, -1, 0, 0; 1, 0, 0, 0]

lemma fluxMatrix_sq : fluxMatrix * fluxMatrix = 1 := by
  ext i j
  fin_cases i <;> fin_cases j <;> simp [fluxMatrix, Matrix.mul_apply, Fin.sum_univ_four]

lemma fluxMatrix_herm : fluxMatrix.IsHermitian := by
  ext i j
  fin_cases i <;> fin_cases j <;> simp [fluxMatrix]

lemma fluxDelta_herm (kx : ℝ) {eps : Tensor} (h : Lossless eps) : (fluxMatrix * buildDelta kx eps).IsHermitian := by
  have hc : ∀ i j, (starRingEnd ℂ) (eps i j) = eps j i := fun i j => congrFun (congrFun h j) i
  ext i j
  fin_cases i <;> fin_cases j <;>
    simp [fluxMatrix, buildDelta, Matrix.mul_apply, Fin.sum_univ_four, hc] <;> ring

/-- C159: a lossless crystal in any orientation (optically active ones in a magnetic field included) in which no wave is totally reflected or at its
critical angle has a basis of eigenvectors. -/
theorem C159_inside {kx kz : ℝ} {eps : Tensor} (h : Lossless eps) (hin : Inside kx kz eps) : Diagonalisable (buildDelta kx eps) := by
  have hh : (fluxMatrix * (buildDelta kx eps - (kz : ℂ) • (1 : Mat4))).IsHermitian := by
    have h1 := fluxDelta_herm kx h
    have h2 := fluxMatrix_herm
    unfold Matrix.IsHermitian at *
    rw [Matrix.mul_sub, Matrix.conjTranspose_sub, h1, Matrix.mul_smul, Matrix.mul_one, Matrix.conjTranspose_smul, h2]
    simp
  have hpd : (fluxMatrix * (buildDelta kx eps - (kz : ℂ) • (1 : Mat4))).PosDef := by
    apply Matrix.PosDef.of_dotProduct_mulVec_pos hh
    intro v hv
    have him := Matrix.IsHermitian.im_star_dotProduct_mulVec_self hh v
    have hre := inside_pos hin hv
    rw [Complex.lt_def]
    refine ⟨?_, by simpa using him.symm⟩
    rw [Complex.zero_re]
    refine lt_of_lt_of_eq hre ?_
    rw [← Matrix.mulVec_mulVec, Matrix.sub_mulVec, Matrix.smul_mulVec, Matrix.one_mulVec]
    generalize buildDelta kx eps *ᵥ v = w
    simp [fluxMatrix, fluxForm, flux, Matrix.mulVec, dotProduct, Fin.sum_univ_four]
    ring
  obtain ⟨q, w, hw, e⟩ := diag_of_posDef fluxMatrix_herm hpd
  rw [← Matrix.mul_assoc, fluxMatrix_sq, Matrix.one_mul, Matrix.sub_mul, Matrix.smul_mul, Matrix.one_mul] at e
  refine ⟨fun i => q i + kz, w, hw, ?_⟩
  have hd : Matrix.diagonal (fun i => q i + (kz : ℂ)) = Matrix.diagonal q + (kz : ℂ) • (1 : Mat4) := by
    rw [← Matrix.diagonal_one, ← Matrix.diagonal_smul, Matrix.diagonal_add]
    congr 1
    funext i
    simp
  rw [hd, Matrix.mul_add, ← e, Matrix.mul_smul, Matrix.mul_one, sub_add_cancel]

/-- C159: transparent uniaxial crystals with the optic axis in any direction, below the critical angles of both waves. -/
theorem C159_uniaxial {eo ee kx : ℝ} {c : Fin 3 → ℝ} (hc : c ⬝ᵥ c = 1) (hee : 0 < ee) (h1 : kx ^ 2 < eo)
    (h2 : kx ^ 2 * (eo * c 1 ^ 2 + ee * (1 - c 1 ^ 2)) < ee * (eo + (ee - eo) * c 2 ^ 2)) : Diagonalisable (buildDelta kx (uniaxial eo ee c)) := by
  rcases le_total eo ee with hle | hle
  · exact C159_inside (uniaxial_lossless eo ee c) (inside_positive c hle h1)
  · obtain ⟨kz, h⟩ := inside_negative hc hee hle h2
    exact C159_inside (uniaxial_lossless eo ee c) h

/-- Calcite with the optic axis at 45° in the plane of incidence, grazing incidence in air. -/
example : Diagonalisable (buildDelta (1 : ℝ) (uniaxial 2.75 2.21 ![Real.sqrt (1 / 2), 0, Real.sqrt (1 / 2)])) := by
  have h : Real.sqrt (1 / 2) * Real.sqrt (1 / 2) = 1 / 2 := Real.mul_self_sqrt (by norm_num)
  apply C159_uniaxial
  · simp only [dotProduct, Fin.sum_univ_three, Matrix.cons_val_zero, Matrix.cons_val_one, Matrix.cons_val]
    linarith
  · norm_num
  · norm_num
  · simp only [Matrix.cons_val_one, Matrix.cons_val]
    rw [pow_two (Real.sqrt _), h]
    norm_num

/-- Every index of the crystal, in every direction, is larger than `n`. -/
def DenserThan (n : ℝ) (eps : Tensor) : Prop := ∀ E : Fin 3 → ℂ, E ≠ 0 → n ^ 2 * ∑ i, ‖E i‖ ^ 2 < (star E ⬝ᵥ eps *ᵥ E).re

/-- C159: crystals all of whose indices are above `|kx|`. -/
theorem C159_crystal (kx : ℝ) {eps : Tensor} (h : Lossless eps) (hd : DenserThan kx eps) : Diagonalisable (buildDelta kx eps) := by
  refine C159_inside (kz := 0) h fun E hE => lt_of_le_of_lt ?_ (hd E hE)
  rw [Fin.sum_univ_three]
  simp only [Complex.ofReal_zero, zero_mul, zero_sub, norm_neg, norm_zero, norm_mul, Complex.norm_real, mul_pow, Real.norm_eq_abs, sq_abs]
  nlinarith [mul_nonneg (sq_nonneg kx) (sq_nonneg ‖E 0‖)]

/-- C159: so for samples of lossless crystals in any orientation that are denser than the medium in front, `PropagatorEig` gives the result of
`PropagatorExpm` at every angle. -/
theorem C159_crystals_partial {eig : Mat4 → (Fin 4 → ℂ) × Mat4} (he : IsEig eig) (s : Stack) (n0 theta lbda : ℝ) (hn0 : 0 < n0)
    (hf : s.front 0 0 = ((n0 ^ 2 : ℝ) : ℂ)) (ee) (h : ∀ l ∈ s.layers, Lossless l.2 ∧ DenserThan n0 l.2) :
    calculate4x4 (fun delta => propEig (eig delta).1 (eig delta).2) s theta lbda ee = calculate4x4 propExpm s theta lbda ee := by
  apply C159_agree_partial he
  intro l hl
  have hk : kxOf s theta = ((n0 * Real.sin (deg2rad theta) : ℝ) : ℂ) := by
    unfold kxOf nOf
    rw [hf, csqrt_ofReal (by positivity), Real.sqrt_sq hn0.le]
    push_cast
    rfl
  rw [hk]
  obtain ⟨h1, h2⟩ := h l hl
  refine C159_crystal _ h1 fun E hE => lt_of_le_of_lt ?_ (h2 E hE)
  apply mul_le_mul_of_nonneg_right _ (Finset.sum_nonneg fun i _ => sq_nonneg _)
  rw [mul_pow]
  have := Real.sin_sq_le_one (deg2rad theta)
  nlinarith [sq_nonneg n0]

/-- A crystal in oblique orientation in air: the tensor with the entries 3 in the diagonal and 1 for xz, of indices √2, √3 and 2. -/
example : Lossless (!![3, 0, 1; 0, 3, 0; 1, 0, 3] : Tensor) ∧ DenserThan 1 !![3, 0, 1; 0, 3, 0; 1, 0, 3] := by
  constructor
  · ext i j
    fin_cases i <;> fin_cases j <;> simp
  · intro E hE
    have hn : ∀ z : ℂ, ‖z‖ ^ 2 = z.re ^ 2 + z.im ^ 2 := fun z => by
      rw [← Complex.normSq_eq_norm_sq, Complex.normSq_apply]; ring
    have hpos : 0 < ‖E 0‖ ^ 2 + ‖E 1‖ ^ 2 + ‖E 2‖ ^ 2 := by
      by_contra hc
      have h0 := sq_nonneg ‖E 0‖
      have h1 := sq_nonneg ‖E 1‖
      have h2 := sq_nonneg ‖E 2‖
      apply hE
      funext i
      have e0 : ‖E 0‖ ^ 2 = 0 := by linarith
      have e1 : ‖E 1‖ ^ 2 = 0 := by linarith
      have e2 : ‖E 2‖ ^ 2 = 0 := by linarith
      fin_cases i
      · exact norm_eq_zero.1 (pow_eq_zero_iff two_ne_zero |>.1 e0)
      · exact norm_eq_zero.1 (pow_eq_zero_iff two_ne_zero |>.1 e1)
      · exact norm_eq_zero.1 (pow_eq_zero_iff two_ne_zero |>.1 e2)
    have he : (star E ⬝ᵥ (!![3, 0, 1; 0, 3, 0; 1, 0, 3] : Tensor) *ᵥ E).re =
        3 * (‖E 0‖ ^ 2 + ‖E 1‖ ^ 2 + ‖E 2‖ ^ 2) + 2 * ((E 0).re * (E 2).re + (E 0).im * (E 2).im) := by
      rw [hn, hn, hn]
      simp [Matrix.mulVec, dotProduct, Fin.sum_univ_three, Complex.mul_re, Complex.mul_im]
      ring
    rw [he, Fin.sum_univ_three]
    rw [hn, hn, hn] at *
    nlinarith [sq_nonneg ((E 0).re + (E 2).re), sq_nonneg ((E 0).im + (E 2).im)]

end PyElli
