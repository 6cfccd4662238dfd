import Verif.Props.MuellerInverse
import Verif.Props.Mixture
import Verif.Props.Symmetry
import Verif.Props.UltraThin
import Verif.Spec.MuellerSigns

/-! # Symmetries of the sample seen in its Mueller matrix (C164) -/

namespace PyElli

open Complex Matrix Spec

/-- The sample keeps s and p light apart exactly if the two off-diagonal blocks of its Mueller matrix vanish. -/
theorem C164_diagonal (J : Mat2) (h : J 1 1 ≠ 0) : (J 0 1 = 0 ∧ J 1 0 = 0) ↔
    ∀ i j : Fin 4, (i < 2 ∧ 2 ≤ j ∨ 2 ≤ i ∧ j < 2) → muellerMatrix J i j = 0 := by
  constructor
  · rintro ⟨h1, h2⟩ i j hij
    rw [mueller_smul J h, Matrix.smul_apply, smul_eq_mul]
    apply mul_eq_zero_of_right
    fin_cases i <;> fin_cases j <;> first | (exfalso; revert hij; decide) | simp [muellerRaw, h1, h2]
  · intro h0
    obtain ⟨-, -, e1, e2⟩ := C163_recover J h
    rw [h0 2 0 (by decide), h0 2 1 (by decide), h0 3 0 (by decide), h0 3 1 (by decide)] at e1
    rw [h0 0 2 (by decide), h0 0 3 (by decide), h0 1 2 (by decide), h0 1 3 (by decide)] at e2
    exact ⟨by simpa [h] using e1, by simpa [h] using e2⟩

/-- Equal conversion of s and p light into each other is the symmetry of the Mueller matrix, up to the sign of the circular component. -/
theorem C164_symmetric (J : Mat2) (h : J 1 1 ≠ 0) :
    let M := muellerMatrix J
    J 1 0 = J 0 1 ↔ ∀ i j : Fin 4, i < j → M j i = if j = 3 then -M i j else M i j := by
  intro M
  constructor
  · intro h1 i j hij
    simp only [M]
    rw [mueller_smul J h, Matrix.smul_apply, Matrix.smul_apply, smul_eq_mul, smul_eq_mul]
    fin_cases i <;> fin_cases j <;> first | (exfalso; revert hij; decide) | (simp [muellerRaw, h1]; try ring)
  · intro h0
    obtain ⟨hD, -, e1, e2⟩ := C163_recover J h
    have a := h0 0 2 (by decide)
    have b := h0 1 2 (by decide)
    have c := h0 0 3 (by decide)
    have d := h0 1 3 (by decide)
    simp only [M, Fin.reduceEq, if_false, if_true] at a b c d
    rw [a, b, c, d] at e1
    have : J 1 0 / J 1 1 = J 0 1 / J 1 1 := by
      rw [e1, e2]
      push_cast
      ring
    field_simp at this
    exact this

/-- Opposite conversion is the symmetry up to the sign of the component at 45 degrees. -/
theorem C164_antisymmetric (J : Mat2) (h : J 1 1 ≠ 0) :
    let M := muellerMatrix J
    J 1 0 = -J 0 1 ↔ ∀ i j : Fin 4, i < j → M j i = if i = 2 ∨ j = 2 then -M i j else M i j := by
  intro M
  constructor
  · intro h1 i j hij
    simp only [M]
    rw [mueller_smul J h, Matrix.smul_apply, Matrix.smul_apply, smul_eq_mul, smul_eq_mul]
    fin_cases i <;> fin_cases j <;> first | (exfalso; revert hij; decide) | (simp [muellerRaw, h1]; done) | (simp [muellerRaw, h1]; first | ring1 | (left; ring1))
  · intro h0
    obtain ⟨hD, -, e1, e2⟩ := C163_recover J h
    have a := h0 0 2 (by decide)
    have b := h0 1 2 (by decide)
    have c := h0 0 3 (by decide)
    have d := h0 1 3 (by decide)
    simp only [M, Fin.reduceEq, or_true, or_false, if_false, if_true] at a b c d
    rw [a, b, c, d] at e1
    have : J 1 0 / J 1 1 = -(J 0 1 / J 1 1) := by
      rw [e1, e2]
      push_cast
      ring
    field_simp at this
    exact this

/-- Samples with equal and with opposite conversion. -/
example : let J : Mat2 := !![1 / 2, I / 4; I / 4, 1]; let J' : Mat2 := !![1 / 2, I / 4; -(I / 4), 1]
    J 1 1 ≠ 0 ∧ J 1 0 = J 0 1 ∧ J 0 1 ≠ 0 ∧ J' 1 1 ≠ 0 ∧ J' 1 0 = -J' 0 1 := by
  simp

lemma mueller_transposed (J J' : Mat2) (h : J 1 1 ≠ 0) (h00 : J' 0 0 = J 0 0) (h11 : J' 1 1 = J 1 1) (h01 : J' 0 1 = -J 1 0) (h10 : J' 1 0 = -J 0 1)
    (i j : Fin 4) : muellerMatrix J' i j = sign45 i * sign45 j * muellerMatrix J j i := by
  have hp : meanPower J' = meanPower J := by
    simp [meanPower, h00, h01, h10, h11]
    ring
  rw [mueller_smul J h, mueller_smul J' (h11 ▸ h), hp, Matrix.smul_apply, Matrix.smul_apply, smul_eq_mul, smul_eq_mul]
  have : muellerRaw J' i j = sign45 i * sign45 j * muellerRaw J j i := by
    fin_cases i <;> fin_cases j <;> simp [muellerRaw, sign45, h00, h01, h10, h11, normSq_apply] <;> ring
  rw [this]
  ring

/-- Reciprocity in measured quantities: with the beam reversed, or the sample turned by 180 degrees, the Mueller matrix is the transposed one, with the signs of
the row and column of the component at 45 degrees changed. -/
theorem C164_reciprocal (s : Stack) (theta lbda : ℝ) (h : PassiveStack s theta lbda) (hs : Symmetric s) (ee ee')
    (hss : (calculate4x4 propExpm s theta lbda ee).jr 1 1 ≠ 0) (i j : Fin 4) :
    muellerMatrix (calculate4x4 propExpm s (-theta) lbda ee').jr i j = sign45 i * sign45 j * muellerMatrix (calculate4x4 propExpm s theta lbda ee).jr j i ∧
    muellerMatrix (calculate4x4 propExpm (moved (Rz Real.pi) s) theta lbda ee').jr i j =
      sign45 i * sign45 j * muellerMatrix (calculate4x4 propExpm s theta lbda ee).jr j i := by
  obtain ⟨a, b, c, d⟩ := C78_reciprocity s theta lbda h hs ee ee'
  obtain ⟨a', b', c', d'⟩ := C78_half_turn s theta lbda h hs ee ee'
  exact ⟨mueller_transposed _ _ hss a b c d i j, mueller_transposed _ _ hss a' b' c' d' i j⟩

/-- At normal incidence the Mueller matrix of every sample has this symmetry itself. -/
theorem C164_normal (s : Stack) (lbda : ℝ) (h : PassiveStack s 0 lbda) (hs : Symmetric s) (ee)
    (hss : (calculate4x4 propExpm s 0 lbda ee).jr 1 1 ≠ 0) (i j : Fin 4) :
    muellerMatrix (calculate4x4 propExpm s 0 lbda ee).jr i j = sign45 i * sign45 j * muellerMatrix (calculate4x4 propExpm s 0 lbda ee).jr j i := by
  have := (C164_reciprocal s 0 lbda h hs ee ee hss i j).1
  rwa [neg_zero] at this

/-- The mirrored sample (at the plane of incidence): the signs of the off-diagonal blocks change. -/
theorem C164_mirror (s : Stack) (hb : s.backIsotropic = true) (theta lbda : ℝ) (ee ee')
    (hss : (calculate4x4 propExpm s theta lbda ee).jr 1 1 ≠ 0) (i j : Fin 4) :
    muellerMatrix (calculate4x4 propExpm (moved mirrorY s) theta lbda ee').jr i j =
      (if i < 2 ↔ j < 2 then 1 else -1) * muellerMatrix (calculate4x4 propExpm s theta lbda ee).jr i j := by
  have hm := fun i j => (C79_mirror s hb theta lbda ee ee' i j).1
  generalize (calculate4x4 propExpm (moved mirrorY s) theta lbda ee').jr = J' at hm ⊢
  generalize (calculate4x4 propExpm s theta lbda ee).jr = J at hm hss ⊢
  have h00 := hm 0 0
  have h01 := hm 0 1
  have h10 := hm 1 0
  have h11 := hm 1 1
  simp at h00 h01 h10 h11
  have hp : meanPower J' = meanPower J := by simp [meanPower, h00, h01, h10, h11]
  rw [mueller_smul J hss, mueller_smul J' (h11 ▸ hss), hp, Matrix.smul_apply, Matrix.smul_apply, smul_eq_mul, smul_eq_mul]
  have : muellerRaw J' i j = (if i < 2 ↔ j < 2 then 1 else -1) * muellerRaw J i j := by
    fin_cases i <;> fin_cases j <;> simp [muellerRaw, h00, h01, h10, h11, normSq_apply] <;> ring
  rw [this]
  ring

lemma raw_turn_left (J : Mat2) (c s : ℝ) : muellerRaw (!![(c : ℂ), (s : ℂ); -(s : ℂ), (c : ℂ)] * J) =
    !![c ^ 2 + s ^ 2, 0, 0, 0; 0, c ^ 2 - s ^ 2, 2 * c * s, 0; 0, -(2 * c * s), c ^ 2 - s ^ 2, 0; 0, 0, 0, c ^ 2 + s ^ 2] * muellerRaw J := by
  ext i j
  fin_cases i <;> fin_cases j <;>
    simp [muellerRaw, Matrix.mul_apply, Fin.sum_univ_four, Fin.sum_univ_two, Matrix.vecMul, dotProduct, normSq_apply] <;> ring

lemma raw_turn_right (J : Mat2) (c s : ℝ) : muellerRaw (J * !![(c : ℂ), (s : ℂ); -(s : ℂ), (c : ℂ)]) =
    muellerRaw J * !![c ^ 2 + s ^ 2, 0, 0, 0; 0, c ^ 2 - s ^ 2, 2 * c * s, 0; 0, -(2 * c * s), c ^ 2 - s ^ 2, 0; 0, 0, 0, c ^ 2 + s ^ 2] := by
  ext i j
  fin_cases i <;> fin_cases j <;>
    simp [muellerRaw, Matrix.mul_apply, Fin.sum_univ_four, Fin.sum_univ_two, Matrix.vecMul, dotProduct, normSq_apply] <;> ring

/-- A sample turned about its normal, at normal incidence: the Mueller matrix is multiplied with the turn of the Stokes vector on both sides. -/
theorem C164_turn (s : Stack) (hb : s.backIsotropic = true) (hn : nOf s.front ≠ 0) (phi lbda : ℝ) (ee ee')
    (hss : (calculate4x4 propExpm s 0 lbda ee).jr 1 1 ≠ 0) (hss' : (calculate4x4 propExpm (moved (Spec.Rz phi) s) 0 lbda ee').jr 1 1 ≠ 0) :
    muellerMatrix (calculate4x4 propExpm (moved (Spec.Rz phi) s) 0 lbda ee').jr =
      turn4 phi * muellerMatrix (calculate4x4 propExpm s 0 lbda ee).jr * turn4 phi := by
  have h := (C80_azimuth s hb hn phi lbda ee ee').2
  rw [mueller_smul _ hss, mueller_smul _ hss']
  generalize (calculate4x4 propExpm (moved (Spec.Rz phi) s) 0 lbda ee').jr = J' at h ⊢
  generalize (calculate4x4 propExpm s 0 lbda ee).jr = J at h ⊢
  have ht : turn2 (-phi) = !![((Real.cos phi : ℝ) : ℂ), ((Real.sin phi : ℝ) : ℂ); -((Real.sin phi : ℝ) : ℂ), ((Real.cos phi : ℝ) : ℂ)] := by
    simp [turn2]
  have hT : !![Real.cos phi ^ 2 + Real.sin phi ^ 2, 0, 0, 0; 0, Real.cos phi ^ 2 - Real.sin phi ^ 2, 2 * Real.cos phi * Real.sin phi, 0;
      0, -(2 * Real.cos phi * Real.sin phi), Real.cos phi ^ 2 - Real.sin phi ^ 2, 0; 0, 0, 0, Real.cos phi ^ 2 + Real.sin phi ^ 2] = turn4 phi := by
    rw [turn4, Real.cos_sq_add_sin_sq, Real.cos_two_mul', Real.sin_two_mul]
    ring_nf
  have hr : muellerRaw J' = turn4 phi * muellerRaw J * turn4 phi := by
    rw [h, ht, raw_turn_right, raw_turn_left, hT]
  have hp : meanPower J' = meanPower J := by
    rw [← raw_zero, ← raw_zero, hr]
    simp [turn4, Matrix.mul_apply, Fin.sum_univ_four, Matrix.vecMul, dotProduct]
  rw [hr, hp, Matrix.mul_smul, Matrix.smul_mul]

open Topology in
/-- A thin film of a crystal on a substrate. -/
lemma thin_rss (E : Tensor) (hE : E 2 2 ≠ 0 ∧ Passive E ∧ InPlane E) {theta : ℝ} (ht : |theta| < 90) (ee) :
    ∀ᶠ d in 𝓝[>] (0 : ℝ), (calculate4x4 propExpm (covered 1 [(1, E)] 4 d) theta 500 ee).jr 1 1 ≠ 0 := by
  obtain ⟨h1, -, h2, -, h3, -⟩ := C131_coefficients 1 theta 500 [(1, E)] 4 ee one_pos ht (by norm_num) (by simpa using ⟨hE.1, hE.2.1⟩)
    (by simpa using hE.2.2) (by norm_num) (by simp)
  have h4 : (calculate4x4 propExpm (covered 1 [(1, E)] 4 0) theta 500 ee).jr 1 1 ≠ 0 := by
    rw [h2]
    refine div_ne_zero (fun h => ?_) h1
    have e := congrArg (· ^ 2) (sub_eq_zero.1 h)
    simp only [csqrt_sq] at e
    have hs : ((Real.cos (deg2rad theta) : ℝ) : ℂ) ^ 2 + ((Real.sin (deg2rad theta) : ℝ) : ℂ) ^ 2 = 1 := by exact_mod_cast Real.cos_sq_add_sin_sq (deg2rad theta)
    push_cast at e hs
    have : (1 : ℂ) = 4 := by linear_combination e - hs
    norm_num at this
  exact (h3.continuousWithinAt.eventually_ne h4).filter_mono (nhdsWithin_mono _ Set.Ioi_subset_Ici_self)

lemma real_passive (a b c e : ℝ) : Passive !![(a : ℂ), 0, (e : ℂ); 0, (b : ℂ), 0; (e : ℂ), 0, (c : ℂ)] := by
  refine lossless_passive ?_
  unfold Lossless Matrix.IsHermitian
  ext i j
  fin_cases i <;> fin_cases j <;> simp [Matrix.conjTranspose_apply]

/-- A substrate with a thin film of a tilted crystal meets the hypotheses, at any angle. -/
example (theta : ℝ) (ht : |theta| < 90) (ee) : ∃ d > 0, let s := covered 1 [(1, !![((3 : ℝ) : ℂ), 0, ((1 : ℝ) : ℂ); 0, ((2 : ℝ) : ℂ), 0; ((1 : ℝ) : ℂ), 0, ((3 : ℝ) : ℂ)])] 4 d
    PassiveStack s theta 500 ∧ Symmetric s ∧ s.backIsotropic = true ∧ (calculate4x4 propExpm s theta 500 ee).jr 1 1 ≠ 0 := by
  obtain ⟨d, h6, h7⟩ := ((thin_rss !![((3 : ℝ) : ℂ), 0, ((1 : ℝ) : ℂ); 0, ((2 : ℝ) : ℂ), 0; ((1 : ℝ) : ℂ), 0, ((3 : ℝ) : ℂ)]
    ⟨by simp, real_passive 3 2 3 1, by simp [InPlane]⟩ ht ee).and self_mem_nhdsWithin).exists
  refine ⟨d, h7, covered_passive one_pos ht (by norm_num) ?_ (by norm_num) (by simp) (le_of_lt h7), ?_, rfl, h6⟩
  · intro l hl
    rw [List.mem_singleton] at hl
    subst hl
    exact ⟨zero_le_one, by simp, real_passive 3 2 3 1⟩
  · intro l hl i j
    simp only [covered, scaled, List.map_cons, List.map_nil, List.mem_singleton] at hl
    subst hl
    fin_cases i <;> fin_cases j <;> simp

/-- A film of a biaxial crystal before and after a quarter turn. -/
example (ee) : ∃ d > 0, let s := covered 1 [(1, !![((3 : ℝ) : ℂ), 0, ((0 : ℝ) : ℂ); 0, ((2 : ℝ) : ℂ), 0; ((0 : ℝ) : ℂ), 0, ((4 : ℝ) : ℂ)])] 4 d
    s.backIsotropic = true ∧ nOf s.front ≠ 0 ∧ (calculate4x4 propExpm s 0 500 ee).jr 1 1 ≠ 0 ∧
      (calculate4x4 propExpm (moved (Spec.Rz (Real.pi / 2)) s) 0 500 ee).jr 1 1 ≠ 0 := by
  have h1 := thin_rss !![((3 : ℝ) : ℂ), 0, ((0 : ℝ) : ℂ); 0, ((2 : ℝ) : ℂ), 0; ((0 : ℝ) : ℂ), 0, ((4 : ℝ) : ℂ)]
    ⟨by simp, real_passive 3 2 4 0, by simp [InPlane]⟩ (theta := 0) (by norm_num) ee
  have h2 := thin_rss !![((2 : ℝ) : ℂ), 0, ((0 : ℝ) : ℂ); 0, ((3 : ℝ) : ℂ), 0; ((0 : ℝ) : ℂ), 0, ((4 : ℝ) : ℂ)]
    ⟨by simp, real_passive 2 3 4 0, by simp [InPlane]⟩ (theta := 0) (by norm_num) ee
  obtain ⟨d, ⟨h3, h4⟩, h5⟩ := ((h1.and h2).and self_mem_nhdsWithin).exists
  refine ⟨d, h5, rfl, ?_, h3, ?_⟩
  · intro h
    simp [nOf, covered, isoTensor] at h
  · convert h4 using 3
    simp only [moved, covered, scaled, List.map_cons, List.map_nil]
    congr 3
    ext i j
    fin_cases i <;> fin_cases j <;> simp [Spec.Rz, Matrix.mul_apply, Fin.sum_univ_three]

end PyElli
