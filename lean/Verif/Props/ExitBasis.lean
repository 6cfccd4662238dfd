import Verif.Props.SolverLaws
import Mathlib.LinearAlgebra.Matrix.Charpoly.Basic
import Mathlib.Data.List.Sort

/-! # Dependence on the eigenbasis chosen for an anisotropic exit medium (C41) -/

namespace PyElli

open Matrix Complex Spec Polynomial

/-- The two forward modes: first two eigenvectors in the order by descending (Im, Re) of the eigenvalue. -/
noncomputable def fwd (q : Fin 4 → ℂ) (w : Mat4) : Matrix (Fin 4) (Fin 2) ℂ :=
  fun a k => eigSorted q w a (![0, 1] k)

/-- Columns 2 and 0 of an exit matrix, in the order of `m_t[:, .., 2::-2]`. -/
def cols (m : Mat4) : Matrix (Fin 4) (Fin 2) ℂ := fun a k => m a (![2, 0] k)

def rows (r : Fin 2 → Fin 4) (m : Matrix (Fin 4) (Fin 2) ℂ) : Mat2 := fun i k => m (r i) k

lemma rows_mul (r : Fin 2 → Fin 4) (m : Matrix (Fin 4) (Fin 2) ℂ) (g : Mat2) : rows r (m * g) = rows r m * g := by
  ext i k
  simp only [rows, Matrix.mul_apply]

lemma tIt_cols (A E : Mat4) : tIt (A * E) = rows ![2, 0] (A * cols E) := by
  ext i k
  fin_cases i <;> fin_cases k <;> rfl

lemma tRt_cols (A E : Mat4) : tRt (A * E) = rows ![3, 1] (A * cols E) := by
  ext i k
  fin_cases i <;> fin_cases k <;> rfl

lemma tIt_mix (A E E' : Mat4) (g : Mat2) (h : cols E' = cols E * g) : tIt (A * E') = tIt (A * E) * g := by
  rw [tIt_cols, tIt_cols, h, ← Matrix.mul_assoc, rows_mul]

lemma tRt_mix (A E E' : Mat4) (g : Mat2) (h : cols E' = cols E * g) : tRt (A * E') = tRt (A * E) * g := by
  rw [tRt_cols, tRt_cols, h, ← Matrix.mul_assoc, rows_mul]

lemma unitPhase_ne (e : ℂ) : unitPhase e ≠ 0 := by
  unfold unitPhase
  split_ifs with h
  · have h1 : e ≠ 0 := norm_ne_zero_iff.1 h
    have h2 : (‖e‖ : ℂ) ≠ 0 := by exact_mod_cast h
    exact div_ne_zero h1 h2
  · exact one_ne_zero

/-- The forward columns of the exit matrix are the two forward modes, exchanged and rescaled. -/
lemma cols_eigHalf (q : Fin 4 → ℂ) (w : Mat4) (hc : eigNorm q w ≠ 0) :
    ∃ g : Mat2, IsUnit g ∧ cols (eigHalf q w) = fwd q w * g := by
  have key : ∀ x y : ℂ, descTwo x y = ![0, 1] ∨ descTwo x y = ![1, 0] := by
    intro x y
    unfold descTwo
    split_ifs
    · left; rfl
    · right; rfl
  obtain ⟨u, v, hu, hv, h0, h2⟩ : ∃ u v : ℂ, u ≠ 0 ∧ v ≠ 0 ∧
      (∀ a, eigHalf q w a 0 = eigSorted q w a (![0, 1] (descTwo (eigSorted q w 1 0) (eigSorted q w 1 1) 0)) * u) ∧
      (∀ a, eigHalf q w a 2 = eigSorted q w a (![0, 1] (descTwo (eigSorted q w 1 0) (eigSorted q w 1 1) 1)) * v) := by
    refine ⟨2 * unitPhase (eigSorted q w 1 (![0, 1] (descTwo (eigSorted q w 1 0) (eigSorted q w 1 1) 0))) / eigNorm q w,
      2 * unitPhase (eigSorted q w 0 (![0, 1] (descTwo (eigSorted q w 1 0) (eigSorted q w 1 1) 1))) / eigNorm q w,
      div_ne_zero (mul_ne_zero two_ne_zero (unitPhase_ne _)) hc,
      div_ne_zero (mul_ne_zero two_ne_zero (unitPhase_ne _)) hc, ?_, ?_⟩
    · intro a
      rw [eigHalf]
      generalize eigNorm q w = c
      simp only [eigPhased, Matrix.cons_val_zero]
      rw [mul_div_assoc', mul_left_comm]
    · intro a
      rw [eigHalf]
      generalize eigNorm q w = c
      simp only [eigPhased, Matrix.cons_val]
      rw [mul_div_assoc', mul_left_comm]
  rcases key (eigSorted q w 1 0) (eigSorted q w 1 1) with hk | hk
  · rw [hk] at h0 h2
    refine ⟨!![0, u; v, 0], ?_, ?_⟩
    · rw [Matrix.isUnit_iff_isUnit_det, Matrix.det_fin_two_of, isUnit_iff_ne_zero]
      simp [hu, hv]
    · ext a k
      fin_cases k <;> simp [cols, fwd, Matrix.mul_apply, Fin.sum_univ_two, h0, h2]
  · rw [hk] at h0 h2
    refine ⟨!![v, 0; 0, u], ?_, ?_⟩
    · rw [Matrix.isUnit_iff_isUnit_det, Matrix.det_fin_two_of, isUnit_iff_ne_zero]
      simp [hu, hv]
    · ext a k
      fin_cases k <;> simp [cols, fwd, Matrix.mul_apply, Fin.sum_univ_two, h0, h2]

/-! ## Uniqueness of the sorted spectrum and of the forward subspace -/

/-- Order of the sort. -/
def LexGe (a b : ℂ) : Prop := b.im < a.im ∨ (a.im = b.im ∧ b.re ≤ a.re)

noncomputable def sortedQ (q : Fin 4 → ℂ) (k : Fin 4) : ℂ := q (takeIdx (argsort (lexLe q)) (argsort_length _) k)

lemma LexGe.antisymm {a b : ℂ} (h : LexGe a b) (h' : LexGe b a) : a = b := by
  unfold LexGe at h h'
  apply Complex.ext
  · rcases h with h | ⟨h, h2⟩ <;> rcases h' with h' | ⟨h', h2'⟩ <;> linarith
  · rcases h with h | ⟨h, h2⟩ <;> rcases h' with h' | ⟨h', h2'⟩ <;> linarith

lemma LexGe.trans {a b c : ℂ} (h : LexGe a b) (h' : LexGe b c) : LexGe a c := by
  unfold LexGe at *
  rcases h with h | ⟨h, h2⟩
  · rcases h' with h' | ⟨h', h2'⟩
    · left; linarith
    · left; linarith
  · rcases h' with h' | ⟨h', h2'⟩
    · left; linarith
    · right; exact ⟨by linarith, by linarith⟩

lemma lexLe_iff (q : Fin 4 → ℂ) (a b : Fin 4) : lexLe q a b = true ↔ LexGe (q a) (q b) := by
  unfold lexLe LexGe
  simp

lemma argsort_pairwise (q : Fin 4 → ℂ) : (argsort (lexLe q)).Pairwise fun a b => LexGe (q a) (q b) := by
  have := List.pairwise_mergeSort (le := lexLe q)
    (by intro a b c h1 h2; rw [lexLe_iff] at *; exact h1.trans h2)
    (by
      intro a b
      simp only [Bool.or_eq_true, lexLe_iff, LexGe]
      rcases lt_trichotomy (q a).im (q b).im with h | h | h
      · right; left; exact h
      · rcases le_total (q a).re (q b).re with h' | h'
        · right; right; exact ⟨h.symm, h'⟩
        · left; right; exact ⟨h, h'⟩
      · left; left; exact h)
    (List.finRange 4)
  exact this.imp fun {a b} h => (lexLe_iff q a b).1 h

lemma sortedQ_anti (q : Fin 4 → ℂ) {i j : Fin 4} (h : i < j) : LexGe (sortedQ q i) (sortedQ q j) := by
  have := List.pairwise_iff_getElem.1 (argsort_pairwise q) i.val j.val
    (by rw [argsort_length]; exact i.2) (by rw [argsort_length]; exact j.2) h
  exact this

lemma sortedQ_list (q : Fin 4 → ℂ) : (argsort (lexLe q)).map q = List.ofFn (sortedQ q) := by
  apply List.ext_getElem
  · simp [argsort_length]
  · intro n h1 h2
    rw [List.getElem_ofFn, List.getElem_map]
    rfl

lemma sorted_unique (q q' : Fin 4 → ℂ) (h : (List.ofFn q).Perm (List.ofFn q')) : sortedQ q = sortedQ q' := by
  have p1 : ∀ q : Fin 4 → ℂ, ((argsort (lexLe q)).map q).Perm (List.ofFn q) := by
    intro q
    rw [List.ofFn_eq_map]
    exact (List.mergeSort_perm _ _).map q
  have hp : ((argsort (lexLe q)).map q).Perm ((argsort (lexLe q')).map q') := (p1 q).trans (h.trans (p1 q').symm)
  have s1 : ∀ q : Fin 4 → ℂ, ((argsort (lexLe q)).map q).Pairwise LexGe := by
    intro q
    rw [List.pairwise_map]
    exact argsort_pairwise q
  have := hp.eq_of_pairwise (fun a b _ _ h1 h2 => h1.antisymm h2) (s1 q) (s1 q')
  rw [sortedQ_list, sortedQ_list] at this
  exact List.ofFn_injective this

lemma eig_perm (delta w w' : Mat4) (q q' : Fin 4 → ℂ) (hw : IsUnit w) (hw' : IsUnit w')
    (h : delta * w = w * Matrix.diagonal q) (h' : delta * w' = w' * Matrix.diagonal q') :
    (List.ofFn q).Perm (List.ofFn q') := by
  have cp : ∀ (w : Mat4) (q : Fin 4 → ℂ), IsUnit w → delta * w = w * Matrix.diagonal q →
      delta.charpoly.roots = Multiset.map q Finset.univ.val := by
    intro w q hw h
    obtain ⟨u, rfl⟩ := hw
    have : delta = u.val * Matrix.diagonal q * u⁻¹.val := by
      rw [← h, Matrix.mul_assoc, Units.mul_inv, Matrix.mul_one]
    rw [this, Matrix.coe_units_inv, Matrix.charpoly_units_conj, Matrix.charpoly_diagonal, Polynomial.roots_prod]
    · simp
    · exact Finset.prod_ne_zero_iff.2 fun i _ => X_sub_C_ne_zero _
  have e := (cp w q hw h).symm.trans (cp w' q' hw' h')
  have lst : ∀ q : Fin 4 → ℂ, Multiset.map q Finset.univ.val = (List.ofFn q : Multiset ℂ) := by
    intro q
    simp
  rw [lst, lst] at e
  exact Multiset.coe_eq_coe.1 e

lemma eigSorted_spec (delta w : Mat4) (q : Fin 4 → ℂ) (hw : IsUnit w) (h : delta * w = w * Matrix.diagonal q) :
    IsUnit (eigSorted q w) ∧ delta * eigSorted q w = eigSorted q w * Matrix.diagonal (sortedQ q) := by
  have hbij := takeIdx_bijective (lexLe q)
  have hsub : eigSorted q w = w.submatrix (Equiv.refl _) (Equiv.ofBijective _ hbij) := rfl
  refine ⟨?_, ?_⟩
  · rw [hsub, Matrix.isUnit_submatrix_equiv]
    exact hw
  · ext a k
    have := congrFun (congrFun h a) (takeIdx (argsort (lexLe q)) (argsort_length _) k)
    rw [Matrix.mul_diagonal] at this ⊢
    rw [Matrix.mul_apply] at this ⊢
    exact this

/-- Two diagonalisations with a gap between the forward and the backward modes have the same forward subspace. -/
lemma fwd_mix (delta w w' : Mat4) (q q' : Fin 4 → ℂ) (hw : IsUnit w) (hw' : IsUnit w')
    (h : delta * w = w * Matrix.diagonal q) (h' : delta * w' = w' * Matrix.diagonal q')
    (hgap : sortedQ q 1 ≠ sortedQ q 2) : ∃ g : Mat2, IsUnit g ∧ fwd q' w' = fwd q w * g := by
  have hq : sortedQ q' = sortedQ q := (sorted_unique q q' (eig_perm delta w w' q q' hw hw' h h')).symm
  obtain ⟨u, e⟩ := eigSorted_spec delta w q hw h
  obtain ⟨u', e'⟩ := eigSorted_spec delta w' q' hw' h'
  rw [hq] at e'
  obtain ⟨W, hW⟩ := u
  obtain ⟨W', hW'⟩ := u'
  rw [← hW] at e
  rw [← hW'] at e'
  set B : Mat4 := W⁻¹.val * W'.val with hB
  have hBW : W.val * B = W'.val := by rw [hB, ← Matrix.mul_assoc, Units.mul_inv, Matrix.one_mul]
  have hcomm : B * Matrix.diagonal (sortedQ q) = Matrix.diagonal (sortedQ q) * B := by
    have h1 : W.val * (Matrix.diagonal (sortedQ q) * B) = W.val * (B * Matrix.diagonal (sortedQ q)) := by
      rw [← Matrix.mul_assoc, ← e, Matrix.mul_assoc, hBW, e', ← Matrix.mul_assoc, hBW]
    have h2 := congrArg (fun m => W⁻¹.val * m) h1
    simp only [← Matrix.mul_assoc, Units.inv_mul, Matrix.one_mul] at h2
    exact h2.symm
  have hne : ∀ i j : Fin 4, i ≤ 1 → 2 ≤ j → sortedQ q i ≠ sortedQ q j := by
    intro i j hi hj hij
    have ge : ∀ i j : Fin 4, i ≤ j → LexGe (sortedQ q i) (sortedQ q j) := by
      intro i j h
      rcases h.lt_or_eq with h | h
      · exact sortedQ_anti q h
      · rw [h]
        right
        exact ⟨rfl, le_rfl⟩
    apply hgap
    apply (ge 1 2 (by decide)).antisymm
    have a := ge 2 j hj
    have b := ge i 1 hi
    rw [hij] at b
    exact a.trans b
  have hz : ∀ i j : Fin 4, sortedQ q i ≠ sortedQ q j → B i j = 0 := by
    intro i j hij
    have := congrFun (congrFun hcomm i) j
    rw [Matrix.mul_diagonal, Matrix.diagonal_mul] at this
    have h0 : (sortedQ q i - sortedQ q j) * B i j = 0 := by linear_combination -this
    exact (mul_eq_zero.1 h0).resolve_left (sub_ne_zero.2 hij)
  have z : ∀ i j : Fin 4, i ≤ 1 → 2 ≤ j → B i j = 0 ∧ B j i = 0 := fun i j hi hj =>
    ⟨hz _ _ (hne i j hi hj), hz _ _ (hne i j hi hj).symm⟩
  refine ⟨!![B 0 0, B 0 1; B 1 0, B 1 1], ?_, ?_⟩
  · -- the inverse of B has the same block form
    have hBu : IsUnit B := (W⁻¹ * W').isUnit
    rw [Matrix.isUnit_iff_isUnit_det] at hBu ⊢
    rw [isUnit_iff_ne_zero] at hBu ⊢
    intro hdet
    apply hBu
    rw [Matrix.det_fin_two_of] at hdet
    have hb : B = !![B 0 0, B 0 1, 0, 0; B 1 0, B 1 1, 0, 0; 0, 0, B 2 2, B 2 3; 0, 0, B 3 2, B 3 3] := by
      ext i j
      fin_cases i <;> fin_cases j <;>
        simp [(z 0 2 (by decide) (by decide)).1, (z 0 3 (by decide) (by decide)).1, (z 1 2 (by decide) (by decide)).1,
          (z 1 3 (by decide) (by decide)).1, (z 0 2 (by decide) (by decide)).2, (z 0 3 (by decide) (by decide)).2,
          (z 1 2 (by decide) (by decide)).2, (z 1 3 (by decide) (by decide)).2]
    rw [hb]
    have : ∀ a b c d e f g h : ℂ, (!![a, b, 0, 0; c, d, 0, 0; 0, 0, e, f; 0, 0, g, h] : Mat4).det =
        (a * d - b * c) * (e * h - f * g) := by
      intro a b c d e f g h
      rw [Matrix.det_succ_row_zero]
      simp [Fin.sum_univ_four, Matrix.det_fin_three, Fin.succAbove, Matrix.submatrix_apply]
      ring
    rw [this, hdet, zero_mul]
  · ext a k
    have e0 : ∀ j, eigSorted q' w' a j = ∑ x, eigSorted q w a x * B x j := by
      intro j
      rw [← hW, ← hW', ← hBW, Matrix.mul_apply]
    simp only [fwd, Matrix.mul_apply, Fin.sum_univ_two]
    fin_cases k
    · simp only [e0, Fin.sum_univ_four]
      simp [(z 0 2 (by decide) (by decide)).2, (z 0 3 (by decide) (by decide)).2]
    · simp only [e0, Fin.sum_univ_four]
      simp [(z 1 2 (by decide) (by decide)).2, (z 1 3 (by decide) (by decide)).2]

/-- C41: the reflection matrix of a stack on an anisotropic exit medium does not depend on which eigenvectors `np.linalg.eig` returns
(order, scale, phase, basis of degenerate modes), provided forward and backward modes have different eigenvalues and the normalisation
constant of the half space does not vanish. -/
theorem C41_reflection_exit_basis_partial (prop : Propagator) (s : Stack) (hs : s.backIsotropic = false) (theta lbda : ℝ)
    (w w' : Mat4) (q q' : Fin 4 → ℂ) (hw : IsUnit w) (hw' : IsUnit w')
    (h : buildDelta (kxOf s theta) s.back * w = w * Matrix.diagonal q)
    (h' : buildDelta (kxOf s theta) s.back * w' = w' * Matrix.diagonal q')
    (hgap : sortedQ q 1 ≠ sortedQ q 2) (hc : eigNorm q w ≠ 0) (hc' : eigNorm q' w' ≠ 0) :
    (calculate4x4 prop s theta lbda (q, w)).jr = (calculate4x4 prop s theta lbda (q', w')).jr := by
  obtain ⟨g, hg, e⟩ := cols_eigHalf q w hc
  obtain ⟨g', hg', e'⟩ := cols_eigHalf q' w' hc'
  obtain ⟨k, hk, ek⟩ := fwd_mix _ w w' q q' hw hw' h h' hgap
  have hgi : g * g⁻¹ = 1 := Matrix.mul_nonsing_inv _ ((Matrix.isUnit_iff_isUnit_det _).1 hg)
  have hmix : cols (eigHalf q' w') = cols (eigHalf q w) * (g⁻¹ * k * g') := by
    rw [e, e', ek, Matrix.mul_assoc, Matrix.mul_assoc, Matrix.mul_assoc, ← Matrix.mul_assoc g g⁻¹, hgi, Matrix.one_mul]
  have hu : IsUnit (g⁻¹ * k * g').det := by
    rw [Matrix.det_mul, Matrix.det_mul]
    exact ((Matrix.isUnit_nonsing_inv_det _ ((Matrix.isUnit_iff_isUnit_det _).1 hg)).mul
      ((Matrix.isUnit_iff_isUnit_det _).1 hk)).mul ((Matrix.isUnit_iff_isUnit_det _).1 hg')
  simp only [calculate4x4, transfer4x4, loop4x4_eq, exitMatrix, hs]
  simp only [Bool.false_eq_true, if_false]
  simp only [← Matrix.mul_assoc (isoHalfInv (kxOf s theta) s.front)]
  generalize isoHalfInv (kxOf s theta) s.front * _ = A
  rw [tIt_mix A _ _ _ hmix, tRt_mix A _ _ _ hmix, Matrix.mul_inv_rev, Matrix.mul_assoc,
    ← Matrix.mul_assoc (g⁻¹ * k * g'), Matrix.mul_nonsing_inv _ hu, Matrix.one_mul]

/-! ## Vacuum as an "anisotropic" exit medium -/

/-- Vacuum on vacuum, the exit half space being treated by the eigenvector route. -/
noncomputable def vacStack : Stack := ⟨isoTensor 1, [], isoTensor 1, false⟩

/-- Eigenvectors of the vacuum at normal incidence; the backward s mode carries the phase `u`. -/
def vacW (u : ℂ) : Mat4 := !![0, 1, 0, 1; 1, 0, u, 0; -1, 0, u, 0; 0, 1, 0, -1]

def vacQ : Fin 4 → ℂ := ![1, 1, -1, -1]

lemma kx_vac : kxOf vacStack 0 = 0 := by simp [kxOf, deg2rad]

lemma vac_eig (u : ℂ) : buildDelta (kxOf vacStack 0) vacStack.back * vacW u = vacW u * Matrix.diagonal vacQ := by
  rw [kx_vac]
  ext i j
  rw [Matrix.mul_diagonal]
  fin_cases i <;> fin_cases j <;>
    simp [buildDelta, vacStack, isoTensor, vacW, vacQ, Matrix.mul_apply, Fin.sum_univ_four]

lemma vac_unit (u : ℂ) (hu : u ≠ 0) : IsUnit (vacW u) := by
  have h : vacW u * !![0, 1 / 2, -(1 / 2), 0; 1 / 2, 0, 0, 1 / 2; 0, 1 / (2 * u), 1 / (2 * u), 0; 1 / 2, 0, 0, -(1 / 2)] = 1 := by
    ext i j
    fin_cases i <;> fin_cases j <;> simp [vacW, Matrix.mul_apply, Fin.sum_univ_four] <;> field_simp <;> norm_num
  exact IsUnit.of_mul_eq_one _ h

lemma vac_idx : argsort (lexLe vacQ) = [0, 1, 2, 3] := by
  unfold argsort
  rw [List.mergeSort_of_pairwise]
  · rfl
  · have : List.finRange 4 = [0, 1, 2, 3] := rfl
    rw [this]
    simp [lexLe_iff, LexGe, vacQ]

lemma vac_sorted (u : ℂ) : eigSorted vacQ (vacW u) = vacW u := by
  ext a k
  unfold eigSorted takeIdx
  simp only [vac_idx]
  fin_cases k <;> rfl

lemma vac_gap : sortedQ vacQ 1 ≠ sortedQ vacQ 2 := by
  unfold sortedQ takeIdx
  simp only [vac_idx]
  simp [vacQ]
  intro h
  have := congrArg Complex.re h
  norm_num at this

lemma unitPhase_one {u : ℂ} (h : ‖u‖ = 1) : unitPhase u = u := by
  simp [unitPhase, h]

lemma vac_phased (u : ℂ) (hu : ‖u‖ = 1) : eigPhased vacQ (vacW u) =
    !![0, 0, 1, 1; 1, u ^ 2, 0, 0; -1, u ^ 2, 0, 0; 0, 0, 1, -1] := by
  have d : ∀ x : ℂ, descTwo x 0 = ![0, 1] := by
    intro x
    unfold descTwo
    rw [if_pos]
    simp
  have p1 : unitPhase 1 = 1 := unitPhase_one (by simp)
  have pu := unitPhase_one hu
  ext a k
  simp only [eigPhased, vac_sorted]
  have w1 : vacW u 1 1 = 0 := rfl
  have w3 : vacW u 1 3 = 0 := rfl
  simp only [w1, w3, d]
  fin_cases k <;> fin_cases a <;> simp [vacW, p1, pu, pow_two]

lemma vac_norm (u : ℂ) (hu : ‖u‖ = 1) : eigNorm vacQ (vacW u) = 1 + u ^ 2 := by
  unfold eigNorm
  rw [vac_phased u hu]
  simp

lemma vac_jt (u : ℂ) (hu : ‖u‖ = 1) (hc : 1 + u ^ 2 ≠ 0) (prop : Propagator) (lbda : ℝ) :
    (calculate4x4 prop vacStack 0 lbda (vacQ, vacW u)).jt = Matrix.diagonal ![(1 + u ^ 2) / 2, (1 + u ^ 2) / 2] := by
  have n1 : nOf (isoTensor 1) = 1 := by
    have := nOf_iso_sq (x := 1) (by norm_num)
    simpa using this
  have c1 : cosPhi 0 (isoTensor 1) = 1 := by
    unfold cosPhi
    have := csqrt_ofReal (x := 1) (by norm_num)
    simpa using this
  have hm : tIt (transfer4x4 prop vacStack 0 lbda (vacQ, vacW u)) = !![2 / (1 + u ^ 2), 0; 0, 2 / (1 + u ^ 2)] := by
    unfold transfer4x4
    rw [kx_vac]
    have hl : loop4x4 prop 0 lbda vacStack.layers (exitMatrix vacStack 0 (vacQ, vacW u)) = eigHalf vacQ (vacW u) := rfl
    rw [hl]
    ext i j
    fin_cases i <;> fin_cases j <;>
      simp [tIt, Matrix.mul_apply, Fin.sum_univ_four, isoHalfInv, vacStack, n1, c1, eigHalf, vac_phased u hu,
        vac_norm u hu] <;> ring
  unfold calculate4x4
  simp only [hm]
  rw [← diagonal_two]
  apply Matrix.inv_eq_right_inv
  rw [diagonal_two]
  ext i j
  fin_cases i <;> fin_cases j <;> simp [Matrix.mul_apply, Fin.sum_univ_two] <;> field_simp <;> exact hc

/-- The hypotheses of `C41_reflection_exit_basis_partial` for two different phases. -/
example : vacStack.backIsotropic = false ∧ IsUnit (vacW 1) ∧ IsUnit (vacW ((3 + 4 * I) / 5)) ∧
    sortedQ vacQ 1 ≠ sortedQ vacQ 2 ∧ eigNorm vacQ (vacW 1) ≠ 0 := by
  refine ⟨rfl, vac_unit _ one_ne_zero, vac_unit _ ?_, vac_gap, ?_⟩
  · intro h
    have := congrArg Complex.re h
    norm_num at this
  · rw [vac_norm 1 (by simp)]
    norm_num

/-- C41 does not extend to transmission: two correct answers of `np.linalg.eig` that differ by the phase of one eigenvector give
different transmitted *power* (`jt` entries of different modulus), because the eigenvectors are multiplied with their phase instead of
being divided by it (`solver4x4.py:244-249`). -/
theorem C41_transmission_refuted (prop : Propagator) (lbda : ℝ) :
    ∃ (s : Stack) (q : Fin 4 → ℂ) (w w' : Mat4), s.backIsotropic = false ∧ IsUnit w ∧ IsUnit w' ∧
      buildDelta (kxOf s 0) s.back * w = w * Matrix.diagonal q ∧
      buildDelta (kxOf s 0) s.back * w' = w' * Matrix.diagonal q ∧
      (∀ k, ∃ u : ℂ, ‖u‖ = 1 ∧ ∀ a, w' a k = u * w a k) ∧
      ‖(calculate4x4 prop s 0 lbda (q, w)).jt 1 1‖ ≠ ‖(calculate4x4 prop s 0 lbda (q, w')).jt 1 1‖ := by
  set u : ℂ := (3 + 4 * I) / 5 with hu
  have hn : ‖u‖ = 1 := by
    have : ‖u‖ ^ 2 = 1 := by
      rw [← Complex.normSq_eq_norm_sq, hu, Complex.normSq_apply]
      norm_num
    nlinarith [norm_nonneg u]
  have hu0 : u ≠ 0 := norm_ne_zero_iff.1 (by rw [hn]; exact one_ne_zero)
  have hsq : 1 + u ^ 2 = (18 + 24 * I) / 25 := by
    rw [hu]
    have := Complex.I_sq
    linear_combination (16 / 25) * this
  have hne : 1 + u ^ 2 ≠ 0 := by
    rw [hsq]
    intro h
    have := congrArg Complex.re h
    norm_num at this
  refine ⟨vacStack, vacQ, vacW 1, vacW u, rfl, vac_unit _ one_ne_zero, vac_unit _ hu0, vac_eig _, vac_eig _, ?_, ?_⟩
  · intro k
    refine ⟨if k = 2 then u else 1, by split_ifs <;> simp [hn], ?_⟩
    intro a
    fin_cases k <;> fin_cases a <;> simp [vacW]
  · rw [vac_jt 1 (by simp) (by norm_num), vac_jt u hn hne]
    simp only [Matrix.diagonal_apply_eq, Matrix.cons_val_one, Matrix.cons_val_fin_one, hsq]
    intro h
    have h2 := congrArg (fun x => x ^ 2) h
    simp only [← Complex.normSq_eq_norm_sq] at h2
    rw [Complex.normSq_apply, Complex.normSq_apply] at h2
    norm_num at h2

/-- C41: for some correct answers of `np.linalg.eig` the normalisation constant of the exit half space is zero and every result is
NaN; the guard in line 255 of `solver4x4.py` is a no-op. -/
theorem C41_normalisation_refuted :
    ∃ (s : Stack) (q : Fin 4 → ℂ) (w : Mat4), s.backIsotropic = false ∧ IsUnit w ∧
      buildDelta (kxOf s 0) s.back * w = w * Matrix.diagonal q ∧ eigNorm q w = 0 := by
  refine ⟨vacStack, vacQ, vacW I, rfl, vac_unit _ Complex.I_ne_zero, vac_eig _, ?_⟩
  rw [vac_norm I (by simp)]
  simp

end PyElli
