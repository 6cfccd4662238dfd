import Verif.Lemmas.ArrayExact

/-! # `Solver4x4` and `Solver2x2` for one wavelength with exact arithmetic -/

namespace PyElli.Nd

open PyElli Matrix Complex

variable {asin : ℂ → ℂ} {eig : Mat4 → (Fin 4 → ℂ) × Mat4}

local notation "𝔼" => exact asin eig

lemma exact_sin_deg (theta : ℝ) : @Arith.sin ℂ 𝔼 (@Arith.deg2rad ℂ 𝔼 (theta : ℂ)) = ((Real.sin (deg2rad theta) : ℝ) : ℂ) := by
  simp [deg2rad]

lemma exact_delta (kx : ℂ) (e : Tensor) : @pDelta ℂ 𝔼 kx e = buildDelta kx e := by
  funext i j
  fin_cases i <;> fin_cases j <;> simp [pDelta, buildDelta]

lemma exact_isoHalf (kx : ℂ) (e : Tensor) : @pIsoHalf ℂ 𝔼 kx e false = isoHalf kx e := by
  funext i j
  fin_cases i <;> fin_cases j <;> simp [pIsoHalf, isoHalf, cosPhi, nOf]

lemma exact_isoHalfInv (kx : ℂ) (e : Tensor) : @pIsoHalf ℂ 𝔼 kx e true = isoHalfInv kx e := by
  funext i j
  fin_cases i <;> fin_cases j <;> norm_num [pIsoHalf, isoHalfInv, cosPhi, nOf]

open Classical in
lemma exact_lex (q : Fin 4 → ℂ) : @pLex ℂ 𝔼 q = takeIdx (PyElli.argsort (lexLe q)) (argsort_length _) := by
  funext j
  simp only [pLex, rowPos, takeIdx, PyElli.argsort]
  congr 2
  funext a b
  simp only [lexKey, lexLe, exact_lt, exact_eq, exact_le, exact_neg, exact_real, exact_imag, neg_re, ofReal_re, neg_inj, ofReal_inj,
    Bool.decide_or, Bool.decide_and]

open Classical in
lemma exact_abs_order (x y : ℂ) : @pAbs ℂ 𝔼 x y = descTwo x y := by
  funext j
  have e : (List.finRange 2) = [0, 1] := by decide
  by_cases h : -‖x‖ ≤ -‖y‖
  · have : (List.finRange 2).mergeSort (fun a b => @Arith.le ℂ 𝔼 ((![@Arith.neg ℂ 𝔼 (@Arith.abs ℂ 𝔼 x), @Arith.neg ℂ 𝔼 (@Arith.abs ℂ 𝔼 y)] : Fin 2 → ℂ) a)
        ((![@Arith.neg ℂ 𝔼 (@Arith.abs ℂ 𝔼 x), @Arith.neg ℂ 𝔼 (@Arith.abs ℂ 𝔼 y)] : Fin 2 → ℂ) b)) = [0, 1] := by
      rw [e]
      simp [List.mergeSort, List.MergeSort.Internal.splitInTwo, List.merge] at h ⊢
      exact h
    simp only [pAbs, rowPos, descTwo, if_pos h]
    fin_cases j <;> simp only [this] <;> rfl
  · have : (List.finRange 2).mergeSort (fun a b => @Arith.le ℂ 𝔼 ((![@Arith.neg ℂ 𝔼 (@Arith.abs ℂ 𝔼 x), @Arith.neg ℂ 𝔼 (@Arith.abs ℂ 𝔼 y)] : Fin 2 → ℂ) a)
        ((![@Arith.neg ℂ 𝔼 (@Arith.abs ℂ 𝔼 x), @Arith.neg ℂ 𝔼 (@Arith.abs ℂ 𝔼 y)] : Fin 2 → ℂ) b)) = [1, 0] := by
      rw [e]
      simp [List.mergeSort, List.MergeSort.Internal.splitInTwo, List.merge] at h ⊢
      exact h
    simp only [pAbs, rowPos, descTwo, if_neg h]
    fin_cases j <;> simp only [this] <;> rfl

open Classical in
lemma exact_phase (e : ℂ) : @pPhase ℂ 𝔼 e = unitPhase e := by
  by_cases h : e = 0 <;> simp [pPhase, unitPhase, h]

lemma exact_order (p : Mat4) : @pOrder ℂ 𝔼 p =
    ![(![0, 1] : Fin 2 → Fin 4) (descTwo (p 1 0) (p 1 1) 0), (![2, 3] : Fin 2 → Fin 4) (descTwo (p 1 2) (p 1 3) 0),
      (![0, 1] : Fin 2 → Fin 4) (descTwo (p 1 0) (p 1 1) 1), (![2, 3] : Fin 2 → Fin 4) (descTwo (p 1 2) (p 1 3) 1)] := by
  have lo : ∀ k : Fin 2, (⟨k.val, by omega⟩ : Fin 4) = (![0, 1] : Fin 2 → Fin 4) k := by decide
  have hi : ∀ k : Fin 2, (⟨2 + k.val, by omega⟩ : Fin 4) = (![2, 3] : Fin 2 → Fin 4) k := by decide
  simp only [pOrder, exact_abs_order, lo, hi]

lemma exact_modes (q : Fin 4 → ℂ) (w : Mat4) : @pModes ℂ 𝔼 (q, w) = eigHalf q w := by
  have hp : (fun i j => w i (@pLex ℂ 𝔼 q j)) = eigSorted q w := by
    rw [exact_lex]
    rfl
  simp only [pModes]
  rw [hp, exact_order]
  funext i j
  simp only [pNorm, exact_lex, exact_phase, exact_mul, exact_add, exact_div, exact_num, eigHalf, eigNorm, eigPhased, Rat.cast_ofNat]
  fin_cases j <;> rfl

lemma exact_diag (q : Fin 4 → ℂ) : @pDiag ℂ 𝔼 q = (Matrix.diagonal q : Mat4) := by
  funext i j
  fin_cases i <;> fin_cases j <;> simp [pDiag, Matrix.diagonal]

open Classical in
lemma exact_inv_ok {n : ℕ} {M X : Fin n → Fin n → ℂ} (h : @Arith.inv ℂ 𝔼 n M = .ok X) : X = ((Matrix.of M)⁻¹ : Matrix (Fin n) (Fin n) ℂ) := by
  rw [exact_inv] at h
  split_ifs at h
  exact (Except.ok.inj h).symm

lemma exact_prop (k : PropKind) (D : Mat4) (d l : ℝ) {P : Fin 4 → Fin 4 → ℂ} (h : @pProp ℂ 𝔼 k D (@Arith.neg ℂ 𝔼 (d : ℂ)) (l : ℂ) = .ok P) :
    P = k.propagator eig D (-d) l := by
  cases k with
  | linear =>
    have h := Except.ok.inj h
    rw [← h]
    funext i j
    simp only [pScaled, PropKind.propagator, propLinear, Matrix.add_apply, Matrix.smul_apply, Matrix.one_apply, wavenumber, exact_add, exact_mul, exact_I,
      exact_neg, exact_num, exact_pi, exact_div, smul_eq_mul]
    push_cast
    split_ifs <;> ring
  | expm =>
    have h := Except.ok.inj h
    rw [← h, exact_expm]
    simp only [PropKind.propagator, propExpm]
    congr 1
    ext i j
    simp only [pScaled, Matrix.of_apply, Matrix.smul_apply, wavenumber, exact_mul, exact_I,
      exact_neg, exact_num, exact_pi, exact_div, smul_eq_mul]
    push_cast
    ring
  | eig =>
    simp only [pProp] at h
    obtain ⟨qp, h1, h⟩ := bind_ok h
    have h1 : eig D = qp := Except.ok.inj ((exact_eig (asin := asin) (eig := eig) D).symm.trans h1)
    obtain ⟨wi, h2, h⟩ := bind_ok h
    have h2 := exact_inv_ok h2
    have h := Except.ok.inj h
    rw [← h, h2]
    simp only [PropKind.propagator, propEig, h1, exact_matMul, exact_diag, exact_lex]
    have e : (fun j => @Arith.exp ℂ 𝔼 (@Arith.div ℂ 𝔼 (@Arith.mul ℂ 𝔼 (@Arith.mul ℂ 𝔼 (@Arith.mul ℂ 𝔼
        (qp.1 (takeIdx (PyElli.argsort (lexLe qp.1)) (argsort_length _) j)) (@Arith.mul ℂ 𝔼 (@Arith.num ℂ 𝔼 2) (@Arith.I ℂ 𝔼)))
        (@Arith.neg ℂ 𝔼 (d : ℂ))) (@Arith.pi ℂ 𝔼)) (l : ℂ))) =
        fun k => Complex.exp (qp.1 (takeIdx (PyElli.argsort (lexLe qp.1)) (argsort_length _) k) * (2 * Complex.I) * ((-d : ℝ) : ℂ) * Real.pi / l) := by
      funext j
      simp
    rw [e]
    rfl

lemma exact_loop4 (k : PropKind) (kx : ℂ) (l : ℝ) : ∀ (ls : List (ℝ × Tensor)) {m : Except PyErr (Fin 4 → Fin 4 → ℂ)} {X M : Fin 4 → Fin 4 → ℂ},
    (m = .ok X ∨ ∃ e, m = .error e) →
    (ls.map castSlice).foldl (fun m s => (@pProp ℂ 𝔼 k (@pDelta ℂ 𝔼 kx s.2) (@Arith.neg ℂ 𝔼 s.1) (l : ℂ)).bind fun P => m.bind fun M => .ok (@matMul ℂ _ _ _ 𝔼 P M)) m = .ok M →
    M = ls.foldl (fun m s => k.propagator eig (buildDelta kx s.2) (-s.1) l * m) (Matrix.of X)
  | [], m, X, M, hm, h => by
    simp only [List.map_nil, List.foldl_nil] at h ⊢
    rcases hm with hm | ⟨e, hm⟩
    · rw [hm] at h
      exact (Except.ok.inj h).symm
    · rw [hm] at h
      simp at h
  | s :: ls, m, X, M, hm, h => by
    simp only [List.map_cons, List.foldl_cons] at h ⊢
    refine exact_loop4 k kx l ls ?_ h
    cases hp : @pProp ℂ 𝔼 k (@pDelta ℂ 𝔼 kx (castSlice s).2) (@Arith.neg ℂ 𝔼 (castSlice s).1) (l : ℂ) with
    | error e => exact .inr ⟨e, rfl⟩
    | ok P =>
      rcases hm with hm | ⟨e, hm⟩
      · left
        subst hm
        have : P = k.propagator eig (buildDelta kx s.2) (-s.1) l := by
          rw [← exact_delta (asin := asin) (eig := eig)]
          exact exact_prop k _ _ _ hp
        simp only [Except.bind, exact_matMul, this]
        rfl
      · right
        subst hm
        exact ⟨e, rfl⟩

lemma exact_kx (theta : ℝ) (st : Stack) : @pKx ℂ 𝔼 (theta : ℂ) (castStack st).front = kxOf st theta := by
  simp only [pKx, exact_sin_deg, castStack]
  rfl

lemma exact_kz (kx : ℂ) (e : Tensor) : @pKz ℂ 𝔼 kx e = getKz e kx := by
  simp [pKz, getKz, nOf]

lemma exact_stack4 (k : PropKind) (theta l : ℝ) (st : Stack) {M : Fin 4 → Fin 4 → ℂ}
    (h : @pStack4 ℂ 𝔼 k st.backIsotropic (theta : ℂ) (l : ℂ) (castStack st) = .ok M) :
    M = loop4x4 (k.propagator eig) (kxOf st theta) l st.layers (exitMatrix st (kxOf st theta) (eig (buildDelta (kxOf st theta) st.back))) := by
  simp only [pStack4, pLoop4, exact_kx] at h
  simp only [loop4x4]
  have e : (castStack st).layers.reverse = st.layers.reverse.map castSlice := by simp [castStack]
  rw [e] at h
  refine exact_loop4 (X := exitMatrix st (kxOf st theta) (eig (buildDelta (kxOf st theta) st.back))) k _ l st.layers.reverse ?_ h
  left
  by_cases hb : st.backIsotropic
  · rw [if_pos hb, exitMatrix, if_pos hb, ← exact_isoHalf (asin := asin) (eig := eig)]
    rfl
  · rw [if_neg hb, exitMatrix, if_neg hb]
    simp only [pHalfspace, exact_eig, Except.bind]
    congr 1
    exact exact_modes _ _ |>.trans (by simp only [castStack, exact_delta]; rfl)

/-- The result of `Model/Solver.lean`. -/
def castOut (o : SolverOut) : PRes ℂ := (o.jr, o.jt, ((o.power.getD 1 : ℝ) : ℂ))

lemma exact_4 (k : PropKind) {s : StructArr ℂ} {s' : Struct} (hs : StructIs s s') (theta l : ℝ) {st : Stack} (hst : s'.stack l = some st) {r : PRes ℂ}
    (h : @p4 ℂ 𝔼 k s (theta : ℂ) (l : ℂ) = .ok r) :
    r = castOut (calculate4x4 (k.propagator eig) st theta l (eig (buildDelta (kxOf st theta) st.back))) := by
  obtain ⟨ps, h1, h⟩ := bind_ok h
  obtain ⟨rfl, hb⟩ := setup_eq hs h1 hst
  rw [hb] at h
  obtain ⟨M, h2, h⟩ := bind_ok h
  have h2 := exact_stack4 k theta l st h2
  simp only [pFinish4, pJones4] at h
  obtain ⟨t, h3, h⟩ := bind_ok h
  have h3 := exact_inv_ok h3
  have h := Except.ok.inj h
  have hT : @matMul ℂ _ _ _ 𝔼 (@pIsoHalf ℂ 𝔼 (@pKx ℂ 𝔼 (theta : ℂ) (castStack st).front) (castStack st).front true) M =
      transfer4x4 (k.propagator eig) st theta l (eig (buildDelta (kxOf st theta) st.back)) := by
    rw [exact_matMul, exact_kx, h2, transfer4x4]
    congr 1
    exact exact_isoHalfInv _ _
  rw [hT] at h h3
  generalize hTT : transfer4x4 (k.propagator eig) st theta l (eig (buildDelta (kxOf st theta) st.back)) = T at h h3
  have ht : t = (tIt T)⁻¹ := h3
  rw [← h, ht]
  simp only [castOut, calculate4x4, hTT]
  refine Prod.ext ?_ (Prod.ext rfl ?_)
  · simp only [exact_matMul]
    rfl
  · simp only [pPower, exact_kx]
    split_ifs with h0
    · simp [exact_kz, castStack]
    · simp

end PyElli.Nd
