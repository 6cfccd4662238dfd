import Verif.Props.Spectra
import Verif.Props.SolverLaws
import Verif.Lemmas.Symmetry

/-! # C104: the spectra are the point-wise results

With exact numbers the arrays computed by the solvers contain, for each wavelength, the results of `Model/Solver.lean`. So every theorem about
one wavelength holds for each entry of the arrays. The calculation raises exactly if a matrix that has to be inverted is singular for one
of the wavelengths. -/

namespace PyElli.Nd

open PyElli Matrix Complex

variable {asin : ℂ → ℂ} {eig : Mat4 → (Fin 4 → ℂ) × Mat4}

local notation "𝔼" => exact asin eig

/-- Real wavelengths as numbers of the exact arithmetic. -/
noncomputable def realWavelengths (asin : ℂ → ℂ) (eig : Mat4 → (Fin 4 → ℂ) × Mat4) (L : List ℝ) : ND ℂ :=
  @wavelengths ℂ (exact asin eig) (L.map Complex.ofReal)

lemma realWavelengths_shape (L : List ℝ) : (realWavelengths asin eig L).shape = [L.length] := by
  simp [realWavelengths, wavelengths]

lemma realWavelengths_val {L : List ℝ} {k : ℕ} {l : ℝ} (h : L[k]? = some l) : (realWavelengths asin eig L).val [k] = (l : ℂ) := by
  simp [realWavelengths, wavelengths, List.getD_eq_getElem?_getD, h]

/-- C104: the arrays returned by `Solver4x4` contain the results of each wavelength. -/
theorem C104_solver4x4 (kind : PropKind) {s : StructArr ℂ} {s' : Struct} (hs : StructIs s s') (theta : ℝ) (L : List ℝ) {r : ResArr ℂ}
    (hr : @calculate4Arr ℂ 𝔼 kind s (theta : ℂ) (realWavelengths asin eig L) = .ok r) :
    r.sized L.length ∧ ∀ k l st, L[k]? = some l → s'.stack l = some st →
      (∀ i j, r.jr.val [k, i.val, j.val] = (calculate4x4 (kind.propagator eig) st theta l (eig (buildDelta (kxOf st theta) st.back))).jr i j) ∧
      (∀ i j, r.jt.val [k, i.val, j.val] = (calculate4x4 (kind.propagator eig) st theta l (eig (buildDelta (kxOf st theta) st.back))).jt i j) ∧
      r.power.val [k] =
        ((((calculate4x4 (kind.propagator eig) st theta l (eig (buildDelta (kxOf st theta) st.back))).power.getD 1 : ℝ)) : ℂ) := by
  have h := @sim_calculate4 ℂ 𝔼 L.length kind s (theta : ℂ) (realWavelengths asin eig L) (realWavelengths_shape L)
  rw [hr] at h
  refine ⟨h.1, fun k l st hk hst => ?_⟩
  have h1 := h.2 k (List.getElem?_eq_some_iff.1 hk).1
  beta_reduce at h1
  rw [realWavelengths_val hk] at h1
  have h2 := exact_4 kind hs theta l hst h1
  exact ⟨fun i j => congrFun (congrFun (congrArg Prod.fst h2) i) j, fun i j => congrFun (congrFun (congrArg (fun x => x.2.1) h2) i) j,
    congrArg (fun x => x.2.2) h2⟩

/-- C104: the arrays returned by `Solver2x2` contain the results of each wavelength. -/
theorem C104_solver2x2 {s : StructArr ℂ} {s' : Struct} (hs : StructIs s s') (theta : ℝ) (L : List ℝ) {r : ResArr ℂ}
    (hr : @calculate2Arr ℂ 𝔼 s (theta : ℂ) (realWavelengths asin eig L) = .ok r) :
    r.sized L.length ∧ ∀ k l st, L[k]? = some l → s'.stack l = some st →
      (∀ i j, r.jr.val [k, i.val, j.val] = (calculate2x2 asin st theta l).jr i j) ∧
      (∀ i j, r.jt.val [k, i.val, j.val] = (calculate2x2 asin st theta l).jt i j) ∧
      r.power.val [k] = ((((calculate2x2 asin st theta l).power.getD 1 : ℝ)) : ℂ) := by
  have h := @sim_calculate2 ℂ 𝔼 L.length s (theta : ℂ) (realWavelengths asin eig L) (realWavelengths_shape L)
  rw [hr] at h
  refine ⟨h.1, fun k l st hk hst => ?_⟩
  have h1 := h.2 k (List.getElem?_eq_some_iff.1 hk).1
  beta_reduce at h1
  rw [realWavelengths_val hk] at h1
  have h2 := exact_2 hs theta l hst h1
  exact ⟨fun i j => congrFun (congrFun (congrArg Prod.fst h2) i) j, fun i j => congrFun (congrFun (congrArg (fun x => x.2.1) h2) i) j,
    congrArg (fun x => x.2.2) h2⟩

/-- C104: the tensors of a material contain the tensor of each wavelength, wherever it is not NaN. -/
theorem C104_tensor {M : Mat ℂ} {m : Material} (hm : MatIs M m) (L : List ℝ) {x : ND ℂ}
    (hx : @Mat.getTensor ℂ 𝔼 M (realWavelengths asin eig L) = .ok x) :
    x.shape = [L.length, 3, 3] ∧ ∀ k l, L[k]? = some l → ∀ i j c, m.getTensor l i j = some c → x.val [k, i.val, j.val] = c := by
  have h := @sim_tensor ℂ 𝔼 L.length (realWavelengths asin eig L) (realWavelengths_shape L) M
  rw [hx] at h
  refine ⟨h.1, fun k l hk i j c hc => ?_⟩
  have h1 := h.2 k (List.getElem?_eq_some_iff.1 hk).1
  beta_reduce at h1
  rw [realWavelengths_val hk] at h1
  exact agrees_tensor hm h1 i j c hc

/-! ## When the calculation raises -/

lemma foldl_prop_ok {kind : PropKind} {kx l : ℂ} : ∀ (ls : List (PSlice ℂ)) (m : Except PyErr (Fin 4 → Fin 4 → ℂ)),
    (∃ M, ls.foldl (fun m s => (@pProp ℂ 𝔼 kind (@pDelta ℂ 𝔼 kx s.2) (@Arith.neg ℂ 𝔼 s.1) l).bind fun P => m.bind fun M => .ok (@matMul ℂ _ _ _ 𝔼 P M)) m = .ok M) ↔
      (∃ X, m = .ok X) ∧ ∀ s ∈ ls, ∃ P, @pProp ℂ 𝔼 kind (@pDelta ℂ 𝔼 kx s.2) (@Arith.neg ℂ 𝔼 s.1) l = .ok P
  | [], m => by simp
  | s :: ls, m => by
    simp only [List.foldl_cons, List.mem_cons, forall_eq_or_imp]
    rw [foldl_prop_ok ls]
    cases @pProp ℂ 𝔼 kind (@pDelta ℂ 𝔼 kx s.2) (@Arith.neg ℂ 𝔼 s.1) l with
    | error e => simp [Except.bind]
    | ok P => cases m <;> simp [Except.bind]

lemma det_eigSorted (q : Fin 4 → ℂ) (w : Mat4) : (eigSorted q w).det = 0 ↔ w.det = 0 := by
  have h : eigSorted q w = w.submatrix id (Equiv.ofBijective _ (takeIdx_bijective (lexLe q))) := rfl
  rw [h, Matrix.det_permute']
  have : ((Equiv.Perm.sign (Equiv.ofBijective _ (takeIdx_bijective (lexLe q))) : ℤ) : ℂ) ≠ 0 := by
    rcases Int.units_eq_one_or (Equiv.Perm.sign (Equiv.ofBijective _ (takeIdx_bijective (lexLe q)))) with h | h <;> rw [h] <;> simp
  simp [this]

open Classical in
lemma exact_inv_iff {n : ℕ} {M : Fin n → Fin n → ℂ} : (∃ X, @Arith.inv ℂ 𝔼 n M = .ok X) ↔ (Matrix.of M).det ≠ 0 := by
  rw [exact_inv]
  split_ifs with h
  · simp [h]
  · exact ⟨fun _ => h, fun _ => ⟨_, rfl⟩⟩

lemma exact_prop_iff (kind : PropKind) (D : Mat4) (h l : ℂ) :
    (∃ P, @pProp ℂ 𝔼 kind D h l = .ok P) ↔ (kind = .eig → (eig D).2.det ≠ 0) := by
  cases kind with
  | linear => simp [pProp]
  | expm => simp [pProp]
  | eig =>
    simp only [pProp, forall_const]
    have e : @Arith.eig ℂ 𝔼 4 D = .ok (eig D) := rfl
    rw [e]
    simp only [Except.bind, exact_lex]
    have h1 := exact_inv_iff (asin := asin) (eig := eig) (M := fun i j => (eig D).2 i (takeIdx (PyElli.argsort (lexLe (eig D).1)) (argsort_length _) j))
    have h2 : (Matrix.of fun i j => (eig D).2 i (takeIdx (PyElli.argsort (lexLe (eig D).1)) (argsort_length _) j)) = eigSorted (eig D).1 (eig D).2 := rfl
    rw [h2] at h1
    rw [ne_eq, ← det_eigSorted (eig D).1, ← ne_eq, ← h1]
    cases @Arith.inv ℂ 𝔼 4 fun i j => (eig D).2 i (takeIdx (PyElli.argsort (lexLe (eig D).1)) (argsort_length _) j) <;> simp

lemma exact_4_iff (kind : PropKind) {s : StructArr ℂ} {s' : Struct} (hs : StructIs s s') (theta l : ℝ) {st : Stack} (hst : s'.stack l = some st)
    (hp : ∃ p, @pSetup ℂ 𝔼 s (l : ℂ) = .ok p) :
    (∃ r, @p4 ℂ 𝔼 kind s (theta : ℂ) (l : ℂ) = .ok r) ↔
      (tIt (transfer4x4 (kind.propagator eig) st theta l (eig (buildDelta (kxOf st theta) st.back)))).det ≠ 0 ∧
      (kind = .eig → ∀ sl ∈ st.layers, (eig (buildDelta (kxOf st theta) sl.2)).2.det ≠ 0) := by
  obtain ⟨ps, h1⟩ := hp
  obtain ⟨rfl, hb⟩ := setup_eq hs h1 hst
  simp only [p4, h1, hb]
  have hloop : (∃ M, @pStack4 ℂ 𝔼 kind st.backIsotropic (theta : ℂ) (l : ℂ) (castStack st) = .ok M) ↔
      (kind = .eig → ∀ sl ∈ st.layers, (eig (buildDelta (kxOf st theta) sl.2)).2.det ≠ 0) := by
    simp only [pStack4, pLoop4]
    rw [foldl_prop_ok]
    have e : ∃ X, (if st.backIsotropic = true then .ok (@pIsoHalf ℂ 𝔼 (@pKx ℂ 𝔼 (theta : ℂ) (castStack st).front) (castStack st).back false)
        else @pHalfspace ℂ 𝔼 (@pDelta ℂ 𝔼 (@pKx ℂ 𝔼 (theta : ℂ) (castStack st).front) (castStack st).back)) = Except.ok (ε := PyErr) X := by
      split_ifs
      · exact ⟨_, rfl⟩
      · exact ⟨_, rfl⟩
    rw [and_iff_right e]
    constructor
    · intro h hk sl hsl
      have h' := h (castSlice sl) (by simp [castStack]; exact ⟨_, _, hsl, rfl⟩)
      rw [exact_kx, show @pDelta ℂ 𝔼 (kxOf st theta) (castSlice sl).2 = buildDelta (kxOf st theta) sl.2 from exact_delta _ _] at h'
      exact (exact_prop_iff kind _ _ _).1 h' hk
    · intro h x hx
      simp only [castStack, List.mem_reverse, List.mem_map] at hx
      obtain ⟨sl, hsl, rfl⟩ := hx
      rw [exact_kx, show @pDelta ℂ 𝔼 (kxOf st theta) (castSlice sl).2 = buildDelta (kxOf st theta) sl.2 from exact_delta _ _]
      exact (exact_prop_iff kind _ _ _).2 fun hk => h hk sl hsl
  rw [← hloop]
  cases hM : @pStack4 ℂ 𝔼 kind st.backIsotropic (theta : ℂ) (l : ℂ) (castStack st) with
  | error e => simp [Except.bind, hM]
  | ok M =>
    have h2 := exact_stack4 kind theta l st hM
    have hT : @matMul ℂ _ _ _ 𝔼 (@pIsoHalf ℂ 𝔼 (@pKx ℂ 𝔼 (theta : ℂ) (castStack st).front) (castStack st).front true) M =
        transfer4x4 (kind.propagator eig) st theta l (eig (buildDelta (kxOf st theta) st.back)) := by
      rw [exact_matMul, exact_kx, h2, transfer4x4]
      congr 1
      exact exact_isoHalfInv _ _
    simp only [Except.bind, hM, pFinish4, pJones4, hT]
    generalize transfer4x4 (kind.propagator eig) st theta l (eig (buildDelta (kxOf st theta) st.back)) = T
    have h3 := exact_inv_iff (asin := asin) (eig := eig) (M := ![![T 2 2, T 2 0], ![T 0 2, T 0 0]])
    have h4 : (Matrix.of ![![T 2 2, T 2 0], ![T 0 2, T 0 0]]) = tIt T := rfl
    rw [h4] at h3
    rw [← h3]
    cases @Arith.inv ℂ 𝔼 2 ![![T 2 2, T 2 0], ![T 0 2, T 0 0]] <;> simp

/-- C104: if the permittivities can be computed for every wavelength, `Solver4x4` raises exactly if for one of the wavelengths the matrix
relating incident and transmitted waves is singular, or `PropagatorEig` gets a singular matrix of eigenvectors for a layer. -/
theorem C104_solver4x4_raises (kind : PropKind) {s : StructArr ℂ} {s' : Struct} (hs : StructIs s s') (theta : ℝ) (L : List ℝ) (st : ℝ → Stack)
    (hst : ∀ l ∈ L, s'.stack l = some (st l)) (hp : ∀ l ∈ L, ∃ p, @StructArr.setup ℂ 𝔼 s (realWavelengths asin eig [l]) = .ok p) :
    (∃ e, @calculate4Arr ℂ 𝔼 kind s (theta : ℂ) (realWavelengths asin eig L) = .error e) ↔
      ∃ l ∈ L, (tIt (transfer4x4 (kind.propagator eig) (st l) theta l (eig (buildDelta (kxOf (st l) theta) (st l).back)))).det = 0 ∨
        kind = .eig ∧ ∃ sl ∈ (st l).layers, (eig (buildDelta (kxOf (st l) theta) sl.2)).2.det = 0 := by
  have hpt : ∀ l ∈ L, ∃ p, @pSetup ℂ 𝔼 s (l : ℂ) = .ok p := by
    intro l hl
    obtain ⟨p, hp⟩ := hp l hl
    have h := @sim_setup ℂ 𝔼 1 s (realWavelengths asin eig [l]) (realWavelengths_shape [l])
    rw [hp] at h
    have h1 := h.2 0 (by simp)
    beta_reduce at h1
    rw [realWavelengths_val (l := l) rfl] at h1
    exact ⟨_, h1⟩
  have h := @sim_calculate4 ℂ 𝔼 L.length kind s (theta : ℂ) (realWavelengths asin eig L) (realWavelengths_shape L)
  constructor
  · rintro ⟨e, he⟩
    rw [he] at h
    obtain ⟨k, hk, e', he'⟩ := h
    have hk' : L[k]? = some L[k] := List.getElem?_eq_getElem hk
    beta_reduce at he'
    rw [realWavelengths_val hk'] at he'
    refine ⟨L[k], List.getElem_mem hk, ?_⟩
    have hn : ¬ ∃ r, @p4 ℂ 𝔼 kind s (theta : ℂ) ((L[k] : ℝ) : ℂ) = .ok r := by
      rintro ⟨r, hr⟩
      simp [hr] at he'
    rw [exact_4_iff kind hs theta L[k] (hst _ (List.getElem_mem hk)) (hpt _ (List.getElem_mem hk))] at hn
    by_contra hc
    push Not at hc
    exact hn ⟨hc.1, hc.2⟩
  · rintro ⟨l, hl, hd⟩
    cases hev : @calculate4Arr ℂ 𝔼 kind s (theta : ℂ) (realWavelengths asin eig L) with
    | error e => exact ⟨e, rfl⟩
    | ok r =>
      exfalso
      rw [hev] at h
      obtain ⟨k, hk, rfl⟩ := List.mem_iff_getElem.1 hl
      have h1 := h.2 k hk
      beta_reduce at h1
      rw [realWavelengths_val (List.getElem?_eq_getElem hk)] at h1
      have h2 := (exact_4_iff kind hs theta L[k] (hst _ hl) (hpt _ hl)).1 ⟨_, h1⟩
      rcases hd with hd | ⟨hk', sl, hsl, hd⟩
      · exact h2.1 hd
      · exact h2.2 hk' sl hsl hd

/-- C104: if the permittivities can be computed for every wavelength, `Solver2x2` does not raise. -/
theorem C104_solver2x2_raises (s : StructArr ℂ) (theta : ℂ) (L : List ℝ)
    (hp : ∀ l ∈ L, ∃ p, @StructArr.setup ℂ 𝔼 s (realWavelengths asin eig [l]) = .ok p) :
    ∃ r, @calculate2Arr ℂ 𝔼 s theta (realWavelengths asin eig L) = .ok r := by
  have h := @sim_calculate2 ℂ 𝔼 L.length s theta (realWavelengths asin eig L) (realWavelengths_shape L)
  cases hev : @calculate2Arr ℂ 𝔼 s theta (realWavelengths asin eig L) with
  | ok r => exact ⟨r, rfl⟩
  | error e =>
    exfalso
    rw [hev] at h
    obtain ⟨k, hk, e', he'⟩ := h
    have hk' : L[k]? = some L[k] := List.getElem?_eq_getElem hk
    beta_reduce at he'
    rw [realWavelengths_val hk'] at he'
    obtain ⟨p, hp⟩ := hp _ (List.getElem_mem hk)
    have h := @sim_setup ℂ 𝔼 1 s (realWavelengths asin eig [L[k]]) (realWavelengths_shape _)
    rw [hp] at h
    have h1 := h.2 0 (by simp)
    beta_reduce at h1
    rw [realWavelengths_val (l := L[k]) rfl] at h1
    simp [p2, h1, Except.bind] at he'

/-! ## Examples -/

/-- The same materials for one wavelength. -/
def constMaterial (c : ℂ) : Material := .single .isotropic (isotropicMaterial fun _ => c)

lemma table_is (c : ℂ) : MatIs (tableMat c) (constMaterial c) := by
  have h : DispIs (.fn fun l => if l.re ≤ 1000 then .ok c else .error .valueError) fun _ => c := .fn fun l v hv => by
    simp only [ofReal_re] at hv
    split_ifs at hv
    exact Except.ok.inj hv
  exact .single (m := isotropicMaterial fun _ => c) h h h

lemma const_is (c : ℂ) : MatIs (constMat c) (constMaterial c) :=
  .single (m := isotropicMaterial fun _ => c) (.const fun _ => rfl) (.const fun _ => rfl) (.const fun _ => rfl)

/-- The same structure for one wavelength. -/
noncomputable def filmStruct : Struct := ⟨constMaterial 1, [.layer (constMaterial 4) 100], constMaterial 2⟩

lemma film_is : StructIs filmArr filmStruct := ⟨const_is 1, .cons (.layer (table_is 4)) .nil, const_is 2⟩

lemma single_finite (c : ℂ) (l : ℝ) : ((constMaterial c).getTensor l).finite? = some (Matrix.diagonal ![c, c, c] : Tensor) := by
  have h : (constMaterial c).getTensor l = fun i j => some ((Matrix.diagonal ![c, c, c] : Tensor) i j) := rfl
  rw [h]
  unfold NumTensor.finite?
  simp

lemma single_class (c : ℂ) : (constMaterial c).isIsotropicClass = true := rfl

lemma film_stack (l : ℝ) : filmStruct.stack l = some ⟨Matrix.diagonal ![1, 1, 1], [(100, Matrix.diagonal ![4, 4, 4])], Matrix.diagonal ![2, 2, 2], true⟩ := by
  simp [Struct.stack, filmStruct, single_finite, single_class, profileList, LayerObj.profile, finiteSlices]

lemma film_setup {l : ℝ} (h : l ≤ 1000) : ∃ p, @StructArr.setup ℂ 𝔼 filmArr (realWavelengths asin eig [l]) = .ok p := by
  have hs := @sim_setup ℂ 𝔼 1 filmArr (realWavelengths asin eig [l]) (realWavelengths_shape [l])
  cases hev : @StructArr.setup ℂ 𝔼 filmArr (realWavelengths asin eig [l]) with
  | ok p => exact ⟨p, rfl⟩
  | error e =>
    exfalso
    rw [hev] at hs
    obtain ⟨k, hk, e', he'⟩ := hs
    obtain rfl : k = 0 := by omega
    beta_reduce at he'
    rw [realWavelengths_val (l := l) rfl] at he'
    simp [pSetup, filmArr, pTensor, constMat, tableMat, pSet, pDisp, Except.bind, pLays, pLay, h] at he'

/-- Two wavelengths inside the table: the calculation returns, and the reflection of the second one is that computed for it alone. -/
example : ∃ r, @calculate2Arr ℂ 𝔼 filmArr (((45 : ℝ)) : ℂ) (realWavelengths asin eig [500, 600]) = .ok r ∧ r.jr.shape = [2, 2, 2] ∧
    r.jr.val [1, 0, 0] =
      (calculate2x2 asin ⟨Matrix.diagonal ![1, 1, 1], [(100, Matrix.diagonal ![4, 4, 4])], Matrix.diagonal ![2, 2, 2], true⟩ 45 600).jr 0 0 := by
  obtain ⟨r, hr⟩ := C104_solver2x2_raises (asin := asin) (eig := eig) filmArr (((45 : ℝ)) : ℂ) [500, 600] fun l hl =>
    film_setup (by simp at hl; rcases hl with rfl | rfl <;> norm_num)
  have h := C104_solver2x2 film_is 45 [500, 600] hr
  exact ⟨r, hr, h.1.1, (h.2 1 600 _ rfl (film_stack 600)).1 0 0⟩

/-- Air and air: `Solver4x4` returns for any number of wavelengths, and nothing is reflected. -/
example (L : List ℝ) : ∃ r, @calculate4Arr ℂ 𝔼 .linear ⟨constMat 1, [], constMat 1⟩ ((0 : ℝ) : ℂ) (realWavelengths asin eig L) = .ok r ∧
    r.jr.shape = [L.length, 2, 2] ∧ ∀ k < L.length, r.jr.val [k, 0, 0] = 0 := by
  have is : StructIs ⟨constMat 1, [], constMat 1⟩ ⟨constMaterial 1, [], constMaterial 1⟩ := ⟨const_is 1, .nil, const_is 1⟩
  have hst : ∀ l, (Struct.mk (constMaterial 1) [] (constMaterial 1)).stack l =
      some ⟨Matrix.diagonal ![1, 1, 1], [], Matrix.diagonal ![1, 1, 1], true⟩ := by
    intro l
    simp [Struct.stack, single_finite, single_class, profileList, finiteSlices]
  have hT : ∀ l : ℝ, transfer4x4 (PropKind.linear.propagator eig) ⟨Matrix.diagonal ![1, 1, 1], [], Matrix.diagonal ![1, 1, 1], true⟩ 0 l
      (eig (buildDelta (kxOf ⟨Matrix.diagonal ![1, 1, 1], [], Matrix.diagonal ![1, 1, 1], true⟩ 0) (Matrix.diagonal ![1, 1, 1]))) = 1 := by
    intro l
    simp only [transfer4x4, loop4x4, List.reverse_nil, List.foldl_nil, exitMatrix, if_true]
    apply isoHalfInv_mul <;> simp [nOf, cosPhi, kxOf, deg2rad]
  cases hev : @calculate4Arr ℂ 𝔼 .linear ⟨constMat 1, [], constMat 1⟩ ((0 : ℝ) : ℂ) (realWavelengths asin eig L) with
  | error e =>
    exfalso
    obtain ⟨l, _, h | ⟨h, _⟩⟩ := (C104_solver4x4_raises .linear is 0 L (fun _ => ⟨Matrix.diagonal ![1, 1, 1], [], Matrix.diagonal ![1, 1, 1], true⟩)
      (fun l _ => hst l) (fun l _ => ⟨_, rfl⟩)).1 ⟨e, hev⟩
    · rw [hT] at h
      simp [tIt, Matrix.det_fin_two] at h
    · simp at h
  | ok r =>
    have h := C104_solver4x4 .linear is 0 L hev
    refine ⟨r, rfl, h.1.1, fun k hk => ?_⟩
    have h1 := (h.2 k L[k] _ (List.getElem?_eq_getElem hk) (hst _)).1 0 0
    rw [calculate4x4, hT] at h1
    have hz : tRt (1 : Mat4) = 0 := by
      ext i j
      fin_cases i <;> fin_cases j <;> simp [tRt]
    simpa [hz] using h1

end PyElli.Nd
