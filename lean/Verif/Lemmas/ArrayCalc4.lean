import Verif.Lemmas.ArraySolver4

/-! # Lemmas: the propagators and `Solver4x4.calculate` for every wavelength -/

namespace PyElli.Nd

open PyElli

variable {V : Type} [Arith V] {N : ℕ}

/-! ## Propagators -/

/-- The delta matrix times `2π/λ`. -/
def pScaled (D : Fin 4 → Fin 4 → V) (l : V) : Fin 4 → Fin 4 → V := fun i j => D i j ⊗ (Arith.num 2 ⊗ Arith.pi ⊘ l)

/-- The diagonal matrix of the phase factors. -/
def pDiag (q : Fin 4 → V) : Fin 4 → Fin 4 → V := fun i j =>
  if i = 3 ∧ j = 3 then q 3 else if i = 2 ∧ j = 2 then q 2 else if i = 1 ∧ j = 1 then q 1 else if i = 0 ∧ j = 0 then q 0 else Arith.num 0

/-- `calculate_propagation` for one wavelength. -/
def pProp : PropKind → (Fin 4 → Fin 4 → V) → V → V → Except PyErr (Fin 4 → Fin 4 → V)
  | .linear, D, h, l => .ok fun i j => (if i = j then Arith.num 1 else Arith.num 0) ⊞ (Arith.I ⊗ h ⊗ pScaled D l i j)
  | .expm, D, h, l => .ok (Arith.expm 4 fun i j => Arith.I ⊗ h ⊗ pScaled D l i j)
  | .eig, D, h, l => (Arith.eig 4 D).bind fun qp =>
    let q := fun j => qp.1 (pLex qp.1 j)
    let w := fun i j => qp.2 i (pLex qp.1 j)
    (Arith.inv 4 w).bind fun wi =>
      .ok (matMul (matMul w (pDiag fun j => Arith.exp (q j ⊗ (Arith.num 2 ⊗ Arith.I) ⊗ h ⊗ Arith.pi ⊘ l))) wi)

lemma yields_scaled {d : Out V} {D : ℕ → Fin 4 → Fin 4 → V} (hd : Yields (mats V 4 4) N d D) {lbda : ND V} (hl : lbda.shape = [N]) :
    Yields (mats V 4 4) N (scaledDelta d (.ok lbda)) fun k => pScaled (D k) (lbda.val [k]) :=
  yields_einsum_nij hd (yields_sdiv (Yields.ok (r := vec V) hl))

lemma yields_diag {q : Out V} {Q : ℕ → Fin 4 → V} (hq : Yields (rows V 4) N q Q) :
    Yields (mats V 4 4) N (assign [.all, .at 3, .at 3] (assign [.all, .at 2, .at 2] (assign [.all, .at 1, .at 1]
      (assign [.all, .at 0, .at 0] (.ok ⟨[N, 4, 4], fun _ => Arith.num 0⟩) (index [.all, .at 0] q)) (index [.all, .at 1] q))
        (index [.all, .at 2] q)) (index [.all, .at 3] q)) fun k => pDiag (Q k) := by
  have hz : Yields (mats V 4 4) N (.ok ⟨[N, 4, 4], fun _ => Arith.num 0⟩) fun _ _ _ => Arith.num 0 := ⟨_, rfl, rfl, fun _ _ => rfl⟩
  exact yields_assign (yields_assign (yields_assign (yields_assign hz (yields_col hq 0) 0 0) (yields_col hq 1) 1 1) (yields_col hq 2) 2 2)
    (yields_col hq 3) 3 3

lemma sim_propagate (prop : PropKind) {d : Out V} {D : ℕ → Fin 4 → Fin 4 → V} (hd : Yields (mats V 4 4) N d D) (h : V) {lbda : ND V}
    (hl : lbda.shape = [N]) : Sim (mats V 4 4) N (propagateArr prop d h lbda) fun k => pProp prop (D k) h (lbda.val [k]) := by
  cases prop with
  | linear => exact (yields_ofMat_op2 (yields_mats_sop2 (yields_scaled hd hl))).sim
  | expm => exact (yields_linExpm (yields_mats_sop2 (yields_scaled hd hl))).sim
  | eig =>
    obtain ⟨x, rfl, hx, hr⟩ := hd
    have e : propagateArr .eig (.ok x : Out V) h lbda = (linEig 4 (.ok x)).bind fun qp =>
        let q := takeAlong (.ok qp.1) (lexsortArr (.ok qp.1))
        let w := takeAlong (.ok qp.2) (index [.all, .new, .all] (lexsortArr (.ok qp.1)))
        let q := op1 Arith.exp (q * scalar (Arith.num 2 ⊗ Arith.I) * scalar h * scalar Arith.pi / index [.all, .new] (.ok lbda))
        matmul (matmul w (assign [.all, .at 3, .at 3] (assign [.all, .at 2, .at 2] (assign [.all, .at 1, .at 1]
          (assign [.all, .at 0, .at 0] (.ok ⟨[N, 4, 4], fun _ => Arith.num 0⟩) (index [.all, .at 0] q)) (index [.all, .at 1] q))
            (index [.all, .at 2] q)) (index [.all, .at 3] q))) (linInv 4 w) := by
      simp only [propagateArr, hl, List.headD_cons]
      cases linEig 4 (.ok x : Out V) <;> rfl
    rw [e]
    have hq := (sim_linEig (n := 4) hx).congr (G := fun k => Arith.eig 4 (D k)) fun k hk => by rw [hr k hk]
    refine hq.bind fun qp hqp => ?_
    have h1 := yields_take_rows (Yields.ok hqp.1) (yields_lexsort (Yields.ok hqp.1))
    have h2 := yields_take_mats (Yields.ok hqp.2) (yields_lexsort (Yields.ok hqp.1))
    simp only
    generalize takeAlong (.ok qp.1) (lexsortArr (.ok qp.1)) = q at h1 ⊢
    generalize takeAlong (.ok qp.2) (index [.all, .new, .all] (lexsortArr (.ok qp.1))) = w at h2 ⊢
    have h3 : Yields (rows V 4) N (op1 Arith.exp (q * scalar (Arith.num 2 ⊗ Arith.I) * scalar h * scalar Arith.pi / index [.all, .new] (.ok lbda)))
        _ := yields_rows_op1 (yields_rows_vec (o := Arith.div) (yields_rows_op2s (o := Arith.mul) (yields_rows_op2s (o := Arith.mul)
          (yields_rows_op2s (o := Arith.mul) h1))) (Yields.ok (r := vec V) hl))
    generalize op1 Arith.exp (q * scalar (Arith.num 2 ⊗ Arith.I) * scalar h * scalar Arith.pi / index [.all, .new] (.ok lbda)) = ph at h3 ⊢
    have h4 := (yields_matmul h2 (yields_diag h3)).sim
    obtain ⟨w', rfl, hw, hrw⟩ := h2
    have h5 := sim_linInv (n := 4) hw
    refine (Sim.matmul h4 h5).congr fun k hk => ?_
    rw [hrw k hk]
    rfl

/-! ## `calculate` -/

/-- A result: Jones matrices and power correction at one wavelength. -/
abbrev PRes (V : Type) := (Fin 2 → Fin 2 → V) × (Fin 2 → Fin 2 → V) × V

/-- Results for several wavelengths. -/
def resR (V : Type) : Reading (ResArr V) (PRes V) :=
  ⟨fun N r => r.jr.shape = [N, 2, 2] ∧ r.jt.shape = [N, 2, 2] ∧ r.power.shape = [N],
    fun k r => ((mats V 2 2).read k r.jr, (mats V 2 2).read k r.jt, (vec V).read k r.power)⟩

/-- `k_x` for one wavelength. -/
def pKx (theta : V) (f : Fin 3 → Fin 3 → V) : V := Arith.sqrt (f 0 0) ⊗ Arith.sin (Arith.deg2rad theta)

/-- `get_k_z` for one wavelength. -/
def pKz (k_x : V) (E : Fin 3 → Fin 3 → V) : V := Arith.sqrt (Arith.pow (Arith.sqrt (E 0 0)) (Arith.num 2) ⊖ Arith.pow k_x (Arith.num 2))

/-- The loop over the layers for one wavelength. -/
def pLoop4 (prop : PropKind) (k_x l : V) (layers : List (PSlice V)) (m : Except PyErr (Fin 4 → Fin 4 → V)) : Except PyErr (Fin 4 → Fin 4 → V) :=
  layers.reverse.foldl (fun m s => (pProp prop (pDelta k_x s.2) (∼s.1) l).bind fun P => m.bind fun M => .ok (matMul P M)) m

/-- Exit matrix and layers for one wavelength. -/
def pStack4 (prop : PropKind) (iso : Bool) (theta l : V) (st : PSetup V) : Except PyErr (Fin 4 → Fin 4 → V) :=
  pLoop4 prop (pKx theta st.front) l st.layers
    (if iso then .ok (pIsoHalf (pKx theta st.front) st.back false) else pHalfspace (pDelta (pKx theta st.front) st.back))

/-- The Jones matrices from the transfer matrix for one wavelength. -/
def pJones4 (T : Fin 4 → Fin 4 → V) (pw : V) : Except PyErr (PRes V) :=
  (Arith.inv 2 ![![T 2 2, T 2 0], ![T 0 2, T 0 0]]).bind fun t => .ok (matMul ![![T 3 2, T 3 0], ![T 1 2, T 1 0]] t, t, pw)

/-- The power correction for one wavelength. -/
def pPower (iso : Bool) (theta : V) (st : PSetup V) : V :=
  if iso then Arith.real (pKz (pKx theta st.front) st.back) ⊘ Arith.real (pKz (pKx theta st.front) st.front) else Arith.num 1

/-- The part of `calculate` behind the loop for one wavelength. -/
def pFinish4 (iso : Bool) (theta : V) (st : PSetup V) (M : Fin 4 → Fin 4 → V) : Except PyErr (PRes V) :=
  pJones4 (matMul (pIsoHalf (pKx theta st.front) st.front true) M) (pPower iso theta st)

/-- `Solver4x4.calculate` for one wavelength. -/
def p4 (prop : PropKind) (s : StructArr V) (theta l : V) : Except PyErr (PRes V) :=
  (pSetup s l).bind fun st => (pStack4 prop s.back.isIsotropicClass theta l st).bind (pFinish4 s.back.isIsotropicClass theta st)

lemma sim_loop4 (prop : PropKind) {k : Out V} {K : ℕ → V} (hk : Yields (vec V) N k K) {lbda : ND V} (hl : lbda.shape = [N]) {layers : ProfileArr V}
    (hw : (profR V).wf N layers) {m : Out V} {M : ℕ → Except PyErr (Fin 4 → Fin 4 → V)} (hm : Sim (mats V 4 4) N m M) :
    Sim (mats V 4 4) N (loop4Arr prop k lbda layers m) fun i => pLoop4 prop (K i) (lbda.val [i]) ((profR V).read i layers) (M i) := by
  simp only [loop4Arr, pLoop4, profR, ← List.map_reverse, List.foldl_map]
  have hw' : ∀ s ∈ layers.reverse, s.2.shape = [N, 3, 3] := fun s hs => hw s (List.mem_reverse.1 hs)
  generalize layers.reverse = ls at hw' ⊢
  induction ls generalizing m M with
  | nil => exact hm
  | cons s ls ih =>
    simp only [List.foldl_cons]
    refine ih (Sim.matmul (sim_propagate prop (yields_delta hk (Yields.ok (r := mats V 3 3) (hw' s (by simp)))) (∼s.1) hl) hm) fun t ht => hw' t (by simp [ht])

lemma yields_corner_it {a : Out V} {F : ℕ → Fin 4 → Fin 4 → V} (ha : Yields (mats V 4 4) N a F) :
    Yields (mats V 2 2) N (index [.all, .slice (some 2) none (-2), .slice (some 2) none (-2)] a) fun k =>
      ![![F k 2 2, F k 2 0], ![F k 0 2, F k 0 0]] := by
  obtain ⟨⟨s, v⟩, rfl, hw, hr⟩ := ha
  simp only [mats] at hw hr
  subst hw
  have hs : pySlice (some 2) none (-2) 4 = [2, 0] := by decide
  refine ⟨⟨[N, 2, 2], fun idx => v (pullIx [.all, .slice (some 2) none (-2), .slice (some 2) none (-2)] [N, 4, 4] idx)⟩, by simp [index, shapeIx, hs],
    rfl, fun k hk => ?_⟩
  funext i j
  fin_cases i <;> fin_cases j <;> simp [mats, pullIx, hs, ← hr k hk]

lemma yields_corner_rt {a : Out V} {F : ℕ → Fin 4 → Fin 4 → V} (ha : Yields (mats V 4 4) N a F) :
    Yields (mats V 2 2) N (index [.all, .slice (some 3) none (-2), .slice (some 2) none (-2)] a) fun k =>
      ![![F k 3 2, F k 3 0], ![F k 1 2, F k 1 0]] := by
  obtain ⟨⟨s, v⟩, rfl, hw, hr⟩ := ha
  simp only [mats] at hw hr
  subst hw
  have hs : pySlice (some 2) none (-2) 4 = [2, 0] := by decide
  have hs' : pySlice (some 3) none (-2) 4 = [3, 1] := by decide
  refine ⟨⟨[N, 2, 2], fun idx => v (pullIx [.all, .slice (some 3) none (-2), .slice (some 2) none (-2)] [N, 4, 4] idx)⟩,
    by simp [index, shapeIx, hs, hs'], rfl, fun k hk => ?_⟩
  funext i j
  fin_cases i <;> fin_cases j <;> simp [mats, pullIx, hs, hs', ← hr k hk]

/-- The part of `calculate` behind the loop. -/
def jones4Arr (m_t power : Out V) : Except PyErr (ResArr V) :=
  let t_ti := linInv 2 (index [.all, .slice (some 2) none (-2), .slice (some 2) none (-2)] m_t)
  mkRes (matmul (index [.all, .slice (some 3) none (-2), .slice (some 2) none (-2)] m_t) t_ti) t_ti power

lemma sim_mkRes {a b p : Out V} {A B : ℕ → Fin 2 → Fin 2 → V} {P : ℕ → V} (ha : Yields (mats V 2 2) N a A) (hb : Yields (mats V 2 2) N b B)
    (hp : Yields (vec V) N p P) : Yields (resR V) N (mkRes a b p) fun k => (A k, B k, P k) := by
  obtain ⟨a, rfl, ha, ha'⟩ := ha
  obtain ⟨b, rfl, hb, hb'⟩ := hb
  obtain ⟨p, rfl, hp, hp'⟩ := hp
  refine ⟨_, rfl, ⟨ha, hb, hp⟩, fun k hk => ?_⟩
  beta_reduce
  rw [← ha' k hk, ← hb' k hk, ← hp' k hk]
  rfl

lemma sim_jones4 {m : Out V} {T : ℕ → Fin 4 → Fin 4 → V} (h1 : Yields (mats V 4 4) N m T) {pw : Out V} {PW : ℕ → V} (hp : Yields (vec V) N pw PW) :
    Sim (resR V) N (jones4Arr m pw) fun i => pJones4 (T i) (PW i) := by
  have h2 := yields_corner_it h1
  have h3 := yields_corner_rt h1
  simp only [jones4Arr]
  generalize index [.all, .slice (some 2) none (-2), .slice (some 2) none (-2)] m = A at h2 ⊢
  generalize index [.all, .slice (some 3) none (-2), .slice (some 2) none (-2)] m = B at h3 ⊢
  obtain ⟨a, rfl, ha, hra⟩ := h2
  have e : mkRes (matmul B (linInv 2 (.ok a))) (linInv 2 (.ok a)) pw = (linInv 2 (.ok a : Out V)).bind fun t =>
      mkRes (matmul B (.ok t)) (.ok t) pw := by
    cases h : linInv 2 (.ok a : Out V) with
    | error e =>
      obtain ⟨b, rfl, _⟩ := h3
      simp [matmul, mkRes, Except.bind]
    | ok t => rfl
  rw [e]
  have h4 := (sim_linInv (n := 2) ha).congr (G := fun i => Arith.inv 2 _) fun i hi => by rw [hra i hi]
  exact h4.bind fun t ht => (sim_mkRes (yields_matmul h3 (Yields.ok ht)) (Yields.ok ht) hp).sim

lemma jones4_error (e : PyErr) (pw : Out V) : jones4Arr (.error e) pw = .error e := rfl

/-- `Solver4x4.calculate` on the arrays computes the same as for every wavelength alone. -/
lemma sim_calculate4 (prop : PropKind) (s : StructArr V) (theta : V) {lbda : ND V} (hl : lbda.shape = [N]) :
    Sim (resR V) N (calculate4Arr prop s theta lbda) fun k => p4 prop s theta (lbda.val [k]) := by
  have e : calculate4Arr prop s theta lbda = (s.setup lbda).bind fun st =>
      (loop4Arr prop (kxArr s.front lbda theta) lbda st.layers (if s.back.isIsotropicClass then isoHalfArr (kxArr s.front lbda theta) (.ok st.back) false
        else halfspaceArr (buildDeltaArr (kxArr s.front lbda theta) (.ok st.back)))).bind fun M =>
      jones4Arr (matmul (isoHalfArr (kxArr s.front lbda theta) (.ok st.front) true) (.ok M))
        (if s.back.isIsotropicClass then
          op1 Arith.real (kzArr s.back lbda (kxArr s.front lbda theta)) / op1 Arith.real (kzArr s.front lbda (kxArr s.front lbda theta))
        else .ok ⟨lbda.shape, fun _ => Arith.num 1⟩) := by
    have hs := sim_setup s hl
    simp only [calculate4Arr]
    cases h : s.setup lbda with
    | error e => rfl
    | ok st =>
      simp only [Except.bind]
      generalize loop4Arr prop (kxArr s.front lbda theta) lbda st.layers (if s.back.isIsotropicClass = true then _ else _) = M
      cases M with
      | ok M => rfl
      | error e =>
        rw [h] at hs
        have hk : Yields (vec V) N (kxArr s.front lbda theta) fun i => pKx theta ((mats V 3 3).read i st.front) := by
          simp only [kxArr, Mat.refractiveIndex, (setup_ok h).1]
          exact yields_muls (yields_entry (yields_mats_op1 (Yields.ok (r := mats V 3 3) hs.1.1)) 0 0)
        obtain ⟨y, hy, _⟩ := yields_isoHalf hk (Yields.ok (r := mats V 3 3) hs.1.1) true
        rw [hy]
        rfl
  rw [e]
  simp only [p4]
  refine (sim_setup s hl).bind' fun st hst hw => ?_
  obtain ⟨hf, hb⟩ := setup_ok hst
  have hk : Yields (vec V) N (kxArr s.front lbda theta) fun i => pKx theta ((mats V 3 3).read i st.front) := by
    simp only [kxArr, Mat.refractiveIndex, hf]
    exact yields_muls (yields_entry (yields_mats_op1 (Yields.ok (r := mats V 3 3) hw.1)) 0 0)
  have hkz1 : Yields (vec V) N (kzArr s.front lbda (kxArr s.front lbda theta)) fun i =>
      pKz (pKx theta ((mats V 3 3).read i st.front)) ((mats V 3 3).read i st.front) := by
    simp only [kzArr, Mat.refractiveIndex, hf]
    exact yields_op1 (yields_sub (yields_sq (yields_entry (yields_mats_op1 (Yields.ok (r := mats V 3 3) hw.1)) 0 0)) (yields_sq hk))
  have hkz2 : Yields (vec V) N (kzArr s.back lbda (kxArr s.front lbda theta)) fun i =>
      pKz (pKx theta ((mats V 3 3).read i st.front)) ((mats V 3 3).read i st.back) := by
    simp only [kzArr, Mat.refractiveIndex, hb]
    exact yields_op1 (yields_sub (yields_sq (yields_entry (yields_mats_op1 (Yields.ok (r := mats V 3 3) hw.2.2)) 0 0)) (yields_sq hk))
  generalize kzArr s.front lbda (kxArr s.front lbda theta) = kzf at hkz1 ⊢
  generalize kzArr s.back lbda (kxArr s.front lbda theta) = kzb at hkz2 ⊢
  generalize kxArr s.front lbda theta = kx at hk ⊢
  have hm : Sim (mats V 4 4) N (if s.back.isIsotropicClass then isoHalfArr kx (.ok st.back) false else halfspaceArr (buildDeltaArr kx (.ok st.back)))
      fun i => if s.back.isIsotropicClass then .ok (pIsoHalf (pKx theta ((mats V 3 3).read i st.front)) ((mats V 3 3).read i st.back) false)
        else pHalfspace (pDelta (pKx theta ((mats V 3 3).read i st.front)) ((mats V 3 3).read i st.back)) := by
    cases s.back.isIsotropicClass
    · exact sim_halfspace (yields_delta hk (Yields.ok (r := mats V 3 3) hw.2.2))
    · exact (yields_isoHalf hk (Yields.ok (r := mats V 3 3) hw.2.2) false).sim
  have hp : Yields (vec V) N (if s.back.isIsotropicClass then op1 Arith.real kzb / op1 Arith.real kzf else .ok ⟨lbda.shape, fun _ => Arith.num 1⟩)
      fun i => pPower s.back.isIsotropicClass theta ((setupR V).read i st) := by
    cases s.back.isIsotropicClass
    · exact ⟨_, rfl, hl, fun _ _ => rfl⟩
    · exact yields_div (yields_op1 hkz2) (yields_op1 hkz1)
  refine (sim_loop4 prop hk hl hw.2.1 hm).bind fun M hM => ?_
  exact sim_jones4 (yields_matmul (yields_isoHalf hk (Yields.ok (r := mats V 3 3) hw.1) true) (Yields.ok hM)) hp

end PyElli.Nd
