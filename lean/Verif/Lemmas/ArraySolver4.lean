import Verif.Lemmas.ArrayMaterial

/-! # Lemmas: `Solver4x4` for every wavelength -/

namespace PyElli.Nd

open PyElli

variable {V : Type} [Arith V] {N : ℕ}

/-! ## The delta matrix and isotropic halfspaces -/

/-- `build_delta_matrix` for one wavelength. -/
def pDelta (k_x : V) (e : Fin 3 → Fin 3 → V) : Fin 4 → Fin 4 → V :=
  ![![∼k_x ⊗ e 2 0 ⊘ e 2 2, ∼k_x ⊗ e 2 1 ⊘ e 2 2, Arith.num 0, Arith.num 1 ⊖ Arith.pow k_x (Arith.num 2) ⊘ e 2 2],
    ![Arith.num 0, Arith.num 0, ∼(Arith.num 1), Arith.num 0],
    ![e 1 2 ⊗ e 2 0 ⊘ e 2 2 ⊖ e 1 0, Arith.pow k_x (Arith.num 2) ⊖ e 1 1 ⊞ e 1 2 ⊗ e 2 1 ⊘ e 2 2, Arith.num 0, k_x ⊗ e 1 2 ⊘ e 2 2],
    ![e 0 0 ⊖ e 0 2 ⊗ e 2 0 ⊘ e 2 2, e 0 1 ⊖ e 0 2 ⊗ e 2 1 ⊘ e 2 2, Arith.num 0, ∼k_x ⊗ e 0 2 ⊘ e 2 2]]

lemma lengthOf_eq {a : Out V} {f : ℕ → V} (ha : Yields (vec V) N a f) : lengthOf a = N := by
  obtain ⟨⟨s, v⟩, rfl, hw, _⟩ := ha
  simp only [vec] at hw
  subst hw
  rfl

lemma yields_delta {k eps : Out V} {K : ℕ → V} {E : ℕ → Fin 3 → Fin 3 → V} (hk : Yields (vec V) N k K) (he : Yields (mats V 3 3) N eps E) :
    Yields (mats V 4 4) N (buildDeltaArr k eps) fun i => pDelta (K i) (E i) := by
  have h := fun i j : Fin 3 => yields_entry he i j
  have h00 := h 0 0; have h01 := h 0 1; have h02 := h 0 2
  have h10 := h 1 0; have h11 := h 1 1; have h12 := h 1 2
  have h20 := h 2 0; have h21 := h 2 1; have h22 := h 2 2
  simp only [buildDeltaArr, lengthOf_eq hk]
  exact yields_moveaxis (yields_stack4_rows
    (yields_stack4 (yields_div (yields_mul (yields_neg hk) h20) h22) (yields_div (yields_mul (yields_neg hk) h21) h22) (yields_tile 0 N)
      (yields_sub (yields_tile 1 N) (yields_div (yields_sq hk) h22)))
    (yields_stack4 (yields_tile 0 N) (yields_tile 0 N) (yields_neg (yields_tile 1 N)) (yields_tile 0 N))
    (yields_stack4 (yields_sub (yields_div (yields_mul h12 h20) h22) h10)
      (yields_add (yields_sub (yields_sq hk) h11) (yields_div (yields_mul h12 h21) h22)) (yields_tile 0 N) (yields_div (yields_mul hk h12) h22))
    (yields_stack4 (yields_sub h00 (yields_div (yields_mul h02 h20) h22)) (yields_sub h01 (yields_div (yields_mul h02 h21) h22))
      (yields_tile 0 N) (yields_div (yields_mul (yields_neg hk) h02) h22)))

/-- `transition_matrix_iso_halfspace` for one wavelength. -/
def pIsoHalf (k_x : V) (e : Fin 3 → Fin 3 → V) (inv : Bool) : Fin 4 → Fin 4 → V :=
  let n := Arith.sqrt (e 0 0)
  let c := Arith.sqrt (Arith.num 1 ⊖ Arith.pow (k_x ⊘ n) (Arith.num 2))
  let o : V := Arith.num 1
  let z : V := Arith.num 0
  if inv then fun i j => Arith.num (1 / 2) ⊗
    (![![z, o, ∼o ⊘ c ⊘ n, z], ![z, o, o ⊘ c ⊘ n, z], ![o ⊘ c, z, z, o ⊘ n], ![∼o ⊘ c, z, z, o ⊘ n]] : Fin 4 → Fin 4 → V) i j
  else ![![z, z, c, ∼c], ![o, o, z, z], ![∼n ⊗ c, n ⊗ c, z, z], ![z, z, n, n]]

lemma yields_isoHalf {k eps : Out V} {K : ℕ → V} {E : ℕ → Fin 3 → Fin 3 → V} (hk : Yields (vec V) N k K) (he : Yields (mats V 3 3) N eps E)
    (inv : Bool) : Yields (mats V 4 4) N (isoHalfArr k eps inv) fun i => pIsoHalf (K i) (E i) inv := by
  have hn := yields_op1 (o := Arith.sqrt) (yields_entry he 0 0)
  have hc := yields_op1 (o := Arith.sqrt) (yields_lsub (q := 1) (yields_sq (yields_div hk hn)))
  have o := yields_tile (V := V) 1 N
  have z := yields_tile (V := V) 0 N
  simp only [isoHalfArr, lengthOf_eq hk]
  cases inv with
  | true =>
    exact yields_moveaxis (yields_matsLast_smul (yields_stack4_rows
      (yields_stack4 z o (yields_div (yields_div (yields_neg o) hc) hn) z)
      (yields_stack4 z o (yields_div (yields_div o hc) hn) z)
      (yields_stack4 (yields_div o hc) z z (yields_div o hn))
      (yields_stack4 (yields_div (yields_neg o) hc) z z (yields_div o hn))))
  | false =>
    exact yields_moveaxis (yields_stack4_rows (yields_stack4 z z hc (yields_neg hc)) (yields_stack4 o o z z)
      (yields_stack4 (yields_mul (yields_neg hn) hc) (yields_mul hn hc) z z) (yields_stack4 z z hn hn))

/-! ## Anisotropic halfspaces -/

/-- The order of `np.lexsort((-np.real(q), -np.imag(q)))` for one wavelength. -/
def pLex (q : Fin 4 → V) : Fin 4 → Fin 4 := rowPos lexKey fun j => (∼Arith.real (q j), ∼Arith.imag (q j))

lemma yields_lexsort {q : Out V} {Q : ℕ → Fin 4 → V} (hq : Yields (rows V 4) N q Q) :
    Yields (rows ℕ 4) N (lexsortArr q) fun k j => (pLex (Q k) j).val :=
  yields_argsort (yields_rows_op2 (yields_rows_op1 (yields_rows_op1 hq)) (yields_rows_op1 (yields_rows_op1 hq)))

/-- The order of two columns by the absolute value, largest first. -/
def pAbs (x y : V) : Fin 2 → Fin 2 := rowPos Arith.le ![∼Arith.abs x, ∼Arith.abs y]

/-- The order of the columns made of the two orders. -/
def pOrder (p : Fin 4 → Fin 4 → V) : Fin 4 → Fin 4 :=
  let lo : Fin 2 → Fin 4 := fun j => ⟨(pAbs (p 1 0) (p 1 1) j).val, by omega⟩
  let hi : Fin 2 → Fin 4 := fun j => ⟨2 + (pAbs (p 1 2) (p 1 3) j).val, by omega⟩
  ![lo 0, hi 0, lo 1, hi 1]

/-- The phase divided out of a column. -/
def pPhase (e : V) : V := if Arith.eq (Arith.abs e) (Arith.num 0) then Arith.num 1 else e ⊘ Arith.abs e

/-- The phases divided out and the normalisation. -/
def pNorm (p : Fin 4 → Fin 4 → V) : Fin 4 → Fin 4 → V :=
  let c : Fin 4 → V := fun j => pPhase ((![p 1 0, p 1 1, p 0 2, p 0 3] : Fin 4 → V) j)
  let p' := fun i j => p i j ⊗ c j
  fun i j => Arith.num 2 ⊗ p' i j ⊘ (p' 1 0 ⊞ p' 1 1)

/-- The eigenvectors sorted and normalised. -/
def pModes (qp : (Fin 4 → V) × (Fin 4 → Fin 4 → V)) : Fin 4 → Fin 4 → V :=
  let p := fun i j => qp.2 i (pLex qp.1 j)
  pNorm fun i j => p i (pOrder p j)

/-- `transition_matrix_halfspace` for one wavelength. -/
def pHalfspace (delta : Fin 4 → Fin 4 → V) : Except PyErr (Fin 4 → Fin 4 → V) := (Arith.eig 4 delta).bind fun qp => .ok (pModes qp)

lemma yields_swapCols {a : Out ℕ} {f : ℕ → Fin 4 → ℕ} (ha : Yields (rows ℕ 4) N a f) :
    Yields (rows ℕ 4) N (swapCols a) fun k => ![f k 0, f k 2, f k 1, f k 3] := by
  obtain ⟨x, rfl, hw, hr⟩ := ha
  refine ⟨_, rfl, hw, fun k hk => ?_⟩
  beta_reduce
  rw [← hr k hk]
  funext j
  fin_cases j <;> rfl

lemma yields_phases {e : Out V} {E : ℕ → Fin 4 → V} (he : Yields (rows V 4) N e E) :
    Yields (rows V 4) N (phasesArr e) fun k j => pPhase (E k j) := by
  obtain ⟨x, rfl, hx, hr⟩ := he
  simp only [phasesArr, op1, nonzero]
  set ps := (allIdx x.shape).filter fun idx => !Arith.eq (Arith.abs (x.val idx)) (Arith.num 0) with hps
  have g1 := yields_gather x ps
  have g2 := yields_gather ⟨x.shape, fun idx => Arith.abs (x.val idx)⟩ ps
  obtain ⟨w, hw, hws, hwv⟩ := scatter_eq (x := ⟨x.shape, fun _ => Arith.num 1⟩) (ps := ps)
    (G := fun idx => x.val idx ⊘ Arith.abs (x.val idx)) (yields_div g1 g2)
  refine ⟨w, hw, hws.trans hx, fun k hk => ?_⟩
  funext j
  simp only [rows] at hx hr ⊢
  have h1 := congrFun (hr k hk) j
  have m1 : ([k, (j : ℕ)] ∈ ps) ↔ Arith.eq (Arith.abs (E k j)) (Arith.num 0) = false := by
    rw [hps, List.mem_filter, hx, mem_allIdx2]
    simp [hk, h1]
  rw [hwv]
  simp only [m1, h1, pPhase]
  cases Arith.eq (Arith.abs (E k j)) (Arith.num 0) <;> simp

lemma yields_pairModes {p : Out V} {P : ℕ → Fin 4 → Fin 4 → V} (hp : Yields (mats V 4 4) N p P) :
    Yields (mats V 4 4) N (pairModesArr p) fun k i j => P k i (pOrder (P k) j) := by
  have h1 : Yields (rows V 2) N (-(op1 Arith.abs (index [.all, .at 1, .slice none (some 2) 1] p))) fun k =>
      ![∼Arith.abs (P k 1 0), ∼Arith.abs (P k 1 1)] := by
    refine Yields.congr (yields_rows_op1 (o := Arith.neg) (yields_rows_op1 (o := Arith.abs) (yields_row_lo hp 1))) fun k _ => ?_
    funext j
    fin_cases j <;> rfl
  have h2 : Yields (rows V 2) N (-(op1 Arith.abs (index [.all, .at 1, .slice (some 2) none 1] p))) fun k =>
      ![∼Arith.abs (P k 1 2), ∼Arith.abs (P k 1 3)] := by
    refine Yields.congr (yields_rows_op1 (o := Arith.neg) (yields_rows_op1 (o := Arith.abs) (yields_row_hi hp 1))) fun k _ => ?_
    funext j
    fin_cases j <;> rfl
  have h3 : Yields (rows ℕ 4) N _ fun k j => (pOrder (P k) j).val := Yields.congr (yields_swapCols (yields_hstack (yields_argsort h1) (yields_rows_op1 (o := fun n => 2 + n) (yields_argsort h2)))) fun k _ => by
    funext j
    fin_cases j <;> rfl
  exact yields_take_mats hp h3

lemma yields_normModes {p : Out V} {P : ℕ → Fin 4 → Fin 4 → V} (hp : Yields (mats V 4 4) N p P) :
    Yields (mats V 4 4) N (normModesArr p) fun k => pNorm (P k) := by
  have hc : Yields (rows V 4) N (phasesArr (hstack (index [.all, .at 1, .slice none (some 2) 1] p)
      (index [.all, .at 0, .slice (some 2) none 1] p))) fun k j => pPhase ((![P k 1 0, P k 1 1, P k 0 2, P k 0 3] : Fin 4 → V) j) :=
    yields_phases (yields_hstack (yields_row_lo hp 1) (yields_row_hi hp 0))
  simp only [normModesArr]
  generalize phasesArr (hstack (index [.all, .at 1, .slice none (some 2) 1] p) (index [.all, .at 0, .slice (some 2) none 1] p)) = c at hc ⊢
  have hp3 : Yields (mats V 4 4) N (p * index [.all, .new, .all] c) _ := yields_mats_rows (o := Arith.mul) hp hc
  generalize p * index [.all, .new, .all] c = p' at hp3 ⊢
  have hs := yields_add (yields_entry hp3 1 0) (yields_entry hp3 1 1)
  exact yields_mats_vec (o := Arith.div) (yields_mats_sop2 (o := Arith.mul) (c := Arith.num 2) hp3) hs

lemma sim_halfspace {d : Out V} {D : ℕ → Fin 4 → Fin 4 → V} (hd : Yields (mats V 4 4) N d D) :
    Sim (mats V 4 4) N (halfspaceArr d) fun k => pHalfspace (D k) := by
  obtain ⟨x, rfl, hx, hr⟩ := hd
  have e : halfspaceArr (.ok x : Out V) = (linEig 4 (.ok x)).bind fun qp =>
      normModesArr (pairModesArr (sortModesArr (.ok qp.1) (.ok qp.2))) := by
    simp only [halfspaceArr]
    cases linEig 4 (.ok x : Out V) <;> rfl
  rw [e]
  have h := (sim_linEig (n := 4) hx).congr (G := fun k => Arith.eig 4 (D k)) fun k hk => by rw [hr k hk]
  refine h.bind (G := fun _ qp => .ok (pModes qp)) fun qp hqp => ?_
  exact (yields_normModes (yields_pairModes (yields_take_mats (Yields.ok hqp.2) (yields_lexsort (Yields.ok hqp.1))))).sim

end PyElli.Nd
