import Verif.Model.ArrayResult
import Verif.Lemmas.ArrayCalc4

/-! # The arrays of `result.py`, wavelength by wavelength -/

namespace PyElli.Nd

open PyElli

variable {V : Type} [Arith V] {α : Type} {N m n : ℕ}

/-! ## Further array operations -/

lemma yields_row_entry {a : Out α} {F : ℕ → Fin n → α} (ha : Yields (rows α n) N a F) (i : Fin n) :
    Yields (vec α) N (index [.all, .at i] a) fun k => F k i := by
  obtain ⟨⟨s, v⟩, rfl, hw, hr⟩ := ha
  simp only [rows] at hw hr
  subst hw
  refine ⟨⟨[N], fun idx => v (pullIx [Ix.all, Ix.at i.val] [N, n] idx)⟩, ?_, rfl, fun k hk => ?_⟩
  · simp [index, shapeIx, i.isLt]
  · simp [vec, ← hr k hk, pullIx]

/-- The product of a matrix and a vector. -/
def matVec (A : Fin m → Fin n → V) (v : Fin n → V) : Fin m → V := fun i => Arith.sum ((List.finRange n).map fun t => A i t ⊗ v t)

lemma yields_dotVec {a : Out V} {A : ℕ → Fin m → Fin n → V} (v : Fin n → V) (ha : Yields (mats V m n) N a A) :
    Yields (rows V m) N (dotVec a (ofVec v)) fun k => matVec (A k) v := by
  obtain ⟨⟨s, w⟩, rfl, hw, hr⟩ := ha
  simp only [mats] at hw hr
  subst hw
  refine ⟨⟨[N, m], _⟩, by simp only [dotVec, ofVec, List.reverse_cons, List.reverse_nil, List.nil_append, List.cons_append, if_true]; rfl, rfl, fun k hk => ?_⟩
  funext i
  simp only [rows, matVec]
  congr 1
  refine map_range_fin _ _ fun t => ?_
  simp [← hr k hk, entry1_fin]

lemma getElem?_flatMap {β : Type} (f : α → List β) (p : ℕ) : ∀ (l : List α), (∀ x ∈ l, (f x).length = p) → ∀ i j, j < p →
    (l.flatMap f)[i * p + j]? = l[i]?.bind fun x => (f x)[j]?
  | [], _, i, j, _ => by simp
  | x :: l, h, i, j, hj => by
    rw [List.flatMap_cons]
    have hx : (f x).length = p := h x (by simp)
    cases i with
    | zero => simp [List.getElem?_append_left (hx ▸ hj : j < (f x).length)]
    | succ i =>
      rw [List.getElem?_append_right (by rw [hx]; nlinarith), hx]
      have : (i + 1) * p + j - p = i * p + j := by
        rw [Nat.add_mul, one_mul]; omega
      rw [this, getElem?_flatMap f p l (fun y hy => h y (by simp [hy])) i j hj]
      simp

lemma allIdx_kron {k a b : ℕ} (hk : k < N) (ha : a < 4) (hb : b < 4) :
    (allIdx [N, 2, 2, 2, 2])[k * 16 + (a * 4 + b)]? = some [k, a / 2, a % 2, b / 2, b % 2] := by
  have h : allIdx [N, 2, 2, 2, 2] = (List.range N).flatMap fun i => (allIdx [2, 2, 2, 2]).map (i :: ·) := rfl
  rw [h, getElem?_flatMap _ 16 _ (fun x _ => by simp [allIdx]) k _ (by omega)]
  simp only [List.getElem?_range, hk, Option.bind_some, List.getElem?_map]
  have : (allIdx [2, 2, 2, 2])[a * 4 + b]? = some [a / 2, a % 2, b / 2, b % 2] := by
    interval_cases a <;> interval_cases b <;> rfl
  simp [this]

/-- The Kronecker product of a matrix with two rows and another one, in the order of `reshape`. -/
def pKron (A B : Fin 2 → Fin 2 → V) : Fin 4 → Fin 4 → V := fun a b =>
  A ⟨a.val / 2, by omega⟩ ⟨b.val / 2, by omega⟩ ⊗ B ⟨a.val % 2, by omega⟩ ⟨b.val % 2, by omega⟩

lemma yields_kron {a b : Out V} {A B : ℕ → Fin 2 → Fin 2 → V} (ha : Yields (mats V 2 2) N a A) (hb : Yields (mats V 2 2) N b B) :
    Yields (mats V 4 4) N (reshape [firstLen a, 4, 4] (einsum "aij" a [("akl", b)] "aikjl")) fun k => pKron (A k) (B k) := by
  obtain ⟨⟨s, v⟩, rfl, hw, hr⟩ := ha
  obtain ⟨⟨t, w⟩, rfl, hw', hr'⟩ := hb
  simp only [mats] at hw hr hw' hr'
  subst hw hw'
  have e : einsum "aij" (Except.ok ⟨[N, 2, 2], v⟩) [("akl", Except.ok ⟨[N, 2, 2], w⟩)] "aikjl" = .ok ⟨[N, 2, 2, 2, 2], fun idx =>
      v (einIdx (['a', 'i', 'k', 'j', 'l'].zip idx ++ []) ['a', 'i', 'j']) ⊗ w (einIdx (['a', 'i', 'k', 'j', 'l'].zip idx ++ []) ['a', 'k', 'l'])⟩ := by
    simp [einsum, sequence, einDims, List.lookup, einEnvs, einProd]
  rw [e]
  have hp : ([N, 2, 2, 2, 2] : List ℕ).prod = [N, 4, 4].prod := by simp
  have hl : firstLen (.ok ⟨[N, 2, 2], v⟩ : Out V) = N := rfl
  rw [hl]
  refine ⟨_, by rw [reshape]; exact if_pos hp, by simp [mats], fun k hk => ?_⟩
  funext i j
  have hrav : ravel [N, 4, 4] [k, i.val, j.val] = k * 16 + (i.val * 4 + j.val) := by
    have h1 : (i.val * (4 * 1)) % 4 = 0 := by omega
    simp [ravel, Nat.mod_eq_of_lt hk, Nat.mod_eq_of_lt i.isLt, Nat.mod_eq_of_lt j.isLt]
  simp only [mats, hrav, List.getD_eq_getElem?_getD, allIdx_kron hk i.isLt j.isLt, Option.getD_some, pKron, ← hr k hk, ← hr' k hk]
  simp [einIdx, List.lookup]

/-- `np.einsum("ij,...jk,kl->...il", a, J, c)` for one wavelength. -/
def pSandwich (A J C : Fin 2 → Fin 2 → V) : Fin 2 → Fin 2 → V := fun i l =>
  Arith.sum [A i 0 ⊗ J 0 0 ⊗ C 0 l, A i 0 ⊗ J 0 1 ⊗ C 1 l, A i 1 ⊗ J 1 0 ⊗ C 0 l, A i 1 ⊗ J 1 1 ⊗ C 1 l]

lemma yields_sandwich {b : Out V} {J : ℕ → Fin 2 → Fin 2 → V} (A C : Fin 2 → Fin 2 → V) (hb : Yields (mats V 2 2) N b J) :
    Yields (mats V 2 2) N (einsum "ij" (ofMat A) [("zjk", b), ("kl", ofMat C)] "zil") fun k => pSandwich A (J k) C := by
  obtain ⟨⟨t, w⟩, rfl, hw', hr'⟩ := hb
  simp only [mats] at hw' hr'
  subst hw'
  refine ⟨⟨[N, 2, 2], fun idx => Arith.sum ([[('j', 0), ('k', 0)], [('j', 0), ('k', 1)], [('j', 1), ('k', 0)], [('j', 1), ('k', 1)]].map fun env =>
      entry A ((einIdx (['z', 'i', 'l'].zip idx ++ env) ['i', 'j']).headD 0) ((einIdx (['z', 'i', 'l'].zip idx ++ env) ['i', 'j']).tail.headD 0) ⊗
      w (einIdx (['z', 'i', 'l'].zip idx ++ env) ['z', 'j', 'k']) ⊗
      entry C ((einIdx (['z', 'i', 'l'].zip idx ++ env) ['k', 'l']).headD 0) ((einIdx (['z', 'i', 'l'].zip idx ++ env) ['k', 'l']).tail.headD 0))⟩,
    ?_, rfl, fun k hk => ?_⟩
  · simp [einsum, sequence, einDims, List.lookup, einEnvs, einProd, ofMat, List.range_succ]
  · funext i l
    simp [mats, pSandwich, ← hr' k hk, einIdx, List.lookup, entry, Nat.le_of_lt_succ i.isLt, Nat.le_of_lt_succ l.isLt]

/-! ## The quantities for one wavelength -/

/-- `rho_matrix` for one wavelength. -/
def pRhoMatrix (J : Fin 2 → Fin 2 → V) : Fin 2 → Fin 2 → V := fun i j => J i j ⊘ J 1 1

/-- Attributes of a `Result` besides the arrays. -/
structure Setting (V : Type) where
  jones : Fin 2 → V
  lower : V
  upper : V

/-- A result with arrays. -/
def Setting.with (c : Setting V) (a : ResArr V) : ResultArr V := ⟨a, c.jones, c.lower, c.upper⟩

/-- The folding for one wavelength. -/
def pFold (c : Setting V) (x : V) : V :=
  if Arith.eq c.lower (Arith.num 0) && Arith.eq c.upper (Arith.num 180) then Arith.setImag x (∼Arith.abs (Arith.imag x)) else x

/-- `rho` for one wavelength. -/
def pRho (c : Setting V) (J : Fin 2 → Fin 2 → V) : V :=
  pFold c (matVec (pRhoMatrix J) c.jones 0 ⊘ matVec (pRhoMatrix J) c.jones 1)

/-- `psi` of a ratio. -/
def pPsi (x : V) : V := Arith.rad2deg (Arith.arctan (Arith.abs x))

/-- `delta` of a ratio. -/
def pDeltaAngle (c : Setting V) (x : V) : V := Arith.mod (∼Arith.angleDeg x ⊞ c.lower) (Arith.num 360) ⊞ c.lower

/-- `abs(x) ** 2`. -/
def pAbs2 (x : V) : V := Arith.pow (Arith.abs x) (Arith.num 2)

/-- The scalar quantities for one wavelength. -/
def ScalarQ.at (c : Setting V) (x : PRes V) : ScalarQ → V
  | .rho => pRho c x.1
  | .rho_t => pRho c x.2.1
  | .psi => pPsi (pRho c x.1)
  | .psi_t => pPsi (pRho c x.2.1)
  | .delta => pDeltaAngle c (pRho c x.1)
  | .delta_t => pDeltaAngle c (pRho c x.2.1)
  | .R => (pAbs2 (x.1 0 0) ⊞ pAbs2 (x.1 1 1)) ⊘ Arith.num 2
  | .T => (pAbs2 (x.2.1 0 0) ⊗ x.2.2 ⊞ pAbs2 (x.2.1 1 1) ⊗ x.2.2) ⊘ Arith.num 2

/-- The inverses of the constant matrices. -/
structure Inverses (V : Type) [Arith V] where
  a : Fin 4 → Fin 4 → V
  c : Fin 2 → Fin 2 → V
  d : Fin 2 → Fin 2 → V
  ha : Arith.inv 4 muellerConst = .ok a
  hc : Arith.inv 2 circConstC = .ok c
  hd : Arith.inv 2 circConstD = .ok d

/-- The matrices for one wavelength. -/
def MatrixQ.at (c : Setting V) (v : Inverses V) (x : PRes V) : MatrixQ → Fin 2 → Fin 2 → V
  | .rho_matrix => pRhoMatrix x.1
  | .rho_matrix_t => pRhoMatrix x.2.1
  | .psi_matrix => fun i j => pPsi (pRhoMatrix x.1 i j)
  | .psi_matrix_t => fun i j => pPsi (pRhoMatrix x.2.1 i j)
  | .delta_matrix => fun i j => pDeltaAngle c (pRhoMatrix x.1 i j)
  | .delta_matrix_t => fun i j => pDeltaAngle c (pRhoMatrix x.2.1 i j)
  | .jones_matrix_r => x.1
  | .jones_matrix_t => x.2.1
  | .jones_matrix_rc => pSandwich v.d x.1 circConstC
  | .jones_matrix_tc => pSandwich v.c x.2.1 circConstC
  | .R_matrix => fun i j => pAbs2 (x.1 i j)
  | .T_matrix => fun i j => pAbs2 (x.2.1 i j) ⊗ x.2.2
  | .Rc_matrix => fun i j => pAbs2 (pSandwich v.d x.1 circConstC i j)
  | .Tc_matrix => fun i j => pAbs2 (pSandwich v.c x.2.1 circConstC i j) ⊗ x.2.2

/-- The real Mueller matrix before the normalisation, for one wavelength. -/
def pMuellerRaw (v : Inverses V) (J : Fin 2 → Fin 2 → V) : Fin 4 → Fin 4 → V := fun i j =>
  Arith.real (matMul (matMul muellerConst (pKron (pRhoMatrix J) fun i j => Arith.conj (pRhoMatrix J i j))) v.a i j)

/-- The Mueller matrix for one wavelength. -/
def pMueller (v : Inverses V) (J : Fin 2 → Fin 2 → V) : Fin 4 → Fin 4 → V := fun i j => pMuellerRaw v J i j ⊘ pMuellerRaw v J 0 0

/-! ## The arrays -/

section quantities

variable {a : Out V} {J : ℕ → Fin 2 → Fin 2 → V}

lemma yields_rhoMatrix (ha : Yields (mats V 2 2) N a J) : Yields (mats V 2 2) N (rhoMatrixArr a) fun k => pRhoMatrix (J k) :=
  yields_mats_vec ha (yields_entry ha (1 : Fin 2) (1 : Fin 2))

lemma yields_foldRho {f : ℕ → V} (c : Setting V) (r : ResArr V) (ha : Yields (vec V) N a f) :
    Yields (vec V) N (foldRhoArr (c.with r) a) fun k => pFold c (f k) := by
  by_cases h : (Arith.eq c.lower (Arith.num 0) && Arith.eq c.upper (Arith.num 180)) = true
  · have e1 : foldRhoArr (c.with r) a = op2 Arith.setImag a (-(op1 Arith.abs (op1 Arith.imag a))) := if_pos h
    rw [e1]
    simp only [pFold, if_pos h]
    exact yields_op2 ha (yields_op1 (yields_op1 (yields_op1 ha)))
  · have e1 : foldRhoArr (c.with r) a = a := if_neg h
    rw [e1]
    simp only [pFold, if_neg h]
    exact ha

lemma yields_rho (c : Setting V) (r : ResArr V) (ha : Yields (mats V 2 2) N a J) :
    Yields (vec V) N (rhoArr (c.with r) a) fun k => pRho c (J k) := by
  have h := yields_dotVec c.jones (yields_rhoMatrix ha)
  exact yields_foldRho c r (yields_div (yields_row_entry h (0 : Fin 2)) (yields_row_entry h (1 : Fin 2)))

lemma yields_psi {f : ℕ → V} (ha : Yields (vec V) N a f) : Yields (vec V) N (psiArr a) fun k => pPsi (f k) :=
  yields_op1 (yields_op1 (yields_op1 ha))

lemma yields_psi_mats (ha : Yields (mats V 2 2) N a J) : Yields (mats V 2 2) N (psiArr a) fun k i j => pPsi (J k i j) :=
  yields_mats_op1 (yields_mats_op1 (yields_mats_op1 ha))

lemma yields_deltaAngle {f : ℕ → V} (c : Setting V) (r : ResArr V) (ha : Yields (vec V) N a f) :
    Yields (vec V) N (deltaArr (c.with r) a) fun k => pDeltaAngle c (f k) :=
  yields_op2_vs (yields_op2_vs (yields_op2_vs (yields_op1 (yields_op1 ha))))

lemma yields_deltaAngle_mats (c : Setting V) (r : ResArr V) (ha : Yields (mats V 2 2) N a J) :
    Yields (mats V 2 2) N (deltaArr (c.with r) a) fun k i j => pDeltaAngle c (J k i j) :=
  yields_mats_op2s (yields_mats_op2s (yields_mats_op2s (yields_mats_op1 (yields_mats_op1 ha))))

lemma yields_power (ha : Yields (mats V 2 2) N a J) : Yields (mats V 2 2) N (powerArr a) fun k i j => pAbs2 (J k i j) :=
  yields_mats_op2s (yields_mats_op1 ha)

lemma yields_powerCorrected (c : Setting V) {r : ResArr V} {p : ℕ → V} (hp : Yields (vec V) N (.ok r.power) p) (ha : Yields (mats V 2 2) N a J) :
    Yields (mats V 2 2) N (powerCorrectedArr (c.with r) a) fun k i j => pAbs2 (J k i j) ⊗ p k :=
  yields_mats_vec (yields_power ha) hp

lemma yields_mean (ha : Yields (mats V 2 2) N a J) : Yields (vec V) N (meanArr a) fun k => (J k 0 0 ⊞ J k 1 1) ⊘ Arith.num 2 :=
  yields_op2_vs (yields_add (yields_entry ha (0 : Fin 2) (0 : Fin 2)) (yields_entry ha (1 : Fin 2) (1 : Fin 2)))

/-- All scalar quantities. -/
lemma yields_scalarQ (c : Setting V) {r : ResArr V} (h : (resR V).wf N r) (q : ScalarQ) :
    Yields (vec V) N (q.eval (c.with r)) fun k => q.at c ((resR V).read k r) := by
  have hr : Yields (mats V 2 2) N (.ok r.jr) fun k => ((resR V).read k r).1 := .ok h.1
  have ht : Yields (mats V 2 2) N (.ok r.jt) fun k => ((resR V).read k r).2.1 := .ok h.2.1
  have hp : Yields (vec V) N (.ok r.power) fun k => ((resR V).read k r).2.2 := .ok h.2.2
  cases q with
  | rho => exact yields_rho c r hr
  | rho_t => exact yields_rho c r ht
  | psi => exact yields_psi (yields_rho c r hr)
  | psi_t => exact yields_psi (yields_rho c r ht)
  | delta => exact yields_deltaAngle c r (yields_rho c r hr)
  | delta_t => exact yields_deltaAngle c r (yields_rho c r ht)
  | R => exact yields_mean (yields_power hr)
  | T => exact yields_mean (yields_powerCorrected c hp ht)

lemma yields_rc (v : Inverses V) (ha : Yields (mats V 2 2) N a J) :
    Yields (mats V 2 2) N (jonesRcArr a) fun k => pSandwich v.d (J k) circConstC := by
  have e : linInv2 2 circConstD = ofMat v.d := by simp only [linInv2, v.hd]
  rw [jonesRcArr, e]
  exact yields_sandwich _ _ ha

lemma yields_tc (v : Inverses V) (ha : Yields (mats V 2 2) N a J) :
    Yields (mats V 2 2) N (jonesTcArr a) fun k => pSandwich v.c (J k) circConstC := by
  have e : linInv2 2 circConstC = ofMat v.c := by simp only [linInv2, v.hc]
  rw [jonesTcArr, e]
  exact yields_sandwich _ _ ha

/-- All matrices. -/
lemma yields_matrixQ (c : Setting V) (v : Inverses V) {r : ResArr V} (h : (resR V).wf N r) (q : MatrixQ) :
    Yields (mats V 2 2) N (q.eval (c.with r)) fun k => q.at c v ((resR V).read k r) := by
  have hr : Yields (mats V 2 2) N (.ok r.jr) fun k => ((resR V).read k r).1 := .ok h.1
  have ht : Yields (mats V 2 2) N (.ok r.jt) fun k => ((resR V).read k r).2.1 := .ok h.2.1
  have hp : Yields (vec V) N (.ok r.power) fun k => ((resR V).read k r).2.2 := .ok h.2.2
  cases q with
  | rho_matrix => exact yields_rhoMatrix hr
  | rho_matrix_t => exact yields_rhoMatrix ht
  | psi_matrix => exact yields_psi_mats (yields_rhoMatrix hr)
  | psi_matrix_t => exact yields_psi_mats (yields_rhoMatrix ht)
  | delta_matrix => exact yields_deltaAngle_mats c r (yields_rhoMatrix hr)
  | delta_matrix_t => exact yields_deltaAngle_mats c r (yields_rhoMatrix ht)
  | jones_matrix_r => exact hr
  | jones_matrix_t => exact ht
  | jones_matrix_rc => exact yields_rc v hr
  | jones_matrix_tc => exact yields_tc v ht
  | R_matrix => exact yields_power hr
  | T_matrix => exact yields_powerCorrected c hp ht
  | Rc_matrix => exact yields_power (yields_rc v hr)
  | Tc_matrix => exact yields_powerCorrected c hp (yields_tc v ht)

lemma yields_matrixQ_entry (c : Setting V) (v : Inverses V) {r : ResArr V} (h : (resR V).wf N r) (q : MatrixQ) (i j : Fin 2) :
    Yields (vec V) N (q.entryEval (c.with r) i j) fun k => q.at c v ((resR V).read k r) i j :=
  yields_entry (yields_matrixQ c v h q) i j

/-- The Mueller matrices. -/
lemma yields_mueller (v : Inverses V) (ha : Yields (mats V 2 2) N a J) : Yields (mats V 4 4) N (muellerArr a) fun k => pMueller v (J k) := by
  have e : linInv2 4 muellerConst = ofMat v.a := by simp only [linInv2, v.ha]
  have hm := yields_mats_op1 (o := Arith.real) (yields_matmul_right (B := v.a) (yields_matmul_left (A := muellerConst)
    (yields_kron (yields_rhoMatrix ha) (yields_mats_op1 (o := Arith.conj) (yields_rhoMatrix ha)))))
  simp only [muellerArr, e]
  exact yields_mats_vec hm (yields_entry hm (0 : Fin 4) (0 : Fin 4))

end quantities

end PyElli.Nd
