import Verif.Lemmas.NdArray

/-! # Lemmas: matrices, sorting and selection for every wavelength -/

namespace PyElli.Nd

open PyElli

variable {V : Type} {α β γ δ : Type}

/-! ## Broadcasting of matrices -/

variable {N m n p : ℕ}

lemma yields_mats_op1 {a : Out α} {F : ℕ → Fin m → Fin n → α} {o : α → β} (ha : Yields (mats α m n) N a F) :
    Yields (mats β m n) N (op1 o a) fun k i j => o (F k i j) := by
  obtain ⟨x, rfl, hw, hr⟩ := ha
  refine ⟨_, rfl, hw, fun k hk => ?_⟩
  funext i j
  exact congrArg o (congrFun (congrFun (hr k hk) i) j)

lemma yields_mats_op2 {a : Out α} {b : Out β} {F : ℕ → Fin m → Fin n → α} {G : ℕ → Fin m → Fin n → β} {o : α → β → γ}
    (ha : Yields (mats α m n) N a F) (hb : Yields (mats β m n) N b G) :
    Yields (mats γ m n) N (op2 o a b) fun k i j => o (F k i j) (G k i j) := by
  obtain ⟨⟨s, v⟩, rfl, hw, hr⟩ := ha
  obtain ⟨⟨t, w⟩, rfl, hw', hr'⟩ := hb
  simp only [mats] at hw hr hw' hr'
  subst hw hw'
  refine ⟨⟨[N, m, n], fun idx => o (v (project [N, m, n] idx)) (w (project [N, m, n] idx))⟩, by simp [op2, bcast, bcastRev], rfl, fun k hk => ?_⟩
  funext i j
  simp [mats, project, pick_lt hk, pick_lt i.isLt, pick_lt j.isLt, ← hr k hk, ← hr' k hk]

lemma yields_mats_sop2 {c : α} {b : Out β} {G : ℕ → Fin m → Fin n → β} {o : α → β → γ} (hb : Yields (mats β m n) N b G) :
    Yields (mats γ m n) N (op2 o (scalar c) b) fun k i j => o c (G k i j) := by
  obtain ⟨⟨t, w⟩, rfl, hw', hr'⟩ := hb
  simp only [mats] at hw' hr'
  subst hw'
  refine ⟨⟨[N, m, n], fun idx => o c (w (project [N, m, n] idx))⟩, by simp [op2, scalar, bcast, bcastRev], rfl, fun k hk => ?_⟩
  funext i j
  simp [mats, project, pick_lt hk, pick_lt i.isLt, pick_lt j.isLt, ← hr' k hk]

lemma yields_mats_op2s {a : Out α} {c : β} {F : ℕ → Fin m → Fin n → α} {o : α → β → γ} (ha : Yields (mats α m n) N a F) :
    Yields (mats γ m n) N (op2 o a (scalar c)) fun k i j => o (F k i j) c := by
  obtain ⟨⟨t, w⟩, rfl, hw', hr'⟩ := ha
  simp only [mats] at hw' hr'
  subst hw'
  refine ⟨⟨[N, m, n], fun idx => o (w (project [N, m, n] idx)) c⟩, by simp [op2, scalar, bcast, bcastRev], rfl, fun k hk => ?_⟩
  funext i j
  simp [mats, project, pick_lt hk, pick_lt i.isLt, pick_lt j.isLt, ← hr' k hk]

/-- `a o v[:, None, None]`. -/
lemma yields_mats_vec {a : Out α} {b : Out β} {F : ℕ → Fin m → Fin n → α} {g : ℕ → β} {o : α → β → γ}
    (ha : Yields (mats α m n) N a F) (hb : Yields (vec β) N b g) :
    Yields (mats γ m n) N (op2 o a (index [.all, .new, .new] b)) fun k i j => o (F k i j) (g k) := by
  obtain ⟨⟨s, v⟩, rfl, hw, hr⟩ := ha
  obtain ⟨⟨t, w⟩, rfl, hw', hr'⟩ := hb
  simp only [mats, vec] at hw hr hw' hr'
  subst hw hw'
  have hb : bcastRev [n, m, N] [1, 1, N] = some [n, m, N] := by
    simp only [bcastRev]
    split_ifs <;> simp_all
  refine ⟨⟨[N, m, n], fun idx => o (v (project [N, m, n] idx)) (w (pullIx [.all, .new, .new] [N] (project [N, 1, 1] idx)))⟩, ?_, rfl,
    fun k hk => ?_⟩
  · simp [op2, index, shapeIx, bcast, hb]
  · funext i j
    simp [mats, project, pullIx, pick_lt hk, pick_lt i.isLt, pick_lt j.isLt, ← hr k hk, ← hr' k hk]

/-- `a o v[:, None, :]`. -/
lemma yields_mats_rows {a : Out α} {b : Out β} {F : ℕ → Fin m → Fin n → α} {g : ℕ → Fin n → β} {o : α → β → γ}
    (ha : Yields (mats α m n) N a F) (hb : Yields (rows β n) N b g) :
    Yields (mats γ m n) N (op2 o a (index [.all, .new, .all] b)) fun k i j => o (F k i j) (g k j) := by
  obtain ⟨⟨s, v⟩, rfl, hw, hr⟩ := ha
  obtain ⟨⟨t, w⟩, rfl, hw', hr'⟩ := hb
  simp only [mats, rows] at hw hr hw' hr'
  subst hw hw'
  have hb : bcastRev [n, m, N] [n, 1, N] = some [n, m, N] := by
    simp only [bcastRev]
    split_ifs <;> simp_all
  refine ⟨⟨[N, m, n], fun idx => o (v (project [N, m, n] idx)) (w (pullIx [.all, .new, .all] [N, n] (project [N, 1, n] idx)))⟩, ?_, rfl,
    fun k hk => ?_⟩
  · simp [op2, index, shapeIx, bcast, hb]
  · funext i j
    simp [mats, project, pullIx, pick_lt hk, pick_lt i.isLt, pick_lt j.isLt, ← hr k hk, ← hr' k hk]

section arith

variable [Arith V]

lemma entry_fin (M : Fin m → Fin n → V) (i : Fin m) (j : Fin n) : entry M i.val j.val = M i j := by simp [entry, i.isLt, j.isLt]

lemma entry1_fin (v : Fin n → V) (i : Fin n) : entry1 v i.val = v i := by simp [entry1, i.isLt]

/-- A fixed matrix and the matrices. -/
lemma yields_ofMat_op2 {M : Fin m → Fin n → V} {b : Out V} {G : ℕ → Fin m → Fin n → V} {o : V → V → V}
    (hb : Yields (mats V m n) N b G) : Yields (mats V m n) N (op2 o (ofMat M) b) fun k i j => o (M i j) (G k i j) := by
  obtain ⟨⟨t, w⟩, rfl, hw', hr'⟩ := hb
  simp only [mats] at hw' hr'
  subst hw'
  refine ⟨⟨[N, m, n], fun idx => o (entry M ((project [m, n] idx).headD 0) ((project [m, n] idx).tail.headD 0))
    (w (project [N, m, n] idx))⟩, by simp [op2, ofMat, bcast, bcastRev], rfl, fun k hk => ?_⟩
  funext i j
  simp [mats, project, pick_lt hk, pick_lt i.isLt, pick_lt j.isLt, ← hr' k hk, entry_fin]

/-- The product of two matrices. -/
def matMul (A : Fin m → Fin p → V) (B : Fin p → Fin n → V) : Fin m → Fin n → V :=
  fun i j => Arith.sum ((List.finRange p).map fun t => A i t ⊗ B t j)

omit [Arith V] in
lemma map_range_fin {q : ℕ} (f : ℕ → β) (g : Fin q → β) (h : ∀ t : Fin q, f t = g t) : (List.range q).map f = (List.finRange q).map g := by
  rw [← List.map_coe_finRange_eq_range, List.map_map]
  exact List.map_congr_left fun t _ => h t

lemma yields_matmul {a b : Out V} {A : ℕ → Fin m → Fin p → V} {B : ℕ → Fin p → Fin n → V} (ha : Yields (mats V m p) N a A)
    (hb : Yields (mats V p n) N b B) : Yields (mats V m n) N (matmul a b) fun k => matMul (A k) (B k) := by
  obtain ⟨⟨s, v⟩, rfl, hw, hr⟩ := ha
  obtain ⟨⟨t, w⟩, rfl, hw', hr'⟩ := hb
  simp only [mats] at hw hr hw' hr'
  subst hw hw'
  refine ⟨⟨[N, m, n], fun idx => Arith.sum ((List.range p).map fun t =>
            v (project [N] idx.dropLast.dropLast ++ [idx.dropLast.getLastD 0, t]) ⊗
              w (project [N] idx.dropLast.dropLast ++ [t, idx.getLastD 0]))⟩, by simp [matmul, bcastRev], rfl, fun k hk => ?_⟩
  funext i j
  simp only [mats, matMul]
  congr 1
  refine map_range_fin _ _ fun t => ?_
  simp [project, pick_lt hk, ← hr k hk, ← hr' k hk]

lemma yields_matmul_left {b : Out V} {A : Fin m → Fin p → V} {B : ℕ → Fin p → Fin n → V}
    (hb : Yields (mats V p n) N b B) : Yields (mats V m n) N (matmul (ofMat A) b) fun k => matMul A (B k) := by
  obtain ⟨⟨t, w⟩, rfl, hw', hr'⟩ := hb
  simp only [mats] at hw' hr'
  subst hw'
  refine ⟨⟨[N, m, n], fun idx => Arith.sum ((List.range p).map fun t =>
            entry A (idx.dropLast.getLastD 0) t ⊗
              w (project [N] idx.dropLast.dropLast ++ [t, idx.getLastD 0]))⟩, ?_, rfl, fun k hk => ?_⟩
  · simp [matmul, ofMat, bcastRev, project]
  funext i j
  simp only [mats, matMul]
  congr 1
  refine map_range_fin _ _ fun t => ?_
  simp [project, pick_lt hk, ← hr' k hk, entry_fin]

lemma yields_matmul_right {a : Out V} {A : ℕ → Fin m → Fin p → V} {B : Fin p → Fin n → V}
    (ha : Yields (mats V m p) N a A) : Yields (mats V m n) N (matmul a (ofMat B)) fun k => matMul (A k) B := by
  obtain ⟨⟨t, w⟩, rfl, hw', hr'⟩ := ha
  simp only [mats] at hw' hr'
  subst hw'
  refine ⟨⟨[N, m, n], fun idx => Arith.sum ((List.range p).map fun t =>
            w (project [N] idx.dropLast.dropLast ++ [idx.dropLast.getLastD 0, t]) ⊗ entry B t (idx.getLastD 0))⟩, ?_, rfl, fun k hk => ?_⟩
  · simp [matmul, ofMat, bcastRev, project]
  funext i j
  simp only [mats, matMul]
  congr 1
  refine map_range_fin _ _ fun t => ?_
  simp [project, pick_lt hk, ← hr' k hk, entry_fin]

lemma transpose2_ofMat (M : Fin m → Fin n → V) : ∃ x, transpose2 (ofMat M) = .ok x ∧ x.shape = [n, m] ∧
    ∀ i j, x.val [i, j] = entry (fun a b => M b a) i j := by
  refine ⟨_, rfl, rfl, fun i j => ?_⟩
  simp [entry, and_comm]

lemma yields_matmul_rightT {a : Out V} {A : ℕ → Fin m → Fin p → V} {B : Fin n → Fin p → V}
    (ha : Yields (mats V m p) N a A) : Yields (mats V m n) N (matmul a (transpose2 (ofMat B))) fun k => matMul (A k) fun i j => B j i := by
  obtain ⟨⟨t, w⟩, rfl, hw', hr'⟩ := ha
  obtain ⟨⟨u, x⟩, h1, h2, h3⟩ := transpose2_ofMat B
  rw [h1]
  simp only [mats] at hw' hr' h2 h3
  subst hw' h2
  refine ⟨⟨[N, m, n], fun idx => Arith.sum ((List.range p).map fun t =>
            w (project [N] idx.dropLast.dropLast ++ [idx.dropLast.getLastD 0, t]) ⊗ x [t, idx.getLastD 0])⟩, ?_, rfl, fun k hk => ?_⟩
  · simp [matmul, bcastRev, project]
  funext i j
  simp only [mats, matMul]
  congr 1
  refine map_range_fin _ _ fun t => ?_
  simp [project, pick_lt hk, ← hr' k hk, h3, entry_fin]

/-! ## Linear algebra -/

omit [Arith V] in
lemma traverseList_ok {f : β → Except PyErr γ} : ∀ {xs : List β} {l : List γ}, traverseList f xs = .ok l →
    l.length = xs.length ∧ ∀ i (h : i < xs.length), ∃ y, l[i]? = some y ∧ f xs[i] = .ok y
  | [], l, h => by
    simp only [traverseList, Except.ok.injEq] at h
    subst h; simp
  | x :: xs, l, h => by
    simp only [traverseList] at h
    cases hx : f x with
    | error e => simp [hx] at h
    | ok y =>
      cases hr : traverseList f xs with
      | error e => simp [hx, hr] at h
      | ok r =>
        simp only [hx, hr, Except.ok.injEq] at h
        subst h
        obtain ⟨hl, hi⟩ := traverseList_ok hr
        refine ⟨by simp [hl], fun i h => ?_⟩
        cases i with
        | zero => exact ⟨y, by simp, by simpa using hx⟩
        | succ i => simpa using hi i (by simpa using h)

lemma traverseList_error {f : β → Except PyErr γ} {e : PyErr} : ∀ {xs : List β}, traverseList f xs = .error e → ∃ x ∈ xs, f x = .error e
  | [], h => by simp [traverseList] at h
  | x :: xs, h => by
    simp only [traverseList] at h
    cases hx : f x with
    | error e' =>
      simp only [hx, Except.error.injEq] at h
      exact ⟨x, by simp, by rw [hx, h]⟩
    | ok y =>
      cases hr : traverseList f xs with
      | error e' =>
        simp only [hx, hr, Except.error.injEq] at h
        subst h
        obtain ⟨z, hz, hz'⟩ := traverseList_error hr
        exact ⟨z, by simp [hz], hz'⟩
      | ok r => simp [hx, hr] at h

lemma onMats_eq (f : (Fin n → Fin n → V) → Except PyErr γ) {x : ND V} (hx : x.shape = [N, n, n]) :
    onMats n f x = traverseList (fun k => f (readMat x n [k])) (List.range N) := by
  simp [onMats, hx]

lemma readMat_eq (x : ND V) (k : ℕ) : readMat x n [k] = (mats V n n).read k x := rfl

lemma sim_linInv {x : ND V} (hx : x.shape = [N, n, n]) :
    Sim (mats V n n) N (linInv n (.ok x)) fun k => Arith.inv n ((mats V n n).read k x) := by
  simp only [linInv, onMats_eq _ hx]
  cases ht : traverseList (fun k => Arith.inv n (readMat x n [k])) (List.range N) with
  | error e =>
    obtain ⟨k, hk, he⟩ := traverseList_error ht
    exact ⟨k, by simpa using hk, e, he⟩
  | ok l =>
    obtain ⟨hl, hi⟩ := traverseList_ok ht
    refine ⟨hx, fun k hk => ?_⟩
    obtain ⟨M, hM, hf⟩ := hi k (by simpa using hk)
    simp only [List.getElem_range, readMat_eq] at hf
    beta_reduce
    rw [hf]
    congr 1
    funext i j
    simp [mats, hM, entry_fin]

/-- Arrays of eigenvalues and eigenvectors. -/
def eigR (V : Type) (n : ℕ) : Reading (ND V × ND V) ((Fin n → V) × (Fin n → Fin n → V)) :=
  ⟨fun N x => (rows V n).wf N x.1 ∧ (mats V n n).wf N x.2, fun k x => ((rows V n).read k x.1, (mats V n n).read k x.2)⟩

lemma sim_linEig {x : ND V} (hx : x.shape = [N, n, n]) :
    Sim (eigR V n) N (linEig n (.ok x)) fun k => Arith.eig n ((mats V n n).read k x) := by
  simp only [linEig, onMats_eq _ hx]
  cases ht : traverseList (fun k => Arith.eig n (readMat x n [k])) (List.range N) with
  | error e =>
    obtain ⟨k, hk, he⟩ := traverseList_error ht
    exact ⟨k, by simpa using hk, e, he⟩
  | ok l =>
    obtain ⟨hl, hi⟩ := traverseList_ok ht
    refine ⟨⟨by simp [rows, hx], hx⟩, fun k hk => ?_⟩
    obtain ⟨M, hM, hf⟩ := hi k (by simpa using hk)
    simp only [List.getElem_range, readMat_eq] at hf
    beta_reduce
    rw [hf]
    congr 1
    refine Prod.ext ?_ ?_
    · funext i
      simp [eigR, rows, hM, entry1_fin]
    · funext i j
      simp [eigR, mats, hM, entry_fin]

lemma yields_linExpm {a : Out V} {F : ℕ → Fin n → Fin n → V} (ha : Yields (mats V n n) N a F) :
    Yields (mats V n n) N (linExpm n a) fun k => Arith.expm n (F k) := by
  obtain ⟨x, rfl, hx, hr⟩ := ha
  simp only [linExpm, onMats_eq _ hx]
  cases ht : traverseList (fun k => (Except.ok (Arith.expm n (readMat x n [k])) : Except PyErr _)) (List.range N) with
  | error e =>
    obtain ⟨k, hk, he⟩ := traverseList_error ht
    simp at he
  | ok l =>
    obtain ⟨hl, hi⟩ := traverseList_ok ht
    refine ⟨_, rfl, hx, fun k hk => ?_⟩
    obtain ⟨M, hM, hf⟩ := hi k (by simpa using hk)
    simp only [List.getElem_range, readMat_eq, Except.ok.injEq, hr k hk] at hf
    funext i j
    simp [mats, hM, entry_fin, hf]

/-- `np.einsum("nij,n->nij", a, v)`. -/
lemma yields_einsum_nij {a b : Out V} {F : ℕ → Fin m → Fin n → V} {g : ℕ → V} (ha : Yields (mats V m n) N a F) (hb : Yields (vec V) N b g) :
    Yields (mats V m n) N (einsum "nij" a [("n", b)] "nij") fun k i j => F k i j ⊗ g k := by
  obtain ⟨⟨s, v⟩, rfl, hw, hr⟩ := ha
  obtain ⟨⟨t, w⟩, rfl, hw', hr'⟩ := hb
  simp only [mats, vec] at hw hr hw' hr'
  subst hw hw'
  refine ⟨⟨[N, m, n], fun idx => v (einIdx (['n', 'i', 'j'].zip idx ++ []) ['n', 'i', 'j']) ⊗ w (einIdx (['n', 'i', 'j'].zip idx ++ []) ['n'])⟩,
    ?_, rfl, fun k hk => ?_⟩
  · simp [einsum, sequence, einDims, List.lookup, einEnvs, einProd]
  · funext i j
    simp [mats, einIdx, List.lookup, ← hr k hk, ← hr' k hk]

/-- `np.einsum("ijz,jkz->ikz", a, b)`. -/
lemma yields_einsum_matmul {a b : Out V} {A : ℕ → Fin m → Fin p → V} {B : ℕ → Fin p → Fin n → V} (ha : Yields (matsLast V m p) N a A)
    (hb : Yields (matsLast V p n) N b B) :
    Yields (matsLast V m n) N (einsum "ijz" a [("jkz", b)] "ikz") fun k => matMul (A k) (B k) := by
  obtain ⟨⟨s, v⟩, rfl, hw, hr⟩ := ha
  obtain ⟨⟨t, w⟩, rfl, hw', hr'⟩ := hb
  simp only [matsLast] at hw hr hw' hr'
  subst hw hw'
  refine ⟨⟨[m, n, N], fun idx => Arith.sum (((List.range p).flatMap fun i => [[('j', i)]]).map fun env =>
      v (einIdx (['i', 'k', 'z'].zip idx ++ env) ['i', 'j', 'z']) ⊗ w (einIdx (['i', 'k', 'z'].zip idx ++ env) ['j', 'k', 'z']))⟩,
    by simp [einsum, sequence, einDims, List.lookup, einEnvs, einProd], rfl, fun k hk => ?_⟩
  funext i j
  simp only [matsLast, matMul, ← List.map_eq_flatMap, List.map_map]
  congr 1
  refine map_range_fin _ _ fun t => ?_
  simp [← hr k hk, ← hr' k hk, einIdx, List.lookup]

end arith

end PyElli.Nd
