import Verif.Lemmas.ArrayRows

/-! # Lemmas: `Solver2x2.calculate` for every wavelength -/

namespace PyElli.Nd

open PyElli

variable {V : Type} [Arith V] {N R : ℕ}

/-- `is_forward_angle` for one wavelength. -/
def pForward (n th : V) : Bool :=
  if Arith.lt (Arith.num (1 / 10 ^ 10)) (Arith.abs (Arith.imag (n ⊗ Arith.cos th))) then Arith.lt (Arith.num 0) (Arith.imag (n ⊗ Arith.cos th))
  else Arith.lt (Arith.num 0) (Arith.real (n ⊗ Arith.cos th))

/-- One corrected angle. -/
def pFix (n th : V) : V := if !pForward n th then Arith.pi ⊖ th else th

/-- `list_snell` for one wavelength and `R + 2` media. -/
def pSnell (R : ℕ) (theta : V) (n : ℕ → V) : ℕ → V :=
  let a := fun i => Arith.arcsin (n 0 ⊗ Arith.sin (Arith.deg2rad theta) ⊘ n i)
  let a := fun i => if i = 0 then pFix (n 0) (a 0) else a i
  fun i => if i = R + 1 then pFix (n (R + 1)) (a (R + 1)) else a i

lemma yields_whereV {α : Type} {c : Out Bool} {a b : Out α} {C : ℕ → Bool} {F G : ℕ → α} (hc : Yields (vec Bool) N c C) (ha : Yields (vec α) N a F)
    (hb : Yields (vec α) N b G) : Yields (vec α) N (whereOp c a b) fun k => if C k then F k else G k :=
  yields_op2 hc (yields_op2 ha hb)

lemma yields_forward {n th : Out V} {f g : ℕ → V} (hn : Yields (vec V) N n f) (ht : Yields (vec V) N th g) :
    Yields (vec Bool) N (isForwardArr n th) fun k => pForward (f k) (g k) := by
  have h := yields_mul hn (yields_op1 (o := Arith.cos) ht)
  simp only [isForwardArr]
  generalize n * op1 Arith.cos th = x at h ⊢
  exact yields_whereV (yields_op1 (yields_op1 h)) (yields_op1 (yields_op1 h)) (yields_op1 (yields_op1 h))

lemma rows_fix {n a : Out V} {F G : ℕ → ℕ → V} (hn : Rows R N n F) (ha : Rows R N a G) {j : ℕ} (hj : j < R) :
    Rows R N (fixRow j n a) fun k i => if i = j then pFix (F k j) (G k j) else G k i := by
  have h1 := rows_row ha hj
  have h2 := rows_row hn hj
  exact rows_assign ha (yields_whereV (yields_op1 (yields_forward h2 h1)) (yields_ssub h1) h1) hj

lemma lengthOf_rows {a : Out V} {F : ℕ → ℕ → V} (ha : Rows R N a F) : lengthOf a = R := by
  obtain ⟨⟨s, v⟩, rfl, hw, _⟩ := ha
  simp only [rowsLast] at hw
  subst hw
  rfl

lemma rows_snell (theta : V) {n : Out V} {F : ℕ → ℕ → V} (hn : Rows (R + 2) N n F) :
    Rows (R + 2) N (listSnellArr theta n) fun k => pSnell R theta (F k) := by
  have h0 := rows_row hn (i := 0) (by omega)
  have h1 : Rows (R + 2) N (op1 Arith.arcsin (index [.at 0] n * scalar (Arith.sin (Arith.deg2rad theta)) / n)) fun k i =>
      Arith.arcsin (F k 0 ⊗ Arith.sin (Arith.deg2rad theta) ⊘ F k i) := rows_op1 (rows_vop2 (o := Arith.div) (yields_muls h0) hn)
  simp only [listSnellArr]
  generalize op1 Arith.arcsin (index [.at 0] n * scalar (Arith.sin (Arith.deg2rad theta)) / n) = a at h1 ⊢
  have h2 := rows_fix hn h1 (j := 0) (by omega)
  rw [lastRow, lengthOf_rows h2]
  exact rows_fix hn h2 (j := R + 1) (by omega)

/-- `fresnel` for one wavelength. -/
def pFresnel (n_i n_t th_i th_t : V) : V × V × V × V :=
  let cos_i := Arith.cos th_i
  let cos_t := Arith.cos th_t
  ((n_i ⊗ cos_i ⊖ n_t ⊗ cos_t) ⊘ (n_i ⊗ cos_i ⊞ n_t ⊗ cos_t), (n_t ⊗ cos_i ⊖ n_i ⊗ cos_t) ⊘ (n_t ⊗ cos_i ⊞ n_i ⊗ cos_t),
    Arith.num 2 ⊗ n_i ⊗ cos_i ⊘ (n_i ⊗ cos_i ⊞ n_t ⊗ cos_t), Arith.num 2 ⊗ n_i ⊗ cos_i ⊘ (n_t ⊗ cos_i ⊞ n_i ⊗ cos_t))

lemma yields_fresnel {n_i n_t th_i th_t : Out V} {a b c d : ℕ → V} (h1 : Yields (vec V) N n_i a) (h2 : Yields (vec V) N n_t b)
    (h3 : Yields (vec V) N th_i c) (h4 : Yields (vec V) N th_t d) :
    Yields (vec V) N (fresnelArr n_i n_t th_i th_t).1 (fun k => (pFresnel (a k) (b k) (c k) (d k)).1) ∧
    Yields (vec V) N (fresnelArr n_i n_t th_i th_t).2.1 (fun k => (pFresnel (a k) (b k) (c k) (d k)).2.1) ∧
    Yields (vec V) N (fresnelArr n_i n_t th_i th_t).2.2.1 (fun k => (pFresnel (a k) (b k) (c k) (d k)).2.2.1) ∧
    Yields (vec V) N (fresnelArr n_i n_t th_i th_t).2.2.2 (fun k => (pFresnel (a k) (b k) (c k) (d k)).2.2.2) := by
  have ci := yields_op1 (o := Arith.cos) h3
  have ct := yields_op1 (o := Arith.cos) h4
  exact ⟨yields_div (yields_sub (yields_mul h1 ci) (yields_mul h2 ct)) (yields_add (yields_mul h1 ci) (yields_mul h2 ct)),
    yields_div (yields_sub (yields_mul h2 ci) (yields_mul h1 ct)) (yields_add (yields_mul h2 ci) (yields_mul h1 ct)),
    yields_div (yields_mul (yields_lmul h1) ci) (yields_add (yields_mul h1 ci) (yields_mul h2 ct)),
    yields_div (yields_mul (yields_lmul h1) ci) (yields_add (yields_mul h2 ci) (yields_mul h1 ct))⟩

lemma yields_array2 {a b c d : Out V} {fa fb fc fd : ℕ → V} (ha : Yields (vec V) N a fa) (hb : Yields (vec V) N b fb)
    (hc : Yields (vec V) N c fc) (hd : Yields (vec V) N d fd) :
    Yields (matsLast V 2 2) N (array2 a b c d) fun k => ![![fa k, fb k], ![fc k, fd k]] :=
  yields_stack2_rows (yields_stack2 ha hb) (yields_stack2 hc hd)

lemma yields_matsLast_vec {m n : ℕ} {α β γ : Type} {a : Out α} {b : Out β} {F : ℕ → Fin m → Fin n → α} {g : ℕ → β} {o : α → β → γ}
    (ha : Yields (matsLast α m n) N a F) (hb : Yields (vec β) N b g) : Yields (matsLast γ m n) N (op2 o a b) fun k i j => o (F k i j) (g k) := by
  obtain ⟨⟨s, v⟩, rfl, hw, hr⟩ := ha
  obtain ⟨⟨t, w⟩, rfl, hw', hr'⟩ := hb
  simp only [matsLast, vec] at hw hr hw' hr'
  subst hw hw'
  refine ⟨⟨[m, n, N], fun idx => o (v (project [m, n, N] idx)) (w (project [N] idx))⟩, by simp [op2, bcast, bcastRev], rfl, fun k hk => ?_⟩
  funext i j
  simp [matsLast, project, pick_lt hk, pick_lt i.isLt, pick_lt j.isLt, ← hr k hk, ← hr' k hk]

lemma yields_entryLast {m n : ℕ} {α : Type} {a : Out α} {F : ℕ → Fin m → Fin n → α} (ha : Yields (matsLast α m n) N a F) (i : Fin m) (j : Fin n) :
    Yields (vec α) N (index [.at i, .at j] a) fun k => F k i j := by
  obtain ⟨⟨s, v⟩, rfl, hw, hr⟩ := ha
  simp only [matsLast] at hw hr
  subst hw
  refine ⟨⟨[N], fun idx => v (pullIx [.at i, .at j] [m, n, N] idx)⟩, by simp [index, shapeIx], rfl, fun k hk => ?_⟩
  simp [vec, pullIx, ← hr k hk]

/-- The transfer matrix of one interface and the layer in front of it. -/
def pLayer2 (em ep r t : V) : Fin 2 → Fin 2 → V := fun i j => (![![em, r ⊗ em], ![r ⊗ ep, ep]] : Fin 2 → Fin 2 → V) i j ⊘ t

/-- The transfer matrix of the first interface. -/
def pFirst2 (r t : V) : Fin 2 → Fin 2 → V := fun i j => (![![Arith.num 1, r], ![r, Arith.num 1]] : Fin 2 → Fin 2 → V) i j ⊘ t

/-- One step of the loop for one wavelength. -/
def pStep2 (n th delta : ℕ → V) (m : (Fin 2 → Fin 2 → V) × (Fin 2 → Fin 2 → V)) (i : ℕ) : (Fin 2 → Fin 2 → V) × (Fin 2 → Fin 2 → V) :=
  let f := pFresnel (n i) (n (i + 1)) (th i) (th (i + 1))
  let em := Arith.exp (∼Arith.I ⊗ delta (i - 1))
  let ep := Arith.exp (Arith.I ⊗ delta (i - 1))
  (matMul m.1 (pLayer2 em ep f.1 f.2.2.1), matMul m.2 (pLayer2 em ep f.2.1 f.2.2.2))

lemma yields_step2 {n th d : Out V} {F T D : ℕ → ℕ → V} (hn : Rows (R + 2) N n F) (ht : Rows (R + 2) N th T) (hd : Rows R N d D)
    {m : Out V × Out V} {M : ℕ → (Fin 2 → Fin 2 → V) × (Fin 2 → Fin 2 → V)} (h1 : Yields (matsLast V 2 2) N m.1 fun k => (M k).1)
    (h2 : Yields (matsLast V 2 2) N m.2 fun k => (M k).2) {i : ℕ} (hi : 1 ≤ i ∧ i ≤ R) :
    Yields (matsLast V 2 2) N (step2Arr n th d m i).1 (fun k => (pStep2 (F k) (T k) (D k) (M k) i).1) ∧
    Yields (matsLast V 2 2) N (step2Arr n th d m i).2 (fun k => (pStep2 (F k) (T k) (D k) (M k) i).2) := by
  obtain ⟨f1, f2, f3, f4⟩ := yields_fresnel (rows_row hn (i := i) (by omega)) (rows_row hn (i := i + 1) (by omega))
    (rows_row ht (i := i) (by omega)) (rows_row ht (i := i + 1) (by omega))
  have hdel := rows_row hd (i := i - 1) (by omega)
  have em := yields_op1 (o := Arith.exp) (yields_smul (c := ∼Arith.I) hdel)
  have ep := yields_op1 (o := Arith.exp) (yields_smul (c := Arith.I) hdel)
  exact ⟨yields_einsum_matmul h1 (yields_matsLast_vec (o := Arith.div) (yields_array2 em (yields_mul f1 em) (yields_mul f1 ep) ep) f3),
    yields_einsum_matmul h2 (yields_matsLast_vec (o := Arith.div) (yields_array2 em (yields_mul f2 em) (yields_mul f2 ep) ep) f4)⟩

lemma yields_loop2 {n th d : Out V} {F T D : ℕ → ℕ → V} (hn : Rows (R + 2) N n F) (ht : Rows (R + 2) N th T) (hd : Rows R N d D) :
    ∀ (l : List ℕ), (∀ i ∈ l, 1 ≤ i ∧ i ≤ R) → ∀ {m : Out V × Out V} {M : ℕ → (Fin 2 → Fin 2 → V) × (Fin 2 → Fin 2 → V)},
    Yields (matsLast V 2 2) N m.1 (fun k => (M k).1) → Yields (matsLast V 2 2) N m.2 (fun k => (M k).2) →
    Yields (matsLast V 2 2) N (l.foldl (step2Arr n th d) m).1 (fun k => (l.foldl (pStep2 (F k) (T k) (D k)) (M k)).1) ∧
    Yields (matsLast V 2 2) N (l.foldl (step2Arr n th d) m).2 (fun k => (l.foldl (pStep2 (F k) (T k) (D k)) (M k)).2)
  | [], _, _, _, h1, h2 => ⟨h1, h2⟩
  | i :: l, hl, m, M, h1, h2 => by
    obtain ⟨g1, g2⟩ := yields_step2 hn ht hd h1 h2 (hl i (by simp))
    exact yields_loop2 hn ht hd l (fun j hj => hl j (by simp [hj])) (M := fun k => pStep2 (F k) (T k) (D k) (M k) i) g1 g2

/-- The refractive indices of the media, `n_list`, for one wavelength. -/
def pN (st : PSetup V) (i : ℕ) : V :=
  Arith.sqrt (if i = 0 then st.front 0 0 else if i < st.layers.length + 1 then (st.layers.map fun s => s.2 0 0).getD (i - 1) Arith.nan
    else st.back 0 0)

lemma rows_nList {st : Setup V} (hw : (setupR V).wf N st) : Rows (st.layers.length + 2) N (nListArr st) fun k => pN ((setupR V).read k st) := by
  have hf := rows_atleast (yields_entry (Yields.ok (r := mats V 3 3) hw.1) 0 0)
  have hb := rows_atleast (yields_entry (Yields.ok (r := mats V 3 3) hw.2.2) 0 0)
  cases hl : st.layers with
  | nil =>
    simp only [nListArr, hl]
    have h3 := rows_op1 (o := Arith.sqrt) (rows_concat hf hb)
    refine Yields.congr (r := rowsLast V (1 + 1)) h3 fun k _ => ?_
    funext i
    have : i.val = 0 ∨ i.val = 1 := by have := i.isLt; simp at this; omega
    rcases this with h | h <;> simp [pN, setupR, profR, hl, h]
  | cons l ls =>
    simp only [nListArr, hl]
    have hs := rows_stack (N := N) l.2 (ls.map Prod.snd) (fun y hy => by
      rw [← List.map_cons] at hy
      obtain ⟨s, hs, rfl⟩ := List.mem_map.1 hy
      exact hw.2.1 s (by rw [hl]; exact hs))
    rw [List.map_map] at hs
    have h3 := rows_op1 (o := Arith.sqrt) (rows_concat (rows_concat hf (rows_atleast2 hs)) hb)
    have hlen : 1 + ((ls.map Prod.snd).length + 1) + 1 = (l :: ls).length + 2 := by simp; omega
    rw [hlen] at h3
    refine Yields.congr h3 fun k _ => ?_
    funext i
    obtain ⟨i, hi⟩ := i
    simp only [List.length_cons] at hi
    simp only [pN, setupR, profR, hl]
    congr 1
    simp only [List.length_map, List.length_cons]
    by_cases h0 : i = 0
    · simp [h0]
    · by_cases h1 : i < ls.length + 2
      · have e1 : i < 1 + (ls.length + 1) := by omega
        have e2 : ¬ i < 1 := by omega
        have e3 : i < ls.length + 1 + 1 := by omega
        simp only [h0, e1, e2, e3, if_true, if_false]
        have e4 : i - 1 < (l :: ls).length := by simp; omega
        simp only [← List.map_cons, List.getD_eq_getElem?_getD, List.getElem?_map, List.getElem?_eq_getElem e4]
        simp [sliceR, mats]
      · have e1 : ¬ i < 1 + (ls.length + 1) := by omega
        have e3 : ¬ i < ls.length + 1 + 1 := by omega
        simp only [h0, e1, e3, if_false]

/-- `kz` times the thickness for one wavelength. -/
def pPhase2 (st : PSetup V) (n th : ℕ → V) (l : V) (i : ℕ) : V :=
  Arith.num 2 ⊗ Arith.pi ⊗ n (i + 1) ⊗ Arith.cos (th (i + 1)) ⊘ l ⊗ (st.layers.map Prod.fst).getD i Arith.nan

/-- The result from the two transfer matrices. -/
def pJones2 (m : (Fin 2 → Fin 2 → V) × (Fin 2 → Fin 2 → V)) (pw : V) : PRes V :=
  (![![m.2 1 0 ⊘ m.2 0 0, Arith.num 0], ![Arith.num 0, m.1 1 0 ⊘ m.1 0 0]], ![![Arith.num 1 ⊘ m.2 0 0, Arith.num 0], ![Arith.num 0, Arith.num 1 ⊘ m.1 0 0]],
    pw)

/-- `Solver2x2.calculate` for one wavelength, with the profile. -/
def pCalc2 (theta l : V) (st : PSetup V) : PRes V :=
  let n := pN st
  let R := st.layers.length
  let th := pSnell R theta n
  let f := pFresnel (n 0) (n 1) (th 0) (th 1)
  let m := (List.range' 1 R).foldl (pStep2 n th (pPhase2 st n th l)) (pFirst2 f.1 f.2.2.1, pFirst2 f.2.1 f.2.2.2)
  pJones2 m (Arith.real (n (R + 1) ⊗ Arith.cos (th (R + 1))) ⊘ Arith.real (n 0 ⊗ Arith.cos (th 0)))

/-- `Solver2x2.calculate` for one wavelength. -/
def p2 (s : StructArr V) (theta l : V) : Except PyErr (PRes V) := (pSetup s l).bind fun st => .ok (pCalc2 theta l st)

/-- The part of `Solver2x2.calculate` behind the profile. -/
def calc2Arr (theta : V) (lbda : ND V) (st : Setup V) : Except PyErr (ResArr V) :=
  let d_list : Out V := .ok ⟨[st.layers.length], fun idx => (st.layers.map Prod.fst).getD (idx.headD 0) Arith.nan⟩
  let n_list := nListArr st
  let num_layers := lengthOf n_list
  let th_list := listSnellArr theta n_list
  let kz_list := scalar (Arith.num 2 ⊗ Arith.pi) * n_list * op1 Arith.cos th_list / .ok lbda
  let delta := index [.slice (some 1) (some (-1)) 1] kz_list * index [.all, .new] d_list
  let points := pointsOf n_list
  let ones : Out V := tile 1 points
  let f := fresnelArr (index [.at 0] n_list) (index [.at 1] n_list) (index [.at 0] th_list) (index [.at 1] th_list)
  let ms := array2 ones f.1 f.1 ones / f.2.2.1
  let mp := array2 ones f.2.1 f.2.1 ones / f.2.2.2
  let m := (List.range' 1 (num_layers - 2)).foldl (step2Arr n_list th_list delta) (ms, mp)
  let rtots := index [.at 1, .at 0] m.1 / index [.at 0, .at 0] m.1
  let ttots := lit 1 / index [.at 0, .at 0] m.1
  let rtotp := index [.at 1, .at 0] m.2 / index [.at 0, .at 0] m.2
  let ttotp := lit 1 / index [.at 0, .at 0] m.2
  let zeros : Out V := tile 0 points
  let jr := moveaxis 2 0 (array2 rtotp zeros zeros rtots)
  let jt := moveaxis 2 0 (array2 ttotp zeros zeros ttots)
  let power := op1 Arith.real (index [.at (lastRow n_list)] n_list * op1 Arith.cos (index [.at (lastRow n_list)] th_list)) /
    op1 Arith.real (index [.at 0] n_list * op1 Arith.cos (index [.at 0] th_list))
  mkRes jr jt power

lemma rows_points {a : Out V} {F : ℕ → ℕ → V} (ha : Rows R N a F) : pointsOf a = N := by
  obtain ⟨⟨s, v⟩, rfl, hw, _⟩ := ha
  simp only [rowsLast] at hw
  subst hw
  rfl

lemma yields_calc2 (theta : V) {lbda : ND V} (hl : lbda.shape = [N]) {st : Setup V} (hw : (setupR V).wf N st) :
    Yields (resR V) N (calc2Arr theta lbda st) fun k => pCalc2 theta (lbda.val [k]) ((setupR V).read k st) := by
  have hn := rows_nList hw
  have ht := rows_snell theta hn
  have hlen : ∀ k, ((setupR V).read k st).layers.length = st.layers.length := fun k => by simp [setupR, profR]
  have hdf : ∀ k, ((setupR V).read k st).layers.map Prod.fst = st.layers.map Prod.fst := fun k => by
    simp [setupR, profR, sliceR, Function.comp_def]
  simp only [calc2Arr, rows_points hn, lengthOf_rows hn, lastRow]
  generalize nListArr st = n at hn ht ⊢
  generalize listSnellArr theta n = th at ht ⊢
  have hkz : Rows (st.layers.length + 2) N (scalar (Arith.num 2 ⊗ Arith.pi) * n * op1 Arith.cos th / .ok lbda) _ :=
    rows_op2v (o := Arith.div) (rows_op2 (o := Arith.mul) (rows_sop2 (o := Arith.mul) hn) (rows_op1 (o := Arith.cos) ht)) (Yields.ok (r := vec V) hl)
  have hd : Rows st.layers.length N (index [.slice (some 1) (some (-1)) 1] (scalar (Arith.num 2 ⊗ Arith.pi) * n * op1 Arith.cos th / .ok lbda) *
      index [.all, .new] (.ok ⟨[st.layers.length], fun idx => (st.layers.map Prod.fst).getD (idx.headD 0) Arith.nan⟩))
      fun k => pPhase2 ((setupR V).read k st) (pN ((setupR V).read k st)) (pSnell st.layers.length theta (pN ((setupR V).read k st))) (lbda.val [k]) := by
    refine Yields.congr (rows_op2d (o := Arith.mul) (rows_inner hkz) rfl) fun k hk => ?_
    funext i
    simp only [pPhase2, hdf]
    rfl
  generalize index [.slice (some 1) (some (-1)) 1] (scalar (Arith.num 2 ⊗ Arith.pi) * n * op1 Arith.cos th / .ok lbda) *
      index [.all, .new] (.ok ⟨[st.layers.length], fun idx => (st.layers.map Prod.fst).getD (idx.headD 0) Arith.nan⟩) = d at hd ⊢
  have n0 := rows_row hn (i := 0) (by omega)
  have n1 := rows_row hn (i := 1) (by omega)
  have t0 := rows_row ht (i := 0) (by omega)
  have t1 := rows_row ht (i := 1) (by omega)
  have nl := rows_row hn (i := st.layers.length + 1) (by omega)
  have tl := rows_row ht (i := st.layers.length + 1) (by omega)
  obtain ⟨f1, f2, f3, f4⟩ := yields_fresnel n0 n1 t0 t1
  have hp := yields_div (yields_op1 (o := Arith.real) (yields_mul nl (yields_op1 (o := Arith.cos) tl)))
    (yields_op1 (o := Arith.real) (yields_mul n0 (yields_op1 (o := Arith.cos) t0)))
  generalize fresnelArr (index [.at 0] n) (index [.at 1] n) (index [.at 0] th) (index [.at 1] th) = f at f1 f2 f3 f4 ⊢
  have o := yields_tile (V := V) 1 N
  have z := yields_tile (V := V) 0 N
  have ms := yields_matsLast_vec (o := Arith.div) (yields_array2 o f1 f1 o) f3
  have mp := yields_matsLast_vec (o := Arith.div) (yields_array2 o f2 f2 o) f4
  obtain ⟨g1, g2⟩ := yields_loop2 hn ht hd (List.range' 1 st.layers.length) (fun i hi => by simp [List.mem_range'_1] at hi; omega)
    (m := (array2 (tile 1 N) f.1 f.1 (tile 1 N) / f.2.2.1, array2 (tile 1 N) f.2.1 f.2.1 (tile 1 N) / f.2.2.2))
    (M := fun k => (pFirst2 _ _, pFirst2 _ _)) ms mp
  have e2 : st.layers.length + 2 - 2 = st.layers.length := by omega
  have e3 : st.layers.length + 2 - 1 = st.layers.length + 1 := by omega
  rw [e2, e3]
  generalize (List.range' 1 st.layers.length).foldl (step2Arr n th d)
    (array2 (tile 1 N) f.1 f.1 (tile 1 N) / f.2.2.1, array2 (tile 1 N) f.2.1 f.2.1 (tile 1 N) / f.2.2.2) = m at g1 g2 ⊢
  have s10 := yields_entryLast g1 1 0
  have s00 := yields_entryLast g1 0 0
  have p10 := yields_entryLast g2 1 0
  have p00 := yields_entryLast g2 0 0
  refine Yields.congr (sim_mkRes (yields_moveaxis (yields_array2 (yields_div p10 p00) z z (yields_div s10 s00)))
    (yields_moveaxis (yields_array2 (yields_ldiv (q := 1) p00) z z (yields_ldiv (q := 1) s00))) hp) fun k hk => ?_
  simp only [pCalc2, hlen]
  rfl

/-- `Solver2x2.calculate` on the arrays computes the same as for every wavelength alone. -/
lemma sim_calculate2 (s : StructArr V) (theta : V) {lbda : ND V} (hl : lbda.shape = [N]) :
    Sim (resR V) N (calculate2Arr s theta lbda) fun k => p2 s theta (lbda.val [k]) := by
  have e : calculate2Arr s theta lbda = (s.setup lbda).bind (calc2Arr theta lbda) := by
    simp only [calculate2Arr]
    cases s.setup lbda <;> rfl
  rw [e]
  simp only [p2]
  exact (sim_setup s hl).bind fun st hw => (yields_calc2 theta hl hw).sim

end PyElli.Nd
