import Verif.Lemmas.NdSort
import Verif.Model.ArraySolver

/-! # Lemmas: tensors and permittivity profiles for every wavelength

The programs `p…` do for one wavelength what the array programs do for all; they only serve the proofs. -/

namespace PyElli.Nd

open PyElli

variable {V : Type} [Arith V] {N : ℕ}

/-! ## Strict operations on computations that may fail -/

section
variable {α β γ δ ε ζ : Type}

/-- As `Sim.bind`, knowing which computation has succeeded. -/
lemma Sim.bind' {r : Reading α β} {s : Reading γ δ} {a : Except PyErr α} {F : ℕ → Except PyErr β} {g : α → Except PyErr γ}
    {G : ℕ → β → Except PyErr δ} (h : Sim r N a F) (hg : ∀ x, a = .ok x → r.wf N x → Sim s N (g x) fun k => G k (r.read k x)) :
    Sim s N (a.bind g) fun k => (F k).bind (G k) := by
  cases a with
  | error e =>
    obtain ⟨k, hk, e', he⟩ := h
    exact ⟨k, hk, e', by simp only [he]; rfl⟩
  | ok x =>
    refine (hg x rfl h.1).congr fun k hk => ?_
    rw [h.2 k hk]; rfl

/-- An operation on two arrays that may have failed. -/
lemma Sim.strict2 {r : Reading α β} {s : Reading γ δ} {t : Reading ε ζ} {a : Except PyErr α} {b : Except PyErr γ} {F : ℕ → Except PyErr β}
    {G : ℕ → Except PyErr δ} {o : Except PyErr α → Except PyErr γ → Except PyErr ε} {O : ℕ → β → δ → ζ} (ha : Sim r N a F) (hb : Sim s N b G)
    (h1 : ∀ e y, o (.error e) y = .error e) (h2 : ∀ x e, r.wf N x → o (.ok x) (.error e) = .error e)
    (ho : ∀ x y, r.wf N x → s.wf N y → Yields t N (o (.ok x) (.ok y)) fun k => O k (r.read k x) (s.read k y)) :
    Sim t N (o a b) fun k => (F k).bind fun x => (G k).bind fun y => .ok (O k x y) := by
  cases a with
  | error e =>
    obtain ⟨k, hk, e', he⟩ := ha
    rw [h1]
    exact ⟨k, hk, e', by simp only [he]; rfl⟩
  | ok x =>
    cases b with
    | error e =>
      obtain ⟨k, hk, e', he⟩ := hb
      rw [h2 _ _ ha.1]
      exact ⟨k, hk, e', by simp only [he, ha.2 k hk]; rfl⟩
    | ok y =>
      refine (ho x y ha.1 hb.1).sim.congr fun k hk => ?_
      rw [ha.2 k hk, hb.2 k hk]; rfl

lemma Sim.matmul {m n p : ℕ} {a b : Out V} {F : ℕ → Except PyErr (Fin m → Fin p → V)} {G : ℕ → Except PyErr (Fin p → Fin n → V)}
    (ha : Sim (mats V m p) N a F) (hb : Sim (mats V p n) N b G) :
    Sim (mats V m n) N (matmul a b) fun k => (F k).bind fun x => (G k).bind fun y => .ok (matMul x y) :=
  Sim.strict2 ha hb (fun _ _ => rfl) (fun _ _ _ => rfl) fun _ _ hx hy => yields_matmul (Yields.ok hx) (Yields.ok hy)

end

/-! ## Dispersions -/

/-- A dispersion at one wavelength. -/
def pDisp : Disp V → V → Except PyErr V
  | .const c, _ => .ok c
  | .fn f, l => f l

/-- An entry of the tensor set to a dispersion. -/
def pSet {m n : ℕ} (r : Fin m) (c : Fin n) (d : Disp V) (l : V) (F : Fin m → Fin n → V) : Except PyErr (Fin m → Fin n → V) :=
  (pDisp d l).bind fun v => .ok fun i j => if i = r ∧ j = c then v else F i j

lemma sim_disp (f : V → Except PyErr V) {lbda : ND V} (hl : lbda.shape = [N]) :
    Sim (vec V) N ((Disp.fn f).eval lbda) fun k => f (lbda.val [k]) := by
  simp only [Disp.eval, hl, List.headD_cons]
  cases ht : traverseList (fun k => f (lbda.val [k])) (List.range N) with
  | error e =>
    obtain ⟨k, hk, he⟩ := traverseList_error ht
    exact ⟨k, by simpa using hk, e, he⟩
  | ok l =>
    obtain ⟨_, hi⟩ := traverseList_ok ht
    refine ⟨rfl, fun k hk => ?_⟩
    obtain ⟨y, hy, hf⟩ := hi k (by simpa using hk)
    simp only [List.getElem_range] at hf
    beta_reduce
    rw [hf]
    simp [vec, hy]

lemma sim_setDisp {m n : ℕ} (d : Disp V) {lbda : ND V} (hl : lbda.shape = [N]) {a : Out V} {F : ℕ → Fin m → Fin n → V}
    (ha : Yields (mats V m n) N a F) (r : Fin m) (c : Fin n) :
    Sim (mats V m n) N (assign [.all, .at r, .at c] a (d.eval lbda)) fun k => pSet r c d (lbda.val [k]) (F k) := by
  cases d with
  | const v => exact (yields_assign_scalar ha r c).sim
  | fn f =>
    have h := (ha.sim).strict2 (t := mats V m n) (o := assign [.all, .at r, .at c])
      (O := fun _ x v i j => if i = r ∧ j = c then v else x i j) (sim_disp f hl) (fun e y => by simp [assign]) (fun _ _ _ => rfl)
      fun x y hx hy => yields_assign (Yields.ok hx) (Yields.ok hy) r c
    exact h.congr fun k hk => rfl

/-! ## Mixtures -/

/-- `get_tensor_fraction` for one entry. -/
def pEma : EmaKind → V → V → V → V
  | .vca, f, h, g => h ⊗ (Arith.num 1 ⊖ f) ⊞ g ⊗ f
  | .looyenga, f, h, g =>
    Arith.pow (Arith.pow h (Arith.num (1 / 3)) ⊗ (Arith.num 1 ⊖ f) ⊞ Arith.pow g (Arith.num (1 / 3)) ⊗ f) (Arith.num 3)
  | .maxwellGarnett, f, h, g =>
    if Arith.eq h (Arith.num 0) && Arith.eq g (Arith.num 0) then h
    else h ⊗ (Arith.num 2 ⊗ f ⊗ (g ⊖ h) ⊞ g ⊞ Arith.num 2 ⊗ h) ⊘ (Arith.num 2 ⊗ h ⊞ g ⊖ f ⊗ (g ⊖ h))
  | .bruggeman, f, h, g =>
    if Arith.eq h g then h
    else
      let p := Arith.sqrt h ⊘ Arith.sqrt g
      let b := Arith.num (1 / 4) ⊗ ((Arith.num 3 ⊗ f ⊖ Arith.num 1) ⊗ (Arith.num 1 ⊘ p ⊖ p) ⊞ p)
      let z := b ⊞ Arith.sqrt (Arith.pow b (Arith.num 2) ⊞ Arith.num (1 / 2))
      z ⊗ Arith.sqrt h ⊗ Arith.sqrt g

section
variable {m n : ℕ} {a b : Out V} {F G : ℕ → Fin m → Fin n → V}

lemma yields_vca (ha : Yields (mats V m n) N a F) (hb : Yields (mats V m n) N b G) (f : V) :
    Yields (mats V m n) N (vcaArr a b f) fun k i j => pEma .vca f (F k i j) (G k i j) :=
  yields_mats_op2 (yields_mats_op2s ha) (yields_mats_op2s hb)

lemma yields_looyenga (ha : Yields (mats V m n) N a F) (hb : Yields (mats V m n) N b G) (f : V) :
    Yields (mats V m n) N (looyengaArr a b f) fun k i j => pEma .looyenga f (F k i j) (G k i j) :=
  yields_mats_op2s (yields_mats_op2 (yields_mats_op2s (yields_mats_op2s ha)) (yields_mats_op2s (yields_mats_op2s hb)))

lemma yields_where {α : Type} {c : Out Bool} {a b : Out α} {C : ℕ → Fin m → Fin n → Bool} {F G : ℕ → Fin m → Fin n → α}
    (hc : Yields (mats Bool m n) N c C) (ha : Yields (mats α m n) N a F) (hb : Yields (mats α m n) N b G) :
    Yields (mats α m n) N (whereOp c a b) fun k i j => if C k i j then F k i j else G k i j :=
  yields_mats_op2 hc (yields_mats_op2 ha hb)

lemma yields_maxwellGarnett (ha : Yields (mats V m n) N a F) (hb : Yields (mats V m n) N b G) (f : V) :
    Yields (mats V m n) N (maxwellGarnettArr a b f) fun k i j => pEma .maxwellGarnett f (F k i j) (G k i j) :=
  yields_where (yields_mats_op2 (yields_mats_op2s ha) (yields_mats_op2s hb)) ha
    (yields_mats_op2 (yields_mats_op2 ha (yields_mats_op2 (yields_mats_op2 (yields_mats_sop2 (yields_mats_op2 hb ha)) hb) (yields_mats_sop2 ha)))
      (yields_mats_op2 (yields_mats_op2 (yields_mats_sop2 ha) hb) (yields_mats_sop2 (yields_mats_op2 hb ha))))

lemma yields_bruggeman (ha : Yields (mats V m n) N a F) (hb : Yields (mats V m n) N b G) (f : V) :
    Yields (mats V m n) N (bruggemanArr a b f) fun k i j => pEma .bruggeman f (F k i j) (G k i j) := by
  have he := yields_mats_op2 (o := Arith.eq) ha hb
  have hd := yields_mats_op2 (o := fun a b => !Arith.eq a b) ha hb
  obtain ⟨x, rfl, hx, hrx⟩ := ha
  obtain ⟨y, rfl, hy, hry⟩ := hb
  obtain ⟨e, hee, hes, her⟩ := he
  obtain ⟨d, hde, hds, hdr⟩ := hd
  simp only [bruggemanArr, hee, hde, nonzero]
  set pe := (allIdx e.shape).filter fun idx => e.val idx with hpe
  set pd := (allIdx d.shape).filter fun idx => d.val idx with hpd
  have g1 := yields_gather x pe
  have g2 := yields_gather x pd
  have g3 := yields_gather y pd
  obtain ⟨u, hu, hus, huv⟩ := scatter_eq (x := ⟨x.shape, fun _ => Arith.nan⟩) (ps := pe) (G := x.val) g1
  have hu' : scatter (op1 (fun _ => Arith.nan) (.ok x : Out V)) (.ok pe) (gather (.ok x) (.ok pe)) = .ok u := hu
  rw [hu']
  have hp := yields_div (yields_op1 (o := Arith.sqrt) g2) (yields_op1 (o := Arith.sqrt) g3)
  generalize hpp : op1 Arith.sqrt (gather (.ok x) (.ok pd)) / op1 Arith.sqrt (gather (.ok y) (.ok pd)) = P at hp ⊢
  have hB := yields_lmul (q := 1 / 4) (yields_add (yields_smul (c := Arith.num 3 ⊗ f ⊖ Arith.num 1) (yields_sub (yields_ldiv (q := 1) hp) hp)) hp)
  generalize lit (1 / 4) * (scalar (Arith.num 3 ⊗ f ⊖ Arith.num 1) * (lit 1 / P - P) + P) = B at hB ⊢
  have hz := yields_add hB (yields_op1 (o := Arith.sqrt) (yields_addl (q := 1 / 2) (yields_sq hB)))
  generalize B + op1 Arith.sqrt (sq B + lit (1 / 2)) = Z at hz ⊢
  have hf := yields_mul (yields_mul hz (yields_op1 (o := Arith.sqrt) g2)) (yields_op1 (o := Arith.sqrt) g3)
  obtain ⟨w, hw, hws, hwv⟩ := scatter_eq (x := u) (ps := pd) (G := fun idx =>
    let h := x.val idx
    let g := y.val idx
    let p := Arith.sqrt h ⊘ Arith.sqrt g
    let b := Arith.num (1 / 4) ⊗ ((Arith.num 3 ⊗ f ⊖ Arith.num 1) ⊗ (Arith.num 1 ⊘ p ⊖ p) ⊞ p)
    let z := b ⊞ Arith.sqrt (Arith.pow b (Arith.num 2) ⊞ Arith.num (1 / 2))
    z ⊗ Arith.sqrt h ⊗ Arith.sqrt g) hf
  refine ⟨w, hw, by rw [show (mats V m n).wf N w = (w.shape = [N, m, n]) from rfl, hws, hus]; exact hx, fun k hk => ?_⟩
  funext i j
  simp only [mats] at hes hds her hdr hrx hry ⊢
  have h1 := congrFun (congrFun (her k hk) i) j
  have h2 := congrFun (congrFun (hdr k hk) i) j
  have h3 := congrFun (congrFun (hrx k hk) i) j
  have h4 := congrFun (congrFun (hry k hk) i) j
  have m1 : ([k, (i : ℕ), (j : ℕ)] ∈ pd) ↔ Arith.eq (F k i j) (G k i j) = false := by
    rw [hpd, List.mem_filter, hds, mem_allIdx3, h2]
    simp [hk]
  have m2 : ([k, (i : ℕ), (j : ℕ)] ∈ pe) ↔ Arith.eq (F k i j) (G k i j) = true := by
    rw [hpe, List.mem_filter, hes, mem_allIdx3, h1]
    simp [hk]
  rw [hwv, huv]
  simp only [m1, m2, h3, h4, pEma]
  cases Arith.eq (F k i j) (G k i j) <;> simp

lemma yields_ema (kind : EmaKind) (ha : Yields (mats V m n) N a F) (hb : Yields (mats V m n) N b G) (f : V) :
    Yields (mats V m n) N (emaArr kind a b f) fun k i j => pEma kind f (F k i j) (G k i j) := by
  cases kind
  · exact yields_vca ha hb f
  · exact yields_looyenga ha hb f
  · exact yields_maxwellGarnett ha hb f
  · exact yields_bruggeman ha hb f

end

lemma ema_error1 (kind : EmaKind) (e : PyErr) (y : Out V) (f : V) : emaArr kind (.error e) y f = .error e := by
  cases kind <;> rfl

lemma ema_error2 {m n : ℕ} (kind : EmaKind) (e : PyErr) (x : ND V) (hx : (mats V m n).wf N x) (f : V) :
    emaArr kind (.ok x) (.error e) f = .error e := by
  have h := Yields.ok hx
  cases kind with
  | vca =>
    obtain ⟨y, hy, _⟩ := yields_mats_op2s (o := Arith.mul) (c := Arith.num 1 ⊖ f) h
    exact (congrArg (fun z => op2 Arith.add z (op2 Arith.mul (.error e) (scalar f))) hy).trans rfl
  | looyenga =>
    obtain ⟨y, hy, _⟩ := yields_mats_op2s (o := Arith.mul) (c := Arith.num 1 ⊖ f) (yields_mats_op2s (o := Arith.pow) (c := Arith.num (1 / 3)) h)
    exact (congrArg (fun z => op2 Arith.pow (op2 Arith.add z (op2 Arith.mul (op2 Arith.pow (.error e) (lit (1 / 3))) (scalar f))) (lit 3)) hy).trans rfl
  | maxwellGarnett =>
    obtain ⟨y, hy, _⟩ := yields_mats_op2s (o := Arith.eq) (c := Arith.num 0) h
    simp only [emaArr, maxwellGarnettArr, whereOp, lit]
    rw [hy]
    rfl
  | bruggeman => rfl

/-! ## Materials -/

/-- The rotation of a tensor. -/
def pRot (rotation : Option (Fin 3 → Fin 3 → V)) (E : Fin 3 → Fin 3 → V) : Fin 3 → Fin 3 → V :=
  match rotation with
  | none => E
  | some r => matMul (matMul r E) fun i j => r j i

/-- `get_tensor` for one wavelength. -/
def pTensor : Mat V → V → Except PyErr (Fin 3 → Fin 3 → V)
  | .single _ x y z rotation, l =>
    (pSet 0 0 x l fun _ _ => Arith.num 0).bind fun E => (pSet 1 1 y l E).bind fun E => (pSet 2 2 z l E).bind fun E => .ok (pRot rotation E)
  | .mixture k h g f, l => (pTensor h l).bind fun H => (pTensor g l).bind fun G => .ok fun i j => pEma k f (H i j) (G i j)

lemma sim_tensor {lbda : ND V} (hl : lbda.shape = [N]) :
    ∀ m : Mat V, Sim (mats V 3 3) N (m.getTensor lbda) fun k => pTensor m (lbda.val [k])
  | .single cls x y z rotation => by
    have hz : Yields (mats V 3 3) N (.ok ⟨[N, 3, 3], fun _ => Arith.num 0⟩) fun _ _ _ => Arith.num 0 := ⟨_, rfl, rfl, fun _ _ => rfl⟩
    have h1 := sim_setDisp x hl hz 0 0
    have key : (Mat.single cls x y z rotation).getTensor lbda =
        (assign [.all, .at 0, .at 0] (.ok ⟨[N, 3, 3], fun _ => Arith.num 0⟩) (x.eval lbda)).bind fun e =>
          (assign [.all, .at 1, .at 1] (.ok e) (y.eval lbda)).bind fun e =>
            (assign [.all, .at 2, .at 2] (.ok e) (z.eval lbda)).bind fun e =>
              match rotation with
              | none => .ok e
              | some r => matmul (matmul (ofMat r) (.ok e)) (transpose2 (ofMat r)) := by
      simp only [Mat.getTensor, hl]
      cases h : assign [.all, .at 0, .at 0] (.ok ⟨[N, 3, 3], fun _ => Arith.num 0⟩) (x.eval lbda) with
      | error e => cases rotation <;> simp [assign, Except.bind, matmul, ofMat]
      | ok e =>
        simp only [Except.bind]
        cases h : assign [.all, .at 1, .at 1] (.ok e) (y.eval lbda) with
        | error e => cases rotation <;> simp [assign, matmul, ofMat]
        | ok e =>
          simp only
          cases h : assign [.all, .at 2, .at 2] (.ok e) (z.eval lbda) with
          | error e => cases rotation <;> simp [matmul, ofMat]
          | ok e => cases rotation <;> simp
    rw [key]
    refine h1.bind fun e he => ?_
    refine (sim_setDisp y hl (Yields.ok he) 1 1).bind fun e he => ?_
    refine (sim_setDisp z hl (Yields.ok he) 2 2).bind fun e he => ?_
    cases rotation with
    | none => exact (Yields.ok he).sim
    | some r => exact (yields_matmul_rightT (yields_matmul_left (Yields.ok he))).sim
  | .mixture k h g f => by
    simp only [Mat.getTensor, pTensor]
    exact (sim_tensor hl h).strict2 (t := mats V 3 3) (o := fun a b => emaArr k a b f) (O := fun _ x y i j => pEma k f (x i j) (y i j)) (sim_tensor hl g)
      (fun e y => ema_error1 k e y f) (fun x e hx => ema_error2 k e x hx f) fun _ _ hx hy => yields_ema k (Yields.ok hx) (Yields.ok hy) f

/-! ## Profiles -/

/-- A slice at one wavelength. -/
abbrev PSlice (V : Type) := V × (Fin 3 → Fin 3 → V)

/-- Slices with an array of tensors. -/
def sliceR (V : Type) : Reading (V × ND V) (PSlice V) :=
  ⟨fun N s => s.2.shape = [N, 3, 3], fun k s => (s.1, (mats V 3 3).read k s.2)⟩

/-- Profiles. -/
def profR (V : Type) : Reading (ProfileArr V) (List (PSlice V)) :=
  ⟨fun N p => ∀ s ∈ p, s.2.shape = [N, 3, 3], fun k p => p.map ((sliceR V).read k)⟩

lemma sim_slice {a : Out V} {F : ℕ → Except PyErr (Fin 3 → Fin 3 → V)} (ha : Sim (mats V 3 3) N a F) (d : V) :
    Sim (sliceR V) N (sliceOf d a) fun k => (F k).bind fun E => .ok (d, E) := by
  have h : sliceOf d a = a.bind fun x => .ok (d, x) := by cases a <;> rfl
  rw [h]
  exact ha.bind fun x hx => (⟨hx, fun k _ => rfl⟩ : Sim (sliceR V) N (.ok (d, x)) _)

lemma sim_traverse {β γ : Type} {f : β → Except PyErr (V × ND V)} {F : ℕ → β → Except PyErr (PSlice V)} :
    ∀ {l : List β}, (∀ s ∈ l, Sim (sliceR V) N (f s) fun k => F k s) → Sim (profR V) N (traverseList f l) fun k => traverseList (F k) l
  | [], _ => ⟨by simp [profR], fun _ _ => rfl⟩
  | s :: l, h => by
    have h1 := h s (by simp)
    have h2 := sim_traverse (β := β) (γ := γ) (f := f) (F := F) (l := l) fun t ht => h t (by simp [ht])
    have e1 : traverseList f (s :: l) = (f s).bind fun y => (traverseList f l).bind fun ys => .ok (y :: ys) := by
      simp only [traverseList]
      cases f s <;> simp only [Except.bind]
      cases traverseList f l <;> rfl
    have e2 : ∀ k, traverseList (F k) (s :: l) = (F k s).bind fun y => (traverseList (F k) l).bind fun ys => .ok (y :: ys) := fun k => by
      simp only [traverseList]
      cases F k s <;> simp only [Except.bind]
      cases traverseList (F k) l <;> rfl
    rw [e1]
    simp only [e2]
    refine h1.bind fun y hy => h2.bind fun ys hys => ?_
    refine ⟨?_, fun k _ => rfl⟩
    intro t ht
    rcases List.mem_cons.1 ht with rfl | ht
    · exact hy
    · exact hys t ht

/-- One slice of a twisted layer. -/
def pTwisted (m : Mat V) (l : V) (s : V × (Fin 3 → Fin 3 → V)) : Except PyErr (PSlice V) :=
  (pTensor m l).bind fun E => .ok (s.1, pRot (some s.2) E)

/-- One slice of a layer with varying composition. -/
def pVarying (k : EmaKind) (h g : Mat V) (l : V) (s : V × V) : Except PyErr (PSlice V) :=
  (pTensor h l).bind fun H => (pTensor g l).bind fun G => .ok (s.1, fun i j => pEma k s.2 (H i j) (G i j))

mutual
/-- `get_permittivity_profile` of a layer for one wavelength. -/
def pLay : Lay V → V → Except PyErr (List (PSlice V))
  | .layer m d, l => (pTensor m l).bind fun E => .ok [(d, E)]
  | .twisted m slices, l => traverseList (pTwisted m l) slices
  | .varying k h g slices, l => traverseList (pVarying k h g l) slices
  | .repeated ls n b a, l => (pLays ls l).bind fun p => .ok (repeatedSlices p n b a)

/-- The same for a list of layers. -/
def pLays : List (Lay V) → V → Except PyErr (List (PSlice V))
  | [], _ => .ok []
  | y :: ls, l => (pLay y l).bind fun p => (pLays ls l).bind fun q => .ok (p ++ q)
end

lemma Sim.map {α β γ δ : Type} {r : Reading α β} {s : Reading γ δ} {a : Except PyErr α} {F : ℕ → Except PyErr β} {g : α → γ} {G : ℕ → β → δ}
    (h : Sim r N a F) (hw : ∀ x, r.wf N x → s.wf N (g x)) (hr : ∀ x k, r.wf N x → k < N → s.read k (g x) = G k (r.read k x)) :
    Sim s N (a.bind fun x => .ok (g x)) fun k => (F k).bind fun x => .ok (G k x) :=
  h.bind fun x hx => ⟨hw x hx, fun k hk => by rw [hr x k hx hk]⟩

lemma sim_twisted (m : Mat V) {lbda : ND V} (hl : lbda.shape = [N]) (s : V × (Fin 3 → Fin 3 → V)) :
    Sim (sliceR V) N (twistedArr m lbda s) fun k => pTwisted m (lbda.val [k]) s := by
  have h := sim_tensor hl m
  have e : matmul (matmul (ofMat s.2) (m.getTensor lbda)) (transpose2 (ofMat s.2)) =
      (m.getTensor lbda).bind fun x => matmul (matmul (ofMat s.2) (.ok x)) (transpose2 (ofMat s.2)) := by
    cases m.getTensor lbda <;> rfl
  have h2 : Sim (mats V 3 3) N ((m.getTensor lbda).bind fun x => matmul (matmul (ofMat s.2) (.ok x)) (transpose2 (ofMat s.2))) fun k =>
      (pTensor m (lbda.val [k])).bind fun E => .ok (pRot (some s.2) E) :=
    h.bind fun x hx => (yields_matmul_rightT (yields_matmul_left (Yields.ok hx))).sim
  rw [twistedArr, e]
  refine (sim_slice h2 s.1).congr fun k _ => ?_
  simp only [pTwisted]
  cases pTensor m (lbda.val [k]) <;> rfl

lemma sim_varying (k : EmaKind) (h g : Mat V) {lbda : ND V} (hl : lbda.shape = [N]) (s : V × V) :
    Sim (sliceR V) N (varyingArr k h g lbda s) fun i => pVarying k h g (lbda.val [i]) s := by
  have h2 := (sim_tensor hl h).strict2 (t := mats V 3 3) (o := fun a b => emaArr k a b s.2) (O := fun _ x y i j => pEma k s.2 (x i j) (y i j))
    (sim_tensor hl g) (fun e y => ema_error1 k e y s.2) (fun x e hx => ema_error2 k e x hx s.2)
    fun _ _ hx hy => yields_ema k (Yields.ok hx) (Yields.ok hy) s.2
  refine (sim_slice h2 s.1).congr fun i _ => ?_
  simp only [pVarying]
  cases pTensor h (lbda.val [i]) with
  | error e => rfl
  | ok H => cases pTensor g (lbda.val [i]) <;> rfl

lemma repeatedSlices_map {α β : Type} (f : α → β) (p : List α) (n b a : ℕ) :
    (repeatedSlices p n b a).map f = repeatedSlices (p.map f) n b a := by
  simp only [repeatedSlices, List.map_append, List.map_flatten, List.map_replicate, List.map_take, List.length_map]
  congr 2
  split <;> simp [List.map_drop]

lemma mem_repeatedSlices {α : Type} {p : List α} {n b a : ℕ} {x : α} (h : x ∈ repeatedSlices p n b a) : x ∈ p := by
  simp only [repeatedSlices, List.mem_append, List.mem_flatten] at h
  rcases h with (h | ⟨l, hl, hx⟩) | h
  · split at h
    · exact List.mem_of_mem_drop h
    · simp at h
  · rw [List.eq_of_mem_replicate hl] at hx
    exact hx
  · exact List.mem_of_mem_take h

mutual
lemma sim_lay {lbda : ND V} (hl : lbda.shape = [N]) : ∀ y : Lay V, Sim (profR V) N (y.profile lbda) fun k => pLay y (lbda.val [k])
  | .layer m d => by
    have e : (Lay.layer m d).profile lbda = (sliceOf d (m.getTensor lbda)).bind fun s => .ok [s] := by
      simp only [Lay.profile]
      cases sliceOf d (m.getTensor lbda) <;> rfl
    rw [e]
    refine (Sim.map (s := profR V) (g := fun s => [s]) (G := fun _ s => [s]) (sim_slice (sim_tensor hl m) d) ?_ ?_).congr fun k _ => ?_
    · intro x hx t ht
      rw [List.mem_singleton.1 ht]
      exact hx
    · intro x k _ _
      rfl
    · simp only [pLay]
      cases pTensor m (lbda.val [k]) <;> rfl
  | .twisted m slices => by
    simp only [Lay.profile, pLay]
    exact sim_traverse (γ := V) fun s _ => sim_twisted m hl s
  | .varying k h g slices => by
    simp only [Lay.profile, pLay]
    exact sim_traverse (γ := V) fun s _ => sim_varying k h g hl s
  | .repeated ls n b a => by
    have e : (Lay.repeated ls n b a).profile lbda = (layProfile ls lbda).bind fun p => .ok (repeatedSlices p n b a) := by
      simp only [Lay.profile]
      cases layProfile ls lbda <;> rfl
    rw [e]
    simp only [pLay]
    exact Sim.map (s := profR V) (sim_lays hl ls) (fun p hp s hs => hp s (mem_repeatedSlices hs)) fun p k _ _ => repeatedSlices_map _ p n b a

lemma sim_lays {lbda : ND V} (hl : lbda.shape = [N]) : ∀ ls : List (Lay V), Sim (profR V) N (layProfile ls lbda) fun k => pLays ls (lbda.val [k])
  | [] => by
    simp only [layProfile, pLays]
    exact ⟨by simp [profR], fun _ _ => rfl⟩
  | y :: ls => by
    have e : layProfile (y :: ls) lbda = (y.profile lbda).bind fun p => (layProfile ls lbda).bind fun q => .ok (p ++ q) := by
      simp only [layProfile]
      cases y.profile lbda <;> simp only [Except.bind]
      cases layProfile ls lbda <;> rfl
    rw [e]
    simp only [pLays]
    refine (sim_lay hl y).bind fun p hp => (sim_lays hl ls).bind fun q hq => ?_
    refine ⟨fun s hs => ?_, fun k _ => by simp [profR]⟩
    rcases List.mem_append.1 hs with h | h
    · exact hp s h
    · exact hq s h
end

/-- The profile of a structure at one wavelength. -/
structure PSetup (V : Type) where
  front : Fin 3 → Fin 3 → V
  layers : List (PSlice V)
  back : Fin 3 → Fin 3 → V

/-- Profiles of structures. -/
def setupR (V : Type) : Reading (Setup V) (PSetup V) :=
  ⟨fun N s => s.front.shape = [N, 3, 3] ∧ (profR V).wf N s.layers ∧ s.back.shape = [N, 3, 3],
    fun k s => ⟨(mats V 3 3).read k s.front, (profR V).read k s.layers, (mats V 3 3).read k s.back⟩⟩

/-- `Structure.get_permittivity_profile` for one wavelength. -/
def pSetup (s : StructArr V) (l : V) : Except PyErr (PSetup V) :=
  (pTensor s.front l).bind fun f => (pLays s.layers l).bind fun p => (pTensor s.back l).bind fun b => .ok ⟨f, p, b⟩

lemma sim_setup (s : StructArr V) {lbda : ND V} (hl : lbda.shape = [N]) : Sim (setupR V) N (s.setup lbda) fun k => pSetup s (lbda.val [k]) := by
  have e : s.setup lbda = (s.front.getTensor lbda).bind fun f => (layProfile s.layers lbda).bind fun p =>
      (s.back.getTensor lbda).bind fun b => .ok ⟨f, p, b⟩ := by
    simp only [StructArr.setup]
    cases s.front.getTensor lbda <;> simp only [Except.bind]
    cases layProfile s.layers lbda <;> simp only
    cases s.back.getTensor lbda <;> rfl
  rw [e]
  simp only [pSetup]
  exact (sim_tensor hl s.front).bind fun f hf => (sim_lays hl s.layers).bind fun p hp => (sim_tensor hl s.back).bind fun b hb =>
    ⟨⟨hf, hp, hb⟩, fun k _ => rfl⟩

lemma setup_ok {s : StructArr V} {lbda : ND V} {st : Setup V} (h : s.setup lbda = .ok st) :
    s.front.getTensor lbda = .ok st.front ∧ s.back.getTensor lbda = .ok st.back := by
  simp only [StructArr.setup] at h
  cases hf : s.front.getTensor lbda with
  | error e => simp [hf] at h
  | ok f =>
    cases hp : layProfile s.layers lbda with
    | error e => simp [hf, hp] at h
    | ok p =>
      cases hb : s.back.getTensor lbda with
      | error e => simp [hf, hp, hb] at h
      | ok b =>
        simp only [hf, hp, hb, Except.ok.injEq] at h
        subst h
        exact ⟨rfl, rfl⟩

end PyElli.Nd
