import Verif.Model.NdArray
import Mathlib.Data.List.FinRange
import Mathlib.Data.Fintype.Basic
import Mathlib.Tactic.FinCases

/-! # Lemmas: arrays with a wavelength axis

An array with a wavelength axis is read at one wavelength. `Sim` relates a computation on arrays to a computation for each wavelength: the
arrays are computed exactly if all the single computations are, and then reading them gives the results of those. -/

namespace PyElli.Nd

open PyElli

variable {V : Type} {α β γ δ : Type}

/-- How arrays with `N` wavelengths look (`wf`) and what they contain for wavelength number `k` (`read`). -/
structure Reading (α β : Type) where
  wf : ℕ → α → Prop
  read : ℕ → α → β

/-- The computation `a` for `N` wavelengths and the computations `F k` for each one. -/
def Sim (r : Reading α β) (N : ℕ) (a : Except PyErr α) (F : ℕ → Except PyErr β) : Prop :=
  match a with
  | .ok x => r.wf N x ∧ ∀ k < N, F k = .ok (r.read k x)
  | .error _ => ∃ k < N, ∃ e, F k = .error e

/-- `Sim` for computations that do not fail. -/
def Yields (r : Reading α β) (N : ℕ) (a : Except PyErr α) (f : ℕ → β) : Prop :=
  ∃ x, a = .ok x ∧ r.wf N x ∧ ∀ k < N, r.read k x = f k

lemma Yields.sim {r : Reading α β} {N : ℕ} {a : Except PyErr α} {f : ℕ → β} (h : Yields r N a f) :
    Sim r N a fun k => .ok (f k) := by
  obtain ⟨x, rfl, hw, hr⟩ := h
  exact ⟨hw, fun k hk => by rw [hr k hk]⟩

lemma Sim.congr {r : Reading α β} {N : ℕ} {a : Except PyErr α} {F G : ℕ → Except PyErr β} (h : Sim r N a F) (hFG : ∀ k < N, F k = G k) :
    Sim r N a G := by
  cases a with
  | error e => obtain ⟨k, hk, e', he⟩ := h; exact ⟨k, hk, e', by rw [← hFG k hk, he]⟩
  | ok x => exact ⟨h.1, fun k hk => by rw [← hFG k hk, h.2 k hk]⟩

lemma Yields.congr {r : Reading α β} {N : ℕ} {a : Except PyErr α} {f g : ℕ → β} (h : Yields r N a f) (hfg : ∀ k < N, f k = g k) :
    Yields r N a g := by
  obtain ⟨x, rfl, hw, hr⟩ := h
  exact ⟨x, rfl, hw, fun k hk => by rw [hr k hk, hfg k hk]⟩

lemma Sim.bind {r : Reading α β} {s : Reading γ δ} {N : ℕ} {a : Except PyErr α} {F : ℕ → Except PyErr β} {g : α → Except PyErr γ}
    {G : ℕ → β → Except PyErr δ} (h : Sim r N a F) (hg : ∀ x, r.wf N x → Sim s N (g x) fun k => G k (r.read k x)) :
    Sim s N (a.bind g) fun k => (F k).bind (G k) := by
  cases a with
  | error e =>
    obtain ⟨k, hk, e', he⟩ := h
    exact ⟨k, hk, e', by simp only [he]; rfl⟩
  | ok x =>
    refine (hg x h.1).congr fun k hk => ?_
    rw [h.2 k hk]; rfl

/-- A function that hands exceptions on. -/
lemma bind_of_strict {g : Except PyErr α → Except PyErr γ} (hg : ∀ e, g (.error e) = .error e) (a : Except PyErr α) :
    g a = a.bind fun x => g (.ok x) := by
  cases a with
  | error e => rw [hg]; rfl
  | ok x => rfl

/-! ## Readings -/

/-- Vectors: shape `(N,)`. -/
def vec (α : Type) : Reading (ND α) α := ⟨fun N x => x.shape = [N], fun k x => x.val [k]⟩

/-- Shape `(N, n)`. -/
def rows (α : Type) (n : ℕ) : Reading (ND α) (Fin n → α) := ⟨fun N x => x.shape = [N, n], fun k x j => x.val [k, j.val]⟩

/-- Shape `(N, m, n)`. -/
def mats (α : Type) (m n : ℕ) : Reading (ND α) (Fin m → Fin n → α) :=
  ⟨fun N x => x.shape = [N, m, n], fun k x i j => x.val [k, i.val, j.val]⟩

lemma pick_lt {N k : ℕ} (hk : k < N) : (if N = 1 then 0 else k) = k := by
  split
  · omega
  · rfl

lemma Yields.ok {r : Reading α β} {N : ℕ} {x : α} (h : r.wf N x) : Yields r N (.ok x) fun k => r.read k x := ⟨x, rfl, h, fun _ _ => rfl⟩

/-! ## Operations on vectors -/

lemma yields_op1 {N : ℕ} {a : Out α} {f : ℕ → α} {o : α → β} (h : Yields (vec α) N a f) : Yields (vec β) N (op1 o a) fun k => o (f k) := by
  obtain ⟨x, rfl, hw, hr⟩ := h
  exact ⟨_, rfl, hw, fun k hk => congrArg o (hr k hk)⟩

lemma yields_op2 {N : ℕ} {a : Out α} {b : Out β} {f : ℕ → α} {g : ℕ → β} {o : α → β → γ} (ha : Yields (vec α) N a f)
    (hb : Yields (vec β) N b g) : Yields (vec γ) N (op2 o a b) fun k => o (f k) (g k) := by
  obtain ⟨⟨s, v⟩, rfl, hw, hr⟩ := ha
  obtain ⟨⟨t, w⟩, rfl, hw', hr'⟩ := hb
  simp only [vec] at hw hw' hr hr'
  subst hw hw'
  refine ⟨⟨[N], fun idx => o (v (project [N] idx)) (w (project [N] idx))⟩, by simp [op2, bcast, bcastRev], rfl, fun k hk => ?_⟩
  simp [vec, project, pick_lt hk, hr k hk, hr' k hk]

lemma yields_op2_sv {N : ℕ} {c : α} {b : Out β} {g : ℕ → β} {o : α → β → γ} (hb : Yields (vec β) N b g) :
    Yields (vec γ) N (op2 o (scalar c) b) fun k => o c (g k) := by
  obtain ⟨⟨t, w⟩, rfl, hw', hr'⟩ := hb
  simp only [vec] at hw' hr'
  subst hw'
  refine ⟨⟨[N], fun idx => o c (w (project [N] idx))⟩, by simp [op2, scalar, bcast, bcastRev], rfl, fun k hk => ?_⟩
  simp [vec, project, pick_lt hk, hr' k hk]

lemma yields_op2_vs {N : ℕ} {a : Out α} {c : β} {f : ℕ → α} {o : α → β → γ} (ha : Yields (vec α) N a f) :
    Yields (vec γ) N (op2 o a (scalar c)) fun k => o (f k) c := by
  obtain ⟨⟨s, v⟩, rfl, hw, hr⟩ := ha
  simp only [vec] at hw hr
  subst hw
  refine ⟨⟨[N], fun idx => o (v (project [N] idx)) c⟩, by simp [op2, scalar, bcast, bcastRev], rfl, fun k hk => ?_⟩
  simp [vec, project, pick_lt hk, hr k hk]

section arith

variable [Arith V]

lemma yields_tile (q : ℚ) (N : ℕ) : Yields (vec V) N (tile q N) fun _ => Arith.num q := ⟨_, rfl, rfl, fun _ _ => rfl⟩

lemma yields_neg {N : ℕ} {a : Out V} {f : ℕ → V} (h : Yields (vec V) N a f) : Yields (vec V) N (-a) fun k => ∼f k := yields_op1 h

variable {N : ℕ} {a b : Out V} {f g : ℕ → V} {c : V}

lemma yields_add (ha : Yields (vec V) N a f) (hb : Yields (vec V) N b g) : Yields (vec V) N (a + b) fun k => f k ⊞ g k := yields_op2 ha hb
lemma yields_sub (ha : Yields (vec V) N a f) (hb : Yields (vec V) N b g) : Yields (vec V) N (a - b) fun k => f k ⊖ g k := yields_op2 ha hb
lemma yields_mul (ha : Yields (vec V) N a f) (hb : Yields (vec V) N b g) : Yields (vec V) N (a * b) fun k => f k ⊗ g k := yields_op2 ha hb
lemma yields_div (ha : Yields (vec V) N a f) (hb : Yields (vec V) N b g) : Yields (vec V) N (a / b) fun k => f k ⊘ g k := yields_op2 ha hb
lemma yields_sadd (hb : Yields (vec V) N b g) : Yields (vec V) N (scalar c + b) fun k => c ⊞ g k := yields_op2_sv hb
lemma yields_ssub (hb : Yields (vec V) N b g) : Yields (vec V) N (scalar c - b) fun k => c ⊖ g k := yields_op2_sv hb
lemma yields_smul (hb : Yields (vec V) N b g) : Yields (vec V) N (scalar c * b) fun k => c ⊗ g k := yields_op2_sv hb
lemma yields_sdiv (hb : Yields (vec V) N b g) : Yields (vec V) N (scalar c / b) fun k => c ⊘ g k := yields_op2_sv hb
lemma yields_adds (ha : Yields (vec V) N a f) : Yields (vec V) N (a + scalar c) fun k => f k ⊞ c := yields_op2_vs ha
lemma yields_subs (ha : Yields (vec V) N a f) : Yields (vec V) N (a - scalar c) fun k => f k ⊖ c := yields_op2_vs ha
lemma yields_muls (ha : Yields (vec V) N a f) : Yields (vec V) N (a * scalar c) fun k => f k ⊗ c := yields_op2_vs ha
lemma yields_divs (ha : Yields (vec V) N a f) : Yields (vec V) N (a / scalar c) fun k => f k ⊘ c := yields_op2_vs ha
lemma yields_sq (ha : Yields (vec V) N a f) : Yields (vec V) N (sq a) fun k => Arith.pow (f k) (Arith.num 2) := yields_op2_vs ha
lemma yields_ladd {q : ℚ} (hb : Yields (vec V) N b g) : Yields (vec V) N (lit q + b) fun k => Arith.num q ⊞ g k := yields_op2_sv hb
lemma yields_lsub {q : ℚ} (hb : Yields (vec V) N b g) : Yields (vec V) N (lit q - b) fun k => Arith.num q ⊖ g k := yields_op2_sv hb
lemma yields_lmul {q : ℚ} (hb : Yields (vec V) N b g) : Yields (vec V) N (lit q * b) fun k => Arith.num q ⊗ g k := yields_op2_sv hb
lemma yields_ldiv {q : ℚ} (hb : Yields (vec V) N b g) : Yields (vec V) N (lit q / b) fun k => Arith.num q ⊘ g k := yields_op2_sv hb
lemma yields_addl {q : ℚ} (ha : Yields (vec V) N a f) : Yields (vec V) N (a + lit q) fun k => f k ⊞ Arith.num q := yields_op2_vs ha

lemma lengthOf_yields (ha : Yields (vec V) N a f) : ∃ x, a = .ok x ∧ x.shape = [N] := by
  obtain ⟨x, rfl, hw, _⟩ := ha
  exact ⟨x, rfl, hw⟩

end arith

/-- Vectors assembled from vectors by arithmetic. -/
macro "yields_tac" : tactic => `(tactic| repeat' first
  | assumption
  | exact yields_tile _ _
  | apply yields_sq
  | apply yields_ladd | apply yields_lsub | apply yields_lmul | apply yields_ldiv | apply yields_addl
  | apply yields_sadd | apply yields_ssub | apply yields_smul | apply yields_sdiv
  | apply yields_adds | apply yields_subs | apply yields_muls | apply yields_divs
  | apply yields_add | apply yields_sub | apply yields_mul | apply yields_div
  | apply yields_neg
  | apply yields_op1)

/-! ## Matrices from vectors and vectors from matrices -/

lemma yields_entry {N m n : ℕ} {a : Out α} {F : ℕ → Fin m → Fin n → α} (ha : Yields (mats α m n) N a F) (i : Fin m) (j : Fin n) :
    Yields (vec α) N (index [.all, .at i, .at j] a) fun k => F k i j := by
  obtain ⟨⟨s, v⟩, rfl, hw, hr⟩ := ha
  simp only [mats] at hw hr
  subst hw
  refine ⟨⟨[N], fun idx => v (pullIx [.all, .at i, .at j] [N, m, n] idx)⟩, by simp [index, shapeIx], rfl, fun k hk => ?_⟩
  simp [vec, pullIx, ← hr k hk]

/-- Shape `(n, N)`. -/
def rowsLast (α : Type) (n : ℕ) : Reading (ND α) (Fin n → α) := ⟨fun N x => x.shape = [n, N], fun k x j => x.val [j.val, k]⟩

/-- Shape `(m, n, N)`. -/
def matsLast (α : Type) (m n : ℕ) : Reading (ND α) (Fin m → Fin n → α) :=
  ⟨fun N x => x.shape = [m, n, N], fun k x i j => x.val [i.val, j.val, k]⟩

lemma yields_stack4 {N : ℕ} {a b c d : Out α} {fa fb fc fd : ℕ → α} (ha : Yields (vec α) N a fa) (hb : Yields (vec α) N b fb)
    (hc : Yields (vec α) N c fc) (hd : Yields (vec α) N d fd) :
    Yields (rowsLast α 4) N (stack a [b, c, d]) fun k => ![fa k, fb k, fc k, fd k] := by
  obtain ⟨⟨sa, a⟩, rfl, ha, ha'⟩ := ha
  obtain ⟨⟨sb, b⟩, rfl, hb, hb'⟩ := hb
  obtain ⟨⟨sc, c⟩, rfl, hc, hc'⟩ := hc
  obtain ⟨⟨sd, d⟩, rfl, hd, hd'⟩ := hd
  simp only [vec] at ha hb hc hd ha' hb' hc' hd'
  subst ha hb hc hd
  refine ⟨_, if_pos (by simp), rfl, fun k hk => ?_⟩
  funext j
  fin_cases j <;> simp [rowsLast, ha' k hk, hb' k hk, hc' k hk, hd' k hk]

lemma yields_stack4_rows {N n : ℕ} {a b c d : Out α} {fa fb fc fd : ℕ → Fin n → α} (ha : Yields (rowsLast α n) N a fa)
    (hb : Yields (rowsLast α n) N b fb) (hc : Yields (rowsLast α n) N c fc) (hd : Yields (rowsLast α n) N d fd) :
    Yields (matsLast α 4 n) N (stack a [b, c, d]) fun k => ![fa k, fb k, fc k, fd k] := by
  obtain ⟨⟨sa, a⟩, rfl, ha, ha'⟩ := ha
  obtain ⟨⟨sb, b⟩, rfl, hb, hb'⟩ := hb
  obtain ⟨⟨sc, c⟩, rfl, hc, hc'⟩ := hc
  obtain ⟨⟨sd, d⟩, rfl, hd, hd'⟩ := hd
  simp only [rowsLast] at ha hb hc hd ha' hb' hc' hd'
  subst ha hb hc hd
  refine ⟨_, if_pos (by simp), rfl, fun k hk => ?_⟩
  funext i
  fin_cases i
  · simpa [matsLast] using ha' k hk
  · simpa [matsLast] using hb' k hk
  · simpa [matsLast] using hc' k hk
  · simpa [matsLast] using hd' k hk

lemma yields_stack2 {N : ℕ} {a b : Out α} {fa fb : ℕ → α} (ha : Yields (vec α) N a fa) (hb : Yields (vec α) N b fb) :
    Yields (rowsLast α 2) N (stack a [b]) fun k => ![fa k, fb k] := by
  obtain ⟨⟨sa, a⟩, rfl, ha, ha'⟩ := ha
  obtain ⟨⟨sb, b⟩, rfl, hb, hb'⟩ := hb
  simp only [vec] at ha hb ha' hb'
  subst ha hb
  refine ⟨_, if_pos (by simp), rfl, fun k hk => ?_⟩
  funext j
  fin_cases j <;> simp [rowsLast, ha' k hk, hb' k hk]

lemma yields_stack2_rows {N n : ℕ} {a b : Out α} {fa fb : ℕ → Fin n → α} (ha : Yields (rowsLast α n) N a fa)
    (hb : Yields (rowsLast α n) N b fb) : Yields (matsLast α 2 n) N (stack a [b]) fun k => ![fa k, fb k] := by
  obtain ⟨⟨sa, a⟩, rfl, ha, ha'⟩ := ha
  obtain ⟨⟨sb, b⟩, rfl, hb, hb'⟩ := hb
  simp only [rowsLast] at ha hb ha' hb'
  subst ha hb
  refine ⟨_, if_pos (by simp), rfl, fun k hk => ?_⟩
  funext i
  fin_cases i
  · simpa [matsLast] using ha' k hk
  · simpa [matsLast] using hb' k hk

lemma yields_moveaxis {N m n : ℕ} {a : Out α} {F : ℕ → Fin m → Fin n → α} (ha : Yields (matsLast α m n) N a F) :
    Yields (mats α m n) N (moveaxis 2 0 a) F := by
  obtain ⟨⟨s, v⟩, rfl, hw, hr⟩ := ha
  simp only [matsLast] at hw hr
  subst hw
  have h : moveaxis 2 0 (.ok ⟨[m, n, N], v⟩ : Out α) = .ok ⟨[N, m, n], fun idx => v [idx.getD 1 0, idx.getD 2 0, idx.getD 0 0]⟩ := by
    simp only [moveaxis]
    rw [if_pos (by simp)]
    rfl
  refine ⟨_, h, rfl, fun k hk => ?_⟩
  rw [← hr k hk]
  rfl

lemma yields_matsLast_smul {N m n : ℕ} {a : Out β} {c : α} {F : ℕ → Fin m → Fin n → β} {o : α → β → γ} (ha : Yields (matsLast β m n) N a F) :
    Yields (matsLast γ m n) N (op2 o (scalar c) a) fun k i j => o c (F k i j) := by
  obtain ⟨⟨s, v⟩, rfl, hw, hr⟩ := ha
  simp only [matsLast] at hw hr
  subst hw
  refine ⟨⟨[m, n, N], fun idx => o c (v (project [m, n, N] idx))⟩, by simp [op2, scalar, bcast, bcastRev], rfl, fun k hk => ?_⟩
  funext i j
  simp [matsLast, project, pick_lt hk, pick_lt i.isLt, pick_lt j.isLt, ← hr k hk]

end PyElli.Nd
