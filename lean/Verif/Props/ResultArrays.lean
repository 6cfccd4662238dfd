import Verif.Lemmas.ArrayResultExact
import Verif.Props.SpectraExact
import Verif.Props.Energy

/-! # C105: the quantities of a spectrum

All properties of `Result` are computed from the arrays of the solvers, wavelength by wavelength, and with exact numbers they are the
quantities of `Model/Result.lean` under the names of `Model/Lookup.lean`. -/

namespace PyElli.Nd

open PyElli

/-- The properties of `Result`, `result.py:57-342`. -/
inductive ResultProp
  | scalar (q : ScalarQ)
  | matrix (q : MatrixQ)
  | mueller

/-- The name of a property. -/
def ScalarQ.name : ScalarQ → String
  | .rho => "rho" | .rho_t => "rho_t" | .psi => "psi" | .psi_t => "psi_t" | .delta => "delta" | .delta_t => "delta_t" | .R => "R" | .T => "T"

/-- The name of a property. -/
def MatrixQ.name : MatrixQ → String
  | .rho_matrix => "rho_matrix" | .rho_matrix_t => "rho_matrix_t" | .psi_matrix => "psi_matrix" | .psi_matrix_t => "psi_matrix_t"
  | .delta_matrix => "delta_matrix" | .delta_matrix_t => "delta_matrix_t" | .jones_matrix_r => "jones_matrix_r" | .jones_matrix_t => "jones_matrix_t"
  | .jones_matrix_rc => "jones_matrix_rc" | .jones_matrix_tc => "jones_matrix_tc" | .R_matrix => "R_matrix" | .T_matrix => "T_matrix"
  | .Rc_matrix => "Rc_matrix" | .Tc_matrix => "Tc_matrix"

/-- The name of a property. -/
def ResultProp.name : ResultProp → String
  | .scalar q => q.name
  | .matrix q => q.name
  | .mueller => "mueller_matrix"

/-- The shape of a property without the wavelength axis. -/
def ResultProp.dims : ResultProp → List ℕ
  | .scalar _ => []
  | .matrix _ => [2, 2]
  | .mueller => [4, 4]

/-- The value of a property. -/
def ResultProp.eval {V : Type} [Arith V] (r : ResultArr V) : ResultProp → Out V
  | .scalar q => q.eval r
  | .matrix q => q.eval r
  | .mueller => r.mueller

/-- The solvers. -/
inductive SolverSel
  | s4 (p : PropKind)
  | s2

/-- `Solver.calculate` of a solver. -/
def SolverSel.calculate {V : Type} [Arith V] (s : StructArr V) (theta : V) (lbda : ND V) : SolverSel → Except PyErr (ResArr V)
  | .s4 p => calculate4Arr p s theta lbda
  | .s2 => calculate2Arr s theta lbda

section any

variable {V : Type} [Arith V]

/-- The result of a solver for one wavelength. -/
def SolverSel.pt (s : StructArr V) (theta l : V) : SolverSel → Except PyErr (PRes V)
  | .s4 p => p4 p s theta l
  | .s2 => p2 s theta l

lemma sim_solver {N : ℕ} (sv : SolverSel) (s : StructArr V) (theta : V) {lbda : ND V} (hl : lbda.shape = [N]) :
    Sim (resR V) N (sv.calculate s theta lbda) fun k => sv.pt s theta (lbda.val [k]) := by
  cases sv with
  | s4 p => exact sim_calculate4 p s theta hl
  | s2 => exact sim_calculate2 s theta hl

/-- C105: every property of the result of a spectrum is that of its wavelengths, for every solver, every polarisation of the incident light
and every delta range; the constant matrices of the properties have to be invertible for `np.linalg.inv`. -/
theorem C105_point_by_point (v : Inverses V) (sv : SolverSel) (s : StructArr V) (theta : V) (c : Setting V) (q : ResultProp) :
    Spec.PointByPoint (fun L => (sv.calculate s theta (wavelengths L)).bind fun r => q.eval (c.with r)) (fun x n => x.shape = n :: q.dims)
      (fun x k => (allIdx q.dims).map fun idx => x.val (k :: idx)) := by
  cases q with
  | scalar q =>
    exact pointByPoint_of_sim (r := vec V) (F := fun l => (sv.pt s theta l).bind fun x => .ok (q.at c x)) (g := fun y => [y])
      (fun L => (sim_solver sv s theta (lbda := wavelengths L) rfl).bind (G := fun _ x => .ok (q.at c x)) fun r hr => (yields_scalarQ c hr q).sim)
      (fun x k => rfl) fun x n h => h
  | matrix q =>
    exact pointByPoint_of_sim (r := mats V 2 2) (F := fun l => (sv.pt s theta l).bind fun x => .ok (q.at c v x))
      (g := fun M => [M 0 0, M 0 1, M 1 0, M 1 1])
      (fun L => (sim_solver sv s theta (lbda := wavelengths L) rfl).bind (G := fun _ x => .ok (q.at c v x)) fun r hr => (yields_matrixQ c v hr q).sim)
      (fun x k => rfl) fun x n h => h
  | mueller =>
    exact pointByPoint_of_sim (r := mats V 4 4) (F := fun l => (sv.pt s theta l).bind fun x => .ok (pMueller v x.1))
      (g := fun M => [M 0 0, M 0 1, M 0 2, M 0 3, M 1 0, M 1 1, M 1 2, M 1 3, M 2 0, M 2 1, M 2 2, M 2 3, M 3 0, M 3 1, M 3 2, M 3 3])
      (fun L => (sim_solver sv s theta (lbda := wavelengths L) rfl).bind (G := fun _ x => .ok (pMueller v x.1)) fun r hr =>
        (yields_mueller v (J := fun k => ((resR V).read k r).1) (.ok hr.1)).sim)
      (fun x k => rfl) fun x n h => h

/-- C105: the entries reached by names like `R_ps` (`[:, i, j]`) are entries of these matrices, one number for every wavelength. -/
theorem C105_entries (v : Inverses V) (c : Setting V) {r : ResArr V} {N : ℕ} (hr : r.sized N) (q : MatrixQ) (i j : Fin 2) :
    ∃ x y, q.eval (c.with r) = .ok x ∧ q.entryEval (c.with r) i j = .ok y ∧ x.shape = [N, 2, 2] ∧ y.shape = [N] ∧
      ∀ k < N, y.val [k] = x.val [k, i.val, j.val] := by
  obtain ⟨x, hx, hxs, hxr⟩ := yields_matrixQ c v (N := N) hr q
  obtain ⟨y, hy, hys, hyr⟩ := yields_matrixQ_entry c v (N := N) hr q i j
  exact ⟨x, y, hx, hy, hxs, hys, fun k hk => (hyr k hk).trans (congrFun (congrFun (hxr k hk).symm i) j)⟩

end any

section exactNumbers

open Matrix Complex

variable {asin : ℂ → ℂ} {eig : Mat4 → (Fin 4 → ℂ) × Mat4}

local notation "𝔼" => exact asin eig

/-- An array is the value of an attribute: same shape and same entries. -/
def IsValue {N : ℕ} (x : ND ℂ) : Lookup.AVal N → Prop
  | .vec f => x.shape = [N] ∧ ∀ k : Fin N, x.val [k.val] = f k
  | .mat2 f => x.shape = [N, 2, 2] ∧ ∀ (k : Fin N) (i j : Fin 2), x.val [k.val, i.val, j.val] = f k i j
  | .mat4 f => x.shape = [N, 4, 4] ∧ ∀ (k : Fin N) (i j : Fin 4), x.val [k.val, i.val, j.val] = f k i j
  | .obj => False

/-- The arrays of a solver contain the results `res` of the single wavelengths. -/
structure Contains {N : ℕ} (r : ResArr ℂ) (res : Fin N → Result) : Prop where
  sized : r.sized N
  jr : ∀ (k : Fin N) i j, r.jr.val [k.val, i.val, j.val] = (res k).jr i j
  jt : ∀ (k : Fin N) i j, r.jt.val [k.val, i.val, j.val] = (res k).jt i j
  power : ∀ k : Fin N, r.power.val [k.val] = ((res k).power : ℂ)

/-- C105: with exact numbers every property is computed without an exception, and its array contains the quantities of the single
wavelengths. -/
theorem C105_attributes {N : ℕ} {r : ResArr ℂ} {res : Fin N → Result} (hr : Contains r res) (jones : Fin 2 → ℂ) (range : DeltaRange)
    (hj : ∀ k, (res k).jones = jones) (hd : ∀ k, (res k).range = range) (q : ResultProp) :
    ∃ x v, @ResultProp.eval ℂ 𝔼 ((realSetting jones range).with r) q = .ok x ∧ Dict.get (Lookup.attrs res) q.name = some v ∧ IsValue x v := by
  have hread : ∀ k : Fin N, (resR ℂ).read k.val r = (((res k).jr : Fin 2 → Fin 2 → ℂ), ((res k).jt : Fin 2 → Fin 2 → ℂ), ((res k).power : ℂ)) := by
    intro k
    refine Prod.ext ?_ (Prod.ext ?_ ?_)
    · funext i j
      exact hr.jr k i j
    · funext i j
      exact hr.jt k i j
    · exact hr.power k
  cases q with
  | scalar q =>
    obtain ⟨x, hx, hs, hv⟩ := @yields_scalarQ ℂ 𝔼 N (realSetting jones range) r hr.sized q
    have key : ∀ f : Fin N → ℂ, Dict.get (Lookup.attrs res) q.name = some (.vec f) →
        (∀ k, @ScalarQ.at ℂ 𝔼 (realSetting jones range) ((res k).jr, (res k).jt, ((res k).power : ℂ)) q = f k) →
        ∃ x v, @ResultProp.eval ℂ 𝔼 ((realSetting jones range).with r) (.scalar q) = .ok x ∧ Dict.get (Lookup.attrs res) (ResultProp.scalar q).name = some v ∧ IsValue x v := by
      intro f hf hk
      refine ⟨x, _, hx, hf, hs, fun k => ?_⟩
      have := hv k.val k.isLt
      beta_reduce at this
      rw [hread] at this
      exact this.trans (hk k)
    cases q with
    | rho => exact key _ rfl fun k => by rw [Result.rho, hj, hd]; exact exact_rho _ _ _
    | rho_t => exact key _ rfl fun k => by rw [Result.rhoT, hj, hd]; exact exact_rho _ _ _
    | psi =>
      exact key _ rfl fun k => by
        rw [Result.psi, Result.rho, hj, hd, ← exact_rho (asin := asin) (eig := eig)]
        exact exact_psi _
    | psi_t =>
      exact key _ rfl fun k => by
        rw [Result.psiT, Result.rhoT, hj, hd, ← exact_rho (asin := asin) (eig := eig)]
        exact exact_psi _
    | delta =>
      exact key _ rfl fun k => by
        rw [Result.delta, Result.rho, hj, hd, ← exact_rho (asin := asin) (eig := eig)]
        exact exact_deltaAngle _ _ _
    | delta_t =>
      exact key _ rfl fun k => by
        rw [Result.deltaT, Result.rhoT, hj, hd, ← exact_rho (asin := asin) (eig := eig)]
        exact exact_deltaAngle _ _ _
    | R =>
      exact key _ rfl fun k => by
        simp [ScalarQ.at, exact_abs2, Result.R, Result.RMatrix]
    | T =>
      exact key _ rfl fun k => by
        simp [ScalarQ.at, exact_abs2, Result.T, Result.TMatrix]
  | matrix q =>
    obtain ⟨x, hx, hs, hv⟩ := @yields_matrixQ ℂ 𝔼 N (realSetting jones range) (exactInverses asin eig) r hr.sized q
    have key : ∀ f : Fin N → Mat2, Dict.get (Lookup.attrs res) q.name = some (.mat2 f) →
        (∀ k i j, @MatrixQ.at ℂ 𝔼 (realSetting jones range) (exactInverses asin eig) ((res k).jr, (res k).jt, ((res k).power : ℂ)) q i j = f k i j) →
        ∃ x v, @ResultProp.eval ℂ 𝔼 ((realSetting jones range).with r) (.matrix q) = .ok x ∧ Dict.get (Lookup.attrs res) (ResultProp.matrix q).name = some v ∧ IsValue x v := by
      intro f hf hk
      refine ⟨x, _, hx, hf, hs, fun k i j => ?_⟩
      have := congrFun (congrFun (hv k.val k.isLt) i) j
      beta_reduce at this
      rw [hread] at this
      exact this.trans (hk k i j)
    have hrc : ∀ J : Mat2, @pSandwich ℂ 𝔼 (@Inverses.d ℂ 𝔼 (exactInverses asin eig)) J (@circConstC ℂ 𝔼) = jonesRc J := fun J => by
      rw [exact_circC]; exact exact_sandwich _ _ _
    have htc : ∀ J : Mat2, @pSandwich ℂ 𝔼 (@Inverses.c ℂ 𝔼 (exactInverses asin eig)) J (@circConstC ℂ 𝔼) = jonesTc J := fun J => by
      rw [exact_circC]; exact exact_sandwich _ _ _
    cases q with
    | rho_matrix => exact key _ rfl fun k i j => rfl
    | rho_matrix_t => exact key _ rfl fun k i j => rfl
    | psi_matrix => exact key _ rfl fun k i j => exact_psi _
    | psi_matrix_t => exact key _ rfl fun k i j => exact_psi _
    | delta_matrix => exact key _ rfl fun k i j => by rw [hd]; exact exact_deltaAngle _ _ _
    | delta_matrix_t => exact key _ rfl fun k i j => by rw [hd]; exact exact_deltaAngle _ _ _
    | jones_matrix_r => exact key _ rfl fun k i j => rfl
    | jones_matrix_t => exact key _ rfl fun k i j => rfl
    | jones_matrix_rc => exact key _ rfl fun k i j => congrFun (congrFun (hrc _) i) j
    | jones_matrix_tc => exact key _ rfl fun k i j => congrFun (congrFun (htc _) i) j
    | R_matrix => exact key _ rfl fun k i j => exact_abs2 _
    | T_matrix => exact key _ rfl fun k i j => by simp [MatrixQ.at, exact_abs2, Result.TMatrix]
    | Rc_matrix => exact key _ rfl fun k i j => by simp only [MatrixQ.at, exact_abs2, Result.RcMatrix, hrc]
    | Tc_matrix => exact key _ rfl fun k i j => by simp [MatrixQ.at, exact_abs2, Result.TcMatrix, htc]
  | mueller =>
    obtain ⟨x, hx, hs, hv⟩ := @yields_mueller ℂ 𝔼 N _ (fun k => ((resR ℂ).read k r).1) (exactInverses asin eig) (.ok hr.sized.1)
    refine ⟨x, _, hx, rfl, hs, fun k i j => ?_⟩
    have := congrFun (congrFun (hv k.val k.isLt) i) j
    beta_reduce at this
    rw [hread] at this
    exact this.trans (exact_mueller _ i j)

/-- C105: these are all the public data attributes. -/
theorem C105_complete {N : ℕ} (res : Fin N → Result) (name : String) (v : Lookup.AVal N) (h : (name, v) ∈ Lookup.attrs res) (hv : v ≠ .obj)
    (hp : name.toList.head? ≠ some '_') : ∃ q : ResultProp, q.name = name := by
  simp only [Lookup.attrs, List.mem_cons, Prod.mk.injEq, List.not_mem_nil, or_false] at h
  rcases h with ⟨rfl, rfl⟩ | ⟨rfl, rfl⟩ | ⟨rfl, rfl⟩ | ⟨rfl, rfl⟩ | ⟨rfl, rfl⟩ | ⟨rfl, rfl⟩ | ⟨rfl, rfl⟩ | ⟨rfl, rfl⟩ | ⟨rfl, rfl⟩ | ⟨rfl, rfl⟩ |
    ⟨rfl, rfl⟩ | ⟨rfl, rfl⟩ | ⟨rfl, rfl⟩ | ⟨rfl, rfl⟩ | ⟨rfl, rfl⟩ | ⟨rfl, rfl⟩ | ⟨rfl, rfl⟩ | ⟨rfl, rfl⟩ | ⟨rfl, rfl⟩ | ⟨rfl, rfl⟩ | ⟨rfl, rfl⟩ |
    ⟨rfl, rfl⟩ | ⟨rfl, rfl⟩ | ⟨rfl, rfl⟩ | ⟨rfl, rfl⟩ | ⟨rfl, rfl⟩ | ⟨rfl, rfl⟩ | ⟨rfl, rfl⟩ | ⟨rfl, rfl⟩ | ⟨rfl, rfl⟩ | ⟨rfl, rfl⟩ | ⟨rfl, rfl⟩
  · exact ⟨.scalar .rho, rfl⟩
  · exact ⟨.scalar .rho_t, rfl⟩
  · exact ⟨.scalar .psi, rfl⟩
  · exact ⟨.scalar .psi_t, rfl⟩
  · exact ⟨.scalar .delta, rfl⟩
  · exact ⟨.scalar .delta_t, rfl⟩
  · exact ⟨.matrix .rho_matrix, rfl⟩
  · exact ⟨.matrix .rho_matrix_t, rfl⟩
  · exact ⟨.matrix .psi_matrix, rfl⟩
  · exact ⟨.matrix .psi_matrix_t, rfl⟩
  · exact ⟨.matrix .delta_matrix, rfl⟩
  · exact ⟨.matrix .delta_matrix_t, rfl⟩
  · exact ⟨.mueller, rfl⟩
  · exact ⟨.matrix .jones_matrix_r, rfl⟩
  · exact ⟨.matrix .jones_matrix_t, rfl⟩
  · exact ⟨.matrix .jones_matrix_rc, rfl⟩
  · exact ⟨.matrix .jones_matrix_tc, rfl⟩
  · exact ⟨.scalar .R, rfl⟩
  · exact ⟨.matrix .R_matrix, rfl⟩
  · exact ⟨.scalar .T, rfl⟩
  · exact ⟨.matrix .T_matrix, rfl⟩
  · exact ⟨.matrix .Rc_matrix, rfl⟩
  · exact ⟨.matrix .Tc_matrix, rfl⟩
  all_goals first | exact absurd rfl hv | exact absurd rfl hp

/-- The exact result of a solver for one wavelength. -/
noncomputable def SolverSel.out (asin : ℂ → ℂ) (eig : Mat4 → (Fin 4 → ℂ) × Mat4) (st : Stack) (theta l : ℝ) : SolverSel → SolverOut
  | .s4 kind => calculate4x4 (kind.propagator eig) st theta l (eig (buildDelta (kxOf st theta) st.back))
  | .s2 => calculate2x2 asin st theta l

/-- C105: from the structure to the attributes. If a solver returns for the wavelengths `L`, each attribute of its result contains the
quantity computed for each wavelength. -/
theorem C105_solver (sv : SolverSel) {s : StructArr ℂ} {s' : Struct} (hs : StructIs s s') (theta : ℝ) (L : List ℝ) {r : ResArr ℂ}
    (hr : @SolverSel.calculate ℂ 𝔼 s (theta : ℂ) (realWavelengths asin eig L) sv = .ok r) (st : ℝ → Stack) (hst : ∀ l ∈ L, s'.stack l = some (st l))
    (jones : Fin 2 → ℂ) (range : DeltaRange) (q : ResultProp) :
    ∃ x v, @ResultProp.eval ℂ 𝔼 ((realSetting jones range).with r) q = .ok x ∧
      Dict.get (Lookup.attrs fun k : Fin L.length =>
        let o := sv.out asin eig (st L[k]) theta L[k]
        { Result.mk' o.jr o.jt o.power jones with range := range }) q.name = some v ∧ IsValue x v := by
  refine C105_attributes ?_ jones range (fun k => rfl) (fun k => rfl) q
  cases sv with
  | s4 kind =>
    have h := C104_solver4x4 kind hs theta L hr
    have hk : ∀ k : Fin L.length, L[k.val]? = some L[k] := fun k => List.getElem?_eq_getElem k.isLt
    have hk' : ∀ k : Fin L.length, s'.stack L[k] = some (st L[k]) := fun k => hst _ (List.getElem_mem k.isLt)
    exact ⟨h.1, fun k i j => (h.2 k.val L[k] _ (hk k) (hk' k)).1 i j, fun k i j => (h.2 k.val L[k] _ (hk k) (hk' k)).2.1 i j,
      fun k => (h.2 k.val L[k] _ (hk k) (hk' k)).2.2⟩
  | s2 =>
    have h := C104_solver2x2 hs theta L hr
    have hk : ∀ k : Fin L.length, L[k.val]? = some L[k] := fun k => List.getElem?_eq_getElem k.isLt
    have hk' : ∀ k : Fin L.length, s'.stack L[k] = some (st L[k]) := fun k => hst _ (List.getElem_mem k.isLt)
    exact ⟨h.1, fun k i j => (h.2 k.val L[k] _ (hk k) (hk' k)).1 i j, fun k i j => (h.2 k.val L[k] _ (hk k) (hk' k)).2.1 i j,
      fun k => (h.2 k.val L[k] _ (hk k) (hk' k)).2.2⟩

/-- C105: for passive structures `Solver4x4` with `PropagatorExpm` returns a spectrum for any wavelengths. -/
theorem C105_passive_returns {s : StructArr ℂ} {s' : Struct} (hs : StructIs s s') (theta : ℝ) (L : List ℝ) (st : ℝ → Stack)
    (hst : ∀ l ∈ L, s'.stack l = some (st l)) (hp : ∀ l ∈ L, ∃ p, @StructArr.setup ℂ 𝔼 s (realWavelengths asin eig [l]) = .ok p)
    (hpass : ∀ l ∈ L, PassiveStack (st l) theta l) :
    ∃ r, @SolverSel.calculate ℂ 𝔼 s (theta : ℂ) (realWavelengths asin eig L) (.s4 .expm) = .ok r := by
  cases h : @SolverSel.calculate ℂ 𝔼 s (theta : ℂ) (realWavelengths asin eig L) (.s4 .expm) with
  | ok r => exact ⟨r, rfl⟩
  | error e =>
    obtain ⟨l, hl, h | ⟨h, _⟩⟩ := (C104_solver4x4_raises .expm hs theta L st hst hp).1 ⟨e, h⟩
    · exact absurd h (tIt_det_ne_zero (st l) theta l (hpass l hl) _)
    · cases h

/-- C105: the arrays of the reflectance and transmittance of a passive structure. Each has one number for each wavelength, and at every
wavelength both are non-negative and their sum is at most one; for lossless isotropic layers on a transparent substrate it is one. -/
theorem C105_R_plus_T {s : StructArr ℂ} {s' : Struct} (hs : StructIs s s') (theta : ℝ) (L : List ℝ) (st : ℝ → Stack)
    (hst : ∀ l ∈ L, s'.stack l = some (st l)) (hp : ∀ l ∈ L, ∃ p, @StructArr.setup ℂ 𝔼 s (realWavelengths asin eig [l]) = .ok p)
    (hpass : ∀ l ∈ L, PassiveStack (st l) theta l) (jones : Fin 2 → ℂ) (range : DeltaRange) :
    ∃ r x y, @SolverSel.calculate ℂ 𝔼 s (theta : ℂ) (realWavelengths asin eig L) (.s4 .expm) = .ok r ∧
      @ScalarQ.eval ℂ 𝔼 ((realSetting jones range).with r) .R = .ok x ∧ @ScalarQ.eval ℂ 𝔼 ((realSetting jones range).with r) .T = .ok y ∧
      x.shape = [L.length] ∧ y.shape = [L.length] ∧
      ∀ k l, L[k]? = some l → ∃ R T : ℝ, x.val [k] = R ∧ y.val [k] = T ∧ 0 ≤ R ∧ 0 ≤ T ∧ R + T ≤ 1 ∧
        (IsoLayers (st l).layers → (∀ sl ∈ (st l).layers, Spec.Lossless sl.2) → ((st l).back 0 0).im = 0 → R + T = 1) := by
  obtain ⟨r, hr⟩ := C105_passive_returns hs theta L st hst hp hpass
  obtain ⟨x, v, hx, hv, hxv⟩ := C105_solver (.s4 .expm) hs theta L hr st hst jones range (.scalar .R)
  obtain ⟨y, w, hy, hw, hyw⟩ := C105_solver (.s4 .expm) hs theta L hr st hst jones range (.scalar .T)
  obtain rfl := Option.some.inj hv
  obtain rfl := Option.some.inj hw
  refine ⟨r, x, y, hr, hx, hy, hxv.1, hyw.1, fun k l hk => ?_⟩
  obtain ⟨hlt, rfl⟩ := List.getElem?_eq_some_iff.1 hk
  have hmem : L[k] ∈ L := List.getElem_mem hlt
  have h36 := C36_R_plus_T_le (st L[k]) theta L[k] (hpass _ hmem) (eig (buildDelta (kxOf (st L[k]) theta) (st L[k]).back)) jones
  exact ⟨_, _, hxv.2 ⟨k, hlt⟩, hyw.2 ⟨k, hlt⟩, h36.2.1, h36.2.2, h36.1,
    fun hi hl hb => C35_R_plus_T (st L[k]) theta L[k] (hpass _ hmem) hi hl hb _ jones⟩

/-! ## Examples -/

/-- The inverses of the constant matrices exist for exact numbers. -/
noncomputable example : @Inverses ℂ 𝔼 := exactInverses asin eig

lemma film_passive {l : ℝ} (hl : 0 < l) :
    PassiveStack ⟨Matrix.diagonal ![1, 1, 1], [(100, Matrix.diagonal ![4, 4, 4])], Matrix.diagonal ![2, 2, 2], true⟩ 45 l where
  front := ⟨1, one_pos, by simp⟩
  angle := by norm_num
  lbda_pos := hl
  layers := by
    intro x hx
    simp only [List.mem_singleton] at hx
    subst hx
    have : (Matrix.diagonal ![4, 4, 4] : Tensor) = isoTensor 4 := by
      ext i j
      fin_cases i <;> fin_cases j <;> simp [isoTensor]
    rw [this]
    exact ⟨by norm_num, by simp [isoTensor], passive_isoTensor (by norm_num)⟩
  back_ne := by simp
  back_passive := by simp
  iso := rfl

/-- A film in air on glass, from 300 nm to 1000 nm: for any list of wavelengths the arrays exist, and R + T = 1 at each of them. -/
example (L : List ℝ) (hL : ∀ l ∈ L, 300 ≤ l ∧ l ≤ 1000) :
    ∃ r x y, @SolverSel.calculate ℂ 𝔼 filmArr (((45 : ℝ)) : ℂ) (realWavelengths asin eig L) (.s4 .expm) = .ok r ∧
      @ScalarQ.eval ℂ 𝔼 ((realSetting ![1, 1] ⟨-180, 180⟩).with r) .R = .ok x ∧
      @ScalarQ.eval ℂ 𝔼 ((realSetting ![1, 1] ⟨-180, 180⟩).with r) .T = .ok y ∧ x.shape = [L.length] ∧
      ∀ k < L.length, x.val [k] + y.val [k] = 1 := by
  obtain ⟨r, x, y, hr, hx, hy, hxs, _, h⟩ := C105_R_plus_T (asin := asin) (eig := eig) film_is 45 L
    (fun _ => ⟨Matrix.diagonal ![1, 1, 1], [(100, Matrix.diagonal ![4, 4, 4])], Matrix.diagonal ![2, 2, 2], true⟩) (fun l _ => film_stack l)
    (fun l hl => film_setup (hL l hl).2) (fun l hl => film_passive (by linarith [(hL l hl).1])) ![1, 1] ⟨-180, 180⟩
  refine ⟨r, x, y, hr, hx, hy, hxs, fun k hk => ?_⟩
  obtain ⟨R, T, hR, hT, _, _, _, h1⟩ := h k L[k] (List.getElem?_eq_getElem hk)
  have e : (Matrix.diagonal ![4, 4, 4] : Tensor) = isoTensor 4 := by
    ext i j
    fin_cases i <;> fin_cases j <;> simp [isoTensor]
  have := h1 (by simp [IsoLayers, e, isoTensor]) (by simp only [List.mem_singleton, forall_eq, e]; exact lossless_isoTensor (by norm_num)) (by simp)
  rw [hR, hT, ← ofReal_add, this, ofReal_one]

end exactNumbers

end PyElli.Nd
