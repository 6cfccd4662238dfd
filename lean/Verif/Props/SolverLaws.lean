import Verif.Props.Energy
import Verif.Lemmas.Structure
import Mathlib.Tactic

/-! # Laws of the solvers under changes of the stack (C33, C34, C39, C40, C41, C44) -/

namespace PyElli

open Matrix Complex Spec

/-- The same half spaces with other interior slices. -/
def Stack.withLayers (s : Stack) (ls : List (ℝ × Tensor)) : Stack := { s with layers := ls }

/-! ## C40 -/

lemma propExpm_zero (delta : Mat4) (lbda : ℝ) : propExpm delta 0 lbda = 1 := by
  simp [propExpm]

/-- C40: the exponential propagator is multiplicative in the thickness, the identity at zero, and invertible. -/
theorem C40_expm_group (delta : Mat4) (a b lbda : ℝ) :
    propExpm delta (a + b) lbda = propExpm delta a lbda * propExpm delta b lbda ∧
    propExpm delta 0 lbda = 1 ∧
    propExpm delta (-a) lbda * propExpm delta a lbda = 1 := by
  have h : ∀ x y : ℝ, propExpm delta (x + y) lbda = propExpm delta x lbda * propExpm delta y lbda := by
    intro x y
    unfold propExpm
    rw [Complex.ofReal_add, mul_add]
    exact exp_mul_exp_smul _ _ _
  refine ⟨h a b, propExpm_zero delta lbda, ?_⟩
  rw [← h, neg_add_cancel, propExpm_zero]

lemma takeIdx_bijective {n : ℕ} (le : Fin n → Fin n → Bool) :
    Function.Bijective (takeIdx (argsort le) (argsort_length le)) := by
  have hnd : (argsort le).Nodup := by
    unfold argsort
    rw [(List.mergeSort_perm _ _).nodup_iff]
    exact List.nodup_finRange n
  rw [Fintype.bijective_iff_injective_and_card]
  refine ⟨?_, rfl⟩
  intro a b hab
  unfold takeIdx at hab
  have := (List.Nodup.getElem_inj_iff hnd).1 hab
  exact Fin.ext this

/-- C40: whenever `np.linalg.eig` delivers a diagonalisation of the delta matrix, the eigenvalue propagator equals the exponential one,
whatever the order and scaling of the eigenvectors. -/
theorem C40_eig_eq_expm (delta w : Mat4) (q : Fin 4 → ℂ) (hw : IsUnit w) (h : delta * w = w * Matrix.diagonal q)
    (thickness lbda : ℝ) : propEig q w thickness lbda = propExpm delta thickness lbda := by
  unfold propEig propExpm
  simp only
  set i := takeIdx (argsort (lexLe q)) (argsort_length _) with hi
  have hbij : Function.Bijective i := takeIdx_bijective _
  let σ : Equiv.Perm (Fin 4) := Equiv.ofBijective i hbij
  set w' : Mat4 := fun a k => w a (i k) with hw'
  have hsub : w' = w.submatrix (Equiv.refl _) σ := rfl
  have hw'u : IsUnit w' := by
    rw [hsub, Matrix.isUnit_submatrix_equiv]
    exact hw
  have h' : delta * w' = w' * Matrix.diagonal (fun k => q (i k)) := by
    ext a k
    have := congrFun (congrFun h a) (i k)
    rw [Matrix.mul_diagonal] at this ⊢
    rw [Matrix.mul_apply] at this ⊢
    exact this
  have hd : delta = w' * Matrix.diagonal (fun k => q (i k)) * w'⁻¹ := by
    rw [← h', Matrix.mul_assoc, Matrix.mul_nonsing_inv _ ((Matrix.isUnit_iff_isUnit_det _).1 hw'u), Matrix.mul_one]
  rw [smul_smul]
  conv_rhs => rw [hd]
  rw [exp_diag_conj _ _ hw'u]
  congr 3
  funext k
  congr 1
  unfold wavenumber
  push_cast
  ring

example : IsUnit (1 : Mat4) ∧
    Matrix.diagonal ![1, 2, 3, (4 : ℂ)] * (1 : Mat4) = 1 * Matrix.diagonal ![1, 2, 3, (4 : ℂ)] :=
  ⟨isUnit_one, by simp⟩

/-- C40: the linear propagator is the first-order expansion of the exponential one: same value and same derivative at thickness
zero. -/
theorem C40_linear_first_order (delta : Mat4) (lbda : ℝ) (i j : Fin 4) :
    propLinear delta 0 lbda = propExpm delta 0 lbda ∧
    HasDerivAt (fun t : ℝ => propExpm delta t lbda i j - propLinear delta t lbda i j) 0 0 := by
  constructor
  · rw [propExpm_zero]
    simp [propLinear]
  · have h1 := exp_entry_hasDerivAt ((wavenumber lbda : ℂ) • (I • delta)) i j 0
    have e1 : (fun t : ℝ => propExpm delta t lbda i j) =
        fun z : ℝ => (NormedSpace.exp (z • ((wavenumber lbda : ℂ) • (I • delta))) : Mat4) i j := by
      funext t
      rw [propExpm_eq]
    rw [← e1] at h1
    have h2 : HasDerivAt (fun t : ℝ => propLinear delta t lbda i j) (((wavenumber lbda : ℂ) • (I • delta)) i j) 0 := by
      have e2 : (fun t : ℝ => propLinear delta t lbda i j) =
          fun t : ℝ => (t : ℂ) * ((wavenumber lbda : ℂ) • (I • delta)) i j + (1 : Mat4) i j := by
        funext t
        simp [propLinear]
        ring
      rw [e2]
      have := ((Complex.ofRealCLM.hasDerivAt (x := (0 : ℝ))).mul_const (((wavenumber lbda : ℂ) • (I • delta)) i j)).add_const
        ((1 : Mat4) i j)
      simpa using this
    have h3 := h1.sub h2
    simp at h3
    exact h3

/-! ## C33, C34, C39 for `Solver4x4` -/

lemma calculate4x4_congr (prop : Propagator) (s : Stack) (ls ls' : List (ℝ × Tensor)) (theta lbda : ℝ) (ee)
    (h : ∀ kx, (ls.map fun l => prop (buildDelta kx l.2) (-l.1) lbda).prod =
      (ls'.map fun l => prop (buildDelta kx l.2) (-l.1) lbda).prod) :
    calculate4x4 prop (s.withLayers ls) theta lbda ee = calculate4x4 prop (s.withLayers ls') theta lbda ee := by
  have : transfer4x4 prop (s.withLayers ls) theta lbda ee = transfer4x4 prop (s.withLayers ls') theta lbda ee := by
    unfold transfer4x4
    rw [loop4x4_eq, loop4x4_eq]
    simp only [Stack.withLayers]
    have hk : kxOf { front := s.front, layers := ls, back := s.back, backIsotropic := s.backIsotropic } theta =
        kxOf { front := s.front, layers := ls', back := s.back, backIsotropic := s.backIsotropic } theta := rfl
    rw [hk, h]
    rfl
  unfold calculate4x4
  simp only [this]
  rfl

/-- C33 for `Solver4x4`: a slice of thickness zero of any (anisotropic) material can be inserted or removed anywhere, for any exit half space. -/
theorem C33_zero_thickness_4x4 (s : Stack) (l₁ l₂ : List (ℝ × Tensor)) (eps : Tensor) (theta lbda : ℝ) (ee) :
    calculate4x4 propExpm (s.withLayers (l₁ ++ (0, eps) :: l₂)) theta lbda ee =
      calculate4x4 propExpm (s.withLayers (l₁ ++ l₂)) theta lbda ee := by
  apply calculate4x4_congr
  intro kx
  simp [propExpm_zero]

/-- C34 for `Solver4x4`: a slice can be cut into two slices of the same material anywhere in the stack, for any exit half space. -/
theorem C34_split_4x4 (s : Stack) (l₁ l₂ : List (ℝ × Tensor)) (eps : Tensor) (d₁ d₂ theta lbda : ℝ) (ee) :
    calculate4x4 propExpm (s.withLayers (l₁ ++ (d₁, eps) :: (d₂, eps) :: l₂)) theta lbda ee =
      calculate4x4 propExpm (s.withLayers (l₁ ++ (d₁ + d₂, eps) :: l₂)) theta lbda ee := by
  apply calculate4x4_congr
  intro kx
  simp only [List.map_append, List.map_cons, List.prod_append, List.prod_cons]
  rw [neg_add, (C40_expm_group _ _ _ _).1]
  simp only [mul_assoc]

/-- C34 fails for the linear propagator, which is only an approximation: two slices of thickness 1 differ from one of thickness 2. -/
theorem C34_linear_refuted :
    ∃ (delta : Mat4) (lbda : ℝ), propLinear delta 2 lbda ≠ propLinear delta 1 lbda * propLinear delta 1 lbda := by
  refine ⟨1, 2 * Real.pi, ?_⟩
  intro h
  have h0 := congrFun (congrFun h 0) 0
  have hw : wavenumber (2 * Real.pi) = 1 := by
    unfold wavenumber
    exact div_self (by positivity)
  simp only [propLinear, hw, Matrix.mul_apply, Fin.sum_univ_four] at h0
  simp at h0
  have := congrArg Complex.re h0
  simp at this

/-- C39: a block repeated `n` times contributes the n-th power of the transfer matrix of one period, between whatever comes before and
after it. -/
theorem C39_repetition_power (prop : Propagator) (kx : ℂ) (lbda : ℝ) (before period after : List (ℝ × Tensor)) (n : ℕ)
    (exit : Mat4) :
    loop4x4 prop kx lbda (before ++ (List.replicate n period).flatten ++ after) exit =
      (before.map fun l => prop (buildDelta kx l.2) (-l.1) lbda).prod *
        (period.map fun l => prop (buildDelta kx l.2) (-l.1) lbda).prod ^ n *
        loop4x4 prop kx lbda after exit := by
  rw [loop4x4_eq, loop4x4_eq]
  simp only [List.map_append, List.prod_append, List.map_flatten, List.map_replicate, List.prod_flatten,
    List.prod_replicate]
  simp only [mul_assoc]

lemma finiteSlices_append (a b : List Slice) :
    finiteSlices (a ++ b) = (finiteSlices a).bind fun x => (finiteSlices b).map fun y => x ++ y := by
  induction a with
  | nil => simp [finiteSlices]
  | cons s rest ih =>
    simp only [List.cons_append, finiteSlices, ih]
    cases s.eps.finite? with
    | none => simp
    | some e =>
      simp only [Option.bind_some]
      cases finiteSlices rest with
      | none => simp
      | some x =>
        cases finiteSlices b with
        | none => simp
        | some y => simp

lemma finiteSlices_replicate (p : List Slice) (x : List (ℝ × Tensor)) (h : finiteSlices p = some x) (n : ℕ) :
    finiteSlices (List.replicate n p).flatten = some (List.replicate n x).flatten := by
  induction n with
  | zero => simp [finiteSlices]
  | succ n ih =>
    rw [List.replicate_succ, List.flatten_cons, finiteSlices_append, h, ih]
    simp [List.replicate_succ]

lemma finiteSlices_take : ∀ (l : List Slice) (x : List (ℝ × Tensor)), finiteSlices l = some x → ∀ k, finiteSlices (l.take k) = some (x.take k)
  | _, _, h, 0 => by simp [finiteSlices]
  | [], x, h, k + 1 => by
    obtain rfl : x = [] := by simpa [finiteSlices] using h.symm
    simp [finiteSlices]
  | s :: l, x, h, k + 1 => by
    simp only [finiteSlices] at h
    obtain ⟨e, he, h⟩ := Option.bind_eq_some_iff.1 h
    obtain ⟨y, hy, rfl⟩ := Option.map_eq_some_iff.1 h
    simp only [List.take_succ_cons, finiteSlices, he, finiteSlices_take l y hy k, Option.bind_some, Option.map_some]

lemma finiteSlices_drop : ∀ (l : List Slice) (x : List (ℝ × Tensor)), finiteSlices l = some x → ∀ k, finiteSlices (l.drop k) = some (x.drop k)
  | _, _, h, 0 => by simpa using h
  | [], x, h, k + 1 => by
    obtain rfl : x = [] := by simpa [finiteSlices] using h.symm
    simp [finiteSlices]
  | s :: l, x, h, k + 1 => by
    simp only [finiteSlices] at h
    obtain ⟨e, he, h⟩ := Option.bind_eq_some_iff.1 h
    obtain ⟨y, hy, rfl⟩ := Option.map_eq_some_iff.1 h
    simpa using finiteSlices_drop l y hy k

lemma finiteSlices_length : ∀ (l : List Slice) (x : List (ℝ × Tensor)), finiteSlices l = some x → x.length = l.length
  | [], x, h => by
    obtain rfl : x = [] := by simpa [finiteSlices] using h.symm
    rfl
  | s :: l, x, h => by
    simp only [finiteSlices] at h
    obtain ⟨e, he, h⟩ := Option.bind_eq_some_iff.1 h
    obtain ⟨y, hy, rfl⟩ := Option.map_eq_some_iff.1 h
    simp [finiteSlices_length l y hy]

/-- C39 for structures: a `RepeatedLayers` object anywhere in a structure contributes a matrix power, between the matrices of its
additional slices: the last `before` slices of the period in front of it and the first `after` slices behind it. -/
theorem C39_repeated_layers (front back : Material) (pre per post : List LayerObj) (n before after : ℕ) (lbda : ℝ)
    (p q r : List (ℝ × Tensor)) (f b : Tensor)
    (hf : (front.getTensor lbda).finite? = some f) (hb : (back.getTensor lbda).finite? = some b)
    (hp : finiteSlices (profileList pre lbda) = some p) (hq : finiteSlices (profileList per lbda) = some q)
    (hr : finiteSlices (profileList post lbda) = some r) :
    ∃ s : Stack, Struct.stack ⟨front, pre ++ .repeated per n before after :: post, back⟩ lbda = some s ∧
      ∀ (prop : Propagator) (theta : ℝ) (ee),
        transfer4x4 prop s theta lbda ee = isoHalfInv (kxOf s theta) f *
          (((p ++ q.drop (q.length - before)).map fun l => prop (buildDelta (kxOf s theta) l.2) (-l.1) lbda).prod *
           (q.map fun l => prop (buildDelta (kxOf s theta) l.2) (-l.1) lbda).prod ^ n *
           loop4x4 prop (kxOf s theta) lbda (q.take after ++ r) (exitMatrix s (kxOf s theta) ee)) := by
  have hprof : finiteSlices (profileList (pre ++ .repeated per n before after :: post) lbda) =
      some ((p ++ q.drop (q.length - before)) ++ (List.replicate n q).flatten ++ (q.take after ++ r)) := by
    have hbef : (if before > 0 then (profileList per lbda).drop ((profileList per lbda).length - before) else []) =
        (profileList per lbda).drop ((profileList per lbda).length - before) := by
      split_ifs with h
      · rfl
      · have : before = 0 := by omega
        subst this
        simp
    have e : profileList (pre ++ .repeated per n before after :: post) lbda =
        profileList pre lbda ++ ((profileList per lbda).drop ((profileList per lbda).length - before) ++
          ((List.replicate n (profileList per lbda)).flatten ++ ((profileList per lbda).take after ++ profileList post lbda))) := by
      rw [profileList_eq, List.flatMap_append, List.flatMap_cons, ← profileList_eq, ← profileList_eq]
      congr 1
      simp only [LayerObj.profile, repeatedSlices, hbef, List.append_assoc]
    rw [e, finiteSlices_append, finiteSlices_append, finiteSlices_append, finiteSlices_append, hp, hr, finiteSlices_replicate _ q hq,
      finiteSlices_drop _ q hq, finiteSlices_take _ q hq, ← finiteSlices_length _ q hq]
    simp
  refine ⟨⟨f, (p ++ q.drop (q.length - before)) ++ (List.replicate n q).flatten ++ (q.take after ++ r), b, back.isIsotropicClass⟩, ?_, ?_⟩
  · simp only [Struct.stack, hf, hb, hprof, Option.bind_some, Option.map_some]
  · intro prop theta ee
    unfold transfer4x4
    rw [C39_repetition_power]

/-! ## C44 -/

/-- C44 for `Solver4x4`, with the exponential or the linear propagator: only the ratio of thickness and wavelength matters. -/
theorem C44_scale_4x4 (s : Stack) (a : ℝ) (ha : a ≠ 0) (theta lbda : ℝ) (ee) :
    calculate4x4 propExpm (s.withLayers (s.layers.map fun l => (a * l.1, l.2))) theta (a * lbda) ee =
      calculate4x4 propExpm s theta lbda ee ∧
    calculate4x4 propLinear (s.withLayers (s.layers.map fun l => (a * l.1, l.2))) theta (a * lbda) ee =
      calculate4x4 propLinear s theta lbda ee := by
  have hk : ∀ d : ℝ, (((-(a * d) : ℝ) : ℂ)) * (wavenumber (a * lbda) : ℂ) = (((-d : ℝ) : ℂ)) * (wavenumber lbda : ℂ) := by
    intro d
    rw [← Complex.ofReal_mul, ← Complex.ofReal_mul]
    congr 1
    unfold wavenumber
    by_cases hl : lbda = 0
    · simp [hl]
    · field_simp
  have key : ∀ prop : Propagator, (∀ delta d, prop delta (-(a * d)) (a * lbda) = prop delta (-d) lbda) →
      calculate4x4 prop (s.withLayers (s.layers.map fun l => (a * l.1, l.2))) theta (a * lbda) ee =
        calculate4x4 prop s theta lbda ee := by
    intro prop h
    have : transfer4x4 prop (s.withLayers (s.layers.map fun l => (a * l.1, l.2))) theta (a * lbda) ee =
        transfer4x4 prop s theta lbda ee := by
      unfold transfer4x4
      rw [loop4x4_eq, loop4x4_eq]
      have hmap : ((s.withLayers (s.layers.map fun l => (a * l.1, l.2))).layers.map fun l =>
          prop (buildDelta (kxOf s theta) l.2) (-l.1) (a * lbda)) =
          s.layers.map fun l => prop (buildDelta (kxOf s theta) l.2) (-l.1) lbda := by
        simp only [Stack.withLayers, List.map_map]
        apply List.map_congr_left
        intro l _
        exact h _ _
      have hk' : kxOf (s.withLayers (s.layers.map fun l => (a * l.1, l.2))) theta = kxOf s theta := rfl
      rw [hk', hmap]
      rfl
    unfold calculate4x4
    simp only [this]
    rfl
  constructor
  · apply key
    intro delta d
    unfold propExpm
    rw [smul_smul, smul_smul, mul_assoc, mul_assoc, hk]
  · apply key
    intro delta d
    unfold propLinear
    rw [smul_smul, smul_smul, mul_assoc, mul_assoc, hk]

/-- C44 for `Solver2x2`. -/
theorem C44_scale_2x2 (asin : ℂ → ℂ) (s : Stack) (a : ℝ) (ha : a ≠ 0) (theta lbda : ℝ) :
    calculate2x2 asin (s.withLayers (s.layers.map fun l => (a * l.1, l.2))) theta (a * lbda) =
      calculate2x2 asin s theta lbda := by
  have hphase : ∀ (d : ℝ) (n th : ℂ), phase2x2 ((a * lbda : ℝ) : ℂ) ((a * d : ℝ) : ℂ) n th = phase2x2 lbda d n th := by
    intro d n th
    unfold phase2x2
    push_cast
    have : (a : ℂ) ≠ 0 := by exact_mod_cast ha
    by_cases hl : lbda = 0
    · simp [hl]
    · have : (lbda : ℂ) ≠ 0 := by exact_mod_cast hl
      field_simp
  have hnext : ∀ (n0 : ℂ) (ls : List (ℝ × Tensor)) (last : Medium),
      nextMedium (innerMedia asin n0 theta (ls.map fun l => (a * l.1, l.2))) last =
        nextMedium (innerMedia asin n0 theta ls) last := by
    intro n0 ls last
    cases ls <;> rfl
  have hloop : ∀ (n0 : ℂ) (last : Medium) (ls : List (ℝ × Tensor)) (Ms Mp : Mat2),
      loop2x2 (a * lbda) last Ms Mp (innerMedia asin n0 theta (ls.map fun l => (a * l.1, l.2))) =
        loop2x2 lbda last Ms Mp (innerMedia asin n0 theta ls) := by
    intro n0 last ls
    induction ls with
    | nil => intro Ms Mp; rfl
    | cons l rest ih =>
      intro Ms Mp
      have h1 : innerMedia asin n0 theta ((l :: rest).map fun l => (a * l.1, l.2)) =
          (a * l.1, nOf l.2, snellAngle asin n0 theta (nOf l.2)) ::
            innerMedia asin n0 theta (rest.map fun l => (a * l.1, l.2)) := rfl
      have h2 : innerMedia asin n0 theta (l :: rest) =
          (l.1, nOf l.2, snellAngle asin n0 theta (nOf l.2)) :: innerMedia asin n0 theta rest := rfl
      rw [h1, h2]
      simp only [loop2x2, hnext, ih, hphase]
  have hM : matrices2x2 asin (s.withLayers (s.layers.map fun l => (a * l.1, l.2))) theta (a * lbda) =
      matrices2x2 asin s theta lbda := by
    unfold matrices2x2
    simp only [Stack.withLayers]
    rw [hloop, hnext]
    rfl
  unfold calculate2x2
  rw [hM]
  rfl

/-! ## C33, C34 for `Solver2x2` -/

lemma charMat_zero (D : Mat2) (lbda : ℝ) : charMat D lbda 0 = 1 := by
  simp [charMat]

lemma charMat_add (D : Mat2) (lbda a b : ℝ) : charMat D lbda (a + b) = charMat D lbda a * charMat D lbda b := by
  unfold charMat
  rw [← exp_mul_exp_smul]
  congr 2
  push_cast
  ring

lemma calculate2x2_congr (asin : ℂ → ℂ) (hasin : IsArcsin asin) (s : Stack) (ls ls' : List (ℝ × Tensor)) (theta lbda : ℝ)
    (hreg : Regular2x2 asin (s.withLayers ls) theta) (hreg' : Regular2x2 asin (s.withLayers ls') theta)
    (hS : ∀ kx, prodS kx lbda ls = prodS kx lbda ls') (hP : ∀ kx, prodP kx lbda ls = prodP kx lbda ls') :
    calculate2x2 asin (s.withLayers ls) theta lbda = calculate2x2 asin (s.withLayers ls') theta lbda := by
  have : matrices2x2 asin (s.withLayers ls) theta lbda = matrices2x2 asin (s.withLayers ls') theta lbda := by
    rw [matrices2x2_eq asin hasin _ theta lbda hreg, matrices2x2_eq asin hasin _ theta lbda hreg']
    simp only [Stack.withLayers]
    rw [hS, hP]
    rfl
  unfold calculate2x2
  rw [this]
  rfl

/-- C33 for `Solver2x2`: a slice of thickness zero does not matter, provided neither calculation divides by zero. -/
theorem C33_zero_thickness_2x2 (asin : ℂ → ℂ) (hasin : IsArcsin asin) (s : Stack) (l₁ l₂ : List (ℝ × Tensor))
    (eps : Tensor) (theta lbda : ℝ)
    (hreg : Regular2x2 asin (s.withLayers (l₁ ++ (0, eps) :: l₂)) theta)
    (hreg' : Regular2x2 asin (s.withLayers (l₁ ++ l₂)) theta) :
    calculate2x2 asin (s.withLayers (l₁ ++ (0, eps) :: l₂)) theta lbda =
      calculate2x2 asin (s.withLayers (l₁ ++ l₂)) theta lbda := by
  apply calculate2x2_congr asin hasin s _ _ theta lbda hreg hreg'
  · intro kx
    simp [prodS, charMat_zero]
  · intro kx
    simp [prodP, charMat_zero]

lemma regular_dup (m m₀ : Medium) (a b : List Medium) (hb : b ≠ []) (h : RegularChain m₀ (a ++ m :: b)) :
    RegularChain m₀ (a ++ m :: m :: b) := by
  induction a generalizing m₀ with
  | nil =>
    obtain ⟨h1, h2, h3, h4⟩ := h
    refine ⟨h1, h2, h3, ?_, ?_, ?_, h4⟩
    · cases b with
      | nil => exact absurd rfl hb
      | cons x y => exact h4.1
    · have : m.1 * Complex.cos m.2 ≠ 0 := by
        cases b with
        | nil => exact absurd rfl hb
        | cons x y => exact h4.1
      rw [← two_mul]
      exact mul_ne_zero two_ne_zero this
    · have : m.1 * Complex.cos m.2 ≠ 0 := by
        cases b with
        | nil => exact absurd rfl hb
        | cons x y => exact h4.1
      rw [← two_mul]
      exact mul_ne_zero two_ne_zero this
  | cons x a ih =>
    obtain ⟨h1, h2, h3, h4⟩ := h
    exact ⟨h1, h2, h3, ih _ h4⟩

/-- C34 for `Solver2x2`: cutting a layer in two does not change the result; the cut calculation divides by zero only if the uncut one
does. -/
theorem C34_split_2x2 (asin : ℂ → ℂ) (hasin : IsArcsin asin) (s : Stack) (l₁ l₂ : List (ℝ × Tensor))
    (eps : Tensor) (d₁ d₂ theta lbda : ℝ)
    (hreg : Regular2x2 asin (s.withLayers (l₁ ++ (d₁ + d₂, eps) :: l₂)) theta) :
    Regular2x2 asin (s.withLayers (l₁ ++ (d₁, eps) :: (d₂, eps) :: l₂)) theta ∧
    calculate2x2 asin (s.withLayers (l₁ ++ (d₁, eps) :: (d₂, eps) :: l₂)) theta lbda =
      calculate2x2 asin (s.withLayers (l₁ ++ (d₁ + d₂, eps) :: l₂)) theta lbda := by
  have hreg' : Regular2x2 asin (s.withLayers (l₁ ++ (d₁, eps) :: (d₂, eps) :: l₂)) theta := by
    unfold Regular2x2 at hreg ⊢
    simp only [Stack.withLayers, innerMedia, List.map_append, List.map_cons, List.map_map, List.append_assoc,
      List.cons_append] at hreg ⊢
    exact regular_dup _ _ _ _ (by simp) hreg
  refine ⟨hreg', ?_⟩
  apply calculate2x2_congr asin hasin s _ _ theta lbda hreg' hreg
  · intro kx
    simp only [prodS, List.map_append, List.map_cons, List.prod_append, List.prod_cons]
    rw [charMat_add]
    simp only [mul_assoc]
  · intro kx
    simp only [prodP, List.map_append, List.map_cons, List.prod_append, List.prod_cons]
    rw [charMat_add]
    simp only [mul_assoc]

/-- The coating of `demoStack` cut into 40 nm and 60 nm, and with an extra slice of thickness zero. -/
example (asin : ℂ → ℂ) (hasin : IsArcsin asin) :
    Regular2x2 asin ((demoStack 4).withLayers ([] ++ (40 + 60, isoTensor (9 / 4)) :: [])) 0 ∧
    Regular2x2 asin ((demoStack 4).withLayers ([(100, isoTensor (9 / 4))] ++ (0, isoTensor (9 / 4)) :: [])) 0 ∧
    Regular2x2 asin ((demoStack 4).withLayers ([(100, isoTensor (9 / 4))] ++ [])) 0 := by
  have h := (demo_regular asin hasin).1
  have h1 : (demoStack 4).withLayers ([] ++ (40 + 60, isoTensor (9 / 4)) :: []) = demoStack 4 := by
    norm_num [Stack.withLayers, demoStack]
  have h2 : (demoStack 4).withLayers ([] ++ (100 + 0, isoTensor (9 / 4)) :: []) = demoStack 4 := by
    norm_num [Stack.withLayers, demoStack]
  refine ⟨by rw [h1]; exact h, ?_, h⟩
  exact (C34_split_2x2 asin hasin (demoStack 4) [] [] (isoTensor (9 / 4)) 100 0 0 500 (by rw [h2]; exact h)).1

/-- A glass slab and a period of two slices: the hypotheses of `C39_repeated_layers`. -/
example : ∃ (m : Material) (p q r : List (ℝ × Tensor)) (f : Tensor), (m.getTensor 500).finite? = some f ∧
    finiteSlices (profileList [] 500) = some p ∧
    finiteSlices (profileList [.layer m 10, .layer m 20] 500) = some q ∧ q.length = 2 ∧
    finiteSlices (profileList [.layer m 30] 500) = some r := by
  have h : ((Material.single .isotropic (isotropicMaterial fun _ => 4)).getTensor 500).finite? =
      some ((isotropicMaterial fun _ => 4).getTensor 500) := by
    unfold NumTensor.finite?
    rw [dif_pos (by intro i j; rfl)]
    rfl
  refine ⟨.single .isotropic (isotropicMaterial fun _ => 4), [],
    [(10, (isotropicMaterial fun _ => 4).getTensor 500), (20, (isotropicMaterial fun _ => 4).getTensor 500)],
    [(30, (isotropicMaterial fun _ => 4).getTensor 500)], _, h, rfl, ?_, rfl, ?_⟩
  · simp only [profileList, LayerObj.profile, finiteSlices, List.append_nil, List.cons_append, List.nil_append, h,
      Option.bind_some, Option.map_some]
  · simp only [profileList, LayerObj.profile, finiteSlices, List.append_nil, h, Option.bind_some, Option.map_some]

end PyElli
