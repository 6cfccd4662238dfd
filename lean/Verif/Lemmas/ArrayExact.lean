import Verif.Model.ArrayExact
import Verif.Lemmas.ArrayCalc2
import Verif.Lemmas.Sqrt

/-! # The programs for one wavelength with exact arithmetic are the functions of `Model/Solver.lean` -/

namespace PyElli.Nd

open PyElli Matrix Complex

variable {asin : ℂ → ℂ} {eig : Mat4 → (Fin 4 → ℂ) × Mat4}

local notation "𝔼" => exact asin eig

section ops
variable (a b : ℂ) (q : ℚ)
@[simp] lemma exact_num : @Arith.num ℂ 𝔼 q = (q : ℂ) := rfl
@[simp] lemma exact_I : @Arith.I ℂ 𝔼 = Complex.I := rfl
@[simp] lemma exact_pi : @Arith.pi ℂ 𝔼 = (Real.pi : ℂ) := rfl
@[simp] lemma exact_add : @Arith.add ℂ 𝔼 a b = a + b := rfl
@[simp] lemma exact_sub : @Arith.sub ℂ 𝔼 a b = a - b := rfl
@[simp] lemma exact_mul : @Arith.mul ℂ 𝔼 a b = a * b := rfl
@[simp] lemma exact_div : @Arith.div ℂ 𝔼 a b = a / b := rfl
@[simp] lemma exact_neg : @Arith.neg ℂ 𝔼 a = -a := rfl
lemma exact_pow : @Arith.pow ℂ 𝔼 a b = a ^ b := rfl
@[simp] lemma exact_sqrt : @Arith.sqrt ℂ 𝔼 a = Complex.sqrt a := rfl
@[simp] lemma exact_sin : @Arith.sin ℂ 𝔼 a = Complex.sin a := rfl
@[simp] lemma exact_cos : @Arith.cos ℂ 𝔼 a = Complex.cos a := rfl
@[simp] lemma exact_asin : @Arith.arcsin ℂ 𝔼 a = asin a := rfl
@[simp] lemma exact_arctan : @Arith.arctan ℂ 𝔼 a = (Real.arctan a.re : ℂ) := rfl
@[simp] lemma exact_exp : @Arith.exp ℂ 𝔼 a = Complex.exp a := rfl
@[simp] lemma exact_deg2rad : @Arith.deg2rad ℂ 𝔼 a = a * ((Real.pi / 180 : ℝ) : ℂ) := rfl
@[simp] lemma exact_rad2deg : @Arith.rad2deg ℂ 𝔼 a = a * ((180 / Real.pi : ℝ) : ℂ) := rfl
@[simp] lemma exact_abs : @Arith.abs ℂ 𝔼 a = (‖a‖ : ℂ) := rfl
@[simp] lemma exact_real : @Arith.real ℂ 𝔼 a = (a.re : ℂ) := rfl
@[simp] lemma exact_imag : @Arith.imag ℂ 𝔼 a = (a.im : ℂ) := rfl
@[simp] lemma exact_conj : @Arith.conj ℂ 𝔼 a = starRingEnd ℂ a := rfl
@[simp] lemma exact_angle : @Arith.angleDeg ℂ 𝔼 a = (rad2deg (Complex.arg a) : ℂ) := rfl
@[simp] lemma exact_mod : @Arith.mod ℂ 𝔼 a b = ((a.re - b.re * ⌊a.re / b.re⌋ : ℝ) : ℂ) := rfl
@[simp] lemma exact_setImag : @Arith.setImag ℂ 𝔼 a b = ⟨a.re, b.re⟩ := rfl
open Classical in
@[simp] lemma exact_lt : @Arith.lt ℂ 𝔼 a b = decide (a.re < b.re) := rfl
open Classical in
@[simp] lemma exact_le : @Arith.le ℂ 𝔼 a b = decide (a.re ≤ b.re) := rfl
open Classical in
@[simp] lemma exact_eq : @Arith.eq ℂ 𝔼 a b = decide (a = b) := rfl
@[simp] lemma exact_sum (l : List ℂ) : @Arith.sum ℂ 𝔼 l = l.sum := rfl
@[simp] lemma exact_sq : @Arith.pow ℂ 𝔼 a 2 = a ^ 2 := by rw [exact_pow]; exact_mod_cast Complex.cpow_natCast a 2
@[simp] lemma exact_cube : @Arith.pow ℂ 𝔼 a 3 = a ^ 3 := by rw [exact_pow]; exact_mod_cast Complex.cpow_natCast a 3
open Classical in
lemma exact_inv (n : ℕ) (M : Fin n → Fin n → ℂ) :
    @Arith.inv ℂ 𝔼 n M = if Matrix.det (Matrix.of M) = 0 then .error .valueError else .ok ((Matrix.of M)⁻¹ : Matrix (Fin n) (Fin n) ℂ) := rfl
lemma exact_eig (M : Fin 4 → Fin 4 → ℂ) : @Arith.eig ℂ 𝔼 4 M = .ok (eig (Matrix.of M)) := rfl
lemma exact_expm (n : ℕ) (M : Fin n → Fin n → ℂ) : @Arith.expm ℂ 𝔼 n M = (NormedSpace.exp (Matrix.of M) : Matrix (Fin n) (Fin n) ℂ) := rfl
end ops

lemma exact_matMul {m p n : ℕ} (A : Fin m → Fin p → ℂ) (B : Fin p → Fin n → ℂ) : @matMul ℂ m n p 𝔼 A B = (Matrix.of A * Matrix.of B : Matrix _ _ ℂ) := by
  funext i j
  simp [matMul, Matrix.mul_apply, List.sum_ofFn, ← List.ofFn_eq_map]

/-! ## Materials -/

open Classical in
lemma exact_ema (k : EmaKind) {h g : ℂ} {f : Option ℝ} {c : ℂ} (hc : k.entryNum (some h) (some g) f = some c) :
    @pEma ℂ 𝔼 k (((f.getD 0 : ℝ)) : ℂ) h g = c := by
  cases f with
  | none =>
    cases k <;> simp only [EmaKind.entryNum, reduceCtorEq] at hc
    · split_ifs at hc with h0
      simp only [Option.some.injEq] at hc
      simp [pEma, h0.1, h0.2, ← hc]
    · split_ifs at hc with h0
      simp only [Option.some.injEq] at hc
      simp [pEma, h0, ← hc]
  | some x =>
    cases k with
    | vca =>
      simp only [EmaKind.entryNum, EmaKind.entry, Option.some.injEq] at hc
      simp [pEma, ← hc, vcaEntry]
    | looyenga =>
      simp only [EmaKind.entryNum, EmaKind.entry, Option.some.injEq] at hc
      simp [pEma, ← hc, looyengaEntry, exact_pow]
    | maxwellGarnett =>
      simp only [EmaKind.entryNum, EmaKind.entry, maxwellGarnettEntry] at hc
      split_ifs at hc with h0 h1
      · simp only [Option.some.injEq] at hc
        simp [pEma, h0.1, h0.2, ← hc]
      · simp only [Option.some.injEq] at hc
        have h2 : ¬ ((h = 0 : Bool) && (g = 0 : Bool)) = true := by simpa using h0
        simp only [pEma, exact_eq, exact_num, Rat.cast_zero]
        rw [if_neg h2, ← hc]
        simp
    | bruggeman =>
      simp only [EmaKind.entryNum, EmaKind.entry, bruggemanEntry] at hc
      split_ifs at hc with h0 h1
      · simp only [Option.some.injEq] at hc
        simp [pEma, h0, ← hc]
      · simp only [Option.some.injEq] at hc
        have h2 : ¬ (decide (h = g) = true) := by simpa using h0
        simp only [pEma, exact_eq]
        rw [if_neg h2, ← hc]
        norm_num [exact_sq]

lemma entryNum_some {k : EmaKind} {h g : Option ℂ} {f : Option ℝ} {c : ℂ} (hc : k.entryNum h g f = some c) : ∃ a b, h = some a ∧ g = some b := by
  cases h <;> cases g <;> simp_all [EmaKind.entryNum]

/-- The entries of a tensor are those of a tensor that may contain NaN, where they are not NaN. -/
def Agrees (E : Fin 3 → Fin 3 → ℂ) (t : NumTensor) : Prop := ∀ i j c, t i j = some c → E i j = c

lemma agrees_ema (k : EmaKind) {H G : Fin 3 → Fin 3 → ℂ} {h g : NumTensor} (hh : Agrees H h) (hg : Agrees G g) (f : Option ℝ) :
    Agrees (fun i j => @pEma ℂ 𝔼 k (((f.getD 0 : ℝ)) : ℂ) (H i j) (G i j)) (k.numTensor h g f) := by
  intro i j c hc
  obtain ⟨a, b, ha, hb⟩ := entryNum_some hc
  rw [EmaKind.numTensor, ha, hb] at hc
  beta_reduce
  rw [hh i j a ha, hg i j b hb]
  exact exact_ema k hc

lemma disp_eq {d : Disp ℂ} {f : ℝ → ℂ} (h : DispIs d f) {l : ℝ} {v : ℂ} (hv : pDisp d (l : ℂ) = .ok v) : v = f l := by
  cases h with
  | const h =>
    simp only [pDisp, Except.ok.injEq] at hv
    rw [h, hv]
  | fn h => exact (h l v hv).symm

lemma exact_rot (r : Mat3) (E : Fin 3 → Fin 3 → ℂ) :
    @pRot ℂ 𝔼 (some (castMat r)) E = (r.map Complex.ofReal * Matrix.of E * (r.map Complex.ofReal)ᵀ : Matrix _ _ ℂ) := by
  simp only [pRot, exact_matMul]
  rfl

lemma agrees_rotate (r : Mat3) {E : Fin 3 → Fin 3 → ℂ} {t : NumTensor} (h : Agrees E t) :
    Agrees (@pRot ℂ 𝔼 (some (castMat r)) E) (rotateNum r t) := by
  intro i j c hc
  by_cases hs : ∀ i j, (t i j).isSome
  swap
  · have hn : rotateNum r t = fun _ _ => none := by unfold rotateNum; exact dif_neg hs
    simp [hn] at hc
  have hn : rotateNum r t = fun i j => some ((r.map Complex.ofReal * (Matrix.of fun i j => (t i j).get (hs i j)) * (r.map Complex.ofReal)ᵀ) i j) := by
    unfold rotateNum
    exact dif_pos hs
  simp only [hn, Option.some.injEq] at hc
  rw [exact_rot, ← hc]
  have hE : E = fun i j => (t i j).get (hs i j) := by
    funext a b
    exact h a b _ (by simp)
  rw [hE]

lemma bind_ok {α β : Type} {x : Except PyErr α} {f : α → Except PyErr β} {b : β} (h : x.bind f = .ok b) : ∃ a, x = .ok a ∧ f a = .ok b := by
  cases x with
  | error e => simp [Except.bind] at h
  | ok a => exact ⟨a, rfl, h⟩

lemma exact_set {m n : ℕ} {r : Fin m} {c : Fin n} {d : Disp ℂ} {f : ℝ → ℂ} (h : DispIs d f) {l : ℝ} {F E : Fin m → Fin n → ℂ}
    (he : pSet r c d (l : ℂ) F = .ok E) : E = fun i j => if i = r ∧ j = c then f l else F i j := by
  obtain ⟨v, hv, h2⟩ := bind_ok he
  simp only [Except.ok.injEq] at h2
  rw [← h2, disp_eq h hv]

lemma agrees_tensor {l : ℝ} : ∀ {M : Mat ℂ} {m : Material}, MatIs M m → ∀ {E}, @pTensor ℂ 𝔼 M (l : ℂ) = .ok E → Agrees E (m.getTensor l)
  | _, _, @MatIs.single cls x y z m hx hy hz, E, he => by
    obtain ⟨E1, h1, he⟩ := bind_ok he
    obtain ⟨E2, h2, he⟩ := bind_ok he
    obtain ⟨E3, h3, he⟩ := bind_ok he
    have e1 := exact_set hx h1
    have e2 := exact_set hy h2
    have e3 := exact_set hz h3
    have key : E3 = (Matrix.diagonal ![m.dispersionX l, m.dispersionY l, m.dispersionZ l] : Matrix _ _ ℂ) := by
      rw [e3, e2, e1]
      funext i j
      fin_cases i <;> fin_cases j <;> simp [Matrix.diagonal]
    simp only [Except.ok.injEq] at he
    intro i j c hc
    simp only [Material.getTensor, SingleMaterial.getTensor, Option.some.injEq] at hc
    rw [← he, ← hc]
    cases m.rotation with
    | none => simp only [Option.map_none, pRot, key]
    | some r =>
      simp only [Option.map_some, exact_rot, key]
      rfl
  | _, _, @MatIs.mixture k h g h' g' f hh hg, E, he => by
    obtain ⟨H, h1, he⟩ := bind_ok he
    obtain ⟨G, h2, he⟩ := bind_ok he
    simp only [Except.ok.injEq] at he
    rw [← he]
    exact agrees_ema k (agrees_tensor hh h1) (agrees_tensor hg h2) (some f)

/-! ## Layers -/

/-- A slice of one wavelength and one that may contain NaN. -/
def SliceIs (p : PSlice ℂ) (s : Slice) : Prop := p.1 = (s.d : ℂ) ∧ Agrees p.2 s.eps

lemma traverse_zip {α β : Type} {f : α → Except PyErr (PSlice ℂ)} {g : ℝ → ℝ → α} {h : ℝ → ℝ → Slice}
    (hf : ∀ d x c, f (g d x) = .ok c → SliceIs c (h d x)) :
    ∀ {D Z : List ℝ} {p : List (PSlice ℂ)}, traverseList f (List.zipWith g D Z) = .ok p → List.Forall₂ SliceIs p (List.zipWith h D Z)
  | [], _, p, e => by
    simp only [List.zipWith_nil_left, traverseList, Except.ok.injEq] at e ⊢
    subst e
    exact .nil
  | _ :: _, [], p, e => by
    simp only [List.zipWith_nil_right, traverseList, Except.ok.injEq] at e ⊢
    subst e
    exact .nil
  | d :: D, x :: Z, p, e => by
    simp only [List.zipWith_cons_cons, traverseList] at e ⊢
    cases hfa : f (g d x) with
    | error e' => simp [hfa] at e
    | ok c =>
      simp only [hfa] at e
      cases ht : traverseList f (List.zipWith g D Z) with
      | error e' => simp [ht] at e
      | ok q =>
        simp only [ht, Except.ok.injEq] at e
        subst e
        exact .cons (hf d x c hfa) (traverse_zip (β := β) hf ht)

lemma forall_repeated {p : List (PSlice ℂ)} {q : List Slice} (h : List.Forall₂ SliceIs p q) (n b a : ℕ) :
    List.Forall₂ SliceIs (repeatedSlices p n b a) (repeatedSlices q n b a) := by
  simp only [repeatedSlices]
  refine List.rel_append (List.rel_append ?_ ?_) (List.forall₂_take a h)
  · split_ifs
    · rw [h.length_eq]
      exact List.forall₂_drop _ h
    · exact .nil
  · induction n with
    | zero => simp
    | succ n ih =>
      simp only [List.replicate_succ, List.flatten_cons]
      exact List.rel_append h ih

lemma zipWith_mk (D Z : List ℝ) (t : ℝ → NumTensor) : List.zipWith Slice.mk D (Z.map t) = List.zipWith (fun d x => ⟨d, t x⟩) D Z := by
  rw [List.zipWith_map_right]

mutual
lemma lay_is {l : ℝ} : ∀ {L : Lay ℂ} {y : LayerObj}, LayIs L y → ∀ {p}, @pLay ℂ 𝔼 L (l : ℂ) = .ok p → List.Forall₂ SliceIs p (y.profile l)
  | _, _, @LayIs.layer m m' d h, p, e => by
    simp only [pLay] at e
    obtain ⟨E, h1, e⟩ := bind_ok e
    simp only [Except.ok.injEq] at e
    subst e
    simp only [LayerObj.profile]
    exact .cons ⟨rfl, agrees_tensor h h1⟩ .nil
  | _, _, @LayIs.twisted m m' t angle div h, p, e => by
    simp only [pLay, twistedSlices] at e
    simp only [LayerObj.profile, inhomogeneousProfile, zipWith_mk]
    refine traverse_zip (β := ℂ) (fun d x c hc => ?_) e
    obtain ⟨E, h1, hc⟩ := bind_ok hc
    simp only [Except.ok.injEq] at hc
    subst hc
    refine ⟨rfl, ?_⟩
    simp only [twistedTensor, floatDiv]
    split_ifs with ht
    · intro i j c hc
      simp at hc
    · exact agrees_rotate _ (agrees_tensor h h1)
  | _, _, @LayIs.varying k a g a' g' t div md ha hg, p, e => by
    simp only [pLay, varyingSlices] at e
    simp only [LayerObj.profile, inhomogeneousProfile, zipWith_mk]
    refine traverse_zip (β := ℂ) (fun d x c hc => ?_) e
    obtain ⟨H, h1, hc⟩ := bind_ok hc
    obtain ⟨G, h2, hc⟩ := bind_ok hc
    simp only [Except.ok.injEq] at hc
    subst hc
    exact ⟨rfl, agrees_ema k (agrees_tensor ha h1) (agrees_tensor hg h2) _⟩
  | _, _, @LayIs.repeated ls ls' n b a h, p, e => by
    simp only [pLay] at e
    obtain ⟨q, h1, e⟩ := bind_ok e
    simp only [Except.ok.injEq] at e
    subst e
    simp only [LayerObj.profile]
    exact forall_repeated (lays_are h h1) n b a

lemma lays_are {l : ℝ} : ∀ {L : List (Lay ℂ)} {y : List LayerObj}, LaysAre L y → ∀ {p}, @pLays ℂ 𝔼 L (l : ℂ) = .ok p →
    List.Forall₂ SliceIs p (profileList y l)
  | _, _, .nil, p, e => by
    simp only [pLays, Except.ok.injEq] at e
    subst e
    simp [profileList]
  | _, _, @LaysAre.cons L y Ls ys h hs, p, e => by
    simp only [pLays] at e
    obtain ⟨a, h1, e⟩ := bind_ok e
    obtain ⟨b, h2, e⟩ := bind_ok e
    simp only [Except.ok.injEq] at e
    subst e
    simp only [profileList]
    exact List.rel_append (lay_is h h1) (lays_are hs h2)
end

lemma finite_entry {t : NumTensor} {e : Tensor} (h : t.finite? = some e) (i j : Fin 3) : t i j = some (e i j) := by
  unfold NumTensor.finite? at h
  split_ifs at h with hs
  have h := Option.some.inj h
  rw [← h]
  simp

lemma agrees_finite {E : Fin 3 → Fin 3 → ℂ} {t : NumTensor} {e : Tensor} (h : Agrees E t) (he : t.finite? = some e) : E = e := by
  funext i j
  exact h i j _ (finite_entry he i j)

/-- Real thicknesses as complex numbers. -/
def castSlice (s : ℝ × Tensor) : PSlice ℂ := ((s.1 : ℂ), s.2)

/-- The profile of a stack. -/
def castStack (st : Stack) : PSetup ℂ := ⟨st.front, st.layers.map castSlice, st.back⟩

lemma slices_finite : ∀ {p : List (PSlice ℂ)} {q : List Slice}, List.Forall₂ SliceIs p q → ∀ {r}, finiteSlices q = some r → p = r.map castSlice
  | _, _, .nil, r, h => by
    simp only [finiteSlices, Option.some.injEq] at h
    rw [← h]
    rfl
  | a :: p, b :: q, .cons h1 h2, r, h => by
    simp only [finiteSlices, Option.bind_eq_some_iff, Option.map_eq_some_iff] at h
    obtain ⟨e, he, t, ht, rfl⟩ := h
    rw [slices_finite h2 ht, List.map_cons]
    congr 1
    exact Prod.ext h1.1 (agrees_finite h1.2 he)

lemma isIsotropic_eq {M : Mat ℂ} {m : Material} (h : MatIs M m) : M.isIsotropicClass = m.isIsotropicClass := by
  cases h with
  | @single cls => cases cls <;> rfl
  | mixture => rfl

lemma setup_eq {s : StructArr ℂ} {s' : Struct} (h : StructIs s s') {l : ℝ} {ps : PSetup ℂ} (hp : @pSetup ℂ 𝔼 s (l : ℂ) = .ok ps) {st : Stack}
    (hs : s'.stack l = some st) : ps = castStack st ∧ s.back.isIsotropicClass = st.backIsotropic := by
  obtain ⟨f, h1, hp⟩ := bind_ok hp
  obtain ⟨p, h2, hp⟩ := bind_ok hp
  obtain ⟨b, h3, hp⟩ := bind_ok hp
  have hp := Except.ok.inj hp
  simp only [Struct.stack, Option.bind_eq_some_iff, Option.map_eq_some_iff] at hs
  obtain ⟨f', hf, ls, hl, b', hb, rfl⟩ := hs
  refine ⟨?_, isIsotropic_eq h.back⟩
  rw [← hp, agrees_finite (agrees_tensor h.front h1) hf, agrees_finite (agrees_tensor h.back h3) hb, slices_finite (lays_are h.layers h2) hl]
  rfl

end PyElli.Nd
