import Verif.Lemmas.DispValue
import Verif.Spec.DispSum

/-! # Adding dispersions (C50, C51, C52, C54) -/

namespace PyElli.Disp

lemma sumOf_add (x y : Val) : Spec.SumOf (Val.add x y) x y := by
  intro v
  rw [Val.add_ok_iff]
  constructor
  · rintro ⟨a, b, h1, h2, h3⟩
    exact ⟨a, b, h1, h2, by rw [h3]; cases a <;> cases b <;> rfl⟩
  · rintro ⟨a, b, h1, h2, h3⟩
    exact ⟨a, b, h1, h2, by rw [h3]; cases a <;> cases b <;> rfl⟩

lemma sumOf_swap {z x y : Val} (h : Spec.SumOf z x y) : Spec.SumOf z y x := by
  intro v
  rw [h v]
  constructor
  · rintro ⟨u, w, h1, h2, h3⟩
    exact ⟨w, u, h2, h1, by rw [h3]; cases u <;> cases w <;> simp [add_comm]⟩
  · rintro ⟨u, w, h1, h2, h3⟩
    exact ⟨w, u, h2, h1, by rw [h3]; cases u <;> cases w <;> simp [add_comm]⟩

/-- Result of an addition: a flat sum of the operands' family. -/
def FlatSum (m : Mem) (r : ℕ) : Prop :=
  (∃ cs, m[r]? = some (.epsSum cs) ∧ ∀ c ∈ cs, ∃ k v, m[c]? = some (.leaf k v) ∧ k.isEps = true) ∨
  (∃ cs, m[r]? = some (.idxSum cs) ∧ ∀ c ∈ cs, (∃ k v, m[c]? = some (.leaf k v) ∧ k.isEps = false) ∨ ∃ o, m[c]? = some (.view o))

lemma addObj_value {m m' : Mem} {a b r : ℕ} (hm : Inv m) (h : addObj m a b = .ok (m', r)) {k : ℕ} (hk : 6 ≤ k) (l : ℝ) :
    Spec.SumOf (natural m' l k r) (natural m l k a) (natural m l k b) ∧ FlatSum m' r := by
  have hm' := (addObj_inv hm h).1
  rcases addObj_ok h with ⟨h1, h2, h3⟩ | ⟨h1, h2, h3⟩
  · obtain ⟨cs, hcs⟩ : ∃ cs, m'[r]? = some (.epsSum cs) := by
      rcases h3.res with h | h <;> exact ⟨_, h⟩
    have hr : IsEpsObj m' r := ⟨_, hcs, rfl⟩
    rw [natural_eps hm l h1 hk, natural_eps hm l h2 hk, natural_eps hm' l hr hk]
    refine ⟨?_, Or.inl ⟨cs, hcs, hm' r _ hcs⟩⟩
    rcases h3.value_eps hm h1 h2 l with h | h
    · rw [h]; exact sumOf_add _ _
    · rw [h]; exact sumOf_swap (sumOf_add _ _)
  · obtain ⟨cs, hcs⟩ : ∃ cs, m'[r]? = some (.idxSum cs) := by
      rcases h3.res with h | h <;> exact ⟨_, h⟩
    have hr : IsIdxObj m' r := ⟨_, hcs, rfl⟩
    rw [natural_idx hm l h1 hk, natural_idx hm l h2 hk, natural_idx hm' l hr hk]
    refine ⟨?_, Or.inr ⟨cs, hcs, hm' r _ hcs⟩⟩
    rcases h3.value_idx hm h1 h2 l with h | h
    · rw [h]; exact sumOf_add _ _
    · rw [h]; exact sumOf_swap (sumOf_add _ _)

/-- C50: after any history, an accepted `a + b` is a flat sum of the family of its operands, and its value (dielectric function for
dielectric dispersions, index for index dispersions) is the sum of the values the operands had, at every wavelength. Evaluation never
needs more than six nested calls. -/
theorem C50_value (h : List Op) (a b : ℕ) (m' : Mem) (r : ℕ) (hab : addObj (run h) a b = .ok (m', r)) (k : ℕ) (hk : 6 ≤ k)
    (l : ℝ) : Spec.SumOf (natural m' l k r) (natural (run h) l k a) (natural (run h) l k b) ∧ FlatSum m' r :=
  addObj_value (inv_run h) hab hk l

/-- C50: which additions are accepted. A pseudo-dielectric function on the left and pairs of tables are refused with
`NotImplementedError`, operands of different families with `TypeError`; everything else works. -/
theorem C50_accepts (m : Mem) (a b : ℕ) (oa ob : Obj) (ha : m[a]? = some oa) (hb : m[b]? = some ob) :
    ((∃ p, addObj m a b = .ok p) ↔ oa.isEps = ob.isEps ∧ (∀ v, oa ≠ .leaf .pseudo v) ∧
      ¬ (∃ v w, oa = .leaf .tableEps v ∧ ob = .leaf .tableEps w) ∧ ¬ (∃ v w, oa = .leaf .table v ∧ ob = .leaf .table w)) ∧
    (oa.isEps ≠ ob.isEps → (∀ v, oa ≠ .leaf .pseudo v) → addObj m a b = .error .typeError) ∧
    ((∃ v, oa = .leaf .pseudo v) ∨ (∃ v w, oa = .leaf .tableEps v ∧ ob = .leaf .tableEps w) ∨
      (∃ v w, oa = .leaf .table v ∧ ob = .leaf .table w) → addObj m a b = .error .notImplemented) := by
  have hal : Allowed oa ob ↔ oa.isEps = ob.isEps ∧ (∀ v, oa ≠ .leaf .pseudo v) ∧
      ¬ (∃ v w, oa = .leaf .tableEps v ∧ ob = .leaf .tableEps w) ∧ ¬ (∃ v w, oa = .leaf .table v ∧ ob = .leaf .table w) := by
    cases oa with
    | leaf k v =>
      cases k <;> cases ob with
      | leaf k' v' => cases k' <;> simp [Allowed, Obj.isEps, Kind.isEps]
      | _ => simp [Allowed, Obj.isEps, Kind.isEps]
    | _ => cases ob <;> simp [Allowed, Obj.isEps]
  obtain ⟨s1, s2, s3⟩ := addObj_spec ha hb
  refine ⟨?_, ?_, ?_⟩
  · rw [← hal]
    constructor
    · rintro ⟨p, hp⟩
      by_contra hn
      obtain ⟨e, he⟩ := s3 hn
      rw [hp] at he
      cases he
    · intro h
      cases he : oa.isEps with
      | true => obtain ⟨m', r, h1, -⟩ := s1 h he; exact ⟨_, h1⟩
      | false => obtain ⟨m', r, h1, -⟩ := s2 h he; exact ⟨_, h1⟩
  · intro hne hp
    unfold addObj
    rw [ha, hb]
    cases oa with
    | leaf k v =>
      cases k <;> cases ob with
      | leaf k' v' => cases k' <;> simp_all [Obj.isEps, Kind.isEps]
      | _ => simp_all [Obj.isEps, Kind.isEps]
    | epsSum cs => cases ob <;> simp_all [Obj.isEps, addToEpsSum, Except.map]
    | idxSum cs => cases ob <;> simp_all [Obj.isEps, addToIdxSum, Except.map]
    | view o => cases ob <;> simp_all [Obj.isEps]
  · rintro (⟨v, rfl⟩ | ⟨v, w, rfl, rfl⟩ | ⟨v, w, rfl, rfl⟩)
    · simp [addObj, ha, hb]
    · simp [addObj, ha, hb]
    · simp [addObj, ha, hb]

lemma natural_agree {m m' : Mem} (hm : Inv m) (hm' : Inv m') (hag : ∀ x, x < m.length → m'[x]? = m[x]?) {a : ℕ}
    (ha : a < m.length) {k : ℕ} (hk : 6 ≤ k) (l : ℝ) : natural m' l k a = natural m l k a := by
  have hlt : ∀ {c}, IsEpsLeaf m c → c < m.length := fun ⟨_, _, h, _⟩ => lt_of_some h
  have heps : ∀ o, IsEpsObj m o → epsV m' l o = epsV m l o := fun o ho =>
    epsV_congr (hag o (lt_of_some ho.choose_spec.1)) (fun c hc => hag c (hlt (flatE_ok hm ho c hc))) l
  obtain ⟨o, ho⟩ : ∃ o, m[a]? = some o := ⟨m[a], List.getElem?_eq_getElem ha⟩
  cases he : o.isEps with
  | true =>
    have h1 : IsEpsObj m a := ⟨o, ho, he⟩
    have h2 : IsEpsObj m' a := ⟨o, by rw [hag a ha]; exact ho, he⟩
    rw [natural_eps hm l h1 hk, natural_eps hm' l h2 hk, heps a h1]
  | false =>
    have h1 : IsIdxObj m a := ⟨o, ho, he⟩
    have h2 : IsIdxObj m' a := ⟨o, by rw [hag a ha]; exact ho, he⟩
    rw [natural_idx hm l h1 hk, natural_idx hm' l h2 hk]
    have hit : ∀ c ∈ flatI m a, m'[c]? = m[c]? := by
      intro c hc
      rcases flatI_ok hm h1 c hc with ⟨_, _, h, _⟩ | ⟨_, h⟩
      · exact hag c (lt_of_some h)
      · exact hag c (lt_of_some h)
    exact idxV_congr (hag a ha) hit l fun c _ o ho => heps o (hm c _ ho)

lemma natural_const {m : Mem} {a : ℕ} {kd : Kind} {x : ℝ} (h : m[a]? = some (constLeaf kd x)) (l : ℝ) {k : ℕ} (hk : 6 ≤ k) :
    natural m l k a = .ok (some (x : ℂ)) := by
  obtain ⟨n, rfl⟩ := Nat.exists_eq_add_of_le' hk
  rw [natural, h]
  cases kd <;> simp [constLeaf, Obj.isEps, Kind.isEps, call, h]

/-- Everything about an accepted `a + x`. -/
lemma addNum_value {m m' : Mem} {a r : ℕ} {x : ℝ} (hm : Inv m) (h : addNum m a x = .ok (m', r)) {k : ℕ} (hk : 6 ≤ k) (l : ℝ) :
    Spec.SumOf (natural m' l k r) (natural m l k a) (.ok (some (x : ℂ))) ∧ FlatSum m' r ∧
    ∃ kd, addObj (m ++ [constLeaf kd x]) a m.length = .ok (m', r) := by
  cases ha : m[a]? with
  | none => simp [addNum, ha] at h
  | some oa =>
    rw [addNum_eq ha] at h
    have key : ∀ kd, addObj (m ++ [constLeaf kd x]) a m.length = .ok (m', r) →
        Spec.SumOf (natural m' l k r) (natural m l k a) (.ok (some (x : ℂ))) ∧ FlatSum m' r ∧
        ∃ kd, addObj (m ++ [constLeaf kd x]) a m.length = .ok (m', r) := by
      intro kd hkd
      have hi := inv_alloc hm (o := constLeaf kd x) trivial
      obtain ⟨h1, h2⟩ := addObj_value hi hkd hk l
      have e1 : natural (m ++ [constLeaf kd x]) l k a = natural m l k a :=
        natural_agree hm hi (fun y hy => List.getElem?_append_left hy) (lt_of_some ha) hk l
      rw [natural_const (get_alloc_self m (constLeaf kd x)) l hk, e1] at h1
      exact ⟨h1, h2, kd, hkd⟩
    cases oa with
    | leaf kd v =>
      cases kd with
      | pseudo => simp at h
      | table => simp at h
      | _ => exact key _ h
    | _ => exact key _ h

/-- C50: `a + x` and `x + a` for a number give the values of `a` shifted by `x` (same code for both). -/
theorem C50_number (h : List Op) (a : ℕ) (x : ℝ) (m' : Mem) (r : ℕ) (hab : addNum (run h) a x = .ok (m', r)) (k : ℕ)
    (hk : 6 ≤ k) (l : ℝ) : Spec.SumOf (natural m' l k r) (natural (run h) l k a) (.ok (some (x : ℂ))) ∧ FlatSum m' r :=
  ⟨(addNum_value (inv_run h) hab hk l).1, (addNum_value (inv_run h) hab hk l).2.1⟩

/-! ### Whole expressions -/

/-- A Python value in an expression. -/
inductive PyVal
  | obj (a : ℕ)
  | num (x : ℝ)

/-- Python's `v + w`. -/
noncomputable def addVal (m : Mem) : PyVal → PyVal → Except PyErr (Mem × PyVal)
  | .num x, .num y => .ok (m, .num (x + y))
  | .obj a, .num x | .num x, .obj a => (addNum m a x).map fun p => (p.1, .obj p.2)
  | .obj a, .obj b => (addObj m a b).map fun p => (p.1, .obj p.2)

/-- Evaluation of an expression, left operand first. -/
noncomputable def eval (m : Mem) : Spec.Expr → Except PyErr (Mem × PyVal)
  | .ref a => .ok (m, .obj a)
  | .num x => .ok (m, .num x)
  | .add e₁ e₂ => do
    let (m1, v) ← eval m e₁
    let (m2, w) ← eval m1 e₂
    addVal m2 v w

/-- The value of a result. -/
noncomputable def valueOf (m : Mem) (l : ℝ) (k : ℕ) : PyVal → Val
  | .obj a => natural m l k a
  | .num x => .ok (some (x : ℂ))

/-- Not a sum object. -/
def Plain (m : Mem) (a : ℕ) : Prop := ∃ o, m[a]? = some o ∧ (∀ cs, o ≠ .epsSum cs) ∧ (∀ cs, o ≠ .idxSum cs)

def IsSum (m : Mem) (a : ℕ) : Prop := ∃ cs, m[a]? = some (.epsSum cs) ∨ m[a]? = some (.idxSum cs)

lemma addObj_target {m m' : Mem} {a b r : ℕ} (h : addObj m a b = .ok (m', r)) :
    IsSum m' r ∧ (∀ x, x ≠ r → m'[x]? = m[x]?) ∧ (r = m.length ∨ ((r = a ∨ r = b) ∧ IsSum m r)) ∧ m.length ≤ m'.length := by
  have fin : ∀ (hs : IsSum m' r) (ho : ∀ x, x ≠ r → m'[x]? = m[x]?), m.length ≤ m'.length := by
    intro hs ho
    by_contra hlt
    have hx : m'.length < m.length := by omega
    have hr : r < m'.length := by
      obtain ⟨cs, h | h⟩ := hs
      · exact lt_of_some h
      · exact lt_of_some h
    have h1 := ho m'.length (by omega)
    rw [List.getElem?_eq_none (le_refl _), List.getElem?_eq_getElem hx] at h1
    cases h1
  rcases addObj_ok h with ⟨h1, h2, h3⟩ | ⟨h1, h2, h3⟩
  · have hs : IsSum m' r := by rcases h3.res with h | h <;> exact ⟨_, Or.inl h⟩
    refine ⟨hs, h3.others, ?_, fin hs h3.others⟩
    rcases h3.target with h | ⟨h, cs, hcs⟩
    · exact Or.inl h
    · exact Or.inr ⟨h, cs, Or.inl hcs⟩
  · have hs : IsSum m' r := by rcases h3.res with h | h <;> exact ⟨_, Or.inr h⟩
    refine ⟨hs, h3.others, ?_, fin hs h3.others⟩
    rcases h3.target with h | ⟨h, cs, hcs⟩
    · exact Or.inl h
    · exact Or.inr ⟨h, cs, Or.inr hcs⟩

lemma not_isSum_of_plain {m : Mem} {a : ℕ} (h : Plain m a) : ¬ IsSum m a := by
  rintro ⟨cs, h'⟩
  obtain ⟨o, h1, h2, h3⟩ := h
  rw [h1] at h'
  rcases h' with h' | h'
  · exact h2 cs (Option.some.inj h')
  · exact h3 cs (Option.some.inj h')

/-- A result of evaluation: a number, a plain object that existed before, or an object made by the expression. -/
def Fresh (m m' : Mem) : PyVal → Prop
  | .num _ => True
  | .obj r => r < m'.length ∧ (r < m.length → Plain m r)

lemma eval_spec (l : ℝ) {k : ℕ} (hk : 6 ≤ k) (f : ℕ → Option ℂ) (e : Spec.Expr) : ∀ (m m' : Mem) (v : PyVal), Inv m →
    (∀ a ∈ e.refs, Plain m a) → eval m e = .ok (m', v) →
    Inv m' ∧ m.length ≤ m'.length ∧ (∀ x, x < m.length → m'[x]? = m[x]?) ∧ Fresh m m' v ∧
    ((∀ a ∈ e.refs, natural m l k a = .ok (f a)) → valueOf m' l k v = .ok (e.total f)) := by
  induction e with
  | ref a =>
    intro m m' v hm hr h
    simp only [eval, Except.ok.injEq, Prod.mk.injEq] at h
    obtain ⟨rfl, rfl⟩ := h
    have hp := hr a (by simp [Spec.Expr.refs])
    refine ⟨hm, le_refl _, fun _ _ => rfl, ⟨lt_of_some hp.choose_spec.1, fun _ => hp⟩, fun hv => ?_⟩
    exact hv a (by simp [Spec.Expr.refs])
  | num x =>
    intro m m' v hm hr h
    simp only [eval, Except.ok.injEq, Prod.mk.injEq] at h
    obtain ⟨rfl, rfl⟩ := h
    exact ⟨hm, le_refl _, fun _ _ => rfl, trivial, fun _ => rfl⟩
  | add e₁ e₂ ih₁ ih₂ =>
    intro m m' v hm hr h
    simp only [eval, bind, Except.bind] at h
    cases h1 : eval m e₁ with
    | error e => rw [h1] at h; cases h
    | ok p =>
      obtain ⟨m1, v1⟩ := p
      rw [h1] at h
      simp only at h
      cases h2 : eval m1 e₂ with
      | error e => rw [h2] at h; cases h
      | ok q =>
        obtain ⟨m2, v2⟩ := q
        rw [h2] at h
        simp only at h
        obtain ⟨i1, l1, a1, f1, t1⟩ := ih₁ m m1 v1 hm (fun a ha => hr a (by simp [Spec.Expr.refs, ha])) h1
        have hplain : ∀ a ∈ e₂.refs, Plain m1 a := by
          intro a ha
          obtain ⟨o, ho, hp⟩ := hr a (by simp [Spec.Expr.refs, ha])
          exact ⟨o, by rw [a1 a (lt_of_some ho)]; exact ho, hp⟩
        obtain ⟨i2, l2, a2, f2, t2⟩ := ih₂ m1 m2 v2 i1 hplain h2
        have a02 : ∀ x, x < m.length → m2[x]? = m[x]? := fun x hx => by rw [a2 x (by omega), a1 x hx]
        have hval1 : valueOf m2 l k v1 = valueOf m1 l k v1 := by
          cases v1 with
          | num x => rfl
          | obj r => exact natural_agree i1 i2 a2 f1.1 hk l
        have hrefs2 : (∀ a ∈ (Spec.Expr.add e₁ e₂).refs, natural m l k a = .ok (f a)) →
            ∀ a ∈ e₂.refs, natural m1 l k a = .ok (f a) := by
          intro hv a ha
          have hpa := hr a (by simp [Spec.Expr.refs, ha])
          rw [natural_agree hm i1 a1 (lt_of_some hpa.choose_spec.1) hk l]
          exact hv a (by simp [Spec.Expr.refs, ha])
        have hrefs1 : (∀ a ∈ (Spec.Expr.add e₁ e₂).refs, natural m l k a = .ok (f a)) →
            ∀ a ∈ e₁.refs, natural m l k a = .ok (f a) := fun hv a ha => hv a (by simp [Spec.Expr.refs, ha])
        have g1 : ∀ r, v1 = .obj r → (r < m.length → Plain m2 r) ∧ r < m2.length := by
          rintro r rfl
          refine ⟨fun hlt => ?_, lt_of_lt_of_le f1.1 l2⟩
          obtain ⟨o, ho, hp⟩ := f1.2 hlt
          exact ⟨o, by rw [a02 r hlt]; exact ho, hp⟩
        have g2 : ∀ r, v2 = .obj r → (r < m.length → Plain m2 r) ∧ r < m2.length := by
          rintro r rfl
          refine ⟨fun hlt => ?_, f2.1⟩
          obtain ⟨o, ho, hp⟩ := f2.2 (by omega)
          exact ⟨o, by rw [a2 r (by omega)]; exact ho, hp⟩
        have hsum : (∀ a ∈ (Spec.Expr.add e₁ e₂).refs, natural m l k a = .ok (f a)) →
            ∀ z, Spec.SumOf z (valueOf m2 l k v1) (valueOf m2 l k v2) → z = .ok ((Spec.Expr.add e₁ e₂).total f) := by
          intro hv z hz
          rw [hval1, t1 (hrefs1 hv), t2 (hrefs2 hv)] at hz
          exact (hz _).2 ⟨_, _, rfl, rfl, rfl⟩
        -- the addition of two objects, in a memory that extends `m2`
        have hobj : ∀ (n : Mem) (a b : ℕ) (p : Mem × ℕ), m2.length ≤ n.length → (∀ x, x < m2.length → n[x]? = m2[x]?) →
            (a < m.length → Plain m2 a) → (b < m.length → Plain m2 b) → addObj n a b = .ok p →
            m.length ≤ p.1.length ∧ (∀ x, x < m.length → p.1[x]? = m[x]?) ∧ Fresh m p.1 (.obj p.2) := by
          intro n a b p hn hnx ha hb hp
          obtain ⟨t, o, tg, le⟩ := addObj_target (m' := p.1) (r := p.2) hp
          have hlt : p.2 < p.1.length := by
            obtain ⟨cs, h | h⟩ := t
            · exact lt_of_some h
            · exact lt_of_some h
          have hge : m.length ≤ p.2 := by
            rcases tg with h | ⟨h, hs⟩
            · omega
            · by_contra hc
              have hps : Plain m2 p.2 := by
                rcases h with h | h
                · rw [h]; exact ha (by omega)
                · rw [h]; exact hb (by omega)
              refine not_isSum_of_plain hps ?_
              obtain ⟨cs, h'⟩ := hs
              exact ⟨cs, by rw [← hnx p.2 (by omega)]; exact h'⟩
          refine ⟨by omega, ?_, hlt, fun hc => absurd hc (by omega)⟩
          intro x hx
          rw [o x (by omega), hnx x (by omega), a02 x hx]
        have hnum : ∀ (a : ℕ) (x : ℝ) (p : Mem × ℕ), (a < m.length → Plain m2 a) → addNum m2 a x = .ok p →
            m.length ≤ p.1.length ∧ (∀ x, x < m.length → p.1[x]? = m[x]?) ∧ Fresh m p.1 (.obj p.2) := by
          intro a x p ha hp
          obtain ⟨-, -, kd, hkd⟩ := addNum_value (m' := p.1) (r := p.2) i2 hp hk l
          exact hobj _ a m2.length p (by simp) (fun y hy => List.getElem?_append_left hy) ha (fun hc => absurd hc (by omega)) hkd
        cases v1 with
        | num x =>
          cases v2 with
          | num y =>
            simp only [addVal, Except.ok.injEq, Prod.mk.injEq] at h
            obtain ⟨rfl, rfl⟩ := h
            refine ⟨i2, by omega, a02, trivial, fun hv => ?_⟩
            refine hsum hv _ ?_
            intro u
            simp [valueOf, eq_comm]
          | obj b =>
            simp only [addVal] at h
            cases hp : addNum m2 b x with
            | error e => rw [hp] at h; cases h
            | ok p =>
              rw [hp] at h
              simp only [Except.map, Except.ok.injEq, Prod.mk.injEq] at h
              obtain ⟨rfl, rfl⟩ := h
              obtain ⟨q1, q2, q3⟩ := hnum b x p (g2 b rfl).1 hp
              refine ⟨(addNum_inv (m' := p.1) (r := p.2) i2 hp).1, q1, q2, q3, fun hv => ?_⟩
              exact hsum hv _ (sumOf_swap (addNum_value (m' := p.1) (r := p.2) i2 hp hk l).1)
        | obj a =>
          cases v2 with
          | num y =>
            simp only [addVal] at h
            cases hp : addNum m2 a y with
            | error e => rw [hp] at h; cases h
            | ok p =>
              rw [hp] at h
              simp only [Except.map, Except.ok.injEq, Prod.mk.injEq] at h
              obtain ⟨rfl, rfl⟩ := h
              obtain ⟨q1, q2, q3⟩ := hnum a y p (g1 a rfl).1 hp
              refine ⟨(addNum_inv (m' := p.1) (r := p.2) i2 hp).1, q1, q2, q3, fun hv => ?_⟩
              exact hsum hv _ (addNum_value (m' := p.1) (r := p.2) i2 hp hk l).1
          | obj b =>
            simp only [addVal] at h
            cases hp : addObj m2 a b with
            | error e => rw [hp] at h; cases h
            | ok p =>
              rw [hp] at h
              simp only [Except.map, Except.ok.injEq, Prod.mk.injEq] at h
              obtain ⟨rfl, rfl⟩ := h
              obtain ⟨q1, q2, q3⟩ := hobj m2 a b p (le_refl _) (fun _ _ => rfl) (g1 a rfl).1 (g2 b rfl).1 hp
              refine ⟨(addObj_inv (m' := p.1) (r := p.2) i2 hp).1, q1, q2, q3, fun hv => ?_⟩
              exact hsum hv _ (addObj_value (m' := p.1) (r := p.2) i2 hp hk l).1

/-- C50: every expression written with `+` over models, tables, index views and numbers that is accepted has as value the sum of the
values of its terms, whatever the bracketing, and evaluating it changes none of the objects it mentions. -/
theorem C50_expressions (h : List Op) (e : Spec.Expr) (m' : Mem) (v : PyVal) (hp : ∀ a ∈ e.refs, Plain (run h) a)
    (he : eval (run h) e = .ok (m', v)) (k : ℕ) (hk : 6 ≤ k) (l : ℝ) (f : ℕ → Option ℂ)
    (hf : ∀ a ∈ e.refs, natural (run h) l k a = .ok (f a)) :
    valueOf m' l k v = .ok (e.total f) ∧ ∀ x, x < (run h).length → m'[x]? = (run h)[x]? := by
  obtain ⟨-, -, h2, -, h3⟩ := eval_spec l hk f e (run h) m' v (inv_run h) hp he
  exact ⟨h3 hf, h2⟩

/-! ### Operands (C51) -/

/-- C51, the part that holds: an accepted addition changes at most one object, the one it returns; that object is new or was already a
sum among the operands. So every dispersion other than the returned one keeps its dielectric function (its index), unless it is an index
view, direct or inside an index sum, of the returned sum. Missing for the full claim: operands that are sums themselves, see
`C51_left_refuted` and `C51_right_refuted`. -/
theorem C51_operands_partial (h : List Op) (a b : ℕ) (m' : Mem) (r : ℕ) (hab : addObj (run h) a b = .ok (m', r)) :
    (∀ x, x ≠ r → m'[x]? = (run h)[x]?) ∧ (r = (run h).length ∨ ((r = a ∨ r = b) ∧ IsSum (run h) r)) ∧
    (∀ x k l, 6 ≤ k → x < (run h).length → x ≠ r → IsEpsObj (run h) x → natural m' l k x = natural (run h) l k x) ∧
    (Plain (run h) a → Plain (run h) b → ∀ x k l, 6 ≤ k → x < (run h).length → natural m' l k x = natural (run h) l k x) := by
  have hm := inv_run h
  have hm' := (addObj_inv hm hab).1
  obtain ⟨h1, h2, h3, h4⟩ := addObj_target hab
  refine ⟨h2, h3, ?_, ?_⟩
  · intro x k l hk hx hxr he
    have he' : IsEpsObj m' x := by
      obtain ⟨o, h5, h6⟩ := he
      exact ⟨o, by rw [h2 x hxr]; exact h5, h6⟩
    rw [natural_eps hm l he hk, natural_eps hm' l he' hk]
    refine epsV_congr (h2 x hxr) (fun c hc => h2 c ?_) l
    rintro rfl
    obtain ⟨kd, v, h5, -⟩ := flatE_ok hm he c hc
    rcases h3 with h | ⟨-, cs, h | h⟩
    · exact absurd (lt_of_some h5) (by omega)
    · rw [h5] at h; cases h
    · rw [h5] at h; cases h
  · intro ha hb x k l hk hx
    have hr : r = (run h).length := by
      rcases h3 with h | ⟨h | h, hs⟩
      · exact h
      · subst h; exact absurd hs (not_isSum_of_plain ha)
      · subst h; exact absurd hs (not_isSum_of_plain hb)
    exact natural_agree hm hm' (fun y hy => h2 y (by omega)) hx hk l

/-- Three constant models 1, 2, 4 and the sum of the first two. -/
noncomputable def sumHistory : List Op :=
  [.new .eps fun _ => .ok (some 1), .new .eps fun _ => .ok (some 2), .new .eps fun _ => .ok (some 4), .add 0 1]

lemma sumHistory_run : run sumHistory = [.leaf .eps fun _ => .ok (some 1), .leaf .eps fun _ => .ok (some 2),
    .leaf .eps fun _ => .ok (some 4), .epsSum [0, 1]] := by
  simp [run, sumHistory, step, addObj, Obj.isEps, Kind.isEps, newEpsSum, alloc, addToEpsSum, bind, Except.bind, pure, Except.pure]

/-- C51 fails: with `s = a + b` (a sum), `s + c` returns `s` itself and changes the value of `s` from 3 to 7 at every wavelength. -/
theorem C51_left_refuted : ∃ m', addObj (run sumHistory) 3 2 = .ok (m', 3) ∧ ∀ l k, 6 ≤ k →
    natural (run sumHistory) l k 3 = .ok (some 3) ∧ natural m' l k 3 = .ok (some 7) := by
  refine ⟨[.leaf .eps fun _ => .ok (some 1), .leaf .eps fun _ => .ok (some 2), .leaf .eps fun _ => .ok (some 4),
    .epsSum [0, 1, 2]], ?_, ?_⟩
  · rw [sumHistory_run]
    simp [addObj, addToEpsSum, Obj.isEps, Kind.isEps, Except.map]
  · intro l k hk
    obtain ⟨n, rfl⟩ := Nat.exists_eq_add_of_le' hk
    rw [sumHistory_run]
    constructor <;>
    simp [natural, call, Obj.isEps, Kind.isEps, sumVals, Val.add, bind, Except.bind, pure, Except.pure] <;> norm_num

/-- C51 fails on the right as well: `c + s` appends `c` to `s`. -/
theorem C51_right_refuted : ∃ m', addObj (run sumHistory) 2 3 = .ok (m', 3) ∧ ∀ l k, 6 ≤ k →
    natural (run sumHistory) l k 3 = .ok (some 3) ∧ natural m' l k 3 = .ok (some 7) := by
  refine ⟨[.leaf .eps fun _ => .ok (some 1), .leaf .eps fun _ => .ok (some 2), .leaf .eps fun _ => .ok (some 4),
    .epsSum [0, 1, 2]], ?_, ?_⟩
  · rw [sumHistory_run]
    simp [addObj, Obj.isEps, Kind.isEps]
  · intro l k hk
    obtain ⟨n, rfl⟩ := Nat.exists_eq_add_of_le' hk
    rw [sumHistory_run]
    constructor <;>
    simp [natural, call, Obj.isEps, Kind.isEps, sumVals, Val.add, bind, Except.bind, pure, Except.pure] <;> norm_num

/-- Consequence of C51 failing: with `s = a + b`, the expression `(s + c) + (s + c)` is not twice `s + c`: it gives
`2 (a + b + 2 c) = 22` instead of `14`. -/
theorem C51_expression_refuted : ∃ m', eval (run sumHistory)
      (.add (.add (.ref 3) (.ref 2)) (.add (.ref 3) (.ref 2))) = .ok (m', .obj 3) ∧
    ∀ l k, 6 ≤ k → natural m' l k 3 = .ok (some 22) := by
  refine ⟨[.leaf .eps fun _ => .ok (some 1), .leaf .eps fun _ => .ok (some 2), .leaf .eps fun _ => .ok (some 4),
    .epsSum [0, 1, 2, 2, 0, 1, 2, 2]], ?_, ?_⟩
  · rw [sumHistory_run]
    simp [eval, addVal, addObj, addToEpsSum, Obj.isEps, Kind.isEps, Except.map, bind, Except.bind]
  · intro l k hk
    obtain ⟨n, rfl⟩ := Nat.exists_eq_add_of_le' hk
    simp [natural, call, Obj.isEps, Kind.isEps, sumVals, Val.add, bind, Except.bind, pure, Except.pure] <;> norm_num

/-! ### Index and dielectric views (C52) -/

/-- `y` is `g` of `x`: the same exceptions and NaNs, and `g z` for a number `z`. -/
def _root_.Spec.Applied (g : ℂ → ℂ) (x y : Val) : Prop :=
  match x with
  | .error e => y = .error e
  | .ok none => y = .ok none
  | .ok (some z) => y = .ok (some (g z))

lemma applied_app (g : ℂ → ℂ) (x : Val) : Spec.Applied g x (Val.app g x) := by
  match x with
  | .error e => rfl
  | .ok none => rfl
  | .ok (some z) => rfl

/-- C52: for every dispersion object of every history the dielectric function is the square of `get_refractive_index`, at every
wavelength (same exceptions, same NaNs). -/
theorem C52_square (h : List Op) (a : ℕ) (ha : a < (run h).length) (k : ℕ) (hk : 6 ≤ k) (l : ℝ) :
    Spec.Applied (· ^ 2) (getRefractiveIndex (run h) l k a) (call (run h) l k .dielectric a) := by
  suffices e : call (run h) l k .dielectric a = Val.app (· ^ 2) (getRefractiveIndex (run h) l k a) by
    rw [e]
    exact applied_app _ _
  have hm := inv_run h
  obtain ⟨n, rfl⟩ := Nat.exists_eq_add_of_le' hk
  obtain ⟨o, ho⟩ : ∃ o, (run h)[a]? = some o := ⟨_, List.getElem?_eq_getElem ha⟩
  rw [getRefractiveIndex, ho]
  cases he : o.isEps with
  | true =>
    simp only [he, if_true]
    rw [Val.app_app, Val.app_id _ csqrt_sq]
  | false =>
    have h1 : IsIdxObj (run h) a := ⟨o, ho, he⟩
    simp only [he, Bool.false_eq_true, if_false]
    rw [call_idx_dielectric hm l h1 n, call_idx hm l h1 (n + 1)]

/-- C52: `as_index()` is accepted for exactly the models with default parameters and the dielectric sums; the object returned is an
index dispersion with the same dielectric function, and stays so whatever is done afterwards (also when parameters of the original
are changed later). -/
theorem C52_as_index (h : List Op) (a : ℕ) (m' : Mem) (r : ℕ) (hab : asIndex (run h) a = .ok (m', r)) (later : List Op)
    (k : ℕ) (hk : 6 ≤ k) (l : ℝ) :
    let m'' := later.foldl step m'
    call m'' l k .dielectric r = call m'' l k .dielectric a ∧
    Spec.Applied Complex.sqrt (call m'' l k .dielectric a) (call m'' l k .index r) ∧
    (∀ x, x < (run h).length → m'[x]? = (run h)[x]?) := by
  obtain ⟨n, rfl⟩ := Nat.exists_eq_add_of_le' hk
  obtain ⟨hi, hext, rfl, rfl, hobj⟩ := asIndex_inv (inv_run h) hab
  have key : ∀ (later : List Op) (m : Mem), Inv m → Inv (later.foldl step m) ∧ Ext m (later.foldl step m) := by
    intro later
    induction later with
    | nil => exact fun m hm => ⟨hm, fun a o ho => ⟨o, ho, SameSort.refl o⟩⟩
    | cons op t ih =>
      intro m hm
      obtain ⟨h1, h2⟩ := step_inv hm op
      obtain ⟨h3, h4⟩ := ih _ h1
      exact ⟨h3, h2.trans h4⟩
  obtain ⟨h1, h2⟩ := key later _ hi
  simp only
  obtain ⟨o', h3, h4⟩ := h2 _ _ (get_alloc_self (run h) (.view a))
  have h5 : o' = .view a := by
    cases o' with
    | view q => simp only [SameSort] at h4; rw [← h4]
    | _ => exact h4.elim
  subst h5
  have hobj' : IsEpsObj (later.foldl step (run h ++ [.view a])) a := h2.isEpsObj (hext.isEpsObj hobj)
  refine ⟨?_, ?_, fun x hx => List.getElem?_append_left hx⟩
  · rw [(call_view h1 l h3 (n + 3)).1, call_eps h1 l hobj' (n + 4)]
  · rw [(call_view h1 l h3 (n + 2)).2, call_eps h1 l hobj' (n + 4)]
    exact applied_app _ _

/-- C52: when `as_index()` is refused: `InvalidParameters` for tables of ε and pseudo-dielectric functions (their templates have no
defaults), `AttributeError` for index dispersions. So the claim fails for `TableEpsilon`. -/
theorem C52_as_index_table_refuted (m : Mem) (a : ℕ) (v : ℝ → Val)
    (ha : m[a]? = some (.leaf .tableEps v) ∨ m[a]? = some (.leaf .pseudo v)) : asIndex m a = .error .invalidParameters := by
  rcases ha with ha | ha <;> simp [asIndex, ha]

/-! ### Numbers and tables (C54) -/

/-- C54, the part that holds: `TableEpsilon + x` and `x + TableEpsilon` are accepted and give the table shifted by the number.
Missing: index tables, see `C54_index_table_refuted`. -/
theorem C54_table_epsilon_partial (h : List Op) (a : ℕ) (v : ℝ → Val) (ha : (run h)[a]? = some (.leaf .tableEps v)) (x : ℝ) :
    ∃ m' r, addNum (run h) a x = .ok (m', r) ∧ ∀ k l, 6 ≤ k → Spec.SumOf (natural m' l k r) (v l) (.ok (some (x : ℂ))) := by
  have hacc := (C50_accepts (run h ++ [constLeaf .eps x]) a (run h).length _ _ (get_alloc_lt ha) (get_alloc_self _ _)).1.2
    ⟨rfl, by simp, by simp [constLeaf], by simp⟩
  obtain ⟨⟨m', r⟩, hp⟩ := hacc
  have hn : addNum (run h) a x = .ok (m', r) := by
    rw [addNum_eq ha]
    exact hp
  refine ⟨m', r, hn, fun k l hk => ?_⟩
  have := (addNum_value (inv_run h) hn hk l).1
  have e : natural (run h) l k a = v l := by
    obtain ⟨n, rfl⟩ := Nat.exists_eq_add_of_le' hk
    simp [natural, ha, call, Obj.isEps, Kind.isEps]
  rwa [e] at this

/-- C54 fails for index tables: `Table + x` and `x + Table` always raise `InvalidParameters`, because the number is passed as a
parameter `eps` that `ConstantRefractiveIndex` does not have. -/
theorem C54_index_table_refuted (m : Mem) (a : ℕ) (v : ℝ → Val) (ha : m[a]? = some (.leaf .table v)) (x : ℝ) :
    addNum m a x = .error .invalidParameters := by
  simp [addNum, ha]

/-! ### Non-trivial cases -/

/-- An accepted addition of an index table and an index view (C50_value's hypothesis). -/
example : ∃ m' r, addObj (run [.new .eps fun _ => .ok (some 4), .asIndex 0, .new .table fun _ => .ok (some 1)]) 1 2 = .ok (m', r) := by
  refine ⟨[.leaf .eps fun _ => .ok (some 4), .view 0, .leaf .table fun _ => .ok (some 1), .idxSum [2, 1]], 3, ?_⟩
  simp [run, step, asIndex, alloc, addObj, newIdxSum, addToIdxSum, Obj.isEps, Kind.isEps, bind, Except.bind, pure, Except.pure]

/-- A number, a model and a table in one expression (hypotheses of C50_expressions). -/
example : ∃ m' v, eval (run [.new .eps fun _ => .ok (some 4), .new .tableEps fun _ => .ok (some 1)])
    (.add (.num 1) (.add (.ref 0) (.ref 1))) = .ok (m', v) := by
  refine ⟨[.leaf .eps fun _ => .ok (some 4), .leaf .tableEps fun _ => .ok (some 1), .epsSum [1, 0, 3], constLeaf .eps 1],
    .obj 2, ?_⟩
  simp [run, step, eval, addVal, alloc, addObj, addNum, newEpsSum, addToEpsSum, Obj.isEps, Kind.isEps, bind, Except.bind, pure,
    Except.pure, Except.map]

/-- An index view of a sum. -/
example : ∃ m' r, asIndex (run sumHistory) 3 = .ok (m', r) := by
  rw [sumHistory_run]
  exact ⟨_, _, rfl⟩

end PyElli.Disp
