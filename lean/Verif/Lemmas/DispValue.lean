import Verif.Lemmas.DispSum

/-! # Values of dispersion objects, independent of the call depth -/

namespace PyElli.Disp

noncomputable def leafV (m : Mem) (l : ℝ) (c : ℕ) : Val :=
  match m[c]? with
  | some (.leaf _ v) => v l
  | _ => .error .unboundLocal

noncomputable def epsV (m : Mem) (l : ℝ) (a : ℕ) : Val := sumVals (leafV m l) (flatE m a)

noncomputable def itemV (m : Mem) (l : ℝ) (c : ℕ) : Val :=
  match m[c]? with
  | some (.leaf _ v) => v l
  | some (.view o) => Val.app Complex.sqrt (epsV m l o)
  | _ => .error .unboundLocal

noncomputable def idxV (m : Mem) (l : ℝ) (a : ℕ) : Val := sumVals (itemV m l) (flatI m a)

lemma Val.app_app (f g : ℂ → ℂ) (x : Val) : Val.app f (Val.app g x) = Val.app (fun z => f (g z)) x := by
  unfold Val.app
  cases x with
  | error e => rfl
  | ok a => cases a <;> rfl

lemma Val.app_id (f : ℂ → ℂ) (h : ∀ z, f z = z) (x : Val) : Val.app f x = x := by
  unfold Val.app
  cases x with
  | error e => rfl
  | ok a => cases a <;> simp [Except.map, h]

lemma call_leaf {m : Mem} {l : ℝ} {c : ℕ} (hc : IsEpsLeaf m c) (k : ℕ) : call m l (k + 1) .dielectric c = leafV m l c := by
  obtain ⟨kd, v, h1, h2⟩ := hc
  simp [call, leafV, h1, h2]

lemma call_eps {m : Mem} (hm : Inv m) (l : ℝ) {a : ℕ} (ha : IsEpsObj m a) (k : ℕ) :
    call m l (k + 2) .dielectric a = epsV m l a := by
  obtain ⟨o, h1, h2⟩ := ha
  cases o with
  | leaf kd v =>
    have hf : flatE m a = [a] := by simp [flatE, h1]
    rw [epsV, hf, sumVals_one]
    exact call_leaf ⟨kd, v, h1, h2⟩ _
  | epsSum cs =>
    have hf : flatE m a = cs := by simp [flatE, h1]
    rw [epsV, hf]
    simp only [call, h1]
    exact sumVals_congr _ _ _ fun c hc => call_leaf (hm a _ h1 c hc) _
  | idxSum cs => simp [Obj.isEps] at h2
  | view o => simp [Obj.isEps] at h2

lemma call_view {m : Mem} (hm : Inv m) (l : ℝ) {a o : ℕ} (ha : m[a]? = some (.view o)) (k : ℕ) :
    call m l (k + 3) .dielectric a = epsV m l o ∧ call m l (k + 4) .index a = Val.app Complex.sqrt (epsV m l o) := by
  have hd : ∀ k, call m l (k + 3) .dielectric a = epsV m l o := by
    intro k
    simp only [call, ha]
    exact call_eps hm l (hm a _ ha) k
  refine ⟨hd k, ?_⟩
  rw [call, ha]
  simp only
  rw [hd k]

lemma call_item {m : Mem} (hm : Inv m) (l : ℝ) {c : ℕ} (hc : IsIdxItem m c) (k : ℕ) :
    call m l (k + 4) .index c = itemV m l c := by
  rcases hc with ⟨kd, v, h1, h2⟩ | ⟨o, h1⟩
  · simp [call, itemV, h1, h2]
  · rw [(call_view hm l h1 k).2, itemV, h1]

lemma call_idx {m : Mem} (hm : Inv m) (l : ℝ) {a : ℕ} (ha : IsIdxObj m a) (k : ℕ) :
    call m l (k + 5) .index a = idxV m l a := by
  obtain ⟨o, h1, h2⟩ := ha
  cases o with
  | leaf kd v =>
    have hf : flatI m a = [a] := by simp [flatI, h1]
    rw [idxV, hf, sumVals_one]
    exact call_item hm l (Or.inl ⟨kd, v, h1, h2⟩) (k + 1)
  | idxSum cs =>
    have hf : flatI m a = cs := by simp [flatI, h1]
    rw [idxV, hf]
    rw [call, h1]
    exact sumVals_congr _ _ _ fun c hc => call_item hm l (hm a _ h1 c hc) k
  | epsSum cs => simp [Obj.isEps] at h2
  | view o =>
    have hf : flatI m a = [a] := by simp [flatI, h1]
    rw [idxV, hf, sumVals_one]
    exact call_item hm l (Or.inr ⟨o, h1⟩) (k + 1)

lemma call_idx_dielectric {m : Mem} (hm : Inv m) (l : ℝ) {a : ℕ} (ha : IsIdxObj m a) (k : ℕ) :
    call m l (k + 6) .dielectric a = Val.app (· ^ 2) (idxV m l a) := by
  have hi := call_idx hm l ha k
  obtain ⟨o, h1, h2⟩ := ha
  cases o with
  | leaf kd v =>
    have hk : kd.isEps = false := h2
    have hf : flatI m a = [a] := by simp [flatI, h1]
    rw [idxV, hf, sumVals_one]
    simp [call, itemV, h1, hk]
  | idxSum cs =>
    rw [call, h1]
    simp only
    rw [hi]
  | epsSum cs => simp [Obj.isEps] at h2
  | view o =>
    have hf : flatI m a = [a] := by simp [flatI, h1]
    rw [idxV, hf, sumVals_one, (call_view hm l h1 (k + 3)).1, itemV, h1]
    simp only
    rw [Val.app_app, Val.app_id _ csqrt_sq]

/-- The value in the family's own quantity: dielectric function or index. -/
noncomputable def natural (m : Mem) (l : ℝ) (k : ℕ) (a : ℕ) : Val :=
  match m[a]? with
  | none => .error .unboundLocal
  | some o => call m l k (if o.isEps then .dielectric else .index) a

lemma natural_eps {m : Mem} (hm : Inv m) (l : ℝ) {a : ℕ} (ha : IsEpsObj m a) {k : ℕ} (hk : 6 ≤ k) :
    natural m l k a = epsV m l a := by
  obtain ⟨n, rfl⟩ := Nat.exists_eq_add_of_le' hk
  have := call_eps hm l ha (n + 4)
  obtain ⟨o, h1, h2⟩ := ha
  rw [natural, h1]
  simp only [h2, if_true]
  exact this

lemma natural_idx {m : Mem} (hm : Inv m) (l : ℝ) {a : ℕ} (ha : IsIdxObj m a) {k : ℕ} (hk : 6 ≤ k) :
    natural m l k a = idxV m l a := by
  obtain ⟨n, rfl⟩ := Nat.exists_eq_add_of_le' hk
  have := call_idx hm l ha (n + 1)
  obtain ⟨o, h1, h2⟩ := ha
  rw [natural, h1]
  simp only [h2, Bool.false_eq_true, if_false]
  exact this

/-! ## Values after a change elsewhere -/

lemma leafV_congr {m m' : Mem} {c : ℕ} (h : m'[c]? = m[c]?) (l : ℝ) : leafV m' l c = leafV m l c := by
  unfold leafV; rw [h]

/-- If the object itself and the terms of the sum are the same, so is the value. -/
lemma epsV_congr {m m' : Mem} {a : ℕ} (ha : m'[a]? = m[a]?) (hc : ∀ c ∈ flatE m a, m'[c]? = m[c]?) (l : ℝ) :
    epsV m' l a = epsV m l a := by
  have hf : flatE m' a = flatE m a := by unfold flatE; rw [ha]
  unfold epsV
  rw [hf]
  exact sumVals_congr _ _ _ fun c h => leafV_congr (hc c h) l

lemma itemV_congr {m m' : Mem} {c : ℕ} (h : m'[c]? = m[c]?) (l : ℝ) (hv : ∀ o, m[c]? = some (.view o) → epsV m' l o = epsV m l o) :
    itemV m' l c = itemV m l c := by
  unfold itemV
  rw [h]
  cases hm : m[c]? with
  | none => rfl
  | some o =>
    cases o with
    | view o => simp only; rw [hv o hm]
    | _ => rfl

lemma idxV_congr {m m' : Mem} {a : ℕ} (ha : m'[a]? = m[a]?) (hc : ∀ c ∈ flatI m a, m'[c]? = m[c]?) (l : ℝ)
    (hv : ∀ c ∈ flatI m a, ∀ o, m[c]? = some (.view o) → epsV m' l o = epsV m l o) :
    idxV m' l a = idxV m l a := by
  have hf : flatI m' a = flatI m a := by unfold flatI; rw [ha]
  unfold idxV
  rw [hf]
  exact sumVals_congr _ _ _ fun c h => itemV_congr (hc c h) l (hv c h)

/-! ## Invariant of all histories -/

lemma Added.inv_eps {m m' : Mem} {a b r : ℕ} (hm : Inv m) (ha : IsEpsObj m a) (hb : IsEpsObj m b)
    (h : Added .epsSum flatE m a b m' r) : Inv m' ∧ Ext m m' := by
  have hext : Ext m m' := by
    intro x o hx
    by_cases hxr : x = r
    · subst hxr
      rcases h.target with ht | ⟨-, cs, hcs⟩
      · exact absurd (lt_of_some hx) (by omega)
      · rw [hx] at hcs
        cases hcs
        rcases h.res with hr | hr
        · exact ⟨_, hr, trivial⟩
        · exact ⟨_, hr, trivial⟩
    · exact ⟨o, by rw [h.others x hxr]; exact hx, SameSort.refl o⟩
  refine ⟨?_, hext⟩
  intro x o hx
  by_cases hxr : x = r
  · subst hxr
    have hall : ∀ c, (c ∈ flatE m a ∨ c ∈ flatE m b) → IsEpsLeaf m c := by
      rintro c (hc | hc)
      · exact flatE_ok hm ha c hc
      · exact flatE_ok hm hb c hc
    rcases h.res with hr | hr
    · rw [hx] at hr
      cases hr
      exact hext.ok (o := .epsSum _) fun c hc => hall c (List.mem_append.1 hc)
    · rw [hx] at hr
      cases hr
      exact hext.ok (o := .epsSum _) fun c hc => hall c (List.mem_append.1 hc).symm
  · rw [h.others x hxr] at hx
    exact hext.ok (hm x o hx)

lemma Added.inv_idx {m m' : Mem} {a b r : ℕ} (hm : Inv m) (ha : IsIdxObj m a) (hb : IsIdxObj m b)
    (h : Added .idxSum flatI m a b m' r) : Inv m' ∧ Ext m m' := by
  have hext : Ext m m' := by
    intro x o hx
    by_cases hxr : x = r
    · subst hxr
      rcases h.target with ht | ⟨-, cs, hcs⟩
      · exact absurd (lt_of_some hx) (by omega)
      · rw [hx] at hcs
        cases hcs
        rcases h.res with hr | hr
        · exact ⟨_, hr, trivial⟩
        · exact ⟨_, hr, trivial⟩
    · exact ⟨o, by rw [h.others x hxr]; exact hx, SameSort.refl o⟩
  refine ⟨?_, hext⟩
  intro x o hx
  by_cases hxr : x = r
  · subst hxr
    have hall : ∀ c, (c ∈ flatI m a ∨ c ∈ flatI m b) → IsIdxItem m c := by
      rintro c (hc | hc)
      · exact flatI_ok hm ha c hc
      · exact flatI_ok hm hb c hc
    rcases h.res with hr | hr
    · rw [hx] at hr
      cases hr
      exact hext.ok (o := .idxSum _) fun c hc => hall c (List.mem_append.1 hc)
    · rw [hx] at hr
      cases hr
      exact hext.ok (o := .idxSum _) fun c hc => hall c (List.mem_append.1 hc).symm
  · rw [h.others x hxr] at hx
    exact hext.ok (hm x o hx)

/-- What an accepted addition does, in one of the two families. -/
lemma addObj_ok {m m' : Mem} {a b r : ℕ} (h : addObj m a b = .ok (m', r)) :
    (IsEpsObj m a ∧ IsEpsObj m b ∧ Added .epsSum flatE m a b m' r) ∨
    (IsIdxObj m a ∧ IsIdxObj m b ∧ Added .idxSum flatI m a b m' r) := by
  cases ha : m[a]? with
  | none => simp [addObj, ha] at h
  | some oa =>
    cases hb : m[b]? with
    | none => simp [addObj, ha, hb] at h
    | some ob =>
      obtain ⟨s1, s2, s3⟩ := addObj_spec ha hb
      by_cases hal : Allowed oa ob
      · cases he : oa.isEps with
        | true =>
          obtain ⟨m1, r1, h1, h2⟩ := s1 hal he
          rw [h] at h1
          cases h1
          exact Or.inl ⟨⟨oa, ha, he⟩, ⟨ob, hb, by rw [hal.same, he]⟩, h2⟩
        | false =>
          obtain ⟨m1, r1, h1, h2⟩ := s2 hal he
          rw [h] at h1
          cases h1
          exact Or.inr ⟨⟨oa, ha, he⟩, ⟨ob, hb, by rw [hal.same, he]⟩, h2⟩
      · obtain ⟨e, he⟩ := s3 hal
        rw [h] at he
        cases he

lemma addObj_inv {m m' : Mem} {a b r : ℕ} (hm : Inv m) (h : addObj m a b = .ok (m', r)) : Inv m' ∧ Ext m m' := by
  rcases addObj_ok h with ⟨h1, h2, h3⟩ | ⟨h1, h2, h3⟩
  · exact h3.inv_eps hm h1 h2
  · exact h3.inv_idx hm h1 h2

/-- Adding a number is adding the constant model. -/
lemma addNum_eq {m : Mem} {a : ℕ} {oa : Obj} (ha : m[a]? = some oa) (x : ℝ) :
    addNum m a x = match oa with
      | .leaf .pseudo _ => .error .notImplemented
      | .leaf .table _ => .error .invalidParameters
      | _ => addObj (m ++ [constLeaf (if oa.isEps then .eps else .index) x]) a m.length := by
  have h1 := get_alloc_lt (o := constLeaf (if oa.isEps then .eps else .index) x) ha
  have h2 := get_alloc_self m (constLeaf (if oa.isEps then .eps else .index) x)
  cases oa with
  | leaf k v =>
    cases k <;> simp [addNum, ha, addObj, alloc, constLeaf, Obj.isEps, Kind.isEps, get_alloc_self, List.getElem?_append_left (lt_of_some ha)]
  | _ =>
    simp [addNum, ha, addObj, addToEpsSum, addToIdxSum, alloc, constLeaf, Obj.isEps, Kind.isEps, get_alloc_self,
      List.getElem?_append_left (lt_of_some ha), Except.map]

lemma addNum_inv {m m' : Mem} {a r : ℕ} {x : ℝ} (hm : Inv m) (h : addNum m a x = .ok (m', r)) : Inv m' ∧ Ext m m' := by
  cases ha : m[a]? with
  | none => simp [addNum, ha] at h
  | some oa =>
    rw [addNum_eq ha] at h
    have hi : ∀ k, Inv (m ++ [constLeaf k x]) := fun k => inv_alloc hm (o := constLeaf k x) trivial
    have key : ∀ k, addObj (m ++ [constLeaf k x]) a m.length = .ok (m', r) → Inv m' ∧ Ext m m' := by
      intro k hk
      obtain ⟨h1, h2⟩ := addObj_inv (hi k) hk
      exact ⟨h1, (ext_alloc m _).trans h2⟩
    cases oa with
    | leaf k v =>
      cases k with
      | pseudo => simp at h
      | table => simp at h
      | _ => exact key _ h
    | _ => exact key _ h

lemma asIndex_inv {m m' : Mem} {a r : ℕ} (hm : Inv m) (h : asIndex m a = .ok (m', r)) :
    Inv m' ∧ Ext m m' ∧ m' = m ++ [.view a] ∧ r = m.length ∧ IsEpsObj m a := by
  have key : ∀ o, m[a]? = some o → o.isEps = true → (Except.ok (alloc m (.view a)) : Except PyErr _) = .ok (m', r) →
      Inv m' ∧ Ext m m' ∧ m' = m ++ [.view a] ∧ r = m.length ∧ IsEpsObj m a := by
    intro o h1 h2 h3
    simp only [alloc, Except.ok.injEq, Prod.mk.injEq] at h3
    obtain ⟨rfl, rfl⟩ := h3
    exact ⟨inv_alloc hm (o := .view a) ⟨o, h1, h2⟩, ext_alloc m _, rfl, rfl, ⟨o, h1, h2⟩⟩
  unfold asIndex at h
  cases ha : m[a]? with
  | none => simp [ha] at h
  | some o =>
    rw [ha] at h
    cases o with
    | epsSum cs => exact key _ ha rfl h
    | leaf k v =>
      cases k with
      | eps => exact key _ ha rfl h
      | _ => simp at h
    | _ => simp at h

lemma step_inv {m : Mem} (hm : Inv m) (op : Op) : Inv (step m op) ∧ Ext m (step m op) := by
  have hrefl : Ext m m := fun a o ho => ⟨o, ho, SameSort.refl o⟩
  cases op with
  | new k v => exact ⟨inv_alloc hm (o := .leaf k v) trivial, ext_alloc m _⟩
  | add a b =>
    simp only [step]
    cases h : addObj m a b with
    | ok p => obtain ⟨m', r⟩ := p; exact addObj_inv hm h
    | error e => exact ⟨hm, hrefl⟩
  | addNum a x =>
    simp only [step]
    cases h : addNum m a x with
    | ok p => obtain ⟨m', r⟩ := p; exact addNum_inv hm h
    | error e => exact ⟨hm, hrefl⟩
  | asIndex a =>
    simp only [step]
    cases h : asIndex m a with
    | ok p => obtain ⟨m', r⟩ := p; exact ⟨(asIndex_inv hm h).1, (asIndex_inv hm h).2.1⟩
    | error e => exact ⟨hm, hrefl⟩
  | change a v =>
    simp only [step]
    cases h : m[a]? with
    | none => exact ⟨hm, hrefl⟩
    | some o =>
      cases o with
      | leaf k v' => exact ⟨inv_set hm h (o' := .leaf k v) rfl trivial, ext_set h rfl⟩
      | _ => exact ⟨hm, hrefl⟩

lemma inv_run (h : List Op) : Inv (run h) := by
  have key : ∀ (h : List Op) (m : Mem), Inv m → Inv (h.foldl step m) := by
    intro h
    induction h with
    | nil => exact fun m hm => hm
    | cons op h ih => exact fun m hm => ih _ (step_inv hm op).1
  exact key h [] fun a o ha => by simp at ha

/-! ## Value of the result -/

lemma Added.value_eps {m m' : Mem} {a b r : ℕ} (hm : Inv m) (ha : IsEpsObj m a) (hb : IsEpsObj m b)
    (h : Added .epsSum flatE m a b m' r) (l : ℝ) :
    epsV m' l r = Val.add (epsV m l a) (epsV m l b) ∨ epsV m' l r = Val.add (epsV m l b) (epsV m l a) := by
  have hne : ∀ c, IsEpsLeaf m c → m'[c]? = m[c]? := by
    rintro c ⟨k, v, hc, hk⟩
    refine h.others c ?_
    rintro rfl
    rcases h.target with ht | ⟨-, cs, hcs⟩
    · exact absurd (lt_of_some hc) (by omega)
    · rw [hc] at hcs; cases hcs
  have e1 : ∀ x, IsEpsObj m x → sumVals (leafV m' l) (flatE m x) = epsV m l x := fun x hx =>
    sumVals_congr _ _ _ fun c hc => leafV_congr (hne c (flatE_ok hm hx c hc)) l
  rcases h.res with hr | hr
  · left
    have hf : flatE m' r = flatE m a ++ flatE m b := by simp [flatE, hr]
    rw [epsV, hf, sumVals_append, e1 a ha, e1 b hb]
  · right
    have hf : flatE m' r = flatE m b ++ flatE m a := by simp [flatE, hr]
    rw [epsV, hf, sumVals_append, e1 a ha, e1 b hb]

lemma Added.value_idx {m m' : Mem} {a b r : ℕ} (hm : Inv m) (ha : IsIdxObj m a) (hb : IsIdxObj m b)
    (h : Added .idxSum flatI m a b m' r) (l : ℝ) :
    idxV m' l r = Val.add (idxV m l a) (idxV m l b) ∨ idxV m' l r = Val.add (idxV m l b) (idxV m l a) := by
  have hnot : ∀ (c : ℕ) (o : Obj), m[c]? = some o → (∀ cs, o ≠ .idxSum cs) → m'[c]? = m[c]? := by
    intro c o hc hk
    refine h.others c ?_
    rintro rfl
    rcases h.target with ht | ⟨-, cs, hcs⟩
    · exact absurd (lt_of_some hc) (by omega)
    · rw [hc] at hcs; cases hcs; exact hk cs rfl
  have hleaf : ∀ c, IsEpsLeaf m c → m'[c]? = m[c]? := by
    rintro c ⟨k, v, hc, -⟩
    exact hnot c _ hc (by simp)
  have heps : ∀ o, IsEpsObj m o → epsV m' l o = epsV m l o := by
    intro o ho
    refine epsV_congr ?_ (fun c hc => hleaf c (flatE_ok hm ho c hc)) l
    obtain ⟨q, h1, h2⟩ := ho
    exact hnot o q h1 (by rintro cs rfl; simp [Obj.isEps] at h2)
  have hitem : ∀ c, IsIdxItem m c → itemV m' l c = itemV m l c := by
    intro c hc
    have h1 : m'[c]? = m[c]? := by
      rcases hc with ⟨k, v, hc, -⟩ | ⟨o, hc⟩
      · exact hnot c _ hc (by simp)
      · exact hnot c _ hc (by simp)
    exact itemV_congr h1 l fun o ho => heps o (hm c _ ho)
  have e1 : ∀ x, IsIdxObj m x → sumVals (itemV m' l) (flatI m x) = idxV m l x := fun x hx =>
    sumVals_congr _ _ _ fun c hc => hitem c (flatI_ok hm hx c hc)
  rcases h.res with hr | hr
  · left
    have hf : flatI m' r = flatI m a ++ flatI m b := by simp [flatI, hr]
    rw [idxV, hf, sumVals_append, e1 a ha, e1 b hb]
  · right
    have hf : flatI m' r = flatI m b ++ flatI m a := by simp [flatI, hr]
    rw [idxV, hf, sumVals_append, e1 a ha, e1 b hb]

end PyElli.Disp
