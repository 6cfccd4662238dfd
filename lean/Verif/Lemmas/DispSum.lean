import Verif.Model.DispSum
import Mathlib.Tactic

/-! # The memory of dispersions: invariant and values -/

namespace PyElli.Disp

/-! ## Values -/

lemma Val.add_ok_iff (x y : Val) (z : Option ℂ) :
    Val.add x y = .ok z ↔ ∃ a b, x = .ok a ∧ y = .ok b ∧ z = a.bind fun u => b.map fun w => u + w := by
  unfold Val.add
  cases x with
  | error e => simp [bind, Except.bind]
  | ok a =>
    cases y with
    | error e => simp [bind, Except.bind]
    | ok b =>
      cases a <;> cases b <;> simp [bind, Except.bind, pure, Except.pure, eq_comm]

lemma Val.zero_add (x : Val) : Val.add (.ok (some 0)) x = x := by
  unfold Val.add
  cases x with
  | error e => rfl
  | ok a => cases a <;> simp [bind, Except.bind, pure, Except.pure]

lemma Val.add_assoc (x y z : Val) : Val.add (Val.add x y) z = Val.add x (Val.add y z) := by
  unfold Val.add
  cases x with
  | error e => rfl
  | ok a =>
    cases y with
    | error e => rfl
    | ok b =>
      cases z with
      | error e => rfl
      | ok c => cases a <;> cases b <;> cases c <;> simp [bind, Except.bind, pure, Except.pure, _root_.add_assoc]

lemma foldl_add (f : ℕ → Val) (cs : List ℕ) : ∀ x : Val,
    cs.foldl (fun acc c => Val.add acc (f c)) x = Val.add x (sumVals f cs) := by
  unfold sumVals
  induction cs with
  | nil =>
    intro x
    simp only [List.foldl_nil]
    unfold Val.add
    cases x with
    | error e => rfl
    | ok a => cases a <;> simp [bind, Except.bind, pure, Except.pure]
  | cons c cs ih =>
    intro x
    simp only [List.foldl_cons]
    rw [ih, ih (Val.add (.ok (some 0)) (f c)), Val.zero_add, Val.add_assoc]

lemma sumVals_append (f : ℕ → Val) (cs ds : List ℕ) : sumVals f (cs ++ ds) = Val.add (sumVals f cs) (sumVals f ds) := by
  rw [sumVals, List.foldl_append, foldl_add]
  rfl

lemma sumVals_one (f : ℕ → Val) (c : ℕ) : sumVals f [c] = f c := by
  simp only [sumVals, List.foldl_cons, List.foldl_nil, Val.zero_add]

lemma sumVals_congr (f g : ℕ → Val) (cs : List ℕ) (h : ∀ c ∈ cs, f c = g c) : sumVals f cs = sumVals g cs := by
  induction cs with
  | nil => rfl
  | cons c cs ih =>
    have e : ∀ f : ℕ → Val, sumVals f (c :: cs) = Val.add (f c) (sumVals f cs) := by
      intro f
      have := sumVals_append f [c] cs
      rw [sumVals_one] at this
      exact this
    rw [e, e, h c (by simp), ih fun d hd => h d (by simp [hd])]

/-! ## Shape of the memory -/

def IsEpsLeaf (m : Mem) (c : ℕ) : Prop := ∃ k v, m[c]? = some (.leaf k v) ∧ k.isEps = true
def IsIdxItem (m : Mem) (c : ℕ) : Prop :=
  (∃ k v, m[c]? = some (.leaf k v) ∧ k.isEps = false) ∨ ∃ o, m[c]? = some (.view o)
def IsEpsObj (m : Mem) (c : ℕ) : Prop := ∃ o, m[c]? = some o ∧ o.isEps = true
def IsIdxObj (m : Mem) (c : ℕ) : Prop := ∃ o, m[c]? = some o ∧ o.isEps = false

/-- Sums are flat and hold objects of their own family; views refer to dielectric dispersions. -/
def Ok (m : Mem) : Obj → Prop
  | .leaf _ _ => True
  | .epsSum cs => ∀ c ∈ cs, IsEpsLeaf m c
  | .idxSum cs => ∀ c ∈ cs, IsIdxItem m c
  | .view o => IsEpsObj m o

def Inv (m : Mem) : Prop := ∀ (a : ℕ) (o : Obj), m[a]? = some o → Ok m o

/-- Same class (and for views the same original). -/
def SameSort : Obj → Obj → Prop
  | .leaf k _, .leaf k' _ => k = k'
  | .epsSum _, .epsSum _ => True
  | .idxSum _, .idxSum _ => True
  | .view o, .view o' => o = o'
  | _, _ => False

lemma SameSort.refl (o : Obj) : SameSort o o := by cases o <;> simp [SameSort]

def Ext (m m' : Mem) : Prop := ∀ (a : ℕ) (o : Obj), m[a]? = some o → ∃ o', m'[a]? = some o' ∧ SameSort o o'

lemma Ext.isEpsLeaf {m m' : Mem} (h : Ext m m') {c : ℕ} (hc : IsEpsLeaf m c) : IsEpsLeaf m' c := by
  obtain ⟨k, v, h1, h2⟩ := hc
  obtain ⟨o', h3, h4⟩ := h c _ h1
  cases o' with
  | leaf k' v' => exact ⟨k', v', h3, by simp only [SameSort] at h4; rw [← h4]; exact h2⟩
  | _ => exact h4.elim

lemma Ext.isIdxItem {m m' : Mem} (h : Ext m m') {c : ℕ} (hc : IsIdxItem m c) : IsIdxItem m' c := by
  rcases hc with ⟨k, v, h1, h2⟩ | ⟨o, h1⟩
  · obtain ⟨o', h3, h4⟩ := h c _ h1
    cases o' with
    | leaf k' v' => exact Or.inl ⟨k', v', h3, by simp only [SameSort] at h4; rw [← h4]; exact h2⟩
    | _ => exact h4.elim
  · obtain ⟨o', h3, h4⟩ := h c _ h1
    cases o' with
    | view q => exact Or.inr ⟨q, h3⟩
    | _ => exact h4.elim

lemma SameSort.isEps {o o' : Obj} (h : SameSort o o') : o'.isEps = o.isEps := by
  cases o <;> cases o' <;> simp_all [SameSort, Obj.isEps]

lemma Ext.isEpsObj {m m' : Mem} (h : Ext m m') {c : ℕ} (hc : IsEpsObj m c) : IsEpsObj m' c := by
  obtain ⟨o, h1, h2⟩ := hc
  obtain ⟨o', h3, h4⟩ := h c _ h1
  exact ⟨o', h3, by rw [h4.isEps]; exact h2⟩

lemma Ext.ok {m m' : Mem} (h : Ext m m') {o : Obj} (ho : Ok m o) : Ok m' o := by
  cases o with
  | leaf k v => trivial
  | epsSum cs => exact fun c hc => h.isEpsLeaf (ho c hc)
  | idxSum cs => exact fun c hc => h.isIdxItem (ho c hc)
  | view o => exact h.isEpsObj ho

lemma Ext.trans {m m' m'' : Mem} (h : Ext m m') (h' : Ext m' m'') : Ext m m'' := by
  intro a o ho
  obtain ⟨o1, h1, h2⟩ := h a o ho
  obtain ⟨o2, h3, h4⟩ := h' a o1 h1
  refine ⟨o2, h3, ?_⟩
  cases o <;> cases o1 <;> cases o2 <;> simp_all [SameSort]

lemma lt_of_some {m : Mem} {a : ℕ} {o : Obj} (h : m[a]? = some o) : a < m.length := by
  by_contra hc
  rw [List.getElem?_eq_none (by omega)] at h
  cases h

lemma ext_alloc (m : Mem) (o : Obj) : Ext m (m ++ [o]) := by
  intro a q ha
  exact ⟨q, by rw [List.getElem?_append_left (lt_of_some ha)]; exact ha, SameSort.refl q⟩

lemma inv_alloc {m : Mem} (hm : Inv m) {o : Obj} (ho : Ok m o) : Inv (m ++ [o]) := by
  intro a q ha
  have hext := ext_alloc m o
  by_cases h : a < m.length
  · rw [List.getElem?_append_left h] at ha
    exact hext.ok (hm a q ha)
  · rw [List.getElem?_append_right (by omega)] at ha
    have : a - m.length = 0 := by
      by_contra hne
      rw [List.getElem?_eq_none (by simp; omega)] at ha
      cases ha
    rw [this] at ha
    simp only [List.getElem?_cons_zero, Option.some.injEq] at ha
    subst ha
    exact hext.ok ho

lemma ext_set {m : Mem} {s : ℕ} {o o' : Obj} (hs : m[s]? = some o) (hso : SameSort o o') : Ext m (m.set s o') := by
  intro a q ha
  by_cases h : a = s
  · subst h
    rw [hs] at ha
    cases ha
    exact ⟨o', by rw [List.getElem?_set_self (lt_of_some hs)], hso⟩
  · exact ⟨q, by rw [List.getElem?_set_ne (Ne.symm h)]; exact ha, SameSort.refl q⟩

lemma inv_set {m : Mem} (hm : Inv m) {s : ℕ} {o o' : Obj} (hs : m[s]? = some o) (hso : SameSort o o') (ho : Ok m o') :
    Inv (m.set s o') := by
  intro a q ha
  have hext := ext_set hs hso
  by_cases h : a = s
  · subst h
    rw [List.getElem?_set_self (lt_of_some hs)] at ha
    cases ha
    exact hext.ok ho
  · rw [List.getElem?_set_ne (Ne.symm h)] at ha
    exact hext.ok (hm a q ha)

/-! ## What an addition does -/

/-- The terms an operand contributes to a sum. -/
def flatE (m : Mem) (x : ℕ) : List ℕ :=
  match m[x]? with
  | some (.epsSum cs) => cs
  | _ => [x]

def flatI (m : Mem) (x : ℕ) : List ℕ :=
  match m[x]? with
  | some (.idxSum cs) => cs
  | _ => [x]

lemma flatE_ok {m : Mem} (hm : Inv m) {x : ℕ} (hx : IsEpsObj m x) : ∀ c ∈ flatE m x, IsEpsLeaf m c := by
  obtain ⟨o, h1, h2⟩ := hx
  cases o with
  | epsSum cs =>
    have : flatE m x = cs := by simp [flatE, h1]
    rw [this]
    exact hm x _ h1
  | leaf k v =>
    have : flatE m x = [x] := by simp [flatE, h1]
    rw [this]
    intro c hc
    rw [List.mem_singleton] at hc
    subst hc
    exact ⟨k, v, h1, h2⟩
  | idxSum cs => simp [Obj.isEps] at h2
  | view o => simp [Obj.isEps] at h2

lemma flatI_ok {m : Mem} (hm : Inv m) {x : ℕ} (hx : IsIdxObj m x) : ∀ c ∈ flatI m x, IsIdxItem m c := by
  obtain ⟨o, h1, h2⟩ := hx
  cases o with
  | idxSum cs =>
    have : flatI m x = cs := by simp [flatI, h1]
    rw [this]
    exact hm x _ h1
  | leaf k v =>
    have : flatI m x = [x] := by simp [flatI, h1]
    rw [this]
    intro c hc
    rw [List.mem_singleton] at hc
    subst hc
    exact Or.inl ⟨k, v, h1, h2⟩
  | epsSum cs => simp [Obj.isEps] at h2
  | view o =>
    have : flatI m x = [x] := by simp [flatI, h1]
    rw [this]
    intro c hc
    rw [List.mem_singleton] at hc
    subst hc
    exact Or.inr ⟨o, h1⟩

lemma addToEpsSum_ok {m : Mem} {s b : ℕ} {cs : List ℕ} (hs : m[s]? = some (.epsSum cs)) (hb : IsEpsObj m b) :
    addToEpsSum m s b = .ok (m.set s (.epsSum (cs ++ flatE m b))) := by
  obtain ⟨ob, h1, h2⟩ := hb
  unfold addToEpsSum flatE
  rw [hs, h1]
  cases ob <;> simp_all [Obj.isEps]

lemma addToIdxSum_ok {m : Mem} {s b : ℕ} {cs : List ℕ} (hs : m[s]? = some (.idxSum cs)) (hb : IsIdxObj m b) :
    addToIdxSum m s b = .ok (m.set s (.idxSum (cs ++ flatI m b))) := by
  obtain ⟨ob, h1, h2⟩ := hb
  unfold addToIdxSum flatI
  rw [hs, h1]
  cases ob <;> simp_all [Obj.isEps]

lemma get_alloc_self (m : Mem) (o : Obj) : (m ++ [o])[m.length]? = some o := by
  rw [List.getElem?_append_right (le_refl _)]; simp

lemma get_alloc_lt {m : Mem} {a : ℕ} {o q : Obj} (h : m[a]? = some q) : (m ++ [o])[a]? = some q := by
  rw [List.getElem?_append_left (lt_of_some h)]; exact h

lemma set_alloc (m : Mem) (o o' : Obj) : (m ++ [o]).set m.length o' = m ++ [o'] := by
  rw [List.set_append_right _ _ (le_refl _)]; simp

lemma newEpsSum_ok {m : Mem} {x y : ℕ} (hx : IsEpsObj m x) (hy : IsEpsObj m y) :
    newEpsSum m x y = .ok (m ++ [.epsSum (flatE m x ++ flatE m y)], m.length) := by
  obtain ⟨ox, hx1, hx2⟩ := hx
  obtain ⟨oy, hy1, hy2⟩ := hy
  have fl : ∀ (o : Obj) (z : ℕ) (oz : Obj), m[z]? = some oz → flatE (m ++ [o]) z = flatE m z := by
    intro o z oz hz
    unfold flatE
    rw [get_alloc_lt hz, hz]
  unfold newEpsSum alloc
  simp only [bind, Except.bind, pure, Except.pure]
  rw [addToEpsSum_ok (get_alloc_self m _) ⟨ox, get_alloc_lt hx1, hx2⟩, set_alloc]
  simp only
  rw [addToEpsSum_ok (get_alloc_self m _) ⟨oy, get_alloc_lt hy1, hy2⟩, set_alloc, fl _ x ox hx1, fl _ y oy hy1]
  simp

lemma newIdxSum_ok {m : Mem} {x y : ℕ} (hx : IsIdxObj m x) (hy : IsIdxObj m y) :
    newIdxSum m x y = .ok (m ++ [.idxSum (flatI m x ++ flatI m y)], m.length) := by
  obtain ⟨ox, hx1, hx2⟩ := hx
  obtain ⟨oy, hy1, hy2⟩ := hy
  have fl : ∀ (o : Obj) (z : ℕ) (oz : Obj), m[z]? = some oz → flatI (m ++ [o]) z = flatI m z := by
    intro o z oz hz
    unfold flatI
    rw [get_alloc_lt hz, hz]
  unfold newIdxSum alloc
  simp only [bind, Except.bind, pure, Except.pure]
  rw [addToIdxSum_ok (get_alloc_self m _) ⟨ox, get_alloc_lt hx1, hx2⟩, set_alloc]
  simp only
  rw [addToIdxSum_ok (get_alloc_self m _) ⟨oy, get_alloc_lt hy1, hy2⟩, set_alloc, fl _ x ox hx1, fl _ y oy hy1]
  simp

/-- Effect of an accepted addition: the result is one sum object, new or one of the operands, and nothing else changes. -/
structure Added (mk : List ℕ → Obj) (flat : Mem → ℕ → List ℕ) (m : Mem) (a b : ℕ) (m' : Mem) (r : ℕ) : Prop where
  res : m'[r]? = some (mk (flat m a ++ flat m b)) ∨ m'[r]? = some (mk (flat m b ++ flat m a))
  others : ∀ x, x ≠ r → m'[x]? = m[x]?
  target : r = m.length ∨ ((r = a ∨ r = b) ∧ ∃ cs, m[r]? = some (mk cs))

lemma added_new (mk flat) (m : Mem) (a b x y : ℕ) (h : x = a ∧ y = b ∨ x = b ∧ y = a) :
    Added mk flat m a b (m ++ [mk (flat m x ++ flat m y)]) m.length where
  res := by
    rw [get_alloc_self]
    rcases h with ⟨rfl, rfl⟩ | ⟨rfl, rfl⟩
    · exact Or.inl rfl
    · exact Or.inr rfl
  others := by
    intro z hz
    by_cases h : z < m.length
    · rw [List.getElem?_append_left h]
    · rw [List.getElem?_eq_none (by simp; omega), List.getElem?_eq_none (by omega)]
  target := Or.inl rfl

lemma added_set (mk flat) (m : Mem) (a b s t : ℕ) (h : s = a ∧ t = b ∨ s = b ∧ t = a) (cs : List ℕ)
    (hs : m[s]? = some (mk cs)) (hf : flat m s = cs) :
    Added mk flat m a b (m.set s (mk (cs ++ flat m t))) s where
  res := by
    rw [List.getElem?_set_self (lt_of_some hs), ← hf]
    rcases h with ⟨rfl, rfl⟩ | ⟨rfl, rfl⟩
    · exact Or.inl rfl
    · exact Or.inr rfl
  others := by
    intro z hz
    rw [List.getElem?_set_ne (Ne.symm hz)]
  target := Or.inr ⟨by rcases h with ⟨rfl, _⟩ | ⟨rfl, _⟩ <;> simp, cs, hs⟩

/-- Which additions of objects are accepted. -/
def Allowed : Obj → Obj → Prop
  | .leaf .pseudo _, _ => False
  | .leaf .tableEps _, .leaf .tableEps _ => False
  | .leaf .table _, .leaf .table _ => False
  | x, y => x.isEps = y.isEps

lemma Allowed.same {oa ob : Obj} (h : Allowed oa ob) : ob.isEps = oa.isEps := by
  cases oa with
  | leaf k v =>
    cases k <;> cases ob with
    | leaf k' v' => cases k' <;> first | exact h.elim | exact Eq.symm h
    | _ => first | exact h.elim | exact Eq.symm h
  | _ => cases ob <;> exact Eq.symm h

lemma addObj_refused {m : Mem} {a b : ℕ} {oa ob : Obj} (ha : m[a]? = some oa) (hb : m[b]? = some ob) :
    ¬ Allowed oa ob → ∃ e, addObj m a b = .error e := by
  intro hal
  unfold addObj
  rw [ha, hb]
  cases oa with
  | leaf k v =>
    cases k <;> cases ob with
    | leaf k' v' => cases k' <;> simp_all [Allowed, Obj.isEps, Kind.isEps]
    | _ => simp_all [Allowed, Obj.isEps, Kind.isEps]
  | epsSum cs =>
    have : ob.isEps = false := by cases ob <;> simpa [Allowed, Obj.isEps] using hal
    simp [addToEpsSum, ha, hb, this, Except.map]
  | idxSum cs =>
    have : ob.isEps = true := by cases ob <;> simpa [Allowed, Obj.isEps] using hal
    simp [addToIdxSum, ha, hb, this, Except.map]
  | view o => cases ob with
    | leaf k' v' => cases k' <;> simp_all [Allowed, Obj.isEps, Kind.isEps]
    | _ => simp_all [Allowed, Obj.isEps, Kind.isEps]

lemma addObj_spec {m : Mem} {a b : ℕ} {oa ob : Obj} (ha : m[a]? = some oa) (hb : m[b]? = some ob) :
    (Allowed oa ob → oa.isEps = true → ∃ m' r, addObj m a b = .ok (m', r) ∧ Added .epsSum flatE m a b m' r) ∧
    (Allowed oa ob → oa.isEps = false → ∃ m' r, addObj m a b = .ok (m', r) ∧ Added .idxSum flatI m a b m' r) ∧
    (¬ Allowed oa ob → ∃ e, addObj m a b = .error e) := by
  have fE : ∀ x ox, m[x]? = some ox → (∀ cs, ox ≠ .epsSum cs) → flatE m x = [x] := by
    intro x ox hx hne
    unfold flatE
    rw [hx]
    cases ox <;> simp_all
  have fI : ∀ x ox, m[x]? = some ox → (∀ cs, ox ≠ .idxSum cs) → flatI m x = [x] := by
    intro x ox hx hne
    unfold flatI
    rw [hx]
    cases ox <;> simp_all
  have newE : oa.isEps = true → ob.isEps = true → newEpsSum m a b = .ok (m ++ [.epsSum (flatE m a ++ flatE m b)], m.length) :=
    fun h1 h2 => newEpsSum_ok ⟨oa, ha, h1⟩ ⟨ob, hb, h2⟩
  have newE' : oa.isEps = true → ob.isEps = true → newEpsSum m b a = .ok (m ++ [.epsSum (flatE m b ++ flatE m a)], m.length) :=
    fun h1 h2 => newEpsSum_ok ⟨ob, hb, h2⟩ ⟨oa, ha, h1⟩
  have newI : oa.isEps = false → ob.isEps = false → newIdxSum m a b = .ok (m ++ [.idxSum (flatI m a ++ flatI m b)], m.length) :=
    fun h1 h2 => newIdxSum_ok ⟨oa, ha, h1⟩ ⟨ob, hb, h2⟩
  have newI' : oa.isEps = false → ob.isEps = false → newIdxSum m b a = .ok (m ++ [.idxSum (flatI m b ++ flatI m a)], m.length) :=
    fun h1 h2 => newIdxSum_ok ⟨ob, hb, h2⟩ ⟨oa, ha, h1⟩
  have addE : ∀ cs, oa = .epsSum cs → ob.isEps = true → addToEpsSum m a b = .ok (m.set a (.epsSum (cs ++ flatE m b))) := by
    intro cs h1 h2
    exact addToEpsSum_ok (by rw [ha, h1]) ⟨ob, hb, h2⟩
  have addI : ∀ cs, oa = .idxSum cs → ob.isEps = false → addToIdxSum m a b = .ok (m.set a (.idxSum (cs ++ flatI m b))) := by
    intro cs h1 h2
    exact addToIdxSum_ok (by rw [ha, h1]) ⟨ob, hb, h2⟩
  have aN := added_new .epsSum flatE m a b a b (Or.inl ⟨rfl, rfl⟩)
  have aN' := added_new .epsSum flatE m a b b a (Or.inr ⟨rfl, rfl⟩)
  have iN := added_new .idxSum flatI m a b a b (Or.inl ⟨rfl, rfl⟩)
  have iN' := added_new .idxSum flatI m a b b a (Or.inr ⟨rfl, rfl⟩)
  have aS : ∀ cs, oa = .epsSum cs → Added .epsSum flatE m a b (m.set a (.epsSum (cs ++ flatE m b))) a := by
    intro cs h
    exact added_set .epsSum flatE m a b a b (Or.inl ⟨rfl, rfl⟩) cs (by rw [ha, h]) (by simp [flatE, ha, h])
  have aS' : ∀ cs, ob = .epsSum cs → Added .epsSum flatE m a b (m.set b (.epsSum (cs ++ flatE m a))) b := by
    intro cs h
    exact added_set .epsSum flatE m a b b a (Or.inr ⟨rfl, rfl⟩) cs (by rw [hb, h]) (by simp [flatE, hb, h])
  have iS : ∀ cs, oa = .idxSum cs → Added .idxSum flatI m a b (m.set a (.idxSum (cs ++ flatI m b))) a := by
    intro cs h
    exact added_set .idxSum flatI m a b a b (Or.inl ⟨rfl, rfl⟩) cs (by rw [ha, h]) (by simp [flatI, ha, h])
  have iS' : ∀ cs, ob = .idxSum cs → Added .idxSum flatI m a b (m.set b (.idxSum (cs ++ flatI m a))) b := by
    intro cs h
    exact added_set .idxSum flatI m a b b a (Or.inr ⟨rfl, rfl⟩) cs (by rw [hb, h]) (by simp [flatI, hb, h])
  refine ⟨?_, ?_, ?_⟩
  · intro hal heps
    cases oa with
    | idxSum cs => simp [Obj.isEps] at heps
    | view o => simp [Obj.isEps] at heps
    | epsSum cs =>
      have hob : ob.isEps = true := hal.same.trans heps
      refine ⟨_, _, ?_, aS cs rfl⟩
      unfold addObj
      rw [ha, hb]
      simp only [addE cs rfl hob, Except.map]
    | leaf k v =>
      cases k with
      | pseudo => simp [Allowed] at hal
      | index => simp [Obj.isEps, Kind.isEps] at heps
      | table => simp [Obj.isEps, Kind.isEps] at heps
      | tableEps =>
        have hob : ob.isEps = true := hal.same.trans heps
        refine ⟨_, _, ?_, aN⟩
        unfold addObj
        rw [ha, hb]
        cases ob with
        | leaf k' v' =>
          cases k' <;> first
            | exact hal.elim
            | (simp [Obj.isEps, Kind.isEps] at hob; done)
            | simp [Obj.isEps, Kind.isEps, newE heps hob]
        | _ => first
            | (simp [Obj.isEps] at hob; done)
            | simp [Obj.isEps, newE heps hob]
      | eps =>
        have hob : ob.isEps = true := hal.same.trans heps
        cases ob with
        | idxSum cs => simp [Obj.isEps] at hob
        | view o => simp [Obj.isEps] at hob
        | epsSum cs =>
          refine ⟨_, _, ?_, aS' cs rfl⟩
          unfold addObj
          rw [ha, hb, fE a _ ha (by simp)]
          simp [Obj.isEps]
        | leaf k' v' =>
          cases k' with
          | index => simp [Obj.isEps, Kind.isEps] at hob
          | table => simp [Obj.isEps, Kind.isEps] at hob
          | tableEps =>
            refine ⟨_, _, ?_, aN'⟩
            unfold addObj
            rw [ha, hb]
            simp [Obj.isEps, Kind.isEps, newE' heps hob]
          | eps =>
            refine ⟨_, _, ?_, aN⟩
            unfold addObj
            rw [ha, hb]
            simp [Obj.isEps, Kind.isEps, newE heps hob]
          | pseudo =>
            refine ⟨_, _, ?_, aN⟩
            unfold addObj
            rw [ha, hb]
            simp [Obj.isEps, Kind.isEps, newE heps hob]
  · intro hal heps
    cases oa with
    | epsSum cs => simp [Obj.isEps] at heps
    | idxSum cs =>
      have hob : ob.isEps = false := hal.same.trans heps
      refine ⟨_, _, ?_, iS cs rfl⟩
      unfold addObj
      rw [ha, hb]
      simp only [addI cs rfl hob, Except.map]
    | view o =>
      have hob : ob.isEps = false := hal.same.trans heps
      cases ob with
      | epsSum cs => simp [Obj.isEps] at hob
      | idxSum cs =>
        refine ⟨_, _, ?_, iS' cs rfl⟩
        unfold addObj
        rw [ha, hb, fI a _ ha (by simp)]
        simp [Obj.isEps]
      | view o' =>
        refine ⟨_, _, ?_, iN⟩
        unfold addObj
        rw [ha, hb]
        simp [Obj.isEps, newI heps hob]
      | leaf k' v' =>
        cases k' with
        | table =>
          refine ⟨_, _, ?_, iN'⟩
          unfold addObj
          rw [ha, hb]
          simp [Obj.isEps, Kind.isEps, newI' heps hob]
        | index =>
          refine ⟨_, _, ?_, iN⟩
          unfold addObj
          rw [ha, hb]
          simp [Obj.isEps, Kind.isEps, newI heps hob]
        | _ => simp [Obj.isEps, Kind.isEps] at hob
    | leaf k v =>
      cases k with
      | pseudo => simp [Allowed] at hal
      | eps => simp [Obj.isEps, Kind.isEps] at heps
      | tableEps => simp [Obj.isEps, Kind.isEps] at heps
      | table =>
        have hob : ob.isEps = false := hal.same.trans heps
        refine ⟨_, _, ?_, iN⟩
        unfold addObj
        rw [ha, hb]
        cases ob with
        | leaf k' v' =>
          cases k' <;> first
            | exact hal.elim
            | (simp [Obj.isEps, Kind.isEps] at hob; done)
            | simp [Obj.isEps, Kind.isEps, newI heps hob]
        | _ => first
            | (simp [Obj.isEps] at hob; done)
            | simp [Obj.isEps, newI heps hob]
      | index =>
        have hob : ob.isEps = false := hal.same.trans heps
        cases ob with
        | epsSum cs => simp [Obj.isEps] at hob
        | idxSum cs =>
          refine ⟨_, _, ?_, iS' cs rfl⟩
          unfold addObj
          rw [ha, hb, fI a _ ha (by simp)]
          simp [Obj.isEps]
        | view o' =>
          refine ⟨_, _, ?_, iN⟩
          unfold addObj
          rw [ha, hb]
          simp [Obj.isEps, newI heps hob]
        | leaf k' v' =>
          cases k' with
          | table =>
            refine ⟨_, _, ?_, iN'⟩
            unfold addObj
            rw [ha, hb]
            simp [Obj.isEps, Kind.isEps, newI' heps hob]
          | index =>
            refine ⟨_, _, ?_, iN⟩
            unfold addObj
            rw [ha, hb]
            simp [Obj.isEps, Kind.isEps, newI heps hob]
          | _ => simp [Obj.isEps, Kind.isEps] at hob
  · exact addObj_refused ha hb

end PyElli.Disp
