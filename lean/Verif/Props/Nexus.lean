import Verif.Model.Nexus
import Verif.Spec.Nexus
import Verif.Props.DispSum
import Verif.Props.Table
import Verif.Props.Formula

/-! # C95: materials of a NeXus file -/

namespace PyElli.Nexus

open PyElli PyElli.Disp Spec.Nexus

/-! ## Sums of lists -/

lemma total_append (us : List (Option ℂ)) (u : Option ℂ) : total (us ++ [u]) = Option.map₂ (· + ·) (total us) u := by
  induction us with
  | nil => cases u <;> simp [total]
  | cons a us ih =>
    have h : ∀ l, total (a :: l) = Option.map₂ (· + ·) a (total l) := fun _ => rfl
    rw [List.cons_append, h, h, ih]
    cases a <;> cases total us <;> cases u <;> simp [add_assoc]

lemma sums_append {xs : List Val} {x y z : Val} (hx : Sums xs x) (hz : Spec.SumOf z x y) : Sums (xs ++ [y]) z := by
  intro v
  rw [hz v]
  constructor
  · rintro ⟨u, w, h1, h2, h3⟩
    obtain ⟨us, rfl, rfl⟩ := (hx u).1 h1
    exact ⟨us ++ [w], by simp [h2], by rw [total_append, h3]⟩
  · rintro ⟨us, h1, h2⟩
    rcases List.eq_nil_or_concat us with rfl | ⟨us', w, rfl⟩
    · simp at h1
    · rw [List.concat_eq_append, List.map_append, List.map_singleton] at h1
      obtain ⟨h3, h4⟩ := List.append_inj' h1 rfl
      simp only [List.cons.injEq, and_true] at h4
      refine ⟨total us', w, (hx _).2 ⟨us', h3, rfl⟩, h4, ?_⟩
      rw [h2, List.concat_eq_append, total_append]

lemma sums_single (x : Val) : Sums [x] x := by
  intro v
  constructor
  · intro h
    exact ⟨[v], by simp [h], by cases v <;> simp [total]⟩
  · rintro ⟨us, h1, h2⟩
    rcases us with _ | ⟨u, _ | ⟨w, us⟩⟩
    · simp at h1
    · simp only [List.map_cons, List.map_nil, List.cons.injEq, and_true] at h1
      rw [h1, h2]
      cases u <;> simp [total]
    · simp at h1

/-! ## The loop over the groups -/

/-- A component: class family and value. -/
abbrev Comp := Kind × (ℝ → Val)

/-- Both are tables of the same family. -/
def BothTables (c d : Comp) : Prop := (c.1 = .tableEps ∧ d.1 = .tableEps) ∨ (c.1 = .table ∧ d.1 = .table)

/-- The object at `r` is the dispersion built from the components `cs`. -/
structure Holds (m : Mem) (r : ℕ) (cs : List Comp) : Prop where
  inv : Inv m
  value : ∀ (l : ℝ) (k : ℕ), 6 ≤ k → Sums (cs.map fun c => c.2 l) (natural m l k r)
  shape : ∃ o, m[r]? = some o ∧ (∀ c ∈ cs, c.1.isEps = o.isEps) ∧ cs ≠ [] ∧
    ((∃ c, cs = [c] ∧ o = .leaf c.1 c.2) ∨ (2 ≤ cs.length ∧ ((∃ ds, o = .epsSum ds) ∨ ∃ ds, o = .idxSum ds)))

lemma natural_leaf {m : Mem} {a : ℕ} {kd : Kind} {v : ℝ → Val} (h : m[a]? = some (.leaf kd v)) (l : ℝ) {k : ℕ} (hk : 6 ≤ k) :
    natural m l k a = v l := by
  obtain ⟨n, rfl⟩ := Nat.exists_eq_add_of_le' hk
  rw [natural, h]
  cases kd <;> simp [Obj.isEps, Kind.isEps, call, h]

lemma holds_first {m : Mem} (hm : Inv m) (c : Comp) : Holds (m ++ [.leaf c.1 c.2]) m.length [c] := by
  refine ⟨inv_alloc hm trivial, fun l k hk => ?_, _, get_alloc_self m _, by simp [Obj.isEps], by simp, Or.inl ⟨c, rfl, rfl⟩⟩
  rw [natural_leaf (get_alloc_self m (.leaf c.1 c.2)) l hk]
  exact sums_single _

/-- One step of the loop. -/
lemma holds_step {m : Mem} {r : ℕ} {cs : List Comp} (h : Holds m r cs) (c : Comp) (hp : ∀ d ∈ cs, d.1 ≠ .pseudo) :
    (∀ m' r', addObj (m ++ [.leaf c.1 c.2]) r m.length = .ok (m', r') → Holds m' r' (cs ++ [c]) ∧
      (∀ x, x < m.length → x ≠ r → m'[x]? = m[x]?) ∧ (r' = r ∨ m.length ≤ r') ∧ m.length ≤ m'.length) ∧
    ((∃ p, addObj (m ++ [.leaf c.1 c.2]) r m.length = .ok p) ↔
      (∀ d ∈ cs, d.1.isEps = c.1.isEps) ∧ ∀ d, cs = [d] → ¬ BothTables d c) := by
  obtain ⟨o, ho, hfam, hne, hsh⟩ := h.shape
  have hi := inv_alloc h.inv (o := .leaf c.1 c.2) trivial
  have hr : r < m.length := lt_of_some ho
  have ho' : (m ++ [Obj.leaf c.1 c.2])[r]? = some o := get_alloc_lt ho
  have hc' := get_alloc_self m (.leaf c.1 c.2)
  have hag : ∀ x, x < m.length → (m ++ [Obj.leaf c.1 c.2])[x]? = m[x]? := fun x hx => List.getElem?_append_left hx
  constructor
  · intro m' r' hadd
    obtain ⟨hs, hoth, htg, hle⟩ := addObj_target hadd
    obtain ⟨hacc, -, -⟩ := C50_accepts _ _ _ _ _ ho' hc'
    have hsame := (hacc.1 ⟨_, hadd⟩).1
    have hlen : (m ++ [Obj.leaf c.1 c.2]).length = m.length + 1 := by simp
    have hrr : r' = r ∨ m.length < r' := by
      rcases htg with h | ⟨h | h, hs'⟩
      · right; omega
      · exact Or.inl h
      · exfalso
        obtain ⟨ds, h' | h'⟩ := hs'
        · rw [h, hc'] at h'; cases h'
        · rw [h, hc'] at h'; cases h'
    refine ⟨⟨(addObj_inv hi hadd).1, fun l k hk => ?_, ?_⟩, ?_, ?_, by omega⟩
    · obtain ⟨hsum, -⟩ := addObj_value hi hadd hk l
      rw [natural_agree h.inv hi hag hr hk l, natural_leaf hc' l hk] at hsum
      rw [List.map_append, List.map_singleton]
      exact sums_append (h.value l k hk) hsum
    · have hfam' : ∀ q, m'[r']? = some q → q.isEps = o.isEps → ∀ d ∈ cs ++ [c], d.1.isEps = q.isEps := by
        intro q _ hq d hd
        rcases List.mem_append.1 hd with hd | hd
        · rw [hq]; exact hfam d hd
        · rw [List.mem_singleton.1 hd, hq, hsame]; rfl
      have hlen2 : 2 ≤ (cs ++ [c]).length := by
        have := List.length_pos_iff.2 hne
        simp; omega
      rcases addObj_ok hadd with ⟨h1, -, h3⟩ | ⟨h1, -, h3⟩
      · have he : o.isEps = true := by
          obtain ⟨q, h4, h5⟩ := h1
          rw [ho'] at h4; obtain rfl := Option.some.inj h4; exact h5
        rcases h3.res with h | h
        · exact ⟨_, h, hfam' _ h he.symm, by simp, Or.inr ⟨hlen2, Or.inl ⟨_, rfl⟩⟩⟩
        · exact ⟨_, h, hfam' _ h he.symm, by simp, Or.inr ⟨hlen2, Or.inl ⟨_, rfl⟩⟩⟩
      · have he : o.isEps = false := by
          obtain ⟨q, h4, h5⟩ := h1
          rw [ho'] at h4; obtain rfl := Option.some.inj h4; exact h5
        rcases h3.res with h | h
        · exact ⟨_, h, hfam' _ h he.symm, by simp, Or.inr ⟨hlen2, Or.inr ⟨_, rfl⟩⟩⟩
        · exact ⟨_, h, hfam' _ h he.symm, by simp, Or.inr ⟨hlen2, Or.inr ⟨_, rfl⟩⟩⟩
    · intro x hx hxr
      rw [hoth x ?_, hag x hx]
      rcases hrr with h | h
      · rw [h]; exact hxr
      · omega
    · rcases hrr with h | h
      · exact Or.inl h
      · exact Or.inr (by omega)
  · rw [(C50_accepts _ _ _ _ _ ho' hc').1]
    have hfo : (∀ d ∈ cs, d.1.isEps = c.1.isEps) ↔ o.isEps = (Obj.leaf c.1 c.2).isEps := by
      constructor
      · intro hall
        obtain ⟨d, hd⟩ := List.exists_mem_of_ne_nil cs hne
        rw [← hfam d hd, hall d hd]; rfl
      · intro he d hd
        rw [hfam d hd, he]; rfl
    rw [hfo]
    rcases hsh with ⟨d, rfl, rfl⟩ | ⟨h2, h3⟩
    · have hps := hp d (by simp)
      simp only [List.cons.injEq, and_true, forall_eq', BothTables, Obj.leaf.injEq]
      constructor
      · rintro ⟨h1, -, h3, h4⟩
        refine ⟨h1, ?_⟩
        rintro (⟨h5, h6⟩ | ⟨h5, h6⟩)
        · exact h3 ⟨_, _, ⟨h5, rfl⟩, ⟨h6, rfl⟩⟩
        · exact h4 ⟨_, _, ⟨h5, rfl⟩, ⟨h6, rfl⟩⟩
      · rintro ⟨h1, h2⟩
        refine ⟨h1, fun v hv => hps (Obj.leaf.inj hv).1, ?_, ?_⟩
        · rintro ⟨v, w, h3, h4⟩
          exact h2 (Or.inl ⟨h3.1, h4.1⟩)
        · rintro ⟨v, w, h3, h4⟩
          exact h2 (Or.inr ⟨h3.1, h4.1⟩)
    · have hno : ∀ d, cs ≠ [d] := by rintro d rfl; simp at h2
      rcases h3 with ⟨ds, rfl⟩ | ⟨ds, rfl⟩ <;> simp [hno]

lemma load_kind {E : Env} {g : Group} {c : Comp} (h : load E g = some (.ok c)) : c.1 ≠ .pseudo := by
  cases g with
  | other => simp [load] at h
  | table g =>
    simp only [load, Option.some.injEq] at h
    have htab : ∀ (l : List ℝ) (v : List ℂ) (k : Kind), k ≠ .pseudo →
        (mkTable l v).map (fun t => ((k, t.value) : Comp)) = .ok c → c.1 ≠ .pseudo := by
      intro l v k hk hc
      cases hm : mkTable l v with
      | error e => rw [hm] at hc; cases hc
      | ok t => rw [hm] at hc; obtain rfl := Except.ok.inj hc; exact hk
    unfold getTable at h
    split at h
    · cases h
    · split at h
      · cases h
      · split at h
        · exact htab _ _ _ (by simp) h
        · split at h
          · exact htab _ _ _ (by simp) h
          · cases h
  | func g =>
    simp only [load, Option.some.injEq] at h
    have hcon : ∀ b f p i, construct E b f p i = .ok c → c.1 ≠ .pseudo := by
      intro b f p i hc
      rcases i with _ | ⟨i, u⟩
      · cases hc
      · simp only [construct] at hc
        cases hb : buildFormula E b f i p.1 p.2 u with
        | error e => rw [hb] at hc; cases hc
        | ok v => rw [hb] at hc; obtain rfl := Except.ok.inj hc; cases b <;> simp
    unfold getFunction at h
    split at h
    · cases h
    · split at h
      · cases h
      · split at h
        · cases h
        · split at h
          · cases h
          · split at h
            · exact hcon _ _ _ _ h
            · split at h
              · exact hcon _ _ _ _ h
              · cases h

/-- Components that can be added up in this order: all of one family, and the first two are not both tables. -/
def Acceptable (cs : List Comp) : Prop :=
  (∀ c ∈ cs, ∀ d ∈ cs, c.1.isEps = d.1.isEps) ∧ ∀ c d rest, cs = c :: d :: rest → ¬ BothTables c d

lemma Acceptable.prefix {cs ds : List Comp} (h : Acceptable (cs ++ ds)) : Acceptable cs := by
  refine ⟨fun c hc d hd => h.1 c (by simp [hc]) d (by simp [hd]), ?_⟩
  rintro c d rest rfl
  exact h.2 c d (rest ++ ds) (by simp)

lemma acceptable_snoc {cs : List Comp} {c : Comp} (h : Acceptable cs) (hne : cs ≠ []) :
    Acceptable (cs ++ [c]) ↔ (∀ d ∈ cs, d.1.isEps = c.1.isEps) ∧ ∀ d, cs = [d] → ¬ BothTables d c := by
  constructor
  · intro h'
    refine ⟨fun d hd => h'.1 d (by simp [hd]) c (by simp), ?_⟩
    rintro d rfl
    exact h'.2 d c [] rfl
  · rintro ⟨h1, h2⟩
    constructor
    · intro a ha b hb
      rcases List.mem_append.1 ha with ha | ha <;> rcases List.mem_append.1 hb with hb | hb
      · exact h.1 a ha b hb
      · rw [List.mem_singleton.1 hb]; exact h1 a ha
      · rw [List.mem_singleton.1 ha]; exact (h1 b hb).symm
      · rw [List.mem_singleton.1 ha, List.mem_singleton.1 hb]
    · intro a b rest he
      rcases cs with _ | ⟨x, _ | ⟨y, cs⟩⟩
      · exact absurd rfl hne
      · simp only [List.cons_append, List.nil_append, List.cons.injEq] at he
        obtain ⟨rfl, rfl, -⟩ := he
        exact h2 x rfl
      · simp only [List.cons_append, List.cons.injEq] at he
        obtain ⟨rfl, rfl, -⟩ := he
        exact h.2 x y cs rfl

/-- The state of the loop after the components `cs`; `m0` is the memory before the loop. -/
structure State (m0 m : Mem) (d : Option ℕ) (cs : List Comp) : Prop where
  inv : Inv m
  len : m0.length ≤ m.length
  old : ∀ x, x < m0.length → m[x]? = m0[x]?
  kinds : ∀ c ∈ cs, c.1 ≠ .pseudo
  acc : Acceptable cs
  disp : (cs = [] ∧ d = none) ∨ ∃ r, d = some r ∧ m0.length ≤ r ∧ Holds m r cs

lemma loop (E : Env) (m0 : Mem) (gs : List Group) : ∀ (m : Mem) (d : Option ℕ) (cs : List Comp), State m0 m d cs →
    (∀ m' d', getDispersion E m d gs = .ok (m', d') → ∃ cs', gs.filterMap (load E) = cs'.map .ok ∧ State m0 m' d' (cs ++ cs')) ∧
    ((∃ p, getDispersion E m d gs = .ok p) ↔ ∃ cs', gs.filterMap (load E) = cs'.map .ok ∧ Acceptable (cs ++ cs')) := by
  induction gs with
  | nil =>
    intro m d cs hs
    constructor
    · intro m' d' h
      simp only [getDispersion, Except.ok.injEq, Prod.mk.injEq] at h
      obtain ⟨rfl, rfl⟩ := h
      exact ⟨[], rfl, by simpa using hs⟩
    · exact ⟨fun _ => ⟨[], rfl, by simpa using hs.acc⟩, fun _ => ⟨_, rfl⟩⟩
  | cons g gs ih =>
    intro m d cs hs
    cases hl : load E g with
    | none =>
      have h1 : getDispersion E m d (g :: gs) = getDispersion E m d gs := by simp only [getDispersion, hl]
      have h2 : (g :: gs).filterMap (load E) = gs.filterMap (load E) := by rw [List.filterMap_cons, hl]
      rw [h1, h2]
      exact ih m d cs hs
    | some x =>
      have h2 : (g :: gs).filterMap (load E) = x :: gs.filterMap (load E) := by rw [List.filterMap_cons, hl]
      rw [h2]
      cases x with
      | error e =>
        have h1 : getDispersion E m d (g :: gs) = .error e := by simp only [getDispersion, hl]
        rw [h1]
        constructor
        · intro m' d' h; cases h
        · constructor
          · rintro ⟨p, h⟩; cases h
          · rintro ⟨cs', h, -⟩
            rcases cs' with _ | ⟨c, cs'⟩
            · cases h
            · simp at h
      | ok c =>
        have hck := load_kind hl
        have hmap : ∀ cs', Except.ok c :: gs.filterMap (load E) = cs'.map Except.ok ↔
            ∃ cs'', cs' = c :: cs'' ∧ gs.filterMap (load E) = cs''.map Except.ok := by
          intro cs'
          rcases cs' with _ | ⟨y, cs'⟩
          · simp
          · simp only [List.map_cons, List.cons.injEq, Except.ok.injEq]
            constructor
            · rintro ⟨rfl, h⟩; exact ⟨cs', ⟨rfl, rfl⟩, h⟩
            · rintro ⟨cs'', ⟨rfl, rfl⟩, h⟩; exact ⟨rfl, h⟩
        -- the state after the component, and what follows from it
        have hnext : ∀ (m1 : Mem) (d1 : Option ℕ), getDispersion E m d (g :: gs) = getDispersion E m1 d1 gs →
            State m0 m1 d1 (cs ++ [c]) →
            (∀ m' d', getDispersion E m d (g :: gs) = .ok (m', d') → ∃ cs', Except.ok c :: gs.filterMap (load E) = cs'.map .ok ∧
              State m0 m' d' (cs ++ cs')) ∧
            ((∃ p, getDispersion E m d (g :: gs) = .ok p) ↔
              ∃ cs', Except.ok c :: gs.filterMap (load E) = cs'.map .ok ∧ Acceptable (cs ++ cs')) := by
          intro m1 d1 he hs1
          rw [he]
          obtain ⟨i1, i2⟩ := ih m1 d1 (cs ++ [c]) hs1
          constructor
          · intro m' d' h
            obtain ⟨cs', h3, h4⟩ := i1 m' d' h
            exact ⟨c :: cs', (hmap _).2 ⟨cs', rfl, h3⟩, by simpa using h4⟩
          · rw [i2]
            constructor
            · rintro ⟨cs', h3, h4⟩
              exact ⟨c :: cs', (hmap _).2 ⟨cs', rfl, h3⟩, by simpa using h4⟩
            · rintro ⟨cs', h3, h4⟩
              obtain ⟨cs'', rfl, h5⟩ := (hmap _).1 h3
              exact ⟨cs'', h5, by simpa using h4⟩
        have hkinds : ∀ e ∈ cs ++ [c], e.1 ≠ .pseudo := by
          intro e he
          rcases List.mem_append.1 he with he | he
          · exact hs.kinds e he
          · rw [List.mem_singleton.1 he]; exact hck
        rcases hs.disp with ⟨rfl, rfl⟩ | ⟨r, rfl, hr, hh⟩
        · refine hnext (m ++ [.leaf c.1 c.2]) (some m.length) (by simp only [getDispersion, hl, alloc]) ?_
          have hf := holds_first hs.inv c
          refine ⟨hf.inv, by simp; have := hs.len; omega, fun x hx => ?_, hkinds, ?_, Or.inr ⟨_, rfl, hs.len, hf⟩⟩
          · rw [List.getElem?_append_left (by have := hs.len; omega), hs.old x hx]
          · refine ⟨by simp, ?_⟩
            intro a b rest h
            simp at h
        · obtain ⟨s1, s2⟩ := holds_step hh c hs.kinds
          cases ha : addObj (m ++ [.leaf c.1 c.2]) r m.length with
          | ok p =>
            obtain ⟨m2, r2⟩ := p
            obtain ⟨t1, t2, t3, t4⟩ := s1 m2 r2 ha
            refine hnext m2 (some r2) (by simp only [getDispersion, hl, alloc, ha]) ?_
            have hlen := hs.len
            refine ⟨t1.inv, by omega, fun x hx => ?_, hkinds, ?_, Or.inr ⟨_, rfl, by omega, t1⟩⟩
            · rw [t2 x (by omega) (by omega), hs.old x hx]
            · exact (acceptable_snoc hs.acc (by obtain ⟨o, -, -, h, -⟩ := hh.shape; exact h)).2 (s2.1 ⟨_, ha⟩)
          | error e =>
            have he : getDispersion E m (some r) (g :: gs) = .error e := by simp only [getDispersion, hl, alloc, ha]
            rw [he]
            constructor
            · intro m' d' h; cases h
            · constructor
              · rintro ⟨p, h⟩; cases h
              · rintro ⟨cs', h3, h4⟩
                exfalso
                obtain ⟨cs'', rfl, -⟩ := (hmap _).1 h3
                have h5 : Acceptable (cs ++ [c]) := by
                  have : cs ++ c :: cs'' = (cs ++ [c]) ++ cs'' := by simp
                  rw [this] at h4
                  exact h4.prefix
                obtain ⟨o, -, -, hne, -⟩ := hh.shape
                obtain ⟨p, hp⟩ := s2.2 ((acceptable_snoc hs.acc hne).1 h5)
                rw [ha] at hp
                cases hp

lemma state_init {m : Mem} (hm : Inv m) : State m m none [] :=
  ⟨hm, le_refl _, fun _ _ => rfl, by simp, ⟨by simp, by simp⟩, Or.inl ⟨rfl, rfl⟩⟩

/-! ## C95 -/

/-- C95: the dispersion of one axis exists exactly when every known group can be loaded, all of them belong to one family (dielectric
or index) and the first two are not both tables. -/
theorem C95_accepts (E : Env) (h : List Op) (gs : List Group) :
    (∃ p, getDispersion E (run h) none gs = .ok p) ↔ ∃ cs : List Comp, gs.filterMap (load E) = cs.map .ok ∧ Acceptable cs := by
  simpa using (loop E (run h) gs (run h) none [] (state_init (inv_run h))).2

/-- C95: after any history, the dispersion read for an axis evaluates at every wavelength to the sum of the values of all known groups
of that axis (it fails to evaluate exactly where one of them does, and is NaN exactly where one of them is). Without a known group there
is no dispersion. Objects that existed before keep their values. -/
theorem C95_value (E : Env) (h : List Op) (gs : List Group) (m' : Mem) (d : Option ℕ)
    (hd : getDispersion E (run h) none gs = .ok (m', d)) :
    ∃ cs : List Comp, gs.filterMap (load E) = cs.map .ok ∧ (d = none ↔ cs = []) ∧
      (∀ r, d = some r → ∀ l k, 6 ≤ k → Sums (cs.map fun c => c.2 l) (natural m' l k r)) ∧
      ∀ a, a < (run h).length → ∀ l k, 6 ≤ k → natural m' l k a = natural (run h) l k a := by
  obtain ⟨cs, h1, h2⟩ := (loop E (run h) gs (run h) none [] (state_init (inv_run h))).1 m' d hd
  rw [List.nil_append] at h2
  refine ⟨cs, h1, ?_, ?_, fun a ha l k hk => natural_agree (inv_run h) h2.inv h2.old ha hk l⟩
  · rcases h2.disp with ⟨h3, h4⟩ | ⟨r, h3, -, h4⟩
    · simp [h3, h4]
    · obtain ⟨o, -, -, hne, -⟩ := h4.shape
      simp [h3, hne]
  · intro r hr l k hk
    rcases h2.disp with ⟨-, h4⟩ | ⟨r', h3, -, h4⟩
    · rw [h4] at hr; cases hr
    · rw [hr] at h3
      obtain rfl := Option.some.inj h3
      exact h4.value l k hk

/-! ### Whole files -/

/-- The object `r` is the sum of the groups of an axis. -/
def AxisValue (E : Env) (m : Mem) (gs : List Group) (r : ℕ) : Prop :=
  ∃ cs : List Comp, gs.filterMap (load E) = cs.map .ok ∧ ∀ l k, 6 ≤ k → Sums (cs.map fun c => c.2 l) (natural m l k r)

/-- The material belonging to an entry of the file. -/
def MatchesEntry (E : Env) (m : Mem) (e : Entry) : Importer.Mat ℕ → Prop
  | .isotropic d => ∃ gx, e.x = some gx ∧ e.y = none ∧ e.z = none ∧ AxisValue E m gx d
  | .uniaxial o x => ∃ gx gz, e.x = some gx ∧ e.y = none ∧ e.z = some gz ∧ AxisValue E m gx o ∧ AxisValue E m gz x
  | .biaxial x y z => ∃ gx gy gz, e.x = some gx ∧ e.y = some gy ∧ e.z = some gz ∧
      AxisValue E m gx x ∧ AxisValue E m gy y ∧ AxisValue E m gz z

/-- Groups that give a dispersion. -/
def GoodAxis (E : Env) (gs : List Group) : Prop :=
  ∃ cs : List Comp, gs.filterMap (load E) = cs.map .ok ∧ cs ≠ [] ∧ Acceptable cs

/-- Entries that give a material: `dispersion_x` is there, with `dispersion_y` there is `dispersion_z`, and each gives a dispersion. -/
def GoodEntry (E : Env) (e : Entry) : Prop :=
  e.x ≠ none ∧ (e.y ≠ none → e.z ≠ none) ∧ (∀ gs, e.x = some gs ∨ e.y = some gs ∨ e.z = some gs → GoodAxis E gs)

lemma axis_spec (E : Env) {m : Mem} (hm : Inv m) (gs : List Group) :
    (∀ m' o, getAxis E m (some gs) = .ok (m', o) → Inv m' ∧ m.length ≤ m'.length ∧ (∀ x, x < m.length → m'[x]? = m[x]?) ∧
      ((o = some none ∧ ¬ GoodAxis E gs) ∨ ∃ r, o = some (some r) ∧ r < m'.length ∧ AxisValue E m' gs r ∧ GoodAxis E gs)) ∧
    (GoodAxis E gs → ∃ m' r, getAxis E m (some gs) = .ok (m', some (some r))) := by
  obtain ⟨l1, l2⟩ := loop E m gs m none [] (state_init hm)
  simp only [List.nil_append] at l1 l2
  constructor
  · intro m' o h
    simp only [getAxis] at h
    cases hd : getDispersion E m none gs with
    | error e => rw [hd] at h; cases h
    | ok p =>
      obtain ⟨m1, d⟩ := p
      rw [hd] at h
      simp only [Except.map, Except.ok.injEq, Prod.mk.injEq] at h
      obtain ⟨rfl, rfl⟩ := h
      obtain ⟨cs, h1, h2⟩ := l1 m1 d hd
      refine ⟨h2.inv, h2.len, h2.old, ?_⟩
      rcases h2.disp with ⟨rfl, rfl⟩ | ⟨r, rfl, -, h4⟩
      · refine Or.inl ⟨rfl, ?_⟩
        rintro ⟨cs', h5, h6, -⟩
        rw [h1] at h5
        simp at h5
        exact h6 h5
      · obtain ⟨o, ho, -, hne, -⟩ := h4.shape
        exact Or.inr ⟨r, rfl, lt_of_some ho, ⟨cs, h1, h4.value⟩, cs, h1, hne, h2.acc⟩
  · rintro ⟨cs, h1, h2, h3⟩
    obtain ⟨⟨m', d⟩, hp⟩ := l2.2 ⟨cs, h1, h3⟩
    obtain ⟨cs', h4, h5⟩ := l1 m' d hp
    have : cs = cs' := by
      rw [h1] at h4
      exact List.map_injective_iff.2 (fun a b hab => by injection hab) h4
    subst this
    rcases h5.disp with ⟨h6, -⟩ | ⟨r, rfl, -, -⟩
    · exact absurd h6 h2
    · exact ⟨m', r, by simp [getAxis, hp, Except.map]⟩

lemma AxisValue.later {E : Env} {m m' : Mem} {gs : List Group} {r : ℕ} (h : AxisValue E m gs r) (hm : Inv m) (hm' : Inv m')
    (hr : r < m.length) (hag : ∀ x, x < m.length → m'[x]? = m[x]?) : AxisValue E m' gs r := by
  obtain ⟨cs, h1, h2⟩ := h
  refine ⟨cs, h1, fun l k hk => ?_⟩
  rw [natural_agree hm hm' hag hr hk l]
  exact h2 l k hk

/-- The objects of a material. -/
def refs : Importer.Mat ℕ → List ℕ
  | .isotropic d => [d]
  | .uniaxial o e => [o, e]
  | .biaxial x y z => [x, y, z]

lemma MatchesEntry.later {E : Env} {m m' : Mem} {e : Entry} {mat : Importer.Mat ℕ} (h : MatchesEntry E m e mat) (hm : Inv m)
    (hm' : Inv m') (hr : ∀ r ∈ refs mat, r < m.length) (hag : ∀ x, x < m.length → m'[x]? = m[x]?) : MatchesEntry E m' e mat := by
  cases mat with
  | isotropic d =>
    obtain ⟨gx, h1, h2, h3, h4⟩ := h
    exact ⟨gx, h1, h2, h3, h4.later hm hm' (hr d (by simp [refs])) hag⟩
  | uniaxial o x =>
    obtain ⟨gx, gz, h1, h2, h3, h4, h5⟩ := h
    exact ⟨gx, gz, h1, h2, h3, h4.later hm hm' (hr _ (by simp [refs])) hag, h5.later hm hm' (hr _ (by simp [refs])) hag⟩
  | biaxial x y z =>
    obtain ⟨gx, gy, gz, h1, h2, h3, h4, h5, h6⟩ := h
    exact ⟨gx, gy, gz, h1, h2, h3, h4.later hm hm' (hr _ (by simp [refs])) hag, h5.later hm hm' (hr _ (by simp [refs])) hag,
      h6.later hm hm' (hr _ (by simp [refs])) hag⟩

/-- Everything about one axis that may be missing. -/
lemma axisOpt_spec (E : Env) {m : Mem} (hm : Inv m) (g : Option (List Group)) :
    (∀ m' o, getAxis E m g = .ok (m', o) → Inv m' ∧ m.length ≤ m'.length ∧ (∀ x, x < m.length → m'[x]? = m[x]?) ∧
      ((o = none ∧ g = none) ∨ (o = some none ∧ ∃ gs, g = some gs ∧ ¬ GoodAxis E gs) ∨
        ∃ gs r, g = some gs ∧ o = some (some r) ∧ r < m'.length ∧ AxisValue E m' gs r ∧ GoodAxis E gs)) ∧
    ((∀ gs, g = some gs → GoodAxis E gs) → ∃ p, getAxis E m g = .ok p) := by
  cases g with
  | none =>
    constructor
    · intro m' o h
      simp only [getAxis, Except.ok.injEq, Prod.mk.injEq] at h
      obtain ⟨rfl, rfl⟩ := h
      exact ⟨hm, le_refl _, fun _ _ => rfl, Or.inl ⟨rfl, rfl⟩⟩
    · intro _
      exact ⟨_, rfl⟩
  | some gs =>
    obtain ⟨h1, h2⟩ := axis_spec E hm gs
    constructor
    · intro m' o h
      obtain ⟨a, b, c, d⟩ := h1 m' o h
      refine ⟨a, b, c, ?_⟩
      rcases d with ⟨rfl, d⟩ | ⟨r, rfl, d1, d2, d3⟩
      · exact Or.inr (Or.inl ⟨rfl, gs, rfl, d⟩)
      · exact Or.inr (Or.inr ⟨gs, r, rfl, rfl, d1, d2, d3⟩)
    · intro h
      obtain ⟨m', r, h3⟩ := h2 (h gs rfl)
      exact ⟨_, h3⟩

lemma entry_spec (E : Env) {m : Mem} (hm : Inv m) (e : Entry) :
    (∀ m' mat, readEntry E m e = .ok (m', mat) → Inv m' ∧ m.length ≤ m'.length ∧ (∀ x, x < m.length → m'[x]? = m[x]?) ∧
      (∀ r ∈ refs mat, r < m'.length) ∧ MatchesEntry E m' e mat) ∧
    ((∃ p, readEntry E m e = .ok p) ↔ GoodEntry E e) := by
  obtain ⟨ex, ey, ez⟩ := e
  cases ex with
  | none =>
    constructor
    · intro m' mat h; cases h
    · constructor
      · rintro ⟨p, h⟩; cases h
      · intro h; exact absurd rfl h.1
  | some gx =>
    simp only [readEntry]
    obtain ⟨x1, x2⟩ := axisOpt_spec E hm (some gx)
    cases hx : getAxis E m (some gx) with
    | error err =>
      constructor
      · intro m' mat h; cases h
      · constructor
        · rintro ⟨p, h⟩; cases h
        · intro h
          obtain ⟨p, hp⟩ := x2 (fun gs hgs => h.2.2 gs (Or.inl hgs))
          rw [hx] at hp; cases hp
    | ok p =>
      obtain ⟨m1, ox⟩ := p
      obtain ⟨i1, l1, a1, d1⟩ := x1 m1 ox hx
      obtain ⟨y1, y2⟩ := axisOpt_spec E i1 ey
      simp only
      cases hy : getAxis E m1 ey with
      | error err =>
        constructor
        · intro m' mat h; cases h
        · constructor
          · rintro ⟨p, h⟩; cases h
          · intro h
            obtain ⟨p, hp⟩ := y2 (fun gs hgs => h.2.2 gs (Or.inr (Or.inl hgs)))
            rw [hy] at hp; cases hp
      | ok p =>
        obtain ⟨m2, oy⟩ := p
        obtain ⟨i2, l2, a2, d2⟩ := y1 m2 oy hy
        obtain ⟨z1, z2⟩ := axisOpt_spec E i2 ez
        simp only
        cases hz : getAxis E m2 ez with
        | error err =>
          constructor
          · intro m' mat h; cases h
          · constructor
            · rintro ⟨p, h⟩; cases h
            · intro h
              obtain ⟨p, hp⟩ := z2 (fun gs hgs => h.2.2 gs (Or.inr (Or.inr hgs)))
              rw [hz] at hp; cases hp
        | ok p =>
          obtain ⟨m3, oz⟩ := p
          obtain ⟨i3, l3, a3, d3⟩ := z1 m3 oz hz
          have hag : ∀ x, x < m.length → m3[x]? = m[x]? := fun x hx => by
            rw [a3 x (by omega), a2 x (by omega), a1 x hx]
          have hag1 : ∀ x, x < m1.length → m3[x]? = m1[x]? := fun x hx => by rw [a3 x (by omega), a2 x hx]
          have hlen : m.length ≤ m3.length := by omega
          simp only
          rcases d1 with ⟨-, h⟩ | ⟨rfl, gs, hgs, hbad⟩ | ⟨gs, r, hgs, rfl, hr, hval, hgood⟩
          · cases h
          · -- no dispersion for x
            obtain rfl := Option.some.inj hgs
            have herr : ∃ err, Importer.getMaterial (some none) oy oz = .error err := by
              rcases oy with _ | _ | y <;> rcases oz with _ | _ | z <;>
                simp [Importer.getMaterial, Importer.checked, Except.map, List.lookup]
            obtain ⟨err, herr⟩ := herr
            rw [herr]
            constructor
            · intro m' mat h; cases h
            · constructor
              · rintro ⟨p, h⟩; cases h
              · intro h; exact absurd (h.2.2 gx (Or.inl rfl)) hbad
          · obtain rfl := Option.some.inj hgs
            have hvx : AxisValue E m3 gx r := hval.later i1 i3 hr hag1
            rcases d2 with ⟨rfl, rfl⟩ | ⟨rfl, gy, rfl, hbad⟩ | ⟨gy, ry, rfl, rfl, hry, hvy, hgy⟩
            · rcases d3 with ⟨rfl, rfl⟩ | ⟨rfl, gz, rfl, hbad⟩ | ⟨gz, rz, rfl, rfl, hrz, hvz, hgz⟩
              · constructor
                · intro m' mat h
                  simp only [Importer.getMaterial, Importer.checked, Except.map, Option.map_none, Option.toList_none, List.append_nil,
                    List.length_singleton, if_true, Except.ok.injEq, Prod.mk.injEq] at h
                  obtain ⟨rfl, rfl⟩ := h
                  exact ⟨i3, hlen, hag, by simp [refs]; omega, gx, rfl, rfl, rfl, hvx⟩
                · refine ⟨fun _ => ⟨by simp, by simp, ?_⟩, fun _ => ⟨_, by simp [Importer.getMaterial, Importer.checked, Except.map]; rfl⟩⟩
                  rintro gs (h | h | h)
                  · obtain rfl := Option.some.inj h; exact hgood
                  · cases h
                  · cases h
              · constructor
                · intro m' mat h
                  simp [Importer.getMaterial, Importer.checked, Except.map, List.lookup] at h
                · constructor
                  · rintro ⟨p, h⟩
                    simp [Importer.getMaterial, Importer.checked, Except.map, List.lookup] at h
                  · intro h; exact absurd (h.2.2 gz (Or.inr (Or.inr rfl))) hbad
              · constructor
                · intro m' mat h
                  simp [Importer.getMaterial, Importer.checked, Except.map, List.lookup] at h
                  obtain ⟨rfl, rfl⟩ := h
                  exact ⟨i3, hlen, hag, by simp [refs]; omega, gx, gz, rfl, rfl, rfl, hvx, hvz⟩
                · refine ⟨fun _ => ⟨by simp, by simp, ?_⟩,
                    fun _ => ⟨_, by simp [Importer.getMaterial, Importer.checked, Except.map, List.lookup]; rfl⟩⟩
                  rintro gs (h | h | h)
                  · obtain rfl := Option.some.inj h; exact hgood
                  · cases h
                  · obtain rfl := Option.some.inj h; exact hgz
            · have herr : ∃ err, Importer.getMaterial (some (some r)) (some none) oz = .error err := by
                rcases oz with _ | _ | z <;> simp [Importer.getMaterial, Importer.checked, List.lookup]
              obtain ⟨err, herr⟩ := herr
              rw [herr]
              constructor
              · intro m' mat h; cases h
              · constructor
                · rintro ⟨p, h⟩; cases h
                · intro h; exact absurd (h.2.2 gy (Or.inr (Or.inl rfl))) hbad
            · have hvy3 : AxisValue E m3 gy ry := hvy.later i2 i3 hry a3
              rcases d3 with ⟨rfl, rfl⟩ | ⟨rfl, gz, rfl, hbad⟩ | ⟨gz, rz, rfl, rfl, hrz, hvz, hgz⟩
              · constructor
                · intro m' mat h
                  simp [Importer.getMaterial, Except.map, List.lookup] at h
                · constructor
                  · rintro ⟨p, h⟩
                    simp [Importer.getMaterial, Except.map, List.lookup] at h
                  · intro h; exact absurd rfl (h.2.1 (by simp))
              · constructor
                · intro m' mat h
                  simp [Importer.getMaterial, Importer.checked, Except.map, List.lookup] at h
                · constructor
                  · rintro ⟨p, h⟩
                    simp [Importer.getMaterial, Importer.checked, Except.map, List.lookup] at h
                  · intro h; exact absurd (h.2.2 gz (Or.inr (Or.inr rfl))) hbad
              · constructor
                · intro m' mat h
                  simp [Importer.getMaterial, Importer.checked, Except.map, List.lookup] at h
                  obtain ⟨rfl, rfl⟩ := h
                  exact ⟨i3, hlen, hag, by simp [refs]; omega, gx, gy, gz, rfl, rfl, rfl, hvx, hvy3, hvz⟩
                · refine ⟨fun _ => ⟨by simp, by simp, ?_⟩,
                    fun _ => ⟨_, by simp [Importer.getMaterial, Importer.checked, Except.map, List.lookup]; rfl⟩⟩
                  rintro gs (h | h | h)
                  · obtain rfl := Option.some.inj h; exact hgood
                  · obtain rfl := Option.some.inj h; exact hgy
                  · obtain rfl := Option.some.inj h; exact hgz

lemma file_spec (E : Env) (es : List (String × Entry)) : ∀ {m : Mem}, Inv m →
    (∀ m' mats, readMaterials E m es = .ok (m', mats) → Inv m' ∧ m.length ≤ m'.length ∧ (∀ x, x < m.length → m'[x]? = m[x]?) ∧
      List.Forall₂ (fun e mat => e.1 = mat.1 ∧ MatchesEntry E m' e.2 mat.2) es mats) ∧
    ((∃ p, readMaterials E m es = .ok p) ↔ ∀ e ∈ es, GoodEntry E e.2) := by
  induction es with
  | nil =>
    intro m hm
    constructor
    · intro m' mats h
      simp only [readMaterials, Except.ok.injEq, Prod.mk.injEq] at h
      obtain ⟨rfl, rfl⟩ := h
      exact ⟨hm, le_refl _, fun _ _ => rfl, .nil⟩
    · exact ⟨fun _ => by simp, fun _ => ⟨_, rfl⟩⟩
  | cons e es ih =>
    intro m hm
    obtain ⟨name, e⟩ := e
    obtain ⟨e1, e2⟩ := entry_spec E hm e
    simp only [readMaterials]
    cases he : readEntry E m e with
    | error err =>
      constructor
      · intro m' mats h; cases h
      · constructor
        · rintro ⟨p, h⟩; cases h
        · intro h
          obtain ⟨p, hp⟩ := e2.2 (h (name, e) (by simp))
          rw [he] at hp; cases hp
    | ok p =>
      obtain ⟨m1, mat⟩ := p
      obtain ⟨i1, l1, a1, r1, v1⟩ := e1 m1 mat he
      obtain ⟨f1, f2⟩ := ih i1
      simp only
      have hgood : GoodEntry E e := e2.1 ⟨_, he⟩
      cases hr : readMaterials E m1 es with
      | error err =>
        constructor
        · intro m' mats h; cases h
        · constructor
          · rintro ⟨p, h⟩; cases h
          · intro h
            obtain ⟨p, hp⟩ := f2.2 (fun x hx => h x (by simp [hx]))
            rw [hr] at hp; cases hp
      | ok p =>
        obtain ⟨m2, mats⟩ := p
        obtain ⟨i2, l2, a2, v2⟩ := f1 m2 mats hr
        constructor
        · intro m' mats' h
          simp only [Except.ok.injEq, Prod.mk.injEq] at h
          obtain ⟨rfl, rfl⟩ := h
          exact ⟨i2, by omega, fun x hx => by rw [a2 x (by omega), a1 x hx], .cons ⟨rfl, v1.later i1 i2 r1 a2⟩ v2⟩
        · refine ⟨fun _ x hx => ?_, fun _ => ⟨_, rfl⟩⟩
          rcases List.mem_cons.1 hx with rfl | hx
          · exact hgood
          · exact f2.1 ⟨_, hr⟩ x hx

/-- C95 for whole files: the file is read exactly when every entry gives a material, and then the result has the entries of the file under
their names and in their order; each is isotropic, uniaxial or biaxial as its axes say, with the sum of the groups of each axis. Later
entries do not disturb earlier ones. -/
theorem C95_materials (E : Env) (h : List Op) (es : List (String × Entry)) :
    ((∃ p, readMaterials E (run h) es = .ok p) ↔ ∀ e ∈ es, GoodEntry E e.2) ∧
    ∀ m' mats, readMaterials E (run h) es = .ok (m', mats) →
      List.Forall₂ (fun e mat => e.1 = mat.1 ∧ MatchesEntry E m' e.2 mat.2) es mats := by
  obtain ⟨h1, h2⟩ := file_spec E es (inv_run h)
  exact ⟨h2, fun m' mats hm => (h1 m' mats hm).2.2.2⟩

/-! ### Single groups -/

lemma dict_get_set {V : Type} (d : Dict V) (k n : String) (v : V) :
    Dict.get (Dict.set d k v) n = if k = n then some v else Dict.get d n := by
  induction d with
  | nil => simp [Dict.set, Dict.get]
  | cons p d ih =>
    obtain ⟨k', v'⟩ := p
    by_cases h : k' = k
    · subst h
      by_cases h2 : k' = n <;> simp [Dict.set, Dict.get, h2]
    · by_cases h2 : k' = n
      · subst h2
        have h3 : k ≠ k' := fun h' => h h'.symm
        simp [Dict.set, Dict.get, h, h3]
      · simp [Dict.set, Dict.get, h, h2, ih]

/-- The single parameters among the items. -/
def singles (items : List Item) : List (String × Num) :=
  items.filterMap fun | .single n v => some (n, v) | _ => none

/-- The repeated parameters among the items. -/
def repeateds (items : List Item) : List (String × List Num) :=
  items.filterMap fun | .repeated n v => some (n, v) | _ => none

/-- C95: every parameter of a formula group reaches the formula under its name; of several with the same name the last one counts. -/
theorem C95_parameters (items : List Item) (name : String) :
    Dict.get (items.foldl getParams ([], [])).1 name = lastNamed name (singles items) ∧
    Dict.get (items.foldl getParams ([], [])).2 name = lastNamed name (repeateds items) := by
  induction items using List.reverseRecOn with
  | nil => simp [Dict.get, lastNamed, singles, repeateds]
  | append_singleton items i ih =>
    rw [List.foldl_append]
    simp only [List.foldl_cons, List.foldl_nil]
    generalize items.foldl getParams ([], []) = p at ih ⊢
    obtain ⟨s, r⟩ := p
    simp only at ih
    cases i with
    | other => simpa [getParams, singles, repeateds, List.filterMap_append] using ih
    | single n v =>
      simp only [getParams, dict_get_set, ih.2]
      constructor
      · by_cases h : n = name
        · simp [h, lastNamed, singles, List.filterMap_append]
        · rw [if_neg h, ih.1]
          simp [h, lastNamed, singles, List.filterMap_append, List.find?_cons]
      · simp [repeateds, List.filterMap_append]
    | repeated n v =>
      simp only [getParams, dict_get_set, ih.1]
      constructor
      · simp [singles, List.filterMap_append]
      · by_cases h : n = name
        · simp [h, lastNamed, repeateds, List.filterMap_append]
        · rw [if_neg h, ih.2]
          simp [h, lastNamed, repeateds, List.filterMap_append, List.find?_cons]

/-- Kind of formula by its representation. -/
def reprText (isIndex : Bool) : String := if isIndex then "n" else "eps"

lemma buildFormula_eq (E : Env) (isIndex : Bool) (formula i u : String) (tree : Formula.Tree) (U : Formula.Unit Num) (single : Dict Num)
    (rep : Dict (List Num)) (f : Formula.Obj Num) (hf : Formula.init (.number "") i single rep = .ok f)
    (hp : E.parse formula = .ok (reprText isIndex, tree)) (hU : E.unit u = .ok U) :
    ∃ v, buildFormula E isIndex formula i single rep u = .ok v ∧ ∀ (l : ℝ) (x : Num), (∃ P, ∃ a : Formula.Arr 1 P Num,
      Formula.evaluate E.ops { f with tree := tree } U (fun _ => some (l : ℂ)) = .ok ⟨P, a⟩ ∧ a.out 0 = some x) → v l = .ok x := by
  refine ⟨formulaValue E { f with tree := tree } U, ?_, ?_⟩
  · unfold buildFormula
    rw [hf, hp, hU]
    cases isIndex <;> rfl
  · rintro l x ⟨P, a, h1, h2⟩
    unfold formulaValue
    rw [h1]
    cases a with
    | scalar v => simp only [Formula.Arr.out, Option.some.injEq] at h2; rw [h2]
    | col v => simp only [Formula.Arr.out, Option.some.injEq] at h2; simp only [Fin.isValue]; rw [h2]
    | row v => simp [Formula.Arr.out] at h2
    | mat v => simp [Formula.Arr.out] at h2

/-- C95: a complete formula group is read as a dispersion of the family its representation names, whose value at every wavelength is what
the formula means for the parameters of the file (sums in brackets run over the repeated parameters), the wavelength being converted to
the unit of the file. -/
theorem C95_formula {P : ℕ} (E : Env) (g : FuncGroup) (isIndex : Bool) (i u formula : String) (tree : Formula.Tree) (U : Formula.Unit Num)
    (cols : Dict (Fin P → Num)) (hi : g.wavelengthIdentifier = some i) (hu : g.wavelengthUnit = some u)
    (he : g.hasEnergyIdentifier = false) (hr : g.representation = some (reprText isIndex)) (hf : g.formula = some formula)
    (hp : E.parse formula = .ok (reprText isIndex, tree)) (hU : E.unit u = .ok U) (hP : 0 < P) (hne : cols ≠ [])
    (hn : cols.keys.Nodup) (hc : (g.items.foldl getParams ([], [])).2 = Formula.asLists cols)
    (hw : Spec.Formula.WellFormed false tree)
    (hev : Spec.Formula.Evaluable i (g.items.foldl getParams ([], [])).1.keys cols.keys tree) :
    ∃ v, getFunction E g = .ok (if isIndex then .index else .eps, v) ∧ ∀ l : ℝ, ∃ x : Num, v l = .ok x ∧
      Spec.Formula.denote E.ops i (U.convert E.ops (some (l : ℂ))) (g.items.foldl getParams ([], [])).1 (Formula.rowsOf cols) [] tree =
        some x := by
  set params := g.items.foldl getParams ([], []) with hparams
  obtain ⟨f, h1, h2, h3, h4, h5, h6⟩ := Formula.C57_init (.number "") i params.1 cols hP hne hn
  rw [← hc] at h1
  obtain ⟨v, h7, h8⟩ := buildFormula_eq E isIndex formula i u tree U params.1 params.2 f h1 hp hU
  refine ⟨v, ?_, fun l => ?_⟩
  · simp only [getFunction, identUnit, hi, hu, entry, Except.map, he, hr, hf, ← hparams, Bool.false_eq_true, if_false]
    cases isIndex
    · simp only [reprText, Bool.false_eq_true, if_false, if_true, construct, h7, Except.map]
    · have : ("n" : String) ≠ "eps" := by decide
      simp only [reprText, if_true, if_neg this, construct, h7, Except.map]
  · obtain ⟨a, h9, h10⟩ := (Formula.C57_value (N := 1) E.ops { f with tree := tree } cols h5 hne U (fun _ => some (l : ℂ)) hw).1
      (by simpa [h3, h4] using hev)
    obtain ⟨x, h11, h12⟩ := h10 0
    refine ⟨x, h8 l x ⟨P, a, h9, h11⟩, ?_⟩
    simpa [h3, h4] using h12

/-- C95: a table over wavelengths is read as an index or dielectric table with the tabulated values at its wavelengths; the index is
preferred where both are given. -/
theorem C95_table (g : TableGroup) (ls : List ℝ) (he : g.energy = none) (hl : g.wavelength = some ls) (h2 : 2 ≤ ls.length)
    (hd : ls.Nodup) :
    (∀ n, g.refractiveIndex = some n → n.length = ls.length → ∃ v, getTable g = .ok (.table, v) ∧
      ∀ r ∈ ls.zip n, v r.1 = .ok (some r.2)) ∧
    (∀ e, g.refractiveIndex = none → g.dielectricFunction = some e → e.length = ls.length → ∃ v, getTable g = .ok (.tableEps, v) ∧
      ∀ r ∈ ls.zip e, v r.1 = .ok (some r.2)) ∧
    (g.refractiveIndex = none → g.dielectricFunction = none → getTable g = .error .valueError) := by
  have hne : ls ≠ [] := by rintro rfl; simp at h2
  refine ⟨fun n hn hlen => ?_, fun e hn he' hlen => ?_, fun hn he' => ?_⟩
  · obtain ⟨t, ht⟩ := (C53_constructor ls n).1.2 ⟨hne, hlen⟩
    refine ⟨t.value, by simp only [getTable, he, hl, hn, ht, Except.map], fun r hr => ?_⟩
    obtain ⟨t', h3, h4⟩ := C53_node ls n hlen h2 hd r hr
    rw [ht] at h3
    obtain rfl := Except.ok.inj h3
    exact h4
  · obtain ⟨t, ht⟩ := (C53_constructor ls e).1.2 ⟨hne, hlen⟩
    refine ⟨t.value, by simp only [getTable, he, hl, hn, he', ht, Except.map], fun r hr => ?_⟩
    obtain ⟨t', h3, h4⟩ := C53_node ls e hlen h2 hd r hr
    rw [ht] at h3
    obtain rfl := Except.ok.inj h3
    exact h4
  · simp only [getTable, he, hl, hn, he']

/-- C95 fails for tables over energies: reading them raises `TypeError`, whatever they contain. -/
theorem C95_energy_table_refuted (g : TableGroup) (es : List ℝ) (h : g.energy = some es) : getTable g = .error .typeError := by
  simp only [getTable, h]

/-- C95 fails for formulas without wavelength, such as a constant: reading a group without `wavelength_identifier` raises
`UnboundLocalError` for both representations. -/
theorem C95_constant_refuted (E : Env) (g : FuncGroup) (formula : String) (hi : g.wavelengthIdentifier = none)
    (he : g.hasEnergyIdentifier = false) (hf : g.formula = some formula) (isIndex : Bool)
    (hr : g.representation = some (reprText isIndex)) : getFunction E g = .error .unboundLocal := by
  cases isIndex
  · simp [getFunction, identUnit, hi, he, entry, hr, hf, reprText, construct]
  · have : ("n" : String) ≠ "eps" := by decide
    simp [getFunction, identUnit, hi, he, entry, hr, hf, reprText, construct]

/-- What else makes a formula group unreadable: an energy axis, an unknown representation. -/
theorem C95_function_errors (E : Env) (g : FuncGroup) (i u : String) (hi : g.wavelengthIdentifier = some i) (hu : g.wavelengthUnit = some u) :
    (g.hasEnergyIdentifier = true → getFunction E g = .error .notImplemented) ∧
    (∀ r formula, g.hasEnergyIdentifier = false → g.representation = some r → g.formula = some formula → r ≠ "eps" → r ≠ "n" →
      getFunction E g = .error .valueError) := by
  constructor
  · intro h
    simp [getFunction, identUnit, hi, hu, entry, Except.map, h]
  · intro r formula h1 h2 h3 h4 h5
    simp [getFunction, identUnit, hi, hu, entry, Except.map, h1, h2, h3, h4, h5]

/-- C95: the formula must be of the kind the group announces: a formula for `eps` in a group for `n`, or the other way round, is refused with
`ValueError`, whatever its parameters. -/
theorem C95_kind_mismatch {P : ℕ} (E : Env) (g : FuncGroup) (isIndex : Bool) (i u formula kind : String) (tree : Formula.Tree)
    (cols : Dict (Fin P → Num)) (hi : g.wavelengthIdentifier = some i) (hu : g.wavelengthUnit = some u)
    (he : g.hasEnergyIdentifier = false) (hr : g.representation = some (reprText isIndex)) (hf : g.formula = some formula)
    (hp : E.parse formula = .ok (kind, tree)) (hP : 0 < P) (hne : cols ≠ []) (hn : cols.keys.Nodup)
    (hc : (g.items.foldl getParams ([], [])).2 = Formula.asLists cols) (hk : kind ≠ reprText isIndex) :
    getFunction E g = .error .valueError := by
  set params := g.items.foldl getParams ([], []) with hparams
  obtain ⟨f, h1, -⟩ := Formula.C57_init (.number "") i params.1 cols hP hne hn
  rw [← hc] at h1
  simp only [getFunction, identUnit, hi, hu, entry, Except.map, he, hr, hf, ← hparams, Bool.false_eq_true, if_false]
  cases isIndex
  · have hk' : kind ≠ "eps" := hk
    simp [reprText, construct, buildFormula, h1, hp, hk', bind, Except.bind, Except.map]
  · have hk' : kind ≠ "n" := hk
    simp [reprText, construct, buildFormula, h1, hp, hk', bind, Except.bind, Except.map]

/-- A table group with two rows. -/
def sampleTable (a b : ℂ) : Group := .table ⟨some [400, 500], none, none, some [a, b]⟩

/-- An environment that knows one formula, `eps = 2`. -/
noncomputable def sampleEnv : Env where
  ops := ⟨some 0, fun _ _ => none, fun _ _ => none, fun _ _ => none, fun _ _ => none, fun _ _ => none, fun _ _ => none,
    fun s => if s = "2" then some 2 else none, fun _ => none⟩
  parse := fun s => if s = "eps = 2" then .ok ("eps", .number "2") else .error .parseError
  unit := fun s => if s = "1 nm" then .ok .none else .error .valueError

/-- A formula group: the constant 2. -/
def sampleFunc : Group := .func ⟨some "lambda", some "1 nm", false, some "eps", some "eps = 2", []⟩

lemma sampleTable_load (E : Env) (a b : ℂ) : ∃ v, load E (sampleTable a b) = some (.ok (.tableEps, v)) := by
  obtain ⟨v, h, -⟩ := (C95_table ⟨some [400, 500], none, none, some [a, b]⟩ [400, 500] rfl rfl (by simp) (by norm_num)).2.1 [a, b] rfl rfl rfl
  exact ⟨v, by rw [sampleTable, load, h]⟩

lemma sampleFunc_load : ∃ v, load sampleEnv sampleFunc = some (.ok (.eps, v)) := by
  obtain ⟨v, h, -⟩ := buildFormula_eq sampleEnv false "eps = 2" "lambda" "1 nm" (.number "2") .none [] []
    ⟨.number "", "lambda", [], ⟨[[]], []⟩, []⟩ rfl rfl rfl
  refine ⟨v, ?_⟩
  rw [sampleFunc, load]
  simp only [getFunction, identUnit, entry, Except.map, Bool.false_eq_true, if_false, if_true, List.foldl_nil, construct, h]

/-- C95 fails depending on the names of the groups: the same three groups, two tables and a formula, are read when the formula comes first
(`h5py` lists groups by name), and refused with `NotImplementedError` when the two tables come first. -/
theorem C95_order_refuted (a b c d : ℂ) (h : List Op) :
    (∃ m' r, getDispersion sampleEnv (run h) none [sampleFunc, sampleTable a b, sampleTable c d] = .ok (m', some r)) ∧
    getDispersion sampleEnv (run h) none [sampleTable a b, sampleTable c d, sampleFunc] = .error .notImplemented := by
  obtain ⟨v, hv⟩ := sampleFunc_load
  obtain ⟨t, ht⟩ := sampleTable_load sampleEnv a b
  obtain ⟨w, hw⟩ := sampleTable_load sampleEnv c d
  constructor
  · have hload : [sampleFunc, sampleTable a b, sampleTable c d].filterMap (load sampleEnv) =
        ([(.eps, v), (.tableEps, t), (.tableEps, w)] : List Comp).map .ok := by
      simp [List.filterMap_cons, hv, ht, hw]
    obtain ⟨⟨m', o⟩, hp⟩ := (C95_accepts sampleEnv h _).2 ⟨_, hload, by simp [Kind.isEps], by
      intro x y rest he
      simp only [List.cons.injEq] at he
      obtain ⟨rfl, rfl, -⟩ := he
      simp [BothTables]⟩
    obtain ⟨cs, h1, h2, -⟩ := C95_value sampleEnv h _ m' o hp
    cases o with
    | none =>
      rw [h2.1 rfl, hload] at h1
      simp at h1
    | some r => exact ⟨m', r, hp⟩
  · have hadd : addObj (run h ++ [.leaf .tableEps t] ++ [.leaf .tableEps w]) (run h).length (run h ++ [Obj.leaf .tableEps t]).length =
        .error .notImplemented := by
      have h1 : (run h ++ [.leaf .tableEps t] ++ [Obj.leaf .tableEps w])[(run h).length]? = some (.leaf .tableEps t) :=
        get_alloc_lt (get_alloc_self _ _)
      have h2 := get_alloc_self (run h ++ [.leaf .tableEps t]) (.leaf .tableEps w)
      simp only [addObj, h1, h2]
    simp only [getDispersion, ht, hw, alloc, hadd]

/-- Non-trivial case of C95_value and C95_materials: a uniaxial entry made of a formula with a table, and a table. -/
example (a b c d : ℂ) : GoodEntry sampleEnv ⟨some [.other, sampleFunc, sampleTable a b], none, some [sampleTable c d]⟩ := by
  obtain ⟨v, hv⟩ := sampleFunc_load
  obtain ⟨t, ht⟩ := sampleTable_load sampleEnv a b
  obtain ⟨w, hw⟩ := sampleTable_load sampleEnv c d
  refine ⟨by simp, by simp, ?_⟩
  rintro gs (h | h | h)
  · obtain rfl := Option.some.inj h
    refine ⟨[(.eps, v), (.tableEps, t)], by
      have ho : load sampleEnv .other = none := rfl
      simp [List.filterMap_cons, hv, ht, ho], by simp, by simp [Kind.isEps], ?_⟩
    intro x y rest he
    simp only [List.cons.injEq] at he
    obtain ⟨rfl, rfl, -⟩ := he
    simp [BothTables]
  · cases h
  · obtain rfl := Option.some.inj h
    exact ⟨[(.tableEps, w)], by simp [hw], by simp, by simp, by simp⟩

/-- A formula group with a sum over two repeated parameters: `eps = B + sum[A * lambda]`. -/
def sumFunc : FuncGroup :=
  ⟨some "lambda", some "1 nm", false, some "eps", some "eps = B + sum[A * lambda]",
    [.single "B" (some 3), .other, .repeated "A" [some 1, some 2]]⟩

/-- Non-trivial case of C95_formula: all its hypotheses hold for `sumFunc`. -/
example (E : Env) (hp : E.parse "eps = B + sum[A * lambda]" =
      .ok ("eps", .add (.singleParamName "B") (.sumExpr (.mul (.paramName "A") (.paramName "lambda")))))
    (U : Formula.Unit Num) (hU : E.unit "1 nm" = .ok U) :
    ∃ v, getFunction E sumFunc = .ok (.eps, v) ∧ ∀ l : ℝ, ∃ x : Num, v l = .ok x ∧
      Spec.Formula.denote E.ops "lambda" (U.convert E.ops (some (l : ℂ))) [("B", some 3)] [[("A", some 1)], [("A", some 2)]] []
        (.add (.singleParamName "B") (.sumExpr (.mul (.paramName "A") (.paramName "lambda")))) = some x :=
  C95_formula (P := 2) E sumFunc false "lambda" "1 nm" _ _ U [("A", ![some 1, some 2])] rfl rfl rfl rfl rfl hp hU (by norm_num) (by simp)
    (by simp [Dict.keys]) rfl ⟨rfl, rfl, rfl, rfl⟩
    ⟨Or.inr (by simp [sumFunc, getParams, Dict.set, Dict.keys]), by simp [Spec.Formula.mentions], by simp [Spec.Formula.Evaluable, Dict.keys]⟩

/-- Non-trivial case of C95_kind_mismatch: the same group with a formula for `n`. -/
example (E : Env) (tree : Formula.Tree) (hp : E.parse "eps = B + sum[A * lambda]" = .ok ("n", tree)) :
    getFunction E sumFunc = .error .valueError :=
  C95_kind_mismatch (P := 2) E sumFunc false "lambda" "1 nm" _ "n" tree [("A", ![some 1, some 2])] rfl rfl rfl rfl rfl hp (by norm_num) (by simp)
    (by simp [Dict.keys]) rfl (by decide)

end PyElli.Nexus
