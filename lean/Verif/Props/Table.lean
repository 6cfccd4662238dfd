import Verif.Model.Table
import Verif.Spec.Table
import Mathlib.Tactic

/-! # Tabulated dispersions (C53) -/

namespace PyElli

/-- In a list sorted by wavelength the rows below `x` are the first ones. -/
lemma lt_count (s : List (ℝ × ℂ)) (hs : s.Pairwise fun a b => a.1 ≤ b.1) (x : ℝ) :
    ∀ i (h : i < s.length), (s[i].1 < x ↔ i < (s.filter fun r => r.1 < x).length) := by
  induction s with
  | nil => intro i h; simp at h
  | cons r s ih =>
    intro i h
    rw [List.pairwise_cons] at hs
    by_cases hr : r.1 < x
    · rw [List.filter_cons_of_pos (by simpa using hr)]
      cases i with
      | zero => simp [hr]
      | succ i =>
        simp only [List.getElem_cons_succ, List.length_cons, Nat.add_lt_add_iff_right]
        exact ih hs.2 i (by simpa using h)
    · rw [List.filter_cons_of_neg (by simpa using hr)]
      have hall : s.filter (fun r => decide (r.1 < x)) = [] := by
        rw [List.filter_eq_nil_iff]
        intro q hq
        have := hs.1 q hq
        simp only [decide_eq_true_eq, not_lt]
        linarith [not_lt.1 hr]
      rw [hall]
      simp only [List.length_nil, Nat.not_lt_zero, iff_false, not_lt]
      cases i with
      | zero => simpa using hr
      | succ i =>
        have hi : i < s.length := by simpa using h
        have := hs.1 s[i] (List.getElem_mem hi)
        simp only [List.getElem_cons_succ]
        linarith [not_lt.1 hr]

lemma sortRows_perm (rows : List (ℝ × ℂ)) : (sortRows rows).Perm rows := List.perm_insertionSort _ _

instance : Std.Total (fun a b : ℝ × ℂ => a.1 ≤ b.1) := ⟨fun a b => le_total a.1 b.1⟩
instance : IsTrans (ℝ × ℂ) (fun a b => a.1 ≤ b.1) := ⟨fun _ _ _ h1 h2 => le_trans h1 h2⟩

lemma sortRows_sorted (rows : List (ℝ × ℂ)) : (sortRows rows).Pairwise fun a b => a.1 ≤ b.1 := by
  classical
  exact List.pairwise_insertionSort (fun a b : ℝ × ℂ => a.1 ≤ b.1) rows

/-- Distinct wavelengths. -/
def Distinct (rows : List (ℝ × ℂ)) : Prop := (rows.map Prod.fst).Nodup

lemma sortRows_strict (rows : List (ℝ × ℂ)) (hd : Distinct rows) : (sortRows rows).Pairwise fun a b => a.1 < b.1 := by
  have h1 := sortRows_sorted rows
  have h2 : ((sortRows rows).map Prod.fst).Nodup := (((sortRows_perm rows).map Prod.fst).nodup_iff).2 hd
  rw [List.Nodup, List.pairwise_map] at h2
  exact h1.imp₂ (fun a b h h' => lt_of_le_of_ne h h') h2

lemma mkTable_ok (lbda : List ℝ) (values : List ℂ) (hl : lbda ≠ []) (hv : values.length = lbda.length) :
    mkTable lbda values = .ok ⟨sortRows (lbda.zip values)⟩ := by
  unfold mkTable
  rw [if_neg (by simpa using hl), if_neg (by simpa using hv)]

/-- C53: the constructor accepts exactly non-empty columns of equal length, otherwise it raises `InvalidParameters`. -/
theorem C53_constructor (lbda : List ℝ) (values : List ℂ) :
    ((∃ t, mkTable lbda values = .ok t) ↔ lbda ≠ [] ∧ values.length = lbda.length) ∧
    (∀ e, mkTable lbda values = .error e → e = .invalidParameters) := by
  unfold mkTable
  by_cases h1 : lbda = []
  · simp [h1]
  · by_cases h2 : values.length = lbda.length
    · simp [h1, h2]
    · simp [h1, h2]

/-- C53: wherever all tabulated wavelengths lie on one side, a call raises `ValueError`; everywhere else it returns a value. -/
theorem C53_range (lbda : List ℝ) (values : List ℂ) (t : Table) (ht : mkTable lbda values = .ok t) (x : ℝ) :
    (t.value x = .error .valueError ↔ (∀ l ∈ lbda, x < l) ∨ (∀ l ∈ lbda, l < x)) ∧
    (∀ e, t.value x = .error e → e = .valueError) := by
  obtain ⟨hl, hv⟩ := (C53_constructor lbda values).1.1 ⟨t, ht⟩
  rw [mkTable_ok lbda values hl hv] at ht
  obtain rfl := Except.ok.inj ht
  set s := sortRows (lbda.zip values) with hs
  have hperm : s.Perm (lbda.zip values) := sortRows_perm _
  have hsorted : s.Pairwise fun a b => a.1 ≤ b.1 := sortRows_sorted _
  have hlen : s.length = lbda.length := by rw [hperm.length_eq]; simp [hv]
  have hpos : 0 < s.length := by rw [hlen]; exact List.length_pos_of_ne_nil hl
  have hmem : ∀ l, l ∈ lbda ↔ ∃ r ∈ s, r.1 = l := by
    intro l
    have : lbda = (lbda.zip values).map Prod.fst := by rw [List.map_fst_zip]; omega
    conv_lhs => rw [this]
    rw [List.mem_map]
    constructor
    · rintro ⟨r, hr, rfl⟩; exact ⟨r, hperm.mem_iff.2 hr, rfl⟩
    · rintro ⟨r, hr, rfl⟩; exact ⟨r, hperm.mem_iff.1 hr, rfl⟩
  have hle : ∀ i (hi : i < s.length), s[0].1 ≤ s[i].1 ∧ s[i].1 ≤ s[s.length - 1].1 := by
    intro i hi
    constructor
    · rcases Nat.eq_zero_or_pos i with h | h
      · subst h; exact le_refl _
      · exact List.pairwise_iff_getElem.1 hsorted 0 i hpos hi h
    · rcases Nat.lt_or_ge i (s.length - 1) with h | h
      · exact List.pairwise_iff_getElem.1 hsorted i (s.length - 1) hi (by omega) h
      · have : i = s.length - 1 := by omega
        subst this; exact le_refl _
  have e0 : s.getD 0 (0, 0) = s[0] := by simp [List.getD, hpos]
  have e1 : s.getD (s.length - 1) (0, 0) = s[s.length - 1] := by simp [List.getD, hpos]
  have hiff : (x < s[0].1 ∨ s[s.length - 1].1 < x) ↔ (∀ l ∈ lbda, x < l) ∨ (∀ l ∈ lbda, l < x) := by
    constructor
    · rintro (h | h)
      · left
        intro l hl'
        obtain ⟨r, hr, rfl⟩ := (hmem l).1 hl'
        obtain ⟨i, hi, rfl⟩ := List.getElem_of_mem hr
        exact lt_of_lt_of_le h (hle i hi).1
      · right
        intro l hl'
        obtain ⟨r, hr, rfl⟩ := (hmem l).1 hl'
        obtain ⟨i, hi, rfl⟩ := List.getElem_of_mem hr
        exact lt_of_le_of_lt (hle i hi).2 h
    · rintro (h | h)
      · left; exact h _ ((hmem _).2 ⟨s[0], List.getElem_mem _, rfl⟩)
      · right; exact h _ ((hmem _).2 ⟨s[s.length - 1], List.getElem_mem _, rfl⟩)
  unfold Table.value
  simp only [e0, e1]
  constructor
  · rw [← hiff]
    split_ifs with h
    · simp [h]
    · simp [h]
  · intro e
    split_ifs with h
    · simp only [Except.error.injEq]; exact fun h => h.symm
    · simp

/-- C53: inside the range (distinct wavelengths, at least two rows) the value lies on the chord between two rows enclosing `x`
with no row in between. -/
theorem C53_chord (lbda : List ℝ) (values : List ℂ) (hv : values.length = lbda.length) (h2 : 2 ≤ lbda.length)
    (hd : lbda.Nodup) (x : ℝ) (hlo : ∃ l ∈ lbda, l ≤ x) (hhi : ∃ l ∈ lbda, x ≤ l) :
    ∃ t, mkTable lbda values = .ok t ∧ ∃ p ∈ lbda.zip values, ∃ q ∈ lbda.zip values, p.1 < q.1 ∧ p.1 ≤ x ∧ x ≤ q.1 ∧
      (∀ l ∈ lbda, l ≤ p.1 ∨ q.1 ≤ l) ∧ t.value x = .ok (some (Spec.chord p q x)) := by
  have hl : lbda ≠ [] := by rintro rfl; simp at h2
  refine ⟨_, mkTable_ok lbda values hl hv, ?_⟩
  have hfst : (lbda.zip values).map Prod.fst = lbda := by rw [List.map_fst_zip]; omega
  have hd' : Distinct (lbda.zip values) := by unfold Distinct; rw [hfst]; exact hd
  set s := sortRows (lbda.zip values) with hs
  have hperm : s.Perm (lbda.zip values) := sortRows_perm _
  have hsorted : s.Pairwise fun a b => a.1 ≤ b.1 := sortRows_sorted _
  have hstrict : s.Pairwise fun a b => a.1 < b.1 := sortRows_strict _ hd'
  have hlen : s.length = lbda.length := by rw [hperm.length_eq]; simp [hv]
  have hmem : ∀ l, l ∈ lbda ↔ ∃ r ∈ s, r.1 = l := by
    intro l
    conv_lhs => rw [← hfst]
    rw [List.mem_map]
    constructor
    · rintro ⟨r, hr, rfl⟩; exact ⟨r, hperm.mem_iff.2 hr, rfl⟩
    · rintro ⟨r, hr, rfl⟩; exact ⟨r, hperm.mem_iff.1 hr, rfl⟩
  have hnoerr : ¬ (x < (s.getD 0 (0, 0)).1 ∨ (s.getD (s.length - 1) (0, 0)).1 < x) := by
    have := (C53_range lbda values ⟨s⟩ (mkTable_ok lbda values hl hv) x).1
    intro h
    have h' : (⟨s⟩ : Table).value x = .error .valueError := by
      unfold Table.value
      exact if_pos h
    obtain ⟨a, ha, hax⟩ := hlo
    obtain ⟨b, hb, hbx⟩ := hhi
    rcases this.1 h' with h | h
    · linarith [h a ha]
    · linarith [h b hb]
  -- the index found by searchsorted
  obtain ⟨idx, hidx⟩ : ∃ k, k = (s.filter fun r => decide (r.1 < x)).length := ⟨_, rfl⟩
  have hcount := lt_count s hsorted x
  rw [← hidx] at hcount
  obtain ⟨hi, hhi_def⟩ : ∃ k, k = min (max idx 1) (s.length - 1) := ⟨_, rfl⟩
  have hhi1 : 1 ≤ hi := by omega
  have hhin : hi < s.length := by omega
  have hi0 : hi ≠ 0 := by omega
  have hlt : s[hi - 1].1 < s[hi].1 := List.pairwise_iff_getElem.1 hstrict (hi - 1) hi (by omega) hhin (by omega)
  rw [not_or, not_lt, not_lt] at hnoerr
  have e0 : s.getD 0 (0, 0) = s[0] := by
    rw [List.getD_eq_getElem?_getD, List.getElem?_eq_getElem (by omega)]; rfl
  have e1 : s.getD (s.length - 1) (0, 0) = s[s.length - 1] := by
    rw [List.getD_eq_getElem?_getD, List.getElem?_eq_getElem (by omega)]; rfl
  have hge : s[hi - 1].1 ≤ x := by
    by_cases h : hi - 1 < idx
    · exact ((hcount (hi - 1) (by omega)).2 h).le
    · have : hi - 1 = 0 := by omega
      rw [e0] at hnoerr
      simpa [this] using hnoerr.1
  have hle : x ≤ s[hi].1 := by
    by_cases h : hi < idx
    · have : hi = s.length - 1 := by omega
      rw [e1] at hnoerr
      simpa [this] using hnoerr.2
    · exact not_lt.1 fun h' => h ((hcount hi hhin).1 h')
  refine ⟨s[hi - 1], hperm.mem_iff.1 (List.getElem_mem _), s[hi], hperm.mem_iff.1 (List.getElem_mem _), hlt, hge, hle, ?_, ?_⟩
  · intro l hl'
    obtain ⟨r, hr, rfl⟩ := (hmem l).1 hl'
    obtain ⟨i, hi', rfl⟩ := List.getElem_of_mem hr
    rcases Nat.lt_or_ge i hi with h | h
    · left
      rcases Nat.lt_or_ge i (hi - 1) with h' | h'
      · exact List.pairwise_iff_getElem.1 hsorted i (hi - 1) hi' (by omega) h'
      · have : i = hi - 1 := by omega
        subst this; exact le_refl _
    · right
      rcases Nat.lt_or_ge hi i with h' | h'
      · exact List.pairwise_iff_getElem.1 hsorted hi i hhin hi' h'
      · have : i = hi := by omega
        subst this; exact le_refl _
  · unfold Table.value
    simp only
    rw [if_neg (by rw [not_or, not_lt, not_lt]; exact hnoerr), ← hidx, ← hhi_def, if_neg hi0]
    have a1 : s.getD hi (0, 0) = s[hi] := by simp [List.getD, hhin]
    have a2 : s.getD (hi - 1) (0, 0) = s[hi - 1] := by
      rw [List.getD_eq_getElem?_getD, List.getElem?_eq_getElem (by omega)]; rfl
    rw [a1, a2]
    have hden : ((s[hi].1 - s[hi - 1].1 : ℝ) : ℂ) ≠ 0 := by
      have : s[hi].1 - s[hi - 1].1 ≠ 0 := by linarith
      exact_mod_cast this
    rw [divN, if_neg hden, Option.map_some]
    congr 2
    unfold Spec.chord
    push_cast at hden ⊢
    field_simp
    ring

/-- C53: at every node the tabulated value is returned. -/
theorem C53_node (lbda : List ℝ) (values : List ℂ) (hv : values.length = lbda.length) (h2 : 2 ≤ lbda.length)
    (hd : lbda.Nodup) (r : ℝ × ℂ) (hr : r ∈ lbda.zip values) :
    ∃ t, mkTable lbda values = .ok t ∧ t.value r.1 = .ok (some r.2) := by
  have hfst : (lbda.zip values).map Prod.fst = lbda := by rw [List.map_fst_zip]; omega
  have hin : r.1 ∈ lbda := by rw [← hfst]; exact List.mem_map_of_mem hr
  have hinj : ∀ p ∈ lbda.zip values, p.1 = r.1 → p = r := by
    intro p hp he
    have hnd : ((lbda.zip values).map Prod.fst).Nodup := by rw [hfst]; exact hd
    exact List.inj_on_of_nodup_map hnd hp hr he
  obtain ⟨t, ht, p, hp, q, hq, hpq, h1, h2, h3, h4⟩ := C53_chord lbda values hv h2 hd r.1 ⟨_, hin, le_refl _⟩ ⟨_, hin, le_refl _⟩
  refine ⟨t, ht, ?_⟩
  rw [h4]
  rcases h3 r.1 hin with h | h
  · have : p = r := hinj p hp (le_antisymm h1 h)
    subst this
    simp [Spec.chord]
  · have : q = r := hinj q hq (le_antisymm h h2)
    subst this
    have : q.1 - p.1 ≠ 0 := by linarith
    simp only [Spec.chord, div_self this, Complex.ofReal_one, one_mul]
    ring_nf

/-- C53: the order of the input rows does not matter. -/
theorem C53_row_order (l l' : List ℝ) (v v' : List ℂ) (hv : v.length = l.length) (hv' : v'.length = l'.length)
    (hp : (l.zip v).Perm (l'.zip v')) (hd : l.Nodup) : mkTable l v = mkTable l' v' := by
  have hlen : l.length = l'.length := by
    have := hp.length_eq
    simp only [List.length_zip, hv, hv', min_self] at this
    exact this
  have hfst : (l.zip v).map Prod.fst = l := by rw [List.map_fst_zip]; omega
  have hd1 : Distinct (l.zip v) := by unfold Distinct; rw [hfst]; exact hd
  have hd2 : Distinct (l'.zip v') := by
    unfold Distinct
    exact ((hp.map Prod.fst).nodup_iff).1 hd1
  unfold mkTable
  have hzero : (l.length = 0) = (l'.length = 0) := by rw [hlen]
  simp only [hzero, hv, hv', ne_eq, not_true_eq_false, if_false]
  congr 3
  have hperm : (sortRows (l.zip v)).Perm (sortRows (l'.zip v')) :=
    ((sortRows_perm _).trans hp).trans (sortRows_perm _).symm
  exact hperm.eq_of_pairwise' (r := fun a b => a.1 < b.1) (sortRows_strict _ hd1) (sortRows_strict _ hd2)

/-- Non-trivial case: an unsorted table of two rows, value in the middle. -/
example : ∃ t, mkTable [2, 0] [(3 : ℂ), 1] = .ok t ∧ t.value 2 = .ok (some 3) :=
  C53_node [2, 0] [3, 1] rfl (by simp) (by norm_num) (2, 3) (by simp)

end PyElli
