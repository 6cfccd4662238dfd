import Verif.Model.Importer
import Verif.Spec.Importer
import Verif.Props.Angles

/-! # C71, C77: frames read from Accurion and SpectraRay files -/

namespace PyElli.Importer

open PyElli Spec Spec.Importer

/-! ## Δ range -/

lemma range_180 : mkDeltaRange (.int (-180)) (.int 180) = .ok ⟨-180, 180⟩ := by
  rw [C01_delta_range_accepts_iff]
  exact ⟨Or.inl rfl, by norm_num [Denotes], by norm_num [Denotes], Or.inr ⟨by norm_num, by norm_num, by norm_num⟩⟩

/-- Same row, Δ rewritten. -/
def Wrapped (a b : Meas) : Prop := b.1 = a.1 ∧ b.2.2 = a.2.2 ∧ SameAngle b.2.1 a.2.1 ∧ InWindow (-180) b.2.1

lemma wrapDelta_ok : ∀ rows : List Meas, ∃ rows', wrapDelta rows = .ok rows' ∧ List.Forall₂ Wrapped rows rows'
  | [] => ⟨[], rfl, .nil⟩
  | (k, d, p) :: rows => by
    obtain ⟨y, hy, h1, h2⟩ := C02_convert_same_angle_partial d _ _ _ range_180 (Or.inr (Or.inl rfl))
    obtain ⟨rows', hr, hf⟩ := wrapDelta_ok rows
    exact ⟨(k, y, p) :: rows', by simp [wrapDelta, hy, hr], .cons ⟨rfl, rfl, h2, h1⟩ hf⟩

lemma holds_of_wrapped {rows rows' : List Meas} (h : List.Forall₂ Wrapped rows rows') : Holds rows' rows := by
  induction h with
  | nil => exact ⟨by simp, by simp⟩
  | @cons a b as bs hab _ ih =>
    obtain ⟨h1, h2, h3, h4⟩ := hab
    constructor
    · intro m hm
      rcases List.mem_cons.1 hm with rfl | hm
      · exact ⟨b.2.1, by rw [← h1, ← h2]; simp, h3, h4⟩
      · obtain ⟨d, hd, h⟩ := ih.1 m hm
        exact ⟨d, by simp [hd], h⟩
    · intro f hf
      rcases List.mem_cons.1 hf with rfl | hf
      · exact ⟨a.2.1, by rw [h1, h2]; simp, h3, h4⟩
      · obtain ⟨d, hd, h⟩ := ih.2 f hf
        exact ⟨d, by simp [hd], h⟩

lemma sorted_of_wrapped {rows rows' : List Meas} (h : List.Forall₂ Wrapped rows rows') (hs : SortedRows rows) : SortedRows rows' := by
  induction h with
  | nil => exact .nil
  | @cons a b as bs hab hr ih =>
    rw [SortedRows, List.pairwise_cons] at hs ⊢
    refine ⟨?_, ih hs.2⟩
    intro x hx
    obtain ⟨i, hi, rfl⟩ := List.getElem_of_mem hx
    have hi' : i < as.length := by rw [hr.length_eq]; exact hi
    have hw := (List.forall₂_iff_get.1 hr).2 i hi' hi
    have := hs.1 (as[i]) (List.getElem_mem hi')
    simp only [List.get_eq_getElem] at hw
    rw [hw.1, hab.1]
    exact this

lemma holds_perm {f a b : List Meas} (h : Holds f a) (hp : a.Perm b) : Holds f b :=
  ⟨fun m hm => h.1 m (hp.mem_iff.2 hm), fun x hx => by
    obtain ⟨d, hd, h⟩ := h.2 x hx
    exact ⟨d, hp.mem_iff.1 hd, h⟩⟩

/-! ## Sorting -/

lemma keyLE_iff (a b : ℝ × ℝ) : keyLE a b = true ↔ a.1 < b.1 ∨ (a.1 = b.1 ∧ a.2 ≤ b.2) := by simp [keyLE]

lemma keyLE_trans (a b c : ℝ × ℝ) (h1 : keyLE a b = true) (h2 : keyLE b c = true) : keyLE a c = true := by
  rw [keyLE_iff] at *
  rcases h1 with h1 | ⟨h1, h1'⟩ <;> rcases h2 with h2 | ⟨h2, h2'⟩
  · exact Or.inl (h1.trans h2)
  · exact Or.inl (h2 ▸ h1)
  · exact Or.inl (h1 ▸ h2)
  · exact Or.inr ⟨h1.trans h2, h1'.trans h2'⟩

lemma keyLE_total (a b : ℝ × ℝ) : (keyLE a b || keyLE b a) = true := by
  rw [Bool.or_eq_true, keyLE_iff, keyLE_iff]
  rcases lt_trichotomy a.1 b.1 with h | h | h
  · exact Or.inl (Or.inl h)
  · rcases le_total a.2 b.2 with h' | h'
    · exact Or.inl (Or.inr ⟨h, h'⟩)
    · exact Or.inr (Or.inr ⟨h.symm, h'⟩)
  · exact Or.inr (Or.inl h)

lemma strict_of_ne {a b : ℝ × ℝ} (h : keyLE a b = true) (hn : a ≠ b) : a.1 < b.1 ∨ (a.1 = b.1 ∧ a.2 < b.2) := by
  rw [keyLE_iff] at h
  rcases h with h | ⟨h1, h2⟩
  · exact Or.inl h
  · refine Or.inr ⟨h1, lt_of_le_of_ne h2 fun h3 => hn (Prod.ext h1 h3)⟩

lemma sort_keys (ks : List (ℝ × ℝ)) (hn : ks.Nodup) :
    (ks.mergeSort keyLE).Pairwise fun a b => a.1 < b.1 ∨ (a.1 = b.1 ∧ a.2 < b.2) := by
  have h1 := List.pairwise_mergeSort (le := keyLE) (fun a b c => keyLE_trans a b c) keyLE_total ks
  have h2 : (ks.mergeSort keyLE).Nodup := (List.mergeSort_perm ks keyLE).nodup_iff.2 hn
  exact (h1.and h2).imp fun h => strict_of_ne h.1 h.2

lemma sort_rows (rows : List Meas) (hn : (rows.map Prod.fst).Nodup) : SortedRows (rows.mergeSort fun a b => keyLE a.1 b.1) := by
  have h1 := List.pairwise_mergeSort (le := fun a b : Meas => keyLE a.1 b.1) (fun a b c => keyLE_trans a.1 b.1 c.1)
    (fun a b => keyLE_total a.1 b.1) rows
  have h2 : ((rows.mergeSort fun a b => keyLE a.1 b.1).map Prod.fst).Nodup :=
    ((List.mergeSort_perm rows fun a b => keyLE a.1 b.1).map Prod.fst).nodup_iff.2 hn
  have h3 := List.pairwise_map.1 h2
  exact (h1.and h3).imp fun h => strict_of_ne h.1 h.2

/-! ## C71 -/

open Classical in
/-- C71, what the reader computes: one row per pair of angle and wavelength in the file, in increasing order; its Ψ is the sum of all Ψ
measured there and its Δ is their sum brought to the window from -180 to 180 degrees. -/
theorem C71_sums (rows : List Meas) :
    ∃ frame, readAccurion rows = .ok frame ∧ SortedRows frame ∧ (∀ k, (∃ f ∈ frame, f.1 = k) ↔ ∃ m ∈ rows, m.1 = k) ∧
      ∀ f ∈ frame, f.2.2 = ((rows.filter fun r => decide (r.1 = f.1)).map fun r => r.2.2).sum ∧
        SameAngle f.2.1 ((rows.filter fun r => decide (r.1 = f.1)).map fun r => r.2.1).sum ∧ InWindow (-180) f.2.1 := by
  obtain ⟨frame, h1, h2⟩ := wrapDelta_ok (groupSum rows)
  have hk : (groupSum rows).map Prod.fst = (rows.map Prod.fst).dedup.mergeSort keyLE := by
    rw [groupSum, List.map_map]
    exact List.map_id _
  have hs : SortedRows (groupSum rows) := by
    have := sort_keys _ (List.nodup_dedup (rows.map Prod.fst))
    rw [← hk] at this
    exact List.pairwise_map.1 this
  have hkeys : ∀ k, (∃ f ∈ groupSum rows, f.1 = k) ↔ ∃ m ∈ rows, m.1 = k := by
    intro k
    have e1 : (∃ f ∈ groupSum rows, f.1 = k) ↔ k ∈ (groupSum rows).map Prod.fst := List.mem_map.symm
    have e2 : (∃ f ∈ rows, f.1 = k) ↔ k ∈ rows.map Prod.fst := List.mem_map.symm
    rw [e1, hk, (List.mergeSort_perm _ keyLE).mem_iff, List.mem_dedup, e2]
  obtain ⟨ha, hb⟩ := holds_of_wrapped h2
  refine ⟨frame, h1, sorted_of_wrapped h2 hs, ?_, ?_⟩
  · intro k
    rw [← hkeys]
    constructor
    · rintro ⟨f, hf, rfl⟩
      obtain ⟨d, hd, -⟩ := hb f hf
      exact ⟨_, hd, rfl⟩
    · rintro ⟨m, hm, rfl⟩
      obtain ⟨d, hd, -⟩ := ha m hm
      exact ⟨_, hd, rfl⟩
  · intro f hf
    obtain ⟨d, hd, h3, h4⟩ := hb f hf
    rw [groupSum, List.mem_map] at hd
    obtain ⟨k, -, hk'⟩ := hd
    simp only [Prod.mk.injEq] at hk'
    obtain ⟨rfl, rfl, h5⟩ := hk'
    exact ⟨h5.symm, h3, h4⟩

lemma filter_key {rows : List Meas} (hn : (rows.map Prod.fst).Nodup) {m : Meas} (hm : m ∈ rows) (p : Meas → Bool)
    (hp : ∀ r, p r = true ↔ r.1 = m.1) : rows.filter p = [m] := by
  induction rows with
  | nil => simp at hm
  | cons a rows ih =>
    rw [List.map_cons, List.nodup_cons] at hn
    rcases List.mem_cons.1 hm with rfl | hm'
    · rw [List.filter_cons_of_pos ((hp m).2 rfl), List.filter_eq_nil_iff.2]
      intro r hr h
      exact hn.1 (List.mem_map.2 ⟨r, hr, (hp r).1 h⟩)
    · rw [List.filter_cons_of_neg, ih hn.2 hm']
      intro h
      exact hn.1 (List.mem_map.2 ⟨m, hm', ((hp a).1 h).symm⟩)

/-- C71 when no pair of angle and wavelength occurs twice: the frame holds exactly the measurements of the file. Full statement: for all
files. Missing: repeated pairs, for which see `C71_refuted`. -/
theorem C71_distinct_partial (rows : List Meas) (hn : (rows.map Prod.fst).Nodup) :
    ∃ frame, readAccurion rows = .ok frame ∧ SortedRows frame ∧ Holds frame rows := by
  classical
  obtain ⟨frame, h1, h2, h3, h4⟩ := C71_sums rows
  refine ⟨frame, h1, h2, ?_, ?_⟩
  · intro m hm
    obtain ⟨f, hf, hfm⟩ := (h3 m.1).2 ⟨m, hm, rfl⟩
    obtain ⟨h5, h6, h7⟩ := h4 f hf
    rw [filter_key hn hm _ (by intro r; simp [hfm])] at h5 h6
    simp only [List.map_cons, List.map_nil, List.sum_cons, List.sum_nil, add_zero] at h5 h6
    exact ⟨f.2.1, by rw [← hfm, ← h5]; exact hf, h6, h7⟩
  · intro f hf
    obtain ⟨m, hm, hfm⟩ := (h3 f.1).1 ⟨f, hf, rfl⟩
    obtain ⟨h5, h6, h7⟩ := h4 f hf
    rw [filter_key hn hm _ (by intro r; simp [hfm])] at h5 h6
    simp only [List.map_cons, List.map_nil, List.sum_cons, List.sum_nil, add_zero] at h5 h6
    exact ⟨m.2.1, by rw [h5, ← hfm]; exact hm, h6, h7⟩

/-- Two rows meeting the hypothesis. -/
example : ([((40, 365), (179, 32)), ((40, 370), (178, 32))] : List Meas).map Prod.fst |>.Nodup := by simp

/-- C71 fails: measuring the same point twice doubles Ψ. -/
theorem C71_refuted (k : ℝ × ℝ) (d p : ℝ) (hp : p ≠ 0) :
    ∃ frame, readAccurion [(k, d, p), (k, d, p)] = .ok frame ∧ (∃ f ∈ frame, f.1 = k ∧ f.2.2 = 2 * p) ∧
      ¬ Holds frame [(k, d, p), (k, d, p)] := by
  classical
  obtain ⟨frame, h1, h2, h3, h4⟩ := C71_sums [(k, d, p), (k, d, p)]
  obtain ⟨f, hf, rfl⟩ := (h3 k).2 ⟨(k, d, p), by simp, rfl⟩
  obtain ⟨h5, -⟩ := h4 f hf
  have h6 : f.2.2 = 2 * p := by
    rw [h5]
    simp
    ring
  refine ⟨frame, h1, ⟨f, hf, rfl, h6⟩, ?_⟩
  rintro ⟨-, h⟩
  obtain ⟨d', hd, -⟩ := h f hf
  simp only [List.mem_cons, List.not_mem_nil, or_false, or_self, Prod.mk.injEq] at hd
  rw [h6] at hd
  exact hp (by linarith [hd.2.2])

/-! ## C77 -/

lemma everyOther_doubles {α : Type} (a : α) (l : List α) (x : α) : everyOther (a :: (l.flatMap fun b => [b, b]) ++ [x]) = a :: l := by
  induction l generalizing a with
  | nil => simp [everyOther]
  | cons b l ih =>
    have := ih b
    simp only [List.flatMap_cons, List.cons_append, List.nil_append, everyOther] at this ⊢
    rw [this]

lemma floats_some (l : List ℝ) : floats (l.map some) = .ok l := by
  induction l with
  | nil => rfl
  | cons a l ih => simp [floats, ih]

lemma pairUp_eq : ∀ (n : ℕ) (vs : List ℝ), vs.length = 2 * n →
    pairUp vs = (List.range n).map fun j => (vs.getD (2 * j) 0, vs.getD (2 * j + 1) 0)
  | 0, vs, h => by
    have : vs = [] := List.eq_nil_of_length_eq_zero (by omega)
    subst this
    rfl
  | n + 1, vs, h => by
    match vs, h with
    | a :: b :: l, h =>
      have hl : l.length = 2 * n := by simp at h; omega
      rw [pairUp, pairUp_eq n l hl, List.range_succ_eq_map]
      simp [Nat.mul_add, Function.comp_def]

lemma zip_pairs (aois : List ℝ) (wl : ℝ) (vs : List ℝ) (h : vs.length = 2 * aois.length) :
    (aois.zip (pairUp vs)).map (fun p => (((p.1, wl), (p.2.2, p.2.1)) : Meas)) =
      (List.range aois.length).map fun j => ((aois.getD j 0, wl), (vs.getD (2 * j + 1) 0, vs.getD (2 * j) 0)) := by
  rw [pairUp_eq _ _ h]
  apply List.ext_getElem
  · simp
  · intro i h1 h2
    have hi : i < aois.length := by simpa using h2
    simp [List.getD_eq_getElem?_getD, List.getElem?_eq_getElem hi]

/-- C77: a SpectraRay file with the header line written by the program (each angle twice, after two words; the line ends with a blank
token) and complete rows gives exactly its measurements, sorted by angle and wavelength, with Δ in the window from -180 to 180 degrees.
Angles and wavelengths are distinct. -/
theorem C77_spectraray (aois : List ℝ) (rows : List (ℝ × List ℝ)) (hne : aois ≠ []) (ha : aois.Nodup) (hw : (rows.map Prod.fst).Nodup)
    (hr : ∀ r ∈ rows, r.2.length = 2 * aois.length) :
    ∃ frame, readSpectraray ([none, none] ++ (aois.flatMap fun a => [some a, some a]) ++ [none]) rows = .ok frame ∧
      SortedRows frame ∧ Holds frame (cells aois rows) := by
  obtain ⟨a, l, rfl⟩ := List.exists_cons_of_ne_nil hne
  have hh : everyOther (([none, none] ++ ((a :: l).flatMap fun a => [some a, some a]) ++ [none]).drop 3) = (a :: l).map some := by
    have e : ([none, none] ++ ((a :: l).flatMap fun a => [some a, some a]) ++ [none]).drop 3 =
        some a :: ((l.map some).flatMap fun b => [b, b]) ++ [none] := by
      simp [List.flatMap_map]
    rw [e, everyOther_doubles]
    rfl
  have hstack : (rows.flatMap fun r => ((a :: l).zip (pairUp r.2)).map fun p => (((p.1, r.1), (p.2.2, p.2.1)) : Meas)) = cells (a :: l) rows := by
    unfold cells
    apply List.flatMap_congr
    intro r hr'
    exact zip_pairs _ _ _ (hr r hr')
  have hnd : ((cells (a :: l) rows).map Prod.fst).Nodup := by
    have : (cells (a :: l) rows).map Prod.fst = rows.flatMap fun r => (a :: l).map fun x => (x, r.1) := by
      unfold cells
      rw [List.map_flatMap]
      apply List.flatMap_congr
      intro r _
      apply List.ext_getElem
      · simp
      · intro i h1 h2
        have hi : i < (a :: l).length := by simpa using h2
        simp only [List.getElem_map, List.getElem_range]
        rw [List.getD_eq_getElem?_getD, List.getElem?_eq_getElem hi]
        rfl
    rw [this, List.nodup_flatMap]
    refine ⟨fun r _ => ha.map fun x y h => (Prod.mk.inj h).1, ?_⟩
    have hp := List.pairwise_map.1 hw
    refine hp.imp ?_
    intro r s hrs
    rw [Function.onFun, List.disjoint_left]
    intro x hx hy
    obtain ⟨u, -, rfl⟩ := List.mem_map.1 hx
    obtain ⟨v, -, h⟩ := List.mem_map.1 hy
    exact hrs (Prod.mk.inj h).2.symm
  obtain ⟨frame, h1, h2⟩ := wrapDelta_ok ((cells (a :: l) rows).mergeSort fun x y => keyLE x.1 y.1)
  refine ⟨frame, ?_, sorted_of_wrapped h2 (sort_rows _ hnd), holds_perm (holds_of_wrapped h2) (List.mergeSort_perm _ _)⟩
  unfold readSpectraray
  rw [hh, floats_some]
  simp only
  rw [if_pos (by simpa [List.all_eq_true] using hr), hstack]
  exact h1

/-- Two angles, two wavelengths. -/
example : ∃ frame, readSpectraray ([none, none] ++ (([50, 60] : List ℝ).flatMap fun a => [some a, some a]) ++ [none])
    [(400, [30, 170, 31, 190]), (390, [32, 160, 33, 100])] = .ok frame ∧ ∃ d, ((60, 400), d, 31) ∈ frame ∧ SameAngle d 190 ∧ InWindow (-180) d := by
  obtain ⟨frame, h, -, h2⟩ := C77_spectraray [50, 60] [(400, [30, 170, 31, 190]), (390, [32, 160, 33, 100])] (by simp) (by norm_num)
    (by norm_num) (by simp)
  refine ⟨frame, h, ?_⟩
  exact h2.1 ((60, 400), (190, 31)) (by simp [cells, List.range_succ])

/-- C77: a table whose number of columns is not twice the number of angles in the header is refused. -/
theorem C77_columns (header : List (Option ℝ)) (rows : List (ℝ × List ℝ)) (aois : List ℝ) (n : ℕ) (hrows : rows ≠ [])
    (hh : floats (everyOther (header.drop 3)) = .ok aois) (hr : ∀ r ∈ rows, r.2.length = n) (hl : n ≠ 2 * aois.length) :
    readSpectraray header rows = .error .valueError := by
  unfold readSpectraray
  rw [hh]
  simp only
  rw [if_neg]
  intro h
  rw [List.all_eq_true] at h
  obtain ⟨r, rs, rfl⟩ := List.exists_cons_of_ne_nil hrows
  have h1 := h r (by simp)
  rw [decide_eq_true_eq, hr r (by simp)] at h1
  exact hl h1

/-- One angle but four columns. -/
example : readSpectraray [none, none, some 50, some 50, none] [(400, [1, 2, 3, 4])] = .error .valueError :=
  C77_columns _ _ [50] 4 (by simp) (by simp [everyOther, floats]) (by simp) (by simp)

end PyElli.Importer
