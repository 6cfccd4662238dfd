import Verif.Model.MuellerFile
import Verif.Spec.Fit
import Verif.Props.Fit
import Verif.Props.Frames
import Verif.Props.MeasFile

/-! # C114: Mueller matrix files, and readers of ρ -/

namespace Spec.MuellerFile

/-- One line of a file of Mueller matrices: a wavelength and the matrices measured there, one for each angle of incidence. -/
structure Point where
  wavelength : ℝ
  matrices : List (Matrix (Fin 4) (Fin 4) ℝ)

/-- The 16 elements of a matrix, row by row. -/
def elements (m : Matrix (Fin 4) (Fin 4) ℝ) : List ℝ := List.ofFn fun k : Fin 16 => m ⟨k.val / 4, by omega⟩ ⟨k.val % 4, by omega⟩

/-- The numbers in the line. -/
def Point.line (p : Point) : List ℝ := p.wavelength :: p.matrices.flatMap elements

/-- The frame shows the value `v` as element `Mij` in row `k`, and `w` as the wavelength of that row. -/
def Shows (index : List (Option ℝ)) (columns : List String) (rows : List (List (Option ℝ))) (k : ℕ) (w : ℝ) (i j : Fin 4) (v : ℝ) : Prop :=
  index[k]? = some (some w) ∧ ∃ c : ℕ, columns[c]? = some (Spec.Fit.label i j) ∧ ∃ r, rows[k]? = some r ∧ r[c]? = some (some v)

end Spec.MuellerFile

namespace PyElli.Importer

open PyElli Spec Spec.Importer Spec.MuellerFile PyElli.Fit

lemma fillLines_ok (n : ℕ) : ∀ ls : List (List (Option ℝ)), (∀ l ∈ ls, l.length ≤ n) →
    fillLines n ls = .ok (ls.map fun l => l ++ List.replicate (n - l.length) none)
  | [], _ => rfl
  | l :: ls, h => by
    have h1 : ¬ n < l.length := by have := h l (by simp); omega
    simp [fillLines, fillLine, h1, fillLines_ok n ls fun x hx => h x (by simp [hx])]

lemma fillLines_err (n : ℕ) : ∀ ls : List (List (Option ℝ)), (¬ ∀ l ∈ ls, l.length ≤ n) → fillLines n ls = .error .parseError
  | [], h => absurd (by simp) h
  | l :: ls, h => by
    by_cases h1 : n < l.length
    · simp [fillLines, fillLine, h1]
    · have h2 : ¬ ∀ l ∈ ls, l.length ≤ n := by
        intro h2
        apply h
        intro x hx
        rcases List.mem_cons.1 hx with rfl | hx
        · omega
        · exact h2 x hx
      simp [fillLines, fillLine, h1, fillLines_err n ls h2]

lemma negSlice_length {α : Type} (l : List α) (a b : ℕ) : (negSlice l a b).length = (l.length - b) - (l.length - a) := by
  simp [negSlice]

/-- What is read from any file that is accepted: of the columns after the first, the 16 before the last one. -/
theorem C114_read (f : TokenFile) :
    readMMatrix f =
      if f.header = [] then .error .valueError
      else if ¬ ∀ l ∈ f.lines, l.length ≤ f.header.length then .error .parseError
      else if f.header.length < 18 then .error .valueError
      else .ok ⟨f.lines.map fun l => (l ++ List.replicate (f.header.length - l.length) none).headD none, spectrarayColumns,
        f.lines.map fun l => ((l ++ List.replicate (f.header.length - l.length) none).drop (f.header.length - 17)).take 16⟩ := by
  obtain ⟨header, lines⟩ := f
  rcases header with _ | ⟨t, names⟩
  · simp [readMMatrix, readCsvIndexed]
  · simp only [List.length_cons, reduceCtorEq, if_false]
    by_cases h : ∀ l ∈ lines, l.length ≤ names.length + 1
    · rw [if_neg (by simpa using h)]
      simp only [readMMatrix, readCsvIndexed, fillLines_ok _ _ h]
      rw [negSlice_length]
      have hc : spectrarayColumns.length = 16 := rfl
      rw [hc]
      by_cases h18 : names.length + 1 < 18
      · rw [if_pos h18, if_pos (by omega)]
      · rw [if_neg h18, if_neg (by omega)]
        simp only [List.map_map]
        congr 2
        refine List.map_congr_left fun l hl => ?_
        have hle := h l hl
        simp only [Function.comp]
        generalize hg : l ++ List.replicate (names.length + 1 - l.length) none = g
        have hlen : g.length = names.length + 1 := by rw [← hg]; simp; omega
        rcases g with _ | ⟨x, g⟩
        · simp at hlen
        · simp only [List.length_cons, Nat.add_right_cancel_iff] at hlen
          simp only [List.tail_cons, negSlice, hlen]
          rw [show names.length + 1 - 17 = (names.length - 17) + 1 by omega, List.drop_succ_cons, List.drop_take,
            show names.length - 1 - (names.length - 17) = 16 by omega]
    · rw [if_pos (by simpa using h)]
      simp only [readMMatrix, readCsvIndexed, fillLines_err _ _ h]

lemma elements_length (m : M4) : (elements m).length = 16 := by simp [elements]

lemma elements_get (m : M4) (i j : Fin 4) : (elements m)[4 * i.val + j.val]? = some (m i j) := by
  have h : 4 * i.val + j.val < (elements m).length := by rw [elements_length]; omega
  rw [List.getElem?_eq_getElem h]
  simp only [elements, List.getElem_ofFn]
  congr 3
  · omega
  · omega

lemma flat_length : ∀ ms : List M4, (ms.flatMap elements).length = 16 * ms.length
  | [] => rfl
  | m :: ms => by simp only [List.flatMap_cons, List.length_append, elements_length, flat_length ms, List.length_cons]; omega

lemma point_line_length (p : Point) : p.line.length = 1 + 16 * p.matrices.length := by
  simp only [Point.line, List.length_cons, flat_length]; omega

/-- The lines of the file with these points. -/
def pointLines (ps : List Point) : List (List (Option ℝ)) := ps.map fun p => p.line.map some

lemma flat_get (ms : List M4) (a : ℕ) (m : M4) (h : ms[a]? = some m) (i j : Fin 4) :
    (ms.flatMap elements)[16 * a + (4 * i.val + j.val)]? = some (m i j) := by
  induction ms generalizing a with
  | nil => simp at h
  | cons x ms ih =>
    rcases a with _ | a
    · simp only [List.getElem?_cons_zero, Option.some.injEq] at h
      subst h
      rw [List.flatMap_cons, List.getElem?_append_left (by rw [elements_length]; omega), Nat.mul_zero, Nat.zero_add]
      exact elements_get _ _ _
    · rw [List.getElem?_cons_succ] at h
      rw [List.flatMap_cons, List.getElem?_append_right (by rw [elements_length]; omega), elements_length]
      rw [show 16 * (a + 1) + (4 * i.val + j.val) - 16 = 16 * a + (4 * i.val + j.val) by omega]
      exact ih a h

/-- C114, the general case: a file whose first line has two tokens before those of the columns (`; WAVELENGTH`), with `a + 1` angles of
incidence: the frame shows at each wavelength the matrix of the last angle. -/
theorem C114_last_angle (a : ℕ) (header : List String) (hh : header.length = 2 + 16 * (a + 1)) (ps : List Point)
    (hp : ∀ p ∈ ps, p.matrices.length = a + 1) :
    ∃ f, readMMatrix ⟨header, pointLines ps⟩ = .ok f ∧ f.index.length = ps.length ∧ f.rows.length = ps.length ∧
      ∀ k p m, ps[k]? = some p → p.matrices[a]? = some m → ∀ i j, Shows f.index f.columns f.rows k p.wavelength i j (m i j) := by
  have hne : header ≠ [] := by intro h; rw [h] at hh; simp at hh
  have hlen : ∀ l ∈ pointLines ps, l.length ≤ header.length := by
    intro l hl
    obtain ⟨p, hp', rfl⟩ := List.mem_map.1 hl
    rw [List.length_map, point_line_length, hp p hp', hh]
    omega
  rw [C114_read]
  simp only
  rw [if_neg hne, if_neg (by simpa using hlen), if_neg (by omega)]
  refine ⟨_, rfl, by simp [pointLines], by simp [pointLines], ?_⟩
  intro k p m hk hm i j
  have hpl := hp p (List.mem_of_getElem? hk)
  refine ⟨?_, 4 * i.val + j.val, C66_spectraray_columns i j,
    ((p.line.map some ++ List.replicate (header.length - (p.line.map some).length) none).drop (header.length - 17)).take 16, ?_, ?_⟩
  · simp only [pointLines, List.map_map, List.getElem?_map, hk, Option.map_some, Function.comp]
    rfl
  · simp only [pointLines, List.map_map, List.getElem?_map, hk, Option.map_some, Function.comp]
  · have hij : 4 * i.val + j.val < 16 := by omega
    rw [List.getElem?_take_of_lt hij, List.getElem?_drop, List.getElem?_append_left (by rw [List.length_map, point_line_length]; omega),
      List.getElem?_map, Point.line, show header.length - 17 + (4 * i.val + j.val) = (16 * a + (4 * i.val + j.val)) + 1 by omega,
      List.getElem?_cons_succ, flat_get _ _ _ hm]
    rfl

/-- C114 for a file with one angle of incidence and the first line that SpectraRay writes (two words, then one token for each column): every
wavelength and every matrix element is shown where its label says. Missing: files with several angles, and a first line with exactly one
token for each column, where it is false (`C114_first_angle_refuted`, `C114_plain_header_refuted`). -/
theorem C114_one_angle_partial (header : List String) (hh : header.length = 18) (ps : List (ℝ × M4)) :
    ∃ f, readMMatrix ⟨header, pointLines (ps.map fun p => ⟨p.1, [p.2]⟩)⟩ = .ok f ∧ f.index.length = ps.length ∧ f.rows.length = ps.length ∧
      ∀ k w m, ps[k]? = some (w, m) → ∀ i j, Shows f.index f.columns f.rows k w i j (m i j) := by
  obtain ⟨f, h1, h2, h3, h4⟩ := C114_last_angle 0 header (by omega) (ps.map fun p => ⟨p.1, [p.2]⟩) (by
    intro p hp
    obtain ⟨q, -, rfl⟩ := List.mem_map.1 hp
    rfl)
  refine ⟨f, h1, by simpa using h2, by simpa using h3, ?_⟩
  intro k w m hk i j
  exact h4 k ⟨w, [m]⟩ m (by simp [hk]) rfl i j

/-- A file with one wavelength. -/
example : ∃ f, readMMatrix ⟨";" :: "WAVELENGTH" :: List.replicate 16 "70.2", pointLines [⟨400, [fun i j => i.val + 10 * j.val]⟩]⟩ = .ok f ∧
    Shows f.index f.columns f.rows 0 400 1 3 31 := by
  obtain ⟨f, h1, -, -, h2⟩ := C114_one_angle_partial (";" :: "WAVELENGTH" :: List.replicate 16 "70.2") (by simp) [(400, fun i j => i.val + 10 * j.val)]
  refine ⟨f, h1, ?_⟩
  have := h2 0 400 _ rfl 1 3
  norm_num at this
  exact this

lemma shows_unique {index : List (Option ℝ)} {rows : List (List (Option ℝ))} {k : ℕ} {w w' : ℝ} {i j : Fin 4} {v v' : ℝ}
    (h : Shows index spectrarayColumns rows k w i j v) (h' : Shows index spectrarayColumns rows k w' i j v') : w = w' ∧ v = v' := by
  obtain ⟨h1, c, h2, r, h3, h4⟩ := h
  obtain ⟨h1', c', h2', r', h3', h4'⟩ := h'
  have hc : c = c' := by
    have hnd : spectrarayColumns.Nodup := by decide
    have l1 : c < spectrarayColumns.length := by
      by_contra hcon
      rw [List.getElem?_eq_none (by omega)] at h2
      exact absurd h2 (by simp)
    have l2 : c' < spectrarayColumns.length := by
      by_contra hcon
      rw [List.getElem?_eq_none (by omega)] at h2'
      exact absurd h2' (by simp)
    rw [List.getElem?_eq_getElem l1] at h2
    rw [List.getElem?_eq_getElem l2] at h2'
    exact (List.Nodup.getElem_inj_iff hnd).1 (Option.some.inj (h2.trans h2'.symm))
  subst hc
  rw [h3] at h3'
  cases h3'
  rw [h4] at h4'
  rw [h1] at h1'
  simp only [Option.some.injEq] at h4' h1'
  exact ⟨h1', h4'⟩

lemma columns_of_read {f : TokenFile} {g : IndexedFrame} (h : readMMatrix f = .ok g) : g.columns = spectrarayColumns := by
  rw [C114_read] at h
  split_ifs at h
  cases h
  rfl

/-- C114 fails for files with several angles: the documentation says that only the first entry is read, but it is the last one. -/
theorem C114_first_angle_refuted (header : List String) (w : ℝ) (first last : M4) (more : List M4) (i j : Fin 4) (hij : first i j ≠ last i j)
    (hh : header.length = 2 + 16 * (more.length + 2)) :
    ∃ f, readMMatrix ⟨header, pointLines [⟨w, first :: more ++ [last]⟩]⟩ = .ok f ∧
      Shows f.index f.columns f.rows 0 w i j (last i j) ∧ ¬ Shows f.index f.columns f.rows 0 w i j (first i j) := by
  obtain ⟨f, h1, -, -, h2⟩ := C114_last_angle (more.length + 1) header (by omega) [⟨w, first :: more ++ [last]⟩] (by simp)
  have h3 := h2 0 ⟨w, first :: more ++ [last]⟩ last rfl (by simp) i j
  refine ⟨f, h1, h3, fun h4 => hij ?_⟩
  rw [columns_of_read h1] at h3 h4
  exact (shows_unique h4 h3).2

/-- Two angles. -/
example : ∃ f, readMMatrix ⟨";" :: "WAVELENGTH" :: List.replicate 32 "70.2", pointLines [⟨400, [1, 0]⟩]⟩ = .ok f ∧
    ¬ Shows f.index f.columns f.rows 0 400 0 0 1 := by
  obtain ⟨f, h1, -, h2⟩ := C114_first_angle_refuted (";" :: "WAVELENGTH" :: List.replicate 32 "70.2") 400 1 0 [] 0 0 (by simp) (by simp)
  exact ⟨f, h1, by simpa using h2⟩

/-- C114 fails for a first line with exactly one token for each column, the common form of such tables: with one angle the file is refused;
with two angles it is read, but `M11` is the last element of the first matrix and every other element is the one before it. -/
theorem C114_plain_header_refuted :
    (∀ (header : List String) (ps : List (ℝ × M4)), header.length = 17 →
      readMMatrix ⟨header, pointLines (ps.map fun p => ⟨p.1, [p.2]⟩)⟩ = .error .valueError) ∧
    ∀ (header : List String) (w : ℝ) (m₁ m₂ : M4), header.length = 33 → ∃ f, readMMatrix ⟨header, pointLines [⟨w, [m₁, m₂]⟩]⟩ = .ok f ∧
      Shows f.index f.columns f.rows 0 w 0 0 (m₁ 3 3) ∧ Shows f.index f.columns f.rows 0 w 0 1 (m₂ 0 0) ∧
      Shows f.index f.columns f.rows 0 w 1 0 (m₂ 0 3) ∧ Shows f.index f.columns f.rows 0 w 3 3 (m₂ 3 2) := by
  constructor
  · intro header ps hh
    rw [C114_read]
    simp only
    have hne : header ≠ [] := by intro h; rw [h] at hh; simp at hh
    rw [if_neg hne, if_neg, if_pos (by omega)]
    rw [not_not]
    intro l hl
    simp only [pointLines, List.map_map, List.mem_map] at hl
    obtain ⟨p, -, rfl⟩ := hl
    simp only [Function.comp, List.length_map, point_line_length, hh, List.length_cons, List.length_nil]
    omega
  · intro header w m₁ m₂ hh
    have hne : header ≠ [] := by intro h; rw [h] at hh; simp at hh
    rw [C114_read]
    simp only
    have hlen : ∀ l ∈ pointLines [⟨w, [m₁, m₂]⟩], l.length ≤ header.length := by
      intro l hl
      simp only [pointLines, List.map_cons, List.map_nil, List.mem_singleton] at hl
      subst hl
      rw [List.length_map, point_line_length, hh]
      simp
    rw [if_neg hne, if_neg (by simpa using hlen), if_neg (by omega)]
    have key : ∀ (c a : ℕ) (m : M4) (i j : Fin 4), [m₁, m₂][a]? = some m → c < 16 → 15 + c = 16 * a + (4 * i.val + j.val) →
        ((((Point.line ⟨w, [m₁, m₂]⟩).map some ++
          List.replicate (header.length - ((Point.line ⟨w, [m₁, m₂]⟩).map some).length) none).drop (header.length - 17)).take 16)[c]? =
          some (some (m i j)) := by
      intro c a m i j hm hc he
      have hlt : 16 + c < ((Point.line ⟨w, [m₁, m₂]⟩).map some).length := by
        rw [List.length_map, point_line_length]
        simp only [List.length_cons, List.length_nil]
        omega
      rw [List.getElem?_take_of_lt hc, List.getElem?_drop, hh, show 33 - 17 + c = 16 + c by omega, List.getElem?_append_left hlt,
        List.getElem?_map, Point.line, show 16 + c = (15 + c) + 1 by omega, List.getElem?_cons_succ, he, flat_get _ _ _ hm]
      rfl
    refine ⟨_, rfl, ⟨rfl, 0, C66_spectraray_columns 0 0, _, rfl, ?_⟩, ⟨rfl, 1, C66_spectraray_columns 0 1, _, rfl, ?_⟩, ⟨rfl, 4, C66_spectraray_columns 1 0, _, rfl, ?_⟩,
      ⟨rfl, 15, C66_spectraray_columns 3 3, _, rfl, ?_⟩⟩
    · exact key 0 0 m₁ 3 3 rfl (by omega) (by decide)
    · exact key 1 1 m₂ 0 0 rfl (by omega) (by decide)
    · exact key 4 1 m₂ 0 3 rfl (by omega) (by decide)
    · exact key 15 1 m₂ 3 2 rfl (by omega) (by decide)

/-- The frame without its index, when no value is missing. -/
def IndexedFrame.complete (f : IndexedFrame) : Option Frame := (f.rows.mapM fun r : List (Option ℝ) => r.mapM id).map fun rows => ⟨f.columns, rows⟩

lemma mapM_some {α : Type} : ∀ l : List α, (l.map some).mapM id = some l
  | [] => rfl
  | x :: l => by
    rw [List.map_cons, List.mapM_cons, mapM_some l]
    rfl

lemma mapM_map_some {α : Type} : ∀ l : List (List α), (l.map fun r => r.map some).mapM (fun r : List (Option α) => r.mapM id) = some l
  | [] => rfl
  | x :: l => by
    rw [List.map_cons, List.mapM_cons, mapM_some x, mapM_map_some l]
    rfl

/-- C114: reading such a file and fitting to it: no value is missing, and the residual of `FitMuellerMatrix` vanishes exactly when the model
gives at every wavelength the matrix of the file. -/
theorem C114_fit (header : List String) (hh : header.length = 18) (ps : List (ℝ × M4)) (mm : List M4) (hm : mm.length = ps.length) :
    ∃ f g r, readMMatrix ⟨header, pointLines (ps.map fun p => ⟨p.1, [p.2]⟩)⟩ = .ok f ∧ f.complete = some g ∧
      mmFitFunction g mm = .ok r ∧ ((∀ d ∈ r, d = 0) ↔ mm = ps.map Prod.snd) := by
  have hne : header ≠ [] := by intro h; rw [h] at hh; simp at hh
  have hlen : ∀ l ∈ pointLines (ps.map fun p => ⟨p.1, [p.2]⟩), l.length ≤ header.length := by
    intro l hl
    simp only [pointLines, List.map_map, List.mem_map] at hl
    obtain ⟨p, -, rfl⟩ := hl
    simp only [Function.comp, List.length_map, point_line_length, hh, List.length_cons, List.length_nil]
    omega
  let g : Frame := ⟨spectrarayColumns, ps.map fun p => elements p.2⟩
  have h16 : ∀ r ∈ g.rows, r.length = 16 := by
    intro r hr
    obtain ⟨p, -, rfl⟩ := List.mem_map.1 hr
    exact elements_length _
  obtain ⟨r, hr1, -, hr2⟩ := C66_mueller_zero g mm h16 (by simp [g, hm])
  rw [C114_read]
  simp only
  rw [if_neg hne, if_neg (by simpa using hlen), if_neg (by omega)]
  refine ⟨_, g, r, rfl, ?_, hr1, hr2.trans ?_⟩
  · unfold IndexedFrame.complete
    simp only [pointLines, List.map_map]
    rw [List.map_congr_left (g := (fun r : List ℝ => r.map some) ∘ fun p : ℝ × M4 => elements p.2), ← List.map_map, mapM_map_some]
    · rfl
    · intro p _
      simp only [Function.comp, hh, Point.line, List.map_cons, List.flatMap_cons, List.flatMap_nil, List.append_nil]
      rw [show 18 - 17 = 0 + 1 from rfl, List.cons_append, List.drop_succ_cons, List.drop_zero,
        List.take_append_of_le_length (by rw [List.length_map, elements_length]), List.take_of_length_le (by rw [List.length_map, elements_length])]
  · have key : ∀ k (hk : k < mm.length) (i j : Fin 4), (g.rows[k]?.getD []).getD (4 * i.val + j.val) 0 = (ps[k]'(by omega)).2 i j := by
      intro k hk i j
      have hk' : k < ps.length := by omega
      simp only [g, List.getElem?_map, List.getElem?_eq_getElem hk', Option.map_some, Option.getD_some]
      rw [List.getD_eq_getElem?_getD, elements_get]
      rfl
    constructor
    · intro h
      apply List.ext_getElem
      · simp [hm]
      · intro k h1 h2
        simp only [List.getElem_map]
        ext i j
        rw [← h k h1 i j, key k h1 i j]
    · intro h k hk i j
      rw [key k hk i j]
      subst h
      simp only [List.getElem_map]

/-- A perfect model and one that is not. -/
example (m : M4) (hm : m 0 1 ≠ 0) : ∃ f g r, readMMatrix ⟨List.replicate 18 "x", pointLines [⟨400, [m]⟩]⟩ = .ok f ∧ f.complete = some g ∧
    mmFitFunction g [0] = .ok r ∧ ¬ ∀ d ∈ r, d = 0 := by
  obtain ⟨f, g, r, h1, h2, h3, h4⟩ := C114_fit (List.replicate 18 "x") (by simp) [(400, m)] [0] rfl
  refine ⟨f, g, r, h1, h2, h3, fun h => hm ?_⟩
  have := h4.1 h
  simp only [List.map_cons, List.map_nil, List.cons.injEq, and_true] at this
  rw [← this]
  rfl

/-! ## ρ -/

lemma sameAngle_ellipsometric {rho : ℂ} {psi d d' : ℝ} (h : SameAngle d d') : EllipsometricEq rho psi d ↔ EllipsometricEq rho psi d' := by
  obtain ⟨k, rfl⟩ := h
  unfold EllipsometricEq
  have e : (d' + 360 * (k : ℝ)) * Real.pi / 180 = d' * Real.pi / 180 + k * (2 * Real.pi) := by ring
  rw [e, Real.cos_add_int_mul_two_pi, Real.sin_add_int_mul_two_pi]

/-- The rows `frame` of ρ belong to these measurements of Ψ and Δ: each measurement has its row, each row comes from a measurement, and ρ,
Ψ, Δ satisfy the ellipsometric equation. -/
def RhoOf (frame : List ((ℝ × ℝ) × ℂ)) (meas : List ((ℝ × ℝ) × (ℝ × ℝ))) : Prop :=
  (∀ m ∈ meas, ∃ rho, (m.1, rho) ∈ frame ∧ EllipsometricEq rho m.2.2 m.2.1) ∧
  (∀ r ∈ frame, ∃ m ∈ meas, r.1 = m.1 ∧ EllipsometricEq r.2 m.2.2 m.2.1)

lemma rhoRows_of_holds {frame meas : List Meas} (h : Holds frame meas) : RhoOf (rhoRows frame) meas := by
  constructor
  · intro m hm
    obtain ⟨d, h1, h2, -⟩ := h.1 m hm
    exact ⟨_, List.mem_map.2 ⟨_, h1, rfl⟩, (sameAngle_ellipsometric h2).1 ((C03_calc_rho_spec _ _ _).1 rfl)⟩
  · intro r hr
    obtain ⟨f, hf, rfl⟩ := List.mem_map.1 hr
    obtain ⟨d, h1, h2, -⟩ := h.2 f hf
    exact ⟨_, h1, rfl, (sameAngle_ellipsometric h2).1 ((C03_calc_rho_spec _ _ _).1 rfl)⟩

/-- C114: `read_spectraray_rho` gives for every angle and wavelength of the file the ratio that belongs to the Ψ and Δ written there,
whatever the range in which Δ is written, in rows sorted by angle and wavelength. -/
theorem C114_spectraray_rho (aois : List ℝ) (rows : List (ℝ × List ℝ)) (hne : aois ≠ []) (ha : aois.Nodup) (hw : (rows.map Prod.fst).Nodup)
    (hr : ∀ r ∈ rows, r.2.length = 2 * aois.length) :
    ∃ frame, readSpectrarayRho ([none, none] ++ (aois.flatMap fun a => [some a, some a]) ++ [none]) rows = .ok frame ∧
      (frame.Pairwise fun a b => a.1.1 < b.1.1 ∨ (a.1.1 = b.1.1 ∧ a.1.2 < b.1.2)) ∧ RhoOf frame (cells aois rows) := by
  obtain ⟨frame, h1, h2, h3⟩ := C77_spectraray aois rows hne ha hw hr
  refine ⟨rhoRows frame, by simp only [readSpectrarayRho, h1], ?_, rhoRows_of_holds h3⟩
  exact List.pairwise_map.2 h2

/-- One angle, one wavelength: `Δ = 270` and `Ψ = 45` give `ρ = i`. -/
example : readSpectrarayRho ([none, none] ++ (([50] : List ℝ).flatMap fun a => [some a, some a]) ++ [none]) [(400, [45, 270])] =
    .ok [((50, 400), Complex.I)] := by
  obtain ⟨frame, h1, h2, h3⟩ := C114_spectraray_rho [50] [(400, [45, 270])] (by simp) (by simp) (by simp) (by simp)
  rw [h1]
  have hall : ∀ r ∈ frame, r = ((50, 400), Complex.I) := by
    intro r hr
    obtain ⟨m, hm, e1, e2⟩ := h3.2 r hr
    simp only [cells, List.flatMap_cons, List.flatMap_nil, List.length_cons, List.length_nil, List.range_succ, List.range_zero, List.map_cons,
      List.map_nil, List.nil_append, List.append_nil, List.mem_singleton, Nat.zero_add] at hm
    subst hm
    refine Prod.ext (by simpa using e1) ?_
    simp only [EllipsometricEq, List.getD_cons_zero, Nat.mul_zero, Nat.zero_add, List.getD_cons_succ] at e2
    rw [e2, show (45 : ℝ) * Real.pi / 180 = Real.pi / 4 by ring, show (270 : ℝ) * Real.pi / 180 = -(Real.pi / 2) + 2 * Real.pi by ring,
      Real.tan_pi_div_four, Real.cos_add_two_pi, Real.sin_add_two_pi]
    simp
  rcases frame with _ | ⟨a, _ | ⟨b, l⟩⟩
  · obtain ⟨rho, h, -⟩ := h3.1 ((50, 400), (270, 45)) (by simp [cells])
    simp at h
  · rw [hall a (by simp)]
  · rw [List.pairwise_cons] at h2
    have := h2.1 b (by simp)
    rw [hall a (by simp), hall b (by simp)] at this
    norm_num at this

/-- C114: `read_nexus_rho` gives for every angle and wavelength the ratio that belongs to the Ψ and Δ of the file. -/
theorem C114_nexus_rho (f : H5File) (scans : List Scan) (wl : List ℝ)
    (u₁ u₂ u₃ : String) (hl : ∀ s ∈ scans, s.psi.length = wl.length ∧ s.delta.length = wl.length)
    (ha : f "entry/instrument/angle_of_incidence" = some (.array u₁ (.arr (scans.map fun s => .num s.aoi))))
    (hfile :
      (f "entry/sample/data_type" = some (.text "psi/delta") ∧
        f "entry/instrument/spectrometer/wavelength" = some (.array u₂ (.arr (wl.map .num))) ∧
        ∃ r₁ r₂, f "entry/sample/measured_data" = some (.array u₃ (.arr (.arr (.arr (blocks scans) :: r₁) :: r₂)))) ∨
      (f "entry/sample/data_type" = none ∧ f "entry/data_collection/data_type" = some (.text "Psi/Delta") ∧
        f "entry/data_collection/wavelength_spectrum" = some (.array u₂ (.arr (wl.map .num))) ∧
        f "entry/data_collection/measured_data" = some (.array u₃ (.arr (blocks scans))))) :
    ∃ frame, readNexusRho f = .ok frame ∧ frame.length = scans.length * wl.length ∧
      ∀ s (hs : s < scans.length) k (hk : k < wl.length), ∃ rho, ((scans[s].aoi, wl[k] / 10), rho) ∈ frame ∧
        EllipsometricEq rho (scans[s].psi.getD k 0) (scans[s].delta.getD k 0) := by
  have h := C96_nexus_partial f .none {} rfl scans wl u₁ u₂ u₃ hl ha hfile
  have hl' : ∀ s ∈ scans, s.psi.length = (wl.map (Spec.MeasFile.wavelengthOf (.length 0.1))).length ∧
      s.delta.length = (wl.map (Spec.MeasFile.wavelengthOf (.length 0.1))).length := by simpa using hl
  refine ⟨rhoRows (scanRows (wl.map (Spec.MeasFile.wavelengthOf (.length 0.1))) scans), by simp only [readNexusRho, h], ?_, ?_⟩
  · have h2 := (C96_nexus_rows _ scans hl').1
    simp only [rhoRows, List.length_map] at h2 ⊢
    exact h2
  · intro s hs k hk
    have hsl := hl scans[s] (List.getElem_mem hs)
    have hm := mem_scanRows (wls := wl.map (Spec.MeasFile.wavelengthOf (.length 0.1))) s k hs (by simpa using hk) (by simpa using hsl.1)
      (by simpa using hsl.2)
    have hw : (wl.map (Spec.MeasFile.wavelengthOf (.length 0.1)))[k]'(by simpa using hk) = wl[k] / 10 := by
      simp only [List.getElem_map, Spec.MeasFile.wavelengthOf]
      ring
    rw [hw] at hm
    refine ⟨_, List.mem_map.2 ⟨_, hm, rfl⟩, ?_⟩
    rw [List.getD_eq_getElem?_getD, List.getD_eq_getElem?_getD, List.getElem?_eq_getElem (by omega), List.getElem?_eq_getElem (by omega)]
    exact (C03_calc_rho_spec _ _ _).1 rfl

end PyElli.Importer
