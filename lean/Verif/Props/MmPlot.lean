import Verif.Model.MmPlot
import Verif.Props.FitWindow
import Mathlib.Tactic

/-! # C123: drawings of Mueller matrices -/

namespace Spec.MmPlot

open PyElli PyElli.Fit PyElli.FitWindow PyElli.MmPlot

/-- Element number `i` of a list that is repeated forever. -/
def cyc (l : List String) (i : ℕ) : String := (l[i % l.length]?).getD ""

/-- One curve for each column `c` (number `i`) and each frame (number `j`): the colour tells the column, dashes and name the frame. -/
def expected (colors dashes names columns : List String) (single : Bool) (dfs : List (List ℝ × Frame)) : List Curve :=
  columns.zipIdx.flatMap fun ci => dfs.zipIdx.map fun dj =>
    ⟨ci.1 ++ " " ++ cyc names dj.2, cyc colors ci.2, cyc dashes dj.2, if single then none else some (ci.2 / 4 + 1, ci.2 % 4 + 1), dj.1.1, columnOf dj.1.2 ci.1⟩

end Spec.MmPlot

namespace PyElli.MmPlot

open PyElli PyElli.Fit PyElli.FitWindow Spec.MmPlot

lemma cycled_ok {l : List String} (h : l ≠ []) (i : ℕ) : cycled l i = .ok (cyc l i) := by
  cases l with
  | nil => exact absurd rfl h
  | cons a t => simp [cycled, cyc]

lemma cycled_iff (l : List String) (i : ℕ) : (∃ x, cycled l i = .ok x) ↔ l ≠ [] := by
  cases l with
  | nil => simp [cycled]
  | cons a t => simp [cycled]

lemma innerLoop_ok {dashes names : List String} (hd : dashes ≠ []) (hn : names ≠ []) (single : Bool) (i : ℕ) (hi : single = true ∨ i < 16)
    (melem color : String) : ∀ (dfs : List (List ℝ × Frame)) (j : ℕ), (∀ d ∈ dfs, melem ∈ d.2.columns) →
    innerLoop dashes names single i melem color j dfs = .ok ((dfs.zipIdx j).map fun dj =>
      ⟨melem ++ " " ++ cyc names dj.2, color, cyc dashes dj.2, if single then none else some (i / 4 + 1, i % 4 + 1), dj.1.1, columnOf dj.1.2 melem⟩)
  | [], _, _ => rfl
  | (index, df) :: dfs, j, h => by
    have h1 : melem ∈ df.columns := h (index, df) (by simp)
    have h2 : ¬ (single = false ∧ 4 < i / 4 + 1) := by
      rintro ⟨hs, hc⟩
      rcases hi with hi | hi
      · simp [hs] at hi
      · omega
    rw [innerLoop, cycled_ok hd, cycled_ok hn]
    simp only [h1, not_true_eq_false, if_false, h2]
    rw [innerLoop_ok hd hn single i hi melem color dfs (j + 1) fun d hd' => h d (by simp [hd'])]
    simp [List.zipIdx_cons]

lemma outerLoop_ok {colors dashes names : List String} (hc : colors ≠ []) (hd : dashes ≠ []) (hn : names ≠ []) (single : Bool)
    (dfs : List (List ℝ × Frame)) : ∀ (cs : List String) (i : ℕ), (single = true ∨ i + cs.length ≤ 16) → (∀ c ∈ cs, ∀ d ∈ dfs, c ∈ d.2.columns) →
    outerLoop colors dashes names single dfs i cs = .ok ((cs.zipIdx i).flatMap fun ci => dfs.zipIdx.map fun dj =>
      ⟨ci.1 ++ " " ++ cyc names dj.2, cyc colors ci.2, cyc dashes dj.2, if single then none else some (ci.2 / 4 + 1, ci.2 % 4 + 1), dj.1.1,
        columnOf dj.1.2 ci.1⟩)
  | [], _, _, _ => rfl
  | c :: cs, i, hi, h => by
    have hi' : single = true ∨ i < 16 := by
      rcases hi with hi | hi
      · exact Or.inl hi
      · simp only [List.length_cons] at hi
        exact Or.inr (by omega)
    have hi'' : single = true ∨ (i + 1) + cs.length ≤ 16 := by
      rcases hi with hi | hi
      · exact Or.inl hi
      · simp only [List.length_cons] at hi
        exact Or.inr (by omega)
    rw [outerLoop, cycled_ok hc]
    simp only
    rw [innerLoop_ok hd hn single i hi' c _ dfs 0 (h c (by simp))]
    simp only
    rw [outerLoop_ok hc hd hn single dfs cs (i + 1) hi'' fun c' hc' => h c' (by simp [hc'])]
    simp [List.zipIdx_cons]

lemma innerLoop_conv {dashes names : List String} {single : Bool} {i : ℕ} {melem color : String} : ∀ {dfs : List (List ℝ × Frame)} {j : ℕ} {r},
    innerLoop dashes names single i melem color j dfs = .ok r → dfs ≠ [] →
    dashes ≠ [] ∧ names ≠ [] ∧ (single = true ∨ i < 16) ∧ ∀ d ∈ dfs, melem ∈ d.2.columns
  | [], _, _, _, h0 => absurd rfl h0
  | (index, df) :: dfs, j, r, h, _ => by
    rw [innerLoop] at h
    split at h
    · cases h
    rename_i x hx
    split at h
    · cases h
    rename_i y hy
    split at h
    · cases h
    rename_i hm
    split at h
    · cases h
    rename_i hs
    split at h
    · cases h
    rename_i rest hr
    refine ⟨(cycled_iff _ _).1 ⟨x, hx⟩, (cycled_iff _ _).1 ⟨y, hy⟩, ?_, ?_⟩
    · by_contra hc
      push Not at hc
      exact hs ⟨by simpa using hc.1, by omega⟩
    · intro d hd
      rcases List.mem_cons.1 hd with rfl | hd
      · simpa using hm
      · exact (innerLoop_conv hr (List.ne_nil_of_mem hd)).2.2.2 d hd

lemma outerLoop_conv {colors dashes names : List String} {single : Bool} {dfs : List (List ℝ × Frame)} (h0 : dfs ≠ []) :
    ∀ {cs : List String} {i : ℕ} {r}, outerLoop colors dashes names single dfs i cs = .ok r → cs ≠ [] →
    colors ≠ [] ∧ dashes ≠ [] ∧ names ≠ [] ∧ (single = true ∨ i + cs.length ≤ 16) ∧ ∀ c ∈ cs, ∀ d ∈ dfs, c ∈ d.2.columns
  | [], _, _, _, h => absurd rfl h
  | c :: cs, i, r, h, _ => by
    rw [outerLoop] at h
    split at h
    · cases h
    rename_i x hx
    split at h
    · cases h
    rename_i cur hcur
    split at h
    · cases h
    rename_i rest hrest
    obtain ⟨h1, h2, h3, h4⟩ := innerLoop_conv hcur h0
    refine ⟨(cycled_iff _ _).1 ⟨x, hx⟩, h1, h2, ?_, ?_⟩
    · rcases h3 with h3 | h3
      · exact Or.inl h3
      · cases cs with
        | nil =>
          right
          simp
          omega
        | cons c' cs' =>
          have := (outerLoop_conv h0 hrest (by simp)).2.2.2.1
          rcases this with h | h
          · exact Or.inl h
          · right
            simp only [List.length_cons] at h ⊢
            omega
    · intro c' hc' d hd
      rcases List.mem_cons.1 hc' with rfl | hc'
      · exact h4 d hd
      · exact (outerLoop_conv h0 hrest (List.ne_nil_of_mem hc')).2.2.2.2 c' hc' d hd

/-- The lists in use. -/
def useColors (o : Option (List String)) : List String := o.getD stdColors
def useDashes (o : Option (List String)) : List String := o.getD ["solid", "dash", "dot"]
def useNames (o : Option (List String)) : List String := o.getD ["", "theory"]

/-- C123: a drawing succeeds exactly if there is a frame and (unless it has no columns) the lists of colours, dashes and names are not empty, every
frame has the columns of the first one and a grid is not asked for more than its 16 places; then it shows, for each column and each frame, one curve
of the values over the index, in the colour of the column and the dashes of the frame, at the place of the column. -/
theorem C123_curves_partial (d0 : List ℝ × Frame) (ds : List (List ℝ × Frame)) (colors dashes names : Option (List String)) (single full sharex : Bool) :
    ((∃ f, plotMmatrixFull (d0 :: ds) colors dashes names single full sharex = .ok f) ↔
      (d0.2.columns = [] ∨ (useColors colors ≠ [] ∧ useDashes dashes ≠ [] ∧ useNames names ≠ [] ∧ (single = true ∨ d0.2.columns.length ≤ 16) ∧
        ∀ c ∈ d0.2.columns, ∀ d ∈ ds, c ∈ d.2.columns))) ∧
    (∀ f, plotMmatrixFull (d0 :: ds) colors dashes names single full sharex = .ok f →
      f.curves = expected (useColors colors) (useDashes dashes) (useNames names) d0.2.columns single (d0 :: ds) ∧ f.sharex = sharex ∧
      (single = false → f.fullScale = full)) ∧
    plotMmatrixFull [] colors dashes names single full sharex = .error .indexError := by
  have key : (d0.2.columns = [] ∨ (useColors colors ≠ [] ∧ useDashes dashes ≠ [] ∧ useNames names ≠ [] ∧ (single = true ∨ d0.2.columns.length ≤ 16) ∧
        ∀ c ∈ d0.2.columns, ∀ d ∈ ds, c ∈ d.2.columns)) →
      outerLoop (useColors colors) (useDashes dashes) (useNames names) single (d0 :: ds) 0 d0.2.columns =
        .ok (expected (useColors colors) (useDashes dashes) (useNames names) d0.2.columns single (d0 :: ds)) := by
    rintro (h | ⟨h1, h2, h3, h4, h5⟩)
    · rw [h]
      rfl
    · rw [outerLoop_ok h1 h2 h3 single (d0 :: ds) d0.2.columns 0 (by simpa using h4) ?_]
      · rfl
      · intro c hc d hd
        rcases List.mem_cons.1 hd with rfl | hd
        · exact hc
        · exact h5 c hc d hd
  have conv : ∀ f, plotMmatrixFull (d0 :: ds) colors dashes names single full sharex = .ok f →
      ∃ cs, outerLoop (useColors colors) (useDashes dashes) (useNames names) single (d0 :: ds) 0 d0.2.columns = .ok cs ∧
        f = ⟨cs, if single then false else if full then true else false, sharex⟩ := by
    intro f h
    unfold plotMmatrixFull at h
    simp only at h
    split at h
    · cases h
    · rename_i cs hcs
      cases h
      exact ⟨cs, hcs, rfl⟩
  have cond : ∀ cs, outerLoop (useColors colors) (useDashes dashes) (useNames names) single (d0 :: ds) 0 d0.2.columns = .ok cs →
      (d0.2.columns = [] ∨ (useColors colors ≠ [] ∧ useDashes dashes ≠ [] ∧ useNames names ≠ [] ∧ (single = true ∨ d0.2.columns.length ≤ 16) ∧
        ∀ c ∈ d0.2.columns, ∀ d ∈ ds, c ∈ d.2.columns)) := by
    intro cs h
    by_cases he : d0.2.columns = []
    · exact Or.inl he
    · obtain ⟨h1, h2, h3, h4, h5⟩ := outerLoop_conv (by simp) h he
      exact Or.inr ⟨h1, h2, h3, by simpa using h4, fun c hc d hd => h5 c hc d (by simp [hd])⟩
  refine ⟨⟨?_, ?_⟩, ?_, rfl⟩
  · rintro ⟨f, hf⟩
    obtain ⟨cs, hcs, -⟩ := conv f hf
    exact cond cs hcs
  · intro h
    have := key h
    refine ⟨⟨expected (useColors colors) (useDashes dashes) (useNames names) d0.2.columns single (d0 :: ds),
      if single then false else if full then true else false, sharex⟩, ?_⟩
    unfold plotMmatrixFull
    simp only
    unfold useColors useDashes useNames at this
    rw [this]
    rfl
  · intro f hf
    obtain ⟨cs, hcs, rfl⟩ := conv f hf
    have := key (cond cs hcs)
    rw [this] at hcs
    cases hcs
    refine ⟨rfl, rfl, ?_⟩
    rintro rfl
    cases full <;> rfl

/-- C123 fails for `full_scale` in a single plot: the range of the y axis is never set. -/
theorem C123_full_scale_refuted (dfs : List (List ℝ × Frame)) (colors dashes names : Option (List String)) (full sharex : Bool) (f : Figure)
    (h : plotMmatrixFull dfs colors dashes names true full sharex = .ok f) : f.fullScale = false := by
  unfold plotMmatrixFull at h
  simp only [if_true] at h
  split at h
  · cases h
  · split at h
    · cases h
    · cases h
      rfl

/-- C123 fails for the names of three frames: with the standard names the third frame has the names of the first. -/
theorem C123_names_refuted (c : String) (x1 x2 x3 : List ℝ) (r1 r2 r3 : List (List ℝ)) : ∃ f, 
    plotMmatrixFull [(x1, ⟨[c], r1⟩), (x2, ⟨[c], r2⟩), (x3, ⟨[c], r3⟩)] none none none true false false = .ok f ∧
    f.curves.map Curve.name = [c ++ " ", c ++ " theory", c ++ " "] := by
  obtain ⟨⟨-, h1⟩, h2, -⟩ := C123_curves_partial (x1, ⟨[c], r1⟩) [(x2, ⟨[c], r2⟩), (x3, ⟨[c], r3⟩)] none none none true false false
  obtain ⟨f, hf⟩ := h1 (Or.inr (by simp [useColors, useDashes, useNames, stdColors]))
  refine ⟨f, hf, ?_⟩
  rw [(h2 f hf).1]
  simp [expected, cyc, useNames, String.append_assoc]

/-- C123: `FitMuellerMatrix.plot` draws measured and fitted elements, `plot_residual` fitted minus measured, at the measured wavelengths. -/
theorem C123_fit_partial {s : MmSetup} {measured : List (ℝ × M4)} (h : MmDescribes s measured) (o : Options) (fitted : Dict ℝ)
    (single sharex full : Option Bool) :
    (∃ f, mmPlot s o fitted single sharex full = .ok f ∧ f.sharex = sharex.getD o.sharex ∧
      (single.getD o.single = false → f.fullScale = full.getD o.fullScale) ∧
      f.curves.map (fun c => (c.name, c.x, c.y)) = elements.flatMap fun e =>
        [(Spec.Fit.label e.1 e.2 ++ " ", measured.map Prod.fst, measured.map fun m => some (m.2 e.1 e.2)),
         (Spec.Fit.label e.1 e.2 ++ " theory", measured.map Prod.fst, (s.model s.index fitted).map fun m => some (m e.1 e.2))]) ∧
    (∃ f, mmPlotResidual s o fitted single sharex full = .ok f ∧ f.sharex = sharex.getD o.sharex ∧
      (single.getD o.single = false → f.fullScale = full.getD o.fullScale) ∧
      f.curves.map (fun c => (c.name, c.x, c.y)) = elements.map fun e =>
        (Spec.Fit.label e.1 e.2 ++ " ", measured.map Prod.fst,
          List.zipWith (fun m c => some (c e.1 e.2 - m.2 e.1 e.2)) measured (s.model s.index fitted))) := by
  have hl := h.len fitted
  have hfr := mmToFrame_eq s measured h fitted
  have hx : s.index = measured.map Prod.fst := h.index
  have hcols : spectrarayColumns.length = 16 := rfl
  have flat : ∀ {α : Type} (G : (Fin 4 × Fin 4) × ℕ → List α) (g' : Fin 4 × Fin 4 → List α), (∀ e n, G (e, n) = g' e) → ∀ n,
      (elements.zipIdx n).flatMap G = elements.flatMap g' := by
    intro α G g' hg
    generalize elements = l
    induction l with
    | nil => intro n; rfl
    | cons a l ih =>
      intro n
      rw [List.zipIdx_cons, List.flatMap_cons, List.flatMap_cons, hg, ih]
  constructor
  · obtain ⟨⟨-, h1⟩, h2, -⟩ := C123_curves_partial (s.index, s.exp) [(s.index, ⟨spectrarayColumns, (s.model s.index fitted).map row16⟩)] none none none
      (single.getD o.single) (full.getD o.fullScale) (sharex.getD o.sharex)
    obtain ⟨f, hf⟩ := h1 (Or.inr ⟨by simp [useColors, stdColors], by simp [useDashes], by simp [useNames], Or.inr (by rw [h.exp]; exact hcols.le),
      by rw [h.exp]; simp⟩)
    obtain ⟨e1, e2, e3⟩ := h2 f hf
    refine ⟨f, ?_, e2, e3, ?_⟩
    · unfold mmPlot
      rw [hfr]
      exact hf
    · rw [e1, expected, h.exp]
      simp only
      rw [columns_eq, List.zipIdx_map, List.flatMap_map, List.map_flatMap]
      refine flat _ _ (fun e n => ?_) 0
      have c1 := columnOf_eq (measured.map Prod.snd) e.1 e.2
      have c2 := columnOf_eq (s.model s.index fitted) e.1 e.2
      simp only [List.map_map, Function.comp_def] at c1
      rw [columns_eq] at c1 c2
      simp [List.zipIdx_cons, cyc, useNames, String.append_assoc, hx] at c1 c2 ⊢
      exact ⟨c1, c2⟩
  · obtain ⟨⟨-, h1⟩, h2, -⟩ := C123_curves_partial (s.index, frameSub ⟨spectrarayColumns, (s.model s.index fitted).map row16⟩ s.exp) [] none none none
      (single.getD o.single) (full.getD o.fullScale) (sharex.getD o.sharex)
    obtain ⟨f, hf⟩ := h1 (Or.inr ⟨by simp [useColors, stdColors], by simp [useDashes], by simp [useNames], Or.inr hcols.le, by simp⟩)
    obtain ⟨e1, e2, e3⟩ := h2 f hf
    refine ⟨f, ?_, e2, e3, ?_⟩
    · unfold mmPlotResidual
      rw [hfr]
      exact hf
    · have hsub : frameSub ⟨spectrarayColumns, (s.model s.index fitted).map row16⟩ s.exp =
          ⟨spectrarayColumns, (List.zipWith (fun m c => c - m.2) measured (s.model s.index fitted)).map row16⟩ := by
        rw [h.exp]
        simp only [frameSub, frameSub_eq]
      rw [e1, expected, hsub]
      simp only
      rw [columns_eq, List.zipIdx_map, List.flatMap_map, List.map_flatMap]
      have hm : ∀ l : List (Fin 4 × Fin 4), ∀ {β : Type} (g : Fin 4 × Fin 4 → β), l.map g = l.flatMap fun e => [g e] := by
        intro l β g
        exact List.map_eq_flatMap
      refine (flat _ (fun e => [(Spec.Fit.label e.1 e.2 ++ " ", measured.map Prod.fst,
        List.zipWith (fun m c => some (c e.1 e.2 - m.2 e.1 e.2)) measured (s.model s.index fitted))]) (fun e n => ?_) 0).trans (hm _ _).symm
      have c2 := columnOf_eq (List.zipWith (fun m c => c - m.2) measured (s.model s.index fitted)) e.1 e.2
      rw [columns_eq] at c2
      simp [List.zipIdx_cons, cyc, useNames, hx] at c2 ⊢
      rw [c2]

/-- Two frames with the same columns in a grid; a third with another column is refused. -/
example : ∃ f, plotMmatrixFull [([400], ⟨["M11", "M12"], [[1, 0]]⟩), ([400], ⟨["M12", "M11"], [[0, 1]]⟩)] none none none false true false = .ok f ∧
    f.fullScale = true ∧ f.curves.length = 4 := by
  obtain ⟨⟨-, h1⟩, h2, -⟩ := C123_curves_partial ([400], ⟨["M11", "M12"], [[1, 0]]⟩) [([400], ⟨["M12", "M11"], [[0, 1]]⟩)] none none none false true false
  obtain ⟨f, hf⟩ := h1 (Or.inr (by simp [useColors, useDashes, useNames, stdColors]))
  refine ⟨f, hf, (h2 f hf).2.2 rfl, ?_⟩
  rw [(h2 f hf).1]
  simp [expected]

example : ¬ ∃ f, plotMmatrixFull [([400], ⟨["M11"], [[1]]⟩), ([400], ⟨["m11"], [[0]]⟩)] none none none true false false = .ok f := by
  obtain ⟨⟨h1, -⟩, -, -⟩ := C123_curves_partial ([400], ⟨["M11"], [[1]]⟩) [([400], ⟨["m11"], [[0]]⟩)] none none none true false false
  intro h
  rcases h1 h with h | ⟨-, -, -, -, h⟩
  · simp at h
  · simp at h

end PyElli.MmPlot
