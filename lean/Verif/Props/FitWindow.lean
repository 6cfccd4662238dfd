import Verif.Lemmas.FitWindow
import Verif.Spec.FitWindow
import Verif.Spec.Fit
import Verif.Props.Fit

/-! # C100, C101, C102: the windows of the fitting classes -/

namespace PyElli.FitWindow

open PyElli PyElli.Hist PyElli.Fit Spec.FitWindow

variable {F : Type}

lemma get_of_mem (d : Dict ℝ) (hn : (Dict.keys d).Nodup) : ∀ p ∈ d, Dict.get d p.1 = some p.2 := by
  induction d with
  | nil => simp
  | cons q d ih =>
    simp only [Dict.keys, List.map_cons, List.nodup_cons] at hn
    intro p hp
    rcases List.mem_cons.1 hp with rfl | hp
    · simp [Dict.get]
    · have : q.1 ≠ p.1 := fun e => hn.1 (e ▸ List.mem_map_of_mem hp)
      simp [Dict.get, this, ih hn.2 p hp]

lemma widgets_aux (box : String → ℝ → ℝ) (full : Dict ℝ) : ∀ d1 d2 : Dict ℝ, Dict.keys d1 = Dict.keys d2 →
    (∀ p ∈ d2, Dict.get full p.1 = some p.2) →
    (d1.map fun p => match Dict.get full p.1 with
      | some v => (p.1, box p.1 v)
      | none => p) = d2.map fun p => (p.1, box p.1 p.2) := by
  intro d1
  induction d1 with
  | nil =>
    intro d2 hk _
    cases d2 with
    | nil => rfl
    | cons => cases hk
  | cons p d1 ih =>
    intro d2 hk hg
    cases d2 with
    | nil => cases hk
    | cons q d2 =>
      simp only [Dict.keys, List.map_cons, List.cons.injEq] at hk
      simp only [List.map_cons]
      rw [ih d2 hk.2 fun r hr => hg r (by simp [hr]), hk.1, hg q (by simp)]

lemma set_initBoxes (c : Class F) (hb : ∀ k x, c.box k (c.box k x) = c.box k x) (d : Dict ℝ) (k : String) (x : ℝ) :
    Dict.set (c.initBoxes d) k (c.box k x) = c.initBoxes (Dict.set d k (c.box k x)) := by
  induction d with
  | nil => simp [Class.initBoxes, Dict.set, hb]
  | cons p d ih =>
    unfold Class.initBoxes at ih ⊢
    by_cases hk : p.1 = k
    · subst hk
      simp [Dict.set, hb]
    · simp [Dict.set, hk, ih]

lemma get_initBoxes (c : Class F) (d : Dict ℝ) (k : String) : Dict.get (c.initBoxes d) k = (Dict.get d k).map (c.box k) := by
  induction d with
  | nil => rfl
  | cons p d ih =>
    unfold Class.initBoxes at ih ⊢
    by_cases hk : p.1 = k
    · subst hk
      simp [Dict.get]
    · simp [Dict.get, hk, ih]

lemma get_isSome (d : Dict ℝ) (k : String) : (Dict.get d k).isSome ↔ k ∈ Dict.keys d := by
  induction d with
  | nil => simp [Dict.get, Dict.keys]
  | cons p d ih =>
    by_cases hk : p.1 = k
    · simp [Dict.get, Dict.keys, hk]
    · simp only [Dict.get, hk, if_false, ih, Dict.keys, List.map_cons, List.mem_cons]
      exact ⟨Or.inr, fun h => h.resolve_left fun e => hk e.symm⟩

lemma get_view (heap : ℕ → ℝ) (d : Dict ℕ) (k : String) : Dict.get (Hist.view heap d) k = (Dict.get d k).map heap := by
  induction d with
  | nil => rfl
  | cons p d ih =>
    unfold Hist.view at ih ⊢
    by_cases hk : p.1 = k
    · simp [Dict.get, hk]
    · simp [Dict.get, hk, ih]

/-- A window in good order: objects not shared, every box shows its parameter, and the display satisfies `P` for the present values. -/
structure Ok (c : Class F) (K : List String) (Pre : F → Prop) (P : Dict ℝ → F → Prop) (w : Window F) : Prop where
  good : Good K w.gui
  sync : w.boxes = c.initBoxes (values w)
  pre : Pre w.view
  shows : P (values w) w.view

lemma values_keys {K : List String} {w : Window F} (h : Good K w.gui) : Dict.keys (values w) = K := (view_keys _ _).trans h.curK

lemma sync_updateWidgets (c : Class F) {K : List String} (w : Window F) (h : Good K w.gui) (hb : Dict.keys w.boxes = K) :
    (c.updateWidgets w).boxes = c.initBoxes (values w) :=
  widgets_aux c.box (values w) w.boxes (values w) (hb.trans (values_keys h).symm)
    (get_of_mem _ ((values_keys h).symm ▸ h.nodup))

lemma initBoxes_keys (c : Class F) (d : Dict ℝ) : Dict.keys (c.initBoxes d) = Dict.keys d := by
  simp [Class.initBoxes, Dict.keys, Function.comp_def]

section

variable {c : Class F} {K : List String} {Pre : F → Prop} {P : Dict ℝ → F → Prop}

lemma ok_updateSelection (hr : ∀ p v, Pre v → ∃ v', c.refresh p v = .ok v' ∧ Pre v' ∧ P p v') (w : Window F) (hg : Good K w.gui)
    (hs : w.boxes = c.initBoxes (values w)) (hp : Pre w.view) : ∃ w', c.updateSelection w = .ok w' ∧ Ok c K Pre P w' := by
  obtain ⟨v, h1, h2, h3⟩ := hr (values w) w.view hp
  refine ⟨{ w with view := v }, ?_, hg, hs, h2, h3⟩
  unfold Class.updateSelection
  rw [h1]

lemma ok_handler (hr : ∀ p v, Pre v → ∃ v', c.refresh p v = .ok v' ∧ Pre v' ∧ P p v') (w : Window F) (g : Gui ℝ) (hg : Good K g)
    (hb : Dict.keys w.boxes = K) (hp : Pre w.view) :
    ∃ w', c.updateSelection (c.updateWidgets { w with gui := g }) = .ok w' ∧ Ok c K Pre P w' ∧ w'.gui = g := by
  obtain ⟨v, h1, h2, h3⟩ := hr (values { w with gui := g }) w.view hp
  refine ⟨{ c.updateWidgets { w with gui := g } with view := v }, ?_, ⟨hg, ?_, h2, h3⟩, rfl⟩
  · unfold Class.updateSelection
    simp only [Class.updateWidgets, values] at h1 ⊢
    rw [h1]
  · exact sync_updateWidgets c { w with gui := g } hg hb

/-- Every event succeeds and leaves the window in good order. -/
lemma ok_event (hb : ∀ k x, c.box k (c.box k x) = c.box k x)
    (hr : ∀ p v, Pre v → ∃ v', c.refresh p v = .ok v' ∧ Pre v' ∧ P p v') (w : Window F) (h : Ok c K Pre P w) (e : Event F)
    (ha : ∀ f, e = .choose f → ∀ v, Pre v → Pre (f v)) : ∃ w', c.event w e = .ok w' ∧ Ok c K Pre P w' := by
  have hkeys : Dict.keys w.boxes = K := by rw [h.sync, initBoxes_keys, values_keys h.good]
  cases e with
  | type k x =>
    simp only [Class.event]
    cases hg : Dict.get w.boxes k with
    | none => exact ⟨w, rfl, h⟩
    | some old =>
      simp only
      by_cases hx : c.box k x = old
      · rw [if_pos hx]; exact ⟨w, rfl, h⟩
      · rw [if_neg hx]
        have hkK : k ∈ K := by
          rw [← hkeys]
          exact (get_isSome _ _).1 (by rw [hg]; rfl)
        have hcur : (Dict.get w.gui.params.cur k).isSome := by
          have := (get_isSome (values w) k).2 (by rw [values_keys h.good]; exact hkK)
          rw [values, get_view] at this
          simpa using this
        obtain ⟨a, ha'⟩ := Option.isSome_iff_exists.1 hcur
        rw [ha']
        simp only
        apply ok_updateSelection hr _ (good_edit h.good k _)
        · have hv := values_edit h.good k (c.box k x) hkK
          show Dict.set w.boxes k (c.box k x) = c.initBoxes (curView (w.gui.edit k (c.box k x)).params)
          rw [hv, ← set_initBoxes c hb, h.sync]
          rfl
        · exact h.pre
  | fit f =>
    obtain ⟨w', h1, h2, -⟩ := ok_handler hr w _ (good_fit h.good f) hkeys h.pre
    exact ⟨w', h1, h2⟩
  | undo =>
    obtain ⟨w', h1, h2, -⟩ := ok_handler hr w _ (good_undo h.good) hkeys h.pre
    exact ⟨w', h1, h2⟩
  | redo =>
    simp only [Class.event]
    cases hl : w.gui.last with
    | none => exact ok_updateSelection hr w h.good h.sync h.pre
    | some l =>
      obtain ⟨w', h1, h2, -⟩ := ok_handler hr w _ (good_redo h.good) hkeys h.pre
      exact ⟨w', h1, h2⟩
  | setInitial =>
    obtain ⟨w', h1, h2, -⟩ := ok_handler hr w _ (good_reset h.good) hkeys h.pre
    exact ⟨w', h1, h2⟩
  | choose f => exact ok_updateSelection hr _ h.good h.sync (ha f rfl _ h.pre)

lemma ok_run (hb : ∀ k x, c.box k (c.box k x) = c.box k x)
    (hr : ∀ p v, Pre v → ∃ v', c.refresh p v = .ok v' ∧ Pre v' ∧ P p v') (es : List (Event F)) :
    ∀ w, Ok c K Pre P w → (∀ f, Event.choose f ∈ es → ∀ v, Pre v → Pre (f v)) → ∃ w', c.run w es = .ok w' ∧ Ok c K Pre P w' := by
  induction es with
  | nil => exact fun w h _ => ⟨w, rfl, h⟩
  | cons e es ih =>
    intro w h ha
    obtain ⟨w1, h1, h2⟩ := ok_event hb hr w h e fun f hf => ha f (by simp [hf])
    obtain ⟨w2, h3, h4⟩ := ih w1 h2 fun f hf => ha f (by simp [hf])
    refine ⟨w2, ?_, h4⟩
    simp only [Class.run, h1]
    exact h3

end

/-! ## Psi and delta -/

/-- A measurement given by its rows, and a model that gives one value for each wavelength. The columns may be in either order. -/
structure Describes (s : RhoSetup) (measured : List (ℝ × Measured)) (sim : Dict ℝ → List Modelled) : Prop where
  index : s.index = measured.map Prod.fst
  cols : s.cols = [("Ψ", measured.map fun m => m.2.1), ("Δ", measured.map fun m => m.2.2)] ∨
    s.cols = [("Δ", measured.map fun m => m.2.2), ("Ψ", measured.map fun m => m.2.1)]
  len : ∀ p, (sim p).length = measured.length
  model : ∀ p, s.model s.index p = ⟨(sim p).map fun c => c.1, (sim p).map fun c => c.2.1, (sim p).map fun c => c.2.2⟩

/-- The display: the quantity selected, its curves at the present parameters. -/
def Shows (s : RhoSetup) (measured : List (ℝ × Measured)) (sim : Dict ℝ → List Modelled) (p : Dict ℝ) (v : RhoView) : Prop :=
  ∃ q : Quantity, v.selected = q.name ∧ v.title = q.title ∧ v.traces.length = 4 ∧
    ∀ cv ∈ q.curves s.angle, ∃ t ∈ v.traces, t.name = cv.1 ∧ t.points = points cv.2 measured (sim p)

/-- The traces have the wavelengths of the measurement (twice, see `concatTraces`), and the selector has one of its values. -/
def RhoPre (s : RhoSetup) (v : RhoView) : Prop :=
  (∃ q : Quantity, v.selected = q.name) ∧ v.traces.length = 4 ∧ ∀ t ∈ v.traces, t.x = s.index ++ s.index

lemma points_of (name : String) (f : Measured → Modelled → Option ℝ) (measured : List (ℝ × Measured)) : ∀ (model : List Modelled) (more : List ℝ),
    model.length = measured.length →
    Trace.points ⟨name, measured.map Prod.fst ++ more, List.zipWith (fun m c => f m.2 c) measured model⟩ = points f measured model := by
  induction measured with
  | nil =>
    intro model more h
    cases model <;> simp [Trace.points, points] at *
  | cons m measured ih =>
    intro model more h
    cases model with
    | nil => simp at h
    | cons c model =>
      have := ih model more (by simpa using h)
      simp only [Trace.points, points, List.map_cons, List.cons_append, List.zipWith_cons_cons, List.zip_cons_cons, List.filterMap_cons, id]
        at this ⊢
      cases hf : f m.2 c with
      | none => simpa [hf] using this
      | some v => simpa [hf] using this

lemma zipWith_left {α β γ : Type} (g : α → γ) (l : List α) (r : List β) (h : r.length = l.length) :
    List.zipWith (fun a _ => g a) l r = l.map g := by
  induction l generalizing r with
  | nil => simp
  | cons a l ih => cases r with
    | nil => simp at h
    | cons b r => simp [ih r (by simpa using h)]

lemma zipWith_right {α β γ : Type} (g : β → γ) (l : List α) (r : List β) (h : r.length = l.length) :
    List.zipWith (fun _ b => g b) l r = r.map g := by
  induction l generalizing r with
  | nil => cases r <;> simp at *
  | cons a l ih => cases r with
    | nil => simp at h
    | cons b r => simp [ih r (by simpa using h)]

lemma calcRho_eq (psi delta : ℝ) : calcRho psi delta = ratio psi delta := (C03_calc_rho_spec _ _ _).2 rfl

lemma pseudoEps_eq (z : ℂ) (angle : ℝ) : pseudoEps z angle = pseudoDiel angle z := by
  have : 1 + z = 0 ↔ z = -1 := ⟨fun h => by linear_combination h, fun h => by rw [h]; ring⟩
  unfold pseudoEps pseudoDiel
  simp only [this]
  split_ifs
  · rfl
  · congr 1
    ring

variable {s : RhoSetup} {measured : List (ℝ × Measured)} {sim : Dict ℝ → List Modelled}

lemma loc_psi (h : Describes s measured sim) : s.loc "Ψ" = .ok (measured.map fun m => m.2.1) := by
  rcases h.cols with h | h <;> simp [RhoSetup.loc, h, Dict.get]

lemma loc_delta (h : Describes s measured sim) : s.loc "Δ" = .ok (measured.map fun m => m.2.2) := by
  rcases h.cols with h | h <;> simp [RhoSetup.loc, h, Dict.get]

lemma expRho_eq (h : Describes s measured sim) : s.expRho = .ok (measured.map fun m => ratio m.2.1 m.2.2) := by
  unfold RhoSetup.expRho
  rw [loc_psi h, loc_delta h]
  simp only
  congr 1
  clear h
  induction measured with
  | nil => rfl
  | cons m measured ih => simp [ih, calcRho_eq]

/-- The values handed to the four traces are those of the curves. -/
lemma update_eq (h : Describes s measured sim) (q : Quantity) (p : Dict ℝ) :
    ∃ f, updateDict s q.name = some f ∧ f p = .ok (q.title, (q.curves s.angle).map fun cv =>
      (cv.1, List.zipWith (fun m c => cv.2 m.2 c) measured (sim p))) := by
  have hl := h.len p
  have hm := h.model p
  cases q with
  | psiDelta =>
    refine ⟨_, rfl, ?_⟩
    simp only [setPsiDelta, loc_psi h, loc_delta h, hm, Quantity.curves, Quantity.title, List.map_cons, List.map_nil, List.map_map]
    rw [zipWith_left (fun m : ℝ × Measured => some m.2.1) _ _ hl, zipWith_left (fun m : ℝ × Measured => some m.2.2) _ _ hl,
      zipWith_right (fun c : Modelled => some c.1) _ _ hl, zipWith_right (fun c : Modelled => some c.2.1) _ _ hl]
    rfl
  | rho =>
    refine ⟨setRho s, by simp [updateDict, Quantity.name], ?_⟩
    simp only [setRho, expRho_eq h, hm, Quantity.curves, Quantity.title, List.map_cons, List.map_nil, List.map_map]
    rw [zipWith_left (fun m : ℝ × Measured => some (ratio m.2.1 m.2.2).re) _ _ hl,
      zipWith_left (fun m : ℝ × Measured => some (ratio m.2.1 m.2.2).im) _ _ hl,
      zipWith_right (fun c : Modelled => some c.2.2.re) _ _ hl, zipWith_right (fun c : Modelled => some c.2.2.im) _ _ hl]
    rfl
  | pseudo =>
    refine ⟨setPseudoDiel s, by simp [updateDict, Quantity.name], ?_⟩
    have hlen : ((sim p).map fun c => c.2.2).length = s.index.length := by rw [h.index]; simpa using hl
    simp only [setPseudoDiel, expRho_eq h, hm, Quantity.curves, Quantity.title, List.map_cons, List.map_nil]
    rw [if_neg (not_not.2 hlen)]
    simp only [pseudoColumns, pseudoEps_eq, List.map_map]
    rw [zipWith_left (fun m : ℝ × Measured => (pseudoDiel s.angle (ratio m.2.1 m.2.2)).map Complex.re) _ _ hl,
      zipWith_left (fun m : ℝ × Measured => (pseudoDiel s.angle (ratio m.2.1 m.2.2)).map Complex.im) _ _ hl,
      zipWith_right (fun c : Modelled => (pseudoDiel s.angle c.2.2).map Complex.re) _ _ hl,
      zipWith_right (fun c : Modelled => (pseudoDiel s.angle c.2.2).map Complex.im) _ _ hl]
    rfl
  | residual =>
    refine ⟨setResidual s, by simp [updateDict, Quantity.name], ?_⟩
    have hsub : ∀ (g : ℝ × Measured → ℝ) (k : Modelled → ℝ), sub (measured.map g) ((sim p).map k) =
        .ok (List.zipWith (fun m c => some (g m - k c)) measured (sim p)) := by
      intro g k
      unfold sub
      rw [if_pos (by simpa using hl.symm), List.zipWith_map]
    simp only [setResidual, expRho_eq h, loc_psi h, loc_delta h, hm, Quantity.curves, Quantity.title, List.map_cons, List.map_nil, List.map_map]
    have h1 := hsub (fun m => m.2.1) fun c => c.1
    have h2 := hsub (fun m => m.2.2) fun c => c.2.1
    have h3 := hsub (fun m => (ratio m.2.1 m.2.2).re) fun c => c.2.2.re
    have h4 := hsub (fun m => (ratio m.2.1 m.2.2).im) fun c => c.2.2.im
    simp only [Function.comp_def]
    rw [h1, h2, h3, h4]

lemma assign_spec (x : List ℝ) (us : List (String × List (Option ℝ))) : ∀ ts : List Trace, ts.length = us.length → (∀ t ∈ ts, t.x = x) →
    assign ts us = .ok (us.map fun u => ⟨u.1, x, u.2⟩) := by
  induction us with
  | nil =>
    intro ts h _
    have : ts = [] := by simpa using h
    subst this
    rfl
  | cons u us ih =>
    intro ts h hx
    cases ts with
    | nil => simp at h
    | cons t ts =>
      unfold assign
      rw [ih ts (by simpa using h) fun t ht => hx t (by simp [ht])]
      simp only [List.map_cons]
      rw [← hx t (by simp)]

/-- `update_selection` shows the selected quantity at the given parameters. -/
lemma refresh_shows (h : Describes s measured sim) (p : Dict ℝ) (v : RhoView) (hv : RhoPre s v) :
    ∃ v', rhoRefresh s p v = .ok v' ∧ RhoPre s v' ∧ Shows s measured sim p v' := by
  obtain ⟨⟨q, hq⟩, hl, hx⟩ := hv
  obtain ⟨f, h1, h2⟩ := update_eq h q p
  have hc : (q.curves s.angle).length = 4 := by cases q <;> rfl
  have ha := assign_spec (s.index ++ s.index) ((q.curves s.angle).map fun cv =>
      (cv.1, List.zipWith (fun m c => cv.2 m.2 c) measured (sim p))) v.traces (by simpa [hc] using hl) hx
  refine ⟨{ v with title := q.title, traces := (((q.curves s.angle).map fun cv => (cv.1, List.zipWith (fun m c => cv.2 m.2 c) measured (sim p))).map
    fun u => ⟨u.1, s.index ++ s.index, u.2⟩) }, ?_, ⟨⟨q, ?_⟩, ?_, ?_⟩, ⟨q, ?_, ?_, ?_, ?_⟩⟩
  · unfold rhoRefresh
    rw [hq, h1]
    simp only [h2, ha]
  · exact hq
  · simp [hc]
  · intro t ht
    obtain ⟨u, -, rfl⟩ := List.mem_map.1 ht
    rfl
  · exact hq
  · rfl
  · simp [hc]
  · intro cv hcv
    refine ⟨⟨cv.1, s.index ++ s.index, List.zipWith (fun m c => cv.2 m.2 c) measured (sim p)⟩, ?_, rfl, ?_⟩
    · simp only [List.map_map, List.mem_map]
      exact ⟨cv, hcv, rfl⟩
    · rw [h.index]
      exact points_of _ _ _ _ _ (h.len p)

lemma points_measured (name : String) (l : List (ℝ × Measured)) (g : Measured → ℝ) (more : List ℝ) (hm : more.length = l.length) (model : List Modelled)
    (hl : model.length = l.length) :
    Trace.points ⟨name, l.map Prod.fst ++ more, (l.map fun m => g m.2).map some ++ (l.map Prod.fst).map fun _ => none⟩ =
      points (fun m _ => some (g m)) l model := by
  unfold Trace.points
  rw [List.zip_append (by simp), List.filterMap_append]
  have h1 : (more.zip ((l.map Prod.fst).map fun _ => (none : Option ℝ))).filterMap (fun p => p.2.map fun v => (p.1, v)) = [] := by
    rw [List.filterMap_eq_nil_iff]
    intro p hp
    have := List.of_mem_zip hp
    obtain ⟨a, -, ha⟩ := List.mem_map.1 this.2
    rw [← ha]
    rfl
  rw [h1, List.append_nil]
  have := points_of name (fun m _ => some (g m)) l model [] hl
  rw [← this]
  unfold Trace.points
  rw [zipWith_left (fun m : ℝ × Measured => some (g m.2)) _ _ hl]
  simp [Function.comp_def]

lemma points_calc (name : String) (l : List (ℝ × Measured)) (g : Modelled → ℝ) (model : List Modelled) (hl : model.length = l.length) :
    Trace.points ⟨name, l.map Prod.fst ++ l.map Prod.fst, ((l.map Prod.fst).map fun _ => none) ++ (model.map g).map some⟩ =
      points (fun _ c => some (g c)) l model := by
  unfold Trace.points
  rw [List.zip_append (by simp), List.filterMap_append]
  have h1 : ((l.map Prod.fst).zip ((l.map Prod.fst).map fun _ => (none : Option ℝ))).filterMap (fun p => p.2.map fun v => (p.1, v)) = [] := by
    rw [List.filterMap_eq_nil_iff]
    intro p hp
    have := List.of_mem_zip hp
    obtain ⟨a, -, ha⟩ := List.mem_map.1 this.2
    rw [← ha]
    rfl
  rw [h1, List.nil_append]
  have := points_of name (fun _ c => some (g c)) l model [] hl
  rw [← this]
  unfold Trace.points
  rw [zipWith_right (fun c : Modelled => some (g c)) _ _ hl]
  simp [Function.comp_def]

/-- The traces of measured and calculated columns in one frame, as they are drawn. -/
lemma concat_shows (h : Describes s measured sim) (p : Dict ℝ) (n1 n2 : String) :
    (concatTraces s.index s.cols [(n1, (sim p).map fun c => c.1), (n2, (sim p).map fun c => c.2.1)]).length = 4 ∧
    (∀ t ∈ concatTraces s.index s.cols [(n1, (sim p).map fun c => c.1), (n2, (sim p).map fun c => c.2.1)], t.x = s.index ++ s.index) ∧
    ∀ cv ∈ ([("Ψ", fun m _ => some m.1), ("Δ", fun m _ => some m.2), (n1, fun _ c => some c.1), (n2, fun _ c => some c.2.1)] :
        List (String × (Measured → Modelled → Option ℝ))),
      ∃ t ∈ concatTraces s.index s.cols [(n1, (sim p).map fun c => c.1), (n2, (sim p).map fun c => c.2.1)],
        t.name = cv.1 ∧ t.points = points cv.2 measured (sim p) := by
  have hl := h.len p
  have e1 := fun name => points_measured name measured (fun m => m.1) (measured.map Prod.fst) (by simp) (sim p) hl
  have e2 := fun name => points_measured name measured (fun m => m.2) (measured.map Prod.fst) (by simp) (sim p) hl
  have e3 := fun name => points_calc name measured (fun c => c.1) (sim p) hl
  have e4 := fun name => points_calc name measured (fun c => c.2.1) (sim p) hl
  refine ⟨?_, ?_, ?_⟩
  · rcases h.cols with hc | hc <;> simp [concatTraces, hc]
  · rcases h.cols with hc | hc <;> simp [concatTraces, hc]
  · intro cv hcv
    simp only [List.mem_cons, List.not_mem_nil, or_false] at hcv
    rcases hcv with rfl | rfl | rfl | rfl
    · refine ⟨_, ?_, rfl, e1 "Ψ"⟩
      rcases h.cols with hc | hc <;> simp [concatTraces, hc, h.index]
    · refine ⟨_, ?_, rfl, e2 "Δ"⟩
      rcases h.cols with hc | hc <;> simp [concatTraces, hc, h.index]
    · refine ⟨_, ?_, rfl, e3 n1⟩
      simp [concatTraces, h.index]
    · refine ⟨_, ?_, rfl, e4 n2⟩
      simp [concatTraces, h.index]

/-- The events of a `FitRho` window: the selector only has its four entries. -/
def RhoEvents (es : List (Event RhoView)) : Prop := ∀ f, Event.choose f ∈ es → ∃ q : Quantity, ∀ v, f v = { v with selected := q.name }

/-- A parameter object as the user makes it: names and objects different, nothing shared with the history. -/
structure Fresh (st : State ℝ) : Prop where
  inv : Inv st
  keys : (Dict.keys st.cur).Nodup
  objects : (addrs st.cur).Nodup
  hist : ∀ e ∈ st.hist, Dict.keys e = Dict.keys st.cur ∧ (addrs e).Nodup

lemma rho_ok (h : Describes s measured sim) (box : String → ℝ → ℝ) (hb : ∀ k x, box k (box k x) = box k x) (st : State ℝ)
    (hs : Fresh st) (es : List (Event RhoView)) (he : RhoEvents es) :
    ∃ w0 w, rhoInit s box st = .ok w0 ∧ (rhoClass s box).run w0 es = .ok w ∧
      Ok (rhoClass s box) (Dict.keys st.cur) (RhoPre s) (Shows s measured sim) w := by
  obtain ⟨g1, g2⟩ := good_init st hs.inv rfl hs.keys hs.objects hs.hist none (by simp)
  obtain ⟨k1, k2, k3⟩ := concat_shows h (Hist.view st.heap st.cur) "Ψ_calc" "Δ_calc"
  have hm := h.model (Hist.view st.heap st.cur)
  have hl := h.len (Hist.view st.heap st.cur)
  have hlen : ¬ (((sim (Hist.view st.heap st.cur)).map fun c => c.1).length ≠ s.index.length ∨
      ((sim (Hist.view st.heap st.cur)).map fun c => c.2.1).length ≠ s.index.length) := by
    rw [h.index]
    simp [hl]
  have hf : rhoFigure s (Hist.view st.heap st.cur) = .ok ⟨"Psi/Delta", "Ψ/Δ (°)", concatTraces s.index s.cols
      [("Ψ_calc", (sim (Hist.view st.heap st.cur)).map fun c => c.1), ("Δ_calc", (sim (Hist.view st.heap st.cur)).map fun c => c.2.1)]⟩ := by
    unfold rhoFigure
    simp only [hm]
    rw [if_neg hlen]
  have hi : rhoInit s box st = .ok ⟨Gui.init st, (rhoClass s box).initBoxes (Hist.view st.heap st.cur), ⟨"Psi/Delta", "Ψ/Δ (°)",
      concatTraces s.index s.cols [("Ψ_calc", (sim (Hist.view st.heap st.cur)).map fun c => c.1),
        ("Δ_calc", (sim (Hist.view st.heap st.cur)).map fun c => c.2.1)]⟩⟩ := by
    unfold rhoInit
    rw [hf]
  have hv : curView (Gui.init st).params = Hist.view st.heap st.cur := g2
  have hok : Ok (rhoClass s box) (Dict.keys st.cur) (RhoPre s) (Shows s measured sim) ⟨Gui.init st,
      (rhoClass s box).initBoxes (Hist.view st.heap st.cur), ⟨"Psi/Delta", "Ψ/Δ (°)",
      concatTraces s.index s.cols [("Ψ_calc", (sim (Hist.view st.heap st.cur)).map fun c => c.1),
        ("Δ_calc", (sim (Hist.view st.heap st.cur)).map fun c => c.2.1)]⟩⟩ := by
    refine ⟨g1, ?_, ⟨⟨.psiDelta, rfl⟩, k1, k2⟩, ⟨.psiDelta, rfl, rfl, k1, ?_⟩⟩
    · show _ = (rhoClass s box).initBoxes (curView (Gui.init st).params)
      rw [hv]
    · have e : values (F := RhoView) ⟨Gui.init st, (rhoClass s box).initBoxes (Hist.view st.heap st.cur), ⟨"Psi/Delta", "Ψ/Δ (°)",
          concatTraces s.index s.cols [("Ψ_calc", (sim (Hist.view st.heap st.cur)).map fun c => c.1),
            ("Δ_calc", (sim (Hist.view st.heap st.cur)).map fun c => c.2.1)]⟩⟩ = Hist.view st.heap st.cur := hv
      rw [e]
      exact k3
  obtain ⟨w, h1, h2⟩ := ok_run (c := rhoClass s box) hb (fun p v hv => refresh_shows h p v hv) es _ hok (by
    intro f hf v hv
    obtain ⟨q, hq⟩ := he f hf
    rw [hq]
    exact ⟨⟨q, rfl⟩, hv.2⟩)
  exact ⟨_, w, hi, h1, h2⟩

/-- C100: a `FitRho` window can always be opened, no sequence of typed values, fits, Undo, Redo, Set initial and selections raises an
exception, and after every such sequence the figure shows the four curves of the selected quantity, with its names and title, for the
present parameters. -/
theorem C100_psi_delta (h : Describes s measured sim) (box : String → ℝ → ℝ) (hb : ∀ k x, box k (box k x) = box k x) (st : State ℝ)
    (hs : Fresh st) (es : List (Event RhoView)) (he : RhoEvents es) :
    ∃ w0 w, rhoInit s box st = .ok w0 ∧ (rhoClass s box).run w0 es = .ok w ∧ Shows s measured sim (values w) w.view := by
  obtain ⟨w0, w, h1, h2, h3⟩ := rho_ok h box hb st hs es he
  exact ⟨w0, w, h1, h2, h3.shows⟩

/-- C100: `FitRho.plot` draws the measured angles and those of the model at the fitted parameters. -/
theorem C100_plot (h : Describes s measured sim) (fitted : Dict ℝ) : ∃ ts, rhoPlot s fitted = .ok ts ∧ ts.length = 4 ∧
    ∀ cv ∈ ([("Ψ", fun m _ => some m.1), ("Δ", fun m _ => some m.2), ("Ψ_fit", fun _ c => some c.1), ("Δ_fit", fun _ c => some c.2.1)] :
        List (String × (Measured → Modelled → Option ℝ))), ∃ t ∈ ts, t.name = cv.1 ∧ t.points = points cv.2 measured (sim fitted) := by
  obtain ⟨k1, -, k3⟩ := concat_shows h fitted "Ψ_fit" "Δ_fit"
  refine ⟨_, ?_, k1, k3⟩
  have hm := h.model fitted
  have hl := h.len fitted
  unfold rhoPlot
  simp only [hm]
  rw [if_neg]
  rw [h.index]
  simp [hl]

/-- C100: `FitRho.plot_rho` draws real and imaginary part of the measured ratio and of that of the model at the fitted parameters. -/
theorem C100_plot_rho (h : Describes s measured sim) (fitted : Dict ℝ) : ∃ ts, rhoPlotRho s fitted = .ok ts ∧
    ts.map (fun t => (t.name, t.points)) = [("ρr", points (fun m _ => some (ratio m.1 m.2).re) measured (sim fitted)),
      ("ρi", points (fun m _ => some (ratio m.1 m.2).im) measured (sim fitted)), ("ρcr", points (fun _ c => some c.2.2.re) measured (sim fitted)),
      ("ρci", points (fun _ c => some c.2.2.im) measured (sim fitted))] := by
  have hm := h.model fitted
  have hl := h.len fitted
  have hr := expRho_eq h
  unfold rhoPlotRho
  rw [hr]
  simp only [hm]
  rw [if_neg (by rw [h.index]; simp [hl])]
  refine ⟨_, rfl, ?_⟩
  have key : ∀ (name : String) (f : Measured → Modelled → Option ℝ) (y : List (Option ℝ)), y = List.zipWith (fun m c => f m.2 c) measured (sim fitted) →
      Trace.points ⟨name, s.index, y⟩ = points f measured (sim fitted) := by
    intro name f y hy
    have := points_of name f measured (sim fitted) [] hl
    rw [List.append_nil, ← h.index, ← hy] at this
    exact this
  have left : ∀ g : ℂ → ℝ, (measured.map fun m => ratio m.2.1 m.2.2).map (fun z => some (g z)) =
      List.zipWith (fun (m : ℝ × Measured) (_ : Modelled) => some (g (ratio m.2.1 m.2.2))) measured (sim fitted) := by
    intro g
    rw [List.map_map]
    apply List.ext_getElem
    · simp [hl]
    · intro i h1 h2
      simp
  have right : ∀ g : ℂ → ℝ, ((sim fitted).map fun c => c.2.2).map (fun z => some (g z)) =
      List.zipWith (fun (_ : ℝ × Measured) (c : Modelled) => some (g c.2.2)) measured (sim fitted) := by
    intro g
    rw [List.map_map]
    apply List.ext_getElem
    · simp [hl]
    · intro i h1 h2
      simp
  simp only [List.map_cons, List.map_nil]
  rw [key "ρr" (fun m _ => some (ratio m.1 m.2).re) _ (left Complex.re), key "ρi" (fun m _ => some (ratio m.1 m.2).im) _ (left Complex.im),
    key "ρcr" (fun _ c => some c.2.2.re) _ (right Complex.re), key "ρci" (fun _ c => some c.2.2.im) _ (right Complex.im)]

/-- A window with one parameter, a thickness. -/
def sampleState : State ℝ := ⟨fun _ => 20, 1, [("d", 0)], [], 50⟩

lemma sample_fresh : Fresh sampleState :=
  ⟨⟨by simp [sampleState, addrs], by simp [sampleState], by simp [sampleState], by simp [sampleState], by simp [sampleState],
    by simp [sampleState]⟩, by simp [sampleState, Dict.keys], by simp [sampleState, addrs], by simp [sampleState]⟩

/-- One wavelength, columns in the other order, a model that depends on the thickness. -/
noncomputable def sampleSetup : RhoSetup :=
  ⟨[500], [("Δ", [120]), ("Ψ", [30])], 70, fun _ p => ⟨[(Dict.get p "d").getD 0], [100], [1]⟩⟩

lemma sample_describes : Describes sampleSetup [(500, 30, 120)] fun p => [((Dict.get p "d").getD 0, 100, 1)] :=
  ⟨rfl, Or.inr rfl, fun _ => rfl, fun _ => rfl⟩

/-- Type 25, choose `Rho`, fit, Undo, Redo, Set initial, choose `Residual`. -/
noncomputable def sampleEvents : List (Event RhoView) :=
  [.type "d" 25, .choose fun v => { v with selected := "Rho" }, .fit fun _ => 26, .undo, .redo, .setInitial,
    .choose fun v => { v with selected := "Residual" }]

lemma sample_events : RhoEvents sampleEvents := by
  intro f hf
  simp only [sampleEvents, List.mem_cons, List.not_mem_nil, or_false, reduceCtorEq, Event.choose.injEq, false_or] at hf
  rcases hf with rfl | rfl
  · exact ⟨.rho, fun _ => rfl⟩
  · exact ⟨.residual, fun _ => rfl⟩

example : ∃ w0 w, rhoInit sampleSetup (fun _ => id) sampleState = .ok w0 ∧ (rhoClass sampleSetup fun _ => id).run w0 sampleEvents = .ok w ∧
    Shows sampleSetup [(500, 30, 120)] (fun p => [((Dict.get p "d").getD 0, 100, 1)]) (values w) w.view :=
  C100_psi_delta sample_describes _ (fun _ _ => rfl) _ sample_fresh _ sample_events

example : ∃ ts, rhoPlot sampleSetup [("d", 3)] = .ok ts ∧ ∃ t ∈ ts, t.name = "Ψ_fit" ∧ t.points = [(500, 3)] := by
  obtain ⟨ts, h1, -, h3⟩ := C100_plot sample_describes [("d", 3)]
  obtain ⟨t, t1, t2, t3⟩ := h3 ("Ψ_fit", fun _ c => some c.1) (by simp)
  exact ⟨ts, h1, t, t1, t2, by rw [t3]; simp [points, Dict.get]⟩

/-- C100: a delta residual of 360 degrees is shown although the modelled ratio is the measured one: a measurement with delta between 0 and
360 and a model with delta between -180 and 180. Shown here for the values handed to the figure by `set_residual`. -/
theorem C100_delta_residual_refuted : ∃ (s : RhoSetup) (measured : List (ℝ × Measured)) (sim : Dict ℝ → List Modelled),
    Describes s measured sim ∧ (∀ p, List.Forall₂ (fun m c => c.2.2 = ratio m.2.1 m.2.2 ∧ c.2.2 = ratio c.1 c.2.1) measured (sim p)) ∧
      ∀ p v, RhoPre s v → v.selected = "Residual" → ∃ v', rhoRefresh s p v = .ok v' ∧
        ∃ t ∈ v'.traces, t.name = "Delta Res." ∧ t.points = [(500, 360)] := by
  have hd : Describes ⟨[500], [("Ψ", [45]), ("Δ", [270])], 70, fun _ _ => ⟨[45], [-90], [ratio 45 270]⟩⟩ [(500, 45, 270)]
      fun _ => [(45, -90, ratio 45 270)] := ⟨rfl, Or.inl rfl, fun _ => rfl, fun _ => rfl⟩
  refine ⟨_, _, _, hd, fun p => ?_, fun p v hv hsel => ?_⟩
  · refine .cons ⟨rfl, ?_⟩ .nil
    have e : (270 : ℝ) * Real.pi / 180 = -90 * Real.pi / 180 + 2 * Real.pi := by ring
    unfold ratio
    rw [e, Real.cos_add_two_pi, Real.sin_add_two_pi]
  · obtain ⟨v', h1, -, q, h3, -, -, h6⟩ := refresh_shows hd p v hv
    have hs : v'.selected = v.selected := by
      unfold rhoRefresh at h1
      split at h1
      · cases h1; rfl
      · split at h1
        · cases h1
        · split at h1
          · cases h1
          · cases h1; rfl
    have hq : q = .residual := by
      rw [hs, hsel] at h3
      cases q <;> simp [Quantity.name] at h3 ⊢
    subst hq
    obtain ⟨t, t1, t2, t3⟩ := h6 ("Delta Res.", fun m c => some (m.2 - c.2.1)) (by simp [Quantity.curves])
    refine ⟨v', h1, t, t1, t2, ?_⟩
    rw [t3]
    norm_num [points]
    rfl

/-! ## Mueller matrices -/

/-- All elements, row by row. -/
def elements : List (Fin 4 × Fin 4) :=
  [(0, 0), (0, 1), (0, 2), (0, 3), (1, 0), (1, 1), (1, 2), (1, 3), (2, 0), (2, 1), (2, 2), (2, 3), (3, 0), (3, 1), (3, 2), (3, 3)]

lemma columns_eq : spectrarayColumns = elements.map fun e => Spec.Fit.label e.1 e.2 := by decide

lemma cell_eq (m : M4) (i j : Fin 4) : Dict.get (spectrarayColumns.zip (row16 m)) (Spec.Fit.label i j) = some (m i j) := by
  have : ∀ i j : Fin 4, Spec.Fit.label i j = spectrarayColumns[4 * i.val + j.val]?.getD "" := by decide
  rw [this]
  fin_cases i <;> fin_cases j <;> simp [spectrarayColumns, row16, Dict.get]

lemma columnOf_eq (ms : List M4) (i j : Fin 4) : columnOf ⟨spectrarayColumns, ms.map row16⟩ (Spec.Fit.label i j) = ms.map fun m => some (m i j) := by
  simp [columnOf, cell_eq, Function.comp_def]

/-- A measurement of Mueller matrices in a frame labelled as the importer does, and a model with one matrix for each wavelength. -/
structure MmDescribes (s : MmSetup) (measured : List (ℝ × M4)) : Prop where
  index : s.index = measured.map Prod.fst
  exp : s.exp = ⟨spectrarayColumns, measured.map fun m => row16 m.2⟩
  len : ∀ p, (s.model s.index p).length = measured.length

/-- The figure as named curves in the grid. -/
def curvesOf (ts : List MmTrace) : List Curve := ts.map fun t => ⟨t.name, t.cell, (Trace.mk t.name t.x t.y).points⟩

/-- The place of an element. -/
def gridCell (single : Bool) (e : Fin 4 × Fin 4) : Option (ℕ × ℕ) := if single then none else some (e.1.val + 1, e.2.val + 1)

/-- Names, places and abscissae of the traces, with the second trace of each element free in name and values. -/
def mmFig (single : Bool) (measured : List (ℝ × M4)) (names : Fin 4 × Fin 4 → String) (ys : Fin 4 × Fin 4 → List (Option ℝ)) : List MmTrace :=
  elements.flatMap fun e => [⟨Spec.Fit.label e.1 e.2 ++ " ", gridCell single e, measured.map Prod.fst, measured.map fun m => some (m.2 e.1 e.2)⟩,
    ⟨names e, gridCell single e, measured.map Prod.fst, ys e⟩]

lemma mmAssign_spec {ι : Type} (residual : Bool) (df : Frame) (lab : ι → String) (a b : ι → MmTrace) : ∀ (l : List ι) (i : ℕ) (pre : List MmTrace),
    pre.length = 2 * i → mmAssign residual df i (l.map lab) (pre ++ l.flatMap fun k => [a k, b k]) =
      .ok (pre ++ l.flatMap fun k => [a k, { b k with y := columnOf df (lab k), name := lab k ++ (if residual then " Residual" else " theory") }]) := by
  intro l
  induction l with
  | nil => intro i pre _; simp [mmAssign]
  | cons k l ih =>
    intro i pre hp
    simp only [List.map_cons, List.flatMap_cons, mmAssign]
    rw [if_neg (by simp; omega)]
    have hm : (pre ++ ([a k, b k] ++ l.flatMap fun k => [a k, b k])).modify (2 * i + 1)
        (fun t => { t with y := columnOf df (lab k), name := lab k ++ (if residual then " Residual" else " theory") }) =
        (pre ++ [a k, { b k with y := columnOf df (lab k), name := lab k ++ (if residual then " Residual" else " theory") }]) ++
          l.flatMap fun k => [a k, b k] := by
      rw [← hp, List.append_assoc]
      clear ih hp
      induction pre with
      | nil => rfl
      | cons x pre ih2 => simpa using ih2
    rw [hm, ih (i + 1) _ (by simp [hp]; ring)]
    simp

lemma mmToFrame_eq (s : MmSetup) (measured : List (ℝ × M4)) (h : MmDescribes s measured) (p : Dict ℝ) :
    mmToFrame s.exp (s.model s.index p) none = .ok ⟨spectrarayColumns, (s.model s.index p).map row16⟩ := by
  unfold mmToFrame
  rw [h.exp]
  simp [h.len p, spectrarayColumns]

lemma mmLoop_spec {ι : Type} (single : Bool) (names : List String) (dfs : List (List ℝ × Frame)) (lab : ι → String) (T : ι → ℕ → List MmTrace)
    (h : ∀ e n, mmTraces single names n (lab e) 0 dfs = .ok (T e n)) (l : List ι) : ∀ n,
    mmLoop single names dfs n (l.map lab) = .ok ((l.zipIdx n).flatMap fun p => T p.1 p.2) := by
  induction l with
  | nil => intro n; rfl
  | cons e l ih => intro n; simp [mmLoop, h, ih]

lemma plot_eq (single : Bool) (measured : List (ℝ × M4)) (model : List M4) :
    plotMmatrix single [(measured.map Prod.fst, ⟨spectrarayColumns, measured.map fun m => row16 m.2⟩),
      (measured.map Prod.fst, ⟨spectrarayColumns, model.map row16⟩)] =
    .ok (mmFig single measured (fun e => Spec.Fit.label e.1 e.2 ++ " theory") fun e => model.map fun m => some (m e.1 e.2)) := by
  have h1 := fun i j => columnOf_eq (measured.map Prod.snd) i j
  have h2 := fun i j => columnOf_eq model i j
  simp only [List.map_map, Function.comp_def] at h1
  have step : ∀ (e : Fin 4 × Fin 4) (n : ℕ), mmTraces single ["", "theory"] n (Spec.Fit.label e.1 e.2) 0
      [(measured.map Prod.fst, ⟨spectrarayColumns, measured.map fun m => row16 m.2⟩), (measured.map Prod.fst, ⟨spectrarayColumns, model.map row16⟩)] =
      .ok [⟨Spec.Fit.label e.1 e.2 ++ " ", if single then none else some (n / 4 + 1, n % 4 + 1), measured.map Prod.fst, measured.map fun m => some (m.2 e.1 e.2)⟩,
        ⟨Spec.Fit.label e.1 e.2 ++ " theory", if single then none else some (n / 4 + 1, n % 4 + 1), measured.map Prod.fst, model.map fun m => some (m e.1 e.2)⟩] := by
    intro e n
    have hm : Spec.Fit.label e.1 e.2 ∈ spectrarayColumns := by
      rw [columns_eq]
      refine List.mem_map_of_mem (f := fun e : Fin 4 × Fin 4 => Spec.Fit.label e.1 e.2) ?_
      revert e
      decide
    simp only [mmTraces, hm, not_true_eq_false, if_false, h1, h2]
    simp [String.append_assoc]
  have := mmLoop_spec single ["", "theory"] _ (fun e : Fin 4 × Fin 4 => Spec.Fit.label e.1 e.2) _ step elements 0
  rw [← columns_eq] at this
  unfold plotMmatrix
  simp only
  rw [this]
  cases single <;> rfl

/-- The second trace of each element has the abscissae of the measurement. -/
def MmPre (s : MmSetup) (measured : List (ℝ × M4)) (v : MmView) : Prop := ∃ names ys, v.traces = mmFig s.single measured names ys

lemma points_map (name : String) (measured : List (ℝ × M4)) (f : ℝ × M4 → ℝ) :
    (Trace.mk name (measured.map Prod.fst) (measured.map fun m => some (f m))).points = measured.map fun m => (m.1, f m) := by
  induction measured with
  | nil => rfl
  | cons m l ih =>
    simp only [Trace.points, List.map_cons, List.zip_cons_cons, List.filterMap_cons, Option.map_some] at ih ⊢
    rw [ih]

lemma points_zip (name : String) (measured : List (ℝ × M4)) (f : ℝ × M4 → M4 → ℝ) : ∀ model : List M4,
    (Trace.mk name (measured.map Prod.fst) (List.zipWith (fun m c => some (f m c)) measured model)).points =
      List.zipWith (fun m c => (m.1, f m c)) measured model := by
  induction measured with
  | nil => intro model; rfl
  | cons m l ih =>
    intro model
    cases model with
    | nil => rfl
    | cons c model =>
      have := ih model
      simp only [Trace.points, List.map_cons, List.zipWith_cons_cons, List.zip_cons_cons, List.filterMap_cons, Option.map_some] at this ⊢
      rw [this]

lemma muellerCurves_eq (single residual : Bool) (measured : List (ℝ × M4)) (model : List M4) :
    curvesOf (mmFig single measured (fun e => Spec.Fit.label e.1 e.2 ++ (if residual then " Residual" else " theory"))
      fun e => List.zipWith (fun m c => some (if residual then c e.1 e.2 - m.2 e.1 e.2 else c e.1 e.2)) measured model) =
    muellerCurves single residual measured model := by
  have h1 : ∀ (name : String) (e : Fin 4 × Fin 4), _ := fun name e => points_map name measured fun m => m.2 e.1 e.2
  have h2 : ∀ (name : String) (e : Fin 4 × Fin 4), _ := fun name e =>
    points_zip name measured (fun m c => if residual then c e.1 e.2 - m.2 e.1 e.2 else c e.1 e.2) model
  unfold curvesOf mmFig
  rw [List.map_flatMap]
  simp only [List.map_cons, List.map_nil, h1, h2]
  rfl

/-- The residual of frames is that of the matrices. -/
lemma frameSub_eq (model : List M4) : ∀ measured : List (ℝ × M4),
    List.zipWith (List.zipWith (· - ·)) (model.map row16) (measured.map fun m => row16 m.2) =
      (List.zipWith (fun m c => c - m.2) measured model).map row16 := by
  induction model with
  | nil => intro measured; cases measured <;> rfl
  | cons c model ih =>
    intro measured
    cases measured with
    | nil => rfl
    | cons m measured =>
      simp only [List.map_cons, List.zipWith_cons_cons, ih]
      congr 1

lemma mmRefresh_shows {s : MmSetup} {measured : List (ℝ × M4)} (h : MmDescribes s measured) (p : Dict ℝ) (v : MmView) (hv : MmPre s measured v) :
    ∃ v', mmRefresh s p v = .ok v' ∧ MmPre s measured v' ∧
      curvesOf v'.traces = muellerCurves s.single v'.residual measured (s.model s.index p) := by
  obtain ⟨names, ys, ht⟩ := hv
  have hl := h.len p
  have hcol : ∀ e : Fin 4 × Fin 4, columnOf (if v.residual then frameSub ⟨spectrarayColumns, (s.model s.index p).map row16⟩ s.exp
      else ⟨spectrarayColumns, (s.model s.index p).map row16⟩) (Spec.Fit.label e.1 e.2) =
      List.zipWith (fun m c => some (if v.residual then c e.1 e.2 - m.2 e.1 e.2 else c e.1 e.2)) measured (s.model s.index p) := by
    intro e
    cases v.residual with
    | false =>
      simp only [Bool.false_eq_true, if_false]
      rw [columnOf_eq, zipWith_right (fun c : M4 => some (c e.1 e.2)) _ _ hl]
    | true =>
      simp only [if_true, frameSub, h.exp, frameSub_eq]
      rw [columnOf_eq, List.map_zipWith]
      rfl
  have hcols : (if v.residual then frameSub ⟨spectrarayColumns, (s.model s.index p).map row16⟩ s.exp
      else ⟨spectrarayColumns, (s.model s.index p).map row16⟩).columns = spectrarayColumns := by
    cases v.residual <;> rfl
  have ha := mmAssign_spec v.residual (if v.residual then frameSub ⟨spectrarayColumns, (s.model s.index p).map row16⟩ s.exp
      else ⟨spectrarayColumns, (s.model s.index p).map row16⟩) (fun e : Fin 4 × Fin 4 => Spec.Fit.label e.1 e.2)
      (fun e => ⟨Spec.Fit.label e.1 e.2 ++ " ", gridCell s.single e, measured.map Prod.fst, measured.map fun m => some (m.2 e.1 e.2)⟩)
      (fun e => ⟨names e, gridCell s.single e, measured.map Prod.fst, ys e⟩) elements 0 [] rfl
  rw [← columns_eq, List.nil_append, List.nil_append] at ha
  simp only [hcol] at ha
  refine ⟨⟨v.residual, mmFig s.single measured (fun e => Spec.Fit.label e.1 e.2 ++ (if v.residual then " Residual" else " theory"))
      (fun e => List.zipWith (fun m c => some (if v.residual then c e.1 e.2 - m.2 e.1 e.2 else c e.1 e.2)) measured (s.model s.index p))⟩,
    ?_, ⟨fun e => Spec.Fit.label e.1 e.2 ++ (if v.residual then " Residual" else " theory"),
      fun e => List.zipWith (fun m c => some (if v.residual then c e.1 e.2 - m.2 e.1 e.2 else c e.1 e.2)) measured (s.model s.index p), rfl⟩, ?_⟩
  · unfold mmRefresh
    rw [mmToFrame_eq s measured h p]
    simp only [hcols, ht]
    unfold mmFig
    rw [ha]
  · exact muellerCurves_eq _ _ _ _

/-- The events of a `FitMuellerMatrix` window: the check box for the residual. -/
def MmEvents (es : List (Event MmView)) : Prop := ∀ f, Event.choose f ∈ es → ∃ b : Bool, ∀ v, f v = { v with residual := b }

lemma mm_ok {s : MmSetup} {measured : List (ℝ × M4)} (h : MmDescribes s measured) (box : String → ℝ → ℝ)
    (hb : ∀ k x, box k (box k x) = box k x) (st : State ℝ) (hs : Fresh st) (es : List (Event MmView)) (he : MmEvents es) :
    ∃ w0 w, mmInit s box st = .ok w0 ∧ (mmClass s box).run w0 es = .ok w ∧
      Ok (mmClass s box) (Dict.keys st.cur) (MmPre s measured)
        (fun p v => curvesOf v.traces = muellerCurves s.single v.residual measured (s.model s.index p)) w := by
  obtain ⟨g1, g2⟩ := good_init st hs.inv rfl hs.keys hs.objects hs.hist (some []) (by simp)
  have hv : curView (Gui.init st).params = Hist.view st.heap st.cur := g2
  have hp := plot_eq s.single measured (s.model s.index (Hist.view st.heap st.cur))
  have hi : mmInit s box st = .ok ⟨{ Gui.init st with last := some [] }, (mmClass s box).initBoxes (Hist.view st.heap st.cur), ⟨false,
      mmFig s.single measured (fun e => Spec.Fit.label e.1 e.2 ++ " theory") fun e =>
        (s.model s.index (Hist.view st.heap st.cur)).map fun m => some (m e.1 e.2)⟩⟩ := by
    unfold mmInit
    rw [mmToFrame_eq s measured h]
    simp only [h.exp]
    rw [← h.index] at hp
    rw [hp]
  have hok : Ok (mmClass s box) (Dict.keys st.cur) (MmPre s measured)
      (fun p v => curvesOf v.traces = muellerCurves s.single v.residual measured (s.model s.index p))
      ⟨{ Gui.init st with last := some [] }, (mmClass s box).initBoxes (Hist.view st.heap st.cur), ⟨false,
      mmFig s.single measured (fun e => Spec.Fit.label e.1 e.2 ++ " theory") fun e =>
        (s.model s.index (Hist.view st.heap st.cur)).map fun m => some (m e.1 e.2)⟩⟩ := by
    refine ⟨g1, ?_, ⟨fun e => Spec.Fit.label e.1 e.2 ++ " theory", fun e =>
        (s.model s.index (Hist.view st.heap st.cur)).map fun m => some (m e.1 e.2), rfl⟩, ?_⟩
    · show _ = (mmClass s box).initBoxes (curView (Gui.init st).params)
      rw [hv]
    · show curvesOf (mmFig s.single measured (fun e => Spec.Fit.label e.1 e.2 ++ " theory") fun e =>
        (s.model s.index (Hist.view st.heap st.cur)).map fun m => some (m e.1 e.2)) = muellerCurves s.single false measured (s.model s.index (curView (Gui.init st).params))
      rw [hv, ← muellerCurves_eq]
      congr 1
      simp only [Bool.false_eq_true, if_false]
      congr 1
      funext e
      exact (zipWith_right (fun c : M4 => some (c e.1 e.2)) _ _ (h.len _)).symm
  obtain ⟨w, h1, h2⟩ := ok_run (c := mmClass s box) hb (fun p v hv => mmRefresh_shows h p v hv) es _ hok (by
    intro f hf v hv
    obtain ⟨b, hb⟩ := he f hf
    rw [hb]
    exact hv)
  exact ⟨_, w, hi, h1, h2⟩

/-- C100 for Mueller matrices: no sequence of events raises an exception, and after every such sequence the figure has the 32 curves for
the present parameters, each under its name and in its place of the grid. -/
theorem C100_mueller {s : MmSetup} {measured : List (ℝ × M4)} (h : MmDescribes s measured) (box : String → ℝ → ℝ)
    (hb : ∀ k x, box k (box k x) = box k x) (st : State ℝ) (hs : Fresh st) (es : List (Event MmView)) (he : MmEvents es) :
    ∃ w0 w, mmInit s box st = .ok w0 ∧ (mmClass s box).run w0 es = .ok w ∧
      curvesOf w.view.traces = muellerCurves s.single w.view.residual measured (s.model s.index (values w)) := by
  obtain ⟨w0, w, h1, h2, h3⟩ := mm_ok h box hb st hs es he
  exact ⟨w0, w, h1, h2, h3.shows⟩

example : ∃ (s : MmSetup) (measured : List (ℝ × M4)), MmDescribes s measured ∧ measured.length = 2 ∧
    MmEvents [.type "d" 25, .choose fun v => { v with residual := true }, .undo] :=
  ⟨⟨[500, 600], ⟨spectrarayColumns, [row16 1, row16 2]⟩, false, fun _ _ => [1, 1]⟩, [(500, 1), (600, 2)], ⟨rfl, rfl, fun _ => rfl⟩, rfl, by
    intro f hf
    simp only [List.mem_cons, List.not_mem_nil, or_false, reduceCtorEq, Event.choose.injEq, false_or] at hf
    subst hf
    exact ⟨true, fun _ => rfl⟩⟩

end PyElli.FitWindow
