import Verif.Props.FitWindow

/-! # C101, C102: the boxes of the fit windows and the data written to files -/

namespace PyElli.FitWindow

open PyElli PyElli.Hist PyElli.Fit Spec.FitWindow

/-- `x` is between the bounds. -/
def Bounds.Inside (b : Bounds) (x : ℝ) : Prop := (∀ l, b.lo = some l → l ≤ x) ∧ ∀ h, b.hi = some h → x ≤ h

/-- A box for given bounds: it shows allowed values unchanged and replaces others by the nearest allowed value. -/
structure Faithful (allowed : ℝ → Prop) (f : ℝ → ℝ) : Prop where
  same : ∀ x, allowed x → f x = x
  range : ∀ x, allowed (f x)
  nearest : ∀ x z, allowed z → |f x - x| ≤ |z - x|

lemma Faithful.idem {allowed : ℝ → Prop} {f : ℝ → ℝ} (h : Faithful allowed f) (x : ℝ) : f (f x) = f x := h.same _ (h.range x)

lemma boundedText_faithful (lo hi : Option ℝ) (h : ∃ x, Bounds.Inside ⟨lo, hi⟩ x) : ∃ f, boundedText lo hi = some f ∧ Faithful (Bounds.Inside ⟨lo, hi⟩) f := by
  obtain ⟨x0, h1, h2⟩ := h
  cases lo with
  | none =>
    cases hi with
    | none => exact ⟨_, rfl, fun _ _ => rfl, fun _ => ⟨by simp, by simp⟩, fun x z _ => by simp⟩
    | some u =>
      refine ⟨_, rfl, fun x hx => min_eq_left (hx.2 u rfl), fun x => ⟨by simp, fun h e => by cases e; exact min_le_right _ _⟩, fun x z hz => ?_⟩
      have := hz.2 u rfl
      rcases le_total x u with hxu | hxu
      · simp [min_eq_left hxu]
      · rw [min_eq_right hxu, abs_of_nonpos (by linarith), abs_of_nonpos (by linarith)]
        linarith
  | some l =>
    cases hi with
    | none =>
      refine ⟨_, rfl, fun x hx => max_eq_left (hx.1 l rfl), fun x => ⟨fun h e => by cases e; exact le_max_right _ _, by simp⟩, fun x z hz => ?_⟩
      have := hz.1 l rfl
      rcases le_total l x with hxu | hxu
      · simp [max_eq_left hxu]
      · rw [max_eq_right hxu, abs_of_nonneg (by linarith), abs_of_nonneg (by linarith)]
        linarith
    | some u =>
      have hlu : l ≤ u := (h1 l rfl).trans (h2 u rfl)
      refine ⟨_, if_pos hlu, fun x hx => ?_, fun x => ⟨fun h e => ?_, fun h e => ?_⟩, fun x z hz => ?_⟩
      · rw [max_eq_left (hx.1 l rfl), min_eq_left (hx.2 u rfl)]
      · cases e
        exact le_min (le_max_right _ _) hlu
      · cases e
        exact min_le_right _ _
      · have a1 := hz.1 l rfl
        have a2 := hz.2 u rfl
        rcases le_total l x with hxu | hxu
        · rw [max_eq_left hxu]
          rcases le_total x u with hx2 | hx2
          · simp [min_eq_left hx2]
          · rw [min_eq_right hx2, abs_of_nonpos (by linarith), abs_of_nonpos (by linarith)]
            linarith
        · rw [max_eq_right hxu, min_eq_left hlu, abs_of_nonneg (by linarith), abs_of_nonneg (by linarith)]
          linarith

/-- C101 for `FitMuellerMatrix`: whenever the bounds leave a value at all, there is a box; it shows every value between the bounds unchanged
and replaces any other by the nearest one between the bounds. -/
theorem C101_mueller_box (b : Bounds) (h : ∃ x, b.Inside x) : ∃ f, mmBox b = some f ∧ Faithful b.Inside f := boundedText_faithful b.lo b.hi h

example : ∃ f, mmBox ⟨none, some 3⟩ = some f ∧ f (-5) = -5 := by
  obtain ⟨f, h1, h2⟩ := C101_mueller_box ⟨none, some 3⟩ ⟨0, by simp, by simp⟩
  exact ⟨f, h1, h2.same _ ⟨by simp, by intro l e; cases e; norm_num⟩⟩

/-- C101 for `FitRho`, parameters with a lower bound. Missing: parameters without, where it is false (`C101_lower_bound_refuted`). Numbers are at most
`floatMax`. -/
theorem C101_rho_box_partial (b : Bounds) (l : ℝ) (hl : b.lo = some l) (h : ∃ x, b.Inside x ∧ x ≤ floatMax) :
    ∃ f, rhoBox b = some f ∧ Faithful (fun x => b.Inside x ∧ (b.hi = none → x ≤ floatMax)) f := by
  obtain ⟨lo, hi⟩ := b
  cases hl
  obtain ⟨x0, hx0, hx1⟩ := h
  cases hi with
  | some u =>
    obtain ⟨f, h1, h2⟩ := boundedText_faithful (some l) (some u) ⟨x0, hx0⟩
    exact ⟨f, h1, fun x hx => h2.same x hx.1, fun x => ⟨h2.range x, fun e => by cases e⟩, fun x z hz => h2.nearest x z hz.1⟩
  | none =>
    obtain ⟨f, h1, h2⟩ := boundedText_faithful (some l) (some floatMax) ⟨x0, fun a e => hx0.1 a e, fun a e => by cases e; exact hx1⟩
    have key : ∀ x, Bounds.Inside ⟨some l, some floatMax⟩ x ↔ Bounds.Inside ⟨some l, none⟩ x ∧ ((none : Option ℝ) = none → x ≤ floatMax) :=
      fun x => ⟨fun e => ⟨⟨e.1, by simp⟩, fun _ => e.2 _ rfl⟩, fun e => ⟨e.1.1, fun a ha => by cases ha; exact e.2 rfl⟩⟩
    exact ⟨f, h1, fun x hx => h2.same x ((key x).2 hx), fun x => (key _).1 (h2.range x), fun x z hz => h2.nearest x z ((key z).2 hz)⟩

lemma floatMin_pos : 0 < floatMin := by unfold floatMin; positivity

lemma floatMin_lt_one : floatMin < 1 := by
  unfold floatMin
  exact zpow_lt_one_of_neg₀ (by norm_num) (by norm_num)

lemma one_lt_floatMax : 1 < floatMax := by
  have h1 : (1 : ℝ) ≤ 2 ^ (1023 : ℤ) := one_le_zpow₀ (by norm_num) (by norm_num)
  have h2 : (2 : ℝ) ^ (-52 : ℤ) < 1 := zpow_lt_one_of_neg₀ (by norm_num) (by norm_num)
  unfold floatMax
  generalize (2 : ℝ) ^ (1023 : ℤ) = b at h1 ⊢
  generalize (2 : ℝ) ^ (-52 : ℤ) = a at h2 ⊢
  nlinarith

example : ∃ f, rhoBox ⟨some (-10), none⟩ = some f ∧ f (-5) = -5 := by
  obtain ⟨f, h1, h2⟩ := C101_rho_box_partial ⟨some (-10), none⟩ (-10) rfl
    ⟨0, ⟨by intro l e; cases e; norm_num, by simp⟩, by linarith [one_lt_floatMax]⟩
  exact ⟨f, h1, h2.same _ ⟨⟨by intro l e; cases e; norm_num, by simp⟩, fun _ => by linarith [one_lt_floatMax]⟩⟩

/-- C101 fails for every `FitRho` parameter without a lower bound: the box has the smallest positive number as its minimum. So no box shows a
number that is not positive, zero and all negative values are shown and read as 2^-1022 (if the upper bound is larger), and with an upper bound that is not
positive the window cannot be made. -/
theorem C101_lower_bound_refuted (hi : Option ℝ) :
    (∀ f, rhoBox ⟨none, hi⟩ = some f → ∀ x, x ≤ 0 → f x = floatMin ∧ f x ≠ x) ∧
      (∀ u, hi = some u → u ≤ 0 → rhoBox ⟨none, hi⟩ = none) := by
  have hp := floatMin_pos
  constructor
  · intro f hf x hx
    have key : f x = floatMin := by
      unfold rhoBox boundedText at hf
      simp only at hf
      split_ifs at hf with h
      cases hf
      show min (max x floatMin) _ = floatMin
      rw [max_eq_right (by linarith), min_eq_left h]
    exact ⟨key, by rw [key]; linarith⟩
  · rintro u rfl hu
    unfold rhoBox boundedText
    simp only
    rw [if_neg (by linarith)]

example : ∃ f, rhoBox ⟨none, none⟩ = some f ∧ f (-1) = floatMin := by
  have h : ∃ f, rhoBox ⟨none, none⟩ = some f := by
    refine ⟨_, if_pos ?_⟩
    simp only
    linarith [floatMin_lt_one, one_lt_floatMax]
  obtain ⟨f, hf⟩ := h
  exact ⟨f, hf, ((C101_lower_bound_refuted none).1 f hf (-1) (by norm_num)).1⟩

/-! ## Boxes and parameters -/

section

variable {F : Type} {c : Class F} {K : List String} {Pre : F → Prop} {P : Dict ℝ → F → Prop}

lemma shown (w : Window F) (h : Ok c K Pre P w) (k : String) : Dict.get w.boxes k = (Dict.get (values w) k).map (c.box k) := by
  rw [h.sync, get_initBoxes]

lemma get_set (d : Dict ℝ) (k j : String) (x : ℝ) : Dict.get (Dict.set d k x) j = if j = k then some x else Dict.get d j := by
  induction d with
  | nil =>
    by_cases h : j = k
    · simp [Dict.set, Dict.get, h]
    · have : ¬ k = j := fun e => h e.symm
      simp [Dict.set, Dict.get, h, this]
  | cons p d ih =>
    by_cases hk : p.1 = k
    · by_cases h : j = k
      · simp [Dict.set, Dict.get, hk, h]
      · have : ¬ k = j := fun e => h e.symm
        simp [Dict.set, Dict.get, hk, h, this]
    · by_cases h : p.1 = j
      · have : ¬ j = k := fun e => hk (h.trans e)
        simp [Dict.set, Dict.get, hk, h, this]
      · simp only [Dict.set, hk, if_false, Dict.get, h, ih]

lemma typed (hb : ∀ k x, c.box k (c.box k x) = c.box k x) (hr : ∀ p v, Pre v → ∃ v', c.refresh p v = .ok v' ∧ Pre v' ∧ P p v')
    (w : Window F) (h : Ok c K Pre P w) (k : String) (v x : ℝ) (hv : Dict.get (values w) k = some v) (hbv : c.box k v = v) :
    ∃ w', c.event w (.type k x) = .ok w' ∧ Ok c K Pre P w' ∧ Dict.get (values w') k = some (c.box k x) ∧
      ∀ j, j ≠ k → Dict.get (values w') j = Dict.get (values w) j := by
  have hs := shown w h k
  rw [hv, Option.map_some, hbv] at hs
  by_cases hx : c.box k x = v
  · refine ⟨w, ?_, h, by rw [hv, hx], fun _ _ => rfl⟩
    simp only [Class.event, hs, hx, if_true]
  · have hkK : k ∈ K := by
      rw [← values_keys h.good]
      exact (get_isSome _ _).1 (by rw [hv]; rfl)
    obtain ⟨w', h1, h2⟩ := ok_event hb hr w h (.type k x) (by simp)
    refine ⟨w', h1, h2, ?_⟩
    have e : values w' = Dict.set (values w) k (c.box k x) := by
      have hcur : (Dict.get w.gui.params.cur k).isSome := by
        have h0 := hv
        rw [values, get_view] at h0
        cases hg : Dict.get w.gui.params.cur k with
        | none => rw [hg] at h0; cases h0
        | some _ => rfl
      obtain ⟨a, ha⟩ := Option.isSome_iff_exists.1 hcur
      simp only [Class.event, hs, hx, if_false, ha] at h1
      unfold Class.updateSelection at h1
      split at h1
      · cases h1
      · cases h1
        exact values_edit h.good k (c.box k x) hkK
    rw [e]
    refine ⟨by rw [get_set, if_pos rfl], fun j hj => by rw [get_set, if_neg hj]⟩

end

variable {s : RhoSetup} {measured : List (ℝ × Measured)} {sim : Dict ℝ → List Modelled}

/-- C101 for `FitRho` windows: after any sequence of events every box shows the value of its parameter, as far as the box can show it, and
a number typed into a box becomes the value of that parameter and of no other. -/
theorem C101_rho_window (h : Describes s measured sim) (allowed : String → ℝ → Prop) (box : String → ℝ → ℝ)
    (hbox : ∀ k, Faithful (allowed k) (box k)) (st : State ℝ) (hs : Fresh st) (es : List (Event RhoView)) (he : RhoEvents es) :
    ∃ w0 w, rhoInit s box st = .ok w0 ∧ (rhoClass s box).run w0 es = .ok w ∧
      (∀ k v, Dict.get (values w) k = some v → allowed k v → Dict.get w.boxes k = some v) ∧
      ∀ k v x, Dict.get (values w) k = some v → allowed k v → allowed k x → ∃ w', (rhoClass s box).event w (.type k x) = .ok w' ∧
        Dict.get (values w') k = some x ∧ ∀ j, j ≠ k → Dict.get (values w') j = Dict.get (values w) j := by
  have hb : ∀ k x, box k (box k x) = box k x := fun k x => (hbox k).idem x
  obtain ⟨w0, w, h1, h2, h3⟩ := rho_ok h box hb st hs es he
  refine ⟨w0, w, h1, h2, fun k v hv ha => ?_, fun k v x hv ha hx => ?_⟩
  · rw [shown w h3 k, hv]
    exact congrArg some ((hbox k).same v ha)
  · obtain ⟨w', e1, -, e3, e4⟩ := typed (c := rhoClass s box) hb (fun p v hv => refresh_shows h p v hv) w h3 k v x hv ((hbox k).same v ha)
    refine ⟨w', e1, ?_, e4⟩
    rw [e3]
    exact congrArg some ((hbox k).same x hx)

/-- The same for `FitMuellerMatrix` windows. -/
theorem C101_mueller_window {s : MmSetup} {measured : List (ℝ × M4)} (h : MmDescribes s measured) (allowed : String → ℝ → Prop)
    (box : String → ℝ → ℝ) (hbox : ∀ k, Faithful (allowed k) (box k)) (st : State ℝ) (hs : Fresh st) (es : List (Event MmView)) (he : MmEvents es) :
    ∃ w0 w, mmInit s box st = .ok w0 ∧ (mmClass s box).run w0 es = .ok w ∧
      (∀ k v, Dict.get (values w) k = some v → allowed k v → Dict.get w.boxes k = some v) ∧
      ∀ k v x, Dict.get (values w) k = some v → allowed k v → allowed k x → ∃ w', (mmClass s box).event w (.type k x) = .ok w' ∧
        Dict.get (values w') k = some x ∧ ∀ j, j ≠ k → Dict.get (values w') j = Dict.get (values w) j := by
  have hb : ∀ k x, box k (box k x) = box k x := fun k x => (hbox k).idem x
  obtain ⟨w0, w, h1, h2, h3⟩ := mm_ok h box hb st hs es he
  refine ⟨w0, w, h1, h2, fun k v hv ha => ?_, fun k v x hv ha hx => ?_⟩
  · rw [shown w h3 k, hv]
    exact congrArg some ((hbox k).same v ha)
  · obtain ⟨w', e1, -, e3, e4⟩ := typed (c := mmClass s box) hb (fun p v hv => mmRefresh_shows h p v hv) w h3 k v x hv ((hbox k).same v ha)
    refine ⟨w', e1, ?_, e4⟩
    rw [e3]
    exact congrArg some ((hbox k).same x hx)

example : ∃ f, mmBox ⟨some 0, some 50⟩ = some f ∧ ∃ w0 w, rhoInit sampleSetup (fun _ => f) sampleState = .ok w0 ∧
    (rhoClass sampleSetup fun _ => f).run w0 sampleEvents = .ok w := by
  obtain ⟨f, h1, h2⟩ := C101_mueller_box ⟨some 0, some 50⟩ ⟨1, by intro l e; cases e; norm_num, by intro l e; cases e; norm_num⟩
  obtain ⟨w0, w, h3, h4, -⟩ := C101_rho_window sample_describes _ (fun _ => f) (fun _ => h2) _ sample_fresh _ sample_events
  exact ⟨f, h1, w0, w, h3, h4⟩

/-! ## C102 -/

/-- The ending of the column names. -/
def ending : Option (Dict ℝ) → String
  | none => "fit"
  | some _ => "model"

/-- C102, `FitRho.get_model_data`: psi and delta, or rho, of the model at the given parameters, or the fitted ones; after the measured
columns if wanted. -/
theorem C102_rho_data (h : Describes s measured sim) (fitted : Dict ℝ) (params : Option (Dict ℝ)) :
    rhoModelData s fitted params (.text "psi-delta") false = .ok [("Ψ_" ++ ending params, .real ((sim (params.getD fitted)).map fun c => c.1)),
      ("Δ_" ++ ending params, .real ((sim (params.getD fitted)).map fun c => c.2.1))] ∧
    rhoModelData s fitted params (.text "rho") false = .ok [("ρ_" ++ ending params, .complex ((sim (params.getD fitted)).map fun c => c.2.2))] ∧
    (∃ l, rhoModelData s fitted params (.text "psi-delta") true = .ok l ∧ l.length = 4 ∧ ∀ e ∈ ([
      ("Ψ", .real (measured.map fun m => m.2.1)), ("Δ", .real (measured.map fun m => m.2.2)),
      ("Ψ_" ++ ending params, .real ((sim (params.getD fitted)).map fun c => c.1)),
      ("Δ_" ++ ending params, .real ((sim (params.getD fitted)).map fun c => c.2.1))] : Dict Column), e ∈ l) ∧
    (∃ name, rhoModelData s fitted params (.text "rho") true = .ok [(name, .complex (measured.map fun m => ratio m.2.1 m.2.2)),
      ("ρ_" ++ ending params, .complex ((sim (params.getD fitted)).map fun c => c.2.2))]) ∧
    ∀ r, r ≠ "psi-delta" → r ≠ "rho" → ∀ a, rhoModelData s fitted params (.text r) a = .error .valueError := by
  have hi : s.index.length = measured.length := by rw [h.index]; simp
  have key : ∀ r : String, r = "psi-delta" ∨ r = "rho" → ∀ a, rhoModelData s fitted params (.text r) a = .ok (
      if a then (if r = "rho" then [("", Column.complex (measured.map fun m => ratio m.2.1 m.2.2))] else s.cols.map fun c => (c.1, Column.real c.2)) ++
        (if r = "rho" then [("ρ_" ++ ending params, .complex ((sim (params.getD fitted)).map fun c => c.2.2))]
          else [("Ψ_" ++ ending params, .real ((sim (params.getD fitted)).map fun c => c.1)),
            ("Δ_" ++ ending params, .real ((sim (params.getD fitted)).map fun c => c.2.1))])
      else (if r = "rho" then [("ρ_" ++ ending params, .complex ((sim (params.getD fitted)).map fun c => c.2.2))]
          else [("Ψ_" ++ ending params, .real ((sim (params.getD fitted)).map fun c => c.1)),
            ("Δ_" ++ ending params, .real ((sim (params.getD fitted)).map fun c => c.2.1))])) := by
    intro r hr a
    have h1 : ¬ (r ≠ "psi-delta" ∧ r ≠ "rho") := by tauto
    cases params with
    | none =>
      have hm := h.model fitted
      have hl := h.len fitted
      unfold rhoModelData
      simp only [if_neg h1, expRho_eq h, hm, ending, Option.getD_none]
      rw [if_neg (by simp [hl, hi])]
    | some p =>
      have hm := h.model p
      have hl := h.len p
      unfold rhoModelData
      simp only [if_neg h1, expRho_eq h, hm, ending, Option.getD_some]
      rw [if_neg (by simp [hl, hi])]
  refine ⟨?_, ?_, ?_, ⟨"", ?_⟩, ?_⟩
  · rw [key _ (Or.inl rfl)]; rfl
  · rw [key _ (Or.inr rfl)]; rfl
  · refine ⟨s.cols.map (fun c => (c.1, Column.real c.2)) ++ [("Ψ_" ++ ending params, .real ((sim (params.getD fitted)).map fun c => c.1)),
      ("Δ_" ++ ending params, .real ((sim (params.getD fitted)).map fun c => c.2.1))], ?_, ?_, ?_⟩
    · rw [key _ (Or.inl rfl)]; rfl
    · rcases h.cols with hc | hc <;> simp [hc]
    · rcases h.cols with hc | hc <;> simp [hc]
  · rw [key _ (Or.inr rfl)]; rfl
  · intro r h2 h3 a
    unfold rhoModelData
    simp only
    rw [if_pos ⟨h2, h3⟩]

example : rhoModelData sampleSetup [("d", 3)] none (.text "rho") false = .ok [("ρ_fit", .complex [1])] :=
  (C102_rho_data sample_describes [("d", 3)] none).2.1

/-- C102 fails for `FitRho.to_csv`: whatever the object and the arguments, it raises `ValueError` and writes nothing. -/
theorem C102_rho_csv_refuted (s : RhoSetup) (fitted : Dict ℝ) (params : Option (Dict ℝ)) (append : Bool) :
    rhoToCsv s fitted params append = .error .valueError := rfl

lemma get_append (a b : Dict ℝ) (k : String) : Dict.get (a ++ b) k = (Dict.get a k).or (Dict.get b k) := by
  induction a with
  | nil => rfl
  | cons p a ih =>
    by_cases h : p.1 = k
    · simp [Dict.get, h]
    · simp [Dict.get, h, ih]

lemma get_zip_none (k : String) : ∀ (cols : List String) (r : List ℝ), (∀ c ∈ cols, c ≠ k) → Dict.get (cols.zip r) k = none := by
  intro cols
  induction cols with
  | nil => intro r _; rfl
  | cons c cols ih =>
    intro r h
    cases r with
    | nil => rfl
    | cons x r => simp [Dict.get, h c (by simp), ih r fun d hd => h d (by simp [hd])]

lemma get_zip_suffix (suf k : String) : ∀ (cols : List String) (r : List ℝ),
    Dict.get ((cols.map fun c => c ++ suf).zip r) (k ++ suf) = Dict.get (cols.zip r) k := by
  intro cols
  induction cols with
  | nil => intro r; rfl
  | cons c cols ih =>
    intro r
    cases r with
    | nil => rfl
    | cons x r =>
      have : c ++ suf = k ++ suf ↔ c = k := by
        constructor
        · intro h
          have := congrArg String.toList h
          simp only [String.toList_append] at this
          exact String.toList_inj.1 (List.append_cancel_right this)
        · rintro rfl; rfl
      simp [Dict.get, this, ih r]

lemma label_length (i j : Fin 4) : (Spec.Fit.label i j).length = 3 := by
  revert i j
  decide

lemma label_ne (i j i' j' : Fin 4) (e : String) : Spec.Fit.label i j ++ ("_" ++ e) ≠ Spec.Fit.label i' j' := by
  intro h
  have := congrArg String.length h
  simp only [String.length_append, label_length] at this
  have h1 : ("_" : String).length = 1 := by decide
  omega

/-- C102 for `FitMuellerMatrix.get_model_data` and `to_csv`: the frame has in row `k` under `Mij_fit` (fitted parameters) or `Mij_model` (given ones)
the element of the model at wavelength `k`, and if wanted the measured ones under `Mij`. -/
theorem C102_mueller_csv {s : MmSetup} {measured : List (ℝ × M4)} (h : MmDescribes s measured) (fitted : Dict ℝ) (params : Option (Dict ℝ)) (append : Bool) :
    ∃ f, mmToCsv s fitted params append = .ok f ∧ mmModelData s fitted params append = .ok f ∧ f.rows.length = measured.length ∧
      ∀ k (hk : k < measured.length) (i j : Fin 4),
        (∃ m, (s.model s.index (params.getD fitted))[k]? = some m ∧
          f.cell k (Spec.Fit.label i j ++ ("_" ++ ending params)) = some (m i j)) ∧
        f.cell k (Spec.Fit.label i j) = if append then some (measured[k].2 i j) else none := by
  have hl := h.len (params.getD fitted)
  generalize hmodel : s.model s.index (params.getD fitted) = model at hl
  have hf : mmToFrame s.exp model (some (ending params)) = .ok ⟨spectrarayColumns.map fun c => c ++ ("_" ++ ending params), model.map row16⟩ := by
    unfold mmToFrame
    rw [h.exp]
    simp [hl, spectrarayColumns, String.append_assoc]
  have h16 : spectrarayColumns.length = 16 := rfl
  have hsuf : ∀ (m : M4) (i j : Fin 4), Dict.get ((spectrarayColumns.map fun c => c ++ ("_" ++ ending params)).zip (row16 m))
      (Spec.Fit.label i j ++ ("_" ++ ending params)) = some (m i j) := fun m i j => by rw [get_zip_suffix, cell_eq]
  have hn1 : ∀ (r : List ℝ) (i j : Fin 4), Dict.get ((spectrarayColumns.map fun c => c ++ ("_" ++ ending params)).zip r) (Spec.Fit.label i j) = none := by
    intro r i j
    apply get_zip_none
    intro c hc
    rw [columns_eq, List.map_map] at hc
    obtain ⟨e, -, rfl⟩ := List.mem_map.1 hc
    exact label_ne _ _ _ _ _
  have hn2 : ∀ (r : List ℝ) (i j : Fin 4), Dict.get (spectrarayColumns.zip r) (Spec.Fit.label i j ++ ("_" ++ ending params)) = none := by
    intro r i j
    apply get_zip_none
    intro c hc
    rw [columns_eq] at hc
    obtain ⟨e, -, rfl⟩ := List.mem_map.1 hc
    exact fun e => label_ne _ _ _ _ _ e.symm
  have hd : mmModelData s fitted params append = .ok (if append then
      ⟨spectrarayColumns ++ spectrarayColumns.map fun c => c ++ ("_" ++ ending params),
        List.zipWith (· ++ ·) (measured.map fun m => row16 m.2) (model.map row16)⟩
      else ⟨spectrarayColumns.map fun c => c ++ ("_" ++ ending params), model.map row16⟩) := by
    have e : mmModelData s fitted params append = match mmToFrame s.exp (s.model s.index (params.getD fitted)) (some (ending params)) with
        | .error e => .error e
        | .ok f => .ok (if append then ⟨s.exp.columns ++ f.columns, List.zipWith (· ++ ·) s.exp.rows f.rows⟩ else f) := by
      cases params <;> rfl
    rw [e, hmodel, hf]
    simp only
    rw [h.exp]
  refine ⟨_, hd, hd, ?_, fun k hk i j => ?_⟩
  · cases append <;> simp [hl]
  · have hk' : k < model.length := by omega
    cases append with
    | false =>
      simp only [Bool.false_eq_true, if_false, Frame.cell, List.getElem?_map, List.getElem?_eq_getElem hk', Option.map_some]
      exact ⟨⟨_, rfl, hsuf _ _ _⟩, hn1 _ _ _⟩
    | true =>
      have hz : (List.zipWith (· ++ ·) (measured.map fun m => row16 m.2) (model.map row16))[k]? = some (row16 measured[k].2 ++ row16 model[k]) := by
        simp [List.getElem?_zipWith, hk, hk']
      have hzip : ∀ a b : List ℝ, a.length = 16 → (spectrarayColumns ++ spectrarayColumns.map fun c => c ++ ("_" ++ ending params)).zip (a ++ b) =
          spectrarayColumns.zip a ++ (spectrarayColumns.map fun c => c ++ ("_" ++ ending params)).zip b :=
        fun a b hab => List.zip_append (by rw [h16, hab])
      simp only [if_true, Frame.cell, hz, hzip _ _ (show (row16 measured[k].2).length = 16 from rfl), get_append, hn1, hn2, hsuf, cell_eq,
        Option.or_some, Option.none_or, Option.or_none, List.getElem?_eq_getElem hk']
      exact ⟨⟨_, rfl, rfl⟩, trivial⟩

example : ∃ f, mmToCsv ⟨[500], ⟨spectrarayColumns, [row16 1]⟩, false, fun _ _ => [2]⟩ [("d", 1)] none true = .ok f ∧
    f.cell 0 (Spec.Fit.label 2 2) = some 1 := by
  obtain ⟨f, h1, -, -, h4⟩ := C102_mueller_csv (s := ⟨[500], ⟨spectrarayColumns, [row16 1]⟩, false, fun _ _ => [2]⟩)
    (measured := [(500, 1)]) ⟨rfl, rfl, fun _ => rfl⟩ [("d", 1)] none true
  refine ⟨f, h1, ?_⟩
  have := (h4 0 (by simp) 2 2).2
  simpa using this

end PyElli.FitWindow
