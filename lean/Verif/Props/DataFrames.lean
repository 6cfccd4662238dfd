import Verif.Model.DataFrames
import Verif.Props.Table

/-! # C110: data frames of dispersions list the values, and tables made of them reproduce them -/

namespace PyElli.Disp

lemma onArray_ok {f : ℝ → Val} {g : ℝ → Option ℂ} {l : List ℝ} (h : ∀ x ∈ l, f x = .ok (g x)) : onArray f l = .ok (l.map g) := by
  induction l with
  | nil => rfl
  | cons x xs ih =>
    rw [onArray, h x List.mem_cons_self, ih fun y hy => h y (List.mem_cons_of_mem _ hy)]
    rfl

lemma onArray_error {f : ℝ → Val} {l : List ℝ} {e : PyErr} (h : onArray f l = .error e) : ∃ x ∈ l, f x = .error e := by
  induction l with
  | nil => simp [onArray] at h
  | cons x xs ih =>
    rw [onArray] at h
    rcases hx : f x with e' | v
    · rw [hx] at h
      obtain rfl := Except.error.inj h
      exact ⟨x, List.mem_cons_self, hx⟩
    · rw [hx] at h
      rcases hr : onArray f xs with e' | vs
      · rw [hr] at h
        obtain rfl := Except.error.inj h
        obtain ⟨y, hy, hy'⟩ := ih hr
        exact ⟨y, List.mem_cons_of_mem _ hy, hy'⟩
      · rw [hr] at h
        exact absurd h (by simp)

lemma onArray_raises {f : ℝ → Val} {l : List ℝ} {x : ℝ} {e : PyErr} (hx : x ∈ l) (h : f x = .error e) :
    ∃ y ∈ l, ∃ e', f y = .error e' ∧ onArray f l = .error e' := by
  rcases hr : onArray f l with e' | vs
  · obtain ⟨y, hy, hy'⟩ := onArray_error hr
    exact ⟨y, hy, e', hy', rfl⟩
  · exfalso
    induction l generalizing vs with
    | nil => simp at hx
    | cons a as ih =>
      rw [onArray] at hr
      rcases ha : f a with e' | v
      · rw [ha] at hr; exact absurd hr (by simp)
      · rw [ha] at hr
        rcases List.mem_cons.1 hx with rfl | hx'
        · rw [h] at ha; exact absurd ha (by simp)
        · rcases hr' : onArray f as with e' | vs'
          · rw [hr'] at hr; exact absurd hr (by simp)
          · exact ih hx' vs' hr'

lemma onArray_values {f : ℝ → Val} {l : List ℝ} {vs : List (Option ℂ)} (h : onArray f l = .ok vs) : vs.length = l.length := by
  induction l generalizing vs with
  | nil => obtain rfl := Except.ok.inj h; rfl
  | cons x xs ih =>
    rw [onArray] at h
    rcases hx : f x with e' | v
    · rw [hx] at h; exact absurd h (by simp)
    · rw [hx] at h
      rcases hr : onArray f xs with e' | vs'
      · rw [hr] at h; exact absurd h (by simp)
      · rw [hr] at h
        obtain rfl := Except.ok.inj h
        simp [ih hr]

/-- C110: one row for each wavelength with the real and imaginary part of the dielectric function there (for index dispersions: of the
square of the refractive index). -/
theorem C110_rows (d : Src) (l : List ℝ) (v : ℝ → Option ℂ) (hv : ∀ x ∈ l, d.value x = .ok (v x)) :
    ∃ f, getDielectricDf d (some l) false = .ok f ∧ f.index = l ∧ f.col1.length = l.length ∧ f.col2.length = l.length ∧
      ∀ i (h : i < l.length), match v l[i] with
        | none => f.col1[i]? = some none ∧ f.col2[i]? = some none
        | some z => ∃ e1 e2 : ℝ, f.col1[i]? = some (some e1) ∧ f.col2[i]? = some (some e2) ∧
            (e1 + e2 * Complex.I : ℂ) = if d.isIndex then z ^ 2 else z := by
  have h : onArray d.dielectric l = .ok (l.map fun x => (v x).map fun z => if d.isIndex then z ^ 2 else z) := by
    refine onArray_ok fun x hx => ?_
    unfold Src.dielectric
    rw [hv x hx]
    cases d.isIndex
    · simp
    · simp [Val.app, Except.map]
  refine ⟨mkFrame l false (l.map fun x => (v x).map fun z => if d.isIndex then z ^ 2 else z), ?_, rfl, ?_, ?_, ?_⟩
  · unfold getDielectricDf getDielectric
    simp only [Option.getD_some]
    rw [h]
  · simp [mkFrame]
  · simp [mkFrame]
  · intro i hi
    rcases hz : v l[i] with _ | z
    · simp [mkFrame, hi, hz]
    · exact ⟨_, _, by simp only [mkFrame, List.getElem?_map, List.getElem?_eq_getElem hi, hz, Option.map_some], by simp only [mkFrame, List.getElem?_map, List.getElem?_eq_getElem hi, hz, Option.map_some, Bool.false_eq_true, ↓reduceIte], Complex.re_add_im _⟩

/-- C110: the frame of the refractive index lists numbers `n + ik` whose square is the dielectric function; it is the dispersion's own
index for index dispersions, and has `n ≥ 0`, and `k ≥ 0` for absorbing media, for dielectric functions. -/
theorem C110_index (d : Src) (l : List ℝ) (v : ℝ → Option ℂ) (hv : ∀ x ∈ l, d.value x = .ok (v x)) :
    ∃ f, getIndexDf d (some l) false = .ok f ∧ f.index = l ∧ f.col1.length = l.length ∧ f.col2.length = l.length ∧
      ∀ i (h : i < l.length), match v l[i] with
        | none => f.col1[i]? = some none ∧ f.col2[i]? = some none
        | some z => ∃ n k : ℝ, f.col1[i]? = some (some n) ∧ f.col2[i]? = some (some k) ∧
            (n + k * Complex.I : ℂ) ^ 2 = (if d.isIndex then z ^ 2 else z) ∧
            (d.isIndex = true → (n + k * Complex.I : ℂ) = z) ∧
            (d.isIndex = false → 0 ≤ n ∧ (0 ≤ z.im → 0 ≤ k)) := by
  have h : onArray d.refractiveIndex l = .ok (l.map fun x => (v x).map fun z => if d.isIndex then z else Complex.sqrt z) := by
    refine onArray_ok fun x hx => ?_
    unfold Src.refractiveIndex Src.dielectric
    rw [hv x hx]
    cases d.isIndex
    · simp [Val.app, Except.map]
    · simp
  refine ⟨mkFrame l false (l.map fun x => (v x).map fun z => if d.isIndex then z else Complex.sqrt z), ?_, rfl, ?_, ?_, ?_⟩
  · unfold getIndexDf getIndex
    simp only [Option.getD_some]
    rw [h]
  · simp [mkFrame]
  · simp [mkFrame]
  · intro i hi
    rcases hz : v l[i] with _ | z
    · simp [mkFrame, hi, hz]
    · refine ⟨(if d.isIndex then z else Complex.sqrt z).re, (if d.isIndex then z else Complex.sqrt z).im, by simp only [mkFrame, List.getElem?_map, List.getElem?_eq_getElem hi, hz, Option.map_some], by simp only [mkFrame, List.getElem?_map, List.getElem?_eq_getElem hi, hz, Option.map_some, Bool.false_eq_true, ↓reduceIte], ?_, ?_, ?_⟩
      · rw [Complex.re_add_im]
        cases d.isIndex
        · simp [csqrt_sq]
        · simp
      · intro hd
        rw [Complex.re_add_im, hd]; rfl
      · intro hd
        rw [hd]
        exact ⟨csqrt_re_nonneg z, csqrt_im_nonneg⟩

/-- C110: the frames are refused exactly when the dispersion refuses one of the wavelengths, with its exception. -/
theorem C110_raises (d : Src) (l : List ℝ) (c : Bool) :
    ((∃ e, getDielectricDf d (some l) c = .error e) ↔ ∃ x ∈ l, ∃ e, d.value x = .error e) ∧
    ((∃ e, getIndexDf d (some l) c = .error e) ↔ ∃ x ∈ l, ∃ e, d.value x = .error e) ∧
    (∀ e, getDielectricDf d (some l) c = .error e ∨ getIndexDf d (some l) c = .error e → ∃ x ∈ l, d.value x = .error e) := by
  have hD : ∀ x e, d.dielectric x = .error e ↔ d.value x = .error e := by
    intro x e
    unfold Src.dielectric
    cases d.isIndex
    · simp
    · simp only [↓reduceIte, Val.app]
      rcases d.value x with e' | o <;> simp [Except.map]
  have hN : ∀ x e, d.refractiveIndex x = .error e ↔ d.value x = .error e := by
    intro x e
    unfold Src.refractiveIndex
    cases hi : d.isIndex
    · rw [← hD]
      simp only [Bool.false_eq_true, ↓reduceIte, Val.app]
      rcases d.dielectric x with e' | o <;> simp [Except.map]
    · simp
  have h1 : ∀ e, getDielectricDf d (some l) c = .error e ↔ onArray d.dielectric l = .error e := by
    intro e
    unfold getDielectricDf getDielectric
    simp only [Option.getD_some]
    rcases onArray d.dielectric l with e' | vs <;> simp
  have h2 : ∀ e, getIndexDf d (some l) c = .error e ↔ onArray d.refractiveIndex l = .error e := by
    intro e
    unfold getIndexDf getIndex
    simp only [Option.getD_some]
    rcases onArray d.refractiveIndex l with e' | vs <;> simp
  refine ⟨⟨?_, ?_⟩, ⟨?_, ?_⟩, ?_⟩
  · rintro ⟨e, he⟩
    obtain ⟨x, hx, h⟩ := onArray_error ((h1 e).1 he)
    exact ⟨x, hx, e, (hD x e).1 h⟩
  · rintro ⟨x, hx, e, h⟩
    obtain ⟨y, hy, e', -, h'⟩ := onArray_raises hx ((hD x e).2 h)
    exact ⟨e', (h1 e').2 h'⟩
  · rintro ⟨e, he⟩
    obtain ⟨x, hx, h⟩ := onArray_error ((h2 e).1 he)
    exact ⟨x, hx, e, (hN x e).1 h⟩
  · rintro ⟨x, hx, e, h⟩
    obtain ⟨y, hy, e', -, h'⟩ := onArray_raises hx ((hN x e).2 h)
    exact ⟨e', (h2 e').2 h'⟩
  · rintro e (he | he)
    · obtain ⟨x, hx, h⟩ := onArray_error ((h1 e).1 he)
      exact ⟨x, hx, (hD x e).1 h⟩
    · obtain ⟨x, hx, h⟩ := onArray_error ((h2 e).1 he)
      exact ⟨x, hx, (hN x e).1 h⟩

lemma mkFrame_conj (l : List ℝ) (vs : List (Option ℂ)) : mkFrame l true vs =
    { mkFrame l false vs with col2 := (mkFrame l false vs).col2.map fun o => o.map fun k => -k } := by
  simp only [mkFrame, List.map_map, Frame.mk.injEq, true_and]
  refine List.map_congr_left fun v _ => ?_
  rcases v with _ | z <;> simp

/-- C110: with `conjugate=True` the second column has the opposite sign, everything else is the same. -/
theorem C110_conjugate (d : Src) (l : Option (List ℝ)) (f : Frame) :
    (getDielectricDf d l false = .ok f → getDielectricDf d l true = .ok ⟨f.index, f.col1, f.col2.map fun o => o.map fun k => -k⟩) ∧
    (getIndexDf d l false = .ok f → getIndexDf d l true = .ok ⟨f.index, f.col1, f.col2.map fun o => o.map fun k => -k⟩) := by
  constructor
  · intro h
    unfold getDielectricDf at h ⊢
    simp only at h ⊢
    rcases hg : getDielectric d (some (l.getD d.range)) with e | vs
    · rw [hg] at h; exact absurd h (by simp)
    · rw [hg] at h
      obtain rfl := Except.ok.inj h
      simp only [mkFrame_conj]
  · intro h
    unfold getIndexDf at h ⊢
    simp only at h ⊢
    rcases hg : getIndex d (some (l.getD d.range)) with e | vs
    · rw [hg] at h; exact absurd h (by simp)
    · rw [hg] at h
      obtain rfl := Except.ok.inj h
      simp only [mkFrame_conj]

/-- `f` has no missing values, `vs` are the complex numbers `col1 + 1j * col2` of its rows. -/
def Frame.IsComplex (f : Frame) (vs : List ℂ) : Prop := f.col1 = vs.map (fun z => some z.re) ∧ f.col2 = vs.map (fun z => some z.im)

lemma table_onArray {l : List ℝ} {vs : List ℂ} (hv : vs.length = l.length) (h2 : 2 ≤ l.length) (hd : l.Nodup) :
    ∃ t, mkTable l vs = .ok t ∧ onArray t.value l = .ok (vs.map some) := by
  have hl : l ≠ [] := by rintro rfl; simp at h2
  refine ⟨_, mkTable_ok l vs hl hv, ?_⟩
  have key : ∀ r ∈ l.zip vs, Table.value ⟨sortRows (l.zip vs)⟩ r.1 = .ok (some r.2) := by
    intro r hr
    obtain ⟨t, ht, h⟩ := C53_node l vs hv h2 hd r hr
    rw [mkTable_ok l vs hl hv] at ht
    obtain rfl := Except.ok.inj ht
    exact h
  generalize Table.value ⟨sortRows (l.zip vs)⟩ = F at key
  clear hd h2 hl
  induction l generalizing vs with
  | nil =>
    obtain rfl := List.length_eq_zero_iff.1 hv
    rfl
  | cons x xs ih =>
    rcases vs with _ | ⟨z, zs⟩
    · simp at hv
    · have h1 := key (x, z) (by simp)
      have h2 := ih (vs := zs) (by simpa using hv) fun r hr => key r (by rw [List.zip_cons_cons]; exact List.mem_cons_of_mem _ hr)
      simp only at h1
      rw [onArray, h1, h2]
      rfl

lemma Frame.of_isComplex {l : List ℝ} {os : List (Option ℂ)} {vs : List ℂ} (h : (mkFrame l false os).IsComplex vs) : os = vs.map some := by
  obtain ⟨h1, h2⟩ := h
  simp only [mkFrame, Bool.false_eq_true, ↓reduceIte] at h1 h2
  induction os generalizing vs with
  | nil =>
    rcases vs with _ | ⟨z, zs⟩
    · rfl
    · simp at h1
  | cons o os ih =>
    rcases vs with _ | ⟨z, zs⟩
    · simp at h1
    · simp only [List.map_cons, List.cons.injEq] at h1 h2 ⊢
      refine ⟨?_, ih h1.2 h2.2⟩
      rcases o with _ | w
      · simp at h1
      · simp only [Option.map_some, Option.some.injEq] at h1 h2 ⊢
        exact Complex.ext h1.1 h2.1

/-- C110: a `TableEpsilon` made of the frame of a dielectric function reproduces this frame. -/
theorem C110_round_trip (d : Src) (l : Option (List ℝ)) (f : Frame) (hf : getDielectricDf d l false = .ok f) (h2 : 2 ≤ f.index.length)
    (hd : f.index.Nodup) (vs : List ℂ) (hvs : f.IsComplex vs) :
    ∃ t, tableEpsilon f.index vs = .ok t ∧ getDielectricDf t none false = .ok f ∧ getDielectricDf t (some f.index) false = .ok f := by
  unfold getDielectricDf at hf
  simp only at hf
  rcases hg : getDielectric d (some (l.getD d.range)) with e | os
  · rw [hg] at hf; exact absurd hf (by simp)
  · rw [hg] at hf
    obtain rfl := Except.ok.inj hf
    have hos := Frame.of_isComplex hvs
    have hlen : vs.length = (l.getD d.range).length := by
      have := onArray_values hg
      rw [hos, List.length_map] at this
      exact this
    obtain ⟨t, ht, hn⟩ := table_onArray hlen h2 hd
    refine ⟨⟨false, t.value, l.getD d.range⟩, ?_, ?_, ?_⟩
    · unfold tableEpsilon
      simp only [mkFrame]
      rw [ht]
    all_goals
      unfold getDielectricDf getDielectric Src.dielectric
      simp only [Option.getD_none, Option.getD_some, Bool.false_eq_true, ↓reduceIte, mkFrame]
      rw [hn, hos]

/-- C110: a `Table` made of the frame of a refractive index reproduces this frame, and gives the dielectric function of the original. -/
theorem C110_round_trip_index (d : Src) (l : Option (List ℝ)) (f : Frame) (hf : getIndexDf d l false = .ok f) (h2 : 2 ≤ f.index.length)
    (hd : f.index.Nodup) (vs : List ℂ) (hvs : f.IsComplex vs) :
    ∃ t, tableIndex f.index vs = .ok t ∧ getIndexDf t none false = .ok f ∧
      getDielectricDf t none false = getDielectricDf d l false := by
  unfold getIndexDf at hf
  simp only at hf
  rcases hg : getIndex d (some (l.getD d.range)) with e | os
  · rw [hg] at hf; exact absurd hf (by simp)
  · rw [hg] at hf
    obtain rfl := Except.ok.inj hf
    have hos := Frame.of_isComplex hvs
    have hlen : vs.length = (l.getD d.range).length := by
      have := onArray_values hg
      rw [hos, List.length_map] at this
      exact this
    obtain ⟨t, ht, hn⟩ := table_onArray hlen h2 hd
    have sq : ∀ (F G : ℝ → Val) (l : List ℝ) (vs : List (Option ℂ)), onArray F l = .ok vs → (∀ x, G x = Val.app (· ^ 2) (F x)) →
        onArray G l = .ok (vs.map fun o => o.map (· ^ 2)) := by
      intro F G l
      induction l with
      | nil => intro vs h _; obtain rfl := Except.ok.inj h; rfl
      | cons x xs ih =>
        intro vs h hG
        rw [onArray] at h
        rcases hx : F x with e' | v
        · rw [hx] at h; exact absurd h (by simp)
        · rw [hx] at h
          rcases hr : onArray F xs with e' | vs'
          · rw [hr] at h; exact absurd h (by simp)
          · rw [hr] at h
            obtain rfl := Except.ok.inj h
            rw [onArray, hG x, hx, ih vs' hr hG]
            rfl
    refine ⟨⟨true, t.value, l.getD d.range⟩, ?_, ?_, ?_⟩
    · unfold tableIndex
      simp only [mkFrame]
      rw [ht]
    · unfold getIndexDf getIndex Src.refractiveIndex
      simp only [Option.getD_none, Option.getD_some, ↓reduceIte, mkFrame]
      rw [hn, hos]
    · have hd1 : onArray d.dielectric (l.getD d.range) = .ok (os.map fun o => o.map (· ^ 2)) := by
        refine sq _ _ _ _ hg fun x => ?_
        unfold Src.refractiveIndex Src.dielectric
        cases d.isIndex
        · simp only [Bool.false_eq_true, ↓reduceIte, Val.app]
          rcases d.value x with e' | o
          · rfl
          · rcases o with _ | z
            · rfl
            · simp [Except.map, csqrt_sq]
        · simp
      have hd2 : onArray (Src.dielectric ⟨true, t.value, l.getD d.range⟩) (l.getD d.range) = .ok (os.map fun o => o.map (· ^ 2)) := by
        rw [hos]
        exact sq _ _ _ _ hn fun x => rfl
      unfold getDielectricDf getDielectric
      simp only [Option.getD_none, Option.getD_some]
      rw [hd1, hd2]

lemma getDielectricDf_none (d : Src) (c : Bool) : getDielectricDf d none c = getDielectricDf d (some d.range) c := rfl

lemma getIndexDf_none (d : Src) (c : Bool) : getIndexDf d none c = getIndexDf d (some d.range) c := rfl

lemma sum_range (a b : Src) : (a.sum b).range = defaultRange := by
  unfold Src.sum Src.plain
  simp only

/-- C110: without wavelengths the rows are 200, 201, …, 1000 nm; for tables with at least two different wavelengths the tabulated ones,
which are never out of range. -/
theorem C110_default (isIndex : Bool) (value : ℝ → Val) :
    (∀ f c, getDielectricDf (.plain isIndex value) none c = .ok f → f.index.length = 801 ∧ ∀ i (h : i < f.index.length), f.index[i] = 200 + i) ∧
    (∀ l vs, vs.length = l.length → 2 ≤ l.length → l.Nodup → ∀ t, tableEpsilon l vs = .ok t ∨ tableIndex l vs = .ok t →
      ∀ c, ∃ f g, getDielectricDf t none c = .ok f ∧ getIndexDf t none c = .ok g ∧ f.index = l ∧ g.index = l) := by
  constructor
  · intro f c h
    unfold getDielectricDf at h
    simp only at h
    rcases hg : getDielectric (Src.plain isIndex value) (some (Option.getD none (Src.plain isIndex value).range)) with e | os
    · rw [hg] at h; exact absurd h (by simp)
    · rw [hg] at h
      obtain rfl := Except.ok.inj h
      simp only [mkFrame, Src.plain, Option.getD_none, defaultRange, List.length_map, List.length_range, List.getElem_map,
        List.getElem_range, true_and]
      intro i _
      norm_num
  · intro l vs hv h2 hd t ht c
    obtain ⟨T, hT, hn⟩ := table_onArray hv h2 hd
    have hform : ∃ b, t = ⟨b, T.value, l⟩ := by
      rcases ht with ht | ht
      · unfold tableEpsilon at ht; rw [hT] at ht; exact ⟨_, (Except.ok.inj ht).symm⟩
      · unfold tableIndex at ht; rw [hT] at ht; exact ⟨_, (Except.ok.inj ht).symm⟩
    obtain ⟨b, rfl⟩ := hform
    have noerr : ∀ x ∈ l, ∀ e, T.value x ≠ .error e := by
      intro x hx e he
      obtain ⟨y, hy, e', -, h⟩ := onArray_raises hx he
      rw [hn] at h
      exact absurd h (by simp)
    have hr := C110_raises ⟨b, T.value, l⟩ l c
    have n1 : ¬ ∃ x ∈ l, ∃ e, T.value x = .error e := by rintro ⟨x, hx, e, he⟩; exact noerr x hx e he
    have e1 : getDielectricDf ⟨b, T.value, l⟩ none c = getDielectricDf ⟨b, T.value, l⟩ (some l) c := rfl
    have e2 : getIndexDf ⟨b, T.value, l⟩ none c = getIndexDf ⟨b, T.value, l⟩ (some l) c := rfl
    rw [e1, e2]
    have g1 : ∀ f, getDielectricDf ⟨b, T.value, l⟩ (some l) c = .ok f → f.index = l := by
      intro f h
      unfold getDielectricDf at h
      simp only at h
      rcases hg : getDielectric ⟨b, T.value, l⟩ (some ((some l).getD l)) with e | os
      · rw [hg] at h; exact absurd h (by simp)
      · rw [hg] at h; obtain rfl := Except.ok.inj h; rfl
    have g2 : ∀ f, getIndexDf ⟨b, T.value, l⟩ (some l) c = .ok f → f.index = l := by
      intro f h
      unfold getIndexDf at h
      simp only at h
      rcases hg : getIndex ⟨b, T.value, l⟩ (some ((some l).getD l)) with e | os
      · rw [hg] at h; exact absurd h (by simp)
      · rw [hg] at h; obtain rfl := Except.ok.inj h; rfl
    rcases hf : getDielectricDf ⟨b, T.value, l⟩ (some l) c with e | f
    · exact absurd (hr.1.1 ⟨e, hf⟩) n1
    · rcases hg : getIndexDf ⟨b, T.value, l⟩ (some l) c with e | g
      · exact absurd (hr.2.1.1 ⟨e, hg⟩) n1
      · exact ⟨f, g, rfl, rfl, g1 f hf, g2 g hg⟩

/-- C110: the default range is not usable for every dispersion. The sum of a table that does not reach from 200 to 1000 nm and any other
dispersion takes the general range, not the table's: without wavelengths both frames raise an exception. -/
theorem C110_sum_default_refuted (l : List ℝ) (vs : List ℂ) (t d : Src) (ht : tableEpsilon l vs = .ok t ∨ tableIndex l vs = .ok t)
    (hl : (∀ x ∈ l, 200 < x) ∨ (∀ x ∈ l, x < 1000)) (c : Bool) :
    (∃ e, getDielectricDf (t.sum d) none c = .error e) ∧ (∃ e, getIndexDf (t.sum d) none c = .error e) := by
  have hform : ∃ T b, mkTable l vs = .ok T ∧ t = ⟨b, T.value, l⟩ := by
    rcases hT : mkTable l vs with e | T
    · rcases ht with ht | ht
      · unfold tableEpsilon at ht; rw [hT] at ht; exact absurd ht (by simp)
      · unfold tableIndex at ht; rw [hT] at ht; exact absurd ht (by simp)
    · rcases ht with ht | ht
      · unfold tableEpsilon at ht; rw [hT] at ht; exact ⟨T, false, rfl, (Except.ok.inj ht).symm⟩
      · unfold tableIndex at ht; rw [hT] at ht; exact ⟨T, true, rfl, (Except.ok.inj ht).symm⟩
  obtain ⟨T, b, hT, rfl⟩ := hform
  have mem : ∀ i : ℕ, i < 801 → (200 + (i : ℝ)) ∈ defaultRange := by
    intro i hi
    rw [defaultRange, List.mem_map]
    exact ⟨i, List.mem_range.2 hi, by norm_num⟩
  have key : ∃ x ∈ defaultRange, ∃ e, (Src.sum ⟨b, T.value, l⟩ d).value x = .error e := by
    rcases hl with h | h
    · refine ⟨200, by simpa using mem 0 (by norm_num), .valueError, ?_⟩
      have := ((C53_range l vs T hT 200).1).2 (Or.inl h)
      simp only [Src.sum, Src.plain, Val.add, this]
      rfl
    · refine ⟨1000, by have := mem 800 (by norm_num); norm_num at this; exact this, .valueError, ?_⟩
      have := ((C53_range l vs T hT 1000).1).2 (Or.inr h)
      simp only [Src.sum, Src.plain, Val.add, this]
      rfl
  have hr := C110_raises (Src.sum ⟨b, T.value, l⟩ d) defaultRange c
  rw [getDielectricDf_none, getIndexDf_none, sum_range]
  exact ⟨hr.1.2 key, hr.2.1.2 key⟩

section Examples

/-- A constant index 2 + 1i: the rows are n = 2, k = 1 and ϵ = 3 + 4i. -/
example : ∃ f g, getDielectricDf (.plain true fun _ => .ok (some (2 + Complex.I))) (some [400, 500]) false = .ok f ∧
    getIndexDf (.plain true fun _ => .ok (some (2 + Complex.I))) (some [400, 500]) true = .ok g ∧
    f.col1 = [some 3, some 3] ∧ f.col2 = [some 4, some 4] ∧ g.col1 = [some 2, some 2] ∧ g.col2 = [some (-1), some (-1)] := by
  refine ⟨_, _, rfl, rfl, ?_, ?_, ?_, ?_⟩ <;>
  · simp [mkFrame, pow_two]
    try norm_num

/-- The hypotheses of the round trip: two wavelengths, complete rows. -/
example : ∃ f, getDielectricDf (.plain false fun x => .ok (some (x + Complex.I))) (some [400, 500]) false = .ok f ∧ 2 ≤ f.index.length ∧
    f.index.Nodup ∧ f.IsComplex [400 + Complex.I, 500 + Complex.I] := by
  refine ⟨_, rfl, ?_, ?_, ?_, ?_⟩
  · simp [mkFrame]
  · simp [mkFrame]
  · simp [mkFrame]
  · simp [mkFrame]

/-- A table from 300 to 800 nm is outside of the general range. -/
example : ∃ t, tableEpsilon [300, 800] [2, 3] = .ok t ∧ ∀ x ∈ [(300 : ℝ), 800], 200 < x := by
  refine ⟨_, rfl, ?_⟩
  norm_num

end Examples

end PyElli.Disp
