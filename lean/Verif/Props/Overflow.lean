import Verif.Model.Overflow
import Verif.Props.ThickLayer
import Verif.Props.Energy
import Mathlib.Analysis.Complex.ExponentialBounds
import Mathlib.Analysis.Real.Pi.Bounds

/-! # Results and the range of double precision numbers (C112) -/

namespace PyElli

open Matrix Complex

/-! ## Arithmetic -/

lemma mulF_none_left (b : Fl) : mulF none b = none := rfl
lemma mulF_none_right (a : Fl) : mulF a none = none := by cases a <;> rfl
lemma addF_none_left (b : Fl) : addF none b = none := rfl
lemma addF_none_right (a : Fl) : addF a none = none := by cases a <;> rfl
lemma divF_none_left (u) (b : Fl) : divF u none b = none := rfl

lemma fl_some {z w : ℂ} (h : fl z = some w) : w = z := by
  unfold fl at h
  split_ifs at h
  exact (Option.some.inj h).symm

lemma mulF_some {a b : Fl} {w : ℂ} (h : mulF a b = some w) : ∃ x y, a = some x ∧ b = some y ∧ w = x * y := by
  cases a with
  | none => cases h
  | some x =>
    cases b with
    | none => cases h
    | some y =>
      simp only [mulF] at h
      split_ifs at h
      exact ⟨x, y, rfl, rfl, fl_some h⟩

lemma addF_some {a b : Fl} {w : ℂ} (h : addF a b = some w) : ∃ x y, a = some x ∧ b = some y ∧ w = x + y := by
  cases a with
  | none => cases h
  | some x =>
    cases b with
    | none => cases h
    | some y => exact ⟨x, y, rfl, rfl, fl_some h⟩

lemma divF_some {u} {a : Fl} {y w : ℂ} (h : divF u a (some y) = some w) : ∃ x, a = some x ∧ y ≠ 0 ∧ w = x / y := by
  cases a with
  | none => cases h
  | some x =>
    simp only [divF] at h
    split_ifs at h with h0
    exact ⟨x, rfl, h0, fl_some h⟩

/-- Where an array is finite it agrees with the matrix. -/
def Agree {n : ℕ} (F : MatF n) (A : Matrix (Fin n) (Fin n) ℂ) : Prop := ∀ i j z, F i j = some z → z = A i j

lemma agree_flMat {n : ℕ} (A : Matrix (Fin n) (Fin n) ℂ) : Agree (flMat A) A := fun _ _ _ h => fl_some h

lemma agree_mulF2 {F G : MatF 2} {A B : Mat2} (h1 : Agree F A) (h2 : Agree G B) : Agree (mulF2 F G) (A * B) := by
  intro i k z h
  obtain ⟨x, y, hx, hy, rfl⟩ := addF_some h
  obtain ⟨a, b, ha, hb, rfl⟩ := mulF_some hx
  obtain ⟨c, d, hc, hd, rfl⟩ := mulF_some hy
  rw [Matrix.mul_apply, Fin.sum_univ_two, h1 _ _ _ ha, h2 _ _ _ hb, h1 _ _ _ hc, h2 _ _ _ hd]

lemma agree_mulF4 {F G : MatF 4} {A B : Mat4} (h1 : Agree F A) (h2 : Agree G B) : Agree (mulF4 F G) (A * B) := by
  intro i k z h
  obtain ⟨x, y, hx, hy, rfl⟩ := addF_some h
  obtain ⟨x1, y1, hx1, hy1, rfl⟩ := addF_some hx
  obtain ⟨x2, y2, hx2, hy2, rfl⟩ := addF_some hx1
  obtain ⟨a, b, ha, hb, rfl⟩ := mulF_some hx2
  obtain ⟨c, d, hc, hd, rfl⟩ := mulF_some hy2
  obtain ⟨a1, b1, ha1, hb1, rfl⟩ := mulF_some hy1
  obtain ⟨c1, d1, hc1, hd1, rfl⟩ := mulF_some hy
  rw [Matrix.mul_apply, Fin.sum_univ_four, h1 _ _ _ ha, h2 _ _ _ hb, h1 _ _ _ hc, h2 _ _ _ hd, h1 _ _ _ ha1, h2 _ _ _ hb1, h1 _ _ _ hc1, h2 _ _ _ hd1]

/-! ## `Solver2x2` -/

lemma agree_layer (u) (delta r t : ℂ) : Agree (layerMatrixF u delta r t) (layerMatrix delta r t) := by
  intro i j z h
  fin_cases i <;> fin_cases j <;> simp [layerMatrixF, layerMatrix] at h ⊢
  · obtain ⟨x, hx, -, rfl⟩ := divF_some h
    rw [fl_some hx]
  · obtain ⟨x, hx, -, rfl⟩ := divF_some h
    obtain ⟨a, b, ha, hb, rfl⟩ := mulF_some hx
    rw [fl_some hb, Option.some.inj ha]
  · obtain ⟨x, hx, -, rfl⟩ := divF_some h
    obtain ⟨a, b, ha, hb, rfl⟩ := mulF_some hx
    rw [fl_some hb, Option.some.inj ha]
  · obtain ⟨x, hx, -, rfl⟩ := divF_some h
    rw [fl_some hx]

lemma agree_interface (u) (r t : ℂ) : Agree (interfaceMatrixF u r t) (interfaceMatrix r t) := by
  intro i j z h
  fin_cases i <;> fin_cases j <;> simp [interfaceMatrixF, interfaceMatrix] at h ⊢ <;>
  · obtain ⟨x, hx, -, rfl⟩ := divF_some h
    simp [← Option.some.inj hx]

lemma agree_loop (u) (lbda : ℝ) (last : Medium) (L : List (ℝ × Medium)) :
    ∀ (F G : MatF 2) (A B : Mat2), Agree F A → Agree G B →
      Agree (loop2x2F u lbda last F G L).1 (loop2x2 lbda last A B L).1 ∧ Agree (loop2x2F u lbda last F G L).2 (loop2x2 lbda last A B L).2 := by
  induction L with
  | nil => intro F G A B h1 h2; exact ⟨h1, h2⟩
  | cons l rest ih =>
    intro F G A B h1 h2
    obtain ⟨d, n, th⟩ := l
    exact ih _ _ _ _ (agree_mulF2 h1 (agree_layer u _ _ _)) (agree_mulF2 h2 (agree_layer u _ _ _))

/-- C112: where the numbers stay in range, the values are those of the exact calculation: a finite reflection coefficient with a finite
denominator is the exact one, for both polarisations and all stacks; the same for transmission. -/
theorem C112_range_2x2 (u : ℂ → Fl) (asin : ℂ → ℂ) (s : Stack) (theta lbda : ℝ) (z : ℂ) :
    ((matrices2x2F u asin s theta lbda).2 0 0 ≠ none →
      ((calculate2x2F u asin s theta lbda).1 = some z → z = (calculate2x2 asin s theta lbda).jr 0 0) ∧
      ((calculate2x2F u asin s theta lbda).2.2.1 = some z → z = (calculate2x2 asin s theta lbda).jt 0 0)) ∧
    ((matrices2x2F u asin s theta lbda).1 0 0 ≠ none →
      ((calculate2x2F u asin s theta lbda).2.1 = some z → z = (calculate2x2 asin s theta lbda).jr 1 1) ∧
      ((calculate2x2F u asin s theta lbda).2.2.2 = some z → z = (calculate2x2 asin s theta lbda).jt 1 1)) := by
  have hag : Agree (matrices2x2F u asin s theta lbda).1 (matrices2x2 asin s theta lbda).1 ∧
      Agree (matrices2x2F u asin s theta lbda).2 (matrices2x2 asin s theta lbda).2 :=
    agree_loop u lbda _ _ _ _ _ _ (agree_interface u _ _) (agree_interface u _ _)
  obtain ⟨hs, hp⟩ := hag
  refine ⟨fun h0 => ⟨fun h => ?_, fun h => ?_⟩, fun h0 => ⟨fun h => ?_, fun h => ?_⟩⟩
  · obtain ⟨y, hy⟩ := Option.ne_none_iff_exists'.1 h0
    simp only [calculate2x2F, hy] at h
    obtain ⟨x, hx, -, rfl⟩ := divF_some h
    simp [calculate2x2, hp _ _ _ hx, hp _ _ _ hy]
  · obtain ⟨y, hy⟩ := Option.ne_none_iff_exists'.1 h0
    simp only [calculate2x2F, hy] at h
    obtain ⟨x, hx, -, rfl⟩ := divF_some h
    simp [calculate2x2, ← Option.some.inj hx, hp _ _ _ hy]
  · obtain ⟨y, hy⟩ := Option.ne_none_iff_exists'.1 h0
    simp only [calculate2x2F, hy] at h
    obtain ⟨x, hx, -, rfl⟩ := divF_some h
    simp [calculate2x2, hs _ _ _ hx, hs _ _ _ hy]
  · obtain ⟨y, hy⟩ := Option.ne_none_iff_exists'.1 h0
    simp only [calculate2x2F, hy] at h
    obtain ⟨x, hx, -, rfl⟩ := divF_some h
    simp [calculate2x2, ← Option.some.inj hx, hs _ _ _ hy]

/-- `e^711` is too large. -/
lemma exp_big {y : ℝ} (h : 711 ≤ y) : √2 * 2 ^ 1024 ≤ Real.exp y := by
  have h1 : √2 ≤ 3 / 2 := by rw [Real.sqrt_le_left (by norm_num)]; norm_num
  have h2 : Real.exp 711 = Real.exp 1 ^ 711 := by rw [← Real.exp_nat_mul]; norm_num
  have h3 : (1359 / 500 : ℝ) ≤ Real.exp 1 := by have := Real.exp_one_gt_d9; norm_num at this ⊢; linarith
  have h4 : (1359 / 500 : ℝ) ^ 711 ≤ Real.exp 1 ^ 711 := pow_le_pow_left₀ (by norm_num) h3 711
  have h5 : (3 / 2 : ℝ) * 2 ^ 1024 ≤ (1359 / 500 : ℝ) ^ 711 := by
    have a1 : (19 / 10 : ℝ) * 2 ^ 113 ≤ (1359 / 500) ^ 79 := by norm_num
    have a2 := pow_le_pow_left₀ (by positivity) a1 9
    rw [mul_pow, ← pow_mul, ← pow_mul] at a2
    have a3 : (3 / 2 : ℝ) * 2 ^ 7 ≤ (19 / 10) ^ 9 := by norm_num
    calc (3 / 2 : ℝ) * 2 ^ 1024 = (3 / 2 * 2 ^ 7) * 2 ^ (113 * 9) := by rw [mul_assoc, ← pow_add]
      _ ≤ (19 / 10) ^ 9 * 2 ^ (113 * 9) := mul_le_mul_of_nonneg_right a3 (by positivity)
      _ ≤ _ := a2
  have h6 : √2 * 2 ^ 1024 ≤ (3 / 2 : ℝ) * 2 ^ 1024 := by gcongr
  calc _ ≤ _ := h6.trans (h5.trans h4)
    _ = Real.exp 711 := h2.symm
    _ ≤ _ := Real.exp_le_exp.2 h

lemma exp_big4 {y : ℝ} (h : 712 ≤ y) : 4 * (√2 * 2 ^ 1024) ≤ Real.exp y := by
  have h1 : √2 ≤ 3 / 2 := by rw [Real.sqrt_le_left (by norm_num)]; norm_num
  have h2 : Real.exp 712 = Real.exp 1 ^ 712 := by rw [← Real.exp_nat_mul]; norm_num
  have h3 : (1359 / 500 : ℝ) ≤ Real.exp 1 := by have := Real.exp_one_gt_d9; norm_num at this ⊢; linarith
  have h4 : (1359 / 500 : ℝ) ^ 712 ≤ Real.exp 1 ^ 712 := pow_le_pow_left₀ (by norm_num) h3 712
  have h5 : 4 * ((3 / 2 : ℝ) * 2 ^ 1024) ≤ (1359 / 500 : ℝ) ^ 712 := by
    have a1 : (13 / 10 : ℝ) * 2 ^ 128 ≤ (1359 / 500) ^ 89 := by norm_num
    have a2 := pow_le_pow_left₀ (by positivity) a1 8
    rw [mul_pow, ← pow_mul, ← pow_mul] at a2
    have a3 : 4 * (3 / 2 : ℝ) ≤ (13 / 10) ^ 8 := by norm_num
    calc 4 * ((3 / 2 : ℝ) * 2 ^ 1024) = (4 * (3 / 2)) * 2 ^ (128 * 8) := by rw [mul_assoc]
      _ ≤ (13 / 10) ^ 8 * 2 ^ (128 * 8) := mul_le_mul_of_nonneg_right a3 (by positivity)
      _ ≤ _ := a2
  have h6 : 4 * (√2 * 2 ^ 1024) ≤ 4 * ((3 / 2 : ℝ) * 2 ^ 1024) := by gcongr
  calc _ ≤ _ := h6.trans (h5.trans h4)
    _ = Real.exp 712 := h2.symm
    _ ≤ _ := Real.exp_le_exp.2 h

lemma not_inRange {z : ℂ} (h : √2 * 2 ^ 1024 ≤ ‖z‖) : fl z = none := by
  unfold fl
  rw [if_neg]
  rintro ⟨h1, h2⟩
  have h3 : ‖z‖ < √2 * 2 ^ 1024 := by
    rw [Complex.norm_def, Real.sqrt_lt' (by positivity), Complex.normSq_apply, mul_pow, Real.sq_sqrt (by norm_num)]
    have e1 : z.re ^ 2 < (2 ^ 1024) ^ 2 := sq_lt_sq.2 (by rwa [abs_of_pos (a := (2 : ℝ) ^ 1024) (pow_pos two_pos 1024)])
    have e2 : z.im ^ 2 < (2 ^ 1024) ^ 2 := sq_lt_sq.2 (by rwa [abs_of_pos (a := (2 : ℝ) ^ 1024) (pow_pos two_pos 1024)])
    generalize ((2 : ℝ) ^ 1024) ^ 2 = X at *
    linarith
  linarith

/-- Nothing in the array is finite. -/
def AllNone {n : ℕ} (F : MatF n) : Prop := ∀ i j, F i j = none

lemma allNone_mulF2_left {F G : MatF 2} (h : AllNone F) : AllNone (mulF2 F G) := by
  intro i k
  simp only [mulF2, h i 0, mulF_none_left, addF_none_left]

lemma allNone_loop (u) (lbda : ℝ) (last : Medium) (L : List (ℝ × Medium)) : ∀ (F G : MatF 2), AllNone F → AllNone G →
    AllNone (loop2x2F u lbda last F G L).1 ∧ AllNone (loop2x2F u lbda last F G L).2 := by
  induction L with
  | nil => intro F G h1 h2; exact ⟨h1, h2⟩
  | cons l rest ih =>
    intro F G h1 h2
    obtain ⟨d, n, th⟩ := l
    exact ih _ _ (allNone_mulF2_left h1) (allNone_mulF2_left h2)

lemma layer_overflow (u) {delta : ℂ} (r t : ℂ) (h : 711 ≤ |delta.im|) (F : MatF 2) : AllNone (mulF2 F (layerMatrixF u delta r t)) := by
  rcases le_abs'.1 h with h | h
  · have e : fl (Complex.exp (I * delta)) = none := by
      refine not_inRange ?_
      rw [Complex.norm_exp]
      simpa using exp_big (y := -delta.im) (by linarith)
    intro i k
    have h0 : layerMatrixF u delta r t 1 k = none := by
      unfold layerMatrixF
      rw [e]
      fin_cases k <;> rfl
    simp only [mulF2, h0, mulF_none_right, addF_none_right]
  · have e : fl (Complex.exp (-I * delta)) = none := by
      refine not_inRange ?_
      rw [Complex.norm_exp]
      simpa using exp_big h
    intro i k
    have h0 : layerMatrixF u delta r t 0 k = none := by
      unfold layerMatrixF
      rw [e]
      fin_cases k <;> rfl
    simp only [mulF2, h0, mulF_none_right, addF_none_left]

lemma loop_overflow (u) (lbda : ℝ) (last : Medium) (L : List (ℝ × Medium)) (h : ∃ l ∈ L, 711 ≤ |(phase2x2 lbda l.1 l.2.1 l.2.2).im|) :
    ∀ (F G : MatF 2), AllNone (loop2x2F u lbda last F G L).1 ∧ AllNone (loop2x2F u lbda last F G L).2 := by
  induction L with
  | nil => obtain ⟨l, hl, -⟩ := h; simp at hl
  | cons l rest ih =>
    intro F G
    obtain ⟨x, hx, hy⟩ := h
    obtain ⟨d, n, th⟩ := l
    rcases List.mem_cons.1 hx with rfl | hx
    · exact allNone_loop u lbda last rest _ _ (layer_overflow u _ _ hy F) (layer_overflow u _ _ hy G)
    · exact ih ⟨x, hx, hy⟩ _ _

/-- The imaginary part of the phase of an absorbing layer, up to sign. -/
lemma phase_absorbing (asin : ℂ → ℂ) (hasin : IsArcsin asin) (n0 theta lbda d : ℝ) (e : ℂ) (he : 0 < e.im) :
    |(phase2x2 lbda d (nOf (isoTensor e)) (snellAngle asin n0 theta (nOf (isoTensor e)))).im| =
      |2 * Real.pi / lbda * (Complex.sqrt (e - ((n0 * Real.sin (deg2rad theta)) ^ 2 : ℝ))).im * d| := by
  have he0 : e ≠ 0 := fun h => by rw [h] at he; simp at he
  have hn2 : nOf (isoTensor e) ^ 2 = e := by
    unfold nOf
    rw [csqrt_sq]
    simp [isoTensor]
  have hn : nOf (isoTensor e) ≠ 0 := fun h => he0 (by rw [← hn2, h]; simp)
  set th := snellAngle asin n0 theta (nOf (isoTensor e)) with hth
  have hsin : Complex.sin th = n0 * (Real.sin (deg2rad theta) : ℂ) / nOf (isoTensor e) := hasin _
  have hsq : (nOf (isoTensor e) * Complex.cos th) ^ 2 = Complex.sqrt (e - ((n0 * Real.sin (deg2rad theta)) ^ 2 : ℝ)) ^ 2 := by
    rw [csqrt_sq, mul_pow, Complex.cos_sq', hsin]
    rw [div_pow, mul_sub, hn2]
    push_cast
    field_simp
  have e1 : phase2x2 lbda d (nOf (isoTensor e)) th = ((2 * Real.pi / lbda * d : ℝ) : ℂ) * (nOf (isoTensor e) * Complex.cos th) := by
    unfold phase2x2
    push_cast
    ring
  rw [e1, Complex.im_ofReal_mul]
  rcases sq_eq_sq_iff_eq_or_eq_neg.1 hsq with h | h
  · rw [h]
    congr 1
    ring
  · rw [h, Complex.neg_im, mul_neg, abs_neg]
    congr 1
    ring

/-- `q` is the normal component of the wave vector, in units of `2π/λ`. -/
lemma kz_im_pos {e : ℂ} (he : 0 < e.im) (k : ℝ) : 0 < (Complex.sqrt (e - (k ^ 2 : ℝ))).im := by
  have h1 : (Complex.sqrt (e - (k ^ 2 : ℝ)) ^ 2).im = e.im := by rw [csqrt_sq]; simp [← Complex.ofReal_pow]
  have h2 : 0 ≤ (Complex.sqrt (e - (k ^ 2 : ℝ))).re := csqrt_re_nonneg _
  rw [pow_two, Complex.mul_im] at h1
  by_contra h
  push Not at h
  nlinarith

/-- C112 is false for `Solver2x2`: an isotropic absorbing layer (`Im ε > 0`) anywhere in any stack makes both reflection coefficients NaN as soon as
its thickness exceeds `711 λ / (2π Im k_z)`. -/
theorem C112_thick_2x2_refuted (u : ℂ → Fl) (asin : ℂ → ℂ) (hasin : IsArcsin asin) (s : Stack) (l₁ l₂ : List (ℝ × Tensor)) (e : ℂ) (he : 0 < e.im)
    (n0 theta lbda d : ℝ) (hn0 : 0 < n0) (hl : 0 < lbda) (hf : s.front 0 0 = ((n0 ^ 2 : ℝ) : ℂ))
    (hd : 711 ≤ 2 * Real.pi / lbda * (Complex.sqrt (e - ((n0 * Real.sin (deg2rad theta)) ^ 2 : ℝ))).im * d) :
    (calculate2x2F u asin (s.withLayers (l₁ ++ (d, isoTensor e) :: l₂)) theta lbda).1 = none ∧
    (calculate2x2F u asin (s.withLayers (l₁ ++ (d, isoTensor e) :: l₂)) theta lbda).2.1 = none := by
  have key : AllNone (matrices2x2F u asin (s.withLayers (l₁ ++ (d, isoTensor e) :: l₂)) theta lbda).1 ∧
      AllNone (matrices2x2F u asin (s.withLayers (l₁ ++ (d, isoTensor e) :: l₂)) theta lbda).2 := by
    refine loop_overflow u lbda _ _ ⟨(d, nOf (isoTensor e), snellAngle asin (nOf s.front) theta (nOf (isoTensor e))), ?_, ?_⟩ _ _
    · simp [innerMedia, Stack.withLayers]
    · have hnf := nOf_front hn0 hf
      rw [hnf, phase_absorbing asin hasin n0 theta lbda d e he]
      exact hd.trans (le_abs_self _)
  obtain ⟨h1, h2⟩ := key
  constructor
  · simp only [calculate2x2F, h2 1 0, divF_none_left]
  · simp only [calculate2x2F, h1 1 0, divF_none_left]

/-! ## `Solver4x4` -/

lemma mulF4_row {F : MatF 4} (G : MatF 4) {i j : Fin 4} (h : F i j = none) (k : Fin 4) : mulF4 F G i k = none := by
  fin_cases j <;> simp only [Fin.zero_eta, Fin.mk_one, Fin.reduceFinMk] at h <;>
    simp only [mulF4, h, mulF_none_left, addF_none_left, addF_none_right]

lemma mulF4_col (F : MatF 4) {G : MatF 4} {j k : Fin 4} (h : G j k = none) (i : Fin 4) : mulF4 F G i k = none := by
  fin_cases j <;> simp only [Fin.zero_eta, Fin.mk_one, Fin.reduceFinMk] at h <;>
    simp only [mulF4, h, mulF_none_right, addF_none_left, addF_none_right]

/-- A row without a finite entry. -/
def RowNone (F : MatF 4) : Prop := ∃ i, ∀ k, F i k = none

lemma rowNone_mulF4 (F : MatF 4) {G : MatF 4} (h : RowNone G) : AllNone (mulF4 F G) := by
  obtain ⟨j, hj⟩ := h
  exact fun i k => mulF4_col F (hj k) i

lemma allNone_row {F : MatF 4} (h : AllNone F) : RowNone F := ⟨0, h 0⟩

lemma loop4_foldr (prop : PropagatorF) (kx : ℂ) (lbda : ℝ) (L : List (ℝ × Tensor)) (exit : MatF 4) :
    loop4x4F prop kx lbda L exit = L.foldr (fun l m => mulF4 (prop (buildDelta kx l.2) (-l.1) lbda) m) exit := by
  unfold loop4x4F
  rw [List.foldl_reverse]

lemma loop4_overflow (prop : PropagatorF) (kx : ℂ) (lbda : ℝ) (exit : MatF 4) (L : List (ℝ × Tensor))
    (h : ∃ l ∈ L, ∃ i j, prop (buildDelta kx l.2) (-l.1) lbda i j = none) : RowNone (loop4x4F prop kx lbda L exit) := by
  rw [loop4_foldr]
  induction L with
  | nil => obtain ⟨l, hl, -⟩ := h; simp at hl
  | cons l rest ih =>
    obtain ⟨x, hx, i, j, hij⟩ := h
    rw [List.foldr_cons]
    rcases List.mem_cons.1 hx with rfl | hx
    · exact ⟨i, mulF4_row _ hij⟩
    · exact allNone_row (rowNone_mulF4 _ (ih ⟨x, hx, i, j, hij⟩))

/-- One non-finite entry of one propagator spoils both Jones matrices completely. -/
lemma calculate4_overflow (v) (prop : PropagatorF) (s : Stack) (theta lbda : ℝ) (ee)
    (h : ∃ l ∈ s.layers, ∃ i j, prop (buildDelta (kxOf s theta) l.2) (-l.1) lbda i j = none) :
    AllNone (calculate4x4F v prop s theta lbda ee).1 ∧ AllNone (calculate4x4F v prop s theta lbda ee).2 := by
  have hm : AllNone (transfer4x4F prop s theta lbda ee) := rowNone_mulF4 _ (loop4_overflow prop _ _ _ _ h)
  constructor
  · refine allNone_mulF2_left ?_
    intro i j
    fin_cases i <;> fin_cases j <;> exact hm _ _
  · intro i j
    simp [calculate4x4F, invF2, hm _ _]

/-- An eigenvector of a matrix is one of its exponential. -/
lemma exp_mulVec_eigen {A : Mat4} {v : Fin 4 → ℂ} {q : ℂ} (h : A *ᵥ v = q • v) : NormedSpace.exp A *ᵥ v = Complex.exp q • v := by
  let K : Mat4 := fun i _ => v i
  have hK : SemiconjBy K (Matrix.diagonal fun _ => q) A := by
    unfold SemiconjBy
    ext i j
    rw [Matrix.mul_diagonal, Matrix.mul_apply]
    have := congrFun h i
    simp only [Matrix.mulVec, dotProduct, Pi.smul_apply, smul_eq_mul] at this
    simp only [K]
    rw [this, mul_comm]
  let _ : NormedRing Mat4 := Matrix.linftyOpNormedRing
  let _ : NormedAlgebra ℝ Mat4 := Matrix.linftyOpNormedAlgebra
  let _ : NormedAlgebra ℚ Mat4 := NormedAlgebra.restrictScalars ℚ ℝ Mat4
  have h2 : K * NormedSpace.exp (Matrix.diagonal fun _ => q) = NormedSpace.exp A * K := hK.exp_right
  funext i
  have h3 := congrFun (congrFun h2 i) 0
  rw [Matrix.exp_diagonal, Matrix.mul_diagonal, Matrix.mul_apply, Pi.coe_exp, ← Complex.exp_eq_exp_ℂ] at h3
  simp only [Matrix.mulVec, dotProduct, Pi.smul_apply, smul_eq_mul]
  rw [mul_comm, ← h3]

/-- A matrix with a large eigenvalue has a large entry. -/
lemma entry_of_eigen {A : Mat4} {v : Fin 4 → ℂ} {q : ℂ} (h : A *ᵥ v = q • v) (hv : v ≠ 0) : ∃ i j, ‖q‖ ≤ 4 * ‖A i j‖ := by
  obtain ⟨i, -, hi⟩ := Finset.exists_max_image Finset.univ (fun i => ‖v i‖) ⟨0, Finset.mem_univ _⟩
  have hpos : 0 < ‖v i‖ := by
    obtain ⟨k, hk⟩ := Function.ne_iff.1 hv
    exact lt_of_lt_of_le (norm_pos_iff.2 hk) (hi k (Finset.mem_univ _))
  obtain ⟨j, -, hj⟩ := Finset.exists_max_image Finset.univ (fun j => ‖A i j‖) ⟨0, Finset.mem_univ _⟩
  refine ⟨i, j, ?_⟩
  have h1 := congrArg norm (congrFun h i)
  simp only [Matrix.mulVec, dotProduct, Pi.smul_apply, smul_eq_mul, norm_mul] at h1
  have h2 : ‖∑ k, A i k * v k‖ ≤ ∑ _k : Fin 4, ‖A i j‖ * ‖v i‖ := by
    refine (norm_sum_le _ _).trans (Finset.sum_le_sum fun k _ => ?_)
    rw [norm_mul]
    exact mul_le_mul (hj k (Finset.mem_univ _)) (hi k (Finset.mem_univ _)) (norm_nonneg _) (norm_nonneg _)
  rw [h1] at h2
  simp only [Finset.sum_const, Finset.card_univ, Fintype.card_fin, nsmul_eq_mul] at h2
  push_cast at h2
  rw [← mul_assoc] at h2
  exact le_of_mul_le_mul_right h2 hpos

/-- C112 is false for `Solver4x4` with `PropagatorExpm`: if the delta matrix of a layer (of any symmetry) has an eigenvalue `q` with `Im q > 0`, no entry
of the Jones matrices is finite as soon as the thickness exceeds `712 λ / (2π Im q)`. -/
theorem C112_thick_expm_refuted (v) (s : Stack) (theta lbda : ℝ) (ee) (l : ℝ × Tensor) (hl : l ∈ s.layers) (q : ℂ) (x : Fin 4 → ℂ) (hx : x ≠ 0)
    (hq : buildDelta (kxOf s theta) l.2 *ᵥ x = q • x) (hd : 712 ≤ 2 * Real.pi / lbda * q.im * l.1) :
    AllNone (calculate4x4F v propExpmF s theta lbda ee).1 ∧ AllNone (calculate4x4F v propExpmF s theta lbda ee).2 := by
  refine calculate4_overflow v _ s theta lbda ee ⟨l, hl, ?_⟩
  have h1 : ((I * ((-l.1 : ℝ) : ℂ)) • ((wavenumber lbda : ℂ) • buildDelta (kxOf s theta) l.2)) *ᵥ x = (I * ((-l.1 : ℝ) : ℂ) * ((wavenumber lbda : ℂ) * q)) • x := by
    rw [Matrix.smul_mulVec, Matrix.smul_mulVec, hq, smul_smul, smul_smul, mul_assoc]
  obtain ⟨i, j, hij⟩ := entry_of_eigen (exp_mulVec_eigen h1) hx
  refine ⟨i, j, not_inRange ?_⟩
  rw [Complex.norm_exp] at hij
  have h2 : (I * ((-l.1 : ℝ) : ℂ) * ((wavenumber lbda : ℂ) * q)).re = 2 * Real.pi / lbda * q.im * l.1 := by
    simp [wavenumber]
    ring
  rw [h2] at hij
  have h3 := exp_big4 hd
  change _ ≤ ‖propExpm _ _ _ _ _‖
  unfold propExpm
  linarith

/-- The same for `PropagatorEig`, whatever eigenvectors `np.linalg.eig` returns. -/
theorem C112_thick_eig_refuted (v) (eig : Mat4 → (Fin 4 → ℂ) × Mat4) (s : Stack) (theta lbda : ℝ) (ee) (l : ℝ × Tensor) (hl : l ∈ s.layers) (k : Fin 4)
    (hd : 711 ≤ 2 * Real.pi / lbda * ((eig (buildDelta (kxOf s theta) l.2)).1 k).im * l.1) :
    AllNone (calculate4x4F v (propEigF eig) s theta lbda ee).1 ∧ AllNone (calculate4x4F v (propEigF eig) s theta lbda ee).2 := by
  refine calculate4_overflow v _ s theta lbda ee ⟨l, hl, 0, 0, ?_⟩
  set q := (eig (buildDelta (kxOf s theta) l.2)).1 with hq
  obtain ⟨a, ha⟩ := (takeIdx_bijective (lexLe q)).2 k
  have e : fl (Complex.exp (q (takeIdx (argsort (lexLe q)) (argsort_length _) a) * (2 * I) * ((-l.1 : ℝ) : ℂ) * Real.pi / lbda)) = none := by
    refine not_inRange ?_
    rw [Complex.norm_exp, ha]
    have h2 : (q k * (2 * I) * ((-l.1 : ℝ) : ℂ) * Real.pi / lbda).re = 2 * Real.pi / lbda * (q k).im * l.1 := by
      rw [show q k * (2 * I) * ((-l.1 : ℝ) : ℂ) * Real.pi / lbda = ((2 * Real.pi / lbda * l.1 : ℝ) : ℂ) * (-(I * q k)) by push_cast; ring]
      rw [Complex.re_ofReal_mul]
      simp
      ring
    rw [h2]
    exact exp_big hd
  unfold propEigF
  refine mulF4_row _ (j := a) ?_ 0
  refine mulF4_col _ (j := a) ?_ 0
  simp only [if_true]
  exact e

lemma agree_eig {eig : Mat4 → (Fin 4 → ℂ) × Mat4} (delta : Mat4) (t lbda : ℝ) :
    Agree (propEigF eig delta t lbda) (propEig (eig delta).1 (eig delta).2 t lbda) := by
  unfold propEigF propEig
  refine agree_mulF4 (agree_mulF4 (agree_flMat _) ?_) (agree_flMat _)
  intro i j z h
  by_cases hij : i = j
  · subst hij
    simp only [if_true] at h
    rw [fl_some h]
    simp
  · simp only [hij, if_false] at h
    rw [Matrix.diagonal_apply_ne _ hij, ← Option.some.inj h]

lemma agree_transfer {propF : PropagatorF} {prop : Propagator} (hp : ∀ delta t lbda, Agree (propF delta t lbda) (prop delta t lbda)) (s : Stack) (theta lbda : ℝ) (ee) :
    Agree (transfer4x4F propF s theta lbda ee) (transfer4x4 prop s theta lbda ee) := by
  unfold transfer4x4F transfer4x4
  refine agree_mulF4 (agree_flMat _) ?_
  rw [loop4_foldr, loop4x4, List.foldl_reverse]
  induction s.layers with
  | nil => exact agree_flMat _
  | cons l rest ih => exact agree_mulF4 (hp _ _ _) ih

/-- C112: where the transfer matrix stays in range, every finite entry of the Jones matrices is the exact one. For both propagators. -/
theorem C112_range_4x4 (v) (eig : Mat4 → (Fin 4 → ℂ) × Mat4) (s : Stack) (theta lbda : ℝ) (ee) :
    ∀ P : PropagatorF × Propagator, P = (propExpmF, propExpm) ∨ P = (propEigF eig, fun delta => propEig (eig delta).1 (eig delta).2) →
      (∀ i ∈ [(0 : Fin 4), 2], ∀ j ∈ [(0 : Fin 4), 2], transfer4x4F P.1 s theta lbda ee i j ≠ none) →
      ∀ i j z, ((calculate4x4F v P.1 s theta lbda ee).1 i j = some z → z = (calculate4x4 P.2 s theta lbda ee).jr i j) ∧
        ((calculate4x4F v P.1 s theta lbda ee).2 i j = some z → z = (calculate4x4 P.2 s theta lbda ee).jt i j) := by
  rintro ⟨propF, prop⟩ hP hfin
  have hp : ∀ delta t lbda, Agree (propF delta t lbda) (prop delta t lbda) := by
    rcases hP with h | h <;> obtain ⟨rfl, rfl⟩ := Prod.mk.inj h
    · exact fun _ _ _ => agree_flMat _
    · exact fun _ _ _ => agree_eig _ _ _
  have hm := agree_transfer hp s theta lbda ee
  simp only at hfin
  obtain ⟨a, ha⟩ := Option.ne_none_iff_exists'.1 (hfin 2 (by simp) 2 (by simp))
  obtain ⟨b, hb⟩ := Option.ne_none_iff_exists'.1 (hfin 2 (by simp) 0 (by simp))
  obtain ⟨c, hc⟩ := Option.ne_none_iff_exists'.1 (hfin 0 (by simp) 2 (by simp))
  obtain ⟨d, hd⟩ := Option.ne_none_iff_exists'.1 (hfin 0 (by simp) 0 (by simp))
  have hinv : Agree (calculate4x4F v propF s theta lbda ee).2 (calculate4x4 prop s theta lbda ee).jt := by
    intro i j z h
    simp only [calculate4x4F, invF2, Matrix.cons_val_zero, Matrix.cons_val_one, ha, hb, hc, hd] at h
    split_ifs at h
    rw [fl_some h]
    simp only [calculate4x4, tIt, hm _ _ _ ha, hm _ _ _ hb, hm _ _ _ hc, hm _ _ _ hd]
  intro i j z
  refine ⟨fun h => ?_, fun h => hinv _ _ _ h⟩
  refine agree_mulF2 (A := tRt (transfer4x4 prop s theta lbda ee)) ?_ hinv i j z h
  intro i j z h
  fin_cases i <;> fin_cases j <;> exact hm _ _ _ h

/-- C112: as long as the transfer matrix stays in range, an entry of the transmission Jones matrix is a number exactly if the block that is inverted is
regular and the exact entry is in range. -/
theorem C112_transmission_4x4 (v) (eig : Mat4 → (Fin 4 → ℂ) × Mat4) (s : Stack) (theta lbda : ℝ) (ee) :
    ∀ P : PropagatorF × Propagator, P = (propExpmF, propExpm) ∨ P = (propEigF eig, fun delta => propEig (eig delta).1 (eig delta).2) →
      (∀ i ∈ [(0 : Fin 4), 2], ∀ j ∈ [(0 : Fin 4), 2], transfer4x4F P.1 s theta lbda ee i j ≠ none) →
      ∀ i j z, (calculate4x4F v P.1 s theta lbda ee).2 i j = some z ↔
        transfer4x4 P.2 s theta lbda ee 2 2 * transfer4x4 P.2 s theta lbda ee 0 0 ≠
          transfer4x4 P.2 s theta lbda ee 2 0 * transfer4x4 P.2 s theta lbda ee 0 2 ∧
        z = (calculate4x4 P.2 s theta lbda ee).jt i j ∧ InRange z := by
  rintro ⟨propF, prop⟩ hP hfin i j z
  have hp : ∀ delta t lbda, Agree (propF delta t lbda) (prop delta t lbda) := by
    rcases hP with h | h <;> obtain ⟨rfl, rfl⟩ := Prod.mk.inj h
    · exact fun _ _ _ => agree_flMat _
    · exact fun _ _ _ => agree_eig _ _ _
  have hm := agree_transfer hp s theta lbda ee
  simp only at hfin
  obtain ⟨a, ha⟩ := Option.ne_none_iff_exists'.1 (hfin 2 (by simp) 2 (by simp))
  obtain ⟨b, hb⟩ := Option.ne_none_iff_exists'.1 (hfin 2 (by simp) 0 (by simp))
  obtain ⟨c, hc⟩ := Option.ne_none_iff_exists'.1 (hfin 0 (by simp) 2 (by simp))
  obtain ⟨d, hd⟩ := Option.ne_none_iff_exists'.1 (hfin 0 (by simp) 0 (by simp))
  simp only [calculate4x4F, invF2, Matrix.cons_val_zero, Matrix.cons_val_one, ha, hb, hc, hd, calculate4x4, tIt, ← hm _ _ _ ha,
    ← hm _ _ _ hb, ← hm _ _ _ hc, ← hm _ _ _ hd, fl, ne_eq, ← sub_eq_zero (a := a * d)]
  by_cases h0 : a * d - b * c = 0
  · simp [h0]
  · rw [if_neg h0]
    by_cases h1 : InRange ((!![a, b; c, d] : Mat2)⁻¹ i j)
    · rw [if_pos h1]
      constructor
      · intro h
        obtain rfl := Option.some.inj h
        exact ⟨h0, rfl, h1⟩
      · rintro ⟨-, rfl, -⟩
        rfl
    · rw [if_neg h1]
      constructor
      · intro h
        cases h
      · rintro ⟨-, rfl, h⟩
        exact (h1 h).elim

/-- C112 in one sentence, for isotropic absorbing layers: beyond a certain thickness neither solver returns a number for the reflection, although the exact
reflection tends to that of the bulk. -/
theorem C112_thick_layer_refuted (u : ℂ → Fl) (v) (asin : ℂ → ℂ) (hasin : IsArcsin asin) (s : Stack) (l₁ l₂ : List (ℝ × Tensor)) (e : ℂ) (he : 0 < e.im) (theta lbda : ℝ)
    (h : PassiveStack (s.withLayers (l₁ ++ l₂)) theta lbda) (ee) :
    (∃ D : ℝ, ∀ d, D ≤ d →
      (calculate2x2F u asin (s.withLayers (l₁ ++ (d, isoTensor e) :: l₂)) theta lbda).1 = none ∧
      (calculate2x2F u asin (s.withLayers (l₁ ++ (d, isoTensor e) :: l₂)) theta lbda).2.1 = none ∧
      AllNone (calculate4x4F v propExpmF (s.withLayers (l₁ ++ (d, isoTensor e) :: l₂)) theta lbda ee).1) ∧
    Filter.Tendsto (fun d : ℝ => (calculate4x4 propExpm (s.withLayers (l₁ ++ (d, isoTensor e) :: l₂)) theta lbda ee).jr) Filter.atTop
      (nhds (calculate4x4 propExpm ⟨s.front, l₁, isoTensor e, true⟩ theta lbda ee).jr) := by
  refine ⟨?_, (C92_opaque_limit s l₁ l₂ e he theta lbda h ee).1⟩
  obtain ⟨n0, hn0, hf⟩ := h.front
  have hf' : s.front 0 0 = ((n0 ^ 2 : ℝ) : ℂ) := hf
  have hlb := h.lbda_pos
  have hq := kz_im_pos he (n0 * Real.sin (deg2rad theta))
  set q := Complex.sqrt (e - ((n0 * Real.sin (deg2rad theta)) ^ 2 : ℝ)) with hqd
  have hk : 0 < 2 * Real.pi / lbda * q.im := by have := Real.pi_pos; positivity
  refine ⟨712 / (2 * Real.pi / lbda * q.im), fun d hd => ?_⟩
  rw [div_le_iff₀ hk, mul_comm d] at hd
  obtain ⟨h1, h2⟩ := C112_thick_2x2_refuted u asin hasin s l₁ l₂ e he n0 theta lbda d hn0 hlb hf' (by rw [← hqd]; linarith)
  refine ⟨h1, h2, (C112_thick_expm_refuted v _ theta lbda ee (d, isoTensor e) (by simp [Stack.withLayers]) q ![0, 1, -q, 0] ?_ ?_ hd).1⟩
  · intro h0
    have := congrFun h0 1
    simp at this
  · have hkx : kxOf (s.withLayers (l₁ ++ (d, isoTensor e) :: l₂)) theta = ((n0 * Real.sin (deg2rad theta) : ℝ) : ℂ) := by
      unfold kxOf
      rw [nOf_front hn0 (s := s.withLayers (l₁ ++ (d, isoTensor e) :: l₂)) hf']
      push_cast
      rfl
    have hq2 : q ^ 2 = e - ((n0 * Real.sin (deg2rad theta) : ℝ) : ℂ) ^ 2 := by rw [hqd, csqrt_sq]; push_cast; rfl
    rw [hkx]
    generalize ((n0 * Real.sin (deg2rad theta) : ℝ) : ℂ) = kx at hq2
    funext i
    fin_cases i
    · simp [buildDelta, isoTensor, Matrix.mulVec, dotProduct, Fin.sum_univ_four]
    · simp [buildDelta, isoTensor, Matrix.mulVec, dotProduct, Fin.sum_univ_four]
    · simp [buildDelta, isoTensor, Matrix.mulVec, dotProduct, Fin.sum_univ_four]
      linear_combination hq2
    · simp [buildDelta, isoTensor, Matrix.mulVec, dotProduct, Fin.sum_univ_four]

/-! ## Stacks that are thin enough -/

/-- Size of the numbers of one loop step: `r`, `exp (|Im δ|)` and `1/t`, each at least 1. -/
noncomputable def stepSize (delta r t : ℂ) : ℝ := max 1 ‖r‖ * Real.exp |delta.im| * max 1 (1 / ‖t‖)

/-- Product of the sizes over the layers, with a factor 2 for each matrix product; `pol` picks `(r, t)` out of the Fresnel coefficients. -/
noncomputable def stackSize (lbda : ℝ) (last : Medium) (pol : ℂ × ℂ × ℂ × ℂ → ℂ × ℂ) : List (ℝ × Medium) → ℝ
  | [] => 1
  | (d, n, th) :: rest =>
    let nx := nextMedium rest last
    let f := pol (fresnel n nx.1 th nx.2)
    2 * stepSize (phase2x2 lbda d n th) f.1 f.2 * stackSize lbda last pol rest

/-- No interface is degenerate (`t ≠ 0`). -/
def Transmits (last : Medium) (pol : ℂ × ℂ × ℂ × ℂ → ℂ × ℂ) : List (ℝ × Medium) → Prop
  | [] => True
  | (_, n, th) :: rest => (pol (fresnel n (nextMedium rest last).1 th (nextMedium rest last).2)).2 ≠ 0 ∧ Transmits last pol rest

def polS (f : ℂ × ℂ × ℂ × ℂ) : ℂ × ℂ := (f.1, f.2.2.1)
def polP (f : ℂ × ℂ × ℂ × ℂ) : ℂ × ℂ := (f.2.1, f.2.2.2)

lemma stepSize_one (delta r t : ℂ) : 1 ≤ stepSize delta r t := by
  have h1 : 1 ≤ max 1 ‖r‖ := le_max_left _ _
  have h2 : 1 ≤ Real.exp |delta.im| := Real.one_le_exp (abs_nonneg _)
  have h3 : 1 ≤ max 1 (1 / ‖t‖) := le_max_left _ _
  unfold stepSize
  have := one_le_mul_of_one_le_of_one_le h1 h2
  exact one_le_mul_of_one_le_of_one_le this h3

lemma stackSize_one (lbda : ℝ) (last : Medium) (pol) (L : List (ℝ × Medium)) : 1 ≤ stackSize lbda last pol L := by
  induction L with
  | nil => exact le_rfl
  | cons l rest ih =>
    obtain ⟨d, n, th⟩ := l
    have h1 := stepSize_one (phase2x2 lbda d n th) (pol (fresnel n (nextMedium rest last).1 th (nextMedium rest last).2)).1 (pol (fresnel n (nextMedium rest last).1 th (nextMedium rest last).2)).2
    show 1 ≤ 2 * stepSize _ _ _ * stackSize lbda last pol rest
    exact one_le_mul_of_one_le_of_one_le (by linarith) ih

lemma fl_of_norm {z : ℂ} (h : ‖z‖ < 2 ^ 1024) : fl z = some z := by
  unfold fl
  rw [if_pos ⟨(Complex.abs_re_le_norm z).trans_lt h, (Complex.abs_im_le_norm z).trans_lt h⟩]

lemma mulF_of_norm {a b : ℂ} (h : ‖a‖ * ‖b‖ < 2 ^ 1024) : mulF (some a) (some b) = some (a * b) := by
  have key : ∀ x y : ℝ, |x| ≤ ‖a‖ → |y| ≤ ‖b‖ → |x * y| < 2 ^ 1024 := fun x y hx hy => by
    rw [abs_mul]
    exact (mul_le_mul hx hy (abs_nonneg _) (norm_nonneg _)).trans_lt h
  simp only [mulF]
  rw [if_pos ⟨key _ _ (Complex.abs_re_le_norm a) (Complex.abs_re_le_norm b), key _ _ (Complex.abs_im_le_norm a) (Complex.abs_im_le_norm b),
    key _ _ (Complex.abs_re_le_norm a) (Complex.abs_im_le_norm b), key _ _ (Complex.abs_im_le_norm a) (Complex.abs_re_le_norm b)⟩, fl_of_norm (by rwa [norm_mul])]

/-- All entries finite, exact and at most `B`. -/
def Bounded (F : MatF 2) (A : Mat2) (B : ℝ) : Prop := ∀ i j, F i j = some (A i j) ∧ ‖A i j‖ ≤ B

lemma bounded_mulF2 {F G : MatF 2} {A C : Mat2} {B D : ℝ} (h1 : Bounded F A B) (h2 : Bounded G C D) (hlt : 2 * (B * D) < 2 ^ 1024) :
    Bounded (mulF2 F G) (A * C) (2 * (B * D)) := by
  intro i k
  have hB : 0 ≤ B := (norm_nonneg _).trans (h1 0 0).2
  have hD : 0 ≤ D := (norm_nonneg _).trans (h2 0 0).2
  have hBD : 0 ≤ B * D := mul_nonneg hB hD
  have e : ∀ j, mulF (F i j) (G j k) = some (A i j * C j k) ∧ ‖A i j * C j k‖ ≤ B * D := fun j => by
    have hn : ‖A i j‖ * ‖C j k‖ ≤ B * D := mul_le_mul (h1 i j).2 (h2 j k).2 (norm_nonneg _) hB
    rw [(h1 i j).1, (h2 j k).1, norm_mul]
    exact ⟨mulF_of_norm (lt_of_le_of_lt (by linarith) hlt), hn⟩
  have hs : ‖A i 0 * C 0 k + A i 1 * C 1 k‖ ≤ 2 * (B * D) := (norm_add_le _ _).trans (by linarith [(e 0).2, (e 1).2])
  rw [Matrix.mul_apply, Fin.sum_univ_two]
  refine ⟨?_, hs⟩
  simp only [mulF2, (e 0).1, (e 1).1, addF]
  exact fl_of_norm (hs.trans_lt hlt)

lemma divF_of_norm (u) {a t : ℂ} (ht : t ≠ 0) (h : ‖a‖ * (1 / ‖t‖) < 2 ^ 1024) : divF u (some a) (some t) = some (a / t) := by
  simp only [divF, if_neg ht]
  exact fl_of_norm (by rwa [norm_div, div_eq_mul_one_div])

lemma bounded_layer (u) (delta r t : ℂ) (ht : t ≠ 0) (h : stepSize delta r t < 2 ^ 1024) :
    Bounded (layerMatrixF u delta r t) (layerMatrix delta r t) (stepSize delta r t) := by
  have r1 : 1 ≤ max 1 ‖r‖ := le_max_left _ _
  have r2 : ‖r‖ ≤ max 1 ‖r‖ := le_max_right _ _
  have t1 : 1 ≤ max 1 (1 / ‖t‖) := le_max_left _ _
  have t2 : 1 / ‖t‖ ≤ max 1 (1 / ‖t‖) := le_max_right _ _
  have t0 : 0 ≤ 1 / ‖t‖ := by positivity
  have x1 : 1 ≤ Real.exp |delta.im| := Real.one_le_exp (abs_nonneg _)
  unfold stepSize at *
  have n1 : ‖Complex.exp (-I * delta)‖ ≤ Real.exp |delta.im| := by
    rw [Complex.norm_exp]
    exact Real.exp_le_exp.2 (by simpa using le_abs_self delta.im)
  have n2 : ‖Complex.exp (I * delta)‖ ≤ Real.exp |delta.im| := by
    rw [Complex.norm_exp]
    exact Real.exp_le_exp.2 (by simpa using neg_le_abs delta.im)
  generalize max 1 ‖r‖ = R at *
  generalize max 1 (1 / ‖t‖) = T at *
  generalize Real.exp |delta.im| = X at *
  have key : ∀ z : ℂ, ‖z‖ ≤ X → (fl z = some z) ∧ mulF (some r) (some z) = some (r * z) ∧ (divF u (some z) (some t) = some (z / t) ∧ ‖z / t‖ ≤ R * X * T) ∧
      (divF u (some (r * z)) (some t) = some (r * z / t) ∧ ‖r * z / t‖ ≤ R * X * T) := by
    intro z hz
    have hz0 := norm_nonneg z
    have hr0 := norm_nonneg r
    have a1 : X ≤ R * X * T := by nlinarith [mul_nonneg (sub_nonneg.2 r1) (by linarith : (0 : ℝ) ≤ X), mul_nonneg (sub_nonneg.2 t1) (by nlinarith : 0 ≤ R * X)]
    have a2 : ‖r‖ * ‖z‖ ≤ R * X := mul_le_mul r2 hz hz0 (by linarith)
    have a3 : R * X ≤ R * X * T := by nlinarith [mul_nonneg (sub_nonneg.2 t1) (by nlinarith : 0 ≤ R * X)]
    have a4 : ‖z‖ * (1 / ‖t‖) ≤ R * X * T := mul_le_mul (by nlinarith) t2 t0 (by nlinarith)
    have a5 : ‖r * z‖ * (1 / ‖t‖) ≤ R * X * T := by rw [norm_mul]; exact mul_le_mul a2 t2 t0 (by nlinarith)
    refine ⟨fl_of_norm (by linarith), mulF_of_norm (by linarith), ⟨divF_of_norm u ht (by linarith), ?_⟩, ⟨divF_of_norm u ht (by linarith), ?_⟩⟩
    · rw [norm_div, div_eq_mul_one_div]; exact a4
    · rw [norm_div, div_eq_mul_one_div]; exact a5
  obtain ⟨b1, b2, b3, b4⟩ := key _ n1
  obtain ⟨c1, c2, c3, c4⟩ := key _ n2
  intro i j
  fin_cases i <;> fin_cases j
  · exact ⟨(congrArg (fun x => divF u x (some t)) b1).trans b3.1, b3.2⟩
  · exact ⟨(congrArg (fun x => divF u (mulF (some r) x) (some t)) b1).trans ((congrArg (fun x => divF u x (some t)) b2).trans b4.1), b4.2⟩
  · exact ⟨(congrArg (fun x => divF u (mulF (some r) x) (some t)) c1).trans ((congrArg (fun x => divF u x (some t)) c2).trans c4.1), c4.2⟩
  · exact ⟨(congrArg (fun x => divF u x (some t)) c1).trans c3.1, c3.2⟩

lemma bounded_loop (u) (lbda : ℝ) (last : Medium) (L : List (ℝ × Medium)) (tS : Transmits last polS L) (tP : Transmits last polP L) :
    ∀ (F G : MatF 2) (A C : Mat2) (B D : ℝ), Bounded F A B → Bounded G C D → B * stackSize lbda last polS L < 2 ^ 1024 → D * stackSize lbda last polP L < 2 ^ 1024 →
      (1 ≤ B ∧ 1 ≤ D) →
      (∀ i j, (loop2x2F u lbda last F G L).1 i j = some ((loop2x2 lbda last A C L).1 i j)) ∧
      (∀ i j, (loop2x2F u lbda last F G L).2 i j = some ((loop2x2 lbda last A C L).2 i j)) := by
  induction L with
  | nil => intro F G A C B D h1 h2 _ _ _; exact ⟨fun i j => (h1 i j).1, fun i j => (h2 i j).1⟩
  | cons l rest ih =>
    intro F G A C B D h1 h2 h3 h4 h5
    obtain ⟨d, n, th⟩ := l
    obtain ⟨tS1, tS2⟩ := tS
    obtain ⟨tP1, tP2⟩ := tP
    set fS := polS (fresnel n (nextMedium rest last).1 th (nextMedium rest last).2) with hfS
    set fP := polP (fresnel n (nextMedium rest last).1 th (nextMedium rest last).2) with hfP
    have s1 := stepSize_one (phase2x2 lbda d n th) fS.1 fS.2
    have p1 := stepSize_one (phase2x2 lbda d n th) fP.1 fP.2
    have s2 := stackSize_one lbda last polS rest
    have p2 := stackSize_one lbda last polP rest
    change B * (2 * stepSize (phase2x2 lbda d n th) fS.1 fS.2 * stackSize lbda last polS rest) < _ at h3
    change D * (2 * stepSize (phase2x2 lbda d n th) fP.1 fP.2 * stackSize lbda last polP rest) < _ at h4
    have gen : ∀ {B S K : ℝ}, 1 ≤ B → 1 ≤ S → 1 ≤ K → S ≤ B * (2 * S * K) ∧ 2 * (B * S) ≤ B * (2 * S * K) ∧ 1 ≤ 2 * (B * S) := by
      intro B S K hB hS hK
      have h0 : 1 ≤ B * S := one_le_mul_of_one_le_of_one_le hB hS
      have h1 : B * S ≤ B * S * K := le_mul_of_one_le_right (by linarith) hK
      have h2 : S ≤ B * S := le_mul_of_one_le_left (by linarith) hB
      refine ⟨?_, ?_, by linarith⟩ <;> nlinarith
    obtain ⟨gS1, gS2, gS3⟩ := gen h5.1 s1 s2
    obtain ⟨gP1, gP2, gP3⟩ := gen h5.2 p1 p2
    refine ih tS2 tP2 _ _ _ _ _ _ (bounded_mulF2 h1 (bounded_layer u _ fS.1 fS.2 tS1 (gS1.trans_lt h3)) (gS2.trans_lt h3))
      (bounded_mulF2 h2 (bounded_layer u _ fP.1 fP.2 tP1 (gP1.trans_lt h4)) (gP2.trans_lt h4)) ?_ ?_ ⟨gS3, gP3⟩
    · refine lt_of_eq_of_lt ?_ h3
      ring
    · refine lt_of_eq_of_lt ?_ h4
      ring

lemma bounded_interface (u) (r t : ℂ) (ht : t ≠ 0) (h : stepSize 0 r t < 2 ^ 1024) :
    Bounded (interfaceMatrixF u r t) (interfaceMatrix r t) (stepSize 0 r t) := by
  have r1 : 1 ≤ max 1 ‖r‖ := le_max_left _ _
  have r2 : ‖r‖ ≤ max 1 ‖r‖ := le_max_right _ _
  have t2 : 1 / ‖t‖ ≤ max 1 (1 / ‖t‖) := le_max_right _ _
  have t0 : 0 ≤ 1 / ‖t‖ := by positivity
  have e : stepSize 0 r t = max 1 ‖r‖ * max 1 (1 / ‖t‖) := by simp [stepSize]
  rw [e] at h ⊢
  have key : ∀ z : ℂ, ‖z‖ ≤ max 1 ‖r‖ → divF u (some z) (some t) = some (z / t) ∧ ‖z / t‖ ≤ max 1 ‖r‖ * max 1 (1 / ‖t‖) := fun z hz => by
    have a : ‖z‖ * (1 / ‖t‖) ≤ max 1 ‖r‖ * max 1 (1 / ‖t‖) := mul_le_mul hz t2 t0 (by linarith)
    refine ⟨divF_of_norm u ht (a.trans_lt h), ?_⟩
    rw [norm_div, div_eq_mul_one_div]
    exact a
  intro i j
  fin_cases i <;> fin_cases j
  · exact key 1 (by simpa using r1)
  · exact key r r2
  · exact key r r2
  · exact key 1 (by simpa using r1)

/-- The first interface and all layers. -/
noncomputable def wholeSize (asin : ℂ → ℂ) (s : Stack) (theta lbda : ℝ) (pol : ℂ × ℂ × ℂ × ℂ → ℂ × ℂ) : ℝ :=
  let first := frontMedium asin s theta
  let last := backMedium asin s theta
  let inner := innerMedia asin (nOf s.front) theta s.layers
  let f := pol (fresnel first.1 (nextMedium inner last).1 first.2 (nextMedium inner last).2)
  stepSize 0 f.1 f.2 * stackSize lbda last pol inner

/-- No interface of the stack is degenerate. -/
def AllTransmit (asin : ℂ → ℂ) (s : Stack) (theta : ℝ) (pol : ℂ × ℂ × ℂ × ℂ → ℂ × ℂ) : Prop :=
  Transmits (backMedium asin s theta) pol ((0, frontMedium asin s theta) :: innerMedia asin (nOf s.front) theta s.layers)

lemma transmits_chain (last : Medium) (L : List (ℝ × Medium)) :
    ∀ (d : ℝ) (m : Medium), RegularChain m (L.map Prod.snd ++ [last]) → Transmits last polS ((d, m) :: L) ∧ Transmits last polP ((d, m) :: L) := by
  induction L with
  | nil =>
    rintro d ⟨n, th⟩ h
    obtain ⟨h1, h2, h3, _⟩ := h
    refine ⟨⟨?_, trivial⟩, ⟨?_, trivial⟩⟩
    · exact div_ne_zero (by rw [mul_assoc]; exact mul_ne_zero two_ne_zero h1) h2
    · exact div_ne_zero (by rw [mul_assoc]; exact mul_ne_zero two_ne_zero h1) h3
  | cons l rest ih =>
    rintro d ⟨n, th⟩ h
    obtain ⟨d', m'⟩ := l
    obtain ⟨h1, h2, h3, h4⟩ := h
    obtain ⟨i1, i2⟩ := ih d' m' h4
    refine ⟨⟨?_, i1⟩, ⟨?_, i2⟩⟩
    · exact div_ne_zero (by rw [mul_assoc]; exact mul_ne_zero two_ne_zero h1) h2
    · exact div_ne_zero (by rw [mul_assoc]; exact mul_ne_zero two_ne_zero h1) h3

lemma transmits_of_regular {asin : ℂ → ℂ} {s : Stack} {theta : ℝ} (h : Regular2x2 asin s theta) : AllTransmit asin s theta polS ∧ AllTransmit asin s theta polP :=
  transmits_chain _ _ 0 _ h

/-- C112: as long as the product of the sizes of all steps stays below `2^1024`, every entry of the two matrices is finite and exact, and so are the
coefficients that are in range themselves. -/
theorem C112_finite_2x2 (u : ℂ → Fl) (asin : ℂ → ℂ) (s : Stack) (theta lbda : ℝ)
    (tS : AllTransmit asin s theta polS) (tP : AllTransmit asin s theta polP)
    (hS : wholeSize asin s theta lbda polS < 2 ^ 1024) (hP : wholeSize asin s theta lbda polP < 2 ^ 1024)
    (mS : (matrices2x2 asin s theta lbda).1 0 0 ≠ 0) (mP : (matrices2x2 asin s theta lbda).2 0 0 ≠ 0) :
    let out := calculate2x2 asin s theta lbda
    calculate2x2F u asin s theta lbda = (fl (out.jr 0 0), fl (out.jr 1 1), fl (out.jt 0 0), fl (out.jt 1 1)) := by
  have lift : ∀ {a b : ℝ}, 1 ≤ a → 1 ≤ b → a ≤ a * b := fun ha hb => le_mul_of_one_le_right (by linarith) hb
  have key : (∀ i j, (matrices2x2F u asin s theta lbda).1 i j = some ((matrices2x2 asin s theta lbda).1 i j)) ∧
      (∀ i j, (matrices2x2F u asin s theta lbda).2 i j = some ((matrices2x2 asin s theta lbda).2 i j)) :=
    bounded_loop u lbda _ _ tS.2 tP.2 _ _ _ _ _ _
      (bounded_interface u _ _ tS.1 ((lift (stepSize_one _ _ _) (stackSize_one _ _ _ _)).trans_lt hS))
      (bounded_interface u _ _ tP.1 ((lift (stepSize_one _ _ _) (stackSize_one _ _ _ _)).trans_lt hP)) hS hP ⟨stepSize_one _ _ _, stepSize_one _ _ _⟩
  obtain ⟨k1, k2⟩ := key
  simp only [calculate2x2F, k1, k2, divF, if_neg mS, if_neg mP]
  rfl

/-- C112 for passive isotropic stacks: both reflection coefficients are finite and exact. -/
theorem C112_finite_passive_2x2 (u : ℂ → Fl) (asin : ℂ → ℂ) (hasin : IsArcsin asin) (s : Stack) (theta lbda : ℝ)
    (h : PassiveStack s theta lbda) (hiso : IsoLayers s.layers)
    (hfw : ForwardOk (nOf s.back * cosPhi (kxOf s theta) s.back)) (hreg : Regular2x2 asin s theta)
    (hS : wholeSize asin s theta lbda polS < 2 ^ 1024) (hP : wholeSize asin s theta lbda polP < 2 ^ 1024) :
    (calculate2x2F u asin s theta lbda).1 = some ((calculate2x2 asin s theta lbda).jr 0 0) ∧
    (calculate2x2F u asin s theta lbda).2.1 = some ((calculate2x2 asin s theta lbda).jr 1 1) := by
  obtain ⟨n0, hn0, hf⟩ := h.front
  have hnf := nOf_front hn0 hf
  have hf1 : 0 < (nOf s.front).re := by rw [hnf]; simpa using hn0
  have hf2 : 0 ≤ (nOf s.front).im := by rw [hnf]; simp
  have hc := cos_pos_of_angle h.angle
  have hn : nOf s.front ≠ 0 := by rw [hnf]; exact_mod_cast hn0.ne'
  let ee : (Fin 4 → ℂ) × Mat4 := (0, 0)
  have hT := transfer4x4_iso s theta lbda ee hiso h.iso
  have hM := matrices2x2_eq asin hasin s theta lbda hreg
  rw [frontMedium_cos hasin s theta hf1 hf2 hc, backMedium_cos hasin s theta hfw, ← cosPhi_front s theta hn hc] at hM
  change _ = (DsInv (nOf s.front) _ * _ * Ds (nOf s.back) _, DpInv (nOf s.front) _ * _ * Dp (nOf s.back) _) at hM
  have hne := transfer_diag_ne s theta lbda h ee (matrices2x2 asin s theta lbda).1 (matrices2x2 asin s theta lbda).2
    (by rw [hM]; exact hT)
  obtain ⟨tS, tP⟩ := transmits_of_regular hreg
  have hfin := C112_finite_2x2 u asin s theta lbda tS tP hS hP hne.1 hne.2
  have hag := C37_solvers_agree_passive asin hasin s theta lbda ee h hiso hfw hreg
  have hg := (C36_no_gain s theta lbda h ee ![1, 0]).2
  rw [← hag] at hg
  have hpow : 0 ≤ (Result.mk' (calculate2x2 asin s theta lbda).jr (calculate2x2 asin s theta lbda).jt (calculate2x2 asin s theta lbda).power ![1, 0]).power := by
    rw [hag]
    simp only [calculate4x4, Result.mk', h.iso, if_true, Option.getD_some]
    exact div_nonneg (csqrt_re_nonneg _) (csqrt_re_nonneg _)
  have le1 : ∀ i, ‖(calculate2x2 asin s theta lbda).jr i i‖ ≤ 1 := by
    intro i
    have h2 := hg i
    simp only [Result.RMatrix, Result.TMatrix] at h2
    have a0 := mul_nonneg (sq_nonneg ‖(calculate2x2 asin s theta lbda).jt 0 i‖) hpow
    have a1 := mul_nonneg (sq_nonneg ‖(calculate2x2 asin s theta lbda).jt 1 i‖) hpow
    have b0 := sq_nonneg ‖(calculate2x2 asin s theta lbda).jr 0 i‖
    have b1 := sq_nonneg ‖(calculate2x2 asin s theta lbda).jr 1 i‖
    have h3 : ‖(calculate2x2 asin s theta lbda).jr 0 i‖ ^ 2 + ‖(calculate2x2 asin s theta lbda).jr 1 i‖ ^ 2 ≤ 1 := by
      simp only [Result.mk'] at h2 a0 a1
      linarith
    have h4 : ‖(calculate2x2 asin s theta lbda).jr i i‖ ^ 2 ≤ 1 := by
      fin_cases i
      · exact le_trans (le_add_of_nonneg_right b1) h3
      · exact le_trans (le_add_of_nonneg_left b0) h3
    exact (sq_le_one_iff₀ (norm_nonneg _)).1 h4
  have big : (1 : ℝ) < 2 ^ 1024 := one_lt_pow₀ (by norm_num) (by norm_num)
  simp only at hfin
  rw [hfin]
  exact ⟨fl_of_norm ((le1 0).trans_lt big), fl_of_norm ((le1 1).trans_lt big)⟩

/-- The coated substrate at normal incidence: at most a factor of 100 between its numbers. -/
example (asin : ℂ → ℂ) (hasin : IsArcsin asin) (h0 : asin 0 = 0) :
    PassiveStack (demoStack 4) 0 500 ∧ IsoLayers (demoStack 4).layers ∧ Regular2x2 asin (demoStack 4) 0 ∧
      wholeSize asin (demoStack 4) 0 500 polS < 2 ^ 1024 ∧ wholeSize asin (demoStack 4) 0 500 polP < 2 ^ 1024 := by
  have n1 : nOf (isoTensor 1) = 1 := by
    have := nOf_iso_sq (x := 1) (by norm_num)
    simpa using this
  have n2 : nOf (isoTensor (9 / 4)) = 3 / 2 := by
    have := nOf_iso_sq (x := 3 / 2) (by norm_num)
    norm_num at this
    exact this
  have n3 : nOf (isoTensor 4) = 2 := by
    have := nOf_iso_sq (x := 2) (by norm_num)
    norm_num at this
    exact this
  have hsn : ∀ n, snellAngle asin 1 0 n = 0 := fun n => by simp [snellAngle, deg2rad, h0]
  have hff : fixForward 1 0 = 0 := by
    unfold fixForward
    have : isForwardAngle 1 0 := Or.inr ⟨by norm_num, by simp⟩
    rw [if_neg (not_not.2 this)]
  have hfb : fixForward 2 0 = 0 := by
    unfold fixForward
    have : isForwardAngle 2 0 := Or.inr ⟨by norm_num, by simp⟩
    rw [if_neg (not_not.2 this)]
  have hp : |(phase2x2 500 100 (3 / 2) 0).im| = 0 := by
    have : phase2x2 500 100 (3 / 2) 0 = ((2 * Real.pi * (3 / 2) * 1 / 500 * 100 : ℝ) : ℂ) := by simp [phase2x2]
    rw [this, Complex.ofReal_im, abs_zero]
  have big : (16 : ℝ) ^ 2 ≤ 2 ^ 1024 := by
    rw [show (16 : ℝ) ^ 2 = 2 ^ 8 by norm_num]
    exact pow_le_pow_right₀ (by norm_num) (by norm_num)
  refine ⟨demo_passive _ (by norm_num) (by simp) 0 (by norm_num), ?_, (demo_regular asin hasin).1, ?_, ?_⟩
  · intro l hl
    simp only [demoStack, List.mem_singleton] at hl
    subst hl
    ext i j
    simp [isoTensor]
  · refine lt_of_lt_of_le ?_ big
    simp [wholeSize, stackSize, stepSize, frontMedium, backMedium, innerMedia, nextMedium, demoStack, n1, n2, n3, hsn, hff, hfb, fresnel, polS]
    rw [hp]
    norm_num
  · refine lt_of_lt_of_le ?_ big
    simp [wholeSize, stackSize, stepSize, frontMedium, backMedium, innerMedia, nextMedium, demoStack, n1, n2, n3, hsn, hff, hfb, fresnel, polP]
    rw [hp]
    norm_num

/-- An arcsine with `asin 0 = 0`. -/
example : ∃ asin : ℂ → ℂ, IsArcsin asin ∧ asin 0 = 0 := by
  refine ⟨_, exists_arcsin, ?_⟩
  have := csqrt_ofReal (x := 1) (by norm_num)
  simp at this
  simp [this]

/-- Ten micrometres of a metal of index `1 + 6i` (about aluminium) at 500 nm overflow. -/
example : (711 : ℝ) ≤ 2 * Real.pi / 500 * (Complex.sqrt ((-35 + 12 * I) - ((1 * Real.sin (deg2rad 0)) ^ 2 : ℝ))).im * 10000 ∧ 0 < (-35 + 12 * I : ℂ).im := by
  have e : Complex.sqrt ((-35 + 12 * I) - ((1 * Real.sin (deg2rad 0)) ^ 2 : ℝ)) = 1 + 6 * I := by
    rw [csqrt_eq_iff]
    refine ⟨Or.inl (by simp), ?_⟩
    simp [deg2rad]
    linear_combination 36 * I_sq
  rw [e]
  have := Real.pi_gt_three
  constructor
  · norm_num
    linarith
  · simp

end PyElli
