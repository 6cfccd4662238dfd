import Verif.Model.Rii
import Verif.Spec.Rii
import Verif.Props.Params
import Verif.Props.Dispersion
import Verif.Props.DispSum

/-! # C67: entries of refractiveindex.info -/

namespace PyElli.Rii

open PyElli PyElli.Disp Spec.Rii

/-! ## Slices -/

lemma stride_nil (n : ℕ) : stride n [] = [] := by rw [stride]
lemma stride_cons (n : ℕ) (x : ℝ) (l : List ℝ) : stride n (x :: l) = x :: stride n (l.drop (n - 1)) := by rw [stride]

lemma zip_stride : ∀ l : List ℝ, (stride 2 l).zip (stride 2 (l.drop 1)) = pairs l
  | [] => by simp [stride_nil, pairs]
  | [a] => by simp [stride_nil, stride_cons, pairs]
  | a :: b :: r => by
    have := zip_stride r
    simp at this
    simp [stride_cons, pairs, this]

lemma slice_pairs (c1 : ℝ) (c : List ℝ) :
    (slice (c1 :: c) 1 (c1 :: c).length 2).zip (slice (c1 :: c) 2 (c1 :: c).length 2) = pairs c := by
  rw [← zip_stride]
  simp [slice]

lemma slice_pairs9 (c1 : ℝ) (c : List ℝ) :
    (slice (c1 :: c) 9 (c1 :: c).length 2).zip (slice (c1 :: c) 10 (c1 :: c).length 2) = pairs (c.drop 8) := by
  rw [← zip_stride]
  simp [slice]

lemma slice_fours (c1 : ℝ) (c : List ℝ) :
    (slice (c1 :: c) 1 6 4).zip ((slice (c1 :: c) 2 7 4).zip ((slice (c1 :: c) 3 8 4).zip (slice (c1 :: c) 4 9 4))) =
      fours (c.take 8) := by
  rcases c with _ | ⟨x1, c⟩
  · simp [slice, stride_nil, fours]
  rcases c with _ | ⟨x2, c⟩
  · simp [slice, stride_nil, stride_cons, fours]
  rcases c with _ | ⟨x3, c⟩
  · simp [slice, stride_nil, stride_cons, fours]
  rcases c with _ | ⟨x4, c⟩
  · simp [slice, stride_nil, stride_cons, fours]
  rcases c with _ | ⟨x5, c⟩
  · simp [slice, stride_nil, stride_cons, fours]
  rcases c with _ | ⟨x6, c⟩
  · simp [slice, stride_nil, stride_cons, fours]
  rcases c with _ | ⟨x7, c⟩
  · simp [slice, stride_nil, stride_cons, fours]
  rcases c with _ | ⟨x8, c⟩
  · simp [slice, stride_nil, stride_cons, fours]
  · simp [slice, stride_nil, stride_cons, fours]

/-! ## Parameters -/

lemma addAll_eq (template : Dict ℝ) (hn : template.keys.Nodup) (rows : List (List ℝ))
    (h : ∀ r ∈ rows, r.length ≤ template.length) :
    addAll template rows = rows.map fun r => Spec.filled template r [] := by
  have := (C47_add_history 0 template hn (rows.map fun r => ((r, []) : AddCall ℝ)) ⟨[template], []⟩ rfl (by simp)
    (by intro c hc; obtain ⟨r, -, rfl⟩ := List.mem_map.1 hc; simp [Dict.keys])).1
  unfold addRun at this
  rw [List.foldl_map] at this
  unfold addAll
  rw [this]
  classical
  have hall : (rows.map fun r => ((r, []) : AddCall ℝ)).filter
      (fun c => decide (Spec.CallAllowed template.keys c.1.length c.2.keys)) = rows.map fun r => ((r, []) : AddCall ℝ) := by
    rw [List.filter_eq_self]
    intro c hc
    obtain ⟨r, hr, rfl⟩ := List.mem_map.1 hc
    have := h r hr
    simpa [Spec.CallAllowed, Dict.keys] using this
  rw [show (rows.map fun r => ((r, []) : AddCall ℝ)).filter _ = _ from (by convert hall)]
  simp [RepState.params]

lemma addAll_two (k1 k2 : String) (hk : k1 ≠ k2) (d1 d2 : ℝ) {α : Type} (l : List α) (f g : α → ℝ) :
    addAll [(k1, d1), (k2, d2)] (l.map fun p => [f p, g p]) = l.map fun p => [(k1, f p), (k2, g p)] := by
  rw [addAll_eq _ (by simpa [Dict.keys] using hk) _ (by simp)]
  simp [Spec.filled, Function.comp_def, List.mapIdx_cons]

lemma sumN_some {R α : Type} [AddMonoid R] (l : List α) (f : α → R) : sumN (l.map fun x => some (f x)) = some (l.map f).sum := by
  induction l with
  | nil => rfl
  | cons a l ih => simp [sumN, ih]

lemma sumN_congr {R α : Type} [AddMonoid R] (l : List α) (g : α → Option R) (f : α → R) (h : ∀ x ∈ l, g x = some (f x)) :
    sumN (l.map g) = some (l.map f).sum := by
  rw [← sumN_some, List.map_congr_left h]

lemma sum_ofReal {α : Type} (l : List α) (f : α → ℝ) : (l.map fun x => ((f x : ℝ) : ℂ)).sum = ((l.map f).sum : ℝ) := by
  induction l with
  | nil => simp
  | cons a l ih => simp [ih]

/-! ## Two terms added -/

lemma addObj_two (m : Mem) (f g : ℝ → Val) :
    addObj (m ++ [.leaf .eps f, .leaf .eps g]) m.length (m.length + 1) =
      .ok (m ++ [.leaf .eps f, .leaf .eps g, .epsSum [m.length, m.length + 1]], m.length + 2) := by
  have h1 : (m ++ [Obj.leaf .eps f, .leaf .eps g])[m.length]? = some (.leaf .eps f) := by
    rw [List.getElem?_append_right (le_refl _)]; simp
  have h2 : (m ++ [Obj.leaf .eps f, .leaf .eps g])[m.length + 1]? = some (.leaf .eps g) := by
    rw [List.getElem?_append_right (by omega)]; simp
  unfold addObj
  rw [h1, h2]
  simp only [Obj.isEps, Kind.isEps, Bool.not_true, Bool.false_eq_true, if_false]
  rw [newEpsSum_ok ⟨_, h1, rfl⟩ ⟨_, h2, rfl⟩]
  have f1 : flatE (m ++ [.leaf .eps f, .leaf .eps g]) m.length = [m.length] := by simp [flatE, h1]
  have f2 : flatE (m ++ [.leaf .eps f, .leaf .eps g]) (m.length + 1) = [m.length + 1] := by simp [flatE, h2]
  rw [f1, f2]
  simp

lemma call_two (m : Mem) (f g : ℝ → Val) (l : ℝ) (k : ℕ) :
    call (m ++ [.leaf .eps f, .leaf .eps g, .epsSum [m.length, m.length + 1]]) l (k + 2) .dielectric (m.length + 2) =
      Val.add (f l) (g l) := by
  have h1 : (m ++ [Obj.leaf .eps f, .leaf .eps g, .epsSum [m.length, m.length + 1]])[m.length]? = some (.leaf .eps f) := by
    rw [List.getElem?_append_right (le_refl _)]; simp
  have h2 : (m ++ [Obj.leaf .eps f, .leaf .eps g, .epsSum [m.length, m.length + 1]])[m.length + 1]? = some (.leaf .eps g) := by
    rw [List.getElem?_append_right (by omega)]; simp
  have h3 : (m ++ [Obj.leaf .eps f, .leaf .eps g, .epsSum [m.length, m.length + 1]])[m.length + 2]? =
      some (.epsSum [m.length, m.length + 1]) := by
    rw [List.getElem?_append_right (by omega)]; simp
  simp only [call, h1, h2, h3, sumVals, List.foldl_cons, List.foldl_nil, Kind.isEps, if_true, Val.zero_add]

lemma call_one (m : Mem) (f : ℝ → Val) (l : ℝ) (k : ℕ) :
    call (m ++ [.leaf .eps f]) l (k + 1) .dielectric m.length = f l := by
  have h1 : (m ++ [Obj.leaf .eps f])[m.length]? = some (.leaf .eps f) := get_alloc_self _ _
  simp only [call, h1, Kind.isEps, if_true]

lemma floats_some (c : List ℝ) : floats (c.map some) = .ok c := by
  induction c with
  | nil => rfl
  | cons a c ih => simp [floats, ih]

lemma add_ok_some (a b : ℂ) : Val.add (.ok (some a)) (.ok (some b)) = .ok (some (a + b)) := rfl

/-! ## The formulas -/

/-- What is said about a loaded dielectric dispersion: its dielectric function is the real number `v`, its index the principal root. -/
def EpsIs (m : Mem) (a : ℕ) (l v : ℝ) : Prop :=
  ∀ k, 6 ≤ k → call m l k .dielectric a = .ok (some (v : ℂ)) ∧ getRefractiveIndex m l k a = .ok (some (Complex.sqrt v))

lemma epsIs_of_call {m : Mem} {a : ℕ} {l v : ℝ} (he : IsEpsObj m a)
    (h : ∀ k, call m l (k + 2) .dielectric a = .ok (some (v : ℂ))) : EpsIs m a l v := by
  intro k hk
  obtain ⟨n, rfl⟩ := Nat.exists_eq_add_of_le' (show 2 ≤ k by omega)
  obtain ⟨o, h1, h2⟩ := he
  refine ⟨h n, ?_⟩
  unfold getRefractiveIndex
  rw [h1]
  simp only [h2, if_true]
  rw [h n]
  rfl

lemma isEps_two (m : Mem) (f g : ℝ → Val) : IsEpsObj (m ++ [.leaf .eps f, .leaf .eps g, .epsSum [m.length, m.length + 1]])
    (m.length + 2) := by
  refine ⟨.epsSum [m.length, m.length + 1], ?_, rfl⟩
  rw [List.getElem?_append_right (by omega)]; simp

lemma sellmeier_value {α : Type} (ps : List α) (f g : α → ℝ) (l : ℝ) (hd : ∀ p ∈ ps, (l / 1000) ^ 2 - g p ≠ 0) :
    sellmeier (addAll [("A", 0), ("B", 0)] (ps.map fun p => [f p, g p])) l =
      some ((1 + (ps.map fun p => f p * (l / 1000) ^ 2 / ((l / 1000) ^ 2 - g p)).sum : ℝ) : ℂ) := by
  rw [addAll_two _ _ (by decide)]
  unfold sellmeier
  rw [List.map_map]
  have : (1e3 : ℝ) = 1000 := by norm_num
  rw [this]
  rw [sumN_congr ps _ (fun p => ((f p * (l / 1000) ^ 2 / ((l / 1000) ^ 2 - g p) : ℝ) : ℂ))]
  · rw [sum_ofReal]
    simp
  · intro p hp
    simp [sellmeierTerm, Dict.get, divN, hd p hp, toC]

/-- C67, formula 1: `n² = 1 + C1 + Σ C₂ᵢ x² / (x² - C₂ᵢ₊₁²)` with `x` in micrometres, for any number of coefficients, wherever no
denominator vanishes. -/
theorem C67_formula1 (m : Mem) (c1 : ℝ) (c : List ℝ) :
    ∃ m' a, getDispersion m [.formula "formula 1" ((c1 :: c).map some)] = .ok (m', a) ∧
      ∀ l, (∀ p ∈ pairs c, (l / 1000) ^ 2 - p.2 ^ 2 ≠ 0) → EpsIs m' a l (nSq1 c1 c (l / 1000)) := by
  refine ⟨(m ++ [.leaf .eps fun l => .ok (sellmeier (addAll [("A", 0), ("B", 0)] ((pairs c).map fun p => [p.1, p.2 ^ 2])) l),
    .leaf .eps fun _ => .ok (some (c1 : ℂ)), .epsSum [m.length, m.length + 1]]), m.length + 2, ?_, ?_⟩
  · simp only [getDispersion, loadAll, loadEntry, floats_some]
    rw [if_pos (by simp)]
    simp only [loadFormula, if_true, head]
    rw [slice_pairs]
    rw [sellObj, constLeaf, addObj_two]
  · intro l hd
    refine epsIs_of_call (isEps_two _ _ _) fun k => ?_
    rw [call_two, sellmeier_value _ _ _ _ hd, add_ok_some]
    simp only [nSq1, Except.ok.injEq, Option.some.injEq]
    push_cast
    ring

/-- C67, formula 2: `n² = 1 + C1 + Σ C₂ᵢ x² / (x² - C₂ᵢ₊₁)`. -/
theorem C67_formula2 (m : Mem) (c1 : ℝ) (c : List ℝ) :
    ∃ m' a, getDispersion m [.formula "formula 2" ((c1 :: c).map some)] = .ok (m', a) ∧
      ∀ l, (∀ p ∈ pairs c, (l / 1000) ^ 2 - p.2 ≠ 0) → EpsIs m' a l (nSq2 c1 c (l / 1000)) := by
  refine ⟨(m ++ [.leaf .eps fun l => .ok (sellmeier (addAll [("A", 0), ("B", 0)] ((pairs c).map fun p => [p.1, p.2])) l),
    .leaf .eps fun _ => .ok (some (c1 : ℂ)), .epsSum [m.length, m.length + 1]]), m.length + 2, ?_, ?_⟩
  · simp only [getDispersion, loadAll, loadEntry, floats_some]
    rw [if_pos (by simp)]
    simp only [loadFormula, if_true, head]
    rw [if_neg (by decide)]
    rw [slice_pairs]
    rw [sellObj, constLeaf, addObj_two]
  · intro l hd
    refine epsIs_of_call (isEps_two _ _ _) fun k => ?_
    rw [call_two, sellmeier_value _ _ _ _ hd, add_ok_some]
    simp only [nSq2, Except.ok.injEq, Option.some.injEq]
    push_cast
    ring

lemma power_value (k1 k2 : String) (hf : k1 = "f") (he : k2 = "e") (d1 d2 : ℝ) (ps : List (ℝ × ℝ)) (l : ℝ) (hl : 0 < l) :
    sumN ((addAll [(k1, d1), (k2, d2)] (ps.map fun p => [p.1 / (1000 : ℝ) ^ p.2, p.2])).map (powerTerm l)) =
      some (((ps.map fun p => p.1 * (l / 1000) ^ p.2).sum : ℝ) : ℂ) := by
  subst hf he
  rw [addAll_two _ _ (by decide), List.map_map, ← sum_ofReal]
  apply sumN_congr
  intro p _
  have h1 : ¬ (l < 0 ∧ ¬ ∃ n : ℤ, p.2 = n) := fun h => absurd h.1 (by linarith)
  have h2 : ¬ (l = 0 ∧ p.2 < 0) := fun h => absurd h.1 hl.ne'
  simp only [Function.comp_apply, powerTerm, Dict.get, powN, if_neg h1, if_neg h2]
  simp only [if_true, Option.bind_eq_bind, Option.bind_some]
  rw [if_neg (by decide)]
  simp only [Option.bind_some]
  rw [if_neg h1, if_neg h2]
  simp only [Option.bind_some, Option.some.injEq]
  congr 1
  rw [Real.div_rpow hl.le (by norm_num)]
  ring

/-- C67, formula 3: `n² = C1 + Σ C₂ᵢ x ^ C₂ᵢ₊₁`, at every positive wavelength. -/
theorem C67_formula3 (m : Mem) (c1 : ℝ) (c : List ℝ) :
    ∃ m' a, getDispersion m [.formula "formula 3" ((c1 :: c).map some)] = .ok (m', a) ∧
      ∀ l, 0 < l → EpsIs m' a l (nSq3 c1 c (l / 1000)) := by
  refine ⟨(m ++ [.leaf .eps fun l => .ok (polynomial [("e0", c1)]
    (addAll [("f", 0), ("e", 0)] ((pairs c).map fun p => [p.1 / (1000 : ℝ) ^ p.2, p.2])) l)]), m.length, ?_, ?_⟩
  · simp only [getDispersion, loadAll, loadEntry, floats_some]
    rw [if_pos (by simp)]
    simp only [loadFormula, if_true, head]
    rw [if_neg (by decide), if_neg (by decide)]
    rw [nmTerms, slice_pairs, polyObj]
  · intro l hl
    refine epsIs_of_call ⟨_, get_alloc_self _ _, rfl⟩ fun k => ?_
    rw [call_one, polynomial, power_value _ _ rfl rfl _ _ _ _ hl]
    simp [nSq3, Dict.get]

lemma custom_value (qs : List (ℝ × ℝ × ℝ × ℝ)) (l : ℝ) (hl : 0 < l)
    (hp : ∀ q ∈ qs, PowDefined q.2.2.1 q.2.2.2) (hd : ∀ q ∈ qs, (l / 1000) ^ 2 - q.2.2.1 ^ q.2.2.2 ≠ 0) :
    sellmeierCustom (addAll [("A", 0), ("e_A", 1), ("B", 0), ("e_B", 1)] (qs.map fun p => [p.1, p.2.1, p.2.2.1, p.2.2.2])) l =
      some (((qs.map fun q => q.1 * (l / 1000) ^ q.2.1 / ((l / 1000) ^ 2 - q.2.2.1 ^ q.2.2.2)).sum : ℝ) : ℂ) := by
  rw [addAll_eq _ (by simp [Dict.keys]) _
    (by intro r hr; obtain ⟨q, -, rfl⟩ := List.mem_map.1 hr; simp), sellmeierCustom, List.map_map, List.map_map, ← sum_ofReal]
  have : (1e3 : ℝ) = 1000 := by norm_num
  rw [this]
  apply sumN_congr
  intro q hq
  obtain ⟨h3, h4⟩ := hp q hq
  have hx : 0 < l / 1000 := by positivity
  have g1 : powN (l / 1000) q.2.1 = some ((l / 1000) ^ q.2.1) := by
    unfold powN
    rw [if_neg (fun h => absurd h.1 (by linarith)), if_neg (fun h => absurd h.1 hx.ne')]
  have g2 : powN q.2.2.1 q.2.2.2 = some (q.2.2.1 ^ q.2.2.2) := by
    unfold powN
    rw [if_neg (fun h => h.2 (h3 h.1)), if_neg (fun h => absurd (h4 h.1) (by linarith [h.2]))]
  have hd' := hd q hq
  simp [sellmeierCustomTerm, Spec.filled, List.mapIdx_cons, Dict.get, g1, g2, divN, hd', toC]

/-- C67, formula 4: `n² = C1 + C2 x^C3 / (x² - C4^C5) + C6 x^C7 / (x² - C8^C9) + C10 x^C11 + …`, at every positive wavelength where no
denominator vanishes and the powers `C4^C5`, `C8^C9` are real numbers. -/
theorem C67_formula4 (m : Mem) (c1 : ℝ) (c : List ℝ) :
    ∃ m' a, getDispersion m [.formula "formula 4" ((c1 :: c).map some)] = .ok (m', a) ∧
      ∀ l, 0 < l → (∀ q ∈ fours (c.take 8), PowDefined q.2.2.1 q.2.2.2 ∧ (l / 1000) ^ 2 - q.2.2.1 ^ q.2.2.2 ≠ 0) →
        EpsIs m' a l (nSq4 c1 c (l / 1000)) := by
  refine ⟨(m ++ [.leaf .eps fun l => .ok (polynomial [("e0", c1)]
      (addAll [("f", 0), ("e", 0)] ((pairs (c.drop 8)).map fun p => [p.1 / (1000 : ℝ) ^ p.2, p.2])) l),
    .leaf .eps fun l => .ok (sellmeierCustom (addAll [("A", 0), ("e_A", 1), ("B", 0), ("e_B", 1)]
      ((fours (c.take 8)).map fun p => [p.1, p.2.1, p.2.2.1, p.2.2.2])) l), .epsSum [m.length, m.length + 1]]), m.length + 2, ?_, ?_⟩
  · simp only [getDispersion, loadAll, loadEntry, floats_some]
    rw [if_pos (by simp)]
    simp only [loadFormula, if_true, head]
    rw [if_neg (by decide), if_neg (by decide), if_neg (by decide)]
    rw [slice_fours, nmTerms, slice_pairs9, polyObj, sellCustomObj, addObj_two]
  · intro l hl hd
    refine epsIs_of_call (isEps_two _ _ _) fun k => ?_
    rw [call_two, polynomial, power_value _ _ rfl rfl _ _ _ _ hl,
      custom_value _ _ hl (fun q hq => (hd q hq).1) (fun q hq => (hd q hq).2)]
    simp only [Dict.get, if_true, Option.bind_eq_bind, Option.bind_some, add_ok_some, nSq4, Except.ok.injEq, Option.some.injEq]
    push_cast
    ring

/-- C67, formula 5: `n = C1 + Σ C₂ᵢ x ^ C₂ᵢ₊₁`, at every positive wavelength. -/
theorem C67_formula5 (m : Mem) (c1 : ℝ) (c : List ℝ) :
    ∃ m' a, getDispersion m [.formula "formula 5" ((c1 :: c).map some)] = .ok (m', a) ∧
      ∀ l, 0 < l → ∀ k, 6 ≤ k → getRefractiveIndex m' l k a = .ok (some ((n5 c1 c (l / 1000) : ℝ) : ℂ)) := by
  refine ⟨(m ++ [.leaf .index fun l => .ok (cauchyCustomIndex [("n0", c1)]
    (addAll [("f", 0), ("e", 1)] ((pairs c).map fun p => [p.1 / (1000 : ℝ) ^ p.2, p.2])) l)]), m.length, ?_, ?_⟩
  · simp only [getDispersion, loadAll, loadEntry, floats_some]
    rw [if_pos (by simp)]
    simp only [loadFormula, if_true, head]
    rw [if_neg (by decide), if_neg (by decide), if_neg (by decide), if_neg (by decide)]
    rw [nmTerms, slice_pairs, cauchyObj]
  · intro l hl k hk
    obtain ⟨n, rfl⟩ := Nat.exists_eq_add_of_le' (show 1 ≤ k by omega)
    have h1 := get_alloc_self m (Obj.leaf .index fun l => .ok (cauchyCustomIndex [("n0", c1)]
      (addAll [("f", 0), ("e", 1)] ((pairs c).map fun p => [p.1 / (1000 : ℝ) ^ p.2, p.2])) l))
    simp only [getRefractiveIndex, h1, Obj.isEps, Kind.isEps, Bool.false_eq_true, if_false, call]
    rw [cauchyCustomIndex, power_value _ _ rfl rfl _ _ _ _ hl]
    simp [n5, Dict.get]

lemma loadAll_append_error (m : Mem) (pre : List Entry) (e : Entry) (post : List Entry)
    (h : ∀ m', ∃ x, loadEntry m' e = .error x) : ∃ x, loadAll m (pre ++ e :: post) = .error x := by
  induction pre generalizing m with
  | nil =>
    obtain ⟨x, hx⟩ := h m
    exact ⟨x, by simp only [List.nil_append, loadAll, hx]⟩
  | cons p pre ih =>
    simp only [List.cons_append, loadAll]
    cases hp : loadEntry m p with
    | error x => exact ⟨x, rfl⟩
    | ok r =>
      obtain ⟨m1, a, b⟩ := r
      obtain ⟨x, hx⟩ := ih m1
      exact ⟨x, by simp only [hx]⟩

lemma loadAll_append_ok (m : Mem) (pre : List Entry) (e : Entry) (post : List Entry) (x : PyErr)
    (h : ∀ m', loadEntry m' e = .error x) (r) (hpre : loadAll m pre = .ok r) : loadAll m (pre ++ e :: post) = .error x := by
  induction pre generalizing m r with
  | nil => simp only [List.nil_append, loadAll, h]
  | cons p pre ih =>
    simp only [List.cons_append, loadAll] at hpre ⊢
    cases hp : loadEntry m p with
    | error y => simp only [hp] at hpre; cases hpre
    | ok q =>
      obtain ⟨m1, a, b⟩ := q
      simp only [hp] at hpre
      cases hq : loadAll m1 pre with
      | error y => simp only [hq] at hpre; cases hpre
      | ok s => simp only [ih m1 s hq]

/-- C67: formulas 6 to 9 (and any other type) are refused wherever they stand in the file: no dispersion is returned, and the error is a
`ValueError` when the entries before them load. -/
theorem C67_unknown (m : Mem) (pre post : List Entry) (type : String) (tokens : List (Option ℝ))
    (h : type ∉ ["formula 1", "formula 2", "formula 3", "formula 4", "formula 5"]) :
    (∃ x, getDispersion m (pre ++ .formula type tokens :: post) = .error x) ∧
    (∀ r, loadAll m pre = .ok r → getDispersion m (pre ++ .formula type tokens :: post) = .error .valueError) := by
  have he : ∀ m', loadEntry m' (.formula type tokens) = .error .valueError := fun m' => by simp only [loadEntry, if_neg h]
  constructor
  · obtain ⟨x, hx⟩ := loadAll_append_error m pre (.formula type tokens) post fun m' => ⟨_, he m'⟩
    exact ⟨x, by simp only [getDispersion, hx]⟩
  · intro r hr
    simp only [getDispersion, loadAll_append_ok m pre _ post _ he r hr]

example : getDispersion [] [.formula "formula 6" [some 1]] = .error .valueError :=
  (C67_unknown [] [] [] "formula 6" [some 1] (by decide)).2 _ rfl

/-- Fused silica (Malitson) as a witness of the hypotheses of `C67_formula1` at 500 nm. -/
example : ∀ p ∈ pairs [0.6961663, 0.0684043, 0.4079426, 0.1162414, 0.8974794, 9.896161], ((500 : ℝ) / 1000) ^ 2 - p.2 ^ 2 ≠ 0 := by
  simp only [pairs, List.mem_cons, List.not_mem_nil, or_false, forall_eq_or_imp, forall_eq]
  norm_num

/-- A witness for `C67_formula4`. -/
example : ∀ q ∈ fours ([0.5, 2, 0.1, 2, 1, 0, 0, 1, 0.01, -2].take 8),
    PowDefined q.2.2.1 q.2.2.2 ∧ ((500 : ℝ) / 1000) ^ 2 - q.2.2.1 ^ q.2.2.2 ≠ 0 := by
  simp only [fours, List.take, List.mem_cons, List.not_mem_nil, or_false, forall_eq_or_imp, forall_eq, PowDefined]
  norm_num

end PyElli.Rii
