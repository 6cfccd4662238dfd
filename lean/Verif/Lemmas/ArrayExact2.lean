import Verif.Lemmas.ArrayExact4

/-! # `Solver2x2` for one wavelength with exact arithmetic -/

namespace PyElli.Nd

open PyElli Matrix Complex

variable {asin : ℂ → ℂ} {eig : Mat4 → (Fin 4 → ℂ) × Mat4}

local notation "𝔼" => exact asin eig

open Classical in
lemma exact_forward (n th : ℂ) : @pForward ℂ 𝔼 n th = decide (isForwardAngle n th) := by
  have e : ((((1 / 10 ^ 10 : ℚ)) : ℂ)).re = (1e-10 : ℝ) := by
    have : (((1 / 10 ^ 10 : ℚ)) : ℂ) = ((1e-10 : ℝ) : ℂ) := by norm_num
    rw [this, ofReal_re]
  have e1 : (((‖(((n * Complex.cos th).im : ℝ) : ℂ)‖ : ℝ)) : ℂ).re = |(n * Complex.cos th).im| := by
    rw [ofReal_re, Complex.norm_real, Real.norm_eq_abs]
  simp only [pForward, isForwardAngle, exact_lt, exact_num, exact_abs, exact_imag, exact_real, exact_mul, exact_cos, e, e1, Rat.cast_zero, zero_re,
    ofReal_re, gt_iff_lt]
  by_cases h : (1e-10 : ℝ) < |(n * Complex.cos th).im|
  · simp only [h, decide_true, if_true, true_and, not_true_eq_false, false_and, or_false]
  · simp only [h, decide_false, Bool.false_eq_true, if_false, false_and, not_false_eq_true, true_and, false_or]

open Classical in
lemma exact_fix (n th : ℂ) : @pFix ℂ 𝔼 n th = fixForward n th := by
  simp only [pFix, exact_forward, fixForward, exact_sub, exact_pi]
  by_cases h : isForwardAngle n th <;> simp [h]

lemma exact_fresnel (a b c d : ℂ) : @pFresnel ℂ 𝔼 a b c d = fresnel a b c d := by
  simp [pFresnel, fresnel]

lemma exact_first2 (r t : ℂ) : @pFirst2 ℂ 𝔼 r t = interfaceMatrix r t := by
  funext i j
  fin_cases i <;> fin_cases j <;> simp [pFirst2, interfaceMatrix]

lemma exact_layer2 (delta r t : ℂ) : @pLayer2 ℂ 𝔼 (@Arith.exp ℂ 𝔼 (@Arith.mul ℂ 𝔼 (@Arith.neg ℂ 𝔼 (@Arith.I ℂ 𝔼)) delta))
    (@Arith.exp ℂ 𝔼 (@Arith.mul ℂ 𝔼 (@Arith.I ℂ 𝔼) delta)) r t = layerMatrix delta r t := by
  funext i j
  fin_cases i <;> fin_cases j <;> simp [pLayer2, layerMatrix]

lemma exact_loop2 (l : ℝ) (n th delta : ℕ → ℂ) (last : Medium) : ∀ (rest : List (ℝ × Medium)) (j : ℕ) (Ms Mp : Mat2),
    (∀ i (h : i < rest.length), n (j + i) = rest[i].2.1 ∧ th (j + i) = rest[i].2.2 ∧
      delta (j + i - 1) = phase2x2 l rest[i].1 rest[i].2.1 rest[i].2.2) →
    (n (j + rest.length), th (j + rest.length)) = last →
    (List.range' j rest.length).foldl (@pStep2 ℂ 𝔼 n th delta) (Ms, Mp) = loop2x2 l last Ms Mp rest
  | [], j, Ms, Mp, _, _ => by
    simp only [List.length_nil, List.range'_zero, List.foldl_nil, loop2x2]
    rfl
  | (d, m) :: rest, j, Ms, Mp, h, hl => by
    obtain ⟨h1, h2, h3⟩ := h 0 (by simp)
    simp only [List.getElem_cons_zero, Nat.add_zero] at h1 h2 h3
    have hn : (n (j + 1), th (j + 1)) = nextMedium rest last := by
      cases rest with
      | nil => simpa [nextMedium] using hl
      | cons x rest =>
        obtain ⟨a, b, _⟩ := h 1 (by simp)
        simp only [nextMedium]
        exact Prod.ext a b
    have ih := exact_loop2 l n th delta last rest (j + 1) (Ms * layerMatrix (delta (j - 1)) (fresnel m.1 (nextMedium rest last).1 m.2 (nextMedium rest last).2).1
      (fresnel m.1 (nextMedium rest last).1 m.2 (nextMedium rest last).2).2.2.1)
      (Mp * layerMatrix (delta (j - 1)) (fresnel m.1 (nextMedium rest last).1 m.2 (nextMedium rest last).2).2.1
      (fresnel m.1 (nextMedium rest last).1 m.2 (nextMedium rest last).2).2.2.2) (fun i hi => by
        have := h (i + 1) (by simpa using hi)
        simp only [List.getElem_cons_succ] at this
        rwa [show j + 1 + i = j + (i + 1) by omega]) (by
        rw [← hl]
        simp only [List.length_cons]
        rw [show j + 1 + rest.length = j + (rest.length + 1) by omega])
    simp only [List.length_cons, List.range'_succ, List.foldl_cons, loop2x2]
    rw [h3] at ih
    rw [← ih]
    congr 1
    simp only [pStep2, exact_fresnel, exact_layer2, exact_matMul, ← hn, h1, h2, h3]
    rfl

lemma exact_pN (st : Stack) : (@pN ℂ 𝔼 (castStack st) 0 = nOf st.front) ∧
    (∀ i (h : i < st.layers.length), @pN ℂ 𝔼 (castStack st) (i + 1) = nOf st.layers[i].2) ∧
    @pN ℂ 𝔼 (castStack st) (st.layers.length + 1) = nOf st.back := by
  refine ⟨by simp [pN, castStack, nOf], fun i h => ?_, by simp [pN, castStack, nOf]⟩
  simp [pN, castStack, nOf, h, castSlice, List.getD_eq_getElem?_getD]

lemma exact_calc2 (theta l : ℝ) (st : Stack) : @pCalc2 ℂ 𝔼 (theta : ℂ) (l : ℂ) (castStack st) = castOut (calculate2x2 asin st theta l) := by
  obtain ⟨h0, hi, hb⟩ := exact_pN (asin := asin) (eig := eig) st
  have hR : (castStack st).layers.length = st.layers.length := by simp [castStack]
  set n := @pN ℂ 𝔼 (castStack st) with hn
  set th := @pSnell ℂ 𝔼 st.layers.length (theta : ℂ) n with hth
  have t0 : (n 0, th 0) = frontMedium asin st theta := by
    refine Prod.ext h0 ?_
    simp only [hth, pSnell, frontMedium, snellAngle, exact_fix, h0, exact_sin_deg]
    rw [if_neg (by omega), if_pos trivial]
    rfl
  have tb : (n (1 + st.layers.length), th (1 + st.layers.length)) = backMedium asin st theta := by
    rw [Nat.add_comm]
    refine Prod.ext hb ?_
    simp only [hth, pSnell, backMedium, snellAngle, exact_fix, h0, hb, exact_sin_deg, if_true, Nat.add_eq_zero_iff, one_ne_zero, and_false, if_false]
    rfl
  have ti : ∀ i (h : i < st.layers.length), th (i + 1) = snellAngle asin (nOf st.front) theta (nOf st.layers[i].2) := by
    intro i h
    simp only [hth, pSnell, snellAngle, h0, hi i h, exact_sin_deg]
    rw [if_neg (by omega), if_neg (by omega)]
    rfl
  have hin : (innerMedia asin (nOf st.front) theta st.layers).length = st.layers.length := by simp [innerMedia]
  have hnext : (n 1, th 1) = nextMedium (innerMedia asin (nOf st.front) theta st.layers) (backMedium asin st theta) := by
    cases hs : st.layers with
    | nil => simpa [hs, innerMedia, nextMedium] using tb
    | cons x rest =>
      have a := hi 0 (by simp [hs])
      have b := ti 0 (by simp [hs])
      simp only [hs, List.getElem_cons_zero, Nat.zero_add] at a b
      simp only [innerMedia, List.map_cons, nextMedium]
      exact Prod.ext a b
  have hm := exact_loop2 (asin := asin) (eig := eig) l n th (@pPhase2 ℂ 𝔼 (castStack st) n th (l : ℂ)) (backMedium asin st theta)
    (innerMedia asin (nOf st.front) theta st.layers) 1
    (interfaceMatrix (fresnel (n 0) (n 1) (th 0) (th 1)).1 (fresnel (n 0) (n 1) (th 0) (th 1)).2.2.1)
    (interfaceMatrix (fresnel (n 0) (n 1) (th 0) (th 1)).2.1 (fresnel (n 0) (n 1) (th 0) (th 1)).2.2.2)
    (fun i h => by
      have hlt : i < st.layers.length := by simpa [innerMedia] using h
      have a := hi i hlt
      have b := ti i hlt
      rw [Nat.add_comm 1 i]
      refine ⟨by simpa [innerMedia] using a, by simpa [innerMedia] using b, ?_⟩
      simp only [pPhase2, phase2x2, Nat.add_sub_cancel, a, b]
      simp [innerMedia, castStack, hlt, castSlice, List.getD_eq_getElem?_getD])
    (by rw [hin]; exact tb)
  rw [hin] at hm
  have hM : matrices2x2 asin st theta l = (List.range' 1 st.layers.length).foldl (@pStep2 ℂ 𝔼 n th (@pPhase2 ℂ 𝔼 (castStack st) n th (l : ℂ)))
      (@pFirst2 ℂ 𝔼 (fresnel (n 0) (n 1) (th 0) (th 1)).1 (fresnel (n 0) (n 1) (th 0) (th 1)).2.2.1,
        @pFirst2 ℂ 𝔼 (fresnel (n 0) (n 1) (th 0) (th 1)).2.1 (fresnel (n 0) (n 1) (th 0) (th 1)).2.2.2) := by
    simp only [exact_first2]
    rw [hm, matrices2x2]
    simp only [← t0, ← hnext]
  simp only [pCalc2, hR, ← hn, ← hth, exact_fresnel, calculate2x2]
  rw [← hM, ← t0, ← tb]
  generalize matrices2x2 asin st theta l = M
  refine Prod.ext ?_ (Prod.ext ?_ ?_)
  · funext i j
    fin_cases i <;> fin_cases j <;> simp [pJones2, castOut]
  · funext i j
    fin_cases i <;> fin_cases j <;> simp [pJones2, castOut]
  · simp [pJones2, castOut, Nat.add_comm 1]

lemma exact_2 {s : StructArr ℂ} {s' : Struct} (hs : StructIs s s') (theta l : ℝ) {st : Stack} (hst : s'.stack l = some st) {r : PRes ℂ}
    (h : @p2 ℂ 𝔼 s (theta : ℂ) (l : ℂ) = .ok r) : r = castOut (calculate2x2 asin st theta l) := by
  obtain ⟨ps, h1, h⟩ := bind_ok h
  obtain ⟨rfl, hb⟩ := setup_eq hs h1 hst
  rw [← Except.ok.inj h]
  exact exact_calc2 theta l st

end PyElli.Nd
