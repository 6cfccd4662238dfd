import Verif.Props.Bragg
import Verif.Spec.QuarterWaves

/-! # Coatings of quarter-wave layers (C156) -/

namespace PyElli

open Complex
open _root_.Spec.QuarterWaves

lemma qw_admittance_pos {ns : ℝ} (hns : 0 < ns) {L : List ℝ} (hL : ∀ n ∈ L, 0 < n) : 0 < admittance ns L := by
  induction L with
  | nil => exact hns
  | cons n L ih =>
    have h1 := ih fun m hm => hL m (List.mem_cons_of_mem _ hm)
    have h2 := hL n (by simp)
    unfold admittance
    positivity

/-- A layer with the thickness of `get_qwp_thickness` for the material of real index `n` (`utils.py:181-192`, `structure.py` `Layer`). -/
noncomputable def qwLayer (lbda n : ℝ) : ℝ × Tensor := (qwpThickness (isoTensor ((n ^ 2 : ℝ) : ℂ)) lbda, isoTensor ((n ^ 2 : ℝ) : ℂ))

/-- A `Structure` (front, layers, back) coated with quarter-wave layers, from the front. Not part of the code: the samples the claim is about. -/
noncomputable def qwStack (n0 ns lbda : ℝ) (L : List ℝ) : Stack :=
  ⟨isoTensor ((n0 ^ 2 : ℝ) : ℂ), L.map (qwLayer lbda), isoTensor ((ns ^ 2 : ℝ) : ℂ), true⟩

/-- The fields in front of the layers, for both polarisations. -/
lemma qw_fields {ns lbda : ℝ} (hns : 0 < ns) (hl : 0 < lbda) {L : List ℝ} (hL : ∀ n ∈ L, 0 < n) :
    ∃ k : ℂ, k ≠ 0 ∧
      (prodS 0 lbda (L.map (qwLayer lbda)) * Ds (ns : ℂ) 1) 0 0 = k ∧
      (prodS 0 lbda (L.map (qwLayer lbda)) * Ds (ns : ℂ) 1) 1 0 = -(k * (admittance ns L : ℝ)) ∧
      (prodP 0 lbda (L.map (qwLayer lbda)) * Dp (ns : ℂ) 1) 0 0 = k ∧
      (prodP 0 lbda (L.map (qwLayer lbda)) * Dp (ns : ℂ) 1) 1 0 = k * (admittance ns L : ℝ) := by
  induction L with
  | nil =>
    refine ⟨1, one_ne_zero, ?_, ?_, ?_, ?_⟩ <;> simp [prodS, prodP, Ds, Dp, admittance]
  | cons n L ih =>
    have hL' : ∀ m ∈ L, 0 < m := fun m hm => hL m (List.mem_cons_of_mem _ hm)
    have hn := hL n (by simp)
    obtain ⟨k, hk, a1, a2, b1, b2⟩ := ih hL'
    have hY := qw_admittance_pos hns hL'
    have hYc : ((admittance ns L : ℝ) : ℂ) ≠ 0 := by exact_mod_cast hY.ne'
    have hnc : (n : ℂ) ≠ 0 := by exact_mod_cast hn.ne'
    obtain ⟨q1, q2⟩ := qwp_real hn hl
    have e1 : prodS 0 lbda ((n :: L).map (qwLayer lbda)) = layerT 1 n ((Real.pi / 2 : ℝ) : ℂ) * prodS 0 lbda (L.map (qwLayer lbda)) := by
      rw [← q1]
      simp [prodS, qwLayer, isoTensor]
    have e2 : prodP 0 lbda ((n :: L).map (qwLayer lbda)) = layerT (-1) n ((Real.pi / 2 : ℝ) : ℂ) * prodP 0 lbda (L.map (qwLayer lbda)) := by
      rw [← q2]
      simp [prodP, qwLayer, isoTensor]
    have t : ∀ sg : ℂ, layerT sg n ((Real.pi / 2 : ℝ) : ℂ) = !![0, sg * I / n; sg * I * n, 0] := by
      intro sg
      unfold layerT
      rw [← Complex.ofReal_cos, ← Complex.ofReal_sin, Real.cos_pi_div_two, Real.sin_pi_div_two]
      simp
    have hadm : ((admittance ns (n :: L) : ℝ) : ℂ) = (n : ℂ) ^ 2 / (admittance ns L : ℝ) := by
      simp only [admittance]
      push_cast
      rfl
    rw [e1, e2, Matrix.mul_assoc, Matrix.mul_assoc, t, t, hadm]
    generalize prodS 0 lbda (L.map (qwLayer lbda)) * Ds (ns : ℂ) 1 = A at *
    generalize prodP 0 lbda (L.map (qwLayer lbda)) * Dp (ns : ℂ) 1 = B at *
    generalize ((admittance ns L : ℝ) : ℂ) = Y at *
    refine ⟨-(I * Y / n) * k, mul_ne_zero (neg_ne_zero.2 (div_ne_zero (mul_ne_zero I_ne_zero hYc) hnc)) hk, ?_, ?_, ?_, ?_⟩
    · simp [Matrix.mul_apply, Fin.sum_univ_two, a2]
      ring
    · simp [Matrix.mul_apply, Fin.sum_univ_two, a1]
      field_simp
    · simp [Matrix.mul_apply, Fin.sum_univ_two, b2]
      ring
    · simp [Matrix.mul_apply, Fin.sum_univ_two, b1]
      field_simp

/-- C156: at normal incidence any number of quarter-wave layers reflect like one interface, to the medium whose index is the admittance. -/
theorem C156_admittance (n0 ns lbda : ℝ) (hn0 : 0 < n0) (hns : 0 < ns) (hl : 0 < lbda) (L : List ℝ) (hL : ∀ n ∈ L, 0 < n) (ee) :
    (calculate4x4 propExpm (qwStack n0 ns lbda L) 0 lbda ee).jr =
      !![((-amplitude n0 (admittance ns L) : ℝ) : ℂ), 0; 0, ((amplitude n0 (admittance ns L) : ℝ) : ℂ)] := by
  have hk : kxOf (qwStack n0 ns lbda L) 0 = 0 := by simp [kxOf, deg2rad]
  have hcos : ∀ e, cosPhi 0 (isoTensor e) = 1 := by
    intro e
    unfold cosPhi
    have := csqrt_ofReal (x := 1) (by norm_num)
    simpa using this
  have hT := transfer4x4_iso (qwStack n0 ns lbda L) 0 lbda ee (by
    intro l hl
    simp only [qwStack, List.mem_map] at hl
    obtain ⟨n, -, rfl⟩ := hl
    ext i j
    simp [qwLayer, isoTensor]) rfl
  rw [hk] at hT
  have hcf : cosPhi 0 (qwStack n0 ns lbda L).front = 1 := hcos _
  have hcb : cosPhi 0 (qwStack n0 ns lbda L).back = 1 := hcos _
  have hnf : nOf (qwStack n0 ns lbda L).front = n0 := nOf_iso_sq hn0.le
  have hnb : nOf (qwStack n0 ns lbda L).back = ns := nOf_iso_sq hns.le
  rw [hcf, hcb, hnf, hnb, Matrix.mul_assoc, Matrix.mul_assoc] at hT
  obtain ⟨k, hk0, a1, a2, b1, b2⟩ := qw_fields hns hl hL
  have hY := qw_admittance_pos hns hL
  change transfer4x4 propExpm (qwStack n0 ns lbda L) 0 lbda ee = blkD (DsInv (n0 : ℂ) 1 * (prodS 0 lbda (L.map (qwLayer lbda)) * Ds (ns : ℂ) 1))
    (DpInv (n0 : ℂ) 1 * (prodP 0 lbda (L.map (qwLayer lbda)) * Dp (ns : ℂ) 1)) at hT
  generalize prodS 0 lbda (L.map (qwLayer lbda)) * Ds (ns : ℂ) 1 = A at *
  generalize prodP 0 lbda (L.map (qwLayer lbda)) * Dp (ns : ℂ) 1 = B at *
  generalize admittance ns L = Y at *
  have n0c : (n0 : ℂ) ≠ 0 := by exact_mod_cast hn0.ne'
  have hden : (n0 + Y : ℂ) ≠ 0 := by
    have : n0 + Y ≠ 0 := by positivity
    exact_mod_cast this
  set S := DsInv (n0 : ℂ) 1 * A with hSd
  set P := DpInv (n0 : ℂ) 1 * B with hPd
  have S0 : S 0 0 = k * (n0 + Y) / (2 * n0) := by
    rw [hSd]; simp [DsInv, Matrix.mul_apply, Fin.sum_univ_two, a1, a2]; field_simp
  have S1 : S 1 0 = k * (n0 - Y) / (2 * n0) := by
    rw [hSd]; simp [DsInv, Matrix.mul_apply, Fin.sum_univ_two, a1, a2]; field_simp; try ring
  have P0 : P 0 0 = k * (n0 + Y) / (2 * n0) := by
    rw [hPd]; simp [DpInv, Matrix.mul_apply, Fin.sum_univ_two, b1, b2]; field_simp
  have P1 : P 1 0 = -(k * (n0 - Y) / (2 * n0)) := by
    rw [hPd]; simp [DpInv, Matrix.mul_apply, Fin.sum_univ_two, b1, b2]; field_simp; try ring
  have h0 : k * (n0 + Y) / (2 * n0) ≠ 0 := div_ne_zero (mul_ne_zero hk0 hden) (mul_ne_zero two_ne_zero n0c)
  obtain ⟨hj, _⟩ := calc4x4_of_blkD (qwStack n0 ns lbda L) 0 lbda ee S P hT (by rw [S0]; exact h0) (by rw [P0]; exact h0)
  have e : k * (n0 - Y : ℂ) / (2 * n0) / (k * (n0 + Y) / (2 * n0)) = (n0 - Y) / (n0 + Y) := by
    field_simp
  rw [hj, S0, S1, P0, P1, neg_div, e]
  unfold amplitude
  push_cast
  rfl

/-- C156: the reflectance of both polarisations. -/
theorem C156_reflectance (n0 ns lbda : ℝ) (hn0 : 0 < n0) (hns : 0 < ns) (hl : 0 < lbda) (L : List ℝ) (hL : ∀ n ∈ L, 0 < n) (ee) (jones : Fin 2 → ℂ) :
    let out := calculate4x4 propExpm (qwStack n0 ns lbda L) 0 lbda ee
    (Result.mk' out.jr out.jt out.power jones).R = amplitude n0 (admittance ns L) ^ 2 := by
  intro out
  have h : out.jr = _ := C156_admittance n0 ns lbda hn0 hns hl L hL ee
  simp only [Result.R, Result.RMatrix, Result.mk', h]
  simp

/-- C156: the coating removes the reflection exactly if its admittance is the index in front. -/
theorem C156_antireflection (n0 ns lbda : ℝ) (hn0 : 0 < n0) (hns : 0 < ns) (hl : 0 < lbda) (L : List ℝ) (hL : ∀ n ∈ L, 0 < n) (ee) :
    (calculate4x4 propExpm (qwStack n0 ns lbda L) 0 lbda ee).jr = 0 ↔ admittance ns L = n0 := by
  rw [C156_admittance n0 ns lbda hn0 hns hl L hL ee]
  have hY := qw_admittance_pos hns hL
  have hd : n0 + admittance ns L ≠ 0 := by positivity
  constructor
  · intro h
    have h1 := congrFun (congrFun h 1) 1
    have h2 : amplitude n0 (admittance ns L) = 0 := by
      have : ((amplitude n0 (admittance ns L) : ℝ) : ℂ) = 0 := by simpa using h1
      exact_mod_cast this
    unfold amplitude at h2
    rcases div_eq_zero_iff.1 h2 with h3 | h3
    · linarith
    · exact absurd h3 hd
  · intro h
    rw [h]
    ext i j
    fin_cases i <;> fin_cases j <;> simp [amplitude]

/-- C156: one layer of index `sqrt(n0 ns)`, two layers with `n1² ns = n2² n0`, three with `n1 n3 = n2 sqrt(n0 ns)`. -/
theorem C156_one_two_three (n0 n1 n2 n3 ns lbda : ℝ) (hn0 : 0 < n0) (hn1 : 0 < n1) (hn2 : 0 < n2) (hn3 : 0 < n3) (hns : 0 < ns) (hl : 0 < lbda) (ee) :
    ((calculate4x4 propExpm (qwStack n0 ns lbda [n1]) 0 lbda ee).jr = 0 ↔ n1 ^ 2 = n0 * ns) ∧
    ((calculate4x4 propExpm (qwStack n0 ns lbda [n1, n2]) 0 lbda ee).jr = 0 ↔ n1 ^ 2 * ns = n2 ^ 2 * n0) ∧
    ((calculate4x4 propExpm (qwStack n0 ns lbda [n1, n2, n3]) 0 lbda ee).jr = 0 ↔ (n1 * n3) ^ 2 = n2 ^ 2 * (n0 * ns)) := by
  refine ⟨?_, ?_, ?_⟩
  · rw [C156_antireflection n0 ns lbda hn0 hns hl [n1] (by simpa using hn1) ee]
    simp only [admittance]
    rw [div_eq_iff hns.ne']
  · rw [C156_antireflection n0 ns lbda hn0 hns hl [n1, n2] (by
      intro n hn
      simp only [List.mem_cons, List.not_mem_nil, or_false] at hn
      rcases hn with rfl | rfl <;> assumption) ee]
    simp only [admittance]
    rw [div_div_eq_mul_div, div_eq_iff (by positivity), mul_comm n0]
  · rw [C156_antireflection n0 ns lbda hn0 hns hl [n1, n2, n3] (by
      intro n hn
      simp only [List.mem_cons, List.not_mem_nil, or_false] at hn
      rcases hn with rfl | rfl | rfl <;> assumption) ee]
    simp only [admittance]
    rw [div_div_eq_mul_div, div_eq_iff (by positivity)]
    constructor <;> intro h
    · have h2 : n1 ^ 2 * (n3 ^ 2 / ns) * ns = n0 * n2 ^ 2 * ns := by rw [h]
      have h3 : n1 ^ 2 * (n3 ^ 2 / ns) * ns = n1 ^ 2 * n3 ^ 2 := by field_simp
      linear_combination h2 - h3
    · have h3 : n1 ^ 2 * (n3 ^ 2 / ns) * ns = n1 ^ 2 * n3 ^ 2 := by field_simp
      have : (n1 ^ 2 * (n3 ^ 2 / ns)) * ns = (n0 * n2 ^ 2) * ns := by linear_combination h3 + h
      exact mul_right_cancel₀ hns.ne' this

/-- C156: two equal quarter-wave layers in a row (a half-wave layer) do not matter, at any place of the coating. -/
theorem C156_half_wave (n0 n ns lbda : ℝ) (hn0 : 0 < n0) (hn : 0 < n) (hns : 0 < ns) (hl : 0 < lbda) (L L' : List ℝ) (hL : ∀ n ∈ L, 0 < n)
    (hL' : ∀ n ∈ L', 0 < n) (ee) :
    (calculate4x4 propExpm (qwStack n0 ns lbda (L ++ n :: n :: L')) 0 lbda ee).jr = (calculate4x4 propExpm (qwStack n0 ns lbda (L ++ L')) 0 lbda ee).jr := by
  have key : admittance ns (L ++ n :: n :: L') = admittance ns (L ++ L') := by
    clear hL
    induction L with
    | nil =>
      have := qw_admittance_pos hns hL'
      simp only [List.nil_append, admittance]
      field_simp
    | cons m L ih =>
      simp only [List.cons_append, admittance, ih]
  rw [C156_admittance n0 ns lbda hn0 hns hl _ (by
      intro m hm
      simp only [List.mem_append, List.mem_cons] at hm
      rcases hm with h | rfl | rfl | h
      · exact hL m h
      · exact hn
      · exact hn
      · exact hL' m h) ee, C156_admittance n0 ns lbda hn0 hns hl _ (by
      intro m hm
      simp only [List.mem_append] at hm
      rcases hm with h | h
      · exact hL m h
      · exact hL' m h) ee, key]

/-- C156: every further pair with the higher index in front raises the reflectance of a coating whose admittance is already above the index in front. -/
theorem C156_pairs (n0 nh nl ns lbda : ℝ) (hn0 : 0 < n0) (hnl : 0 < nl) (hlt : nl < nh) (hns : 0 < ns) (hl : 0 < lbda) (L : List ℝ) (hL : ∀ n ∈ L, 0 < n)
    (hY : n0 ≤ admittance ns L) (ee) (jones : Fin 2 → ℂ) :
    let R := fun M => let out := calculate4x4 propExpm (qwStack n0 ns lbda M) 0 lbda ee
      (Result.mk' out.jr out.jt out.power jones).R
    n0 ≤ admittance ns (nh :: nl :: L) ∧ R L < R (nh :: nl :: L) := by
  intro R
  have hnh : 0 < nh := hnl.trans hlt
  have hYp := qw_admittance_pos hns hL
  have hL2 : ∀ n ∈ nh :: nl :: L, 0 < n := by
    intro n hn
    simp only [List.mem_cons] at hn
    rcases hn with rfl | rfl | h
    · exact hnh
    · exact hnl
    · exact hL n h
  have e : admittance ns (nh :: nl :: L) = nh ^ 2 / nl ^ 2 * admittance ns L := by
    simp only [admittance]
    field_simp
  have hq : 1 < nh ^ 2 / nl ^ 2 := by
    rw [one_lt_div (by positivity)]
    exact pow_lt_pow_left₀ hlt hnl.le (by norm_num)
  have hlt' : admittance ns L < admittance ns (nh :: nl :: L) := by
    rw [e]
    nlinarith
  refine ⟨hY.trans hlt'.le, ?_⟩
  show (_ : ℝ) < _
  have r1 : R L = amplitude n0 (admittance ns L) ^ 2 := C156_reflectance n0 ns lbda hn0 hns hl L hL ee jones
  have r2 : R (nh :: nl :: L) = amplitude n0 (admittance ns (nh :: nl :: L)) ^ 2 := C156_reflectance n0 ns lbda hn0 hns hl _ hL2 ee jones
  rw [r1, r2]
  generalize admittance ns (nh :: nl :: L) = Z at *
  generalize admittance ns L = Y at *
  have a : ∀ y, amplitude n0 y ^ 2 = ((y - n0) / (n0 + y)) ^ 2 := by
    intro y
    unfold amplitude
    rw [div_pow, div_pow]
    congr 1
    ring
  rw [a, a]
  have hZ : 0 < Z := hYp.trans hlt'
  refine pow_lt_pow_left₀ ?_ (div_nonneg (by linarith) (by positivity)) (by norm_num)
  rw [div_lt_div_iff₀ (by positivity) (by positivity)]
  nlinarith

/-- A mirror on glass that starts with one layer of titania: its admittance is above that of air. -/
example : (1 : ℝ) ≤ admittance 1.5 [2.4] ∧ (1.46 : ℝ) < 2.4 ∧ ∀ n ∈ ([2.4] : List ℝ), (0 : ℝ) < n := by
  refine ⟨?_, by norm_num, by simp; norm_num⟩
  simp only [admittance]
  norm_num

/-- Glass of index 9/4 coated with indices 1 (outside) and 3/2 shows no reflection in air. -/
example : admittance (9 / 4 : ℝ) [1, 3 / 2] = 1 := by
  simp only [admittance]
  norm_num

end PyElli
