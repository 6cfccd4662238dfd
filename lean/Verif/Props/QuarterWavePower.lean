import Verif.Props.QuarterWaves
import Verif.Props.Defined2x2

/-! # Coatings of quarter-wave layers: transmission and Solver2x2 (C156) -/

namespace PyElli

open Complex
open _root_.Spec PyElli.Spec _root_.Spec.QuarterWaves

lemma qwStack_lossless {n0 ns lbda : ℝ} (hn0 : 0 < n0) (hns : 0 < ns) (hl : 0 < lbda) {L : List ℝ} (hL : ∀ n ∈ L, 0 < n) :
    LosslessIso (qwStack n0 ns lbda L) 0 lbda := by
  refine ⟨⟨⟨n0, hn0, by simp [qwStack, isoTensor]⟩, by norm_num, hl, ?_, ?_, ?_, rfl⟩, ?_, ?_, ?_⟩
  · intro l h
    simp only [qwStack, List.mem_map] at h
    obtain ⟨n, hn, rfl⟩ := h
    have hp := hL n hn
    have h0 : ((n ^ 2 : ℝ) : ℂ) ≠ 0 := by exact_mod_cast (pow_pos hp 2).ne'
    refine ⟨?_, by simpa [qwLayer, isoTensor] using h0, passive_isoTensor (Complex.ofReal_im _).ge⟩
    simp only [qwLayer, qwpThickness]
    rw [nOf_iso_sq hp.le, Complex.ofReal_re]
    positivity
  · have h0 : ((ns ^ 2 : ℝ) : ℂ) ≠ 0 := by exact_mod_cast (pow_pos hns 2).ne'
    simpa [qwStack, isoTensor] using h0
  · show 0 ≤ ((ns ^ 2 : ℝ) : ℂ).im
    exact (Complex.ofReal_im _).ge
  · intro l h
    simp only [qwStack, List.mem_map] at h
    obtain ⟨n, -, rfl⟩ := h
    ext i j
    simp [qwLayer, isoTensor]
  · intro l h
    simp only [qwStack, List.mem_map] at h
    obtain ⟨n, -, rfl⟩ := h
    unfold Lossless Matrix.IsHermitian
    ext i j
    fin_cases i <;> fin_cases j <;> simp [qwLayer, isoTensor, Matrix.conjTranspose_apply]
  · show ((ns ^ 2 : ℝ) : ℂ).im = 0
    exact Complex.ofReal_im _

/-- C156: what is not reflected is transmitted, for both polarisations. -/
theorem C156_transmittance (n0 ns lbda : ℝ) (hn0 : 0 < n0) (hns : 0 < ns) (hl : 0 < lbda) (L : List ℝ) (hL : ∀ n ∈ L, 0 < n) (ee) (jones : Fin 2 → ℂ) :
    let out := calculate4x4 propExpm (qwStack n0 ns lbda L) 0 lbda ee
    let res := Result.mk' out.jr out.jt out.power jones
    let Y := admittance ns L
    ∀ i, res.RMatrix i i = ((n0 - Y) / (n0 + Y)) ^ 2 ∧ res.TMatrix i i = 4 * n0 * Y / (n0 + Y) ^ 2 := by
  intro out res Y
  have hY : 0 < Y := qw_admittance_pos hns hL
  have h : out.jr = _ := C156_admittance n0 ns lbda hn0 hns hl L hL ee
  obtain ⟨-, -, -, hh⟩ := powers_iso _ 0 lbda (qwStack_lossless hn0 hns hl hL) ee jones
  obtain ⟨-, -, -, -, e1, -, -, e0⟩ := hh
  have r : ∀ i, res.RMatrix i i = ((n0 - Y) / (n0 + Y)) ^ 2 := by
    intro i
    change _ = amplitude n0 (admittance ns L) ^ 2
    simp only [res, Result.RMatrix, Result.mk', h]
    generalize amplitude n0 (admittance ns L) = r
    fin_cases i <;> simp
  have t : (1 : ℝ) - ((n0 - Y) / (n0 + Y)) ^ 2 = 4 * n0 * Y / (n0 + Y) ^ 2 := by
    have : n0 + Y ≠ 0 := by positivity
    field_simp
    ring
  intro i
  refine ⟨r i, ?_⟩
  rw [← t]
  fin_cases i
  · have := r 0
    change res.TMatrix 0 0 = _
    linarith
  · have := r 1
    change res.TMatrix 1 1 = _
    linarith

/-- C156: `Solver2x2` gives the same, so that all statements hold for it as well. -/
theorem C156_solver2x2 {asin : ℂ → ℂ} (ha : PrincipalArcsin asin) (n0 ns lbda : ℝ) (hn0 : 0 < n0) (hns : 0 < ns) (hl : 0 < lbda) (L : List ℝ)
    (hL : ∀ n ∈ L, 0 < n) :
    (calculate2x2 asin (qwStack n0 ns lbda L) 0 lbda).jr =
      !![((-amplitude n0 (admittance ns L) : ℝ) : ℂ), 0; 0, ((amplitude n0 (admittance ns L) : ℝ) : ℂ)] ∧
    ∀ ee, calculate2x2 asin (qwStack n0 ns lbda L) 0 lbda = calculate4x4 propExpm (qwStack n0 ns lbda L) 0 lbda ee := by
  have hs := qwStack_lossless hn0 hns hl hL
  have key : ∀ ee, calculate2x2 asin (qwStack n0 ns lbda L) 0 lbda = calculate4x4 propExpm (qwStack n0 ns lbda L) 0 lbda ee := by
    intro ee
    refine C148_below_critical ha _ n0 0 lbda ee hs.passive hs.iso hn0 (by simp [qwStack, isoTensor]) ?_ ?_
    · intro l h ⟨_, h2⟩
      simp only [qwStack, List.mem_map] at h
      obtain ⟨n, hn, rfl⟩ := h
      have hp := pow_pos (hL n hn) 2
      have e : (qwLayer lbda n).2 0 0 = ((n ^ 2 : ℝ) : ℂ) := by simp [qwLayer, isoTensor]
      rw [e, Complex.ofReal_re] at h2
      simp [deg2rad] at h2
      exact (hL n hn).ne' h2
    · rintro ⟨_, h2⟩
      have e : (qwStack n0 ns lbda L).back 0 0 = ((ns ^ 2 : ℝ) : ℂ) := by simp [qwStack, isoTensor]
      rw [e, Complex.ofReal_re] at h2
      simp [deg2rad] at h2
      exact hns.ne' h2
  refine ⟨?_, key⟩
  rw [key (0, 0)]
  exact C156_admittance n0 ns lbda hn0 hns hl L hL _

/-- Crown glass with a layer of magnesium fluoride: part of the light is reflected, the rest transmitted. -/
example : ∀ ee, let out := calculate4x4 propExpm (qwStack 1 1.5 500 [1.4]) 0 500 ee
    (Result.mk' out.jr out.jt out.power ![1, 0]).TMatrix 0 0 < 1 := by
  intro ee out
  have h := (C156_transmittance 1 1.5 500 (by norm_num) (by norm_num) (by norm_num) [1.4] (by simp; norm_num) ee ![1, 0] 0).2
  change _ = 4 * 1 * admittance 1.5 [1.4] / (1 + admittance 1.5 [1.4]) ^ 2 at h
  rw [h]
  simp only [admittance]
  norm_num

example : PrincipalArcsin textbookArcsin := textbook_principal

end PyElli
