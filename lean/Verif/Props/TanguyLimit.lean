import Verif.Props.Tanguy
import Verif.Lemmas.TanguyLimit

/-! # The dimensionality and the resonances of the Tanguy model -/

namespace PyElli

open Complex Filter Topology PyElli.Exciton PyElli.Herglotz PyElli.GammaRatio

section
variable {d R Eg E gam : ℝ}

/-- The sum of the three exciton functions. -/
noncomputable def tanguySum (R Eg E gam d : ℝ) : ℂ :=
  gfun d (xi R Eg (E + I * gam)) + gfun d (xi R Eg (-(E + I * gam))) - 2 * gfun d (xi R Eg 0)

/-- The closed form of the model. -/
noncomputable def tanguyEps (A R Eg a b E gam d : ℝ) : ℂ :=
  1 + (a / (b - E ^ 2) : ℝ) + (A * R ^ (d / 2 - 1) : ℝ) / (E + I * gam) ^ 2 * tanguySum R Eg E gam d

lemma threshold_pos (hd : 1 < d) (hb : R < ((d - 1) / 2) ^ 2 * Eg) : 0 < Eg - R / ((d - 1) / 2) ^ 2 := by
  have ha : 0 < (d - 1) / 2 := by linarith
  rw [sub_pos, div_lt_iff₀ (pow_pos ha 2)]
  linarith

lemma threshold_le (hd : 1 < d) (hR : 0 < R) : Eg - R / ((d - 1) / 2) ^ 2 ≤ Eg := by
  have ha : 0 < (d - 1) / 2 := by linarith
  have := div_pos hR (pow_pos ha 2)
  linarith

lemma upper_cut (t : ℝ) (hg : 0 < gam) : (E : ℂ) + I * gam ∈ Cut t := fun h => by simp at h; linarith

lemma lower_cut (t : ℝ) (hg : 0 < gam) : -((E : ℂ) + I * gam) ∈ Cut t := fun h => by simp at h; linarith

lemma zero_cut {t : ℝ} (ht : 0 < t) : (0 : ℂ) ∈ Cut t := fun _ => by simpa using ht

lemma half_tendsto (d : ℝ) : Tendsto (fun e : ℝ => (e - 1) / 2) (𝓝[≠] d) (𝓝[≠] ((d - 1) / 2)) := by
  apply tendsto_nhdsWithin_of_tendsto_nhds_of_eventually_within
  · exact ((by fun_prop : Continuous (fun e : ℝ => (e - 1) / 2)).tendsto d).mono_left nhdsWithin_le_nhds
  · filter_upwards [self_mem_nhdsWithin] with e he h
    apply he
    have h' : (e - 1) / 2 = (d - 1) / 2 := h
    have : e = d := by linarith
    exact this

lemma gfun_gen {e : ℝ} (h2 : e ≠ 2) (h3 : e ≠ 3) (x : ℂ) : gfun e x = K ((e - 1) / 2) * G (((e - 1) / 2 : ℝ) : ℂ) x := by
  rw [gfun, if_neg h2, if_neg h3]

/-- Away from two dimensions the sum is continuous in the dimensionality. -/
lemma tanguySum_continuousAt (hd : 1 < d) (hd' : d ≤ 3) (hd2 : d ≠ 2) (hg : 0 < gam) (hR : 0 < R) (hb : R < ((d - 1) / 2) ^ 2 * Eg) :
    ContinuousAt (tanguySum R Eg E gam) d := by
  have ha : 0 < (d - 1) / 2 := by linarith
  have hle := threshold_le (Eg := Eg) hd hR
  have key : ∀ z : ℂ, z ∈ Cut (Eg - R / ((d - 1) / 2) ^ 2) → 0 < (xi R Eg z).re ∧ ∀ m : ℕ, xi R Eg z ≠ ((d - 1) / 2 : ℝ) + m :=
    fun z hz => ⟨xi_re_pos hR (cut_mono hle hz), xi_no_pole hR ha hz⟩
  obtain ⟨x1, x2⟩ := key _ (upper_cut (E := E) _ hg)
  obtain ⟨y1, y2⟩ := key _ (lower_cut (E := E) _ hg)
  obtain ⟨w1, w2⟩ := key _ (zero_cut (threshold_pos hd hb))
  unfold tanguySum
  generalize xi R Eg (E + I * gam) = x at *
  generalize xi R Eg (-(E + I * gam)) = y at *
  generalize xi R Eg 0 = w at *
  by_cases h3 : d = 3
  · subst h3
    rw [continuousAt_iff_punctured_nhds]
    norm_num at x2 y2 w2
    have h := (limit_three x1 x2 y1 y2 w1 w2).comp (by have := half_tendsto 3; rwa [show ((3 : ℝ) - 1) / 2 = 1 by norm_num] at this : Tendsto (fun e : ℝ => (e - 1) / 2) (𝓝[≠] 3) (𝓝[≠] 1))
    have e3 : ∀ x, gfun 3 x = g3 x := fun x => by rw [gfun, if_neg (by norm_num), if_pos rfl]
    rw [e3, e3, e3]
    refine h.congr' ?_
    have n2 : ∀ᶠ e in 𝓝[≠] (3 : ℝ), e ≠ 2 := (eventually_ne_nhds (by norm_num)).filter_mono nhdsWithin_le_nhds
    filter_upwards [n2, self_mem_nhdsWithin] with e h2 h3
    rw [gfun_gen h2 h3, gfun_gen h2 h3, gfun_gen h2 h3]
    rfl
  · have hlt : d < 3 := lt_of_le_of_ne hd' h3
    have hc : ∀ x : ℂ, 0 < x.re → (∀ m : ℕ, x ≠ ((d - 1) / 2 : ℝ) + m) → ContinuousAt (fun e => gfun e x) d := by
      intro x hx hp
      have h := continuousAt_gen ha (by linarith) (fun h => hd2 (by linarith)) hx hp
      have h' : ContinuousAt (fun e : ℝ => (K ((e - 1) / 2) : ℂ) * G (((e - 1) / 2 : ℝ) : ℂ) x) d :=
        ContinuousAt.comp (f := fun e : ℝ => (e - 1) / 2) (g := fun a : ℝ => (K a : ℂ) * G a x) h (by fun_prop)
      refine h'.congr ?_
      filter_upwards [eventually_ne_nhds hd2, eventually_ne_nhds h3] with e h2 h3
      rw [gfun_gen h2 h3]
    exact ((hc x x1 x2).add (hc y y1 y2)).sub ((hc w w1 w2).const_mul 2)

/-- Next to two dimensions the sum tends to the `π`-th part of its value in two dimensions. -/
lemma tanguySum_two (hg : 0 < gam) (hR : 0 < R) (hb : R < (1 / 2) ^ 2 * Eg) :
    Tendsto (tanguySum R Eg E gam) (𝓝[≠] 2) (𝓝 (((1 / Real.pi : ℝ) : ℂ) * tanguySum R Eg E gam 2)) := by
  have e12 : ((2 : ℝ) - 1) / 2 = 1 / 2 := by norm_num
  have hb' : R < ((2 - 1) / 2) ^ 2 * Eg := by rw [e12]; exact hb
  have hle := threshold_le (Eg := Eg) (d := 2) (by norm_num) hR
  have key : ∀ z : ℂ, z ∈ Cut (Eg - R / ((2 - 1) / 2) ^ 2) → 0 < (xi R Eg z).re ∧ ∀ m : ℕ, xi R Eg z ≠ 1 / 2 + m := by
    intro z hz
    refine ⟨xi_re_pos hR (cut_mono hle hz), fun m h => xi_no_pole hR (by norm_num) hz m ?_⟩
    rw [h]
    norm_num
  obtain ⟨x1, x2⟩ := key _ (upper_cut (E := E) _ hg)
  obtain ⟨y1, y2⟩ := key _ (lower_cut (E := E) _ hg)
  obtain ⟨w1, w2⟩ := key _ (zero_cut (threshold_pos (by norm_num) hb'))
  unfold tanguySum
  generalize xi R Eg (E + I * gam) = x at *
  generalize xi R Eg (-(E + I * gam)) = y at *
  generalize xi R Eg 0 = w at *
  have h := (limit_two x1 x2 y1 y2 w1 w2).comp (by rw [← e12]; exact half_tendsto 2 : Tendsto (fun e : ℝ => (e - 1) / 2) (𝓝[≠] 2) (𝓝[≠] (1 / 2)))
  have e2 : ∀ x, gfun 2 x = g2 x := fun x => by rw [gfun, if_pos rfl]
  rw [e2, e2, e2]
  refine h.congr' ?_
  have n3 : ∀ᶠ e in 𝓝[≠] (2 : ℝ), e ≠ 3 := (eventually_ne_nhds (by norm_num)).filter_mono nhdsWithin_le_nhds
  filter_upwards [n3, self_mem_nhdsWithin] with e h3 h2
  rw [gfun_gen h2 h3, gfun_gen h2 h3, gfun_gen h2 h3]
  rfl

lemma coefficient_continuousAt (A : ℝ) (E gam d : ℝ) (hR : 0 < R) :
    ContinuousAt (fun e : ℝ => ((A * R ^ (e / 2 - 1) : ℝ) : ℂ) / ((E : ℂ) + I * gam) ^ 2) d := by
  have h1 : ContinuousAt (fun e : ℝ => R ^ (e / 2 - 1)) d :=
    ContinuousAt.rpow continuousAt_const (by fun_prop) (Or.inl hR.ne')
  have h2 : ContinuousAt (fun e : ℝ => A * R ^ (e / 2 - 1)) d := h1.const_mul A
  exact (continuous_ofReal.continuousAt.comp' h2).div_const _

lemma tanguyEps_eventually (K : PhysConst) {A a b lbda : ℝ} (hE : conversionWavelengthEnergy K lbda = some E) (hE0 : 0 < E)
    (hg : 0 < gam) (hR : 0 < R) (hb : R < ((d - 1) / 2) ^ 2 * Eg) (hbE : b ≠ E ^ 2) :
    ∀ᶠ e in 𝓝 d, 1 < e → e ≤ 3 → tanguy K (tanguyParams A e gam R Eg a b) lbda = some (tanguyEps A R Eg a b E gam e) := by
  have hc : ContinuousAt (fun e : ℝ => ((e - 1) / 2) ^ 2 * Eg) d := by fun_prop
  filter_upwards [hc.eventually (lt_mem_nhds hb)] with e he h1 h3
  exact tanguy_value K hE hE0 h1 h3 hg hR he hbE
end

/-- The value of the Tanguy model depends continuously on the dimensionality at `d`, among the dimensionalities of the documentation. -/
def TanguyContinuousAt (K : PhysConst) (A d gam R Eg a b lbda : ℝ) : Prop :=
  ∃ v, tanguy K (tanguyParams A d gam R Eg a b) lbda = some v ∧
    ∀ r > 0, ∃ s > 0, ∀ e, 1 < e → e ≤ 3 → |e - d| < s → ∃ w, tanguy K (tanguyParams A e gam R Eg a b) lbda = some w ∧ ‖w - v‖ < r

/-- C106: except at two dimensions the value depends continuously on the dimensionality; in particular the general formula tends to the
special case for three dimensions. -/
theorem C106_continuous_partial (K : PhysConst) (A d gam R Eg a b lbda : ℝ) (hl : 0 < lbda) (hd : 1 < d) (hd' : d ≤ 3) (hd2 : d ≠ 2)
    (hg : 0 < gam) (hR : 0 < R) (hb : R < ((d - 1) / 2) ^ 2 * Eg) (hbE : b ≠ (K.c * K.h / (lbda * 1e-9)) ^ 2) :
    TanguyContinuousAt K A d gam R Eg a b lbda := by
  have hE := energy_some K hl.ne'
  have hE0 := energy_pos K hl hE
  generalize K.c * K.h / (lbda * 1e-9) = E at *
  have hc : ContinuousAt (tanguyEps A R Eg a b E gam) d :=
    continuousAt_const.add ((coefficient_continuousAt A E gam d hR).mul (tanguySum_continuousAt hd hd' hd2 hg hR hb))
  have hv := tanguyEps_eventually K (A := A) (a := a) hE hE0 hg hR hb hbE
  refine ⟨_, tanguy_value K hE hE0 hd hd' hg hR hb hbE, fun r hr => ?_⟩
  have h1 := Metric.tendsto_nhds.1 hc.tendsto r hr
  obtain ⟨s, hs, h⟩ := Metric.eventually_nhds_iff.1 (hv.and h1)
  refine ⟨s, hs, fun e he he' hes => ?_⟩
  obtain ⟨h2, h3⟩ := h (y := e) (by rwa [Real.dist_eq])
  refine ⟨_, h2 he he', ?_⟩
  rw [dist_eq_norm] at h3
  exact h3

/-- Non-trivial case: three dimensions, with the default parameters of the class. -/
example : ∃ K : PhysConst, TanguyContinuousAt K 1 3 0.1 0.1 1 0 0 1e9 :=
  ⟨⟨1, 1, 1, one_pos, one_pos, one_pos⟩, C106_continuous_partial _ 1 3 0.1 0.1 1 0 0 1e9 (by norm_num) (by norm_num) (by norm_num)
    (by norm_num) (by norm_num) (by norm_num) (by norm_num) (by norm_num)⟩

/-- C106: the values next to two dimensions tend to the background plus the `π`-th part of the exciton term in two dimensions. The
background is the value for the amplitude zero. -/
theorem C106_limit_two (K : PhysConst) (A gam R Eg a b lbda : ℝ) (hl : 0 < lbda) (hg : 0 < gam) (hR : 0 < R)
    (hb : R < (1 / 2) ^ 2 * Eg) (hbE : b ≠ (K.c * K.h / (lbda * 1e-9)) ^ 2) :
    ∃ v back, tanguy K (tanguyParams A 2 gam R Eg a b) lbda = some v ∧ tanguy K (tanguyParams 0 2 gam R Eg a b) lbda = some back ∧
      ∀ r > 0, ∃ s > 0, ∀ e, 1 < e → e ≤ 3 → e ≠ 2 → |e - 2| < s → ∃ w, tanguy K (tanguyParams A e gam R Eg a b) lbda = some w ∧
        ‖w - (back + (v - back) / Real.pi)‖ < r := by
  have hE := energy_some K hl.ne'
  have hE0 := energy_pos K hl hE
  generalize K.c * K.h / (lbda * 1e-9) = E at *
  have hb' : R < ((2 - 1) / 2) ^ 2 * Eg := by norm_num at hb ⊢; exact hb
  have hv := tanguyEps_eventually K (A := A) (a := a) hE hE0 hg hR hb' hbE
  refine ⟨_, _, tanguy_value K hE hE0 (by norm_num) (by norm_num) hg hR hb' hbE,
    tanguy_value K hE hE0 (by norm_num) (by norm_num) hg hR hb' hbE, fun r hr => ?_⟩
  have hc : Tendsto (tanguyEps A R Eg a b E gam) (𝓝[≠] 2) (𝓝 (1 + (a / (b - E ^ 2) : ℝ) +
      (A * R ^ ((2 : ℝ) / 2 - 1) : ℝ) / (E + I * gam) ^ 2 * (((1 / Real.pi : ℝ) : ℂ) * tanguySum R Eg E gam 2))) :=
    tendsto_const_nhds.add (((coefficient_continuousAt A E gam 2 hR).tendsto.mono_left nhdsWithin_le_nhds).mul (tanguySum_two hg hR hb))
  have h1 := eventually_nhdsWithin_iff.1 (Metric.tendsto_nhds.1 hc r hr)
  obtain ⟨s, hs, h⟩ := Metric.eventually_nhds_iff.1 (hv.and h1)
  refine ⟨s, hs, fun e he he' hne hes => ?_⟩
  obtain ⟨h2, h3⟩ := h (y := e) (by rwa [Real.dist_eq])
  refine ⟨_, h2 he he', ?_⟩
  have h4 := h3 hne
  rw [dist_eq_norm] at h4
  have e1 : ∀ q S : ℂ, 1 + ((a / (b - E ^ 2) : ℝ) : ℂ) + ((0 * R ^ ((2 : ℝ) / 2 - 1) : ℝ) : ℂ) / (E + I * gam) ^ 2 * S +
      (1 + ((a / (b - E ^ 2) : ℝ) : ℂ) + q * S - (1 + ((a / (b - E ^ 2) : ℝ) : ℂ) +
        ((0 * R ^ ((2 : ℝ) / 2 - 1) : ℝ) : ℂ) / (E + I * gam) ^ 2 * S)) / Real.pi =
      1 + ((a / (b - E ^ 2) : ℝ) : ℂ) + q * (((1 / Real.pi : ℝ) : ℂ) * S) := by
    intro q S
    push_cast
    ring
  rw [e1]
  exact h4

lemma g2_re_atBot : Tendsto (fun x : ℂ => (g2 x).re) (𝓝[≠] 0) atBot := by
  have h1 : Tendsto (fun x : ℂ => 2 * Real.log ‖x‖) (𝓝[≠] 0) atBot :=
    ((Real.tendsto_log_nhdsGT_zero).comp tendsto_norm_nhdsNE_zero).const_mul_atBot two_pos
  have h2 : Tendsto (fun x : ℂ => (-2 * digamma (1 / 2 - x)).re) (𝓝[≠] 0) (𝓝 (-2 * digamma (1 / 2 - 0)).re) := by
    have hp : ∀ m : ℕ, (1 / 2 : ℂ) - 0 ≠ -m := re_pos_no_pole (by norm_num)
    have : ContinuousAt (fun x : ℂ => digamma (1 / 2 - x)) 0 :=
      ContinuousAt.comp (g := digamma) (differentiableAt_digamma hp).continuousAt (by fun_prop)
    exact ((continuous_re.continuousAt.comp' (this.const_mul (-2))).tendsto).mono_left nhdsWithin_le_nhds
  refine (h1.atBot_add h2).congr ?_
  intro x
  have : (g2 x).re = 2 * (log x).re + (-2 * digamma (1 / 2 - x)).re := by
    unfold g2
    simp
    ring
  rw [this, log_re]

lemma xi_tendsto_zero {R Eg gam s : ℝ} (hs : s = 1 ∨ s = -1) (hR : 0 < R) (hg : 0 < gam) :
    Tendsto (fun E : ℝ => xi R Eg (s * (E + I * gam))) atTop (𝓝[≠] 0) := by
  have hcut : ∀ E : ℝ, (s : ℂ) * (E + I * gam) ∈ Cut Eg := by
    intro E
    rcases hs with rfl | rfl
    · simpa using upper_cut (E := E) Eg hg
    · simpa using lower_cut (E := E) Eg hg
  apply tendsto_nhdsWithin_of_tendsto_nhds_of_eventually_within
  · rw [tendsto_zero_iff_norm_tendsto_zero]
    have h1 : Tendsto (fun E : ℝ => ‖(Eg : ℂ) - s * (E + I * gam)‖) atTop atTop := by
      have h2 : Tendsto (fun E : ℝ => E - |Eg|) atTop atTop := tendsto_atTop_add_const_right _ _ tendsto_id
      refine tendsto_atTop_mono (fun E => ?_) h2
      refine le_trans ?_ (abs_re_le_norm _)
      have e : ((Eg : ℂ) - s * (E + I * gam)).re = Eg - s * E := by simp
      rw [e]
      rcases hs with rfl | rfl
      · have := neg_abs_le (Eg - 1 * E)
        have := le_abs_self Eg
        linarith
      · have := le_abs_self (Eg - -1 * E)
        have := neg_abs_le Eg
        linarith
    have h2 : Tendsto (fun E : ℝ => R / ‖(Eg : ℂ) - s * (E + I * gam)‖) atTop (𝓝 0) := h1.const_div_atTop R
    have h3 := (Real.continuous_sqrt.tendsto 0).comp h2
    rw [Real.sqrt_zero] at h3
    refine h3.congr ?_
    intro E
    have h4 := xi_norm hR (hcut E)
    have h5 : ‖(Eg : ℂ) - s * (E + I * gam)‖ ≠ 0 := norm_ne_zero_iff.2 (slitPlane_ne_zero (sub_slit (hcut E)))
    have h6 : R / ‖(Eg : ℂ) - s * (E + I * gam)‖ = ‖xi R Eg (s * (E + I * gam))‖ ^ 2 := by
      rw [div_eq_iff h5, h4]
    simp only [Function.comp_apply]
    rw [h6, Real.sqrt_sq (norm_nonneg _)]
  · refine Eventually.of_forall (fun E h => ?_)
    have h1 := xi_re_pos hR (hcut E)
    have h' : xi R Eg (s * (E + I * gam)) = 0 := h
    rw [h'] at h1
    simp at h1

lemma tanguySum_two_atBot {R Eg gam : ℝ} (hR : 0 < R) (hg : 0 < gam) :
    Tendsto (fun E : ℝ => (tanguySum R Eg E gam 2).re) atTop atBot := by
  have h1 := g2_re_atBot.comp (xi_tendsto_zero (Eg := Eg) (Or.inl rfl) hR hg)
  have h2 := g2_re_atBot.comp (xi_tendsto_zero (Eg := Eg) (Or.inr rfl) hR hg)
  have h3 := (h1.atBot_add_atBot h2).atBot_add (tendsto_const_nhds (x := -(2 * gfun 2 (xi R Eg 0)).re))
  refine h3.congr ?_
  intro E
  have e2 : ∀ x, gfun 2 x = g2 x := fun x => by rw [gfun, if_pos rfl]
  simp only [Function.comp_apply, tanguySum, e2, sub_re, add_re]
  simp
  ring

/-- C106 fails at two dimensions: whatever the parameters (with an exciton, `A ≠ 0`), at all sufficiently short wavelengths the value in
two dimensions is not the limit of the values next to it. -/
theorem C106_two_refuted (K : PhysConst) (A gam R Eg a b : ℝ) (hA : A ≠ 0) (hg : 0 < gam) (hR : 0 < R) (hb : R < (1 / 2) ^ 2 * Eg) :
    ∃ L > 0, ∀ lbda, 0 < lbda → lbda < L → ¬ TanguyContinuousAt K A 2 gam R Eg a b lbda := by
  have h1 : ∀ᶠ E : ℝ in atTop, (tanguySum R Eg E gam 2).re < 0 := (tanguySum_two_atBot hR hg).eventually (eventually_lt_atBot 0)
  obtain ⟨M, hM⟩ := eventually_atTop.1 (h1.and (eventually_gt_atTop (max 1 b)))
  have hM0 : 0 < max M 1 := lt_of_lt_of_le one_pos (le_max_right _ _)
  have hch : 0 < K.c * K.h := mul_pos K.c_pos K.h_pos
  refine ⟨K.c * K.h / (max M 1 * 1e-9), by positivity, fun lbda hl hlt => ?_⟩
  have hEM : M ≤ K.c * K.h / (lbda * 1e-9) := by
    refine (le_max_left M 1).trans ?_
    rw [lt_div_iff₀ (by positivity)] at hlt
    rw [le_div_iff₀ (by positivity)]
    linarith
  obtain ⟨hneg, hgt⟩ := hM _ hEM
  have hbE : b ≠ (K.c * K.h / (lbda * 1e-9)) ^ 2 := by
    intro h
    have h2 := (max_lt_iff.1 hgt).1
    have h3 := (max_lt_iff.1 hgt).2
    nlinarith
  rintro ⟨v, hv, hcont⟩
  obtain ⟨v', back, hv', hback, hlim⟩ := C106_limit_two K A gam R Eg a b lbda hl hg hR hb hbE
  rw [hv] at hv'
  obtain rfl := Option.some.inj hv'
  have hE := energy_some K hl.ne'
  have hE0 := energy_pos K hl hE
  generalize K.c * K.h / (lbda * 1e-9) = E at *
  have hb' : R < ((2 - 1) / 2) ^ 2 * Eg := by norm_num at hb ⊢; exact hb
  have hne : v - back ≠ 0 := by
    have e1 := Option.some.inj (hv.symm.trans (tanguy_value K hE hE0 (by norm_num) (by norm_num) hg hR hb' hbE))
    have e2 := Option.some.inj (hback.symm.trans (tanguy_value K hE hE0 (by norm_num) (by norm_num) hg hR hb' hbE))
    have hS : tanguySum R Eg E gam 2 ≠ 0 := by
      intro h
      rw [h] at hneg
      simp at hneg
    have hz : ((E : ℂ) + I * gam) ^ 2 ≠ 0 := by
      apply pow_ne_zero
      intro h
      have := congrArg re h
      simp at this
      linarith
    have hq : ((A * R ^ ((2 : ℝ) / 2 - 1) : ℝ) : ℂ) ≠ 0 := by
      exact_mod_cast mul_ne_zero hA (Real.rpow_pos_of_pos hR _).ne'
    have : v - back = ((A * R ^ ((2 : ℝ) / 2 - 1) : ℝ) : ℂ) / (E + I * gam) ^ 2 * tanguySum R Eg E gam 2 := by
      rw [e1, e2, tanguySum]
      push_cast
      ring
    rw [this]
    exact mul_ne_zero (div_ne_zero hq hz) hS
  have hpi : (Real.pi : ℂ) ≠ 0 := by exact_mod_cast Real.pi_ne_zero
  have hdiff : v - (back + (v - back) / Real.pi) ≠ 0 := by
    have e : v - (back + (v - back) / Real.pi) = (v - back) * (((1 - 1 / Real.pi : ℝ)) : ℂ) := by push_cast; ring
    rw [e]
    refine mul_ne_zero hne ?_
    have : (1 - 1 / Real.pi : ℝ) ≠ 0 := by
      have h3 := Real.pi_gt_three
      have : 1 / Real.pi < 1 := by rw [div_lt_one Real.pi_pos]; linarith
      linarith
    exact_mod_cast this
  have hr : 0 < ‖v - (back + (v - back) / Real.pi)‖ / 2 := half_pos (norm_pos_iff.2 hdiff)
  obtain ⟨s, hs, h2⟩ := hcont _ hr
  obtain ⟨s', hs', h3⟩ := hlim _ hr
  have hm : 0 < min (min s s') 1 := lt_min (lt_min hs hs') one_pos
  have m1 : min (min s s') 1 ≤ s := (min_le_left _ _).trans (min_le_left _ _)
  have m2 : min (min s s') 1 ≤ s' := (min_le_left _ _).trans (min_le_right _ _)
  have m3 : min (min s s') 1 ≤ 1 := min_le_right _ _
  generalize min (min s s') 1 = t at *
  have habs : |2 + t / 2 - 2| = t / 2 := by rw [add_sub_cancel_left, abs_of_pos (by linarith)]
  obtain ⟨w, hw, hw'⟩ := h2 (2 + t / 2) (by linarith) (by linarith) (by rw [habs]; linarith)
  obtain ⟨w2, hw2, hw2'⟩ := h3 (2 + t / 2) (by linarith) (by linarith) (by linarith) (by rw [habs]; linarith)
  rw [hw] at hw2
  obtain rfl := Option.some.inj hw2
  have h4 := norm_sub_le (w - (back + (v - back) / Real.pi)) (w - v)
  rw [show w - (back + (v - back) / Real.pi) - (w - v) = v - (back + (v - back) / Real.pi) by ring] at h4
  linarith

/-- Non-trivial case: the default parameters of the class, but two dimensions. -/
example : ∃ K : PhysConst, ∃ L > 0, ∀ lbda, 0 < lbda → lbda < L → ¬ TanguyContinuousAt K 1 2 0.1 0.1 1 0 0 lbda :=
  ⟨⟨1, 1, 1, one_pos, one_pos, one_pos⟩, C106_two_refuted _ 1 0.1 0.1 1 0 0 (by norm_num) (by norm_num) (by norm_num) (by norm_num)⟩

/-! ## Resonances -/

section
variable {d R Eg E : ℝ}

lemma below_tendsto (hR : 0 < R) (hlt : E < Eg) :
    Tendsto (fun gam : ℝ => xi R Eg (E + I * gam)) (𝓝[>] 0) (𝓝[≠] (xi R Eg E)) := by
  have hcut : (E : ℂ) ∈ Cut Eg := fun _ => by simpa using hlt
  have him : (xi R Eg E).im = 0 := by
    have := xi_conj hR hcut
    rw [conj_ofReal] at this
    exact conj_eq_iff_im.1 this.symm
  apply tendsto_nhdsWithin_of_tendsto_nhds_of_eventually_within
  · have h1 : ContinuousAt (fun gam : ℝ => xi R Eg (E + I * gam)) 0 := by
      apply ContinuousAt.comp (g := xi R Eg) (f := fun gam : ℝ => (E : ℂ) + I * gam)
      · have : (E : ℂ) + I * ((0 : ℝ) : ℂ) = E := by simp
        rw [this]
        exact (xi_differentiableAt hR hcut).continuousAt
      · fun_prop
    have h2 := h1.tendsto
    simp only [ofReal_zero, mul_zero, add_zero] at h2
    exact h2.mono_left nhdsWithin_le_nhds
  · filter_upwards [self_mem_nhdsWithin] with gam hg h
    have hg' : 0 < gam := hg
    have h1 : xi R Eg (E + I * gam) = xi R Eg E := h
    have h2 := xi_im_pos (Eg := Eg) (z := E + I * gam) hR (by simpa using hg')
    rw [h1, him] at h2
    exact lt_irrefl _ h2

lemma negative_tendsto (hR : 0 < R) (hd : 1 < d) (hd' : d ≤ 3) (hb : R < ((d - 1) / 2) ^ 2 * Eg) (hE : 0 < E) :
    Tendsto (fun gam : ℝ => gfun d (xi R Eg (-(E + I * gam)))) (𝓝[>] 0) (𝓝 (gfun d (xi R Eg (-E)))) := by
  have hcut : -(E : ℂ) ∈ Cut (Eg - R / ((d - 1) / 2) ^ 2) := fun _ => by
    have := threshold_pos hd hb
    simp
    linarith
  have h1 : ContinuousAt (fun gam : ℝ => gfun d (xi R Eg (-(E + I * gam)))) 0 := by
    apply ContinuousAt.comp (g := fun z => gfun d (xi R Eg z)) (f := fun gam : ℝ => -((E : ℂ) + I * gam))
    · have : -((E : ℂ) + I * ((0 : ℝ) : ℂ)) = -E := by simp
      rw [this]
      exact ((pick_gfun hd hd' hR).diff.differentiableAt ((isOpen_cut _).mem_nhds hcut)).continuousAt
    · fun_prop
  have h2 := h1.tendsto
  simp only [ofReal_zero, mul_zero, add_zero] at h2
  exact h2.mono_left nhdsWithin_le_nhds

lemma gfun_continuousAt (hd : 1 < d) (hd' : d ≤ 3) {x : ℂ} (hx : 0 < x.re) (hp : ∀ m : ℕ, x ≠ ((d - 1) / 2 : ℝ) + m) :
    ContinuousAt (gfun d) x := by
  have hx0 : x ≠ 0 := by rintro rfl; simp at hx
  have hlog : ContinuousAt (fun x : ℂ => 2 * log x) x := (continuousAt_clog (mem_slitPlane_iff.2 (Or.inl hx))).const_mul 2
  have hdig : ContinuousAt (fun x : ℂ => 2 * digamma (((d - 1) / 2 : ℝ) - x)) x :=
    (ContinuousAt.comp (g := digamma) (differentiableAt_digamma (sub_ne_neg hp)).continuousAt (by fun_prop)).const_mul 2
  by_cases h2 : d = 2
  · have e : (((d - 1) / 2 : ℝ) : ℂ) = 1 / 2 := by rw [h2]; norm_num
    rw [e] at hdig
    have : gfun d = fun x => 2 * log x - 2 * digamma (1 / 2 - x) := by funext x; rw [gfun, if_pos h2, g2]
    rw [this]
    exact hlog.sub hdig
  · by_cases h3 : d = 3
    · have e : (((d - 1) / 2 : ℝ) : ℂ) = 1 := by rw [h3]; norm_num
      rw [e] at hdig
      have : gfun d = fun x => 2 * log x - 2 * digamma (1 - x) - 1 / x := by funext x; rw [gfun, if_neg h2, if_pos h3, g3]
      rw [this]
      exact (hlog.sub hdig).sub (continuousAt_const.div continuousAt_id hx0)
    · have : gfun d = fun x => K ((d - 1) / 2) * G (((d - 1) / 2 : ℝ) : ℂ) x := by funext x; rw [gfun_gen h2 h3]
      rw [this]
      exact ((G_differentiableAt hx hp).continuousAt).const_mul _

open ComplexConjugate in
lemma gfun_conj {x : ℂ} (hx : 0 < x.re) : gfun d (conj x) = conj (gfun d x) := by
  have hlog := log_conj' hx
  unfold gfun
  split_ifs
  · have e : (1 / 2 : ℂ) - conj x = conj (1 / 2 - x) := by simp [conj_two]
    rw [g2, g2, hlog, e, digamma_conj]
    simp [conj_two]
  · have e : (1 : ℂ) - conj x = conj (1 - x) := by simp
    rw [g3, g3, hlog, e, digamma_conj]
    simp [conj_two]
  · rw [G_conj hx]
    simp

/-- The root at a real energy below the gap. -/
lemma xi_real (hR : 0 < R) (hlt : E < Eg) : xi R Eg E = ((√(R / (Eg - E)) : ℝ) : ℂ) := by
  have hcut : (E : ℂ) ∈ Cut Eg := fun _ => by simpa using hlt
  have hpos : 0 < R / (Eg - E) := div_pos hR (by linarith)
  apply principal_sq_inj (Or.inl (xi_re_pos hR hcut)) (Or.inl (by simpa using hpos))
  rw [xi_sq, ← ofReal_pow, Real.sq_sqrt hpos.le]
  push_cast
  rfl

lemma xi_real_eq_iff (hR : 0 < R) (hlt : E < Eg) (hd : 1 < d) (m : ℕ) :
    xi R Eg E = ((d - 1) / 2 : ℝ) + m ↔ E = Eg - R / ((d - 1) / 2 + m) ^ 2 := by
  have ha : 0 < (d - 1) / 2 + m := by
    have : (0 : ℝ) ≤ m := Nat.cast_nonneg m
    linarith
  have hpos : 0 < Eg - E := by linarith
  rw [xi_real hR hlt]
  have e : (((d - 1) / 2 : ℝ) : ℂ) + m = (((d - 1) / 2 + m : ℝ) : ℂ) := by push_cast; ring
  rw [e, ofReal_inj, Real.sqrt_eq_iff_mul_self_eq (div_pos hR hpos).le ha.le, eq_sub_iff_add_eq, ← eq_sub_iff_add_eq', div_eq_iff hpos.ne',
    div_eq_iff (pow_pos ha 2).ne']
  constructor
  · intro h; linear_combination h
  · intro h; linear_combination h

lemma coefficient_tendsto (p : ℝ) (hE : 0 < E) :
    Tendsto (fun gam : ℝ => (p : ℂ) / ((E : ℂ) + I * gam) ^ 2) (𝓝[>] 0) (𝓝 ((p / E ^ 2 : ℝ) : ℂ)) := by
  have hE' : (E : ℂ) ≠ 0 := by exact_mod_cast hE.ne'
  have h1 : ContinuousAt (fun gam : ℝ => (p : ℂ) / ((E : ℂ) + I * gam) ^ 2) 0 := by
    apply ContinuousAt.div continuousAt_const (by fun_prop)
    simp [hE']
  have h2 := h1.tendsto
  simp only [ofReal_zero, mul_zero, add_zero] at h2
  push_cast
  exact h2.mono_left nhdsWithin_le_nhds

end

/-- C107: the exciton lines. For photon energies below the gap and a vanishing broadening the value of the Tanguy model grows without
bound exactly at the energies `Eg - R / ((d-1)/2 + m)²` of the exciton series. -/
theorem C107_resonance (K : PhysConst) (A d R Eg a b lbda : ℝ) (m : ℕ) (hl : 0 < lbda) (hA : A ≠ 0) (hd : 1 < d) (hd' : d ≤ 3) (hR : 0 < R)
    (hb : R < ((d - 1) / 2) ^ 2 * Eg) (hbE : b ≠ (K.c * K.h / (lbda * 1e-9)) ^ 2)
    (hres : K.c * K.h / (lbda * 1e-9) = Eg - R / ((d - 1) / 2 + m) ^ 2) :
    ∀ M : ℝ, ∃ s > 0, ∀ gam, 0 < gam → gam < s → ∃ v, tanguy K (tanguyParams A d gam R Eg a b) lbda = some v ∧ M < ‖v‖ := by
  intro M
  have hE := energy_some K hl.ne'
  have hE0 := energy_pos K hl hE
  generalize K.c * K.h / (lbda * 1e-9) = E at *
  have ha : 0 < (d - 1) / 2 + m := by
    have : (0 : ℝ) ≤ m := Nat.cast_nonneg m
    linarith
  have hlt : E < Eg := by
    have := div_pos hR (pow_pos ha 2)
    linarith
  have hx := (xi_real_eq_iff hR hlt hd m).2 hres
  have h1 := below_tendsto hR hlt
  rw [hx] at h1
  have h2 := (gfun_pole hd hd' m).comp h1
  have h3 := norm_add_atTop h2 ((negative_tendsto hR hd hd' hb hE0).sub (tendsto_const_nhds (x := 2 * gfun d (xi R Eg 0))))
  have hq : ((A * R ^ (d / 2 - 1) / E ^ 2 : ℝ) : ℂ) ≠ 0 := by
    exact_mod_cast div_ne_zero (mul_ne_zero hA (Real.rpow_pos_of_pos hR _).ne') (pow_pos hE0 2).ne'
  have h4 := norm_mul_atTop hq h3 (coefficient_tendsto (A * R ^ (d / 2 - 1)) hE0)
  have h5 := norm_add_atTop h4 (tendsto_const_nhds (x := (1 : ℂ) + (a / (b - E ^ 2) : ℝ)))
  obtain ⟨s, hs, h6⟩ := (mem_nhdsGT_iff_exists_Ioo_subset).1 (h5.eventually (eventually_gt_atTop M))
  refine ⟨s, hs, fun gam hg hgs => ⟨_, tanguy_value K hE hE0 hd hd' hg hR hb hbE, ?_⟩⟩
  have h7 := h6 ⟨hg, hgs⟩
  refine lt_of_lt_of_eq h7 ?_
  congr 1
  simp only [Function.comp_apply]
  ring

/-- Non-trivial case: the second line (`m = 1`) of the three-dimensional exciton with `R = 0.1`, `Eg = 1.025`, which lies at 1 eV. -/
example : ∃ K : PhysConst, ∀ M : ℝ, ∃ s > 0, ∀ gam, 0 < gam → gam < s →
    ∃ v, tanguy K (tanguyParams 1 3 gam 0.1 1.025 0 0) 1e9 = some v ∧ M < ‖v‖ :=
  ⟨⟨1, 1, 1, one_pos, one_pos, one_pos⟩, C107_resonance _ 1 3 0.1 1.025 0 0 1e9 1 (by norm_num) (by norm_num) (by norm_num) (by norm_num)
    (by norm_num) (by norm_num) (by norm_num) (by norm_num)⟩

/-- C107: between the exciton lines, below the gap, the model is transparent: for a vanishing broadening the value tends to a real number. -/
theorem C107_transparent (K : PhysConst) (A d R Eg a b lbda : ℝ) (hl : 0 < lbda) (hd : 1 < d) (hd' : d ≤ 3) (hR : 0 < R)
    (hb : R < ((d - 1) / 2) ^ 2 * Eg) (hbE : b ≠ (K.c * K.h / (lbda * 1e-9)) ^ 2) (hlt : K.c * K.h / (lbda * 1e-9) < Eg)
    (hres : ∀ m : ℕ, K.c * K.h / (lbda * 1e-9) ≠ Eg - R / ((d - 1) / 2 + m) ^ 2) :
    ∃ x : ℝ, ∀ r > 0, ∃ s > 0, ∀ gam, 0 < gam → gam < s →
      ∃ v, tanguy K (tanguyParams A d gam R Eg a b) lbda = some v ∧ ‖v - x‖ < r := by
  have hE := energy_some K hl.ne'
  have hE0 := energy_pos K hl hE
  generalize K.c * K.h / (lbda * 1e-9) = E at *
  have hcut : (E : ℂ) ∈ Cut Eg := fun _ => by simpa using hlt
  have hcut' : -(E : ℂ) ∈ Cut Eg := fun _ => by simp; linarith
  have hcut0 : (0 : ℂ) ∈ Cut Eg := zero_cut (by linarith)
  have hx1 := xi_re_pos hR hcut
  have hx2 : ∀ m : ℕ, xi R Eg E ≠ ((d - 1) / 2 : ℝ) + m := fun m h => hres m ((xi_real_eq_iff hR hlt hd m).1 h)
  have h1 := ((gfun_continuousAt hd hd' hx1 hx2).tendsto.mono_left nhdsWithin_le_nhds).comp (below_tendsto hR hlt)
  have h2 := (h1.add (negative_tendsto hR hd hd' hb hE0)).sub (tendsto_const_nhds (x := 2 * gfun d (xi R Eg 0)))
  have h3 := ((coefficient_tendsto (A * R ^ (d / 2 - 1)) hE0).mul h2).const_add ((1 : ℂ) + (a / (b - E ^ 2) : ℝ))
  have hreal : ∀ y : ℝ, (y : ℂ) ∈ Cut Eg → ∃ g : ℝ, gfun d (xi R Eg y) = g := by
    intro y hy
    have e1 := xi_conj hR hy
    rw [conj_ofReal] at e1
    have e2 := gfun_conj (d := d) (xi_re_pos hR hy)
    rw [← e1] at e2
    obtain ⟨g, hg⟩ := conj_eq_iff_real.1 e2.symm
    exact ⟨g, hg⟩
  obtain ⟨g1, hg1⟩ := hreal E hcut
  obtain ⟨g2, hg2⟩ := hreal (-E) (by simpa using hcut')
  obtain ⟨g0, hg0⟩ := hreal 0 (by simpa using hcut0)
  rw [ofReal_neg] at hg2
  rw [ofReal_zero] at hg0
  rw [hg1, hg2, hg0] at h3
  refine ⟨1 + a / (b - E ^ 2) + A * R ^ (d / 2 - 1) / E ^ 2 * (g1 + g2 - 2 * g0), fun r hr => ?_⟩
  obtain ⟨s, hs, h6⟩ := (mem_nhdsGT_iff_exists_Ioo_subset).1 (Metric.tendsto_nhds.1 h3 r hr)
  refine ⟨s, hs, fun gam hg hgs => ⟨_, tanguy_value K hE hE0 hd hd' hg hR hb hbE, ?_⟩⟩
  have h7 : dist _ _ < r := h6 ⟨hg, hgs⟩
  rw [dist_eq_norm] at h7
  refine lt_of_eq_of_lt ?_ h7
  congr 1
  simp only [Function.comp_apply, hg0]
  push_cast
  ring

/-- Non-trivial case: 0.5 eV, below all lines of the three-dimensional exciton with `R = 0.1`, `Eg = 1`. -/
example : ∃ K : PhysConst, ∃ x : ℝ, ∀ r > 0, ∃ s > 0, ∀ gam, 0 < gam → gam < s →
    ∃ v, tanguy K (tanguyParams 1 3 gam 0.1 1 0 0) 2e9 = some v ∧ ‖v - x‖ < r := by
  refine ⟨⟨1, 1, 1, one_pos, one_pos, one_pos⟩, C107_transparent _ 1 3 0.1 1 0 0 2e9 (by norm_num) (by norm_num) (by norm_num) (by norm_num)
    (by norm_num) (by norm_num) (by norm_num) ?_⟩
  intro m h
  have hm : (1 : ℝ) ≤ ((3 - 1) / 2 + (m : ℝ)) ^ 2 := by
    have : (0 : ℝ) ≤ m := Nat.cast_nonneg m
    nlinarith
  have h1 : (0.1 : ℝ) / ((3 - 1) / 2 + (m : ℝ)) ^ 2 ≤ 0.1 := div_le_self (by norm_num) hm
  norm_num at h h1
  linarith

end PyElli
