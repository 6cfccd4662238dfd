import Verif.Lemmas.Tanguy

/-! Dependence of the exciton functions on the dimensionality, and their poles. -/

namespace PyElli.Exciton

open Complex Filter Topology ComplexConjugate PyElli.GammaRatio PyElli.Herglotz

/-! ## The limits `d → 3` and `d → 2` -/

lemma slope_three {x : ℂ} (hx : 0 < x.re) (hp : ∀ m : ℕ, x ≠ 1 + m) :
    Tendsto (fun a : ℝ => (G a x + 1) / ((a - 1 : ℝ) : ℂ)) (𝓝[≠] 1) (𝓝 (g3 x)) := by
  have hm : ∀ m : ℕ, x ≠ m := by
    intro m
    cases m with
    | zero => rintro rfl; simp at hx
    | succ m => have := hp m; push_cast; rwa [add_comm] at this
  have h0 : x ≠ 0 := by simpa using hm 0
  have hd := hasDerivAt_G (a := 1) h0 (fun m h => hp m (by linear_combination -h)) (fun m h => hm m (by linear_combination -h))
  rw [G_one hm, slopeG_one hm, neg_mul_neg, one_mul] at hd
  have h1 : HasDerivAt (fun a : ℝ => G a x) (g3 x) 1 := by
    apply HasDerivAt.comp_ofReal (e := fun a => G a x)
    simpa [g3] using hd
  refine h1.tendsto_slope.congr ?_
  intro a
  rw [slope, ofReal_one, G_one hm]
  simp
  ring

lemma slope_two {x : ℂ} (hx : 0 < x.re) (hp : ∀ m : ℕ, x ≠ 1 / 2 + m) :
    Tendsto (fun a : ℝ => (G a x - 1) / ((a - 1 / 2 : ℝ) : ℂ)) (𝓝[≠] (1 / 2)) (𝓝 (-g2 x)) := by
  have h0 : x ≠ 0 := by rintro rfl; simp at hx
  have hq : ∀ m : ℕ, 1 / 2 - x ≠ -m := fun m h => hp m (by linear_combination -h)
  have hd := hasDerivAt_G (a := 1 / 2) h0 hq (fun m h => hp m (by linear_combination -h))
  rw [G_half hq, slopeG_half, one_mul] at hd
  have h1 : HasDerivAt (fun a : ℝ => G a x) (-g2 x) (1 / 2) := by
    apply HasDerivAt.comp_ofReal (e := fun a => G a x)
    push_cast
    exact hd
  refine h1.tendsto_slope.congr ?_
  intro a
  rw [slope]
  push_cast
  rw [G_half hq]
  simp
  ring

lemma sin_slope (a0 : ℝ) (h0 : Real.sin (2 * Real.pi * a0) = 0) (hc : Real.cos (2 * Real.pi * a0) ≠ 0) :
    Tendsto (fun a : ℝ => (a - a0) / Real.sin (2 * Real.pi * a)) (𝓝[≠] a0) (𝓝 (1 / (2 * Real.pi * Real.cos (2 * Real.pi * a0)))) := by
  have h1 : HasDerivAt (fun a : ℝ => Real.sin (2 * Real.pi * a)) (Real.cos (2 * Real.pi * a0) * (2 * Real.pi)) a0 := by
    have : HasDerivAt (fun a : ℝ => 2 * Real.pi * a) (2 * Real.pi) a0 := by simpa using (hasDerivAt_id a0).const_mul (2 * Real.pi)
    exact this.sin
  have h2 := h1.tendsto_slope.inv₀ (mul_ne_zero hc (by have := Real.pi_pos; positivity))
  rw [one_div, mul_comm (2 * Real.pi)]
  refine h2.congr ?_
  intro a
  rw [slope_def_field, h0, sub_zero, inv_div]

lemma continuousAt_realGamma {a : ℝ} (ha : 0 < a) : ContinuousAt Real.Gamma a :=
  (Real.differentiableAt_Gamma (fun m h => by
    have : (0 : ℝ) ≤ m := Nat.cast_nonneg m
    linarith)).continuousAt

lemma K_slope {a0 : ℝ} (ha : 0 < a0) (h0 : Real.sin (2 * Real.pi * a0) = 0) (hc : Real.cos (2 * Real.pi * a0) ≠ 0) :
    Tendsto (fun a : ℝ => K a * (a - a0)) (𝓝[≠] a0) (𝓝 (1 / (Real.Gamma a0 ^ 2 * Real.cos (2 * Real.pi * a0)))) := by
  have hG := (Real.Gamma_pos_of_pos ha).ne'
  have h1 := ((continuousAt_realGamma ha).pow 2).inv₀ (pow_ne_zero 2 hG)
  have h2 := (h1.tendsto.mono_left (nhdsWithin_le_nhds (s := {a0}ᶜ))).mul ((sin_slope a0 h0 hc).const_mul (2 * Real.pi))
  have hp := Real.pi_ne_zero
  have e : (Real.Gamma a0 ^ 2)⁻¹ * (2 * Real.pi * (1 / (2 * Real.pi * Real.cos (2 * Real.pi * a0)))) = 1 / (Real.Gamma a0 ^ 2 * Real.cos (2 * Real.pi * a0)) := by
    field_simp
  rw [← e]
  refine h2.congr ?_
  intro a
  simp only [K, div_eq_mul_inv, mul_inv, Pi.inv_apply, Pi.pow_apply]
  ring

/-- The second difference of the general formula tends to that of the three-dimensional one. -/
lemma limit_three {x y w : ℂ} (hx : 0 < x.re) (hx' : ∀ m : ℕ, x ≠ 1 + m) (hy : 0 < y.re) (hy' : ∀ m : ℕ, y ≠ 1 + m)
    (hw : 0 < w.re) (hw' : ∀ m : ℕ, w ≠ 1 + m) :
    Tendsto (fun a : ℝ => (K a : ℂ) * G a x + K a * G a y - 2 * (K a * G a w)) (𝓝[≠] 1) (𝓝 (g3 x + g3 y - 2 * g3 w)) := by
  have hK := K_slope one_pos (by rw [mul_one]; exact Real.sin_two_pi) (by rw [mul_one, Real.cos_two_pi]; norm_num)
  rw [mul_one, Real.cos_two_pi, Real.Gamma_one] at hK
  have hK' : Tendsto (fun a : ℝ => ((K a * (a - 1) : ℝ) : ℂ)) (𝓝[≠] 1) (𝓝 1) := by
    have := (continuous_ofReal.tendsto _).comp hK
    norm_num at this
    exact this
  have h := hK'.mul (((slope_three hx hx').add (slope_three hy hy')).sub ((slope_three hw hw').const_mul 2))
  rw [one_mul] at h
  refine h.congr' ?_
  filter_upwards [self_mem_nhdsWithin] with a ha
  have : ((a - 1 : ℝ) : ℂ) ≠ 0 := by exact_mod_cast sub_ne_zero.2 ha
  rw [ofReal_mul]
  generalize ((a - 1 : ℝ) : ℂ) = t at *
  field_simp
  ring

/-- The second difference of the general formula tends to `1/π` times that of the two-dimensional one. -/
lemma limit_two {x y w : ℂ} (hx : 0 < x.re) (hx' : ∀ m : ℕ, x ≠ 1 / 2 + m) (hy : 0 < y.re) (hy' : ∀ m : ℕ, y ≠ 1 / 2 + m)
    (hw : 0 < w.re) (hw' : ∀ m : ℕ, w ≠ 1 / 2 + m) :
    Tendsto (fun a : ℝ => (K a : ℂ) * G a x + K a * G a y - 2 * (K a * G a w)) (𝓝[≠] (1 / 2))
      (𝓝 (((1 / Real.pi : ℝ) : ℂ) * (g2 x + g2 y - 2 * g2 w))) := by
  have e1 : 2 * Real.pi * (1 / 2) = Real.pi := by ring
  have hK := K_slope (a0 := 1 / 2) (by norm_num) (by rw [e1]; exact Real.sin_pi) (by rw [e1, Real.cos_pi]; norm_num)
  rw [e1, Real.cos_pi, Real.Gamma_one_half_eq, Real.sq_sqrt Real.pi_pos.le] at hK
  have hK' : Tendsto (fun a : ℝ => ((K a * (a - 1 / 2) : ℝ) : ℂ)) (𝓝[≠] (1 / 2)) (𝓝 ((1 / (Real.pi * -1) : ℝ) : ℂ)) :=
    (continuous_ofReal.tendsto _).comp hK
  have h := hK'.mul (((slope_two hx hx').add (slope_two hy hy')).sub ((slope_two hw hw').const_mul 2))
  have e2 : ((1 / (Real.pi * -1) : ℝ) : ℂ) * (-g2 x + -g2 y - 2 * -g2 w) = ((1 / Real.pi : ℝ) : ℂ) * (g2 x + g2 y - 2 * g2 w) := by
    have hp : (Real.pi : ℂ) ≠ 0 := by exact_mod_cast Real.pi_ne_zero
    push_cast
    field_simp
    ring
  rw [e2] at h
  refine h.congr' ?_
  filter_upwards [self_mem_nhdsWithin] with a ha
  have : ((a - 1 / 2 : ℝ) : ℂ) ≠ 0 := by exact_mod_cast sub_ne_zero.2 ha
  rw [ofReal_mul]
  generalize ((a - 1 / 2 : ℝ) : ℂ) = t at *
  field_simp
  ring

lemma continuousAt_gen {a : ℝ} (h0 : 0 < a) (h1 : a < 1) (h2 : a ≠ 1 / 2) {x : ℂ} (hx : 0 < x.re) (hp : ∀ m : ℕ, x ≠ a + m) :
    ContinuousAt (fun a : ℝ => (K a : ℂ) * G a x) a := by
  have hx0 : x ≠ 0 := by rintro rfl; simp at hx
  have hK : ContinuousAt K a := by
    unfold K
    apply ContinuousAt.div continuousAt_const
    · exact ((continuousAt_realGamma h0).pow 2).mul (by fun_prop)
    · exact mul_ne_zero (pow_ne_zero 2 (Real.Gamma_pos_of_pos h0).ne') (sin_two_pi_ne h0 h1 h2)
  have c1 : ContinuousAt (fun a : ℝ => x ^ (1 - 2 * (a : ℂ))) a :=
    ContinuousAt.const_cpow (by fun_prop) (Or.inl hx0)
  have c2 : ContinuousAt (fun a : ℝ => Gamma ((a : ℂ) - x)) a :=
    ContinuousAt.comp (g := Gamma) (f := fun a : ℝ => (a : ℂ) - x) (differentiableAt_Gamma _ (sub_ne_neg hp)).continuousAt (by fun_prop)
  have c3 : ContinuousAt (fun a : ℝ => (Gamma (1 - (a : ℂ) - x))⁻¹) a :=
    ContinuousAt.comp (g := fun s => (Gamma s)⁻¹) (f := fun a : ℝ => 1 - (a : ℂ) - x) (differentiable_one_div_Gamma _).continuousAt (by fun_prop)
  exact (continuous_ofReal.continuousAt.comp hK).mul (c1.mul (c2.mul c3))

/-! ## Poles -/

lemma norm_add_atTop {α : Type*} {l : Filter α} {u v : α → ℂ} {c : ℂ} (hu : Tendsto (fun s => ‖u s‖) l atTop) (hv : Tendsto v l (𝓝 c)) :
    Tendsto (fun s => ‖u s + v s‖) l atTop := by
  have h1 : Tendsto (fun s => ‖u s‖ + -‖v s‖) l atTop := hu.atTop_add hv.norm.neg
  refine tendsto_atTop_mono (fun s => ?_) h1
  have := norm_sub_norm_le (u s) (-v s)
  rw [norm_neg, sub_neg_eq_add] at this
  linarith

lemma eventually_no_pole (m : ℕ) : ∀ᶠ s in 𝓝[≠] (-(m : ℂ)), ∀ k : ℕ, s ≠ -(k : ℂ) := by
  rw [eventually_nhdsWithin_iff]
  filter_upwards [Metric.ball_mem_nhds (-(m : ℂ)) one_pos] with s hs hne k hk
  subst hk
  rw [Metric.mem_ball, dist_eq_norm, show -(k : ℂ) - -(m : ℂ) = (((m : ℤ) - (k : ℤ) : ℤ) : ℂ) by push_cast; ring, norm_intCast] at hs
  have h1 : |(m : ℤ) - k| < 1 := by exact_mod_cast hs
  have h2 : (m : ℤ) = k := by
    have := Int.abs_lt_one_iff.1 h1
    linarith
  apply hne
  have : m = k := by exact_mod_cast h2
  rw [this]
  rfl

/-- The digamma function is infinite at the nonpositive integers. -/
lemma digamma_pole (m : ℕ) : Tendsto (fun s => ‖digamma s‖) (𝓝[≠] (-(m : ℂ))) atTop := by
  induction m with
  | zero =>
    have h1 : Tendsto (fun s : ℂ => ‖-s⁻¹‖) (𝓝[≠] (0 : ℂ)) atTop := by
      simp only [norm_neg]
      exact tendsto_norm_inv_nhdsNE_zero_atTop
    have h2 : Tendsto (fun s : ℂ => digamma (s + 1)) (𝓝[≠] (0 : ℂ)) (𝓝 (digamma (0 + 1))) := by
      have : ContinuousAt (fun s : ℂ => digamma (s + 1)) 0 :=
        ContinuousAt.comp (g := digamma) (differentiableAt_digamma (re_pos_no_pole (by norm_num))).continuousAt (by fun_prop)
      exact this.tendsto.mono_left nhdsWithin_le_nhds
    have h3 := norm_add_atTop h1 h2
    have e : -((0 : ℕ) : ℂ) = 0 := by simp
    rw [e]
    refine h3.congr' ?_
    have := eventually_no_pole 0
    rw [e] at this
    filter_upwards [this] with s hs
    rw [digamma_apply_add_one s hs]
    congr 1
    ring
  | succ m ih =>
    have hc : Tendsto (fun s : ℂ => s + 1) (𝓝[≠] (-((m + 1 : ℕ) : ℂ))) (𝓝[≠] (-(m : ℂ))) := by
      apply tendsto_nhdsWithin_of_tendsto_nhds_of_eventually_within
      · have : Tendsto (fun s : ℂ => s + 1) (𝓝 (-((m + 1 : ℕ) : ℂ))) (𝓝 (-((m + 1 : ℕ) : ℂ) + 1)) := (continuous_add_const 1).tendsto _
        have e : -((m + 1 : ℕ) : ℂ) + 1 = -(m : ℂ) := by push_cast; ring
        rw [e] at this
        exact this.mono_left nhdsWithin_le_nhds
      · filter_upwards [self_mem_nhdsWithin] with s hs h
        apply hs
        have h' : s + 1 = -(m : ℂ) := h
        have : s = -((m + 1 : ℕ) : ℂ) := by push_cast; linear_combination h'
        exact this
    have h1 := ih.comp hc
    have hne : -((m + 1 : ℕ) : ℂ) ≠ 0 := neg_ne_zero.2 (by exact_mod_cast Nat.succ_ne_zero m)
    have h2 : Tendsto (fun s : ℂ => -s⁻¹) (𝓝[≠] (-((m + 1 : ℕ) : ℂ))) (𝓝 (-(-((m + 1 : ℕ) : ℂ))⁻¹)) :=
      (tendsto_inv₀ hne).neg.mono_left nhdsWithin_le_nhds
    refine (norm_add_atTop (u := fun s => digamma (s + 1)) h1 h2).congr' ?_
    filter_upwards [eventually_no_pole (m + 1)] with s hs
    rw [digamma_apply_add_one s hs]
    congr 1
    ring

lemma Gamma_pole (m : ℕ) : Tendsto (fun s => ‖Gamma s‖) (𝓝[≠] (-(m : ℂ))) atTop := by
  have h1 : Tendsto (fun s => (Gamma s)⁻¹) (𝓝[≠] (-(m : ℂ))) (𝓝[≠] 0) := by
    apply tendsto_nhdsWithin_of_tendsto_nhds_of_eventually_within
    · have := differentiable_one_div_Gamma.continuous.tendsto (-(m : ℂ))
      rw [show Gamma (-(m : ℂ)) = 0 from Gamma_neg_nat_eq_zero m, inv_zero] at this
      exact this.mono_left nhdsWithin_le_nhds
    · filter_upwards [eventually_no_pole m] with s hs
      exact inv_ne_zero (Gamma_ne_zero hs)
  have h2 := (tendsto_norm_inv_nhdsNE_zero_atTop (α := ℂ)).comp h1
  refine h2.congr ?_
  intro s
  simp

lemma sub_tendsto {b : ℂ} (m : ℕ) : Tendsto (fun x : ℂ => b - x) (𝓝[≠] (b + m)) (𝓝[≠] (-(m : ℂ))) := by
  apply tendsto_nhdsWithin_of_tendsto_nhds_of_eventually_within
  · have : Tendsto (fun x : ℂ => b - x) (𝓝 (b + m)) (𝓝 (b - (b + m))) := (continuous_const.sub continuous_id).tendsto _
    rw [show b - (b + m) = -(m : ℂ) by ring] at this
    exact this.mono_left nhdsWithin_le_nhds
  · filter_upwards [self_mem_nhdsWithin] with x hx h
    apply hx
    have h' : b - x = -(m : ℂ) := h
    have : x = b + m := by linear_combination -h'
    exact this

lemma norm_mul_atTop {α : Type*} {l : Filter α} {u v : α → ℂ} {c : ℂ} (hc : c ≠ 0) (hu : Tendsto (fun s => ‖u s‖) l atTop) (hv : Tendsto v l (𝓝 c)) :
    Tendsto (fun s => ‖u s * v s‖) l atTop := by
  simp only [norm_mul]
  exact hu.atTop_mul_pos (norm_pos_iff.2 hc) hv.norm

open Classical in
/-- The function `g` is infinite at the exciton energies. -/
lemma gfun_pole {d : ℝ} (hd : 1 < d) (hd' : d ≤ 3) (m : ℕ) :
    Tendsto (fun x => ‖gfun d x‖) (𝓝[≠] ((((d - 1) / 2 : ℝ) : ℂ) + m)) atTop := by
  have hre : 0 < ((((d - 1) / 2 : ℝ) : ℂ) + m).re := by
    simp
    have : (0 : ℝ) ≤ m := Nat.cast_nonneg m
    linarith
  have hne : (((d - 1) / 2 : ℝ) : ℂ) + m ≠ 0 := by
    intro h
    rw [h] at hre
    simp at hre
  have hslit : (((d - 1) / 2 : ℝ) : ℂ) + m ∈ slitPlane := mem_slitPlane_iff.2 (Or.inl hre)
  have hlog : Tendsto (fun x : ℂ => 2 * log x) (𝓝[≠] ((((d - 1) / 2 : ℝ) : ℂ) + m)) (𝓝 (2 * log ((((d - 1) / 2 : ℝ) : ℂ) + m))) :=
    ((continuousAt_clog hslit).tendsto.const_mul 2).mono_left nhdsWithin_le_nhds
  by_cases h2 : d = 2
  · have hd2 : (((d - 1) / 2 : ℝ) : ℂ) = 1 / 2 := by rw [h2]; norm_num
    have h1 : Tendsto (fun x : ℂ => ‖-2 * digamma (1 / 2 - x)‖) (𝓝[≠] ((((d - 1) / 2 : ℝ) : ℂ) + m)) atTop := by
      rw [hd2]
      have := (digamma_pole m).comp (sub_tendsto (b := 1 / 2) m)
      simp only [norm_mul, norm_neg, Complex.norm_ofNat]
      exact this.const_mul_atTop two_pos
    refine (norm_add_atTop h1 hlog).congr ?_
    intro x
    rw [gfun, if_pos h2, g2]
    congr 1
    ring
  · by_cases h3 : d = 3
    · have hd2 : (((d - 1) / 2 : ℝ) : ℂ) = 1 := by rw [h3]; norm_num
      have h1 : Tendsto (fun x : ℂ => ‖-2 * digamma (1 - x)‖) (𝓝[≠] ((((d - 1) / 2 : ℝ) : ℂ) + m)) atTop := by
        rw [hd2]
        have := (digamma_pole m).comp (sub_tendsto (b := 1) m)
        simp only [norm_mul, norm_neg, Complex.norm_ofNat]
        exact this.const_mul_atTop two_pos
      have hinv : Tendsto (fun x : ℂ => 1 / x) (𝓝[≠] ((((d - 1) / 2 : ℝ) : ℂ) + m)) (𝓝 (1 / ((((d - 1) / 2 : ℝ) : ℂ) + m))) :=
        (tendsto_const_nhds.div tendsto_id hne).mono_left nhdsWithin_le_nhds
      refine (norm_add_atTop h1 (hlog.sub hinv)).congr ?_
      intro x
      rw [gfun, if_neg h2, if_pos h3, g3]
      congr 1
      ring
    · have hlt : d < 3 := lt_of_le_of_ne hd' h3
      have hgf : ∀ x, gfun d x = K ((d - 1) / 2) * G (((d - 1) / 2 : ℝ) : ℂ) x := fun x => by rw [gfun, if_neg h2, if_neg h3]
      simp only [hgf]
      generalize ha : (d - 1) / 2 = a at *
      have a0 : 0 < a := by linarith
      have a1 : a < 1 := by linarith
      have a2 : a ≠ 1 / 2 := fun h => h2 (by linarith)
      have hK : ((K a : ℝ) : ℂ) ≠ 0 := by
        have hs := sin_two_pi_ne a0 a1 a2
        have : K a ≠ 0 := by
          unfold K
          exact div_ne_zero (by have := Real.pi_pos; positivity) (mul_ne_zero (pow_ne_zero 2 (Real.Gamma_pos_of_pos a0).ne') hs)
        exact_mod_cast this
      have h1 := (Gamma_pole m).comp (sub_tendsto (b := (a : ℂ)) m)
      have t1 : Tendsto (fun x : ℂ => x ^ (1 - 2 * (a : ℂ))) (𝓝[≠] ((a : ℂ) + m)) (𝓝 (((a : ℂ) + m) ^ (1 - 2 * (a : ℂ)))) :=
        ((continuousAt_id).cpow continuousAt_const hslit).tendsto.mono_left nhdsWithin_le_nhds
      have t2 : Tendsto (fun x : ℂ => (Gamma (1 - a - x))⁻¹) (𝓝[≠] ((a : ℂ) + m)) (𝓝 ((Gamma (1 - a - ((a : ℂ) + m)))⁻¹)) := by
        have : Continuous (fun x : ℂ => (Gamma (1 - a - x))⁻¹) := differentiable_one_div_Gamma.continuous.comp (by fun_prop)
        exact (this.tendsto _).mono_left nhdsWithin_le_nhds
      have n1 : ((a : ℂ) + m) ^ (1 - 2 * (a : ℂ)) ≠ 0 := by
        rw [Ne, cpow_eq_zero_iff]
        tauto
      have n2 : (Gamma (1 - a - ((a : ℂ) + m)))⁻¹ ≠ 0 := by
        apply inv_ne_zero
        apply Gamma_ne_zero
        intro k hk
        have h3 : ((1 - 2 * a - m : ℝ) : ℂ) = ((-k : ℝ) : ℂ) := by push_cast; linear_combination hk
        have h4 : 1 - 2 * a - m = -(k : ℝ) := by exact_mod_cast h3
        have h5 : (2 * a : ℝ) = ((k + 1 - m : ℤ) : ℝ) := by push_cast; linarith
        have h6 : (0 : ℝ) < ((k + 1 - m : ℤ) : ℝ) := by rw [← h5]; linarith
        have h7 : ((k + 1 - m : ℤ) : ℝ) < 2 := by rw [← h5]; linarith
        have h8 : (k + 1 - m : ℤ) = 1 := by
          have h9 : (0 : ℤ) < k + 1 - m := by exact_mod_cast h6
          have h10 : (k + 1 - m : ℤ) < 2 := by exact_mod_cast h7
          omega
        rw [h8] at h5
        apply a2
        push_cast at h5
        linarith
      have h5 := norm_mul_atTop (mul_ne_zero hK (mul_ne_zero n1 n2)) h1 (((t1.mul t2)).const_mul (K a : ℂ))
      refine h5.congr ?_
      intro x
      simp only [G, Function.comp_apply]
      congr 1
      ring

end PyElli.Exciton
