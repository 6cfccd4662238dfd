import Verif.Props.BulkAngles
import Verif.Props.MixtureFraction

/-! # The fraction of a bulk mixture from one measurement (C154) -/

namespace PyElli

open Complex

lemma bulkV_injective {n0 theta : ℝ} (hn : 0 < n0) (h1 : 0 < theta) (h2 : theta < 90) {e₁ e₂ : ℂ} (h : bulkV n0 theta e₁ = bulkV n0 theta e₂) : e₁ = e₂ := by
  have hc : 0 < Real.cos (deg2rad theta) := cos_pos_of_angle (by rw [abs_of_pos h1]; exact h2)
  have hs := sin_pos_of_angle h1 h2
  have hf : Real.cos (deg2rad theta) / (n0 * Real.sin (deg2rad theta) ^ 2) ≠ 0 := by positivity
  unfold bulkV at h
  have h3 := congrArg (fun z => z ^ 2) (mul_left_cancel₀ (ofReal_ne_zero.2 hf) h)
  simp only [csqrt_sq] at h3
  linear_combination h3

/-- C154: two bulk samples of the same mixture class and the same constituents that give the same psi and delta, at one angle and one wavelength,
have the same fraction. -/
theorem C154_measured (k : EmaKind) (h g : ℂ) (f₁ f₂ : ℝ) (hi : 0 ≤ h.im) (gi : 0 ≤ g.im) (hh : h ≠ 0) (hg : g ≠ 0) (hne : h ≠ g)
    (hk : k = .maxwellGarnett → g + 2 * h ≠ 0) (a0 : 0 ≤ f₁) (a1 : f₁ ≤ 1) (b0 : 0 ≤ f₂) (b1 : f₂ ≤ 1)
    {s₁ s₂ : Stack} {n0 theta : ℝ} (hs₁ : BulkSample s₁ n0) (hs₂ : BulkSample s₂ n0) (he₁ : k.entry h g f₁ = some (s₁.back 0 0))
    (he₂ : k.entry h g f₂ = some (s₂.back 0 0)) (h1 : 0 < theta) (h2 : theta < 90) (lbda : ℝ) (ee₁ ee₂) {a : ℂ} (ha : a ≠ 0)
    (hpsi : (measured s₁ theta lbda ee₁ a).psi = (measured s₂ theta lbda ee₂ a).psi)
    (hdelta : (measured s₁ theta lbda ee₁ a).delta = (measured s₂ theta lbda ee₂ a).delta) : f₁ = f₂ := by
  have E₁ := (C03_calc_rho_spec _ _ _).2 (C03_round_trip_default (calculate4x4 propExpm s₁ theta lbda ee₁).jr
    (calculate4x4 propExpm s₁ theta lbda ee₁).jt (calculate4x4 propExpm s₁ theta lbda ee₁).power ![a, a])
  have E₂ := (C03_calc_rho_spec _ _ _).2 (C03_round_trip_default (calculate4x4 propExpm s₂ theta lbda ee₂).jr
    (calculate4x4 propExpm s₂ theta lbda ee₂).jt (calculate4x4 propExpm s₂ theta lbda ee₂).power ![a, a])
  change calcRho (measured s₁ theta lbda ee₁ a).psi (measured s₁ theta lbda ee₁ a).delta = (measured s₁ theta lbda ee₁ a).rho at E₁
  change calcRho (measured s₂ theta lbda ee₂ a).psi (measured s₂ theta lbda ee₂ a).delta = (measured s₂ theta lbda ee₂ a).rho at E₂
  have hr : (measured s₁ theta lbda ee₁ a).rho = (measured s₂ theta lbda ee₂ a).rho := by rw [← E₁, ← E₂, hpsi, hdelta]
  obtain ⟨v1, r1⟩ := bulk_rho hs₁ h1 h2 lbda ee₁ ha
  obtain ⟨v2, r2⟩ := bulk_rho hs₂ h1 h2 lbda ee₂ ha
  rw [r1, r2, div_eq_div_iff v1 v2] at hr
  have hv : bulkV n0 theta (s₁.back 0 0) = bulkV n0 theta (s₂.back 0 0) := by linear_combination -hr / 2
  have he := bulkV_injective hs₁.index h1 h2 hv
  exact C154_determined k h g f₁ f₂ hi gi hh hg hne hk a0 a1 b0 b1 (by rw [he₁, he₂, he])

/-- Half gold and half glass, mixed linearly. -/
example : BulkSample (bulkStack (vcaEntry 2.25 (-11.8 + 1.2 * I) (1 / 2 : ℝ))) 1 ∧
    EmaKind.entry .vca 2.25 (-11.8 + 1.2 * I) (1 / 2 : ℝ) = some ((bulkStack (vcaEntry 2.25 (-11.8 + 1.2 * I) (1 / 2 : ℝ))).back 0 0) := by
  refine ⟨bulkStack_sample ?_, ?_⟩
  · unfold vcaEntry
    norm_num
  · simp [EmaKind.entry, bulkStack, isoTensor]

end PyElli
