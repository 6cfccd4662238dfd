import Mathlib.Analysis.SpecialFunctions.Trigonometric.Sinc
import Mathlib.Analysis.SpecialFunctions.ImproperIntegrals
import Mathlib.MeasureTheory.Integral.Prod
import Mathlib.MeasureTheory.Integral.IntervalIntegral.FundThmCalculus

/-! # The sine integral (C90)

`∫₀^Z sin u / u du` differs from `π/2` by at most `2/Z`, and is bounded. -/

namespace PyElli

open Filter Topology MeasureTheory

/-- `Si(z) = ∫₀^z sin u / u du`. -/
noncomputable def sinInt (z : ℝ) : ℝ := ∫ u in (0 : ℝ)..z, Real.sinc u

lemma exp_sin_anti (s u : ℝ) : HasDerivAt (fun u => -(Real.exp (-(u * s)) * (s * Real.sin u + Real.cos u)) / (1 + s ^ 2)) (Real.exp (-(u * s)) * Real.sin u) u := by
  have h1 : HasDerivAt (fun u : ℝ => Real.exp (-(u * s))) (Real.exp (-(u * s)) * (-(1 * s))) u := (((hasDerivAt_id' u).mul_const s).neg).exp
  have h2 : HasDerivAt (fun u => s * Real.sin u + Real.cos u) (s * Real.cos u + -Real.sin u) u := ((Real.hasDerivAt_sin u).const_mul s).add (Real.hasDerivAt_cos u)
  refine ((h1.mul h2).neg.div_const (1 + s ^ 2)).congr_deriv ?_
  have : 1 + s ^ 2 ≠ 0 := by positivity
  field_simp
  ring

lemma exp_sin_integral (s Z : ℝ) : ∫ u in (0 : ℝ)..Z, Real.exp (-(u * s)) * Real.sin u =
    (1 + s ^ 2)⁻¹ - Real.exp (-(Z * s)) * ((s * Real.sin Z + Real.cos Z) / (1 + s ^ 2)) := by
  rw [intervalIntegral.integral_eq_sub_of_hasDerivAt (fun u _ => exp_sin_anti s u) (Continuous.intervalIntegrable (by fun_prop) _ _)]
  simp
  ring

lemma exp_Ioi {u : ℝ} (hu : 0 < u) : IntegrableOn (fun s => Real.exp (-(u * s))) (Set.Ioi 0) ∧ ∫ s in Set.Ioi (0 : ℝ), Real.exp (-(u * s)) = 1 / u := by
  have h1 := integrableOn_exp_mul_Ioi (neg_lt_zero.2 hu) 0
  have h2 := integral_exp_mul_Ioi (neg_lt_zero.2 hu) 0
  simp only [neg_mul] at h1 h2
  refine ⟨h1, ?_⟩
  rw [h2]
  simp

lemma sinInt_swap {Z : ℝ} (hZ : 0 < Z) : sinInt Z = ∫ s in Set.Ioi (0 : ℝ), ∫ u in (0 : ℝ)..Z, Real.exp (-(u * s)) * Real.sin u := by
  have e1 : sinInt Z = ∫ u in Set.Ioc 0 Z, ∫ s in Set.Ioi (0 : ℝ), Real.exp (-(u * s)) * Real.sin u := by
    unfold sinInt
    rw [intervalIntegral.integral_of_le hZ.le]
    refine setIntegral_congr_fun measurableSet_Ioc fun u hu => ?_
    have hu0 : 0 < u := hu.1
    rw [integral_mul_const, (exp_Ioi hu0).2, Real.sinc_of_ne_zero hu0.ne']
    ring
  rw [e1]
  have hint : Integrable (Function.uncurry fun u s : ℝ => Real.exp (-(u * s)) * Real.sin u) ((volume.restrict (Set.Ioc 0 Z)).prod (volume.restrict (Set.Ioi 0))) := by
    refine (integrable_prod_iff ?_).2 ⟨?_, ?_⟩
    · exact Continuous.aestronglyMeasurable (by unfold Function.uncurry; fun_prop)
    · filter_upwards [ae_restrict_mem measurableSet_Ioc] with u hu
      exact ((exp_Ioi hu.1).1).mul_const (Real.sin u)
    · have : IntegrableOn (fun u => |Real.sinc u|) (Set.Ioc 0 Z) := by
        have := (Real.continuous_sinc.abs).intervalIntegrable (μ := volume) 0 Z
        rwa [intervalIntegrable_iff_integrableOn_Ioc_of_le hZ.le] at this
      refine this.congr_fun (fun u hu => ?_) measurableSet_Ioc
      have hu0 : 0 < u := hu.1
      simp only [Function.uncurry, norm_mul, Real.norm_eq_abs, Real.abs_exp]
      rw [integral_mul_const, (exp_Ioi hu0).2, Real.sinc_of_ne_zero hu0.ne', abs_div, abs_of_pos hu0]
      ring
  rw [integral_integral_swap hint]
  refine integral_congr_ae (Eventually.of_forall fun s => ?_)
  simp only
  rw [intervalIntegral.integral_of_le hZ.le]

lemma sinInt_bound {Z : ℝ} (hZ : 0 < Z) : |sinInt Z - Real.pi / 2| ≤ 2 / Z := by
  have i1 : IntegrableOn (fun s : ℝ => (1 + s ^ 2)⁻¹) (Set.Ioi 0) := integrable_inv_one_add_sq.integrableOn
  have hb : ∀ s : ℝ, 0 < s → |(s * Real.sin Z + Real.cos Z) / (1 + s ^ 2)| ≤ 2 := by
    intro s hs
    rw [abs_div, abs_of_pos (by positivity : 0 < 1 + s ^ 2), div_le_iff₀ (by positivity)]
    have h1 : |s * Real.sin Z| ≤ s := by
      rw [abs_mul, abs_of_pos hs]
      nlinarith [Real.abs_sin_le_one Z]
    have h2 := Real.abs_cos_le_one Z
    have h3 := abs_add_le (s * Real.sin Z) (Real.cos Z)
    nlinarith [sq_nonneg (s - 1)]
  have i2 : IntegrableOn (fun s : ℝ => Real.exp (-(Z * s)) * ((s * Real.sin Z + Real.cos Z) / (1 + s ^ 2))) (Set.Ioi 0) := by
    refine Integrable.mono' ((exp_Ioi hZ).1.mul_const 2) ?_ ?_
    · refine Continuous.aestronglyMeasurable ?_
      refine Continuous.mul (by fun_prop) (Continuous.div (by fun_prop) (by fun_prop) fun s => by positivity)
    · filter_upwards [ae_restrict_mem measurableSet_Ioi] with s hs
      rw [norm_mul, Real.norm_eq_abs, Real.abs_exp, Real.norm_eq_abs]
      exact mul_le_mul_of_nonneg_left (hb s hs) (Real.exp_pos _).le
  have e : sinInt Z - Real.pi / 2 = -∫ s in Set.Ioi (0 : ℝ), Real.exp (-(Z * s)) * ((s * Real.sin Z + Real.cos Z) / (1 + s ^ 2)) := by
    rw [sinInt_swap hZ]
    simp only [exp_sin_integral]
    rw [integral_sub i1 i2, integral_Ioi_inv_one_add_sq, Real.arctan_zero]
    ring
  rw [e, abs_neg]
  have h3 : ‖∫ s in Set.Ioi (0 : ℝ), Real.exp (-(Z * s)) * ((s * Real.sin Z + Real.cos Z) / (1 + s ^ 2))‖ ≤ ∫ s in Set.Ioi (0 : ℝ), Real.exp (-(Z * s)) * 2 := by
    refine norm_integral_le_of_norm_le ((exp_Ioi hZ).1.mul_const 2) ?_
    filter_upwards [ae_restrict_mem measurableSet_Ioi] with s hs
    rw [norm_mul, Real.norm_eq_abs, Real.abs_exp, Real.norm_eq_abs]
    exact mul_le_mul_of_nonneg_left (hb s hs) (Real.exp_pos _).le
  rw [integral_mul_const, (exp_Ioi hZ).2, Real.norm_eq_abs] at h3
  refine h3.trans (le_of_eq ?_)
  ring

lemma sinInt_tendsto : Tendsto sinInt atTop (𝓝 (Real.pi / 2)) := by
  have h : Tendsto (fun Z : ℝ => 2 / Z) atTop (𝓝 0) := tendsto_const_nhds.div_atTop tendsto_id
  rw [tendsto_iff_dist_tendsto_zero]
  refine squeeze_zero' (Eventually.of_forall fun _ => dist_nonneg) ?_ h
  filter_upwards [eventually_gt_atTop 0] with Z hZ
  rw [Real.dist_eq]
  exact sinInt_bound hZ

lemma sinInt_abs {z : ℝ} (hz : 0 ≤ z) : |sinInt z| ≤ 4 := by
  rcases le_total z 1 with h | h
  · have := intervalIntegral.norm_integral_le_of_norm_le_const (a := 0) (b := z) (C := 1) (f := Real.sinc) fun x _ => by
      rw [Real.norm_eq_abs]; exact Real.abs_sinc_le_one x
    rw [sub_zero, abs_of_nonneg hz, Real.norm_eq_abs] at this
    unfold sinInt
    linarith
  · have h0 : 0 < z := by linarith
    have h1 := abs_le.1 (sinInt_bound h0)
    have h2 : 2 / z ≤ 2 := by
      rw [div_le_iff₀ h0]
      linarith
    have := Real.pi_le_four
    have := Real.pi_pos
    rw [abs_le]
    constructor <;> linarith [h1.1, h1.2]

lemma sinInt_continuous : Continuous sinInt := intervalIntegral.continuous_primitive (fun a b => Real.continuous_sinc.intervalIntegrable a b) 0

lemma sinInt_zero : sinInt 0 = 0 := intervalIntegral.integral_same

end PyElli
