import Verif.Props.Coating
import Verif.Spec.Tunnelling
import Mathlib.Analysis.SpecialFunctions.Trigonometric.DerivHyp

/-! # C151: light tunnels through a film beyond total reflection -/

namespace PyElli

open Complex Spec Filter Topology

/-- The Airy sum in admittances, for any complex film. -/
lemma airy_admittance {u v w b : ℂ} (huv : u + v ≠ 0) (hvw : v + w ≠ 0) :
    airyR ((u - v) / (u + v)) ((v - w) / (v + w)) b =
      (v * (u - w) * Complex.cos b + I * (v ^ 2 - u * w) * Complex.sin b) / (v * (u + w) * Complex.cos b - I * (v ^ 2 + u * w) * Complex.sin b) := by
  have hE : Complex.exp (2 * I * b) = (Complex.cos b + I * Complex.sin b) ^ 2 := by
    rw [show (2 * I * b) = b * I + b * I by ring, Complex.exp_add, ← pow_two, Complex.exp_mul_I]
    ring
  have hcs := Complex.cos_sq_add_sin_sq b
  unfold airyR
  rw [hE]
  generalize Complex.cos b = c at *
  generalize Complex.sin b = s at *
  have hz : c + I * s ≠ 0 := by
    intro h0
    have h1 : (c + I * s) * (c - I * s) = 1 := by linear_combination hcs - s ^ 2 * I_sq
    rw [h0, zero_mul] at h1
    exact zero_ne_one h1
  have nA : (u - v) / (u + v) + (v - w) / (v + w) * (c + I * s) ^ 2 = 2 * (c + I * s) * (v * (u - w) * c + I * (v ^ 2 - u * w) * s) / ((u + v) * (v + w)) := by
    rw [eq_div_iff (mul_ne_zero huv hvw)]
    field_simp
    linear_combination (-(u - v) * (v + w)) * hcs + ((v - w) * (u + v) * s ^ 2 - 2 * (v ^ 2 - u * w) * s ^ 2) * I_sq
  have nB : 1 + (u - v) / (u + v) * ((v - w) / (v + w)) * (c + I * s) ^ 2 = 2 * (c + I * s) * (v * (u + w) * c - I * (v ^ 2 + u * w) * s) / ((u + v) * (v + w)) := by
    rw [eq_div_iff (mul_ne_zero huv hvw)]
    field_simp
    linear_combination (-(u + v) * (v + w)) * hcs + ((u - v) * (v - w) * s ^ 2 + 2 * (v ^ 2 + u * w) * s ^ 2) * I_sq
  rw [nA, nB, div_div_div_cancel_right₀ (mul_ne_zero huv hvw), mul_div_mul_left _ _ (mul_ne_zero two_ne_zero hz)]

lemma tunnel_den_pos {u v w : ℝ} (hu : 0 < u) (hv : 0 < v) (hw : 0 < w) (b : ℝ) :
    0 < v ^ 2 * (u + w) ^ 2 + (v ^ 2 + u ^ 2) * (v ^ 2 + w ^ 2) * Real.sinh b ^ 2 := by positivity

/-- An imaginary admittance `i v` of either sign and an imaginary phase. -/
lemma airy_evanescent {u v w : ℝ} (hu : 0 < u) (hv : v ≠ 0) (hw : 0 < w) (b : ℝ) :
    ‖airyR (((u : ℂ) - v * I) / (u + v * I)) ((v * I - w) / (v * I + w)) (b * I)‖ ^ 2 = 1 - tunnelT u |v| w b := by
  have huv : (u : ℂ) + v * I ≠ 0 := by
    intro h0
    have := congrArg re h0
    simp at this
    exact hu.ne' this
  have hvw : (v * I : ℂ) + w ≠ 0 := by
    intro h0
    have := congrArg re h0
    simp at this
    exact hw.ne' this
  rw [airy_admittance huv hvw, norm_div, div_pow, Complex.cos_mul_I, Complex.sin_mul_I, ← ofReal_cosh, ← ofReal_sinh]
  have hcs := Real.cosh_sq b
  generalize Real.cosh b = c at *
  have hA : (v * I * (u - w) * c + I * ((v * I) ^ 2 - u * w) * (Real.sinh b * I) : ℂ) =
      (((v ^ 2 + u * w) * Real.sinh b : ℝ) : ℂ) + ((v * (u - w) * c : ℝ) : ℂ) * I := by
    push_cast
    linear_combination ((v : ℂ) ^ 2 * I ^ 2 * Complex.sinh b - u * w * Complex.sinh b - v ^ 2 * Complex.sinh b) * I_sq
  have hB : (v * I * (u + w) * c - I * ((v * I) ^ 2 + u * w) * (Real.sinh b * I) : ℂ) =
      (((u * w - v ^ 2) * Real.sinh b : ℝ) : ℂ) + ((v * (u + w) * c : ℝ) : ℂ) * I := by
    push_cast
    linear_combination (-(v : ℂ) ^ 2 * I ^ 2 * Complex.sinh b - u * w * Complex.sinh b + v ^ 2 * Complex.sinh b) * I_sq
  rw [hA, hB, ← normSq_eq_norm_sq, ← normSq_eq_norm_sq, normSq_add_mul_I, normSq_add_mul_I]
  have hd := tunnel_den_pos hu (abs_pos.2 hv) hw b
  rw [sq_abs] at hd
  unfold tunnelT
  rw [sq_abs]
  have e : ((u * w - v ^ 2) * Real.sinh b) ^ 2 + (v * (u + w) * c) ^ 2 = v ^ 2 * (u + w) ^ 2 + (v ^ 2 + u ^ 2) * (v ^ 2 + w ^ 2) * Real.sinh b ^ 2 := by
    linear_combination (v ^ 2 * (u + w) ^ 2) * hcs
  rw [e, eq_sub_iff_add_eq, ← add_div, div_eq_one_iff_eq hd.ne']
  linear_combination (v ^ 2 * (u - w) ^ 2) * hcs

/-- The film is beyond total reflection, the substrate not. -/
structure Frustrated (n0 theta e1 eb : ℝ) : Prop where
  index : 0 < n0
  angle : |theta| < 90
  film : e1 < (n0 * Real.sin (theta * Real.pi / 180)) ^ 2
  film_ne : e1 ≠ 0
  back : (n0 * Real.sin (theta * Real.pi / 180)) ^ 2 < eb

lemma Frustrated.bare {n0 theta e1 eb : ℝ} (h : Frustrated n0 theta e1 eb) : Transparent n0 theta eb eb := ⟨h.index, h.angle, h.back, h.back⟩

lemma decay_pos {n0 theta e : ℝ} (h : e < (n0 * Real.sin (theta * Real.pi / 180)) ^ 2) : 0 < decay n0 theta e := Real.sqrt_pos.2 (by linarith)

lemma evanescent_pos (σ : Polarisation) {n0 theta e : ℝ} (h : e < (n0 * Real.sin (theta * Real.pi / 180)) ^ 2) (h0 : e ≠ 0) : 0 < σ.evanescent n0 theta e := by
  cases σ with
  | s => exact decay_pos h
  | p => exact div_pos (abs_pos.2 h0) (decay_pos h)

lemma decay_csqrt {n0 theta e : ℝ} (h : e < (n0 * Real.sin (theta * Real.pi / 180)) ^ 2) :
    Complex.sqrt ((e : ℂ) - ((n0 * Real.sin (deg2rad theta) : ℝ) : ℂ) ^ 2) = (decay n0 theta e : ℂ) * I := by
  have hk := decay_pos h
  rw [csqrt_eq_iff]
  refine ⟨Or.inr ⟨by simp, by simpa using hk.le⟩, ?_⟩
  have hs : decay n0 theta e ^ 2 = (n0 * Real.sin (deg2rad theta)) ^ 2 - e := by
    unfold decay
    rw [Real.sq_sqrt (by linarith), deg2rad_eq]
  have hs' : (decay n0 theta e : ℂ) ^ 2 = ((n0 * Real.sin (deg2rad theta) : ℝ) : ℂ) ^ 2 - e := by exact_mod_cast hs
  rw [mul_pow, I_sq, hs']
  ring

/-- **C151.** Reflectance and transmittance of a film beyond total reflection on a transparent substrate. -/
theorem C151_formula {n0 theta e1 eb : ℝ} (h : Frustrated n0 theta e1 eb) (σ : Polarisation) {d lbda : ℝ} (hd : 0 ≤ d) (hl : 0 < lbda) (ee) (a : ℂ) :
    let T := tunnelT (σ.admittance n0 theta (n0 ^ 2)) (σ.evanescent n0 theta e1) (σ.admittance n0 theta eb) (2 * Real.pi * decay n0 theta e1 * d / lbda)
    (measured (coated n0 d e1 eb) theta lbda ee a).TMatrix σ.index σ.index = T ∧
      (measured (coated n0 d e1 eb) theta lbda ee a).RMatrix σ.index σ.index = 1 - T := by
  intro T
  have hn := h.index
  have he1 := h.film_ne
  have heb : 0 < eb := lt_of_le_of_lt (sq_nonneg _) h.back
  have hk := decay_pos h.film
  have hqb := normal_pos h.back
  have hq0 := normal_pos h.bare.front_lt
  have key := C94_airy n0 theta lbda d (e1 : ℂ) (eb : ℂ) ee hn h.angle hl hd (by exact_mod_cast he1) (by simp) (by exact_mod_cast heb.ne') (by simp)
  simp only at key
  rw [decay_csqrt h.film, normal_csqrt h.back, ← ofReal_mul, ← normal_front hn h.angle] at key
  set q0 := normalComponent n0 theta (n0 ^ 2) with hq0d
  set k := decay n0 theta e1 with hkd
  set qb := normalComponent n0 theta eb with hqbd
  have hb : (2 * (Real.pi : ℂ) * ((k : ℂ) * I) * (d : ℂ) / (lbda : ℂ)) = ((2 * Real.pi * k * d / lbda : ℝ) : ℂ) * I := by push_cast; ring
  rw [hb] at key
  set β := 2 * Real.pi * k * d / lbda with hβ
  have hk' : (k : ℂ) ≠ 0 := by exact_mod_cast hk.ne'
  have hkI : (k : ℂ) * I ≠ 0 := mul_ne_zero hk' I_ne_zero
  obtain ⟨⟨ks, -, -⟩, kp⟩ := key hkI
  obtain ⟨kp, -, -⟩ := kp (by
    intro h0
    have := congrArg im h0
    simp at this
    rcases this with h | h
    · exact heb.ne' h
    · exact hk.ne' h)
  have hR : (measured (coated n0 d e1 eb) theta lbda ee a).RMatrix σ.index σ.index = 1 - T := by
    cases σ with
    | s =>
      show ‖(calculate4x4 propExpm (coated n0 d e1 eb) theta lbda ee).jr 1 1‖ ^ 2 = _
      have : (calculate4x4 propExpm (coated n0 d e1 eb) theta lbda ee).jr 1 1 = _ := ks
      rw [this]
      have := airy_evanescent hq0 hk.ne' hqb β
      rw [abs_of_pos hk] at this
      exact this
    | p =>
      show ‖(calculate4x4 propExpm (coated n0 d e1 eb) theta lbda ee).jr 0 0‖ ^ 2 = _
      have : (calculate4x4 propExpm (coated n0 d e1 eb) theta lbda ee).jr 0 0 = _ := kp
      rw [this]
      have hn2 : (0 : ℝ) < n0 ^ 2 := by positivity
      have hq0' : (q0 : ℂ) ≠ 0 := by exact_mod_cast hq0.ne'
      have hqb' : (qb : ℂ) ≠ 0 := by exact_mod_cast hqb.ne'
      have he1' : (e1 : ℂ) ≠ 0 := by exact_mod_cast he1
      have hu := div_pos hn2 hq0
      have hw := div_pos heb hqb
      have hv : -(e1 / k) ≠ 0 := neg_ne_zero.2 (div_ne_zero he1 hk.ne')
      have key := airy_evanescent hu hv hw β
      rw [abs_neg, abs_div, abs_of_pos hk] at key
      have hvI : ((-(e1 / k) : ℝ) : ℂ) * I = (e1 : ℂ) / ((k : ℂ) * I) := by
        rw [eq_div_iff hkI]
        push_cast
        field_simp
        linear_combination (-(1 : ℂ)) * I_sq
      have conv : ∀ x y qx qy : ℂ, qx ≠ 0 → qy ≠ 0 → rP x qx y qy = -((x / qx - y / qy) / (x / qx + y / qy)) := by
        intro x y qx qy hx hy
        unfold rP
        have e1 : x / qx - y / qy = (x * qy - y * qx) / (qx * qy) := by field_simp
        have e2 : x / qx + y / qy = (x * qy + y * qx) / (qx * qy) := by field_simp
        rw [e1, e2, div_div_div_cancel_right₀ (mul_ne_zero hx hy), ← neg_div]
        congr 1
        · ring
        · ring
      rw [conv _ _ _ _ hq0' hkI, conv _ _ _ _ hkI hqb', airyR_neg, norm_neg]
      rw [hvI] at key
      push_cast at key
      push_cast
      exact key
  exact ⟨by have := coated_energy σ hn h.angle hl hd he1 heb.ne' ee a; linarith, hR⟩

/-! ## What the thickness does -/

/-- Transmittance of the film for one polarisation, as the result object gives it. -/
noncomputable def coatedT (σ : Polarisation) (n0 theta e1 eb lbda : ℝ) (ee : (Fin 4 → ℂ) × Mat4) (a : ℂ) (d : ℝ) : ℝ :=
  (measured (coated n0 d e1 eb) theta lbda ee a).TMatrix σ.index σ.index

section

variable {n0 theta e1 eb : ℝ} (h : Frustrated n0 theta e1 eb) (σ : Polarisation) {lbda : ℝ} (ee : (Fin 4 → ℂ) × Mat4) (a : ℂ)

include h

/-- **C151.** The light through the film is strictly less for every increase of the thickness, and never zero; so the thickness follows from the transmittance. -/
theorem C151_falls (hl : 0 < lbda) : StrictAntiOn (coatedT σ n0 theta e1 eb lbda ee a) (Set.Ici 0) ∧
    ∀ d, 0 ≤ d → 0 < coatedT σ n0 theta e1 eb lbda ee a d := by
  have hu := admittance_pos σ h.bare.front_lt
  have hv := evanescent_pos σ h.film h.film_ne
  have hw := admittance_pos σ h.back
  have hk := decay_pos h.film
  constructor
  · intro d hd d' hd' hlt
    have e : ∀ x, 0 ≤ x → coatedT σ n0 theta e1 eb lbda ee a x = _ := fun x hx => (C151_formula h σ hx hl ee a).1
    rw [e d hd, e d' hd']
    unfold tunnelT
    have hb0 : 0 ≤ 2 * Real.pi * decay n0 theta e1 * d / lbda := by
      have : 0 ≤ d := hd
      positivity
    have hb : 2 * Real.pi * decay n0 theta e1 * d / lbda < 2 * Real.pi * decay n0 theta e1 * d' / lbda := by
      apply div_lt_div_of_pos_right _ hl
      exact mul_lt_mul_of_pos_left hlt (by positivity)
    have hs : Real.sinh (2 * Real.pi * decay n0 theta e1 * d / lbda) ^ 2 < Real.sinh (2 * Real.pi * decay n0 theta e1 * d' / lbda) ^ 2 :=
      pow_lt_pow_left₀ (Real.sinh_strictMono hb) (by rw [← Real.sinh_zero]; exact Real.sinh_strictMono.monotone hb0) two_ne_zero
    apply div_lt_div_of_pos_left (by positivity) (tunnel_den_pos hu hv hw _)
    have : 0 < (σ.evanescent n0 theta e1 ^ 2 + σ.admittance n0 theta (n0 ^ 2) ^ 2) * (σ.evanescent n0 theta e1 ^ 2 + σ.admittance n0 theta eb ^ 2) := by positivity
    have := mul_lt_mul_of_pos_left hs this
    linarith
  · intro d hd
    have e : coatedT σ n0 theta e1 eb lbda ee a d = _ := (C151_formula h σ hd hl ee a).1
    rw [e]
    exact div_pos (by positivity) (tunnel_den_pos hu hv hw _)

/-- **C151.** For thick films the light through the film falls off like `exp(-4π κ d / λ)`, with a known prefactor; in particular everything is reflected in the limit. -/
theorem C151_thick (hl : 0 < lbda) :
    let u := σ.admittance n0 theta (n0 ^ 2)
    let v := σ.evanescent n0 theta e1
    let w := σ.admittance n0 theta eb
    Tendsto (fun d => coatedT σ n0 theta e1 eb lbda ee a d * Real.exp (4 * Real.pi * decay n0 theta e1 * d / lbda)) atTop
        (𝓝 (16 * u * w * v ^ 2 / ((v ^ 2 + u ^ 2) * (v ^ 2 + w ^ 2)))) ∧
      Tendsto (coatedR σ n0 theta e1 eb lbda ee a) atTop (𝓝 1) := by
  intro u v w
  have hu : 0 < u := admittance_pos σ h.bare.front_lt
  have hv : 0 < v := evanescent_pos σ h.film h.film_ne
  have hw : 0 < w := admittance_pos σ h.back
  have hk := decay_pos h.film
  have hb : Tendsto (fun d : ℝ => 4 * Real.pi * decay n0 theta e1 * d / lbda) atTop atTop := by
    have e : (fun d : ℝ => 4 * Real.pi * decay n0 theta e1 * d / lbda) = fun d => (4 * Real.pi * decay n0 theta e1 / lbda) * d := by funext d; ring
    rw [e]
    exact tendsto_id.const_mul_atTop (by positivity)
  have hexp : Tendsto (fun d : ℝ => Real.exp (-(4 * Real.pi * decay n0 theta e1 * d / lbda))) atTop (𝓝 0) := Real.tendsto_exp_neg_atTop_nhds_zero.comp hb
  have main : Tendsto (fun d => coatedT σ n0 theta e1 eb lbda ee a d * Real.exp (4 * Real.pi * decay n0 theta e1 * d / lbda)) atTop
      (𝓝 (16 * u * w * v ^ 2 / ((v ^ 2 + u ^ 2) * (v ^ 2 + w ^ 2)))) := by
    have hev : (fun d => coatedT σ n0 theta e1 eb lbda ee a d * Real.exp (4 * Real.pi * decay n0 theta e1 * d / lbda)) =ᶠ[atTop]
        fun d => 16 * u * w * v ^ 2 / (4 * v ^ 2 * (u + w) ^ 2 * Real.exp (-(4 * Real.pi * decay n0 theta e1 * d / lbda)) +
          (v ^ 2 + u ^ 2) * (v ^ 2 + w ^ 2) * (1 - Real.exp (-(4 * Real.pi * decay n0 theta e1 * d / lbda))) ^ 2) := by
      filter_upwards [eventually_ge_atTop 0] with d hd
      have e : coatedT σ n0 theta e1 eb lbda ee a d = tunnelT u v w _ := (C151_formula h σ hd hl ee a).1
      rw [e]
      unfold tunnelT
      rw [show 4 * Real.pi * decay n0 theta e1 * d / lbda = 2 * Real.pi * decay n0 theta e1 * d / lbda + 2 * Real.pi * decay n0 theta e1 * d / lbda by ring, Real.sinh_eq, neg_add,
        Real.exp_add, Real.exp_add, Real.exp_neg]
      have hx := Real.exp_pos (2 * Real.pi * decay n0 theta e1 * d / lbda)
      generalize Real.exp (2 * Real.pi * decay n0 theta e1 * d / lbda) = x at *
      have h1 : 0 < v ^ 2 * (u + w) ^ 2 + (v ^ 2 + u ^ 2) * (v ^ 2 + w ^ 2) * ((x - x⁻¹) / 2) ^ 2 := by positivity
      have h2 : 0 < 4 * v ^ 2 * (u + w) ^ 2 * (x⁻¹ * x⁻¹) + (v ^ 2 + u ^ 2) * (v ^ 2 + w ^ 2) * (1 - x⁻¹ * x⁻¹) ^ 2 := by positivity
      have h3 : 4 * v ^ 2 * (u + w) ^ 2 * (x⁻¹ * x⁻¹) + (v ^ 2 + u ^ 2) * (v ^ 2 + w ^ 2) * (1 - x⁻¹ * x⁻¹) ^ 2 =
          4 * (x⁻¹ * x⁻¹) * (v ^ 2 * (u + w) ^ 2 + (v ^ 2 + u ^ 2) * (v ^ 2 + w ^ 2) * ((x - x⁻¹) / 2) ^ 2) := by
        field_simp
        ring
      rw [h3]
      generalize v ^ 2 * (u + w) ^ 2 + (v ^ 2 + u ^ 2) * (v ^ 2 + w ^ 2) * ((x - x⁻¹) / 2) ^ 2 = D at h1
      field_simp
      ring
    refine Tendsto.congr' hev.symm ?_
    have h2 : Tendsto (fun d : ℝ => 4 * v ^ 2 * (u + w) ^ 2 * Real.exp (-(4 * Real.pi * decay n0 theta e1 * d / lbda)) +
          (v ^ 2 + u ^ 2) * (v ^ 2 + w ^ 2) * (1 - Real.exp (-(4 * Real.pi * decay n0 theta e1 * d / lbda))) ^ 2) atTop
        (𝓝 (4 * v ^ 2 * (u + w) ^ 2 * 0 + (v ^ 2 + u ^ 2) * (v ^ 2 + w ^ 2) * (1 - 0) ^ 2)) :=
      (hexp.const_mul _).add (((tendsto_const_nhds.sub hexp).pow 2).const_mul _)
    rw [show 4 * v ^ 2 * (u + w) ^ 2 * 0 + (v ^ 2 + u ^ 2) * (v ^ 2 + w ^ 2) * (1 - 0) ^ 2 = (v ^ 2 + u ^ 2) * (v ^ 2 + w ^ 2) by ring] at h2
    exact tendsto_const_nhds.div h2 (by positivity)
  refine ⟨main, ?_⟩
  have hT : Tendsto (coatedT σ n0 theta e1 eb lbda ee a) atTop (𝓝 0) := by
    have := main.mul hexp
    rw [mul_zero] at this
    refine this.congr fun d => ?_
    rw [mul_assoc, ← Real.exp_add, add_neg_cancel, Real.exp_zero, mul_one]
  have h1 : Tendsto (fun d => 1 - coatedT σ n0 theta e1 eb lbda ee a d) atTop (𝓝 1) := by
    simpa using tendsto_const_nhds.sub hT
  refine h1.congr' ?_
  filter_upwards [eventually_ge_atTop 0] with d hd
  obtain ⟨e1', e2'⟩ := C151_formula h σ hd hl ee a
  have x1 : coatedT σ n0 theta e1 eb lbda ee a d = _ := e1'
  have x2 : coatedR σ n0 theta e1 eb lbda ee a d = _ := e2'
  rw [x1, x2]

end

/-- An air gap between two prisms of index 1.5 at 45 degrees, where `(1.5 sin 45°)² = 1.125`. -/
example : Frustrated 1.5 45 1 (1.5 ^ 2) := by
  have e : Real.sin (45 * Real.pi / 180) ^ 2 = 1 / 2 := by
    rw [show (45 * Real.pi / 180 : ℝ) = Real.pi / 4 by ring, Real.sin_pi_div_four, div_pow, Real.sq_sqrt (by norm_num)]
    norm_num
  exact ⟨by norm_num, by rw [abs_lt]; norm_num, by rw [mul_pow, e]; norm_num, by norm_num, by rw [mul_pow, e]; norm_num⟩

end PyElli
