import Verif.Props.Airy
import Verif.Props.BulkAngles
import Verif.Lemmas.Scatter
import Verif.Spec.Coating

/-! # C150: reflectance of a transparent film and its thickness -/

namespace PyElli

open Complex Spec

/-! ## Real algebra -/

section

variable {u v w : ℝ}

lemma film_den_pos (hu : 0 < u) (hv : 0 < v) (hw : 0 < w) (b : ℝ) :
    0 < v ^ 2 * (u + w) ^ 2 * Real.cos b ^ 2 + (u * w + v ^ 2) ^ 2 * Real.sin b ^ 2 := by
  have h := Real.cos_sq_add_sin_sq b
  rcases eq_or_ne (Real.sin b) 0 with h0 | h0
  · rw [h0] at h ⊢
    have : Real.cos b ^ 2 = 1 := by linarith
    rw [this]
    positivity
  · positivity

/-- The reflectance as a function of `sin² b`. -/
lemma film_eq (hu : 0 < u) (hv : 0 < v) (hw : 0 < w) (b : ℝ) :
    filmReflectance u v w b = 1 - 4 * u * w * v ^ 2 / (v ^ 2 * (u + w) ^ 2 + (v ^ 2 - u ^ 2) * (v ^ 2 - w ^ 2) * Real.sin b ^ 2) := by
  have hd := film_den_pos hu hv hw b
  have h := Real.cos_sq_add_sin_sq b
  have e : v ^ 2 * (u + w) ^ 2 + (v ^ 2 - u ^ 2) * (v ^ 2 - w ^ 2) * Real.sin b ^ 2 =
      v ^ 2 * (u + w) ^ 2 * Real.cos b ^ 2 + (u * w + v ^ 2) ^ 2 * Real.sin b ^ 2 := by
    linear_combination (-(v ^ 2 * (u + w) ^ 2)) * h
  rw [e, eq_sub_iff_add_eq, filmReflectance, ← add_div, div_eq_one_iff_eq hd.ne']
  linear_combination (-(4 * u * w * v ^ 2)) * h

lemma film_den_pos' (hu : 0 < u) (hv : 0 < v) (hw : 0 < w) (b : ℝ) :
    0 < v ^ 2 * (u + w) ^ 2 + (v ^ 2 - u ^ 2) * (v ^ 2 - w ^ 2) * Real.sin b ^ 2 := by
  have hd := film_den_pos hu hv hw b
  have h := Real.cos_sq_add_sin_sq b
  have e : v ^ 2 * (u + w) ^ 2 + (v ^ 2 - u ^ 2) * (v ^ 2 - w ^ 2) * Real.sin b ^ 2 =
      v ^ 2 * (u + w) ^ 2 * Real.cos b ^ 2 + (u * w + v ^ 2) ^ 2 * Real.sin b ^ 2 := by
    linear_combination (-(v ^ 2 * (u + w) ^ 2)) * h
  rw [e]; exact hd

/-- Comparison of two thicknesses. -/
lemma film_lt_iff (hu : 0 < u) (hv : 0 < v) (hw : 0 < w) (b b' : ℝ) : filmReflectance u v w b < filmReflectance u v w b' ↔
    (v ^ 2 - u ^ 2) * (v ^ 2 - w ^ 2) * Real.sin b ^ 2 < (v ^ 2 - u ^ 2) * (v ^ 2 - w ^ 2) * Real.sin b' ^ 2 := by
  have h1 := film_den_pos' hu hv hw b
  have h2 := film_den_pos' hu hv hw b'
  rw [film_eq hu hv hw, film_eq hu hv hw, sub_lt_sub_iff_left, div_lt_div_iff_of_pos_left (by positivity) h2 h1]
  exact add_lt_add_iff_left _

lemma film_le_iff (hu : 0 < u) (hv : 0 < v) (hw : 0 < w) (b b' : ℝ) : filmReflectance u v w b ≤ filmReflectance u v w b' ↔
    (v ^ 2 - u ^ 2) * (v ^ 2 - w ^ 2) * Real.sin b ^ 2 ≤ (v ^ 2 - u ^ 2) * (v ^ 2 - w ^ 2) * Real.sin b' ^ 2 := by
  rw [← not_lt, film_lt_iff hu hv hw, not_lt]

end

/-! ## The model's coefficients -/

lemma airy_norm {u v w : ℝ} (hu : 0 < u) (hv : 0 < v) (hw : 0 < w) (b : ℝ) :
    ‖airyR (((u - v) / (u + v) : ℝ) : ℂ) (((v - w) / (v + w) : ℝ) : ℂ) (b : ℂ)‖ ^ 2 = filmReflectance u v w b := by
  have hcs := Real.cos_sq_add_sin_sq b
  have hE : Complex.exp (2 * I * (b : ℂ)) = ((Real.cos b : ℂ) + I * Real.sin b) ^ 2 := by
    rw [show (2 * I * (b : ℂ)) = (b : ℂ) * I + (b : ℂ) * I by ring, Complex.exp_add, ← pow_two, Complex.exp_mul_I, ofReal_cos, ofReal_sin]
    ring
  unfold airyR
  rw [hE]
  set c := Real.cos b with hc
  set s := Real.sin b with hs
  have hcs' : (c : ℂ) ^ 2 + (s : ℂ) ^ 2 = 1 := by exact_mod_cast hcs
  set A : ℂ := ((v * (u - w) * c : ℝ) : ℂ) + ((v ^ 2 - u * w) * s : ℝ) * I with hA
  set B : ℂ := ((v * (u + w) * c : ℝ) : ℂ) + ((-(v ^ 2 + u * w)) * s : ℝ) * I with hB
  have huv : ((u : ℂ) + v) ≠ 0 := by exact_mod_cast (add_pos hu hv).ne'
  have hvw : ((v : ℂ) + w) ≠ 0 := by exact_mod_cast (add_pos hv hw).ne'
  have hz : (c : ℂ) + I * s ≠ 0 := by
    intro h0
    have h1 : ((c : ℂ) + I * s) * (c - I * s) = 1 := by
      linear_combination hcs' - (s : ℂ) ^ 2 * I_sq
    rw [h0, zero_mul] at h1
    exact zero_ne_one h1
  have nA : (((u - v) / (u + v) : ℝ) : ℂ) + (((v - w) / (v + w) : ℝ) : ℂ) * ((c : ℂ) + I * s) ^ 2 = 2 * (c + I * s) * A / ((u + v) * (v + w)) := by
    rw [eq_div_iff (mul_ne_zero huv hvw), hA]
    push_cast
    field_simp
    linear_combination (-((u : ℂ) - v) * (v + w)) * hcs' +
      ((v - w) * (u + v) * s ^ 2 - 2 * (v ^ 2 - u * w) * s ^ 2 : ℂ) * I_sq
  have nB : 1 + (((u - v) / (u + v) : ℝ) : ℂ) * (((v - w) / (v + w) : ℝ) : ℂ) * ((c : ℂ) + I * s) ^ 2 = 2 * (c + I * s) * B / ((u + v) * (v + w)) := by
    rw [eq_div_iff (mul_ne_zero huv hvw), hB]
    push_cast
    field_simp
    linear_combination (-((u : ℂ) + v) * (v + w)) * hcs' +
      ((u - v) * (v - w) * s ^ 2 + 2 * (v ^ 2 + u * w) * s ^ 2 : ℂ) * I_sq
  have h2 : (2 : ℂ) * (c + I * s) ≠ 0 := mul_ne_zero two_ne_zero hz
  rw [nA, nB, div_div_div_cancel_right₀ (mul_ne_zero huv hvw), mul_div_mul_left _ _ h2, norm_div, div_pow, filmReflectance]
  have n1 : ‖A‖ ^ 2 = v ^ 2 * (u - w) ^ 2 * c ^ 2 + (u * w - v ^ 2) ^ 2 * s ^ 2 := by
    rw [← normSq_eq_norm_sq, hA, normSq_add_mul_I]; ring
  have n2 : ‖B‖ ^ 2 = v ^ 2 * (u + w) ^ 2 * c ^ 2 + (u * w + v ^ 2) ^ 2 * s ^ 2 := by
    rw [← normSq_eq_norm_sq, hB, normSq_add_mul_I]; ring
  rw [n1, n2]

/-- A film of permittivity `e1` and thickness `d` on a substrate of permittivity `eb`, seen from a medium of index `n0`. -/
noncomputable def coated (n0 d e1 eb : ℝ) : Stack := ⟨isoTensor ((n0 ^ 2 : ℝ) : ℂ), [(d, isoTensor (e1 : ℂ))], isoTensor (eb : ℂ), true⟩

/-- Film and substrate carry propagating waves at this angle. -/
structure Transparent (n0 theta e1 eb : ℝ) : Prop where
  index : 0 < n0
  angle : |theta| < 90
  film : (n0 * Real.sin (theta * Real.pi / 180)) ^ 2 < e1
  back : (n0 * Real.sin (theta * Real.pi / 180)) ^ 2 < eb

lemma Transparent.front_lt {n0 theta e1 eb : ℝ} (h : Transparent n0 theta e1 eb) : (n0 * Real.sin (theta * Real.pi / 180)) ^ 2 < n0 ^ 2 := by
  have hc : 0 < Real.cos (deg2rad theta) := cos_pos_of_angle h.angle
  have hc' : 0 < Real.cos (theta * Real.pi / 180) := by rwa [deg2rad_eq] at hc
  have := Real.cos_sq_add_sin_sq (theta * Real.pi / 180)
  have hn := h.index
  have : 0 < n0 ^ 2 * Real.cos (theta * Real.pi / 180) ^ 2 := by positivity
  rw [mul_pow]
  nlinarith

lemma normal_pos {n0 theta e : ℝ} (h : (n0 * Real.sin (theta * Real.pi / 180)) ^ 2 < e) : 0 < normalComponent n0 theta e := Real.sqrt_pos.2 (by linarith)

lemma admittance_pos (σ : Polarisation) {n0 theta e : ℝ} (h : (n0 * Real.sin (theta * Real.pi / 180)) ^ 2 < e) : 0 < σ.admittance n0 theta e := by
  cases σ with
  | s => exact normal_pos h
  | p => exact div_pos (lt_of_le_of_lt (sq_nonneg _) h) (normal_pos h)

lemma normal_csqrt {n0 theta e : ℝ} (h : (n0 * Real.sin (theta * Real.pi / 180)) ^ 2 < e) :
    Complex.sqrt ((e : ℂ) - ((n0 * Real.sin (deg2rad theta) : ℝ) : ℂ) ^ 2) = (normalComponent n0 theta e : ℂ) := by
  rw [deg2rad_eq, ← ofReal_pow, ← ofReal_sub, csqrt_ofReal]
  · rfl
  · linarith

lemma normal_front {n0 theta : ℝ} (hn : 0 < n0) (hth : |theta| < 90) : normalComponent n0 theta (n0 ^ 2) = n0 * Real.cos (deg2rad theta) := by
  have hc : 0 < Real.cos (deg2rad theta) := cos_pos_of_angle hth
  have h1 := Real.cos_sq_add_sin_sq (deg2rad theta)
  unfold normalComponent
  have e : n0 ^ 2 - (n0 * Real.sin (theta * Real.pi / 180)) ^ 2 = (n0 * Real.cos (deg2rad theta)) ^ 2 := by
    rw [← deg2rad_eq]
    linear_combination (-n0 ^ 2) * h1
  rw [e, Real.sqrt_sq (by positivity)]

lemma airyR_neg (r r' b : ℂ) : airyR (-r) (-r') b = -airyR r r' b := by
  unfold airyR
  rw [neg_mul_neg, neg_mul, ← neg_add, neg_div]

lemma coated_passive {n0 theta lbda d e1 eb : ℝ} (hn : 0 < n0) (hth : |theta| < 90) (hl : 0 < lbda) (hd : 0 ≤ d) (he1 : e1 ≠ 0) (heb : eb ≠ 0) :
    PassiveStack (coated n0 d e1 eb) theta lbda :=
    { front := ⟨n0, hn, by simp [coated, isoTensor]⟩
      angle := hth
      lbda_pos := hl
      layers := by
        intro l hl
        simp only [coated, List.mem_singleton] at hl
        subst hl
        exact ⟨hd, by simpa [isoTensor] using he1, passive_isoTensor (by simp)⟩
      back_ne := by simpa [coated, isoTensor] using heb
      back_passive := by simp [coated, isoTensor]
      iso := rfl }

lemma coated_iso (n0 d e1 eb : ℝ) : IsoLayers (coated n0 d e1 eb).layers := by
    intro l hl
    simp only [coated, List.mem_singleton] at hl
    subst hl
    ext i j
    simp [isoTensor]

/-- A real film on a real substrate loses no light. -/
lemma coated_energy (σ : Polarisation) {n0 theta lbda d e1 eb : ℝ} (hn : 0 < n0) (hth : |theta| < 90) (hl : 0 < lbda) (hd : 0 ≤ d) (he1 : e1 ≠ 0) (heb : eb ≠ 0)
    (ee) (a : ℂ) : (measured (coated n0 d e1 eb) theta lbda ee a).RMatrix σ.index σ.index + (measured (coated n0 d e1 eb) theta lbda ee a).TMatrix σ.index σ.index = 1 := by
  have hpass := coated_passive hn hth hl hd he1 heb
  have hiso := coated_iso n0 d e1 eb
  have hE := C35_energy_conservation (coated n0 d e1 eb) theta lbda hpass (by
    intro l hl
    simp only [coated, List.mem_singleton] at hl
    subst hl
    exact lossless_isoTensor (by simp)) (by simp [coated, isoTensor]) ee ![a, a]
  simp only at hE
  have hx := fun i j hij => C38_no_cross_polarisation (coated n0 d e1 eb) theta lbda ee hiso rfl i j hij
  have hRx : ∀ i j : Fin 2, i ≠ j → (measured (coated n0 d e1 eb) theta lbda ee a).RMatrix i j = 0 := by
    intro i j hij
    show ‖(calculate4x4 propExpm (coated n0 d e1 eb) theta lbda ee).jr i j‖ ^ 2 = 0
    rw [(hx i j hij).1]; simp
  have hTx : ∀ i j : Fin 2, i ≠ j → (measured (coated n0 d e1 eb) theta lbda ee a).TMatrix i j = 0 := by
    intro i j hij
    have : (measured (coated n0 d e1 eb) theta lbda ee a).jt i j = 0 := (hx i j hij).2
    unfold Result.TMatrix
    rw [this]; simp
  have hE' : ∀ j, (measured (coated n0 d e1 eb) theta lbda ee a).RMatrix 0 j + (measured (coated n0 d e1 eb) theta lbda ee a).RMatrix 1 j +
      ((measured (coated n0 d e1 eb) theta lbda ee a).TMatrix 0 j + (measured (coated n0 d e1 eb) theta lbda ee a).TMatrix 1 j) = 1 := hE
  cases σ with
  | s =>
    have := hE' 1
    rw [hRx 0 1 (by decide), hTx 0 1 (by decide), zero_add, zero_add] at this
    exact this
  | p =>
    have := hE' 0
    rw [hRx 1 0 (by decide), hTx 1 0 (by decide), add_zero, add_zero] at this
    exact this

/-- **C150.** The reflectance and the transmittance of a transparent film on a transparent substrate. -/
theorem C150_formula {n0 theta e1 eb : ℝ} (h : Transparent n0 theta e1 eb) (σ : Polarisation) {d lbda : ℝ} (hd : 0 ≤ d) (hl : 0 < lbda) (ee) (a : ℂ) :
    let R := filmReflectance (σ.admittance n0 theta (n0 ^ 2)) (σ.admittance n0 theta e1) (σ.admittance n0 theta eb)
      (2 * Real.pi * normalComponent n0 theta e1 * d / lbda)
    (measured (coated n0 d e1 eb) theta lbda ee a).RMatrix σ.index σ.index = R ∧
      (measured (coated n0 d e1 eb) theta lbda ee a).TMatrix σ.index σ.index = 1 - R := by
  intro R
  have hn := h.index
  have he1 : 0 < e1 := lt_of_le_of_lt (sq_nonneg _) h.film
  have heb : 0 < eb := lt_of_le_of_lt (sq_nonneg _) h.back
  have hq1 := normal_pos h.film
  have hqb := normal_pos h.back
  have hq0 := normal_pos h.front_lt
  have key := C94_airy n0 theta lbda d (e1 : ℂ) (eb : ℂ) ee hn h.angle hl hd (by exact_mod_cast he1.ne') (by simp) (by exact_mod_cast heb.ne') (by simp)
  simp only at key
  rw [normal_csqrt h.film, normal_csqrt h.back, ← ofReal_mul, ← normal_front hn h.angle] at key
  set q0 := normalComponent n0 theta (n0 ^ 2) with hq0d
  set q1 := normalComponent n0 theta e1 with hq1d
  set qb := normalComponent n0 theta eb with hqbd
  have hb : (2 * (Real.pi : ℂ) * (q1 : ℂ) * (d : ℂ) / (lbda : ℂ)) = ((2 * Real.pi * q1 * d / lbda : ℝ) : ℂ) := by push_cast; ring
  rw [hb] at key
  set β := 2 * Real.pi * q1 * d / lbda with hβ
  obtain ⟨⟨ks, -, -⟩, kp⟩ := key (by exact_mod_cast hq1.ne')
  obtain ⟨kp, -, -⟩ := kp (by
    have : (0 : ℝ) < eb * q1 + e1 * qb := by positivity
    have h2 := this.ne'
    intro h0
    apply h2
    exact_mod_cast h0)
  have hR : (measured (coated n0 d e1 eb) theta lbda ee a).RMatrix σ.index σ.index = R := by
    cases σ with
    | s =>
      show ‖(calculate4x4 propExpm (coated n0 d e1 eb) theta lbda ee).jr 1 1‖ ^ 2 = _
      have : (calculate4x4 propExpm (coated n0 d e1 eb) theta lbda ee).jr 1 1 = _ := ks
      rw [this]
      have e1' : rS (q0 : ℂ) (q1 : ℂ) = (((q0 - q1) / (q0 + q1) : ℝ) : ℂ) := by unfold rS; push_cast; rfl
      have e2' : rS (q1 : ℂ) (qb : ℂ) = (((q1 - qb) / (q1 + qb) : ℝ) : ℂ) := by unfold rS; push_cast; rfl
      rw [e1', e2']
      exact airy_norm hq0 hq1 hqb β
    | p =>
      show ‖(calculate4x4 propExpm (coated n0 d e1 eb) theta lbda ee).jr 0 0‖ ^ 2 = _
      have : (calculate4x4 propExpm (coated n0 d e1 eb) theta lbda ee).jr 0 0 = _ := kp
      rw [this]
      have hn2 : (0 : ℝ) < n0 ^ 2 := by positivity
      have conv : ∀ x y qx qy : ℝ, 0 < x → 0 < y → 0 < qx → 0 < qy → rP (x : ℂ) (qx : ℂ) (y : ℂ) (qy : ℂ) = -(((x / qx - y / qy) / (x / qx + y / qy) : ℝ) : ℂ) := by
        intro x y qx qy hx hy hqx hqy
        have h0 : y * qx + x * qy ≠ 0 := by positivity
        have h3 : x / qx + y / qy ≠ 0 := by positivity
        have : (y * qx - x * qy) / (y * qx + x * qy) = -((x / qx - y / qy) / (x / qx + y / qy)) := by
          rw [← neg_div, div_eq_div_iff h0 h3]
          field_simp
          ring
        unfold rP
        rw [← ofReal_neg, ← this]
        push_cast
        rfl
      have e1' := conv (n0 ^ 2) e1 q0 q1 hn2 he1 hq0 hq1
      have e2' := conv e1 eb q1 qb he1 heb hq1 hqb
      rw [← ofReal_pow, e1', e2', airyR_neg, norm_neg]
      exact airy_norm (div_pos hn2 hq0) (div_pos he1 hq1) (div_pos heb hqb) β
  exact ⟨hR, by have := coated_energy σ hn h.angle hl hd he1.ne' heb.ne' ee a; linarith⟩

/-! ## What the thickness does -/

/-- Reflectance of the film for one polarisation, as the result object gives it. -/
noncomputable def coatedR (σ : Polarisation) (n0 theta e1 eb lbda : ℝ) (ee : (Fin 4 → ℂ) × Mat4) (a : ℂ) (d : ℝ) : ℝ :=
  (measured (coated n0 d e1 eb) theta lbda ee a).RMatrix σ.index σ.index

/-- Reflectance of the substrate alone. -/
noncomputable def bareR (σ : Polarisation) (n0 theta eb lbda : ℝ) (ee : (Fin 4 → ℂ) × Mat4) (a : ℂ) : ℝ :=
  (measured ⟨isoTensor ((n0 ^ 2 : ℝ) : ℂ), [], isoTensor (eb : ℂ), true⟩ theta lbda ee a).RMatrix σ.index σ.index

lemma coated_zero (σ : Polarisation) (n0 theta e1 eb lbda : ℝ) (ee) (a : ℂ) : coatedR σ n0 theta e1 eb lbda ee a 0 = bareR σ n0 theta eb lbda ee a := by
  have h := C33_zero_thickness_4x4 (coated n0 0 e1 eb) [] [] (isoTensor (e1 : ℂ)) theta lbda ee
  unfold coatedR bareR measured
  have h1 : (coated n0 0 e1 eb).withLayers ([] ++ (0, isoTensor (e1 : ℂ)) :: []) = coated n0 0 e1 eb := rfl
  have h2 : (coated n0 0 e1 eb).withLayers ([] ++ []) = ⟨isoTensor ((n0 ^ 2 : ℝ) : ℂ), [], isoTensor (eb : ℂ), true⟩ := rfl
  rw [h1, h2] at h
  rw [h]

section

variable {n0 theta e1 eb : ℝ} (h : Transparent n0 theta e1 eb) (σ : Polarisation) {lbda : ℝ} (hl : 0 < lbda) (ee : (Fin 4 → ℂ) × Mat4) (a : ℂ)

include h

lemma coatedR_eq (hl : 0 < lbda) {d : ℝ} (hd : 0 ≤ d) : coatedR σ n0 theta e1 eb lbda ee a d =
    filmReflectance (σ.admittance n0 theta (n0 ^ 2)) (σ.admittance n0 theta e1) (σ.admittance n0 theta eb)
      (2 * Real.pi * normalComponent n0 theta e1 * d / lbda) := (C150_formula h σ hd hl ee a).1

lemma sin_phase_zero (hl : 0 < lbda) {d : ℝ} (hd : 0 ≤ d) :
    Real.sin (2 * Real.pi * normalComponent n0 theta e1 * d / lbda) = 0 ↔ ∃ m : ℕ, d = m * (lbda / (2 * normalComponent n0 theta e1)) := by
  have hq := normal_pos h.film
  rw [Real.sin_eq_zero_iff]
  constructor
  · rintro ⟨n, hn⟩
    have e : (n : ℝ) = 2 * normalComponent n0 theta e1 * d / lbda := by
      have : (n : ℝ) * Real.pi = (2 * normalComponent n0 theta e1 * d / lbda) * Real.pi := by rw [hn]; ring
      exact mul_right_cancel₀ Real.pi_ne_zero this
    have h0 : 0 ≤ n := by
      have : (0 : ℝ) ≤ n := by rw [e]; positivity
      exact_mod_cast this
    lift n to ℕ using h0
    refine ⟨n, ?_⟩
    rw [Int.cast_natCast] at e
    rw [e]
    field_simp
  · rintro ⟨m, rfl⟩
    refine ⟨m, ?_⟩
    rw [Int.cast_natCast]
    field_simp

lemma cos_phase_zero (hl : 0 < lbda) {d : ℝ} (hd : 0 ≤ d) :
    Real.cos (2 * Real.pi * normalComponent n0 theta e1 * d / lbda) = 0 ↔ ∃ m : ℕ, d = (2 * m + 1) * (lbda / (4 * normalComponent n0 theta e1)) := by
  have hq := normal_pos h.film
  rw [Real.cos_eq_zero_iff]
  constructor
  · rintro ⟨n, hn⟩
    have e : (2 * n + 1 : ℝ) = 4 * normalComponent n0 theta e1 * d / lbda := by
      have : (2 * n + 1 : ℝ) * Real.pi = (4 * normalComponent n0 theta e1 * d / lbda) * Real.pi := by linear_combination (-2) * hn
      exact mul_right_cancel₀ Real.pi_ne_zero this
    have h0 : 0 ≤ n := by
      have h1 : (0 : ℝ) ≤ 2 * n + 1 := by rw [e]; positivity
      have h2 : (0 : ℤ) ≤ 2 * n + 1 := by exact_mod_cast h1
      omega
    lift n to ℕ using h0
    refine ⟨n, ?_⟩
    rw [Int.cast_natCast] at e
    rw [e]
    field_simp
  · rintro ⟨m, rfl⟩
    refine ⟨m, ?_⟩
    rw [Int.cast_natCast]
    field_simp
    ring

/-- **C150.** A film changes the reflectance of the substrate exactly if its thickness is no multiple of half a wavelength, and lowers it exactly if its admittance lies
between those of its neighbours. -/
theorem C150_effect (hl : 0 < lbda) {d : ℝ} (hd : 0 ≤ d) :
    let u := σ.admittance n0 theta (n0 ^ 2)
    let v := σ.admittance n0 theta e1
    let w := σ.admittance n0 theta eb
    let half := lbda / (2 * normalComponent n0 theta e1)
    (coatedR σ n0 theta e1 eb lbda ee a d < bareR σ n0 theta eb lbda ee a ↔ (v - u) * (v - w) < 0 ∧ ∀ m : ℕ, d ≠ m * half) ∧
      (bareR σ n0 theta eb lbda ee a < coatedR σ n0 theta e1 eb lbda ee a d ↔ 0 < (v - u) * (v - w) ∧ ∀ m : ℕ, d ≠ m * half) := by
  intro u v w half
  have hu : 0 < u := admittance_pos σ h.front_lt
  have hv : 0 < v := admittance_pos σ h.film
  have hw : 0 < w := admittance_pos σ h.back
  have hs := sin_phase_zero h hl hd
  rw [← coated_zero σ n0 theta e1 eb lbda ee a, coatedR_eq h σ ee a hl hd, coatedR_eq h σ ee a hl le_rfl, film_lt_iff hu hv hw, film_lt_iff hu hv hw]
  have hall : (∀ m : ℕ, d ≠ m * half) ↔ Real.sin (2 * Real.pi * normalComponent n0 theta e1 * d / lbda) ≠ 0 := by
    rw [Ne, hs, not_exists]
  rw [hall]
  generalize Real.sin (2 * Real.pi * normalComponent n0 theta e1 * d / lbda) = x
  have e0 : Real.sin (2 * Real.pi * normalComponent n0 theta e1 * 0 / lbda) = 0 := by simp
  rw [e0]
  have hf : (v ^ 2 - u ^ 2) * (v ^ 2 - w ^ 2) = (v - u) * (v - w) * ((v + u) * (v + w)) := by ring
  have hp : 0 < (v + u) * (v + w) := by positivity
  rw [hf]
  generalize (v - u) * (v - w) = y
  generalize (v + u) * (v + w) = z at hp
  simp only [ne_eq, OfNat.ofNat_ne_zero, not_false_eq_true, zero_pow, mul_zero]
  by_cases hx : x = 0
  · simp [hx]
  · have hx2 : 0 < x ^ 2 := by positivity
    have hzx : 0 < z * x ^ 2 := by positivity
    have hneg : y * (z * x ^ 2) < 0 ↔ y < 0 := ⟨fun hy => neg_of_mul_neg_left hy hzx.le, fun hy => mul_neg_of_neg_of_pos hy hzx⟩
    rw [mul_assoc, hneg, mul_pos_iff_of_pos_right hzx]
    simp [hx]

/-- **C150.** The reflectance always lies between that of the bare substrate and that of the quarter-wave film. -/
theorem C150_range (hl : 0 < lbda) {d : ℝ} (hd : 0 ≤ d) :
    let u := σ.admittance n0 theta (n0 ^ 2)
    let v := σ.admittance n0 theta e1
    let w := σ.admittance n0 theta eb
    bareR σ n0 theta eb lbda ee a = ((u - w) / (u + w)) ^ 2 ∧
      coatedR σ n0 theta e1 eb lbda ee a (lbda / (4 * normalComponent n0 theta e1)) = ((u * w - v ^ 2) / (u * w + v ^ 2)) ^ 2 ∧
      coatedR σ n0 theta e1 eb lbda ee a d ∈ Set.uIcc (((u - w) / (u + w)) ^ 2) (((u * w - v ^ 2) / (u * w + v ^ 2)) ^ 2) := by
  intro u v w
  have hu : 0 < u := admittance_pos σ h.front_lt
  have hv : 0 < v := admittance_pos σ h.film
  have hw : 0 < w := admittance_pos σ h.back
  have hq := normal_pos h.film
  have hd4 : 0 ≤ lbda / (4 * normalComponent n0 theta e1) := by positivity
  have hph : 2 * Real.pi * normalComponent n0 theta e1 * (lbda / (4 * normalComponent n0 theta e1)) / lbda = Real.pi / 2 := by
    field_simp
    ring
  have h0 : bareR σ n0 theta eb lbda ee a = filmReflectance u v w 0 := by
    rw [← coated_zero σ n0 theta e1 eb lbda ee a, coatedR_eq h σ ee a hl le_rfl]
    simp [u, v, w]
  have h1 : filmReflectance u v w 0 = ((u - w) / (u + w)) ^ 2 := by
    unfold filmReflectance
    simp only [Real.cos_zero, Real.sin_zero]
    field_simp
    ring
  have h2 : filmReflectance u v w (Real.pi / 2) = ((u * w - v ^ 2) / (u * w + v ^ 2)) ^ 2 := by
    unfold filmReflectance
    simp only [Real.cos_pi_div_two, Real.sin_pi_div_two]
    field_simp
    ring
  refine ⟨h0.trans h1, ?_, ?_⟩
  · rw [coatedR_eq h σ ee a hl hd4, hph]
    exact h2
  · rw [← h1, ← h2, coatedR_eq h σ ee a hl hd]
    have e0 := Real.sin_zero
    have e1' := Real.sin_pi_div_two
    have hs0 := sq_nonneg (Real.sin (2 * Real.pi * normalComponent n0 theta e1 * d / lbda))
    have hs1 := Real.sin_sq_le_one (2 * Real.pi * normalComponent n0 theta e1 * d / lbda)
    rcases le_total 0 ((v ^ 2 - u ^ 2) * (v ^ 2 - w ^ 2)) with hy | hy
    · apply Set.mem_uIcc_of_le
      · rw [film_le_iff hu hv hw, e0]
        nlinarith [mul_nonneg hy hs0]
      · rw [film_le_iff hu hv hw, e1']
        nlinarith [mul_nonneg hy (sub_nonneg.2 hs1)]
    · apply Set.mem_uIcc_of_ge
      · rw [film_le_iff hu hv hw, e1']
        nlinarith [mul_nonneg (neg_nonneg.2 hy) (sub_nonneg.2 hs1)]
      · rw [film_le_iff hu hv hw, e0]
        nlinarith [mul_nonneg (neg_nonneg.2 hy) hs0]

/-- **C150.** Up to a quarter wave the reflectance is strictly monotone in the thickness. -/
theorem C150_monotone (hl : 0 < lbda) {d d' : ℝ} (hd : 0 ≤ d) (hdd : d < d') (hq4 : d' ≤ lbda / (4 * normalComponent n0 theta e1)) :
    let u := σ.admittance n0 theta (n0 ^ 2)
    let v := σ.admittance n0 theta e1
    let w := σ.admittance n0 theta eb
    ((v - u) * (v - w) < 0 → coatedR σ n0 theta e1 eb lbda ee a d' < coatedR σ n0 theta e1 eb lbda ee a d) ∧
      (0 < (v - u) * (v - w) → coatedR σ n0 theta e1 eb lbda ee a d < coatedR σ n0 theta e1 eb lbda ee a d') := by
  intro u v w
  have hu : 0 < u := admittance_pos σ h.front_lt
  have hv : 0 < v := admittance_pos σ h.film
  have hw : 0 < w := admittance_pos σ h.back
  have hq := normal_pos h.film
  rw [coatedR_eq h σ ee a hl hd, coatedR_eq h σ ee a hl (hd.trans hdd.le), film_lt_iff hu hv hw, film_lt_iff hu hv hw]
  have hf : (v ^ 2 - u ^ 2) * (v ^ 2 - w ^ 2) = (v - u) * (v - w) * ((v + u) * (v + w)) := by ring
  have hp : 0 < (v + u) * (v + w) := by positivity
  have hsin : Real.sin (2 * Real.pi * normalComponent n0 theta e1 * d / lbda) ^ 2 < Real.sin (2 * Real.pi * normalComponent n0 theta e1 * d' / lbda) ^ 2 := by
    have hpi := Real.pi_pos
    have b0 : 0 ≤ 2 * Real.pi * normalComponent n0 theta e1 * d / lbda := by positivity
    have b1 : 2 * Real.pi * normalComponent n0 theta e1 * d / lbda < 2 * Real.pi * normalComponent n0 theta e1 * d' / lbda := by
      apply div_lt_div_of_pos_right _ hl
      apply mul_lt_mul_of_pos_left hdd
      positivity
    have b2 : 2 * Real.pi * normalComponent n0 theta e1 * d' / lbda ≤ Real.pi / 2 := by
      rw [le_div_iff₀ (by positivity)] at hq4
      rw [div_le_div_iff₀ hl two_pos]
      nlinarith
    apply pow_lt_pow_left₀ _ _ two_ne_zero
    · exact Real.sin_lt_sin_of_lt_of_le_pi_div_two (by linarith) b2 b1
    · exact Real.sin_nonneg_of_nonneg_of_le_pi b0 (by linarith)
  rw [hf]
  constructor
  · intro hy
    exact mul_lt_mul_of_neg_left hsin (mul_neg_of_neg_of_pos hy hp)
  · intro hy
    exact mul_lt_mul_of_pos_left hsin (mul_pos hy hp)

/-- **C150.** Which thicknesses the reflectance cannot tell apart. -/
theorem C150_thickness (hl : 0 < lbda) {d d' : ℝ} (hd : 0 ≤ d) (hd' : 0 ≤ d') (hvu : σ.admittance n0 theta e1 ≠ σ.admittance n0 theta (n0 ^ 2))
    (hvw : σ.admittance n0 theta e1 ≠ σ.admittance n0 theta eb) :
    coatedR σ n0 theta e1 eb lbda ee a d = coatedR σ n0 theta e1 eb lbda ee a d' ↔
      ∃ m : ℤ, d' = m * (lbda / (2 * normalComponent n0 theta e1)) + d ∨ d' = m * (lbda / (2 * normalComponent n0 theta e1)) - d := by
  have hu : 0 < σ.admittance n0 theta (n0 ^ 2) := admittance_pos σ h.front_lt
  have hv : 0 < σ.admittance n0 theta e1 := admittance_pos σ h.film
  have hw : 0 < σ.admittance n0 theta eb := admittance_pos σ h.back
  have hq := normal_pos h.film
  rw [coatedR_eq h σ ee a hl hd, coatedR_eq h σ ee a hl hd', le_antisymm_iff, film_le_iff hu hv hw, film_le_iff hu hv hw, ← le_antisymm_iff]
  have hne : ((σ.admittance n0 theta e1) ^ 2 - (σ.admittance n0 theta (n0 ^ 2)) ^ 2) * ((σ.admittance n0 theta e1) ^ 2 - (σ.admittance n0 theta eb) ^ 2) ≠ 0 := by
    apply mul_ne_zero
    · rw [sub_ne_zero]
      intro hx
      exact hvu ((sq_eq_sq₀ hv.le hu.le).1 hx)
    · rw [sub_ne_zero]
      intro hx
      exact hvw ((sq_eq_sq₀ hv.le hw.le).1 hx)
  rw [mul_right_inj' hne]
  have hcos : ∀ x y : ℝ, Real.sin x ^ 2 = Real.sin y ^ 2 ↔ Real.cos (2 * x) = Real.cos (2 * y) := by
    intro x y
    rw [Real.sin_sq_eq_half_sub, Real.sin_sq_eq_half_sub]
    constructor <;> intro hx <;> linarith
  rw [hcos, Real.cos_eq_cos_iff]
  have hpi := Real.pi_ne_zero
  apply exists_congr
  intro m
  apply or_congr
  · constructor
    · intro hx
      have : Real.pi * d' = Real.pi * (m * (lbda / (2 * normalComponent n0 theta e1)) + d) := by
        field_simp at hx ⊢
        linarith
      exact mul_left_cancel₀ hpi this
    · rintro rfl
      field_simp
      try ring
  · constructor
    · intro hx
      have : Real.pi * d' = Real.pi * (m * (lbda / (2 * normalComponent n0 theta e1)) - d) := by
        field_simp at hx ⊢
        linarith
      exact mul_left_cancel₀ hpi this
    · rintro rfl
      field_simp
      try ring

/-- **C150.** When nothing is reflected. -/
theorem C150_zero (hl : 0 < lbda) {d : ℝ} (hd : 0 ≤ d) :
    let u := σ.admittance n0 theta (n0 ^ 2)
    let v := σ.admittance n0 theta e1
    let w := σ.admittance n0 theta eb
    let q := normalComponent n0 theta e1
    coatedR σ n0 theta e1 eb lbda ee a d = 0 ↔
      (v ^ 2 = u * w ∧ ∃ m : ℕ, d = (2 * m + 1) * (lbda / (4 * q))) ∨ (u = w ∧ (v = u ∨ ∃ m : ℕ, d = m * (lbda / (2 * q)))) := by
  intro u v w q
  have hu : 0 < u := admittance_pos σ h.front_lt
  have hv : 0 < v := admittance_pos σ h.film
  have hw : 0 < w := admittance_pos σ h.back
  have hden := film_den_pos hu hv hw (2 * Real.pi * q * d / lbda)
  have hcs := Real.cos_sq_add_sin_sq (2 * Real.pi * q * d / lbda)
  rw [coatedR_eq h σ ee a hl hd, filmReflectance, div_eq_zero_iff, or_iff_left hden.ne', ← cos_phase_zero h hl hd, ← sin_phase_zero h hl hd]
  show v ^ 2 * (u - w) ^ 2 * Real.cos (2 * Real.pi * q * d / lbda) ^ 2 + (u * w - v ^ 2) ^ 2 * Real.sin (2 * Real.pi * q * d / lbda) ^ 2 = 0 ↔
    (v ^ 2 = u * w ∧ Real.cos (2 * Real.pi * q * d / lbda) = 0) ∨ (u = w ∧ (v = u ∨ Real.sin (2 * Real.pi * q * d / lbda) = 0))
  generalize Real.cos (2 * Real.pi * q * d / lbda) = c at *
  generalize Real.sin (2 * Real.pi * q * d / lbda) = s at *
  rw [add_eq_zero_iff_of_nonneg (by positivity) (by positivity)]
  constructor
  · rintro ⟨h1, h2⟩
    have h1' : u = w ∨ c = 0 := by
      rcases mul_eq_zero.1 h1 with h1 | h1
      · rcases mul_eq_zero.1 h1 with h1 | h1
        · exact absurd h1 (by positivity)
        · exact Or.inl (sub_eq_zero.1 (pow_eq_zero_iff two_ne_zero |>.1 h1))
      · exact Or.inr (pow_eq_zero_iff two_ne_zero |>.1 h1)
    have h2' : v ^ 2 = u * w ∨ s = 0 := by
      rcases mul_eq_zero.1 h2 with h2 | h2
      · exact Or.inl (sub_eq_zero.1 (pow_eq_zero_iff two_ne_zero |>.1 h2)).symm
      · exact Or.inr (pow_eq_zero_iff two_ne_zero |>.1 h2)
    rcases h1' with h1' | h1' <;> rcases h2' with h2' | h2'
    · refine Or.inr ⟨h1', Or.inl ?_⟩
      rw [← h1', ← pow_two] at h2'
      exact (sq_eq_sq₀ hv.le hu.le).1 h2'
    · exact Or.inr ⟨h1', Or.inr h2'⟩
    · exact Or.inl ⟨h2', h1'⟩
    · rw [h1', h2'] at hcs
      norm_num at hcs
  · rintro (⟨h1, h2⟩ | ⟨h1, h2 | h2⟩)
    · rw [h1, h2]; constructor <;> ring
    · rw [← h1, h2]; constructor <;> ring
    · rw [← h1, h2]; constructor <;> ring

/-- The film has no effect exactly at whole numbers of half waves. -/
lemma coated_eq_bare (hl : 0 < lbda) {d : ℝ} (hd : 0 ≤ d) (hvu : σ.admittance n0 theta e1 ≠ σ.admittance n0 theta (n0 ^ 2))
    (hvw : σ.admittance n0 theta e1 ≠ σ.admittance n0 theta eb) :
    coatedR σ n0 theta e1 eb lbda ee a d = bareR σ n0 theta eb lbda ee a ↔ ∃ m : ℕ, d = m * (lbda / (2 * normalComponent n0 theta e1)) := by
  obtain ⟨h1, h2⟩ := C150_effect h σ ee a hl hd
  have hne : (σ.admittance n0 theta e1 - σ.admittance n0 theta (n0 ^ 2)) * (σ.admittance n0 theta e1 - σ.admittance n0 theta eb) ≠ 0 :=
    mul_ne_zero (sub_ne_zero.2 hvu) (sub_ne_zero.2 hvw)
  constructor
  · intro he
    by_contra hc
    have hc' : ∀ m : ℕ, d ≠ m * (lbda / (2 * normalComponent n0 theta e1)) := fun m hm => hc ⟨m, hm⟩
    rcases lt_or_gt_of_ne hne with h0 | h0
    · exact absurd he (h1.2 ⟨h0, hc'⟩).ne
    · exact absurd he (h2.2 ⟨h0, hc'⟩).ne'
  · rintro ⟨m, hm⟩
    rcases lt_trichotomy (coatedR σ n0 theta e1 eb lbda ee a d) (bareR σ n0 theta eb lbda ee a) with hx | hx | hx
    · exact absurd hm ((h1.1 hx).2 m)
    · exact hx
    · exact absurd hm ((h2.1 hx).2 m)

/-- **C150.** Interference fringes: two neighbouring wavelengths at which the film (of constant index) has no effect give its thickness. -/
theorem C150_fringes {l1 l2 d : ℝ} (hd : 0 < d) (hl2 : 0 < l2) (hlt : l2 < l1) (hvu : σ.admittance n0 theta e1 ≠ σ.admittance n0 theta (n0 ^ 2))
    (hvw : σ.admittance n0 theta e1 ≠ σ.admittance n0 theta eb) (h1 : coatedR σ n0 theta e1 eb l1 ee a d = bareR σ n0 theta eb l1 ee a)
    (h2 : coatedR σ n0 theta e1 eb l2 ee a d = bareR σ n0 theta eb l2 ee a)
    (hbetween : ∀ l, l2 < l → l < l1 → coatedR σ n0 theta e1 eb l ee a d ≠ bareR σ n0 theta eb l ee a) :
    d = l1 * l2 / (2 * normalComponent n0 theta e1 * (l1 - l2)) := by
  have hq := normal_pos h.film
  have hl1 : 0 < l1 := hl2.trans hlt
  obtain ⟨m, hm⟩ := (coated_eq_bare h σ ee a hl1 hd.le hvu hvw).1 h1
  obtain ⟨n, hn⟩ := (coated_eq_bare h σ ee a hl2 hd.le hvu hvw).1 h2
  set q := normalComponent n0 theta e1 with hqd
  have em : 2 * q * d = m * l1 := by rw [hm]; field_simp
  have en : 2 * q * d = n * l2 := by rw [hn]; field_simp
  have hqd0 : 0 < 2 * q * d := by positivity
  have hm0 : (0 : ℝ) < m := by
    rcases Nat.eq_zero_or_pos m with h0 | h0
    · rw [h0, Nat.cast_zero, zero_mul] at em; linarith
    · exact_mod_cast h0
  have hmn : m < n := by
    by_contra hc
    have : (n : ℝ) ≤ m := by exact_mod_cast not_lt.1 hc
    nlinarith
  have hn1 : n = m + 1 := by
    by_contra hc
    have h3 : m + 2 ≤ n := by omega
    have h3' : (m : ℝ) + 2 ≤ n := by exact_mod_cast h3
    have hm1 : (0 : ℝ) < m + 1 := by positivity
    refine hbetween (2 * q * d / (m + 1)) ?_ ?_ ?_
    · rw [lt_div_iff₀ hm1, en]
      nlinarith
    · rw [div_lt_iff₀ hm1, em]
      nlinarith
    · refine (coated_eq_bare h σ ee a (by positivity) hd.le hvu hvw).2 ⟨m + 1, ?_⟩
      push_cast
      rw [← hqd, div_div, mul_div_assoc']
      rw [eq_div_iff (by positivity)]
      ring
  rw [hn1] at en
  push_cast at en
  have hdl : 0 < l1 - l2 := by linarith
  rw [eq_div_iff (by positivity)]
  have e1 : (m : ℝ) * (l1 - l2) = l2 := by linarith
  calc d * (2 * q * (l1 - l2)) = 2 * q * d * (l1 - l2) := by ring
    _ = m * l1 * (l1 - l2) := by rw [em]
    _ = l1 * ((m : ℝ) * (l1 - l2)) := by ring
    _ = l1 * l2 := by rw [e1]

end

/-- Magnesium fluoride on glass at normal incidence. -/
example : Transparent 1 0 (1.38 ^ 2) (1.52 ^ 2) := ⟨by norm_num, by norm_num, by norm_num, by norm_num⟩

/-- The same at 45 degrees, where `sin² = 1/2`. -/
example : Transparent 1 45 (1.38 ^ 2) (1.52 ^ 2) := by
  have e : Real.sin (45 * Real.pi / 180) ^ 2 = 1 / 2 := by
    rw [show (45 * Real.pi / 180 : ℝ) = Real.pi / 4 by ring, Real.sin_pi_div_four, div_pow, Real.sq_sqrt (by norm_num)]
    norm_num
  exact ⟨by norm_num, by rw [abs_lt]; norm_num, by rw [one_mul, e]; norm_num, by rw [one_mul, e]; norm_num⟩

/-- The film lowers the reflectance at normal incidence: the admittances are the indices `1`, `1.38`, `1.52`. -/
example (ee : (Fin 4 → ℂ) × Mat4) (a : ℂ) :
    coatedR .s 1 0 (1.38 ^ 2) (1.52 ^ 2) 550 ee a 99 < bareR .s 1 0 (1.52 ^ 2) 550 ee a := by
  have h : Transparent 1 0 (1.38 ^ 2) (1.52 ^ 2) := ⟨by norm_num, by norm_num, by norm_num, by norm_num⟩
  have q : ∀ x : ℝ, 0 ≤ x → normalComponent 1 0 (x ^ 2) = x := by
    intro x hx
    unfold normalComponent
    simp [Real.sqrt_sq hx]
  rw [(C150_effect h .s ee a (by norm_num : (0 : ℝ) < 550) (by norm_num : (0 : ℝ) ≤ 99)).1]
  simp only [Polarisation.admittance]
  rw [q 1 (by norm_num), q 1.38 (by norm_num), q 1.52 (by norm_num)]
  refine ⟨by norm_num, ?_⟩
  intro m hm
  rcases m with _ | m
  · norm_num at hm
  · push_cast at hm
    have : (0 : ℝ) ≤ m := Nat.cast_nonneg m
    norm_num at hm
    nlinarith

/-- Fringes: a film of index 1.38 and 1000 nm on glass at normal incidence has no effect at 2760 nm and at 1380 nm, and nowhere in between. -/
example (ee : (Fin 4 → ℂ) × Mat4) (a : ℂ) :
    coatedR .s 1 0 (1.38 ^ 2) (1.52 ^ 2) 2760 ee a 1000 = bareR .s 1 0 (1.52 ^ 2) 2760 ee a ∧
      coatedR .s 1 0 (1.38 ^ 2) (1.52 ^ 2) 1380 ee a 1000 = bareR .s 1 0 (1.52 ^ 2) 1380 ee a ∧
      ∀ l, 1380 < l → l < 2760 → coatedR .s 1 0 (1.38 ^ 2) (1.52 ^ 2) l ee a 1000 ≠ bareR .s 1 0 (1.52 ^ 2) l ee a := by
  have h : Transparent 1 0 (1.38 ^ 2) (1.52 ^ 2) := ⟨by norm_num, by norm_num, by norm_num, by norm_num⟩
  have q : ∀ x : ℝ, 0 ≤ x → normalComponent 1 0 (x ^ 2) = x := by
    intro x hx
    unfold normalComponent
    simp [Real.sqrt_sq hx]
  have hvu : Polarisation.s.admittance 1 0 (1.38 ^ 2) ≠ Polarisation.s.admittance 1 0 (1 ^ 2) := by
    simp only [Polarisation.admittance]; rw [q 1 (by norm_num), q 1.38 (by norm_num)]; norm_num
  have hvw : Polarisation.s.admittance 1 0 (1.38 ^ 2) ≠ Polarisation.s.admittance 1 0 (1.52 ^ 2) := by
    simp only [Polarisation.admittance]; rw [q 1.52 (by norm_num), q 1.38 (by norm_num)]; norm_num
  refine ⟨?_, ?_, ?_⟩
  · rw [coated_eq_bare h .s ee a (by norm_num) (by norm_num) hvu hvw, q 1.38 (by norm_num)]
    exact ⟨1, by norm_num⟩
  · rw [coated_eq_bare h .s ee a (by norm_num) (by norm_num) hvu hvw, q 1.38 (by norm_num)]
    exact ⟨2, by norm_num⟩
  · intro l h1 h2
    rw [Ne, coated_eq_bare h .s ee a (by linarith) (by norm_num) hvu hvw, q 1.38 (by norm_num)]
    rintro ⟨m, hm⟩
    have e : (m : ℝ) * l = 2760 := by
      have e1 : (m : ℝ) * (l / (2 * 1.38)) * (2 * 1.38) = m * l := by field_simp
      rw [← e1, ← hm]; norm_num
    have m1 : (1 : ℝ) < m := by
      by_contra hc
      have : (m : ℝ) ≤ 1 := not_lt.1 hc
      nlinarith
    have m2 : (m : ℝ) < 2 := by
      by_contra hc
      have : (2 : ℝ) ≤ m := not_lt.1 hc
      nlinarith
    have : 1 < m := by exact_mod_cast m1
    have : m < 2 := by exact_mod_cast m2
    omega

end PyElli
