import Verif.Model.Tanguy
import Verif.Lemmas.Herglotz
import Verif.Lemmas.GammaRatio

/-! The exciton functions of the Tanguy model: closed forms without the cotangents, and their membership in the class of functions
of `Lemmas/Herglotz.lean`. -/

namespace PyElli.Exciton

open Complex Filter Topology ComplexConjugate PyElli.GammaRatio PyElli.Herglotz

/-- The root `√(R / (Eg - z))`. -/
noncomputable def xi (R Eg : ℝ) (z : ℂ) : ℂ := Complex.sqrt (R / (Eg - z))

lemma xi_sq (R Eg : ℝ) (z : ℂ) : xi R Eg z ^ 2 = R / (Eg - z) := csqrt_sq _

section
variable {R Eg : ℝ} {z : ℂ} (hR : 0 < R)

lemma sub_slit (h : z ∈ Cut Eg) : (Eg : ℂ) - z ∈ slitPlane := by
  rw [mem_slitPlane_iff]
  by_cases hi : z.im = 0
  · left
    have := h hi
    simp
    exact this
  · right
    simpa using hi

include hR in
lemma quot_slit (h : z ∈ Cut Eg) : (R : ℂ) / (Eg - z) ∈ slitPlane := by
  have h1 := sub_slit h
  have h2 : 0 < normSq ((Eg : ℂ) - z) := normSq_pos.2 (slitPlane_ne_zero h1)
  rw [mem_slitPlane_iff] at h1
  rw [div_eq_mul_inv, mem_slitPlane_iff, re_ofReal_mul, im_ofReal_mul, inv_re, inv_im]
  rcases h1 with h1 | h1
  · exact Or.inl (mul_pos hR (div_pos h1 h2))
  · exact Or.inr (mul_ne_zero hR.ne' (div_ne_zero (neg_ne_zero.2 h1) h2.ne'))

lemma csqrt_re_pos {w : ℂ} (h : w ∈ slitPlane) : 0 < (Complex.sqrt w).re := by
  rcases (csqrt_re_nonneg w).lt_or_eq with h1 | h1
  · exact h1
  · exfalso
    have h2 := csqrt_sq w
    have hre := congrArg re h2
    have him := congrArg im h2
    rw [pow_two, mul_re, ← h1] at hre
    rw [pow_two, mul_im, ← h1] at him
    rw [mem_slitPlane_iff] at h
    rcases h with h | h
    · nlinarith [mul_self_nonneg (Complex.sqrt w).im]
    · apply h; linarith

include hR in
lemma xi_re_pos (h : z ∈ Cut Eg) : 0 < (xi R Eg z).re := csqrt_re_pos (quot_slit hR h)

include hR in
lemma xi_differentiableAt (h : z ∈ Cut Eg) : DifferentiableAt ℂ (xi R Eg) z := by
  have h0 : (Eg : ℂ) - z ≠ 0 := slitPlane_ne_zero (sub_slit h)
  have h1 : DifferentiableAt ℂ (fun z : ℂ => (R : ℂ) / (Eg - z)) z := by fun_prop (disch := exact h0)
  exact DifferentiableAt.comp z (csqrt_differentiableAt (quot_slit hR h)) h1

lemma cut_conj {t : ℝ} (h : z ∈ Cut t) : conj z ∈ Cut t := by
  intro h0
  simp at h0
  simpa using h h0

include hR in
lemma xi_conj (h : z ∈ Cut Eg) : xi R Eg (conj z) = conj (xi R Eg z) := by
  have h1 := xi_re_pos hR (cut_conj h)
  have h2 : 0 < (conj (xi R Eg z)).re := by simpa using xi_re_pos hR h
  apply principal_sq_inj (Or.inl h1) (Or.inl h2)
  rw [xi_sq, ← map_pow, xi_sq]
  simp

include hR in
lemma xi_im_pos (h : 0 < z.im) : 0 < (xi R Eg z).im := by
  have hz : z ∈ Cut Eg := fun h0 => absurd h0 h.ne'
  have h1 := xi_re_pos hR hz
  have h2 := congrArg im (xi_sq R Eg z)
  have h3 : 0 < ((R : ℂ) / (Eg - z)).im := by
    rw [div_eq_mul_inv, im_ofReal_mul, inv_im]
    apply mul_pos hR
    apply div_pos
    · simpa using h
    · exact normSq_pos.2 (slitPlane_ne_zero (sub_slit hz))
  rw [← h2, pow_two, mul_im] at h3
  nlinarith

include hR in
lemma xi_norm (h : z ∈ Cut Eg) : ‖xi R Eg z‖ ^ 2 * ‖(Eg : ℂ) - z‖ = R := by
  have h0 : (Eg : ℂ) - z ≠ 0 := slitPlane_ne_zero (sub_slit h)
  rw [← norm_pow, xi_sq, norm_div, norm_real, Real.norm_of_nonneg hR.le, div_mul_cancel₀ _ (norm_ne_zero_iff.2 h0)]

lemma cut_mono {s t : ℝ} (h : s ≤ t) (hz : z ∈ Cut s) : z ∈ Cut t := fun h0 => (hz h0).trans_le h

include hR in
/-- Away from the cut that starts at the lowest bound state, the root avoids all poles. -/
lemma xi_no_pole {a : ℝ} (ha : 0 < a) (h : z ∈ Cut (Eg - R / a ^ 2)) (m : ℕ) : xi R Eg z ≠ a + m := by
  intro he
  have hz : z ∈ Cut Eg := cut_mono (by have := div_pos hR (pow_pos ha 2); linarith) h
  have h0 : (Eg : ℂ) - z ≠ 0 := slitPlane_ne_zero (sub_slit hz)
  have h1 := xi_sq R Eg z
  have ham : 0 < a + m := by positivity
  rw [he, eq_div_iff h0] at h1
  have hc : ((a : ℂ) + m) ^ 2 ≠ 0 := by
    apply pow_ne_zero
    exact_mod_cast ham.ne'
  have hw : z = ((Eg - R / (a + m) ^ 2 : ℝ) : ℂ) := by
    push_cast
    rw [← h1, mul_div_cancel_left₀ _ hc]
    ring
  have h2 : z.im = 0 := by rw [hw]; exact ofReal_im _
  have h3 := h h2
  rw [hw, ofReal_re] at h3
  have h4 : R / (a + m) ^ 2 ≤ R / a ^ 2 := by
    apply div_le_div_of_nonneg_left hR.le (pow_pos ha 2)
    have : (0 : ℝ) ≤ m := Nat.cast_nonneg m
    nlinarith
  linarith

end

/-- A function of the root is in the class if it has the corresponding properties in the right half plane. -/
lemma pick_comp {h : ℂ → ℂ} {a R Eg : ℝ} (ha : 0 < a) (hR : 0 < R)
    (hd : ∀ x : ℂ, 0 < x.re → (∀ m : ℕ, x ≠ a + m) → DifferentiableAt ℂ h x)
    (hc : ∀ x : ℂ, 0 < x.re → (∀ m : ℕ, x ≠ a + m) → h (conj x) = conj (h x))
    (hp : ∀ x : ℂ, 0 < x.re → 0 < x.im → 0 ≤ (h x).im)
    (hg : ∃ C r : ℝ, 0 < r ∧ ∀ x : ℂ, 0 < x.re → ‖x‖ ≤ r → ‖h x‖ ≤ C / ‖x‖) :
    Pick (Eg - R / a ^ 2) (fun z => h (xi R Eg z)) := by
  have hle : Eg - R / a ^ 2 ≤ Eg := by have := div_pos hR (pow_pos ha 2); linarith
  refine ⟨?_, ?_, ?_, ?_⟩
  · intro z hz
    have h1 := hd _ (xi_re_pos hR (cut_mono hle hz)) (xi_no_pole hR ha hz)
    exact (DifferentiableAt.comp z h1 (xi_differentiableAt hR (cut_mono hle hz))).differentiableWithinAt
  · intro z hz
    beta_reduce
    rw [xi_conj hR (cut_mono hle hz)]
    exact hc _ (xi_re_pos hR (cut_mono hle hz)) (xi_no_pole hR ha hz)
  · intro z hz
    exact hp _ (xi_re_pos hR (fun h0 => absurd h0 hz.ne')) (xi_im_pos hR hz)
  · obtain ⟨C, r, hr, hb⟩ := hg
    refine ⟨2 * |C| * (1 / R) * (max r 1), max (2 * |Eg| + R / r ^ 2 * 2) 1, ?_⟩
    intro z hz hn
    have hz' := cut_mono hle hz
    have h1 := xi_norm hR hz'
    have hre := xi_re_pos hR hz'
    have hx0 : 0 < ‖xi R Eg z‖ := norm_pos_iff.2 fun h0 => by rw [h0] at hre; simp at hre
    have hzn : 2 * |Eg| + R / r ^ 2 * 2 ≤ ‖z‖ := (le_max_left _ _).trans hn
    have h2 : ‖(Eg : ℂ) - z‖ ≤ |Eg| + ‖z‖ := (norm_sub_le _ _).trans (by rw [norm_real, Real.norm_eq_abs])
    have h3 : ‖z‖ - |Eg| ≤ ‖(Eg : ℂ) - z‖ := by
      have := norm_sub_norm_le z (Eg : ℂ)
      rw [norm_real, Real.norm_eq_abs, norm_sub_rev] at this
      exact this
    have hRr : 0 < R / r ^ 2 := by positivity
    have hE0 := abs_nonneg Eg
    have hxr : ‖xi R Eg z‖ ≤ r := by
      by_contra hlt
      push Not at hlt
      have h4 : r ^ 2 < ‖xi R Eg z‖ ^ 2 := by gcongr
      have h5 : R / r ^ 2 < ‖(Eg : ℂ) - z‖ := by linarith
      have : r ^ 2 * (R / r ^ 2) < ‖xi R Eg z‖ ^ 2 * ‖(Eg : ℂ) - z‖ := by
        apply mul_lt_mul'' h4 h5 (by positivity) hRr.le
      rw [h1, mul_div_cancel₀ _ (by positivity)] at this
      exact lt_irrefl _ this
    have h6 := hb _ hre hxr
    refine h6.trans ?_
    have h7 : 1 / ‖xi R Eg z‖ = ‖xi R Eg z‖ * ‖(Eg : ℂ) - z‖ / R := by
      rw [div_eq_div_iff hx0.ne' hR.ne', one_mul]
      linear_combination -h1
    have h8 : C / ‖xi R Eg z‖ ≤ |C| * (1 / ‖xi R Eg z‖) := by
      rw [div_eq_mul_one_div]
      exact mul_le_mul_of_nonneg_right (le_abs_self C) (by positivity)
    refine h8.trans ?_
    rw [h7]
    have h9 : ‖xi R Eg z‖ * ‖(Eg : ℂ) - z‖ ≤ max r 1 * (2 * ‖z‖) := by
      apply mul_le_mul (hxr.trans (le_max_left _ _)) (by linarith) (norm_nonneg _)
      exact le_trans zero_le_one (le_max_right _ _)
    calc |C| * (‖xi R Eg z‖ * ‖(Eg : ℂ) - z‖ / R) ≤ |C| * ((max r 1 * (2 * ‖z‖)) / R) := by gcongr
      _ = _ := by ring

/-! ## The three formulas -/

/-- Two dimensions. -/
noncomputable def g2 (x : ℂ) : ℂ := 2 * log x - 2 * digamma (1 / 2 - x)

/-- Three dimensions. -/
noncomputable def g3 (x : ℂ) : ℂ := 2 * log x - 2 * digamma (1 - x) - 1 / x

/-- The real factor in front of the quotient of Gamma functions. -/
noncomputable def K (a : ℝ) : ℝ := 2 * Real.pi / (Real.Gamma a ^ 2 * Real.sin (2 * Real.pi * a))

open Classical in
/-- The function `g` for dimensionality `d`, `a = (d - 1) / 2`. -/
noncomputable def gfun (d : ℝ) (x : ℂ) : ℂ :=
  if d = 2 then g2 x else if d = 3 then g3 x else K ((d - 1) / 2) * G (((d - 1) / 2 : ℝ) : ℂ) x

lemma sub_ne_neg {a : ℝ} {x : ℂ} (h : ∀ m : ℕ, x ≠ a + m) (m : ℕ) : (a : ℂ) - x ≠ -m := by
  intro he
  exact h m (by linear_combination -he)

lemma re_pos_no_pole {s : ℂ} (h : 0 < s.re) (m : ℕ) : s ≠ -m := by
  rintro rfl
  simp at h
  have : (0 : ℝ) ≤ m := Nat.cast_nonneg m
  linarith

lemma sin_two_pi_ne {a : ℝ} (h0 : 0 < a) (h1 : a < 1) (h2 : a ≠ 1 / 2) : Real.sin (2 * Real.pi * a) ≠ 0 := by
  have hp := Real.pi_pos
  rcases lt_or_gt_of_ne h2 with h | h
  · exact (Real.sin_pos_of_pos_of_lt_pi (by positivity) (by nlinarith)).ne'
  · have : Real.sin (2 * Real.pi * a) = -Real.sin (2 * Real.pi * a - Real.pi) := by rw [Real.sin_sub_pi]; ring
    rw [this]
    exact neg_ne_zero.2 (Real.sin_pos_of_pos_of_lt_pi (by nlinarith) (by nlinarith)).ne'

/-- The formula with the cotangents is the quotient of Gamma functions. -/
lemma gen_formula {a : ℝ} {x : ℂ} (hs : Real.sin (2 * Real.pi * a) ≠ 0) (h1 : Complex.sin (Real.pi * (a - x)) ≠ 0)
    (h2 : Gamma (a + x) ≠ 0) (h3 : Gamma ((1 - a : ℝ) + x) ≠ 0) :
    2 * (Real.pi : ℂ) * Gamma (a + x) / Gamma a ^ 2 / Gamma ((1 - a : ℝ) + x) / x ^ ((2 * a - 1 : ℝ) : ℂ) *
      (1 / Complex.tan (Real.pi * (a - x)) - 1 / Complex.tan (Real.pi * (2 * a) : ℝ)) = K a * G a x := by
  have hpi : (Real.pi : ℂ) ≠ 0 := by exact_mod_cast Real.pi_ne_zero
  have hs' : Complex.sin (2 * Real.pi * a) ≠ 0 := by
    rw [show (2 * Real.pi * a : ℂ) = ((2 * Real.pi * a : ℝ) : ℂ) by push_cast; ring, ← ofReal_sin]
    exact_mod_cast hs
  have hcot : 1 / Complex.tan (Real.pi * (a - x)) - 1 / Complex.tan (Real.pi * (2 * a) : ℝ) =
      Complex.sin (Real.pi * (a + x)) / (Complex.sin (Real.pi * (a - x)) * Complex.sin (2 * Real.pi * a)) := by
    have e1 : Complex.sin (Real.pi * (a + x)) = Complex.sin (2 * Real.pi * a) * Complex.cos (Real.pi * (a - x)) -
        Complex.cos (2 * Real.pi * a) * Complex.sin (Real.pi * (a - x)) := by
      rw [← Complex.sin_sub]
      congr 1
      ring
    have e2 : (((Real.pi * (2 * a) : ℝ)) : ℂ) = 2 * Real.pi * a := by push_cast; ring
    rw [e1, e2, Complex.tan_eq_sin_div_cos, Complex.tan_eq_sin_div_cos, one_div_div, one_div_div]
    generalize Complex.sin (2 * Real.pi * a) = u at hs' ⊢
    generalize Complex.sin (Real.pi * (a - x)) = v at h1 ⊢
    field_simp
  have r1 := Complex.Gamma_mul_Gamma_one_sub (a + x)
  have r2 := Complex.Gamma_mul_Gamma_one_sub (a - x)
  have r1' : Gamma (a + x) * Complex.sin (Real.pi * (a + x)) = Real.pi * (Gamma (1 - a - x))⁻¹ := by
    rw [show (1 : ℂ) - (a + x) = 1 - a - x by ring] at r1
    by_cases h0 : Complex.sin (Real.pi * (a + x)) = 0
    · rw [h0, div_zero] at r1
      have : Gamma (1 - a - x) = 0 := (mul_eq_zero.1 r1).resolve_left h2
      rw [h0, this]
      simp
    · have hG : Gamma (1 - a - x) ≠ 0 := by
        intro h
        rw [h, mul_zero, eq_comm, div_eq_zero_iff] at r1
        tauto
      rw [eq_div_iff h0] at r1
      rw [eq_mul_inv_iff_mul_eq₀ hG]
      linear_combination r1
  rw [show (1 : ℂ) - (a - x) = (1 - a : ℝ) + x by push_cast; ring] at r2
  rw [eq_div_iff h1] at r2
  have hx : (x ^ ((2 * a - 1 : ℝ) : ℂ))⁻¹ = x ^ (1 - 2 * (a : ℂ)) := by
    rw [← cpow_neg]
    congr 1
    push_cast
    ring
  have hK : ((K a : ℝ) : ℂ) = 2 * Real.pi / (Gamma a ^ 2 * Complex.sin (2 * Real.pi * a)) := by
    rw [K]
    push_cast
    rw [Gamma_ofReal]
  rw [hcot, hK, G, ← hx]
  generalize Complex.sin (2 * Real.pi * a) = u at *
  generalize Complex.sin (Real.pi * (a - x)) = v at *
  generalize (x ^ ((2 * a - 1 : ℝ) : ℂ)) = w at *
  generalize Gamma ((1 - a : ℝ) + x) = c at *
  generalize Gamma (a - x) = e at *
  generalize (Gamma (1 - a - x))⁻¹ = f at *
  have key : Gamma (a + x) * Complex.sin (Real.pi * (a + x)) / (c * v) = e * f := by
    rw [r1', div_eq_iff (mul_ne_zero h3 h1)]
    linear_combination -f * r2
  calc _ = 2 * Real.pi / (Gamma a ^ 2 * u) * (w⁻¹ * (Gamma (a + x) * Complex.sin (Real.pi * (a + x)) / (c * v))) := by
        simp only [div_eq_mul_inv, mul_inv]
        ring
    _ = _ := by rw [key]

open Classical in
/-- `Tanguy.g` has a value in the right half plane away from the poles. -/
lemma tanguyG_eq {d : ℝ} (hd : 1 < d) (hd' : d ≤ 3) {x : ℂ} (hx : 0 < x.re) (hp : ∀ m : ℕ, x ≠ (((d - 1) / 2 : ℝ) : ℂ) + m) :
    tanguyG x d = some (gfun d x) := by
  have h0 : x ≠ 0 := by rintro rfl; simp at hx
  unfold tanguyG gfun
  by_cases h2 : d = 2
  · have hq : ¬ ∃ m : ℕ, (0.5 : ℂ) - x = -m := by
      rintro ⟨m, hm⟩
      apply hp m
      rw [h2]
      push_cast
      norm_num at hm ⊢
      linear_combination -hm
    rw [if_pos h2, if_pos h2, clogN, if_neg h0, digammaN, if_neg hq]
    simp only [Option.bind_eq_bind, Option.bind_some, g2]
    norm_num
  rw [if_neg h2, if_neg h2]
  by_cases h3 : d = 3
  · have hq : ¬ ∃ m : ℕ, (1 : ℂ) - x = -m := by
      rintro ⟨m, hm⟩
      apply hp m
      rw [h3]
      push_cast
      norm_num at hm ⊢
      linear_combination -hm
    rw [if_pos h3, if_pos h3, clogN, if_neg h0, digammaN, if_neg hq, divN, if_neg h0]
    simp only [Option.bind_eq_bind, Option.bind_some, g3]
  rw [if_neg h3, if_neg h3]
  generalize ha : (d - 1) / 2 = a at *
  have hda : d = 2 * a + 1 := by rw [← ha]; ring
  have a0 : 0 < a := by linarith
  have a1 : a < 1 := by
    have : d < 3 := lt_of_le_of_ne hd' h3
    linarith
  have a2 : a ≠ 1 / 2 := fun h => h2 (by rw [hda, h]; norm_num)
  have hs := sin_two_pi_ne a0 a1 a2
  have n1 : ¬ ∃ m : ℕ, (a : ℂ) + x = -m := fun ⟨m, hm⟩ => re_pos_no_pole (s := (a : ℂ) + x) (by simp; linarith) m hm
  have n2 : ¬ ∃ m : ℕ, (a : ℂ) = -m := fun ⟨m, hm⟩ => re_pos_no_pole (s := (a : ℂ)) (by simpa using a0) m hm
  have n3 : ¬ ∃ m : ℕ, ((1 - a : ℝ) : ℂ) + x = -m := fun ⟨m, hm⟩ => re_pos_no_pole (s := ((1 - a : ℝ) : ℂ) + x) (by simp; linarith) m hm
  have z2 : Gamma a ≠ 0 := Gamma_ne_zero fun m hm => n2 ⟨m, hm⟩
  have z3 : Gamma ((1 - a : ℝ) + x) ≠ 0 := Gamma_ne_zero fun m hm => n3 ⟨m, hm⟩
  have z1 : Gamma (a + x) ≠ 0 := Gamma_ne_zero fun m hm => n1 ⟨m, hm⟩
  have s1 : Complex.sin (Real.pi * (a - x)) ≠ 0 := by
    rw [Ne, Complex.sin_eq_zero_iff]
    rintro ⟨k, hk⟩
    have hpi : (Real.pi : ℂ) ≠ 0 := by exact_mod_cast Real.pi_ne_zero
    have hk' : (a : ℂ) - x = k := by
      apply mul_left_cancel₀ hpi
      rw [hk]
      ring
    have hx2 : x = ((a - k : ℝ) : ℂ) := by push_cast; linear_combination -hk'
    rcases lt_or_ge 0 k with hk0 | hk0
    · have : (1 : ℝ) ≤ k := by exact_mod_cast hk0
      rw [hx2, ofReal_re] at hx
      linarith
    · obtain ⟨m, rfl⟩ := Int.exists_eq_neg_ofNat hk0
      apply hp m
      rw [hx2]
      push_cast
      ring
  have s2 : Complex.sin ((Real.pi * (2 * a) : ℝ) : ℂ) ≠ 0 := by
    rw [← ofReal_sin, show Real.pi * (2 * a) = 2 * Real.pi * a by ring]
    exact_mod_cast hs
  have p0 : x ^ ((2 * a - 1 : ℝ) : ℂ) ≠ 0 := by
    rw [Ne, cpow_eq_zero_iff]
    tauto
  have e1 : d - 1 = 2 * a := by rw [hda]; ring
  have e2 : d - 2 = 2 * a - 1 := by rw [hda]; ring
  simp only [e1, e2, show 2 * a / 2 = a by ring, gammaN, if_neg n1, if_neg n2, if_neg n3, cpowN, if_neg h0, cotN, if_neg s1, if_neg s2, Option.bind_eq_bind,
    Option.bind_some, divN, if_neg (pow_ne_zero 2 z2), if_neg z3, if_neg p0]
  rw [gen_formula hs s1 z1 z3]

/-! ## The class -/

lemma G_differentiableAt {a : ℝ} {x : ℂ} (hx : 0 < x.re) (hp : ∀ m : ℕ, x ≠ a + m) : DifferentiableAt ℂ (G a) x := by
  have h1 : DifferentiableAt ℂ (fun x : ℂ => x ^ (1 - 2 * (a : ℂ))) x :=
    (differentiableAt_id (𝕜 := ℂ)).cpow_const (mem_slitPlane_iff.2 (Or.inl hx))
  have h2 : DifferentiableAt ℂ (fun x : ℂ => Gamma (a - x)) x :=
    DifferentiableAt.comp (g := Gamma) x (differentiableAt_Gamma _ (sub_ne_neg hp)) (by fun_prop)
  have h3 : DifferentiableAt ℂ (fun x : ℂ => (Gamma (1 - a - x))⁻¹) x :=
    DifferentiableAt.comp (g := fun s => (Gamma s)⁻¹) x (differentiable_one_div_Gamma _) (by fun_prop)
  exact h1.mul (h2.mul h3)

lemma arg_ne_pi {x : ℂ} (hx : 0 < x.re) : x.arg ≠ Real.pi := by
  rw [Ne, arg_eq_pi_iff]
  intro h
  linarith [h.1]

lemma conj_two : conj (2 : ℂ) = 2 := map_ofNat _ 2

lemma G_conj {a : ℝ} {x : ℂ} (hx : 0 < x.re) : G a (conj x) = conj (G a x) := by
  unfold G
  rw [conj_cpow _ _ (arg_ne_pi hx), map_mul, map_mul, map_inv₀, ← Gamma_conj, ← Gamma_conj]
  simp [conj_two]

lemma bound_of_continuous {H : ℂ → ℂ} (hH : ContinuousAt H 0) : ∃ C r : ℝ, 0 < C ∧ 0 < r ∧ r ≤ 1 ∧ ∀ x, ‖x‖ ≤ r → ‖H x‖ ≤ C := by
  have h1 : ∀ᶠ x in 𝓝 (0 : ℂ), ‖H x‖ < ‖H 0‖ + 1 := hH.norm.eventually (gt_mem_nhds (by linarith))
  obtain ⟨r, hr, h2⟩ := Metric.eventually_nhds_iff_ball.1 h1
  refine ⟨‖H 0‖ + 1, min (r / 2) 1, by positivity, lt_min (by linarith) one_pos, min_le_right _ _, ?_⟩
  intro x hx
  refine (h2 x ?_).le
  rw [mem_ball_zero_iff]
  linarith [min_le_left (r / 2) 1]

lemma pick_gen {a R Eg : ℝ} (a0 : 0 < a) (a1 : a < 1) (a2 : a ≠ 1 / 2) (hR : 0 < R) :
    Pick (Eg - R / a ^ 2) (fun z => (K a : ℂ) * G a (xi R Eg z)) := by
  refine pick_comp (h := fun x => (K a : ℂ) * G a x) a0 hR ?_ ?_ ?_ ?_
  · intro x hx hp
    exact (G_differentiableAt hx hp).const_mul _
  · intro x hx hp
    rw [G_conj hx, map_mul, conj_ofReal]
  · intro x hx hi
    rw [im_ofReal_mul]
    have hG : 0 < Real.Gamma a ^ 2 := pow_pos (Real.Gamma_pos_of_pos a0) 2
    have hpi := Real.pi_pos
    rcases lt_or_gt_of_ne a2 with h | h
    · apply mul_nonneg _ (G_im_nonneg hi a0.le h.le)
      unfold K
      have : 0 < Real.sin (2 * Real.pi * a) := Real.sin_pos_of_pos_of_lt_pi (by positivity) (by nlinarith)
      positivity
    · apply mul_nonneg_of_nonpos_of_nonpos _ (G_im_nonpos hi h.le a1.le)
      unfold K
      have : Real.sin (2 * Real.pi * a) ≤ 0 := by
        have h2 : Real.sin (2 * Real.pi * a) = -Real.sin (2 * Real.pi * a - Real.pi) := by rw [Real.sin_sub_pi]; ring
        rw [h2]
        linarith [Real.sin_pos_of_pos_of_lt_pi (show 0 < 2 * Real.pi * a - Real.pi by nlinarith) (by nlinarith)]
      exact div_nonpos_of_nonneg_of_nonpos (by positivity) (mul_nonpos_of_nonneg_of_nonpos hG.le this)
  · have hc : ContinuousAt (fun x : ℂ => Gamma (a - x) * (Gamma (1 - a - x))⁻¹) 0 := by
      have h2 : DifferentiableAt ℂ (fun x : ℂ => Gamma (a - x)) 0 :=
        DifferentiableAt.comp (g := Gamma) (0 : ℂ) (differentiableAt_Gamma _ (re_pos_no_pole (by simpa using a0))) (by fun_prop)
      have h3 : DifferentiableAt ℂ (fun x : ℂ => (Gamma (1 - a - x))⁻¹) 0 :=
        DifferentiableAt.comp (g := fun s => (Gamma s)⁻¹) (0 : ℂ) (differentiable_one_div_Gamma _) (by fun_prop)
      exact (h2.mul h3).continuousAt
    obtain ⟨C, r, hC, hr, hr1, hb⟩ := bound_of_continuous hc
    refine ⟨|K a| * C, r, hr, ?_⟩
    intro x hx hxr
    have hx0 : x ≠ 0 := by rintro rfl; simp at hx
    have hn : 0 < ‖x‖ := norm_pos_iff.2 hx0
    have hpow : ‖x ^ (1 - 2 * (a : ℂ))‖ ≤ 1 / ‖x‖ := by
      have h1 : (1 - 2 * (a : ℂ)) = ((1 - 2 * a : ℝ) : ℂ) := by push_cast; ring
      rw [h1, norm_cpow_real, one_div, ← Real.rpow_neg_one]
      exact Real.rpow_le_rpow_of_exponent_ge hn (hxr.trans hr1) (by linarith)
    rw [norm_mul, G, norm_mul, norm_real, Real.norm_eq_abs]
    calc |K a| * (‖x ^ (1 - 2 * (a : ℂ))‖ * ‖Gamma (a - x) * (Gamma (1 - a - x))⁻¹‖) ≤ |K a| * (1 / ‖x‖ * C) := by
          gcongr
          exact hb x hxr
      _ = |K a| * C / ‖x‖ := by ring

lemma log_bound {x : ℂ} (hx : 0 < x.re) (h1 : ‖x‖ ≤ 1) : ‖log x‖ ≤ (1 + Real.pi) / ‖x‖ := by
  have hx0 : x ≠ 0 := by rintro rfl; simp at hx
  have hn : 0 < ‖x‖ := norm_pos_iff.2 hx0
  have h2 : ‖log x‖ ≤ |Real.log ‖x‖| + |arg x| := by
    have := norm_le_abs_re_add_abs_im (log x)
    rwa [log_re, log_im] at this
  have h3 : |arg x| ≤ Real.pi := abs_arg_le_pi x
  have h4 : |Real.log ‖x‖| ≤ 1 / ‖x‖ := by
    rw [abs_of_nonpos (Real.log_nonpos hn.le h1), ← Real.log_inv]
    have := Real.log_le_sub_one_of_pos (inv_pos.2 hn)
    rw [one_div]
    linarith
  have h5 : Real.pi ≤ Real.pi / ‖x‖ := by
    rw [le_div_iff₀ hn]
    nlinarith [Real.pi_pos]
  rw [add_div]
  linarith

lemma log_conj' {x : ℂ} (hx : 0 < x.re) : log (conj x) = conj (log x) := log_conj x (arg_ne_pi hx)

lemma pick_two {R Eg : ℝ} (hR : 0 < R) : Pick (Eg - R / (1 / 2 : ℝ) ^ 2) (fun z => g2 (xi R Eg z)) := by
  have hq : ∀ x : ℂ, (∀ m : ℕ, x ≠ ((1 / 2 : ℝ) : ℂ) + m) → ∀ m : ℕ, (1 / 2 : ℂ) - x ≠ -m := by
    intro x hp m
    have := sub_ne_neg hp m
    push_cast at this
    exact this
  refine pick_comp (h := g2) (by norm_num) hR ?_ ?_ ?_ ?_
  · intro x hx hp
    have h1 : DifferentiableAt ℂ log x := (hasDerivAt_log (mem_slitPlane_iff.2 (Or.inl hx))).differentiableAt
    have h2 : DifferentiableAt ℂ (fun x : ℂ => digamma (1 / 2 - x)) x :=
      DifferentiableAt.comp (g := digamma) x (differentiableAt_digamma (hq x hp)) (by fun_prop)
    exact (h1.const_mul 2).sub (h2.const_mul 2)
  · intro x hx hp
    unfold g2
    rw [log_conj' hx, map_sub, map_mul, map_mul, ← digamma_conj]
    simp [conj_two]
  · intro x hx hi
    exact two_im_nonneg hi
  · have hc : ContinuousAt (fun x : ℂ => digamma (1 / 2 - x)) 0 :=
      (DifferentiableAt.comp (g := digamma) (0 : ℂ) (differentiableAt_digamma (re_pos_no_pole (by norm_num))) (by fun_prop)).continuousAt
    obtain ⟨C, r, hC, hr, hr1, hb⟩ := bound_of_continuous hc
    refine ⟨2 * (1 + Real.pi) + 2 * C, r, hr, ?_⟩
    intro x hx hxr
    have hx0 : x ≠ 0 := by rintro rfl; simp at hx
    have hn : 0 < ‖x‖ := norm_pos_iff.2 hx0
    have h1 := log_bound hx (hxr.trans hr1)
    have h2 : ‖digamma (1 / 2 - x)‖ ≤ C / ‖x‖ := (hb x hxr).trans (by rw [le_div_iff₀ hn]; nlinarith)
    unfold g2
    refine (norm_sub_le _ _).trans ?_
    rw [norm_mul, norm_mul, Complex.norm_ofNat]
    rw [add_div, mul_div_assoc, mul_div_assoc]
    linarith

lemma pick_three {R Eg : ℝ} (hR : 0 < R) : Pick (Eg - R / (1 : ℝ) ^ 2) (fun z => g3 (xi R Eg z)) := by
  have hq : ∀ x : ℂ, (∀ m : ℕ, x ≠ ((1 : ℝ) : ℂ) + m) → ∀ m : ℕ, (1 : ℂ) - x ≠ -m := by
    intro x hp m
    have := sub_ne_neg hp m
    push_cast at this
    exact this
  refine pick_comp (h := g3) (by norm_num) hR ?_ ?_ ?_ ?_
  · intro x hx hp
    have hx0 : x ≠ 0 := by rintro rfl; simp at hx
    have h1 : DifferentiableAt ℂ log x := (hasDerivAt_log (mem_slitPlane_iff.2 (Or.inl hx))).differentiableAt
    have h2 : DifferentiableAt ℂ (fun x : ℂ => digamma (1 - x)) x :=
      DifferentiableAt.comp (g := digamma) x (differentiableAt_digamma (hq x hp)) (by fun_prop)
    have h3 : DifferentiableAt ℂ (fun x : ℂ => 1 / x) x := by fun_prop (disch := exact hx0)
    exact ((h1.const_mul 2).sub (h2.const_mul 2)).sub h3
  · intro x hx hp
    unfold g3
    rw [log_conj' hx, map_sub, map_sub, map_mul, map_mul, ← digamma_conj]
    simp [conj_two]
  · intro x hx hi
    exact three_im_nonneg hi
  · have hc : ContinuousAt (fun x : ℂ => digamma (1 - x)) 0 :=
      (DifferentiableAt.comp (g := digamma) (0 : ℂ) (differentiableAt_digamma (re_pos_no_pole (by norm_num))) (by fun_prop)).continuousAt
    obtain ⟨C, r, hC, hr, hr1, hb⟩ := bound_of_continuous hc
    refine ⟨2 * (1 + Real.pi) + 2 * C + 1, r, hr, ?_⟩
    intro x hx hxr
    have hx0 : x ≠ 0 := by rintro rfl; simp at hx
    have hn : 0 < ‖x‖ := norm_pos_iff.2 hx0
    have h1 := log_bound hx (hxr.trans hr1)
    have h2 : ‖digamma (1 - x)‖ ≤ C / ‖x‖ := (hb x hxr).trans (by rw [le_div_iff₀ hn]; nlinarith)
    unfold g3
    refine (norm_sub_le _ _).trans ?_
    have h3 := norm_sub_le (2 * log x) (2 * digamma (1 - x))
    rw [norm_mul, norm_mul, Complex.norm_ofNat] at h3
    rw [add_div, add_div, mul_div_assoc, mul_div_assoc, norm_div, norm_one]
    linarith

/-- The function of the model is in the class, for every dimensionality of the documentation. -/
theorem pick_gfun {d R Eg : ℝ} (hd : 1 < d) (hd' : d ≤ 3) (hR : 0 < R) :
    Pick (Eg - R / ((d - 1) / 2) ^ 2) (fun z => gfun d (xi R Eg z)) := by
  by_cases h2 : d = 2
  · have h := pick_two (Eg := Eg) hR
    have e : (d - 1) / 2 = (1 / 2 : ℝ) := by rw [h2]; norm_num
    rw [e]
    unfold gfun
    simpa only [if_pos h2] using h
  · by_cases h3 : d = 3
    · have h := pick_three (Eg := Eg) hR
      have e : (d - 1) / 2 = (1 : ℝ) := by rw [h3]; norm_num
      rw [e]
      unfold gfun
      simpa only [if_neg h2, if_pos h3] using h
    · have hlt : d < 3 := lt_of_le_of_ne hd' h3
      have h := pick_gen (a := (d - 1) / 2) (Eg := Eg) (by linarith) (by linarith) (fun h => h2 (by linarith)) hR
      unfold gfun
      simpa only [if_neg h2, if_neg h3] using h

end PyElli.Exciton
