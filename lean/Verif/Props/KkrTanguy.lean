import Verif.Props.KkrAnalytic
import Verif.Props.Tanguy

/-! # Kramers-Kronig consistency of the Tanguy model (C91) -/

namespace PyElli

open Filter Topology Complex ComplexConjugate PyElli.Exciton PyElli.Herglotz

/-- The even second difference of a function of the class, seen from above the cut. -/
noncomputable def excitonPart (f : ℂ → ℂ) (c g : ℝ) (z : ℂ) : ℂ := (c : ℂ) / (z + I * g) ^ 2 * (f (z + I * g) + f (-(z + I * g)) - 2 * f 0)

lemma exciton_im {g : ℝ} {z : ℂ} (hz : z ∈ UpperOf g) : 0 < (z + I * g).im := by
  have : -g < z.im := hz
  simp
  linarith

lemma excitonPart_causal {t : ℝ} {f : ℂ → ℂ} (ht : 0 < t) (hf : Pick t f) (c : ℝ) {g : ℝ} (hg : 0 < g) : Causal g (excitonPart f c g) := by
  refine ⟨?_, ?_, ?_⟩
  · intro z hz
    have him := exciton_im hz
    have hne : z + I * g ≠ 0 := fun h => by rw [h] at him; simp at him
    have m1 : z + I * g ∈ Cut t := fun h => absurd h him.ne'
    have m2 : -(z + I * g) ∈ Cut t := fun h => absurd (neg_eq_zero.1 (by rwa [neg_im] at h)) him.ne'
    have d1 : DifferentiableAt ℂ (fun z : ℂ => f (z + I * g)) z :=
      DifferentiableAt.comp (g := f) z (hf.diff.differentiableAt ((isOpen_cut t).mem_nhds m1)) (by fun_prop)
    have d2 : DifferentiableAt ℂ (fun z : ℂ => f (-(z + I * g))) z :=
      DifferentiableAt.comp (g := f) z (hf.diff.differentiableAt ((isOpen_cut t).mem_nhds m2)) (by fun_prop)
    have d3 : DifferentiableAt ℂ (fun z : ℂ => (c : ℂ) / (z + I * g) ^ 2) z :=
      (differentiableAt_const _).div (by fun_prop) (pow_ne_zero 2 hne)
    exact (d3.mul ((d1.add d2).sub (differentiableAt_const _))).differentiableWithinAt
  · intro x
    have m1 : (x : ℂ) + I * g ∈ Cut t := fun h => by simp at h; linarith
    have m2 : -((x : ℂ) + I * g) ∈ Cut t := fun h => by simp at h; linarith
    have s1 := hf.symm _ m1
    have s2 := hf.symm _ m2
    have s0 := hf.symm 0 (fun _ => by simpa using ht)
    have e1 : -((x : ℂ)) + I * g = conj (-((x : ℂ) + I * g)) := by simp; ring
    have e2 : -(-((x : ℂ)) + I * g) = conj ((x : ℂ) + I * g) := by simp; ring
    rw [map_zero] at s0
    unfold excitonPart
    rw [e2, e1, s1, s2, map_mul, map_div₀, map_sub, map_add, map_mul, ← s0, map_pow, map_neg, conj_ofReal, map_ofNat]
    rw [neg_sq]
    ring
  · obtain ⟨B, R, hB⟩ := hf.growth
    refine ⟨|c| * (4 * |B| * (1 + g) + 2 * ‖f 0‖), max 1 R, fun z hz hR => ?_⟩
    have r1 : 1 ≤ ‖z‖ := (le_max_left _ _).trans hR
    have r2 : R ≤ ‖z‖ := (le_max_right _ _).trans hR
    have him : 0 < (z + I * g).im := by simp; linarith
    have m1 : z + I * g ∈ Cut t := fun h => absurd h him.ne'
    have m2 : -(z + I * g) ∈ Cut t := fun h => absurd (neg_eq_zero.1 (by rwa [neg_im] at h)) him.ne'
    have hge : ‖z‖ ≤ ‖z + I * g‖ := by
      rw [← sq_le_sq₀ (norm_nonneg _) (norm_nonneg _), ← normSq_eq_norm_sq, ← normSq_eq_norm_sq, normSq_apply, normSq_apply]
      simp
      nlinarith
    have hle : ‖z + I * g‖ ≤ (1 + g) * ‖z‖ := by
      refine (norm_add_le _ _).trans ?_
      rw [norm_mul, norm_I, norm_real, Real.norm_of_nonneg hg.le, one_mul]
      nlinarith
    have b1 := hB _ m1 (r2.trans hge)
    have b2 := hB _ m2 (by rw [norm_neg]; exact r2.trans hge)
    rw [norm_neg] at b2
    have hB' : B * ‖z + I * g‖ ≤ |B| * ((1 + g) * ‖z‖) := mul_le_mul (le_abs_self B) hle (norm_nonneg _) (abs_nonneg _)
    have hn := norm_nonneg (f 0)
    unfold excitonPart
    rw [norm_mul, norm_div, norm_pow, norm_real, Real.norm_eq_abs]
    have h3 : ‖f (z + I * g) + f (-(z + I * g)) - 2 * f 0‖ ≤ (4 * |B| * (1 + g) + 2 * ‖f 0‖) * ‖z‖ := by
      refine (norm_sub_le _ _).trans ((add_le_add (norm_add_le _ _) le_rfl).trans ?_)
      rw [norm_mul, Complex.norm_ofNat]
      have : 0 ≤ |B| * ((1 + g) * ‖z‖) := by positivity
      nlinarith
    have hz0 : 0 < ‖z‖ := by linarith
    calc |c| / ‖z + I * g‖ ^ 2 * ‖f (z + I * g) + f (-(z + I * g)) - 2 * f 0‖
        ≤ |c| / ‖z‖ ^ 2 * ((4 * |B| * (1 + g) + 2 * ‖f 0‖) * ‖z‖) := by
          refine mul_le_mul (div_le_div_of_nonneg_left (abs_nonneg _) (by positivity) (by gcongr)) h3 (norm_nonneg _) (by positivity)
      _ = |c| * (4 * |B| * (1 + g) + 2 * ‖f 0‖) / ‖z‖ := by field_simp

/-- C91: the Tanguy model. For all dimensionalities of the documentation, any amplitude, positive broadening and binding energy and a lowest
exciton of positive energy, `im2re_reciprocal` turns the imaginary part over the wavelength into the real part less the background, `1` and
the term `a/(b - E²)`, which is real at all energies. -/
theorem C91_tanguy (K : PhysConst) (A d gam R Eg a b : ℝ) (hd : 1 < d) (hd' : d ≤ 3) (hg : 0 < gam) (hR : 0 < R)
    (hb : R < ((d - 1) / 2) ^ 2 * Eg) :
    ∃ eps : ℝ → ℂ, (∀ l, 0 < l → b ≠ photon K l ^ 2 → tanguy K (tanguyParams A d gam R Eg a b) l = some (eps l)) ∧
      ∀ l, 0 < l → CodeTendsto .im2reReciprocal (fun x => (eps x).im) l ((eps l).re - 1 - a / (b - photon K l ^ 2)) := by
  have hk := photon_const_pos K
  have ha : 0 < (d - 1) / 2 := by linarith
  have ht : 0 < Eg - R / ((d - 1) / 2) ^ 2 := by
    rw [sub_pos, div_lt_iff₀ (pow_pos ha 2)]
    linarith
  have hcau := excitonPart_causal ht (pick_gfun (Eg := Eg) hd hd' hR) (A * R ^ (d / 2 - 1)) hg
  set F := excitonPart (fun z => gfun d (xi R Eg z)) (A * R ^ (d / 2 - 1)) gam with hF
  refine ⟨fun l => 1 + (a / (b - photon K l ^ 2) : ℝ) + F (photon K l), fun l hl hne => ?_, fun l hl => ?_⟩
  · have hE : 0 < photon K l := by rw [photon_eq]; positivity
    rw [tanguy_value K (energy_photon K hl.ne') hE hd hd' hg hR hb hne]
    rfl
  · have hw : 0 < K.c * K.h / 1e-9 / l := div_pos hk hl
    have key := kk_code hk hl (hcau.contOn hg).1.continuousOn ((hcau.contOn hg).2 _) (kk_of_causal hg hcau hw)
    have e1 : (fun x : ℝ => ((1 : ℂ) + (a / (b - photon K x ^ 2) : ℝ) + F (photon K x)).im) = fun x : ℝ => (F ((K.c * K.h / 1e-9 / x : ℝ) : ℂ)).im := by
      funext x
      rw [add_im, add_im, one_im, ofReal_im, zero_add, zero_add, photon_eq]
    have e2 : ((1 : ℂ) + (a / (b - photon K l ^ 2) : ℝ) + F (photon K l)).re - 1 - a / (b - photon K l ^ 2) = (F ((K.c * K.h / 1e-9 / l : ℝ) : ℂ)).re := by
      rw [add_re, add_re, one_re, ofReal_re, ← photon_eq]
      ring
    rw [e1, e2]
    exact key

/-- Three dimensions, an exciton at 2.9 eV below a gap of 3 eV. -/
example (K : PhysConst) : ∃ eps : ℝ → ℂ, (∀ l, 0 < l → (0 : ℝ) ≠ photon K l ^ 2 → tanguy K (tanguyParams 5 3 0.1 0.1 3 0 0) l = some (eps l)) ∧
    ∀ l, 0 < l → CodeTendsto .im2reReciprocal (fun x => (eps x).im) l ((eps l).re - 1 - 0 / (0 - photon K l ^ 2)) :=
  C91_tanguy K 5 3 0.1 0.1 3 0 0 (by norm_num) (by norm_num) (by norm_num) (by norm_num) (by norm_num)

end PyElli
