import Verif.Props.SolverLaws
import Verif.Model.Utils
import Verif.Model.Experiment
import Mathlib.Tactic

/-! # Pseudo dielectric function and classical thin film facts (C42, C43) -/

namespace PyElli

open Matrix Complex Spec

lemma default_jones (p : Pol) : ∃ a : ℂ, a ≠ 0 ∧ (setVector p .none).jones = .vec a a := by
  have h2 : (0 : ℝ) < Real.sqrt (1 / 2) := Real.sqrt_pos.2 (by norm_num)
  refine ⟨(Real.sqrt (1 / 2) : ℂ), by exact_mod_cast h2.ne', ?_⟩
  have hb : 1 / (2 * Real.sqrt (1 / 2)) = Real.sqrt (1 / 2) := by
    have := Real.mul_self_sqrt (show (0 : ℝ) ≤ 1 / 2 by norm_num)
    rw [div_eq_iff (by positivity)]
    nlinarith
  have hs : Real.sqrt ((0 : ℝ) ^ 2 + 1 ^ 2 + 0 ^ 2) = 1 := by norm_num
  simp only [setVector, jonesOfStokes, hs]
  rw [if_neg (by norm_num), if_neg (by norm_num)]
  have e1 : (1 + (0 : ℝ) / (1 * (1 / 1))) / 2 = 1 / 2 := by norm_num
  rw [e1]
  have e2 : (1 : ℝ) / (1 * (1 / 1)) / (2 * Real.sqrt (1 / 2)) = Real.sqrt (1 / 2) := by
    rw [show (1 : ℝ) / (1 * (1 / 1)) = 1 by norm_num]
    exact hb
  rw [e2]
  simp

lemma rho_diag (jr jt : Mat2) (power : Option ℝ) (a : ℂ) (ha : a ≠ 0) (h11 : jr 1 1 ≠ 0) (h01 : jr 0 1 = 0)
    (h10 : jr 1 0 = 0) : (Result.mk' jr jt power ![a, a]).rho = jr 0 0 / jr 1 1 := by
  unfold Result.rho foldRho Result.mk'
  rw [if_neg (by norm_num)]
  simp only [ratioOf, rhoMatrix, Matrix.mulVec, dotProduct, Fin.sum_univ_two, h01, h10]
  simp
  field_simp

/-- Reflection at one interface determines the permittivity. -/
lemma pseudo_interface {n0 c s : ℝ} {e n' c' rs rp ts tp : ℂ} (hn0 : 0 < n0) (hc : 0 < c) (hs : 0 < s) (hcs : c ^ 2 + s ^ 2 = 1)
    (he0 : e ≠ 0) (he1 : e ≠ (n0 : ℂ) ^ 2) (hn : n' ^ 2 = e) (hk : n' ^ 2 * c' ^ 2 = e - (n0 : ℂ) ^ 2 * s ^ 2)
    (hdp : n' * c + n0 * c' ≠ 0)
    (hS : InterfaceS n0 c n' c' rs ts) (hP : InterfaceP n0 c n' c' rp tp) :
    rs ≠ 0 ∧ 1 + rp / rs ≠ 0 ∧
    (s : ℂ) ^ 2 * (1 + ((s / c : ℝ) : ℂ) ^ 2 * ((1 - rp / rs) / (1 + rp / rs)) ^ 2) = e / (n0 : ℂ) ^ 2 ∧
    (1 - rp / rs) / (1 + rp / rs) = c * (n' * c') / (n0 * s ^ 2) := by
  have hn0' : (n0 : ℂ) ≠ 0 := by exact_mod_cast hn0.ne'
  have hc' : (c : ℂ) ≠ 0 := by exact_mod_cast hc.ne'
  have hs' : (s : ℂ) ≠ 0 := by exact_mod_cast hs.ne'
  have hcs' : (c : ℂ) ^ 2 + (s : ℂ) ^ 2 = 1 := by exact_mod_cast hcs
  have hn'0 : n' ≠ 0 := by
    intro h
    rw [h] at hn
    apply he0
    rw [← hn]
    ring
  obtain ⟨hS1, hS2⟩ := hS
  obtain ⟨hP1, hP2⟩ := hP
  have hde : e - (n0 : ℂ) ^ 2 ≠ 0 := sub_ne_zero.2 he1
  set k := n' * c' with hkdef
  have hk2 : k ^ 2 = e - (n0 : ℂ) ^ 2 * s ^ 2 := by rw [hkdef, mul_pow]; exact hk
  have hprod : ((n0 : ℂ) * c + k) * (n0 * c - k) = (n0 : ℂ) ^ 2 - e := by
    linear_combination -hk2 + (n0 : ℂ) ^ 2 * hcs'
  have hds : (n0 : ℂ) * c + k ≠ 0 := by
    intro h
    rw [h, zero_mul] at hprod
    exact hde (by linear_combination hprod)
  have hds' : (n0 : ℂ) * c - k ≠ 0 := by
    intro h
    rw [h, mul_zero] at hprod
    exact hde (by linear_combination hprod)
  have hrs : rs = (n0 * c - k) / (n0 * c + k) := by
    rw [eq_div_iff hds]
    rw [← hS1] at hS2
    linear_combination -hS2
  have hdp2 : e * c + n0 * k ≠ 0 := by
    have : n' * (n' * c + n0 * c') = e * c + n0 * k := by rw [hkdef, ← hn]; ring
    rw [← this]
    exact mul_ne_zero hn'0 hdp
  have hrp : rp = (e * c - n0 * k) / (e * c + n0 * k) := by
    rw [eq_div_iff hdp2, hkdef, ← hn]
    linear_combination n' ^ 2 * (-hP1) + n' * c' * hP2
  have hrs0 : rs ≠ 0 := by rw [hrs]; exact div_ne_zero hds' hds
  have hsum : rs + rp = 2 * n0 * s ^ 2 * (n0 ^ 2 - e) / ((n0 * c + k) * (e * c + n0 * k)) := by
    rw [hrs, hrp, div_add_div _ _ hds hdp2]
    congr 1
    linear_combination (-2 * n0 : ℂ) * hk2 + (2 * n0 * e : ℂ) * hcs'
  have hdiff : rs - rp = 2 * c * k * (n0 ^ 2 - e) / ((n0 * c + k) * (e * c + n0 * k)) := by
    rw [hrs, hrp, div_sub_div _ _ hds hdp2]
    congr 1
    ring
  have hden : (n0 * c + k) * (e * c + n0 * k) ≠ 0 := mul_ne_zero hds hdp2
  have hde' : (n0 : ℂ) ^ 2 - e ≠ 0 := fun h => hde (by linear_combination -h)
  have hsum0 : rs + rp ≠ 0 := by
    rw [hsum]
    exact div_ne_zero (mul_ne_zero (mul_ne_zero (mul_ne_zero two_ne_zero hn0') (pow_ne_zero 2 hs')) hde') hden
  have h1p : 1 + rp / rs = (rs + rp) / rs := by field_simp
  have h1m : 1 - rp / rs = (rs - rp) / rs := by field_simp
  have hq : (1 - rp / rs) / (1 + rp / rs) = c * k / (n0 * s ^ 2) := by
    rw [h1p, h1m, div_div_div_cancel_right₀ hrs0, hsum, hdiff, div_div_div_cancel_right₀ hden]
    field_simp
  refine ⟨hrs0, by rw [h1p]; exact div_ne_zero hsum0 hrs0, ?_, hq⟩
  rw [hq, div_pow, mul_pow, hk2]
  push_cast
  field_simp
  ring

/-- Brewster's angle is not a pole: the p denominator of an interface never vanishes for a real front index. -/
lemma p_denominator {n0 c s : ℝ} {e : ℂ} (hn0 : 0 < n0) (hc : 0 < c) (hs : 0 < s) (hcs : c ^ 2 + s ^ 2 = 1) (he0 : e ≠ 0)
    (he1 : e ≠ (n0 : ℂ) ^ 2) :
    Complex.sqrt e * c + n0 * Complex.sqrt (1 - ((n0 * s : ℝ) / Complex.sqrt e) ^ 2) ≠ 0 := by
  intro h
  set n' := Complex.sqrt e with hn'
  have hn2 : n' ^ 2 = e := csqrt_sq e
  have hn'0 : n' ≠ 0 := fun h => he0 (csqrt_eq_zero.1 h)
  set c' := Complex.sqrt (1 - ((n0 * s : ℝ) / n') ^ 2) with hc'
  have hc2 : c' ^ 2 = 1 - ((n0 * s : ℝ) / n') ^ 2 := csqrt_sq _
  have hcs' : (c : ℂ) ^ 2 + (s : ℂ) ^ 2 = 1 := by exact_mod_cast hcs
  have hn0' : (n0 : ℂ) ≠ 0 := by exact_mod_cast hn0.ne'
  have hcz : (c : ℂ) ≠ 0 := by exact_mod_cast hc.ne'
  have hk : n' ^ 2 * c' ^ 2 = e - (n0 : ℂ) ^ 2 * s ^ 2 := by
    rw [hc2, ← hn2]
    push_cast
    field_simp
  have h2 : (e - (n0 : ℂ) ^ 2) * (e * c ^ 2 - n0 ^ 2 * s ^ 2) = 0 := by
    have h3 : e ^ 2 * c ^ 2 = (n0 : ℂ) ^ 2 * (n' ^ 2 * c' ^ 2) := by
      have : n' * (n' * c) = -(n0 * (n' * c')) := by linear_combination n' * h
      have h4 := congrArg (fun x => x ^ 2) this
      rw [← hn2]
      linear_combination h4
    rw [hk] at h3
    linear_combination h3 - (n0 : ℂ) ^ 2 * e * hcs'
  have he : e = (((n0 * s / c) ^ 2 : ℝ) : ℂ) := by
    have := (mul_eq_zero.1 h2).resolve_left (sub_ne_zero.2 he1)
    push_cast
    field_simp
    linear_combination this
  have hpos : 0 < n0 * s / c := by positivity
  have hnr : n' = ((n0 * s / c : ℝ) : ℂ) := by
    rw [hn', he, csqrt_ofReal (by positivity), Real.sqrt_sq hpos.le]
  have hcr : c' = ((s : ℝ) : ℂ) := by
    rw [hc', hnr, ← Complex.ofReal_div]
    have : n0 * s / (n0 * s / c) = c := by field_simp
    rw [this]
    have : (1 : ℂ) - (c : ℂ) ^ 2 = ((s ^ 2 : ℝ) : ℂ) := by
      push_cast
      linear_combination -hcs'
    rw [this, csqrt_ofReal (by positivity), Real.sqrt_sq hs.le]
  rw [hnr, hcr] at h
  have h' : n0 * s / c * c + n0 * s = 0 := by exact_mod_cast h
  have : 0 < n0 * s / c * c + n0 * s := by positivity
  linarith

lemma sin_pos_of_angle {theta : ℝ} (h1 : 0 < theta) (h2 : theta < 90) : 0 < Real.sin (deg2rad theta) := by
  apply Real.sin_pos_of_pos_of_lt_pi <;> unfold deg2rad <;> nlinarith [Real.pi_pos]

/-- The simulated rho of a bulk sample. -/
lemma bulk_ratio (s : Stack) (n0 theta lbda : ℝ) (ee) (hn0 : 0 < n0)
    (hf : s.front 0 0 = ((n0 ^ 2 : ℝ) : ℂ)) (hl : s.layers = []) (hb : s.backIsotropic = true) (h1 : 0 < theta)
    (h2 : theta < 90) (he0 : s.back 0 0 ≠ 0) (he1 : s.back 0 0 ≠ s.front 0 0) {a : ℂ} (ha : a ≠ 0) :
    let out := calculate4x4 propExpm s theta lbda ee
    let rho := (Result.mk' out.jr out.jt out.power ![a, a]).rho
    1 + rho ≠ 0 ∧ pseudoEps rho theta = some (s.back 0 0 / s.front 0 0) ∧
    (1 - rho) / (1 + rho) = Real.cos (deg2rad theta) * (nOf s.back * cosPhi (kxOf s theta) s.back) / (n0 * Real.sin (deg2rad theta) ^ 2) := by
  intro out rho
  have hc : 0 < Real.cos (deg2rad theta) := cos_pos_of_angle (by rw [abs_of_pos h1]; exact h2)
  have hs := sin_pos_of_angle h1 h2
  have hcs : Real.cos (deg2rad theta) ^ 2 + Real.sin (deg2rad theta) ^ 2 = 1 := Real.cos_sq_add_sin_sq _
  have hnf := nOf_front hn0 hf
  have hn0' : (n0 : ℂ) ≠ 0 := by exact_mod_cast hn0.ne'
  have hcf := cosPhi_front s theta (by rw [hnf]; exact hn0') hc
  have hkx := kxOf_real hn0 hf theta
  have he1' : s.back 0 0 ≠ (n0 : ℂ) ^ 2 := by
    rw [hf] at he1
    push_cast at he1
    exact he1
  have hpd := p_denominator hn0 hc hs hcs he0 he1'
  have hcb : cosPhi (kxOf s theta) s.back =
      Complex.sqrt (1 - ((n0 * Real.sin (deg2rad theta) : ℝ) / Complex.sqrt (s.back 0 0)) ^ 2) := by
    unfold cosPhi nOf
    rw [hkx]
  have hk : nOf s.back ^ 2 * cosPhi (kxOf s theta) s.back ^ 2 =
      s.back 0 0 - (n0 : ℂ) ^ 2 * (Real.sin (deg2rad theta) : ℂ) ^ 2 := by
    have hb0 : nOf s.back ≠ 0 := fun h => he0 (csqrt_eq_zero.1 h)
    rw [hcb, csqrt_sq]
    change nOf s.back ^ 2 * (1 - (_ / nOf s.back) ^ 2) = _
    rw [div_pow, mul_sub, mul_div_cancel₀ _ (pow_ne_zero 2 hb0)]
    unfold nOf
    rw [csqrt_sq]
    push_cast
    ring
  have hds : nOf s.front * cosPhi (kxOf s theta) s.front + nOf s.back * cosPhi (kxOf s theta) s.back ≠ 0 := by
    intro h
    rw [hnf, hcf] at h
    apply he1'
    have hcs' : (Real.cos (deg2rad theta) : ℂ) ^ 2 + (Real.sin (deg2rad theta) : ℂ) ^ 2 = 1 := by exact_mod_cast hcs
    have h3 : (nOf s.back * cosPhi (kxOf s theta) s.back) ^ 2 = ((n0 : ℂ) * Real.cos (deg2rad theta)) ^ 2 := by
      have : nOf s.back * cosPhi (kxOf s theta) s.back = -((n0 : ℂ) * Real.cos (deg2rad theta)) := by linear_combination h
      rw [this]
      ring
    rw [mul_pow, hk] at h3
    linear_combination h3 + (n0 : ℂ) ^ 2 * hcs'
  have hdp : nOf s.back * cosPhi (kxOf s theta) s.front + nOf s.front * cosPhi (kxOf s theta) s.back ≠ 0 := by
    rw [hnf, hcf, hcb]
    exact hpd
  obtain ⟨hS, hP⟩ := C32_fresnel_4x4 s theta lbda ee hl hb (by rw [hnf]; exact hn0')
    (by rw [hcf]; exact_mod_cast hc.ne') hds hdp
  have hx1 := C38_no_cross_polarisation s theta lbda ee (by rw [hl]; intro l h; simp at h) hb 0 1 (by decide)
  have hx2 := C38_no_cross_polarisation s theta lbda ee (by rw [hl]; intro l h; simp at h) hb 1 0 (by decide)
  rw [hnf, hcf] at hS hP
  have hdp' : nOf s.back * (Real.cos (deg2rad theta) : ℂ) + n0 * cosPhi (kxOf s theta) s.back ≠ 0 := by
    rw [hnf, hcf] at hdp
    exact hdp
  obtain ⟨r1, r2, r3, r4⟩ := pseudo_interface hn0 hc hs hcs he0 he1' (csqrt_sq _) hk hdp' hS hP
  have hrho : rho = _ := rho_diag _ _ _ a ha r1 hx1.1 hx2.1
  rw [hrho]
  refine ⟨r2, ?_, r4⟩
  unfold pseudoEps
  have hth : theta * Real.pi / 180 = deg2rad theta := by unfold deg2rad; ring
  simp only [hth]
  rw [if_neg (by push Not; exact ⟨r2, hc.ne'⟩), Real.tan_eq_sin_div_cos, r3, hf]
  push_cast
  rfl

/-- C42: for a bulk sample under a medium of real index `n0`, `calc_pseudo_diel` applied to the simulated rho gives the permittivity
relative to the front medium, at every angle strictly between 0 and 90 degrees and for every permittivity other than zero and that of
the front medium. -/
theorem C42_pseudo_dielectric_relative (s : Stack) (n0 theta lbda : ℝ) (ee) (hn0 : 0 < n0)
    (hf : s.front 0 0 = ((n0 ^ 2 : ℝ) : ℂ)) (hl : s.layers = []) (hb : s.backIsotropic = true) (h1 : 0 < theta)
    (h2 : theta < 90) (he0 : s.back 0 0 ≠ 0) (he1 : s.back 0 0 ≠ s.front 0 0) (p : Pol) :
    ∃ a b : ℂ, (setVector p .none).jones = .vec a b ∧
      let out := calculate4x4 propExpm s theta lbda ee
      pseudoEps (Result.mk' out.jr out.jt out.power ![a, b]).rho theta = some (s.back 0 0 / s.front 0 0) := by
  obtain ⟨a, ha, hj⟩ := default_jones p
  exact ⟨a, a, hj, (bulk_ratio s n0 theta lbda ee hn0 hf hl hb h1 h2 he0 he1 ha).2.1⟩

/-- C42: for a bulk sample in air, `calc_pseudo_diel` of the simulated rho is the permittivity of the sample in all three output
formats. -/
theorem C42_pseudo_dielectric (e : ℂ) (back : Tensor) (hback : back 0 0 = e) (he0 : e ≠ 0) (he1 : e ≠ 1) (theta lbda : ℝ) (ee)
    (h1 : 0 < theta) (h2 : theta < 90) (p : Pol) :
    ∃ a b : ℂ, (setVector p .none).jones = .vec a b ∧
      let out := calculate4x4 propExpm ⟨isoTensor 1, [], back, true⟩ theta lbda ee
      let rho := (Result.mk' out.jr out.jt out.power ![a, b]).rho
      calcPseudoDiel rho theta "epsi" = some (.epsi e) ∧
      calcPseudoDiel rho theta "eps" = some (.eps e.re e.im) ∧
      calcPseudoDiel rho theta "n" = some (.nk (nOf back).re (nOf back).im) := by
  obtain ⟨a, b, hj, h⟩ := C42_pseudo_dielectric_relative ⟨isoTensor 1, [], back, true⟩ 1 theta lbda ee one_pos
    (by simp [isoTensor]) rfl rfl h1 h2 (by simpa [hback] using he0) (by simpa [hback, isoTensor] using he1) p
  refine ⟨a, b, hj, ?_⟩
  simp only [isoTensor, if_true, div_one, hback] at h
  intro out rho
  have h' : pseudoEps rho theta = some e := h
  refine ⟨?_, ?_, ?_⟩ <;> unfold calcPseudoDiel <;> rw [h'] <;> simp [nOf, hback]

/-- An absorbing bulk sample at 70 degrees. -/
example : ((4 + I : ℂ) ≠ 0 ∧ (4 + I : ℂ) ≠ 1) ∧ (0 : ℝ) < 70 ∧ (70 : ℝ) < 90 := by
  refine ⟨⟨?_, ?_⟩, by norm_num, by norm_num⟩ <;>
  · intro h
    have := congrArg Complex.im h
    simp at this

/-! ## C43 -/

/-- Equality of the two products in the numerator of the p reflection. -/
lemma brewster_alg {n0 nb c s : ℝ} (hn0 : 0 < n0) (hnb : 0 < nb) (hc : 0 < c) (hs : 0 ≤ s) (hcs : c ^ 2 + s ^ 2 = 1) :
    (nb : ℂ) * c = n0 * Complex.sqrt ((1 - (n0 * s / nb) ^ 2 : ℝ) : ℂ) ↔ (n0 = nb ∨ s / c = nb / n0) := by
  constructor
  · intro h
    have h2 := congrArg (fun z => z ^ 2) h
    rw [mul_pow, mul_pow, csqrt_sq] at h2
    have h3 : nb ^ 2 * c ^ 2 = n0 ^ 2 * (1 - (n0 * s / nb) ^ 2) := by exact_mod_cast h2
    have h4 : nb ^ 4 * c ^ 2 = n0 ^ 2 * nb ^ 2 - n0 ^ 4 * s ^ 2 := by
      have : n0 ^ 2 * (1 - (n0 * s / nb) ^ 2) = (n0 ^ 2 * nb ^ 2 - n0 ^ 4 * s ^ 2) / nb ^ 2 := by
        field_simp
      rw [this, eq_div_iff (by positivity)] at h3
      linarith
    have h5 : (nb ^ 2 - n0 ^ 2) * (nb ^ 2 * c ^ 2 - n0 ^ 2 * s ^ 2) = 0 := by
      linear_combination h4 - n0 ^ 2 * nb ^ 2 * hcs
    rcases mul_eq_zero.1 h5 with h6 | h6
    · left
      have : nb ^ 2 = n0 ^ 2 := by linarith
      exact ((sq_eq_sq₀ hnb.le hn0.le).1 this).symm
    · right
      have : (nb * c) ^ 2 = (n0 * s) ^ 2 := by rw [mul_pow, mul_pow]; linarith
      have := (sq_eq_sq₀ (by positivity) (by positivity)).1 this
      rw [div_eq_div_iff hc.ne' hn0.ne']
      linarith
  · rintro (h | h)
    · subst h
      have : 1 - (n0 * s / n0) ^ 2 = c ^ 2 := by
        rw [mul_div_cancel_left₀ _ hn0.ne']
        linarith
      rw [this, csqrt_ofReal (by positivity), Real.sqrt_sq hc.le]
    · rw [div_eq_div_iff hc.ne' hn0.ne'] at h
      have h' : n0 * s / nb = c := by
        rw [div_eq_iff hnb.ne']
        linarith
      have : 1 - (n0 * s / nb) ^ 2 = s ^ 2 := by rw [h']; linarith
      rw [this, csqrt_ofReal (by positivity), Real.sqrt_sq hs]
      exact_mod_cast (by linarith : nb * c = n0 * s)

/-- C43, Brewster's angle: at an interface between two transparent media the p reflection vanishes exactly at
`tan θ = n_b / n_0` (unless the media are the same). -/
theorem C43_brewster (s : Stack) (n0 nb theta lbda : ℝ) (ee) (hn0 : 0 < n0) (hnb : 0 < nb)
    (hf : s.front 0 0 = ((n0 ^ 2 : ℝ) : ℂ)) (hbk : s.back 0 0 = ((nb ^ 2 : ℝ) : ℂ)) (hl : s.layers = [])
    (hb : s.backIsotropic = true) (h1 : 0 ≤ theta) (h2 : theta < 90) :
    (calculate4x4 propExpm s theta lbda ee).jr 0 0 = 0 ↔
      (n0 = nb ∨ Real.tan (deg2rad theta) = nb / n0) := by
  have hc : 0 < Real.cos (deg2rad theta) := cos_pos_of_angle (by rw [abs_of_nonneg h1]; exact h2)
  have hs : 0 ≤ Real.sin (deg2rad theta) := by
    apply Real.sin_nonneg_of_nonneg_of_le_pi <;> unfold deg2rad <;> nlinarith [Real.pi_pos]
  have hcs : Real.cos (deg2rad theta) ^ 2 + Real.sin (deg2rad theta) ^ 2 = 1 := Real.cos_sq_add_sin_sq _
  have hnf := nOf_front hn0 hf
  have hnbk : nOf s.back = (nb : ℂ) := by
    unfold nOf
    rw [hbk, csqrt_ofReal (by positivity), Real.sqrt_sq hnb.le]
  have hn0' : (n0 : ℂ) ≠ 0 := by exact_mod_cast hn0.ne'
  have hcf := cosPhi_front s theta (by rw [hnf]; exact hn0') hc
  have hkx := kxOf_real hn0 hf theta
  have hcb : cosPhi (kxOf s theta) s.back = Complex.sqrt ((1 - (n0 * Real.sin (deg2rad theta) / nb) ^ 2 : ℝ) : ℂ) := by
    unfold cosPhi
    rw [hkx, hnbk]
    push_cast
    rfl
  have hre : 0 ≤ (cosPhi (kxOf s theta) s.back).re := csqrt_re_nonneg _
  have hds : nOf s.front * cosPhi (kxOf s theta) s.front + nOf s.back * cosPhi (kxOf s theta) s.back ≠ 0 := by
    rw [hnf, hcf, hnbk]
    intro h
    have := congrArg Complex.re h
    simp only [Complex.add_re, Complex.re_ofReal_mul, Complex.ofReal_re, Complex.zero_re] at this
    have := mul_nonneg hnb.le hre
    have := mul_pos hn0 hc
    linarith
  have hdp : nOf s.back * cosPhi (kxOf s theta) s.front + nOf s.front * cosPhi (kxOf s theta) s.back ≠ 0 := by
    rw [hnf, hcf, hnbk]
    intro h
    have := congrArg Complex.re h
    simp only [Complex.add_re, Complex.re_ofReal_mul, Complex.ofReal_re, Complex.zero_re] at this
    have := mul_nonneg hn0.le hre
    have := mul_pos hnb hc
    linarith
  obtain ⟨-, hP1, hP2⟩ := C32_fresnel_4x4 s theta lbda ee hl hb (by rw [hnf]; exact hn0')
    (by rw [hcf]; exact_mod_cast hc.ne') hds hdp
  rw [hcf, hcb] at hP1
  rw [hnf, hnbk] at hP2
  rw [hnf, hcf, hnbk, hcb] at hdp
  rw [Real.tan_eq_sin_div_cos, ← brewster_alg hn0 hnb hc hs hcs]
  generalize (calculate4x4 propExpm s theta lbda ee).jr 0 0 = r at *
  generalize (calculate4x4 propExpm s theta lbda ee).jt 0 0 = t at *
  generalize Complex.sqrt ((1 - (n0 * Real.sin (deg2rad theta) / nb) ^ 2 : ℝ) : ℂ) = c' at *
  generalize (Real.cos (deg2rad theta) : ℂ) = c at *
  have hr : r * (nb * c + n0 * c') = nb * c - n0 * c' := by linear_combination (-(nb : ℂ)) * hP1 + c' * hP2
  constructor
  · intro h
    rw [h, zero_mul] at hr
    linear_combination -hr
  · intro h
    rw [h, sub_self] at hr
    exact (mul_eq_zero.1 hr).resolve_right (by rw [h] at hdp; exact hdp)

/-- Air on glass of index 1.5 has a Brewster angle in the range of the theorem. -/
example : ∃ theta : ℝ, 0 ≤ theta ∧ theta < 90 ∧ Real.tan (deg2rad theta) = 1.5 / 1 := by
  refine ⟨Real.arctan 1.5 * (180 / Real.pi), ?_, ?_, ?_⟩
  · have : 0 ≤ Real.arctan 1.5 := Real.arctan_nonneg.2 (by norm_num)
    have := Real.pi_pos
    positivity
  · have h := Real.arctan_lt_pi_div_two 1.5
    have := Real.pi_pos
    calc Real.arctan 1.5 * (180 / Real.pi) < Real.pi / 2 * (180 / Real.pi) := by
          apply mul_lt_mul_of_pos_right h
          positivity
      _ = 90 := by field_simp; norm_num
  · have : deg2rad (Real.arctan 1.5 * (180 / Real.pi)) = Real.arctan 1.5 := by
      unfold deg2rad
      have := Real.pi_ne_zero
      field_simp
    rw [this, Real.tan_arctan]
    norm_num

/-- C43, total reflection: if the exit medium cannot carry the wave (`ε_b ≤ (n_0 sin θ)²`, which includes every angle beyond the critical
one and lossless metals), any lossless stack reflects everything and transmits nothing, for both incident polarisations. -/
theorem C43_total_reflection (s : Stack) (n0 theta lbda : ℝ) (h : PassiveStack s theta lbda) (hn0 : 0 < n0)
    (hf : s.front 0 0 = ((n0 ^ 2 : ℝ) : ℂ)) (hl : ∀ l ∈ s.layers, Lossless l.2) (hb : (s.back 0 0).im = 0)
    (hcrit : (s.back 0 0).re ≤ (n0 * Real.sin (deg2rad theta)) ^ 2) (ee) (jones : Fin 2 → ℂ) :
    let out := calculate4x4 propExpm s theta lbda ee
    let res := Result.mk' out.jr out.jt out.power jones
    ∀ j, res.RMatrix 0 j + res.RMatrix 1 j = 1 ∧ ∀ i, res.TMatrix i j = 0 := by
  intro out res j
  have hE := C35_energy_conservation s theta lbda h hl hb ee jones j
  have hkz : (getKz s.back (kxOf s theta)).re = 0 := by
    unfold getKz nOf
    rw [csqrt_sq, kxOf_real hn0 hf]
    have e : s.back 0 0 - ((n0 * Real.sin (deg2rad theta) : ℝ) : ℂ) ^ 2 =
        (((s.back 0 0).re - (n0 * Real.sin (deg2rad theta)) ^ 2 : ℝ) : ℂ) := by
      apply Complex.ext
      · simp [pow_two]
      · simp [pow_two, hb]
    rw [e]
    have hsq := csqrt_sq (((s.back 0 0).re - (n0 * Real.sin (deg2rad theta)) ^ 2 : ℝ) : ℂ)
    have hnn := csqrt_re_nonneg (((s.back 0 0).re - (n0 * Real.sin (deg2rad theta)) ^ 2 : ℝ) : ℂ)
    generalize Complex.sqrt (((s.back 0 0).re - (n0 * Real.sin (deg2rad theta)) ^ 2 : ℝ) : ℂ) = w at *
    have hre := congrArg Complex.re hsq
    have him := congrArg Complex.im hsq
    rw [pow_two, Complex.mul_re, Complex.ofReal_re] at hre
    rw [pow_two, Complex.mul_im, Complex.ofReal_im] at him
    have : w.re * w.im = 0 := by linarith
    rcases mul_eq_zero.1 this with h0 | h0
    · exact h0
    · rw [h0] at hre
      nlinarith
  have hT : ∀ i, res.TMatrix i j = 0 := by
    intro i
    simp only [res, out, Result.TMatrix, Result.mk', calculate4x4, h.iso, if_true, Option.getD_some, hkz, zero_div]
    simp
  refine ⟨?_, hT⟩
  have : res.RMatrix 0 j + res.RMatrix 1 j + (res.TMatrix 0 j + res.TMatrix 1 j) = 1 := hE
  rw [hT, hT] at this
  linarith

/-- Glass prism, coating, air, 60 degrees. -/
example : PassiveStack ⟨isoTensor 4, [(100, isoTensor (9 / 4))], isoTensor 1, true⟩ 60 500 ∧
    ((isoTensor 1 : Tensor) 0 0).re ≤ (2 * Real.sin (deg2rad 60)) ^ 2 := by
  constructor
  · exact {
      front := ⟨2, by norm_num, by simp [isoTensor]; norm_num⟩
      angle := by norm_num
      lbda_pos := by norm_num
      layers := by
        intro l hl
        simp only [List.mem_singleton] at hl
        subst hl
        exact ⟨by norm_num, by simp [isoTensor], passive_isoTensor (by norm_num)⟩
      back_ne := by simp [isoTensor]
      back_passive := by simp [isoTensor]
      iso := rfl }
  · have : deg2rad 60 = Real.pi / 3 := by unfold deg2rad; ring
    rw [this, Real.sin_pi_div_three]
    simp only [isoTensor, if_true, Complex.one_re]
    have := Real.mul_self_sqrt (show (0 : ℝ) ≤ 3 by norm_num)
    nlinarith

lemma exp_half_wave (m : ℕ) : Complex.exp (I * (m * Real.pi)) = (-1) ^ m ∧ Complex.exp (-I * (m * Real.pi)) = (-1) ^ m := by
  constructor
  · rw [show I * (m * Real.pi) = (m : ℂ) * (Real.pi * I) by ring, Complex.exp_nat_mul, Complex.exp_pi_mul_I]
  · rw [show -I * (m * Real.pi) = -((m : ℂ) * (Real.pi * I)) by ring, Complex.exp_neg, Complex.exp_nat_mul,
      Complex.exp_pi_mul_I, ← inv_pow]
    norm_num

/-- A layer of `m` half waves is plus or minus the identity. -/
lemma half_wave (kx e : ℂ) (d lbda : ℝ) (m : ℕ) (hl : lbda ≠ 0) (he : e ≠ 0) (hc : cosPhi kx (isoTensor e) ≠ 0)
    (hd : 2 * nOf (isoTensor e) * cosPhi kx (isoTensor e) * d = m * lbda) :
    propExpm (buildDelta kx (isoTensor e)) (-d) lbda = ((-1) ^ m : ℂ) • 1 := by
  have hn2 : nOf (isoTensor e) ^ 2 = e := by
    unfold nOf
    rw [csqrt_sq]
    simp [isoTensor]
  have hn : nOf (isoTensor e) ≠ 0 := by
    intro h
    rw [h] at hn2
    exact he (by rw [← hn2]; ring)
  have hc2 : cosPhi kx (isoTensor e) ^ 2 = 1 - (kx / nOf (isoTensor e)) ^ 2 := csqrt_sq _
  have hl' : (lbda : ℂ) ≠ 0 := by exact_mod_cast hl
  have hph : 2 * Real.pi * nOf (isoTensor e) * cosPhi kx (isoTensor e) / lbda * d = m * Real.pi := by
    field_simp
    linear_combination hd
  have hS := charS_mul hn hc hn2 hc2 lbda d
  have hP := charP_mul hn hc hn2 hc2 lbda d
  rw [hph, (exp_half_wave m).1, (exp_half_wave m).2] at hS hP
  have hdiag : (!![(-1) ^ m, 0; 0, (-1) ^ m] : Mat2) = ((-1) ^ m : ℂ) • (1 : Mat2) := by
    ext i j
    fin_cases i <;> fin_cases j <;> simp
  rw [hdiag, Matrix.mul_smul, Matrix.mul_one] at hS hP
  have hS' : charMat (deltaS kx e) lbda d = ((-1) ^ m : ℂ) • (1 : Mat2) := by
    have := congrArg (fun M => M * DsInv (nOf (isoTensor e)) (cosPhi kx (isoTensor e))) hS
    simp only [Matrix.mul_assoc, Ds_mul_inv hn hc, Matrix.mul_one, Matrix.smul_mul] at this
    exact this
  have hP' : charMat (deltaP kx e) lbda d = ((-1) ^ m : ℂ) • (1 : Mat2) := by
    have := congrArg (fun M => M * DpInv (nOf (isoTensor e)) (cosPhi kx (isoTensor e))) hP
    simp only [Matrix.mul_assoc, Dp_mul_inv hn hc, Matrix.mul_one, Matrix.smul_mul] at this
    exact this
  rw [propExpm_iso, hS', hP', ← blk_smul, blk_one]

lemma sign_sq (m : ℕ) : ((-1) ^ m : ℂ) * (-1) ^ m = 1 := by
  rw [← mul_pow]
  norm_num

lemma inv_smul_sign {z : ℂ} (hz : z * z = 1) (A : Mat2) : (z • A)⁻¹ = z • A⁻¹ := by
  by_cases hA : IsUnit A.det
  · apply Matrix.inv_eq_right_inv
    rw [Matrix.smul_mul, Matrix.mul_smul, smul_smul, hz, one_smul, Matrix.mul_nonsing_inv _ hA]
  · have h1 : A⁻¹ = 0 := Matrix.nonsing_inv_apply_not_isUnit _ hA
    have h2 : ¬ IsUnit (z • A).det := by
      rw [Matrix.det_smul, isUnit_iff_ne_zero, not_ne_iff]
      rw [isUnit_iff_ne_zero, not_ne_iff] at hA
      rw [hA, mul_zero]
    rw [h1, Matrix.nonsing_inv_apply_not_isUnit _ h2, smul_zero]

lemma tIt_smul (z : ℂ) (m : Mat4) : tIt (z • m) = z • tIt m := by
  ext i j
  fin_cases i <;> fin_cases j <;> simp [tIt]

lemma tRt_smul (z : ℂ) (m : Mat4) : tRt (z • m) = z • tRt m := by
  ext i j
  fin_cases i <;> fin_cases j <;> simp [tRt]

/-- A layer whose propagation matrix is a sign multiplies the transfer matrix with it. -/
lemma transfer_sign (s : Stack) (l₁ l₂ : List (ℝ × Tensor)) (l : ℝ × Tensor) (theta lbda : ℝ) (ee) (z : ℂ)
    (h : propExpm (buildDelta (kxOf s theta) l.2) (-l.1) lbda = z • 1) :
    transfer4x4 propExpm (s.withLayers (l₁ ++ l :: l₂)) theta lbda ee =
      z • transfer4x4 propExpm (s.withLayers (l₁ ++ l₂)) theta lbda ee := by
  unfold transfer4x4
  rw [loop4x4_eq, loop4x4_eq]
  have hk : ∀ ls, kxOf (s.withLayers ls) theta = kxOf s theta := fun _ => rfl
  have hx : ∀ ls, exitMatrix (s.withLayers ls) (kxOf s theta) ee = exitMatrix s (kxOf s theta) ee := fun _ => rfl
  simp only [hk, hx]
  simp only [Stack.withLayers, List.map_append, List.map_cons, List.prod_append, List.prod_cons]
  rw [h]
  simp only [Matrix.smul_mul, Matrix.mul_smul, Matrix.one_mul]

lemma calculate_sign (s s' : Stack) (theta lbda : ℝ) (ee) (z : ℂ) (hz : z * z = 1)
    (h : transfer4x4 propExpm s' theta lbda ee = z • transfer4x4 propExpm s theta lbda ee) :
    (calculate4x4 propExpm s' theta lbda ee).jr = (calculate4x4 propExpm s theta lbda ee).jr ∧
    (calculate4x4 propExpm s' theta lbda ee).jt = z • (calculate4x4 propExpm s theta lbda ee).jt := by
  unfold calculate4x4
  dsimp only
  rw [h]
  generalize transfer4x4 propExpm s theta lbda ee = m
  rw [tIt_smul, tRt_smul, inv_smul_sign hz]
  refine ⟨?_, rfl⟩
  rw [Matrix.smul_mul, Matrix.mul_smul, smul_smul, hz, one_smul]

/-- C43, half-wave layers: an isotropic layer with `n cos φ · d = m λ / 2` inserted anywhere in any stack leaves the reflection matrix
unchanged and multiplies the transmission matrix by `(-1)^m`. -/
theorem C43_half_wave (s : Stack) (l₁ l₂ : List (ℝ × Tensor)) (e : ℂ) (d theta lbda : ℝ) (m : ℕ) (ee) (hl : lbda ≠ 0)
    (he : e ≠ 0) (hc : cosPhi (kxOf s theta) (isoTensor e) ≠ 0)
    (hd : 2 * nOf (isoTensor e) * cosPhi (kxOf s theta) (isoTensor e) * d = m * lbda) :
    (calculate4x4 propExpm (s.withLayers (l₁ ++ (d, isoTensor e) :: l₂)) theta lbda ee).jr =
      (calculate4x4 propExpm (s.withLayers (l₁ ++ l₂)) theta lbda ee).jr ∧
    (calculate4x4 propExpm (s.withLayers (l₁ ++ (d, isoTensor e) :: l₂)) theta lbda ee).jt =
      ((-1) ^ m : ℂ) • (calculate4x4 propExpm (s.withLayers (l₁ ++ l₂)) theta lbda ee).jt :=
  calculate_sign _ _ theta lbda ee _ (sign_sq m)
    (transfer_sign s l₁ l₂ (d, isoTensor e) theta lbda ee _ (half_wave (kxOf s theta) e d lbda m hl he hc hd))

/-- One half wave of index 1.5 at normal incidence from air at 600 nm: 200 nm. -/
example : cosPhi (kxOf (demoStack 4) 0) (isoTensor (9 / 4)) ≠ 0 ∧
    2 * nOf (isoTensor (9 / 4)) * cosPhi (kxOf (demoStack 4) 0) (isoTensor (9 / 4)) * ((200 : ℝ) : ℂ) =
      ((1 : ℕ) : ℂ) * ((600 : ℝ) : ℂ) := by
  have hk : kxOf (demoStack 4) 0 = 0 := by simp [kxOf, deg2rad]
  have hc : cosPhi 0 (isoTensor (9 / 4)) = 1 := by
    unfold cosPhi
    have := csqrt_ofReal (x := 1) (by norm_num)
    simpa using this
  have n2 : nOf (isoTensor (9 / 4)) = 3 / 2 := by
    have := nOf_iso_sq (x := 3 / 2) (by norm_num)
    norm_num at this
    exact this
  rw [hk, hc, n2]
  norm_num

/-- C43, quarter-wave coating: a layer of index `sqrt(n_0 n_s)` whose thickness is `get_qwp_thickness` removes the reflection of a substrate at
normal incidence, at every wavelength for which it is designed. -/
theorem C43_quarter_wave (n0 ns lbda : ℝ) (hn0 : 0 < n0) (hns : 0 < ns) (hl : 0 < lbda) (ee) :
    (calculate4x4 propExpm ⟨isoTensor ((n0 ^ 2 : ℝ) : ℂ),
      [(qwpThickness (isoTensor ((n0 * ns : ℝ) : ℂ)) lbda, isoTensor ((n0 * ns : ℝ) : ℂ))],
      isoTensor ((ns ^ 2 : ℝ) : ℂ), true⟩ 0 lbda ee).jr = 0 := by
  set s : Stack := ⟨isoTensor ((n0 ^ 2 : ℝ) : ℂ),
      [(qwpThickness (isoTensor ((n0 * ns : ℝ) : ℂ)) lbda, isoTensor ((n0 * ns : ℝ) : ℂ))],
      isoTensor ((ns ^ 2 : ℝ) : ℂ), true⟩ with hs
  have hk : kxOf s 0 = 0 := by simp [kxOf, deg2rad]
  have hcos : ∀ e, cosPhi 0 (isoTensor e) = 1 := by
    intro e
    unfold cosPhi
    have := csqrt_ofReal (x := 1) (by norm_num)
    simpa using this
  set n1 := Real.sqrt (n0 * ns) with hn1
  have hn1p : 0 < n1 := Real.sqrt_pos.2 (by positivity)
  have hn1sq : n1 ^ 2 = n0 * ns := Real.sq_sqrt (by positivity)
  have i0 : nOf (isoTensor ((n0 ^ 2 : ℝ) : ℂ)) = n0 := nOf_iso_sq hn0.le
  have is : nOf (isoTensor ((ns ^ 2 : ℝ) : ℂ)) = ns := nOf_iso_sq hns.le
  have i1 : nOf (isoTensor ((n0 * ns : ℝ) : ℂ)) = n1 := by rw [← hn1sq]; exact nOf_iso_sq hn1p.le
  have hd : qwpThickness (isoTensor ((n0 * ns : ℝ) : ℂ)) lbda = lbda / (4 * n1) := by
    unfold qwpThickness
    rw [i1, Complex.ofReal_re]
  have c0 : (n0 : ℂ) ≠ 0 := by exact_mod_cast hn0.ne'
  have cs : (ns : ℂ) ≠ 0 := by exact_mod_cast hns.ne'
  have c1 : (n1 : ℂ) ≠ 0 := by exact_mod_cast hn1p.ne'
  have cl : (lbda : ℂ) ≠ 0 := by exact_mod_cast hl.ne'
  have csq : (n1 : ℂ) ^ 2 = n0 * ns := by exact_mod_cast hn1sq
  have hT := transfer4x4_iso s 0 lbda ee (by
    intro l hl
    simp only [hs, List.mem_singleton] at hl
    subst hl
    ext i j
    simp [isoTensor]) rfl
  rw [hk] at hT
  have hcf : cosPhi 0 s.front = 1 := hcos _
  have hcb : cosPhi 0 s.back = 1 := hcos _
  rw [hcf, hcb] at hT
  have hnf : nOf s.front = n0 := i0
  have hnb : nOf s.back = ns := is
  rw [hnf, hnb] at hT
  have hph : 2 * Real.pi * (n1 : ℂ) * 1 / lbda * ((lbda / (4 * n1) : ℝ) : ℂ) = Real.pi / 2 := by
    push_cast
    field_simp
    norm_num
  have e1 : Complex.exp (-I * (Real.pi / 2)) = -I := by
    rw [show -I * (Real.pi / 2) = -(Real.pi / 2 * I) by ring, Complex.exp_neg, Complex.exp_pi_div_two_mul_I, Complex.inv_I]
  have e2 : Complex.exp (I * (Real.pi / 2)) = I := by
    rw [mul_comm, Complex.exp_pi_div_two_mul_I]
  have hcc : (1 : ℂ) ^ 2 = 1 - (0 / (n1 : ℂ)) ^ 2 := by simp
  have hS : prodS 0 lbda s.layers = Ds n1 1 * !![-I, 0; 0, I] * DsInv n1 1 := by
    have := charS_mul (kx := 0) (eps := ((n0 * ns : ℝ) : ℂ)) c1 one_ne_zero (by rw [csq]; push_cast; rfl) hcc lbda (lbda / (4 * n1))
    rw [hph, e1, e2] at this
    have h2 := congrArg (fun M => M * DsInv n1 1) this
    simp only [Matrix.mul_assoc, Ds_mul_inv c1 one_ne_zero, Matrix.mul_one] at h2
    simp only [prodS, hs, List.map_cons, List.map_nil, List.prod_cons, List.prod_nil, mul_one, hd]
    rw [Matrix.mul_assoc, ← h2]
    simp [isoTensor]
  have hP : prodP 0 lbda s.layers = Dp n1 1 * !![-I, 0; 0, I] * DpInv n1 1 := by
    have := charP_mul (kx := 0) (eps := ((n0 * ns : ℝ) : ℂ)) c1 one_ne_zero (by rw [csq]; push_cast; rfl) hcc lbda (lbda / (4 * n1))
    rw [hph, e1, e2] at this
    have h2 := congrArg (fun M => M * DpInv n1 1) this
    simp only [Matrix.mul_assoc, Dp_mul_inv c1 one_ne_zero, Matrix.mul_one] at h2
    simp only [prodP, hs, List.map_cons, List.map_nil, List.prod_cons, List.prod_nil, mul_one, hd]
    rw [Matrix.mul_assoc, ← h2]
    simp [isoTensor]
  have zS : (DsInv (n0 : ℂ) 1 * prodS 0 lbda s.layers * Ds (ns : ℂ) 1) 1 0 = 0 := by
    rw [hS]
    simp [DsInv, Ds, Matrix.mul_apply, Fin.sum_univ_two]
    field_simp
    linear_combination (2 * I) * csq
  have zP : (DpInv (n0 : ℂ) 1 * prodP 0 lbda s.layers * Dp (ns : ℂ) 1) 1 0 = 0 := by
    rw [hP]
    simp [DpInv, Dp, Matrix.mul_apply, Fin.sum_univ_two]
    field_simp
    linear_combination (-2 * I) * csq
  simp only [calculate4x4, hT, tRt_blkD, zS, zP]
  have : (!![0, 0; 0, 0] : Mat2) = 0 := by
    ext i j
    fin_cases i <;> fin_cases j <;> rfl
  rw [this, Matrix.zero_mul]

end PyElli
