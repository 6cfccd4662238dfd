import Mathlib.Analysis.Complex.PhragmenLindelof
import Mathlib.Analysis.Complex.RemovableSingularity
import Mathlib.Analysis.SpecialFunctions.Pow.Deriv
import Verif.Lemmas.Sqrt

/-! Functions on the plane cut along `[t, ∞)` that are real on the remaining real line and map the upper half plane to itself.
The even second difference `(f(z) + f(-z) - 2 f(0)) / z²` of such a function has a nonnegative imaginary part in the first quadrant.
(With the Herglotz representation this would be immediate; here it follows from the principle of Phragmén and Lindelöf, applied to
the function after a shift of the square root of `t - z`, which makes it continuous up to the cut.) -/

namespace PyElli.Herglotz

open Complex Filter Topology Set Asymptotics Bornology ComplexConjugate

/-- The plane cut along `[t, ∞)`. -/
def Cut (t : ℝ) : Set ℂ := {z | z.im = 0 → z.re < t}

lemma isOpen_cut (t : ℝ) : IsOpen (Cut t) := by
  have : Cut t = {z : ℂ | z.im ≠ 0} ∪ {z : ℂ | z.re < t} := by
    ext z
    simp only [Cut, mem_setOf_eq, mem_union]
    tauto
  rw [this]
  exact (isOpen_ne_fun continuous_im continuous_const).union (isOpen_lt continuous_re continuous_const)

/-- The class of functions: differentiable off the cut, real on the real axis, the upper half plane is mapped to itself, at most linear growth. -/
structure Pick (t : ℝ) (f : ℂ → ℂ) : Prop where
  diff : DifferentiableOn ℂ f (Cut t)
  symm : ∀ z ∈ Cut t, f (conj z) = conj (f z)
  pos : ∀ z : ℂ, 0 < z.im → 0 ≤ (f z).im
  growth : ∃ B R : ℝ, ∀ z ∈ Cut t, R ≤ ‖z‖ → ‖f z‖ ≤ B * ‖z‖

/-- A square root of `t - z` that is continuous on the closed upper half plane. -/
noncomputable def rt (t : ℝ) (z : ℂ) : ℂ := (1 - I) / (√2 : ℝ) * Complex.sqrt (I * (t - z))

lemma rt_sq (t : ℝ) (z : ℂ) : rt t z ^ 2 = t - z := by
  have h2 : ((√2 : ℝ) : ℂ) ^ 2 = 2 := by rw [← ofReal_pow, Real.sq_sqrt (by norm_num)]; norm_num
  rw [rt, mul_pow, csqrt_sq, div_pow, h2]
  have : (1 - I) ^ 2 = -2 * I := by ring_nf; rw [I_sq]; ring
  rw [this]
  ring_nf
  rw [I_sq]
  ring

lemma rt_re (t : ℝ) (z : ℂ) : (rt t z).re = ((Complex.sqrt (I * (t - z))).re + (Complex.sqrt (I * (t - z))).im) / √2 := by
  rw [rt]
  generalize Complex.sqrt (I * (t - z)) = c
  rw [show (1 - I) / (√2 : ℝ) * c = ((1 - I) * c) / (√2 : ℝ) by ring, div_ofReal_re]
  simp

lemma rt_im (t : ℝ) (z : ℂ) : (rt t z).im = ((Complex.sqrt (I * (t - z))).im - (Complex.sqrt (I * (t - z))).re) / √2 := by
  rw [rt]
  generalize Complex.sqrt (I * (t - z)) = c
  rw [show (1 - I) / (√2 : ℝ) * c = ((1 - I) * c) / (√2 : ℝ) by ring, div_ofReal_im]
  simp
  ring

lemma rt_quadrant {t : ℝ} {z : ℂ} (h : 0 ≤ z.im) : 0 ≤ (rt t z).re ∧ (rt t z).im ≤ 0 := by
  have h1 := csqrt_re_nonneg (I * (t - z))
  have h2 := congrArg re (csqrt_sq (I * (t - z)))
  have h3 : (I * (t - z)).re = z.im := by simp
  rw [h3, pow_two, mul_re] at h2
  have h4 : |(Complex.sqrt (I * (t - z))).im| ≤ (Complex.sqrt (I * (t - z))).re := by
    apply abs_le_of_sq_le_sq _ h1
    nlinarith
  rw [abs_le] at h4
  rw [rt_re, rt_im]
  constructor
  · exact div_nonneg (by linarith [h4.1]) (Real.sqrt_nonneg _)
  · exact div_nonpos_of_nonpos_of_nonneg (by linarith [h4.2]) (Real.sqrt_nonneg _)

lemma rt_pos {t : ℝ} {z : ℂ} (h : z.re < t) : 0 < (rt t z).re := by
  have h1 := csqrt_re_nonneg (I * (t - z))
  have h2 := congrArg im (csqrt_sq (I * (t - z)))
  have h3 : (I * (t - z)).im = t - z.re := by simp
  rw [h3, pow_two, mul_im] at h2
  rw [rt_re]
  have h4 : 0 < (Complex.sqrt (I * (t - z))).re := by
    rcases h1.lt_or_eq with h | h'
    · exact h
    · rw [← h'] at h2; simp at h2; linarith
  have h5 : 0 < (Complex.sqrt (I * (t - z))).im := by nlinarith
  exact div_pos (by linarith) (by positivity)

lemma rt_conj {t : ℝ} {z : ℂ} (h : z.re < t) : rt t (conj z) = conj (rt t z) := by
  have h1 : 0 < (rt t (conj z)).re := rt_pos (by simpa using h)
  have h2 : 0 < (conj (rt t z)).re := by simpa using rt_pos h
  have h3 : rt t (conj z) ^ 2 = conj (rt t z) ^ 2 := by
    rw [rt_sq, ← map_pow, rt_sq]
    simp
  exact principal_sq_inj (Or.inl h1) (Or.inl h2) h3

lemma rt_norm (t : ℝ) (z : ℂ) : ‖rt t z‖ ^ 2 = ‖(t : ℂ) - z‖ := by
  rw [← norm_pow, rt_sq]

lemma csqrt_continuousAt_zero : ContinuousAt Complex.sqrt 0 := by
  have h0 : Complex.sqrt 0 = 0 := csqrt_eq_zero.2 rfl
  rw [ContinuousAt, h0, tendsto_zero_iff_norm_tendsto_zero]
  have h1 : ∀ z, ‖Complex.sqrt z‖ = √‖z‖ := by
    intro z
    rw [eq_comm, Real.sqrt_eq_iff_mul_self_eq (norm_nonneg _) (norm_nonneg _), ← norm_mul, csqrt_mul_self]
  simp only [h1]
  have : Tendsto (fun z : ℂ => √‖z‖) (𝓝 0) (𝓝 (√‖(0 : ℂ)‖)) := by
    exact (Real.continuous_sqrt.comp continuous_norm).tendsto 0
  simpa using this

lemma csqrt_differentiableAt {z : ℂ} (h : z ∈ slitPlane) : DifferentiableAt ℂ Complex.sqrt z := by
  have : Complex.sqrt = fun w : ℂ => w ^ (2⁻¹ : ℂ) := by ext w; rfl
  rw [this]
  exact (differentiableAt_id (𝕜 := ℂ)).cpow_const h

lemma rt_differentiableAt {t : ℝ} {z : ℂ} (h : 0 < z.im ∨ z.re ≠ t) : DifferentiableAt ℂ (rt t) z := by
  have h1 : I * ((t : ℂ) - z) ∈ slitPlane := by
    rw [mem_slitPlane_iff]
    rcases h with h | h
    · left; simpa using h
    · right; simp only [mul_im, I_re, I_im, sub_re, sub_im, ofReal_re, ofReal_im]; simp; exact fun h' => h (by linarith)
  unfold rt
  apply DifferentiableAt.const_mul
  exact DifferentiableAt.comp z (csqrt_differentiableAt h1) (by fun_prop)

lemma rt_continuousAt {t : ℝ} {z : ℂ} (h : 0 ≤ z.im) : ContinuousAt (rt t) z := by
  by_cases h' : 0 < z.im ∨ z.re ≠ t
  · exact (rt_differentiableAt h').continuousAt
  · push Not at h'
    have hz : I * ((t : ℂ) - z) = 0 := by
      have : (t : ℂ) - z = 0 := by
        apply Complex.ext
        · simp [h'.2]
        · simp; linarith [h'.1]
      rw [this, mul_zero]
    unfold rt
    apply ContinuousAt.mul continuousAt_const
    refine ContinuousAt.comp (g := Complex.sqrt) (f := fun w => I * ((t : ℂ) - w)) ?_ (by fun_prop)
    rw [hz]
    exact csqrt_continuousAt_zero

lemma sub_sq_mem {t : ℝ} {w : ℂ} (h : 0 < w.re) : (t : ℂ) - w ^ 2 ∈ Cut t := by
  intro hi
  have h1 : w.im = 0 := by
    simp [pow_two] at hi
    have : w.re * w.im = 0 := by linarith
    rcases mul_eq_zero.1 this with h' | h'
    · exact absurd h' h.ne'
    · exact h'
  simp [pow_two, h1]
  positivity

section
variable {t : ℝ} {f : ℂ → ℂ} (ht : 0 < t) (hf : Pick t f) {δ : ℝ} (hδ : 0 < δ)

/-- The argument after the shift of the root. -/
noncomputable def shift (t δ : ℝ) (z : ℂ) : ℂ := t - (rt t z + δ) ^ 2

lemma shift_mem {z : ℂ} (hδ : 0 < δ) (h : 0 ≤ z.im ∨ z.re < t) : shift t δ z ∈ Cut t := by
  apply sub_sq_mem
  have : 0 ≤ (rt t z).re := by
    rcases h with h | h
    · exact (rt_quadrant h).1
    · exact (rt_pos h).le
  simp only [add_re, ofReal_re]
  linarith

include hf in
lemma pick_real {z : ℂ} (hz : z ∈ Cut t) (h : z.im = 0) : (f z).im = 0 := by
  have h1 := hf.symm z hz
  rw [conj_eq_iff_im.2 h] at h1
  exact conj_eq_iff_im.1 h1.symm

include hf in
lemma pick_nonneg {z : ℂ} (hz : z ∈ Cut t) (h : 0 ≤ z.im) : 0 ≤ (f z).im := by
  rcases h.lt_or_eq with h | h
  · exact hf.pos z h
  · exact (pick_real hf hz h.symm).ge

lemma shift_im {z : ℂ} (hδ : 0 < δ) (h : 0 ≤ z.im) : 0 ≤ (shift t δ z).im := by
  obtain ⟨h1, h2⟩ := rt_quadrant (t := t) h
  have : (shift t δ z).im = -(2 * ((rt t z).re + δ) * (rt t z).im) := by
    simp [shift, pow_two]
    ring
  rw [this]
  nlinarith

lemma shift_conj {z : ℂ} (h : z.re < t) : shift t δ (conj z) = conj (shift t δ z) := by
  rw [shift, shift, rt_conj h]
  simp

include hf in
lemma comp_differentiableAt {z : ℂ} (hδ : 0 < δ) (h : 0 < z.im ∨ z.re < t ∨ (0 ≤ z.im ∧ z.re ≠ t)) :
    DifferentiableAt ℂ (fun z => f (shift t δ z)) z := by
  have h1 : shift t δ z ∈ Cut t := shift_mem hδ (by rcases h with h | h | h; exacts [Or.inl h.le, Or.inr h, Or.inl h.1])
  have h2 : DifferentiableAt ℂ (rt t) z := rt_differentiableAt (by rcases h with h | h | h; exacts [Or.inl h, Or.inr h.ne, Or.inr h.2])
  have h3 : DifferentiableAt ℂ (shift t δ) z := by
    unfold shift
    fun_prop
  exact DifferentiableAt.comp z (hf.diff.differentiableAt ((isOpen_cut t).mem_nhds h1)) h3

include hf in
lemma comp_continuousAt {z : ℂ} (hδ : 0 < δ) (h : 0 ≤ z.im) : ContinuousAt (fun z => f (shift t δ z)) z := by
  have h1 : shift t δ z ∈ Cut t := shift_mem hδ (Or.inl h)
  have h2 : ContinuousAt (rt t) z := rt_continuousAt h
  have h3 : ContinuousAt (shift t δ) z := by
    unfold shift
    fun_prop
  exact ContinuousAt.comp (g := f) (hf.diff.differentiableAt ((isOpen_cut t).mem_nhds h1)).continuousAt h3

/-- The even second difference of the shifted function. -/
noncomputable def second (f : ℂ → ℂ) (t δ : ℝ) (z : ℂ) : ℂ := f (shift t δ z) + f (shift t δ (-z)) - 2 * f (shift t δ 0)

lemma second_zero : second f t δ 0 = 0 := by simp [second]; ring

lemma second_neg (z : ℂ) : second f t δ (-z) = second f t δ z := by simp [second]; ring

lemma second_deriv_zero : deriv (second f t δ) 0 = 0 := by
  have h : (fun z => second f t δ (-z)) = second f t δ := funext second_neg
  have := deriv_comp_neg (second f t δ) 0
  rw [h, neg_zero] at this
  have h2 : deriv (second f t δ) 0 + deriv (second f t δ) 0 = 0 := by
    nth_rw 1 [this]; ring
  have h3 : (2 : ℂ) * deriv (second f t δ) 0 = 0 := by rw [two_mul]; exact h2
  exact (mul_eq_zero.1 h3).resolve_left two_ne_zero

include ht hf in
lemma second_differentiableAt {z : ℂ} (hδ : 0 < δ) (h : 0 ≤ z.re) (h' : 0 ≤ z.im) (hz : z ≠ t) :
    DifferentiableAt ℂ (second f t δ) z := by
  have h1 : 0 < z.im ∨ z.re < t ∨ (0 ≤ z.im ∧ z.re ≠ t) := by
    rcases h'.lt_or_eq with h2 | h2
    · exact Or.inl h2
    · refine Or.inr (Or.inr ⟨h', fun h3 => hz (Complex.ext (by simpa using h3) (by simpa using h2.symm))⟩)
  have h2 : DifferentiableAt ℂ (fun z => f (shift t δ (-z))) z := by
    have : DifferentiableAt ℂ (fun z => f (shift t δ z)) (-z) := comp_differentiableAt hf hδ (Or.inr (Or.inl (by simp; linarith)))
    exact DifferentiableAt.comp (g := fun z => f (shift t δ z)) z this differentiableAt_id.neg
  exact ((comp_differentiableAt hf hδ h1).add h2).sub_const _

include ht hf in
lemma second_differentiableAt' {z : ℂ} (hδ : 0 < δ) (h : |z.re| < t) : DifferentiableAt ℂ (second f t δ) z := by
  rw [abs_lt] at h
  have h2 : DifferentiableAt ℂ (fun z => f (shift t δ (-z))) z := by
    have : DifferentiableAt ℂ (fun z => f (shift t δ z)) (-z) := comp_differentiableAt hf hδ (Or.inr (Or.inl (by simp; linarith)))
    exact DifferentiableAt.comp (g := fun z => f (shift t δ z)) z this differentiableAt_id.neg
  exact ((comp_differentiableAt hf hδ (Or.inr (Or.inl h.2))).add h2).sub_const _

include ht hf in
lemma second_continuousAt {z : ℂ} (hδ : 0 < δ) (h : 0 ≤ z.re) (h' : 0 ≤ z.im) : ContinuousAt (second f t δ) z := by
  have h2 : ContinuousAt (fun z => f (shift t δ (-z))) z := by
    have : DifferentiableAt ℂ (fun z => f (shift t δ z)) (-z) := comp_differentiableAt hf hδ (Or.inr (Or.inl (by simp; linarith)))
    exact (DifferentiableAt.comp (g := fun z => f (shift t δ z)) z this differentiableAt_id.neg).continuousAt
  exact ((comp_continuousAt hf hδ h').add h2).sub continuousAt_const

/-- The second difference divided by `z²`, continued to zero. -/
noncomputable def quot (f : ℂ → ℂ) (t δ : ℝ) : ℂ → ℂ := dslope (dslope (second f t δ) 0) 0

lemma quot_of_ne {z : ℂ} (hz : z ≠ 0) : quot f t δ z = second f t δ z / z ^ 2 := by
  rw [quot, dslope_of_ne _ hz, slope, dslope_same, second_deriv_zero, dslope_of_ne _ hz, slope, second_zero]
  simp
  field_simp

include ht hf in
lemma quot_continuousAt {z : ℂ} (hδ : 0 < δ) (h : 0 ≤ z.re) (h' : 0 ≤ z.im) : ContinuousAt (quot f t δ) z := by
  by_cases hz : z = 0
  · subst hz
    rw [quot, continuousAt_dslope_same]
    have hs : {z : ℂ | |z.re| < t} ∈ 𝓝 (0 : ℂ) :=
      (isOpen_lt (continuous_abs.comp continuous_re) continuous_const).mem_nhds (by simpa using ht)
    have : DifferentiableOn ℂ (dslope (second f t δ) 0) {z : ℂ | |z.re| < t} :=
      (Complex.differentiableOn_dslope hs).2 fun z hz => (second_differentiableAt' ht hf hδ hz).differentiableWithinAt
    exact this.differentiableAt hs
  · rw [quot, continuousAt_dslope_of_ne hz, continuousAt_dslope_of_ne hz]
    exact second_continuousAt ht hf hδ h h'

include ht hf in
lemma quot_diffContOnCl (hδ : 0 < δ) : DiffContOnCl ℂ (quot f t δ) (Ioi 0 ×ℂ Ioi 0) := by
  constructor
  · have h0 : (0 : ℂ) ∉ (Ioi 0 ×ℂ Ioi 0 : Set ℂ) := by simp [mem_reProdIm]
    rw [quot, differentiableOn_dslope_of_notMem h0, differentiableOn_dslope_of_notMem h0]
    intro z hz
    rw [mem_reProdIm] at hz
    refine (second_differentiableAt ht hf hδ (le_of_lt hz.1) (le_of_lt hz.2) ?_).differentiableWithinAt
    rintro rfl
    exact absurd hz.2 (by simp)
  · intro z hz
    rw [closure_reProdIm, closure_Ioi, mem_reProdIm] at hz
    exact (quot_continuousAt ht hf hδ hz.1 hz.2).continuousWithinAt

lemma im_div_ofReal_sq (w : ℂ) (x : ℝ) : (w / (x : ℂ) ^ 2).im = w.im / x ^ 2 := by
  rw [← ofReal_pow, div_ofReal_im]

include ht hf in
lemma quot_real_pos (hδ : 0 < δ) {x : ℝ} (hx : 0 < x) : 0 ≤ (quot f t δ x).im := by
  rw [quot_of_ne (by exact_mod_cast hx.ne'), im_div_ofReal_sq]
  apply div_nonneg _ (by positivity)
  have h1 : 0 ≤ (f (shift t δ x)).im := pick_nonneg hf (shift_mem hδ (Or.inl (by simp))) (shift_im hδ (by simp))
  have h2 : ∀ y : ℝ, y < t → (f (shift t δ y)).im = 0 := by
    intro y hy
    apply pick_real hf (shift_mem hδ (Or.inl (by simp)))
    have := shift_conj (t := t) (δ := δ) (z := y) (by simpa using hy)
    rw [conj_ofReal] at this
    exact conj_eq_iff_im.1 this.symm
  have h3 := h2 (-x) (by linarith)
  have h4 := h2 0 ht
  push_cast at h3 h4
  simp only [second, sub_im, add_im, h3, mul_im, h4]
  simp
  exact h1

include ht hf in
lemma quot_real (hδ : 0 < δ) {x : ℝ} (hx : 0 ≤ x) : 0 ≤ (quot f t δ x).im := by
  rcases hx.lt_or_eq with h | h
  · exact quot_real_pos ht hf hδ h
  · subst h
    have hc : ContinuousAt (fun x : ℝ => (quot f t δ x).im) 0 := by
      apply continuous_im.continuousAt.comp
      apply ContinuousAt.comp (g := quot f t δ)
      · exact quot_continuousAt ht hf hδ (by simp) (by simp)
      · exact continuous_ofReal.continuousAt
    have h1 : Tendsto (fun x : ℝ => (quot f t δ x).im) (𝓝[>] 0) (𝓝 ((quot f t δ ((0 : ℝ) : ℂ)).im)) := hc.tendsto.mono_left nhdsWithin_le_nhds
    refine ge_of_tendsto h1 ?_
    filter_upwards [self_mem_nhdsWithin] with x hx
    exact quot_real_pos ht hf hδ hx

include ht hf in
lemma quot_imag (hδ : 0 < δ) {y : ℝ} (hy : 0 ≤ y) : 0 ≤ (quot f t δ (y * I)).im := by
  rcases hy.lt_or_eq with h | h
  · have hne : (y : ℂ) * I ≠ 0 := mul_ne_zero (by exact_mod_cast h.ne') I_ne_zero
    rw [quot_of_ne hne, show ((y : ℂ) * I) ^ 2 = ((-y ^ 2 : ℝ) : ℂ) by rw [mul_pow, I_sq]; push_cast; ring, div_ofReal_im]
    have h1 : conj ((y : ℂ) * I) = -((y : ℂ) * I) := by simp
    have h2 := shift_conj (t := t) (δ := δ) (z := (y : ℂ) * I) (by simpa using ht)
    have h3 := hf.symm (shift t δ ((y : ℂ) * I)) (shift_mem hδ (Or.inl (by simp; exact h.le)))
    rw [← h2, h1] at h3
    have h4 : (f (shift t δ 0)).im = 0 := by
      apply pick_real hf (shift_mem hδ (Or.inl (by simp)))
      have := shift_conj (t := t) (δ := δ) (z := 0) (by simpa using ht)
      rw [map_zero] at this
      exact conj_eq_iff_im.1 this.symm
    have h5 : (second f t δ (y * I)).im = 0 := by
      simp only [second, h3, sub_im, add_im, mul_im, conj_im, h4]
      simp
    rw [h5, zero_div]
  · subst h
    have := quot_real ht hf hδ le_rfl
    simpa using this

include ht hf in
lemma quot_bounded (hδ : 0 < δ) : ∃ C R : ℝ, ∀ z ∈ (Ioi 0 ×ℂ Ioi 0 : Set ℂ), R ≤ ‖z‖ → ‖quot f t δ z‖ ≤ C := by
  obtain ⟨B, R, hB⟩ := hf.growth
  have key : ∀ z : ℂ, (0 ≤ z.im ∨ z.re < t) → R + 2 * t ≤ ‖z‖ → ‖f (shift t δ z)‖ ≤ |B| * (2 * ‖z‖ + 3 * t + 2 * δ ^ 2) := by
    intro z hz hR
    have hre : 0 ≤ (rt t z).re := by
      rcases hz with h | h
      · exact (rt_quadrant h).1
      · exact (rt_pos h).le
    have hn := rt_norm t z
    have hge : ‖rt t z‖ ^ 2 ≤ ‖rt t z + δ‖ ^ 2 := by
      rw [← normSq_eq_norm_sq, ← normSq_eq_norm_sq, normSq_apply, normSq_apply]
      simp
      nlinarith
    have hle : ‖rt t z + δ‖ ^ 2 ≤ 2 * ‖rt t z‖ ^ 2 + 2 * δ ^ 2 := by
      have h1 : ‖rt t z + δ‖ ≤ ‖rt t z‖ + δ := by
        refine (norm_add_le _ _).trans ?_
        rw [norm_real, Real.norm_of_nonneg hδ.le]
      have h2 := norm_nonneg (rt t z + δ)
      have h3 := norm_nonneg (rt t z)
      nlinarith [sq_nonneg (‖rt t z‖ - δ)]
    have htn : ‖(t : ℂ)‖ = t := by rw [norm_real, Real.norm_of_nonneg ht.le]
    have h1 : ‖(t : ℂ) - z‖ ≤ t + ‖z‖ := (norm_sub_le _ _).trans (by rw [htn])
    have h2 : ‖z‖ - t ≤ ‖(t : ℂ) - z‖ := by
      have := norm_sub_norm_le z (t : ℂ)
      rw [htn, norm_sub_rev] at this
      exact this
    have h3 : ‖shift t δ z‖ ≤ t + ‖rt t z + δ‖ ^ 2 := by
      rw [shift, ← norm_pow]
      exact (norm_sub_le _ _).trans (by rw [htn])
    have h4 : ‖rt t z + δ‖ ^ 2 - t ≤ ‖shift t δ z‖ := by
      have := norm_sub_norm_le ((rt t z + δ) ^ 2) (t : ℂ)
      rw [htn, norm_sub_rev, norm_pow] at this
      exact this
    have h5 := hB _ (shift_mem hδ hz) (by linarith)
    refine h5.trans ((mul_le_mul_of_nonneg_right (le_abs_self B) (norm_nonneg _)).trans ?_)
    exact mul_le_mul_of_nonneg_left (by linarith) (abs_nonneg _)
  refine ⟨|B| * (2 * (2 + 3 * t + 2 * δ ^ 2)) + 2 * ‖f (shift t δ 0)‖, max 1 (R + 2 * t), ?_⟩
  intro z hz hR
  rw [mem_reProdIm] at hz
  have h1 : 1 ≤ ‖z‖ := (le_max_left _ _).trans hR
  have hz0 : z ≠ 0 := by
    rintro rfl
    simp at h1
    linarith
  rw [quot_of_ne hz0, norm_div, norm_pow, div_le_iff₀ (by positivity)]
  have a1 := key z (Or.inl (le_of_lt hz.2)) ((le_max_right _ _).trans hR)
  have a2 := key (-z) (Or.inr (by simp; linarith [show 0 < z.re from hz.1])) (by rw [norm_neg]; exact (le_max_right _ _).trans hR)
  rw [norm_neg] at a2
  have a3 : ‖second f t δ z‖ ≤ ‖f (shift t δ z)‖ + ‖f (shift t δ (-z))‖ + 2 * ‖f (shift t δ 0)‖ := by
    rw [second]
    refine (norm_sub_le _ _).trans ?_
    rw [norm_mul]
    simp only [Complex.norm_ofNat]
    linarith [norm_add_le (f (shift t δ z)) (f (shift t δ (-z)))]
  have hsq : ‖z‖ ≤ ‖z‖ ^ 2 := by nlinarith
  have b1 : 2 * ‖z‖ + 3 * t + 2 * δ ^ 2 ≤ (2 + 3 * t + 2 * δ ^ 2) * ‖z‖ ^ 2 := by
    have : 0 ≤ (3 * t + 2 * δ ^ 2) * (‖z‖ ^ 2 - 1) := mul_nonneg (by positivity) (by nlinarith)
    nlinarith
  have b2 := mul_le_mul_of_nonneg_left b1 (abs_nonneg B)
  have b3 : ‖f (shift t δ 0)‖ ≤ ‖f (shift t δ 0)‖ * ‖z‖ ^ 2 := le_mul_of_one_le_right (norm_nonneg _) (by nlinarith)
  nlinarith

include ht hf in
lemma quot_nonneg (hδ : 0 < δ) {z : ℂ} (h : 0 ≤ z.re) (h' : 0 ≤ z.im) : 0 ≤ (quot f t δ z).im := by
  have hd := quot_diffContOnCl ht hf hδ
  have hnorm : ∀ w, ‖cexp (I * quot f t δ w)‖ ≤ 1 ↔ 0 ≤ (quot f t δ w).im := by
    intro w
    rw [norm_exp]
    simp
  rw [← hnorm]
  refine PhragmenLindelof.quadrant_I (f := fun w => cexp (I * quot f t δ w)) ⟨?_, ?_⟩ ?_ ?_ ?_ h h'
  · exact (hd.differentiableOn.const_mul I).cexp
  · exact (continuousOn_const.mul hd.continuousOn).cexp
  · obtain ⟨C, R, hC⟩ := quot_bounded ht hf hδ
    refine ⟨0, by norm_num, 0, ?_⟩
    refine IsBigO.of_bound (Real.exp C) ?_
    rw [eventually_inf_principal]
    have : ∀ᶠ w : ℂ in cobounded ℂ, R ≤ ‖w‖ := (tendsto_norm_cobounded_atTop (E := ℂ)).eventually_ge_atTop R
    filter_upwards [this] with w hw hq
    have h1 := hC w hq hw
    rw [norm_exp]
    simp only [zero_mul, Real.exp_zero, norm_one, mul_one]
    apply Real.exp_le_exp.2
    have : (I * quot f t δ w).re ≤ ‖I * quot f t δ w‖ := re_le_norm _
    rw [norm_mul, norm_I, one_mul] at this
    linarith
  · intro x hx
    exact (hnorm _).2 (quot_real ht hf hδ hx)
  · intro x hx
    exact (hnorm _).2 (quot_imag ht hf hδ hx)

end

/-- The even second difference of a function of the class has a nonnegative imaginary part in the open first quadrant. -/
theorem second_difference_nonneg {t : ℝ} {f : ℂ → ℂ} (ht : 0 < t) (hf : Pick t f) {z : ℂ} (h : 0 < z.re) (h' : 0 < z.im) :
    0 ≤ ((f z + f (-z) - 2 * f 0) / z ^ 2).im := by
  have hz0 : z ≠ 0 := by rintro rfl; simp at h
  have hlim : ∀ w : ℂ, w ∈ Cut t → Tendsto (fun δ : ℝ => f (shift t δ w)) (𝓝[>] 0) (𝓝 (f w)) := by
    intro w hw
    have h1 : shift t 0 w = w := by rw [shift]; simp [rt_sq]
    have h2 : Tendsto (fun δ : ℝ => shift t δ w) (𝓝 0) (𝓝 (shift t 0 w)) := by
      have : Continuous (fun δ : ℝ => shift t δ w) := by unfold shift; fun_prop
      exact this.tendsto 0
    rw [h1] at h2
    have h3 : ContinuousAt f w := (hf.diff.differentiableAt ((isOpen_cut t).mem_nhds hw)).continuousAt
    exact h3.tendsto.comp (h2.mono_left nhdsWithin_le_nhds)
  have c1 := hlim z (fun h0 => absurd h0 h'.ne')
  have c2 := hlim (-z) (fun h0 => absurd (by simpa using h0) h'.ne')
  have c3 := hlim 0 (fun _ => by simpa using ht)
  have c4 : Tendsto (fun δ : ℝ => (second f t δ z / z ^ 2).im) (𝓝[>] 0) (𝓝 (((f z + f (-z) - 2 * f 0) / z ^ 2).im)) :=
    (continuous_im.tendsto _).comp (((c1.add c2).sub (c3.const_mul 2)).div_const _)
  refine ge_of_tendsto c4 ?_
  filter_upwards [self_mem_nhdsWithin] with δ hδ
  rw [← quot_of_ne hz0]
  exact quot_nonneg ht hf hδ h.le h'.le

end PyElli.Herglotz
