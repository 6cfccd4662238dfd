import Verif.Props.AngleReflect

/-! # When Solver2x2 gives the results of Solver4x4, in terms of the sample (C148) -/

namespace PyElli

open Matrix Complex Spec

/-- What is used of numpy's `arcsin`: an arcsine with values in the principal strip, where the cosine has no negative real part, and which takes the same side of the
cut at all real arguments beyond 1 of one sign. -/
structure Spec.PrincipalArcsin (asin : ℂ → ℂ) : Prop where
  sin : ∀ z, Complex.sin (asin z) = z
  strip : ∀ z, 0 ≤ (Complex.cos (asin z)).re
  side : ∀ x y : ℝ, 1 < |x| → 1 < |y| → 0 < x * y → 0 ≤ (Complex.cos (asin x)).im * (Complex.cos (asin y)).im

/-- What two neighbouring layers must satisfy: not both are beyond total reflection, unless both are dielectrics or both are metals. -/
def Spec.NoPole (n0 theta : ℝ) (e e' : ℂ) : Prop :=
  TotalReflection n0 e theta → TotalReflection n0 e' theta → 0 < e.re * e'.re

/-- What the last layer and the exit medium must satisfy: not both are beyond total reflection, unless both are metals. -/
def Spec.NoPoleExit (n0 theta : ℝ) (e e' : ℂ) : Prop :=
  TotalReflection n0 e theta → TotalReflection n0 e' theta → e.re < 0 ∧ e'.re < 0

/-- The conditions along the sequence of layers. -/
def Spec.NoPoles (n0 theta : ℝ) (back : ℂ) : List ℂ → Prop
  | [] => True
  | [e] => NoPoleExit n0 theta e back
  | e :: e' :: rest => NoPole n0 theta e e' ∧ NoPoles n0 theta back (e' :: rest)

section

/-- What the calculation knows of a medium. -/
structure Wave (k : ℝ) (m : Medium) (e : ℂ) : Prop where
  index : m.1 ^ 2 = e
  nonzero : e ≠ 0
  square : (m.1 * Complex.cos m.2) ^ 2 = e - (k : ℂ) ^ 2
  re : 0 ≤ (m.1 * Complex.cos m.2).re
  ne : m.1 * Complex.cos m.2 ≠ 0

lemma Wave.dark {k : ℝ} {m : Medium} {e : ℂ} (h : Wave k m e) (h0 : (m.1 * Complex.cos m.2).re = 0) : e.im = 0 ∧ e.re ≤ k ^ 2 := by
  have := h.square
  have h1 := congrArg Complex.re this
  have h2 := congrArg Complex.im this
  rw [← ofReal_pow] at h1 h2
  rw [pow_two] at h1 h2
  simp only [mul_re, mul_im, sub_re, sub_im, ofReal_re, ofReal_im] at h1 h2 h0
  rw [h0] at h1 h2
  constructor
  · linarith
  · nlinarith [sq_nonneg (m.1.re * (Complex.cos m.2).im + m.1.im * (Complex.cos m.2).re)]

/-- The real part of `w / ε`, with the sign of the real part of `w`. -/
lemma re_div_of_sq {w e : ℂ} {k : ℝ} (he : e ≠ 0) (h : w ^ 2 = e - (k : ℂ) ^ 2) : (w / e).re = (normSq w + k ^ 2) * w.re / normSq e := by
  have h1 : e = w ^ 2 + ((k ^ 2 : ℝ) : ℂ) := by rw [h]; push_cast; ring
  have h2 : normSq e ≠ 0 := normSq_eq_zero.not.2 he
  rw [div_re, ← add_div]
  congr 1
  rw [h1, pow_two]
  simp only [add_re, add_im, mul_re, mul_im, ofReal_re, ofReal_im, normSq_apply]
  ring

lemma pair_sums {k : ℝ} {m m' : Medium} {e e' : ℂ} (h : Wave k m e) (h' : Wave k m' e')
    (hd : 0 < (m.1 * Complex.cos m.2).re ∨ 0 < (m'.1 * Complex.cos m'.2).re ∨
      (0 < e.re * e'.re ∧ e.im = 0 ∧ e'.im = 0 ∧ 0 ≤ (m.1 * Complex.cos m.2).im * (m'.1 * Complex.cos m'.2).im)) :
    m.1 * Complex.cos m.2 + m'.1 * Complex.cos m'.2 ≠ 0 ∧ m'.1 * Complex.cos m.2 + m.1 * Complex.cos m'.2 ≠ 0 := by
  have hn : m.1 ≠ 0 := fun h0 => h.nonzero (by rw [← h.index, h0]; ring)
  have hn' : m'.1 ≠ 0 := fun h0 => h'.nonzero (by rw [← h'.index, h0]; ring)
  have hp : m'.1 * Complex.cos m.2 + m.1 * Complex.cos m'.2 = m.1 * m'.1 * (m.1 * Complex.cos m.2 / e + m'.1 * Complex.cos m'.2 / e') := by
    rw [← h.index, ← h'.index]
    field_simp
  have r := re_div_of_sq h.nonzero h.square
  have r' := re_div_of_sq h'.nonzero h'.square
  have E := normSq_pos.2 h.nonzero
  have E' := normSq_pos.2 h'.nonzero
  have W := normSq_pos.2 h.ne
  have W' := normSq_pos.2 h'.ne
  have hw0 := h.re
  have hw0' := h'.re
  have hne := h.ne
  have hne' := h'.ne
  rw [hp]
  generalize hw : m.1 * Complex.cos m.2 = w at *
  generalize hw' : m'.1 * Complex.cos m'.2 = w' at *
  have q : 0 ≤ (w / e).re := by rw [r]; positivity
  have q' : 0 ≤ (w' / e').re := by rw [r']; positivity
  have two : 0 < w.re ∨ 0 < w'.re → w + w' ≠ 0 ∧ w / e + w' / e' ≠ 0 := by
    intro hd
    constructor
    · intro h0
      have := congrArg Complex.re h0
      rw [add_re, zero_re] at this
      rcases hd with h1 | h1 <;> linarith
    · intro h0
      have h2 := congrArg Complex.re h0
      rw [add_re, zero_re] at h2
      rcases hd with h1 | h1
      · have : 0 < (w / e).re := by rw [r]; positivity
        linarith
      · have : 0 < (w' / e').re := by rw [r']; positivity
        linarith
  have three : w + w' ≠ 0 ∧ w / e + w' / e' ≠ 0 := by
    by_cases hc : 0 < w.re ∨ 0 < w'.re
    · exact two hc
    · push Not at hc
      rcases hd with hd | hd | ⟨hs, i1, i2, i3⟩
      · linarith
      · linarith
      have z : w.re = 0 := le_antisymm hc.1 hw0
      have z' : w'.re = 0 := le_antisymm hc.2 hw0'
      have u : w.im ≠ 0 := fun h0 => hne (Complex.ext z h0)
      have u' : w'.im ≠ 0 := fun h0 => hne' (Complex.ext z' h0)
      have hpos : 0 < w.im * w'.im := lt_of_le_of_ne i3 (mul_ne_zero u u').symm
      have er : e.re ≠ 0 := fun h0 => by rw [h0] at hs; simp at hs
      have er' : e'.re ≠ 0 := fun h0 => by rw [h0] at hs; simp at hs
      constructor
      · intro h0
        have := congrArg Complex.im h0
        rw [add_im, zero_im] at this
        have h9 : w'.im = -w.im := by linarith
        rw [h9] at hpos
        nlinarith [sq_nonneg w.im]
      · intro h0
        have h1 : w * e' + w' * e = 0 := by
          have hE := h.nonzero
          have hE' := h'.nonzero
          field_simp at h0
          linear_combination h0
        have := congrArg Complex.im h1
        rw [add_im, mul_im, mul_im, i1, i2, z, z', zero_im] at this
        have h2 : w.im * e'.re = -(w'.im * e.re) := by linarith
        have h3 : (w.im * w'.im) * (e.re * e'.re) = -(w'.im * e.re) ^ 2 := by linear_combination (w'.im * e.re) * h2
        have h4 := mul_pos hpos hs
        nlinarith [sq_nonneg (w'.im * e.re)]
  exact ⟨three.1, mul_ne_zero (mul_ne_zero hn hn') three.2⟩

variable {asin : ℂ → ℂ}

/-- The wave in a layer: the real part of `n cos θ` is never negative. -/
lemma wave_inner (ha : PrincipalArcsin asin) {n0 theta : ℝ} {eps : Tensor} (he : 0 ≤ (eps 0 0).im) (h0 : eps 0 0 ≠ 0)
    (hk : eps 0 0 ≠ (((n0 * Real.sin (deg2rad theta)) ^ 2 : ℝ) : ℂ)) :
    Wave (n0 * Real.sin (deg2rad theta)) (nOf eps, snellAngle asin (n0 : ℂ) theta (nOf eps)) (eps 0 0) := by
  have hn := nOf_sq eps
  have hn0 : nOf eps ≠ 0 := fun h => h0 (by rw [← hn, h]; ring)
  have hc : Complex.cos (snellAngle asin (n0 : ℂ) theta (nOf eps)) ^ 2 = 1 - (((n0 * Real.sin (deg2rad theta)) ^ 2 : ℝ) : ℂ) / eps 0 0 := by
    unfold snellAngle
    rw [cos_sq_of_asin ha.sin, div_pow, hn]
    push_cast
    ring
  have hsq : (nOf eps * Complex.cos (snellAngle asin (n0 : ℂ) theta (nOf eps))) ^ 2 = eps 0 0 - (((n0 * Real.sin (deg2rad theta) : ℝ)) : ℂ) ^ 2 := by
    rw [mul_pow, hn, hc]
    push_cast
    field_simp
  have hstrip : 0 ≤ (Complex.cos (snellAngle asin (n0 : ℂ) theta (nOf eps))).re := ha.strip _
  refine ⟨hn, h0, hsq, ?_, ?_⟩
  · have nr : 0 ≤ (nOf eps).re := csqrt_re_nonneg _
    have ni : 0 ≤ (nOf eps).im := csqrt_im_nonneg he
    have cim : 0 ≤ (Complex.cos (snellAngle asin (n0 : ℂ) theta (nOf eps)) ^ 2).im := by
      rw [hc, sub_im, one_im, div_im]
      simp only [ofReal_re, ofReal_im, zero_mul, zero_div]
      have := normSq_nonneg (eps 0 0)
      have : 0 ≤ (n0 * Real.sin (deg2rad theta)) ^ 2 * (eps 0 0).im / normSq (eps 0 0) := by positivity
      linarith
    have wim : ((nOf eps * Complex.cos (snellAngle asin (n0 : ℂ) theta (nOf eps))) ^ 2).im = (eps 0 0).im := by
      rw [hsq, ← ofReal_pow, sub_im, ofReal_im, sub_zero]
    have e1 := congrArg Complex.im hn
    simp only
    generalize Complex.cos (snellAngle asin (n0 : ℂ) theta (nOf eps)) = c at *
    generalize nOf eps = n at *
    rw [pow_two, mul_im] at cim wim e1
    rw [mul_re]
    rw [mul_re, mul_im] at wim
    have hxy : 0 ≤ c.re * c.im := by linarith
    by_contra hneg
    push Not at hneg
    rcases hstrip.lt_or_eq with hx | hx
    · have hy : 0 ≤ c.im := nonneg_of_mul_nonneg_right hxy hx
      have hI : 0 ≤ n.re * c.im + n.im * c.re := by positivity
      have hI0 : n.re * c.im + n.im * c.re = 0 := by
        by_contra hne
        have : 0 < n.re * c.im + n.im * c.re := lt_of_le_of_ne hI (Ne.symm hne)
        nlinarith
      have t1 : 0 ≤ n.re * c.im := by positivity
      have t2 : 0 ≤ n.im * c.re := by positivity
      have t3 : n.im * c.re = 0 := by linarith
      have t4 : n.im = 0 := (mul_eq_zero.1 t3).resolve_right hx.ne'
      rw [t4] at hneg
      have : 0 ≤ n.re * c.re := by positivity
      linarith
    · rw [← hx] at hneg wim
      rw [mul_zero, zero_sub] at hneg
      rw [mul_zero, zero_sub, mul_zero, add_zero] at wim
      have hb : 0 < n.im * c.im := by linarith
      have hbi : 0 < n.im := lt_of_le_of_ne ni fun h => by rw [← h, zero_mul] at hb; exact lt_irrefl _ hb
      have hy : 0 < c.im := pos_of_mul_pos_right hb ni
      have hE : 0 ≤ n.re * n.im := by positivity
      have t : 0 ≤ (n.im * c.im) * (n.re * c.im) := by positivity
      have t0 : n.re = 0 := by
        by_contra hne
        have hr : 0 < n.re := lt_of_le_of_ne nr (Ne.symm hne)
        have : 0 < (n.im * c.im) * (n.re * c.im) := by positivity
        nlinarith
      have hcc : (c ^ 2).re = -(c.im) ^ 2 := by
        rw [pow_two, mul_re, ← hx]
        ring
      have hnn : (n ^ 2).re = -(n.im) ^ 2 := by
        rw [pow_two, mul_re, t0]
        ring
      have him0 : (eps 0 0).im = 0 := by rw [← e1, t0]; ring
      have hre0 : (eps 0 0).re = -(n.im) ^ 2 := by rw [← hn, hnn]
      have h5 : (c ^ 2).re = 1 - (n0 * Real.sin (deg2rad theta)) ^ 2 * (eps 0 0).re / normSq (eps 0 0) := by
        rw [hc, sub_re, one_re, div_re]
        simp only [ofReal_re, ofReal_im, zero_mul, zero_div, add_zero]
      have h6 : (n0 * Real.sin (deg2rad theta)) ^ 2 * (eps 0 0).re / normSq (eps 0 0) ≤ 0 := by
        apply div_nonpos_of_nonpos_of_nonneg
        · rw [hre0]
          nlinarith [mul_nonneg (sq_nonneg (n0 * Real.sin (deg2rad theta))) (sq_nonneg n.im)]
        · exact normSq_nonneg _
      nlinarith [sq_nonneg c.im]
  · intro hw
    simp only at hw
    rw [hw] at hsq
    apply hk
    rw [ofReal_pow]
    linear_combination -hsq

/-- In a metal the wave decays away from the light source. -/
lemma inner_metal (ha : PrincipalArcsin asin) {n0 theta : ℝ} {eps : Tensor} (hi : (eps 0 0).im = 0) (hr : (eps 0 0).re < 0) :
    0 ≤ (nOf eps * Complex.cos (snellAngle asin (n0 : ℂ) theta (nOf eps))).im := by
  have he : eps 0 0 = (((eps 0 0).re : ℝ) : ℂ) := Complex.ext (by simp) (by simpa using hi)
  have ni : 0 ≤ (nOf eps).im := csqrt_im_nonneg hi.ge
  have hn := nOf_sq eps
  have e1 := congrArg Complex.im hn
  have e2 := congrArg Complex.re hn
  have hc : Complex.cos (snellAngle asin (n0 : ℂ) theta (nOf eps)) ^ 2 = ((1 - (n0 * Real.sin (deg2rad theta)) ^ 2 / (eps 0 0).re : ℝ) : ℂ) := by
    unfold snellAngle
    rw [cos_sq_of_asin ha.sin, div_pow, hn, he]
    simp only [ofReal_re]
    push_cast
    ring
  have hstrip : 0 ≤ (Complex.cos (snellAngle asin (n0 : ℂ) theta (nOf eps))).re := ha.strip _
  have c1 := congrArg Complex.im hc
  have c2 := congrArg Complex.re hc
  rw [ofReal_im] at c1
  rw [ofReal_re] at c2
  have hq : (n0 * Real.sin (deg2rad theta)) ^ 2 / (eps 0 0).re ≤ 0 := div_nonpos_of_nonneg_of_nonpos (sq_nonneg _) hr.le
  generalize Complex.cos (snellAngle asin (n0 : ℂ) theta (nOf eps)) = c at *
  generalize nOf eps = n at *
  rw [pow_two] at c1 c2 e1 e2
  rw [mul_im] at c1 e1
  rw [mul_re] at c2 e2
  have hnr : n.re = 0 := by
    have : n.re * n.im = 0 := by linarith
    rcases mul_eq_zero.1 this with h | h
    · exact h
    · rw [h] at e2
      nlinarith [sq_nonneg n.re]
  rw [mul_im, hnr]
  have := mul_nonneg ni hstrip
  linarith

/-- In a dielectric beyond total reflection the arcsine is taken on the cut. -/
lemma inner_side (ha : PrincipalArcsin asin) {n0 theta : ℝ} {eps eps' : Tensor} (hi : (eps 0 0).im = 0) (hi' : (eps' 0 0).im = 0) (hr : 0 < (eps 0 0).re) (hr' : 0 < (eps' 0 0).re)
    (hk : (eps 0 0).re < (n0 * Real.sin (deg2rad theta)) ^ 2) (hk' : (eps' 0 0).re < (n0 * Real.sin (deg2rad theta)) ^ 2) :
    0 ≤ (nOf eps * Complex.cos (snellAngle asin (n0 : ℂ) theta (nOf eps))).im * (nOf eps' * Complex.cos (snellAngle asin (n0 : ℂ) theta (nOf eps'))).im := by
  have key : ∀ e : Tensor, (e 0 0).im = 0 → 0 < (e 0 0).re → nOf e = ((√(e 0 0).re : ℝ) : ℂ) := by
    intro e hi hr
    have he : e 0 0 = (((e 0 0).re : ℝ) : ℂ) := Complex.ext (by simp) (by simpa using hi)
    unfold nOf
    rw [he, csqrt_ofReal (by simpa using hr.le)]
    simp
  rw [key eps hi hr, key eps' hi' hr', im_ofReal_mul, im_ofReal_mul]
  have s1 : 0 < √(eps 0 0).re := Real.sqrt_pos.2 hr
  have s2 : 0 < √(eps' 0 0).re := Real.sqrt_pos.2 hr'
  unfold snellAngle
  rw [← ofReal_mul, ← ofReal_div, ← ofReal_div]
  have big : ∀ x : ℝ, 0 < x → x < (n0 * Real.sin (deg2rad theta)) ^ 2 → 1 < |n0 * Real.sin (deg2rad theta) / √x| := by
    intro x hx hlt
    rw [abs_div, abs_of_pos (Real.sqrt_pos.2 hx), one_lt_div (Real.sqrt_pos.2 hx), ← Real.sqrt_sq_eq_abs]
    exact Real.sqrt_lt_sqrt hx.le hlt
  have hside := ha.side _ _ (big _ hr hk) (big _ hr' hk') (by
    rw [div_mul_div_comm]
    have : n0 * Real.sin (deg2rad theta) ≠ 0 := fun h => by rw [h] at hk; nlinarith
    have h2 : 0 < n0 * Real.sin (deg2rad theta) * (n0 * Real.sin (deg2rad theta)) := mul_self_pos.2 this
    positivity)
  generalize (Complex.cos (asin ((n0 * Real.sin (deg2rad theta) / √(eps 0 0).re : ℝ) : ℂ))).im = a at *
  generalize (Complex.cos (asin ((n0 * Real.sin (deg2rad theta) / √(eps' 0 0).re : ℝ) : ℂ))).im = b at *
  have : √(eps 0 0).re * a * (√(eps' 0 0).re * b) = (√(eps 0 0).re * √(eps' 0 0).re) * (a * b) := by ring
  rw [this]
  positivity

lemma lt_of_dark {n0 theta : ℝ} {e : ℂ} (h : TotalReflection n0 e theta) (hk : e ≠ (((n0 * Real.sin (deg2rad theta)) ^ 2 : ℝ) : ℂ)) : e.re < (n0 * Real.sin (deg2rad theta)) ^ 2 :=
  lt_of_le_of_ne h.2 fun h2 => hk (Complex.ext (by rw [ofReal_re]; exact h2) (by rw [ofReal_im]; exact h.1))

/-- What is asked of every layer. -/
structure LayerOk (n0 theta : ℝ) (e : ℂ) : Prop where
  passive : 0 ≤ e.im
  nonzero : e ≠ 0
  critical : e ≠ (((n0 * Real.sin (deg2rad theta)) ^ 2 : ℝ) : ℂ)

lemma pair_inner (ha : PrincipalArcsin asin) {n0 theta : ℝ} {eps eps' : Tensor} (h : LayerOk n0 theta (eps 0 0)) (h' : LayerOk n0 theta (eps' 0 0))
    (hp : NoPole n0 theta (eps 0 0) (eps' 0 0)) :
    nOf eps * Complex.cos (snellAngle asin (n0 : ℂ) theta (nOf eps)) + nOf eps' * Complex.cos (snellAngle asin (n0 : ℂ) theta (nOf eps')) ≠ 0 ∧
    nOf eps' * Complex.cos (snellAngle asin (n0 : ℂ) theta (nOf eps)) + nOf eps * Complex.cos (snellAngle asin (n0 : ℂ) theta (nOf eps')) ≠ 0 := by
  have w := wave_inner ha h.passive h.nonzero h.critical
  have w' := wave_inner ha h'.passive h'.nonzero h'.critical
  refine pair_sums w w' ?_
  by_cases r : 0 < (nOf eps * Complex.cos (snellAngle asin (n0 : ℂ) theta (nOf eps))).re
  · exact Or.inl r
  by_cases r' : 0 < (nOf eps' * Complex.cos (snellAngle asin (n0 : ℂ) theta (nOf eps'))).re
  · exact Or.inr (Or.inl r')
  have d := w.dark (le_antisymm (not_lt.1 r) w.re)
  have d' := w'.dark (le_antisymm (not_lt.1 r') w'.re)
  have hs := hp d d'
  refine Or.inr (Or.inr ⟨hs, d.1, d'.1, ?_⟩)
  rcases pos_and_pos_or_neg_and_neg_of_mul_pos hs with ⟨p1, p2⟩ | ⟨p1, p2⟩
  · exact inner_side ha d.1 d'.1 p1 p2 (lt_of_dark d h.critical) (lt_of_dark d' h'.critical)
  · exact mul_nonneg (inner_metal ha d.1 p1) (inner_metal ha d'.1 p2)

lemma chain_regular (ha : PrincipalArcsin asin) {n0 theta : ℝ} {mb : Medium} {eb : ℂ} (hb : Wave (n0 * Real.sin (deg2rad theta)) mb eb)
    (hmetal : eb.im = 0 → eb.re < 0 → 0 ≤ (mb.1 * Complex.cos mb.2).im) :
    ∀ (L : List (ℝ × Tensor)) (l : ℝ × Tensor), (∀ x ∈ l :: L, LayerOk n0 theta (x.2 0 0)) →
      NoPoles n0 theta eb ((l :: L).map fun x => x.2 0 0) →
      RegularChain (nOf l.2, snellAngle asin (n0 : ℂ) theta (nOf l.2)) ((innerMedia asin (n0 : ℂ) theta L).map Prod.snd ++ [mb]) := by
  intro L
  induction L with
  | nil =>
    intro l hl hp
    have h := hl l (by simp)
    have w := wave_inner ha h.passive h.nonzero h.critical
    have hp' : NoPoleExit n0 theta (l.2 0 0) eb := hp
    show nOf l.2 * _ ≠ 0 ∧ _ ≠ 0 ∧ _ ≠ 0 ∧ True
    have := pair_sums w hb (by
      by_cases r : 0 < (nOf l.2 * Complex.cos (snellAngle asin (n0 : ℂ) theta (nOf l.2))).re
      · exact Or.inl r
      by_cases r' : 0 < (mb.1 * Complex.cos mb.2).re
      · exact Or.inr (Or.inl r')
      have d := w.dark (le_antisymm (not_lt.1 r) w.re)
      have d' := hb.dark (le_antisymm (not_lt.1 r') hb.re)
      obtain ⟨p1, p2⟩ := hp' d d'
      exact Or.inr (Or.inr ⟨mul_pos_of_neg_of_neg p1 p2, d.1, d'.1, mul_nonneg (inner_metal ha d.1 p1) (hmetal d'.1 p2)⟩))
    exact ⟨w.ne, this.1, this.2, trivial⟩
  | cons l' L ih =>
    intro l hl hp
    have h := hl l (by simp)
    have h' := hl l' (by simp)
    have w := wave_inner ha h.passive h.nonzero h.critical
    have hp' : NoPole n0 theta (l.2 0 0) (l'.2 0 0) ∧ NoPoles n0 theta eb ((l' :: L).map fun x => x.2 0 0) := hp
    have := pair_inner ha h h' hp'.1
    exact ⟨w.ne, this.1, this.2, ih l' (fun x hx => hl x (List.mem_cons_of_mem _ hx)) hp'.2⟩

/-- **C148.** Which samples Solver2x2 treats: for every passive stack of isotropic layers under a transparent medium of index `n0`, no layer exactly at its critical angle,
the exit medium not within 1e-20 of it, and no two neighbouring media of different kind beyond total reflection, no denominator of Solver2x2 vanishes and its result is that of Solver4x4. -/
theorem C148_defined (ha : PrincipalArcsin asin) (s : Stack) (n0 theta lbda : ℝ) (ee) (h : PassiveStack s theta lbda) (hiso : IsoLayers s.layers) (hn0 : 0 < n0)
    (hf : s.front 0 0 = ((n0 ^ 2 : ℝ) : ℂ)) (hcrit : ∀ l ∈ s.layers, l.2 0 0 ≠ (((n0 * Real.sin (deg2rad theta)) ^ 2 : ℝ) : ℂ))
    (hback : TotalReflection n0 (s.back 0 0) theta → (s.back 0 0).re + 1e-20 < (n0 * Real.sin (deg2rad theta)) ^ 2)
    (hpole : NoPoles n0 theta (s.back 0 0) (s.layers.map fun l => l.2 0 0)) :
    Regular2x2 asin s theta ∧ calculate2x2 asin s theta lbda = calculate4x4 propExpm s theta lbda ee := by
  have hnf : nOf s.front = (n0 : ℂ) := by
    unfold nOf
    rw [hf, csqrt_ofReal (by positivity), Real.sqrt_sq hn0.le]
  have hkx : kxOf s theta = ((n0 * Real.sin (deg2rad theta) : ℝ) : ℂ) := by
    unfold kxOf
    rw [hnf, ofReal_mul]
  have hcos := cos_pos_of_angle h.angle
  set k := n0 * Real.sin (deg2rad theta) with hk
  -- the exit medium
  have hkz := kz_exit k h.back_ne h.back_passive
  have hwb : nOf s.back * cosPhi (kxOf s theta) s.back = Complex.sqrt (s.back 0 0 - (k : ℂ) ^ 2) := by
    rw [csqrt_sq] at hkz
    rw [hkz, hkx]
    rfl
  have him : 0 ≤ (s.back 0 0 - (k : ℂ) ^ 2).im := by
    rw [← ofReal_pow, sub_im, ofReal_im, sub_zero]
    exact h.back_passive
  have qi := csqrt_im_nonneg him
  have qr := csqrt_re_nonneg (s.back 0 0 - (k : ℂ) ^ 2)
  have hsq := csqrt_sq (s.back 0 0 - (k : ℂ) ^ 2)
  have hfw : ForwardOk (nOf s.back * cosPhi (kxOf s theta) s.back) := by
    rw [hwb]
    rcases qr.lt_or_eq with q | q
    · exact Or.inl ⟨q, by linarith [show (-1e-10 : ℝ) ≤ 0 by norm_num]⟩
    · right
      have h1 := congrArg Complex.re hsq
      have h2 := congrArg Complex.im hsq
      rw [← ofReal_pow] at h1 h2 qi q ⊢
      rw [pow_two] at h1 h2
      rw [mul_re, ← q] at h1
      rw [mul_im, ← q] at h2
      simp only [sub_re, sub_im, ofReal_re, ofReal_im] at h1 h2
      have hd : TotalReflection n0 (s.back 0 0) theta := ⟨by linarith, by nlinarith [sq_nonneg (Complex.sqrt (s.back 0 0 - ((k ^ 2 : ℝ) : ℂ))).im]⟩
      have h3 := hback hd
      by_contra hc
      push Not at hc
      have h4 : (Complex.sqrt (s.back 0 0 - ((k ^ 2 : ℝ) : ℂ))).im * (Complex.sqrt (s.back 0 0 - ((k ^ 2 : ℝ) : ℂ))).im ≤ 1e-10 * 1e-10 :=
        mul_le_mul hc hc qi (by norm_num)
      have h5 : (1e-10 * 1e-10 : ℝ) = 1e-20 := by norm_num
      linarith
  have hcb := backMedium_cos ha.sin s theta hfw
  have hwb' : (backMedium asin s theta).1 * Complex.cos (backMedium asin s theta).2 = Complex.sqrt (s.back 0 0 - (k : ℂ) ^ 2) := by
    rw [hcb]
    exact hwb
  have waveB : Wave k (backMedium asin s theta) (s.back 0 0) := by
    refine ⟨nOf_sq _, h.back_ne, by rw [hwb', hsq], by rw [hwb']; exact qr, ?_⟩
    rw [hwb']
    intro h0
    have h1 := csqrt_eq_zero.1 h0
    have h2 : s.back 0 0 = ((k ^ 2 : ℝ) : ℂ) := by
      rw [ofReal_pow]
      linear_combination h1
    have hd : TotalReflection n0 (s.back 0 0) theta := by
      rw [h2]
      exact ⟨ofReal_im _, by rw [ofReal_re]⟩
    have h3 := hback hd
    rw [h2, ofReal_re] at h3
    linarith [show (0 : ℝ) < 1e-20 by norm_num]
  -- the front medium
  have hcf := frontMedium_cos ha.sin s theta (by rw [hnf]; simpa using hn0) (by rw [hnf]; simp) hcos
  have hwf : (frontMedium asin s theta).1 * Complex.cos (frontMedium asin s theta).2 = ((n0 * Real.cos (deg2rad theta) : ℝ) : ℂ) := by
    rw [hcf, ofReal_mul]
    show nOf s.front * _ = _
    rw [hnf]
  have waveF : Wave k (frontMedium asin s theta) (s.front 0 0) := by
    refine ⟨nOf_sq _, ?_, ?_, ?_, ?_⟩
    · rw [hf]
      exact_mod_cast (by positivity : n0 ^ 2 ≠ 0)
    · rw [hwf, hf, ← ofReal_pow, ← ofReal_pow, ← ofReal_sub]
      congr 1
      have := Real.cos_sq_add_sin_sq (deg2rad theta)
      rw [hk]
      linear_combination n0 ^ 2 * this
    · rw [hwf, ofReal_re]
      positivity
    · rw [hwf]
      exact_mod_cast (by positivity : n0 * Real.cos (deg2rad theta) ≠ 0)
  have frontRe : 0 < ((frontMedium asin s theta).1 * Complex.cos (frontMedium asin s theta).2).re := by
    rw [hwf, ofReal_re]
    positivity
  have hlay : ∀ l ∈ s.layers, LayerOk n0 theta (l.2 0 0) := by
    intro l hl
    obtain ⟨_, h22, hpas⟩ := h.layers l hl
    have hi := hiso l hl
    refine ⟨?_, ?_, hcrit l hl⟩
    · have := hpas (Pi.single 0 1)
      simpa using this
    · intro h0
      apply h22
      rw [hi, h0]
      simp [isoTensor]
  have hreg : Regular2x2 asin s theta := by
    unfold Regular2x2
    rw [hnf]
    rcases hL : s.layers with _ | ⟨l, L⟩
    · have := pair_sums waveF waveB (Or.inl frontRe)
      exact ⟨waveF.ne, this.1, this.2, trivial⟩
    · have hl := hlay l (by rw [hL]; simp)
      have w := wave_inner ha hl.passive hl.nonzero hl.critical
      have := pair_sums waveF w (Or.inl frontRe)
      refine ⟨waveF.ne, this.1, this.2, ?_⟩
      refine chain_regular ha waveB ?_ L l (by rw [← hL]; exact hlay) (by rw [← hL]; exact hpole)
      intro _ _
      rw [hwb']
      exact qi
  exact ⟨hreg, C37_solvers_agree_passive asin ha.sin s theta lbda ee h hiso hfw hreg⟩

lemma noPoles_of_clear {n0 theta : ℝ} {b : ℂ} (hb : ¬ TotalReflection n0 b theta) : ∀ L : List ℂ, (∀ e ∈ L, ¬ TotalReflection n0 e theta) → NoPoles n0 theta b L := by
  intro L
  induction L with
  | nil => intro _; trivial
  | cons e L ih =>
    intro h
    rcases L with _ | ⟨e', L⟩
    · exact fun _ h' => absurd h' hb
    · exact ⟨fun h0 => absurd h0 (h e (by simp)), ih fun x hx => h x (List.mem_cons_of_mem _ hx)⟩

/-- **C148.** Below the critical angles: if no layer and not the exit medium is beyond total reflection (it absorbs, or its permittivity exceeds `(n0 sin θ)²`), Solver2x2 gives the result of Solver4x4. -/
theorem C148_below_critical (ha : PrincipalArcsin asin) (s : Stack) (n0 theta lbda : ℝ) (ee) (h : PassiveStack s theta lbda) (hiso : IsoLayers s.layers) (hn0 : 0 < n0)
    (hf : s.front 0 0 = ((n0 ^ 2 : ℝ) : ℂ)) (hl : ∀ l ∈ s.layers, ¬ TotalReflection n0 (l.2 0 0) theta) (hb : ¬ TotalReflection n0 (s.back 0 0) theta) :
    calculate2x2 asin s theta lbda = calculate4x4 propExpm s theta lbda ee := by
  refine (C148_defined ha s n0 theta lbda ee h hiso hn0 hf ?_ (fun h0 => absurd h0 hb) ?_).2
  · intro l hm h0
    apply hl l hm
    rw [h0]
    exact ⟨ofReal_im _, by rw [ofReal_re]⟩
  · apply noPoles_of_clear hb
    intro e he
    obtain ⟨l, hm, rfl⟩ := List.mem_map.1 he
    exact hl l hm

/-- **C148.** Light from the optically thinnest medium: if every layer and the exit medium absorb or have at least the index of the front medium, Solver2x2 gives the result of Solver4x4 at every angle. -/
theorem C148_from_outside (ha : PrincipalArcsin asin) (s : Stack) (n0 theta lbda : ℝ) (ee) (h : PassiveStack s theta lbda) (hiso : IsoLayers s.layers) (hn0 : 0 < n0)
    (hf : s.front 0 0 = ((n0 ^ 2 : ℝ) : ℂ)) (hl : ∀ l ∈ s.layers, 0 < (l.2 0 0).im ∨ n0 ^ 2 ≤ (l.2 0 0).re) (hb : 0 < (s.back 0 0).im ∨ n0 ^ 2 ≤ (s.back 0 0).re) :
    calculate2x2 asin s theta lbda = calculate4x4 propExpm s theta lbda ee := by
  have hc := cos_pos_of_angle h.angle
  have key : ∀ e : ℂ, 0 < e.im ∨ n0 ^ 2 ≤ e.re → ¬ TotalReflection n0 e theta := by
    rintro e (h1 | h1) ⟨h2, h3⟩
    · linarith
    · have := Real.cos_sq_add_sin_sq (deg2rad theta)
      have : (n0 * Real.sin (deg2rad theta)) ^ 2 < n0 ^ 2 := by
        rw [mul_pow]
        have : Real.sin (deg2rad theta) ^ 2 < 1 := by nlinarith
        nlinarith [sq_pos_of_pos hn0]
      linarith
  exact C148_below_critical ha s n0 theta lbda ee h hiso hn0 hf (fun l hm => key _ (hl l hm)) (key _ hb)

/-- **C148.** The condition on the exit medium cannot be dropped: numpy's arcsine lies on the side of the cut where the cosine has a negative imaginary part. A last layer of the exit material beyond
total reflection is then taken as a growing wave, and the denominators of its Fresnel coefficients are zero (in exact arithmetic). -/
theorem C148_exit_layer (ha : PrincipalArcsin asin) (hcut : ∀ x : ℝ, 1 < x → (Complex.cos (asin x)).im < 0) (s : Stack) (n0 theta d e : ℝ) (hn0 : 0 < n0) (h1 : 0 < theta) (h2 : theta < 90)
    (hf : s.front 0 0 = ((n0 ^ 2 : ℝ) : ℂ)) (he : 0 < e) (hback : s.back 0 0 = (e : ℂ)) (hd : e + 1e-20 < (n0 * Real.sin (deg2rad theta)) ^ 2) :
    ¬ Regular2x2 asin (s.withLayers [(d, s.back)]) theta := by
  have hnf : nOf s.front = (n0 : ℂ) := by
    unfold nOf
    rw [hf, csqrt_ofReal (by positivity), Real.sqrt_sq hn0.le]
  have hnb : nOf s.back = ((√e : ℝ) : ℂ) := by
    unfold nOf
    rw [hback, csqrt_ofReal he.le]
  have hs := sin_pos_of_angle h1 h2
  have hk : 0 < n0 * Real.sin (deg2rad theta) := by positivity
  have hse := Real.sqrt_pos.2 he
  set x := n0 * Real.sin (deg2rad theta) / √e with hx
  have hx1 : 1 < x := by
    rw [hx, one_lt_div hse]
    refine Real.sqrt_lt' hk |>.2 ?_
    linarith [show (0 : ℝ) < 1e-20 by norm_num]
  have hang : snellAngle asin (nOf s.front) theta (nOf s.back) = asin x := by
    unfold snellAngle
    rw [hnf, hnb, hx]
    push_cast
    rfl
  have hsq := cos_sq_of_asin ha.sin (x : ℂ)
  have hre : (Complex.cos (asin x)).re = 0 := by
    have hi := hcut x hx1
    have := congrArg Complex.im hsq
    rw [← ofReal_pow, ← ofReal_one, ← ofReal_sub, ofReal_im, pow_two, mul_im] at this
    have : (Complex.cos (asin x)).re * (Complex.cos (asin x)).im = 0 := by linarith
    exact (mul_eq_zero.1 this).resolve_right hi.ne
  have him : (Complex.cos (asin x)).im ^ 2 = x ^ 2 - 1 := by
    have := congrArg Complex.re hsq
    rw [← ofReal_pow, ← ofReal_one, ← ofReal_sub, ofReal_re, pow_two, mul_re, hre] at this
    linarith
  have hbig : 1e-10 < √e * -(Complex.cos (asin x)).im := by
    have hneg : 0 ≤ √e * -(Complex.cos (asin x)).im := mul_nonneg hse.le (by linarith [hcut x hx1])
    have : (√e * -(Complex.cos (asin x)).im) ^ 2 = (n0 * Real.sin (deg2rad theta)) ^ 2 - e := by
      rw [mul_pow, neg_sq, him, hx, div_pow, Real.sq_sqrt he.le]
      field_simp
    by_contra hc
    push Not at hc
    have h4 := mul_le_mul hc hc hneg (by norm_num)
    have h5 : (1e-10 * 1e-10 : ℝ) = 1e-20 := by norm_num
    rw [← pow_two, this, h5] at h4
    linarith
  have hback' : backMedium asin (s.withLayers [(d, s.back)]) theta = (nOf s.back, (Real.pi : ℂ) - asin x) := by
    show (nOf s.back, fixForward (nOf s.back) (snellAngle asin (nOf s.front) theta (nOf s.back))) = _
    rw [hang]
    have : ¬ isForwardAngle (nOf s.back) (asin x) := by
      have e1 : (nOf s.back * Complex.cos (asin x)).im < 0 := by
        rw [hnb, im_ofReal_mul]
        nlinarith [hcut x hx1]
      have e2 : (1e-10 : ℝ) < |(nOf s.back * Complex.cos (asin x)).im| := by
        rw [abs_of_neg e1, hnb, im_ofReal_mul]
        linarith
      rintro (⟨_, h4⟩ | ⟨h3, _⟩)
      · linarith
      · exact h3 e2
    unfold fixForward
    rw [if_pos this]
  intro hreg
  unfold Regular2x2 at hreg
  rw [hback'] at hreg
  have h3 : RegularChain (nOf s.back, snellAngle asin (nOf s.front) theta (nOf s.back)) [(nOf s.back, (Real.pi : ℂ) - asin x)] := hreg.2.2.2
  rw [hang] at h3
  apply h3.2.1
  show nOf s.back * Complex.cos (asin x) + nOf s.back * Complex.cos (Real.pi - asin x) = 0
  rw [Complex.cos_pi_sub]
  ring

end

/-- The textbook arcsine. -/
noncomputable def textbookArcsin (z : ℂ) : ℂ := -I * Complex.log (I * z + Complex.sqrt (1 - z ^ 2))

lemma textbookArcsin_cos (z : ℂ) : Complex.cos (textbookArcsin z) = Complex.sqrt (1 - z ^ 2) := by
  unfold textbookArcsin
  set w := I * z + Complex.sqrt (1 - z ^ 2) with hw
  have hs := csqrt_sq (1 - z ^ 2)
  have hne : w ≠ 0 := by
    intro h0
    have h1 : Complex.sqrt (1 - z ^ 2) = -(I * z) := by linear_combination h0 - hw
    rw [h1, neg_sq, mul_pow, I_sq] at hs
    have : (1 : ℂ) = 0 := by linear_combination -hs
    exact one_ne_zero this
  have hinv : w⁻¹ = Complex.sqrt (1 - z ^ 2) - I * z := by
    rw [inv_eq_iff_eq_inv, eq_comm, inv_eq_iff_eq_inv, ← mul_eq_one_iff_eq_inv₀ hne, hw]
    have := I_sq
    linear_combination hs - z ^ 2 * this
  rw [Complex.cos, show -I * Complex.log w * I = Complex.log w by linear_combination -Complex.log w * I_sq,
    show -(-I * Complex.log w) * I = -Complex.log w by linear_combination Complex.log w * I_sq,
    Complex.exp_neg, Complex.exp_log hne, hinv, hw]
  ring

theorem textbook_principal : Spec.PrincipalArcsin textbookArcsin where
  sin := exists_arcsin
  strip z := by
    rw [textbookArcsin_cos]
    exact csqrt_re_nonneg _
  side x y _ _ _ := by
    rw [textbookArcsin_cos, textbookArcsin_cos]
    have : ∀ t : ℝ, 0 ≤ (Complex.sqrt (1 - (t : ℂ) ^ 2)).im := fun t => by
      apply csqrt_im_nonneg
      rw [← ofReal_pow, ← ofReal_one, ← ofReal_sub, ofReal_im]
    exact mul_nonneg (this x) (this y)

open Classical in
/-- An arcsine on the other side of both cuts. -/
noncomputable def lowerArcsin (z : ℂ) : ℂ := if 1 < |z.re| ∧ z.im = 0 then Real.pi - textbookArcsin z else textbookArcsin z

lemma cut_sqrt {x : ℝ} (h : 1 < |x|) : Complex.sqrt (1 - (x : ℂ) ^ 2) = I * ((√(x ^ 2 - 1) : ℝ) : ℂ) := by
  have h1 : 0 < x ^ 2 - 1 := by
    have : 1 < |x| ^ 2 := by nlinarith
    rw [sq_abs] at this
    linarith
  rw [csqrt_eq_iff]
  refine ⟨Or.inr ⟨by simp, by simp⟩, ?_⟩
  rw [mul_pow, I_sq, ← ofReal_pow, Real.sq_sqrt h1.le]
  push_cast
  ring

theorem lower_principal : Spec.PrincipalArcsin lowerArcsin ∧ ∀ x : ℝ, 1 < x → (Complex.cos (lowerArcsin x)).im < 0 := by
  have hc : ∀ x : ℝ, 1 < |x| → Complex.cos (lowerArcsin x) = -(I * ((√(x ^ 2 - 1) : ℝ) : ℂ)) := by
    intro x hx
    unfold lowerArcsin
    rw [if_pos ⟨by simpa using hx, ofReal_im x⟩, Complex.cos_pi_sub, textbookArcsin_cos, cut_sqrt hx]
  refine ⟨⟨?_, ?_, ?_⟩, ?_⟩
  · intro z
    unfold lowerArcsin
    split
    · rw [Complex.sin_pi_sub]
      exact exists_arcsin z
    · exact exists_arcsin z
  · intro z
    by_cases hz : 1 < |z.re| ∧ z.im = 0
    · have : z = ((z.re : ℝ) : ℂ) := Complex.ext (by simp) (by simpa using hz.2)
      rw [this, hc _ hz.1]
      simp
    · unfold lowerArcsin
      rw [if_neg hz, textbookArcsin_cos]
      exact csqrt_re_nonneg _
  · intro x y hx hy _
    rw [hc x hx, hc y hy]
    simp only [neg_im, I_mul_im, ofReal_re]
    have := Real.sqrt_nonneg (x ^ 2 - 1)
    have := Real.sqrt_nonneg (y ^ 2 - 1)
    nlinarith
  · intro x hx
    rw [hc x (hx.trans_le (le_abs_self x))]
    simp only [neg_im, I_mul_im, ofReal_re]
    have : 0 < √(x ^ 2 - 1) := Real.sqrt_pos.2 (by nlinarith)
    linarith

/-- Glass (index 2) on air at 45 degrees with a layer of air: beyond total reflection. -/
example : ¬ Regular2x2 lowerArcsin (Stack.withLayers ⟨isoTensor 4, [], isoTensor 1, true⟩ [(100, isoTensor 1)]) 45 := by
  refine C148_exit_layer lower_principal.1 lower_principal.2 ⟨isoTensor 4, [], isoTensor 1, true⟩ 2 45 100 1 two_pos (by norm_num) (by norm_num) ?_ one_pos ?_ ?_
  · simp [isoTensor]
    norm_num
  · simp [isoTensor]
  · rw [show deg2rad 45 = Real.pi / 4 by unfold deg2rad; ring, Real.sin_pi_div_four, mul_pow, div_pow, Real.sq_sqrt (by norm_num)]
    norm_num

lemma demo_iso (eb : ℂ) : IsoLayers (demoStack eb).layers := by
  intro l hl
  simp only [demoStack, List.mem_singleton] at hl
  rw [hl]
  simp [isoTensor]

/-- A film on an absorbing substrate in air, at any angle; and under both arcsines. -/
example (theta : ℝ) (h : |theta| < 90) (ee) : calculate2x2 lowerArcsin (demoStack (4 + I)) theta 500 = calculate4x4 propExpm (demoStack (4 + I)) theta 500 ee ∧
    calculate2x2 textbookArcsin (demoStack (4 + I)) theta 500 = calculate4x4 propExpm (demoStack (4 + I)) theta 500 ee := by
  have hp : PassiveStack (demoStack (4 + I)) theta 500 := by
    refine demo_passive _ (fun h => ?_) (by simp) theta h
    have := congrArg Complex.im h
    simp at this
  have key : ∀ asin, Spec.PrincipalArcsin asin → calculate2x2 asin (demoStack (4 + I)) theta 500 = calculate4x4 propExpm (demoStack (4 + I)) theta 500 ee := fun asin ha => by
    refine C148_from_outside ha _ 1 theta 500 ee hp (demo_iso _) one_pos (by simp [demoStack, isoTensor]) ?_ (Or.inl (by simp [demoStack, isoTensor]))
    intro l hl
    simp only [demoStack, List.mem_singleton] at hl
    right
    rw [hl]
    simp [isoTensor]
    norm_num
  exact ⟨key _ lower_principal.1, key _ textbook_principal⟩

/-- A film between glass (index 2) and air at 45 degrees, beyond total reflection at the exit: the film carries a wave. -/
example (ee) : calculate2x2 lowerArcsin ⟨isoTensor 4, [(100, isoTensor 3)], isoTensor 1, true⟩ 45 500 =
    calculate4x4 propExpm ⟨isoTensor 4, [(100, isoTensor 3)], isoTensor 1, true⟩ 45 500 ee := by
  have hk : (2 * Real.sin (deg2rad 45)) ^ 2 = 2 := by
    rw [show deg2rad 45 = Real.pi / 4 by unfold deg2rad; ring, Real.sin_pi_div_four, mul_pow, div_pow, Real.sq_sqrt (by norm_num)]
    norm_num
  have h3 : Spec.Passive (isoTensor 3) := by
    intro E
    simp only [isoTensor, dotProduct, mulVec, Fin.sum_univ_three, Pi.star_apply, RCLike.star_def]
    simp
    nlinarith
  refine (C148_defined lower_principal.1 _ 2 45 500 ee ⟨⟨2, two_pos, ?_⟩, by rw [abs_of_pos] <;> norm_num, by norm_num, ?_, ?_, ?_, rfl⟩ ?_ two_pos ?_ ?_ ?_ ?_).2
  · simp [isoTensor]; norm_num
  · intro l hl
    simp only [List.mem_singleton] at hl
    rw [hl]
    exact ⟨by norm_num, by simp [isoTensor], h3⟩
  · simp [isoTensor]
  · simp [isoTensor]
  · intro l hl
    simp only [List.mem_singleton] at hl
    rw [hl]
    simp [isoTensor]
  · simp [isoTensor]; norm_num
  · intro l hl
    simp only [List.mem_singleton] at hl
    rw [hl, hk]
    simp [isoTensor]
  · intro _
    rw [hk]
    simp [isoTensor]
    norm_num
  · intro h0
    exfalso
    have := h0.2
    rw [hk] at this
    simp [isoTensor] at this
    norm_num at this

end PyElli
