import Verif.Props.UltraThin
import Verif.Props.Angles
import Mathlib.Data.Set.Card

/-!
# C133: how far one pair of ellipsometric angles determines the thickness of a film
-/

namespace PyElli

open Matrix Complex Spec Set

/-- A film of the material `e1` and thickness `d` on a substrate `eb`, measured with light of the Jones vector `(a, b)`. -/
noncomputable def filmResult (n0 theta lbda : ℝ) (e1 eb : ℂ) (ee : (Fin 4 → ℂ) × Mat4) (a b : ℂ) (d : ℝ) : Result :=
  let out := calculate4x4 propExpm ⟨isoTensor ((n0 ^ 2 : ℝ) : ℂ), [(d, isoTensor e1)], isoTensor eb, true⟩ theta lbda ee
  Result.mk' out.jr out.jt out.power ![a, b]

/-- Samples whose `rho` cannot depend on the thickness: normal incidence, a film of the material of the ambient or of the substrate, and a
film between two equal media at its Brewster angle. -/
def Blind (kx : ℝ) (e0 e1 eb : ℂ) : Prop :=
  kx = 0 ∨ e1 = e0 ∨ e1 = eb ∨ (eb = e0 ∧ (kx : ℂ) ^ 2 * (e0 + e1) = e0 * e1)

lemma encard_le_two {α : Type*} {s : Set α} (h : ∀ x ∈ s, ∀ y ∈ s, ∀ z ∈ s, x = y ∨ y = z ∨ x = z) : s.encard ≤ 2 := by
  by_contra hc
  have h3 : (3 : ℕ∞) ≤ s.encard := by
    have := Order.add_one_le_of_lt (not_le.1 hc)
    exact le_trans (by norm_num) this
  obtain ⟨t, ht, hc⟩ := Set.exists_subset_encard_eq h3
  obtain ⟨x, y, z, hxy, hxz, hyz, rfl⟩ := Set.encard_eq_three.1 hc
  rcases h x (ht (by simp)) y (ht (by simp)) z (ht (by simp)) with h | h | h
  · exact hxy h
  · exact hyz h
  · exact hxz h

/-- A quadratic with three distinct roots vanishes. -/
lemma quadratic_three {A B C x y z : ℂ} (hx : A * x ^ 2 + B * x + C = 0) (hy : A * y ^ 2 + B * y + C = 0) (hz : A * z ^ 2 + B * z + C = 0)
    (hxy : x ≠ y) (hyz : y ≠ z) (hxz : x ≠ z) : A = 0 ∧ B = 0 ∧ C = 0 := by
  have h1 : A * (x + y) + B = 0 := by
    have : (x - y) * (A * (x + y) + B) = 0 := by linear_combination hx - hy
    exact (mul_eq_zero.1 this).resolve_left (sub_ne_zero.2 hxy)
  have h2 : A * (y + z) + B = 0 := by
    have : (y - z) * (A * (y + z) + B) = 0 := by linear_combination hy - hz
    exact (mul_eq_zero.1 this).resolve_left (sub_ne_zero.2 hyz)
  have hA : A = 0 := by
    have : (x - z) * A = 0 := by linear_combination h1 - h2
    exact (mul_eq_zero.1 this).resolve_left (sub_ne_zero.2 hxz)
  subst hA
  have hB : B = 0 := by linear_combination h1
  subst hB
  exact ⟨rfl, rfl, by linear_combination hx⟩

/-- The energy flux of a p wave. -/
lemma flux_p {e q : ℂ} {kx : ℝ} (h : q ^ 2 = e - (kx : ℂ) ^ 2) : (q / e).re = q.re * (q.re ^ 2 + q.im ^ 2 + kx ^ 2) / Complex.normSq e := by
  have hr := congrArg Complex.re h
  have hi := congrArg Complex.im h
  simp [pow_two] at hr hi
  rw [Complex.div_re]
  have h1 : e.re = q.re * q.re - q.im * q.im + kx * kx := by linarith
  have h2 : e.im = q.re * q.im + q.im * q.re := by linarith
  rw [← add_div]
  congr 1
  rw [h1, h2]
  ring

lemma p_sum_ne {e q e' q' : ℂ} {kx : ℝ} (he : e ≠ 0) (he' : e' ≠ 0) (h : q ^ 2 = e - (kx : ℂ) ^ 2) (h' : q' ^ 2 = e' - (kx : ℂ) ^ 2)
    (hq : 0 < q.re) (hq' : 0 ≤ q'.re) : e' * q + e * q' ≠ 0 := by
  intro h0
  have h1 : q / e + q' / e' = 0 := by field_simp; linear_combination h0
  have h2 := congrArg Complex.re h1
  rw [Complex.add_re, flux_p h, flux_p h', Complex.zero_re] at h2
  have n1 := Complex.normSq_pos.2 he
  have n2 := Complex.normSq_pos.2 he'
  have : 0 < q.re * (q.re ^ 2 + q.im ^ 2 + kx ^ 2) / Complex.normSq e := by positivity
  have : 0 ≤ q'.re * (q'.re ^ 2 + q'.im ^ 2 + kx ^ 2) / Complex.normSq e' := by positivity
  linarith

lemma s_sum_ne {q q' : ℂ} (hq : 0 < q.re) (hq' : 0 ≤ q'.re) : q + q' ≠ 0 := by
  intro h
  have := congrArg Complex.re h
  simp at this
  linarith

/-- The coefficients of the quadratic vanish together only for the blind samples. -/
lemma blind_of_vanishing {e0 e1 eb q0 q1 qb ρ : ℂ} {kx : ℝ} (h0 : e0 ≠ 0) (h1 : e1 ≠ 0) (hq0 : q0 ≠ 0) (hq1 : q1 ≠ 0)
    (s0 : q0 ^ 2 = e0 - (kx : ℂ) ^ 2) (s1 : q1 ^ 2 = e1 - (kx : ℂ) ^ 2) (sb : qb ^ 2 = eb - (kx : ℂ) ^ 2)
    (a1 : q0 + q1 ≠ 0) (a2 : q1 + qb ≠ 0) (a3 : e1 * q0 + e0 * q1 ≠ 0) (a4 : eb * q1 + e1 * qb ≠ 0)
    (c2 : rP e1 q1 eb qb * rS q1 qb * (rS q0 q1 - ρ * rP e0 q0 e1 q1) = 0)
    (c1 : rP e0 q0 e1 q1 * rS q0 q1 * rS q1 qb + rP e1 q1 eb qb - ρ * (rS q0 q1 * rP e0 q0 e1 q1 * rP e1 q1 eb qb + rS q1 qb) = 0)
    (c0 : rP e0 q0 e1 q1 - ρ * rS q0 q1 = 0) : Blind kx e0 e1 eb := by
  by_contra hB
  unfold Blind at hB
  push Not at hB
  obtain ⟨b1, b2, b3, b4⟩ := hB
  have kx' : (kx : ℂ) ≠ 0 := by exact_mod_cast b1
  have hc : rS q0 q1 ≠ 0 := by
    unfold rS
    refine div_ne_zero (fun h => b2 ?_) a1
    linear_combination s0 - s1 - (q0 + q1) * h
  have he : rS q1 qb ≠ 0 := by
    unfold rS
    refine div_ne_zero (fun h => b3 ?_) a2
    linear_combination sb - s1 + (q1 + qb) * h
  have hac : rP e0 q0 e1 q1 - rS q0 q1 ≠ 0 := by
    have : rP e0 q0 e1 q1 - rS q0 q1 = 2 * q0 * q1 * (e1 - e0) / ((e1 * q0 + e0 * q1) * (q0 + q1)) := by
      unfold rP rS
      rw [div_sub_div _ _ a3 a1]
      congr 1
      ring
    rw [this]
    exact div_ne_zero (mul_ne_zero (mul_ne_zero (mul_ne_zero two_ne_zero hq0) hq1) (sub_ne_zero.2 b2)) (mul_ne_zero a3 a1)
  have hac' : rP e0 q0 e1 q1 + rS q0 q1 ≠ 0 := by
    have : rP e0 q0 e1 q1 + rS q0 q1 = 2 * (kx : ℂ) ^ 2 * (e0 - e1) / ((e1 * q0 + e0 * q1) * (q0 + q1)) := by
      unfold rP rS
      rw [div_add_div _ _ a3 a1]
      congr 1
      linear_combination 2 * e1 * s0 - 2 * e0 * s1
    rw [this]
    exact div_ne_zero (mul_ne_zero (mul_ne_zero two_ne_zero (pow_ne_zero 2 kx')) (sub_ne_zero.2 b2.symm)) (mul_ne_zero a3 a1)
  have ha2 : 1 - rP e0 q0 e1 q1 ^ 2 ≠ 0 := by
    have : 1 - rP e0 q0 e1 q1 ^ 2 = 4 * e0 * e1 * q0 * q1 / (e1 * q0 + e0 * q1) ^ 2 := by
      unfold rP
      field_simp
      ring
    rw [this]
    exact div_ne_zero (by simp [h0, h1, hq0, hq1]) (pow_ne_zero 2 a3)
  have hc2 : 1 - rS q0 q1 ^ 2 ≠ 0 := by
    have : 1 - rS q0 q1 ^ 2 = 4 * q0 * q1 / (q0 + q1) ^ 2 := by
      unfold rS
      field_simp
      ring
    rw [this]
    exact div_ne_zero (by simp [hq0, hq1]) (pow_ne_zero 2 a1)
  have key : rP e1 q1 eb qb = 0 ∧ rP e0 q0 e1 q1 = 0 := by
    generalize rP e0 q0 e1 q1 = A at *
    generalize rP e1 q1 eb qb = B at *
    generalize rS q0 q1 = C at *
    generalize rS q1 qb = E at *
    have hρ : ρ = A / C := by field_simp; linear_combination -c0
    have k2 : B * (E * ((A - C) * (A + C))) = 0 := by
      rw [hρ] at c2
      field_simp at c2
      linear_combination -c2
    have hBz : B = 0 := (mul_eq_zero.1 k2).resolve_right (mul_ne_zero he (mul_ne_zero hac hac'))
    refine ⟨hBz, ?_⟩
    rw [hBz, hρ] at c1
    field_simp at c1
    have : A * (E * (1 - C ^ 2)) = 0 := by linear_combination -c1
    exact (mul_eq_zero.1 this).resolve_right (mul_ne_zero he hc2)
  obtain ⟨kb, ka⟩ := key
  have kb' : eb * q1 = e1 * qb := by
    unfold rP at kb
    rcases div_eq_zero_iff.1 kb with h | h
    · linear_combination h
    · exact absurd h a4
  have ka' : e1 * q0 = e0 * q1 := by
    unfold rP at ka
    rcases div_eq_zero_iff.1 ka with h | h
    · linear_combination h
    · exact absurd h a3
  have kk : (kx : ℂ) ^ 2 * (e0 + e1) = e0 * e1 := by
    have : (e1 - e0) * ((kx : ℂ) ^ 2 * (e0 + e1) - e0 * e1) = 0 := by
      have := congrArg (· ^ 2) ka'
      simp only [mul_pow, s0, s1] at this
      linear_combination -this
    linear_combination (mul_eq_zero.1 this).resolve_left (sub_ne_zero.2 b2)
  have kk' : (kx : ℂ) ^ 2 * (eb + e1) = eb * e1 := by
    have : (e1 - eb) * ((kx : ℂ) ^ 2 * (eb + e1) - eb * e1) = 0 := by
      have := congrArg (· ^ 2) kb'
      simp only [mul_pow, s1, sb] at this
      linear_combination this
    linear_combination (mul_eq_zero.1 this).resolve_left (sub_ne_zero.2 b3)
  refine b4 ?_ kk
  have hne : (kx : ℂ) ^ 2 - e1 ≠ 0 := by
    intro h
    apply pow_ne_zero 2 hq1
    rw [s1]
    linear_combination -h
  have : ((kx : ℂ) ^ 2 - e1) * (eb - e0) = 0 := by linear_combination kk' - kk
  linear_combination (mul_eq_zero.1 this).resolve_left hne

/-- Conversely `rho` is constant for the blind samples. -/
lemma vanishing_of_blind {e0 e1 eb q0 q1 qb : ℂ} {kx : ℝ} (h0 : e0 ≠ 0) (h1 : e1 ≠ 0) (hb : eb ≠ 0) (hq0 : 0 < q0.re) (hq1 : 0 < q1.re) (hqb : 0 ≤ qb.re)
    (hpr0 : Principal q0) (hpr1 : Principal q1) (hprb : Principal qb)
    (s0 : q0 ^ 2 = e0 - (kx : ℂ) ^ 2) (s1 : q1 ^ 2 = e1 - (kx : ℂ) ^ 2) (sb : qb ^ 2 = eb - (kx : ℂ) ^ 2) (hB : Blind kx e0 e1 eb) :
    ∃ ρ, rP e1 q1 eb qb * rS q1 qb * (rS q0 q1 - ρ * rP e0 q0 e1 q1) = 0 ∧
      rP e0 q0 e1 q1 * rS q0 q1 * rS q1 qb + rP e1 q1 eb qb - ρ * (rS q0 q1 * rP e0 q0 e1 q1 * rP e1 q1 eb qb + rS q1 qb) = 0 ∧
      rP e0 q0 e1 q1 - ρ * rS q0 q1 = 0 := by
  have a1 := s_sum_ne hq0 hq1.le
  have a2 := s_sum_ne hq1 hqb
  have a3 := p_sum_ne h0 h1 s0 s1 hq0 hq1.le
  have n0 : q0 ≠ 0 := fun h => by rw [h] at hq0; simp at hq0
  have n1 : q1 ≠ 0 := fun h => by rw [h] at hq1; simp at hq1
  have self : ∀ e q, rP e q e q = 0 ∧ rS q q = 0 := fun e q => by simp [rP, rS]
  rcases hB with h | h | h | ⟨h, h'⟩
  · subst h
    simp only [Complex.ofReal_zero, ne_eq, OfNat.ofNat_ne_zero, not_false_eq_true, zero_pow, sub_zero] at s0 s1 sb
    have nb : qb ≠ 0 := fun h => hb (by rw [← sb, h]; simp)
    have key : ∀ q q' : ℂ, q ≠ 0 → q' ≠ 0 → q + q' ≠ 0 → rP (q ^ 2) q (q' ^ 2) q' = -rS q q' := by
      intro q q' h h' hs
      unfold rP rS
      rw [show q' ^ 2 * q - q ^ 2 * q' = q * q' * (q' - q) by ring, show q' ^ 2 * q + q ^ 2 * q' = q * q' * (q + q') by ring,
        mul_div_mul_left _ _ (mul_ne_zero h h')]
      ring
    refine ⟨-1, ?_⟩
    rw [← s0, ← s1, ← sb, key q0 q1 n0 n1 a1, key q1 qb n1 nb a2]
    refine ⟨by ring, by ring, by ring⟩
  · have hq : q1 = q0 := principal_sq_inj hpr1 hpr0 (by rw [s0, s1, h])
    subst h hq
    rw [(self e1 q1).1, (self e1 q1).2]
    by_cases he : rS q1 qb = 0
    · have h2 : q1 = qb := by
        unfold rS at he
        rcases div_eq_zero_iff.1 he with h | h
        · linear_combination h
        · exact absurd h a2
      have h3 : eb = e1 := by
        rw [← h2, s1] at sb
        linear_combination -sb
      exact ⟨0, by simp, by rw [h3, ← h2, (self e1 q1).1]; simp, by simp⟩
    · exact ⟨rP e1 q1 eb qb / rS q1 qb, by simp, by field_simp; ring, by simp⟩
  · have hq : q1 = qb := principal_sq_inj hpr1 hprb (by rw [sb, s1, h])
    subst h hq
    rw [(self e1 q1).1, (self e1 q1).2]
    by_cases hc : rS q0 q1 = 0
    · have h2 : q0 = q1 := by
        unfold rS at hc
        rcases div_eq_zero_iff.1 hc with h | h
        · linear_combination h
        · exact absurd h a1
      have h3 : e0 = e1 := by
        rw [h2, s1] at s0
        linear_combination -s0
      exact ⟨0, by simp, by simp, by rw [h3, h2, (self e1 q1).1]; simp⟩
    · exact ⟨rP e0 q0 e1 q1 / rS q0 q1, by simp, by simp, by field_simp; ring⟩
  · have hq : qb = q0 := principal_sq_inj hprb hpr0 (by rw [sb, s0, h])
    subst h hq
    have hz : e1 * qb - eb * q1 = 0 := by
      have : (e1 * qb - eb * q1) * (e1 * qb + eb * q1) = 0 := by
        linear_combination e1 ^ 2 * s0 - eb ^ 2 * s1 + (eb - e1) * h'
      exact (mul_eq_zero.1 this).resolve_right a3
    have hA : rP eb qb e1 q1 = 0 := by unfold rP; rw [hz, zero_div]
    have hA' : rP e1 q1 eb qb = 0 := by unfold rP; rw [show eb * q1 - e1 * qb = 0 by linear_combination -hz, zero_div]
    rw [hA, hA']
    exact ⟨0, by simp, by simp, by simp⟩

/-- The equation for the thickness, as a quadratic in the phase factor of the film. -/
lemma film_quadratic {n0 theta lbda d : ℝ} {e1 eb : ℂ} (ee) (hn0 : 0 < n0) (hth : |theta| < 90) (hl : 0 < lbda) (hd : 0 ≤ d)
    (h1 : e1 ≠ 0) (h1' : 0 ≤ e1.im) (hb : eb ≠ 0) (hb' : 0 ≤ eb.im) (ρ : ℂ) :
    let kx : ℝ := n0 * Real.sin (deg2rad theta)
    let q0 : ℂ := n0 * (Real.cos (deg2rad theta) : ℝ)
    let q1 := Complex.sqrt (e1 - kx ^ 2)
    let qb := Complex.sqrt (eb - kx ^ 2)
    let X := Complex.exp (2 * I * (2 * Real.pi * q1 * d / lbda))
    let out := calculate4x4 propExpm ⟨isoTensor ((n0 ^ 2 : ℝ) : ℂ), [(d, isoTensor e1)], isoTensor eb, true⟩ theta lbda ee
    0 < q1.re →
    (out.jr 0 0 = ρ * out.jr 1 1 ↔
      rP e1 q1 eb qb * rS q1 qb * (rS q0 q1 - ρ * rP (n0 ^ 2) q0 e1 q1) * X ^ 2 +
      (rP (n0 ^ 2) q0 e1 q1 * rS q0 q1 * rS q1 qb + rP e1 q1 eb qb - ρ * (rS q0 q1 * rP (n0 ^ 2) q0 e1 q1 * rP e1 q1 eb qb + rS q1 qb)) * X +
      (rP (n0 ^ 2) q0 e1 q1 - ρ * rS q0 q1) = 0) := by
  intro kx q0 q1 qb X out hq1
  have n1 : q1 ≠ 0 := fun h => by rw [h] at hq1; simp at hq1
  have hp : eb * q1 + e1 * qb ≠ 0 := p_sum_ne (kx := kx) h1 hb (csqrt_sq _) (csqrt_sq _) hq1 (csqrt_re_nonneg _)
  obtain ⟨⟨s1, -, s2⟩, hP⟩ := C94_airy n0 theta lbda d e1 eb ee hn0 hth hl hd h1 h1' hb hb' n1
  obtain ⟨p1, -, p2⟩ := hP hp
  rw [show out.jr 0 0 = _ from p1, show out.jr 1 1 = _ from s1]
  unfold airyR
  change 1 + rS q0 q1 * rS q1 qb * X ≠ 0 at s2
  change 1 + rP (n0 ^ 2) q0 e1 q1 * rP e1 q1 eb qb * X ≠ 0 at p2
  change (rP (n0 ^ 2) q0 e1 q1 + rP e1 q1 eb qb * X) / (1 + rP (n0 ^ 2) q0 e1 q1 * rP e1 q1 eb qb * X) =
    ρ * ((rS q0 q1 + rS q1 qb * X) / (1 + rS q0 q1 * rS q1 qb * X)) ↔ _
  clear s1 p1 hP
  generalize rP (n0 ^ 2) q0 e1 q1 = A at *
  generalize rP e1 q1 eb qb = B at *
  generalize rS q0 q1 = C at *
  generalize rS q1 qb = E at *
  clear_value X
  rw [mul_div_assoc', div_eq_div_iff p2 s2]
  constructor
  · intro h
    linear_combination h
  · intro h
    linear_combination h

/-- Equal phase factors. -/
lemma phase_eq_iff {q : ℂ} {lbda d d' : ℝ} (hl : 0 < lbda)
    (h : Complex.exp (2 * I * (2 * Real.pi * q * d / lbda)) = Complex.exp (2 * I * (2 * Real.pi * q * d' / lbda))) :
    ∃ n : ℤ, 2 * q.re * (d - d') = n * lbda ∧ q.im * (d - d') = 0 := by
  obtain ⟨n, hn⟩ := Complex.exp_eq_exp_iff_exists_int.1 h
  have hl' : (lbda : ℂ) ≠ 0 := by exact_mod_cast hl.ne'
  have hp : (Real.pi : ℂ) ≠ 0 := by exact_mod_cast Real.pi_ne_zero
  have h2 : 2 * q * ((d - d' : ℝ) : ℂ) = ((n * lbda : ℝ) : ℂ) := by
    have hI : (2 * Real.pi * I : ℂ) ≠ 0 := by simp [Real.pi_ne_zero]
    apply mul_left_cancel₀ hI
    push_cast
    have : 2 * I * (2 * Real.pi * q * d / lbda) * lbda = (2 * I * (2 * Real.pi * q * d' / lbda) + n * (2 * Real.pi * I)) * lbda := by rw [hn]
    field_simp at this
    linear_combination 2 * Real.pi * I * this
  refine ⟨n, ?_, ?_⟩
  · have := congrArg Complex.re h2
    simpa using this
  · have := congrArg Complex.im h2
    simp at this
    rcases this with h | h
    · rw [h, zero_mul]
    · rw [h, mul_zero]

/-- The wave in the film is not purely evanescent when the film absorbs or is dense enough. -/
lemma kz_re_pos {e : ℂ} {kx : ℝ} (h : 0 ≤ e.im) (hq : 0 < e.im ∨ kx ^ 2 < e.re) : 0 < (Complex.sqrt (e - (kx : ℂ) ^ 2)).re := by
  have h2 := csqrt_sq (e - (kx : ℂ) ^ 2)
  have hre := csqrt_re_nonneg (e - (kx : ℂ) ^ 2)
  generalize Complex.sqrt (e - (kx : ℂ) ^ 2) = q at *
  have hr := congrArg Complex.re h2
  have hi := congrArg Complex.im h2
  simp [pow_two] at hr hi
  rcases hre.lt_or_eq with h0 | h0
  · exact h0
  · exfalso
    rw [← h0] at hr hi
    rcases hq with hq | hq
    · linarith
    · nlinarith [mul_self_nonneg q.im]

lemma film_kz_im_pos {e : ℂ} {kx : ℝ} (h : 0 < e.im) : 0 < (Complex.sqrt (e - (kx : ℂ) ^ 2)).im := by
  have h2 := csqrt_sq (e - (kx : ℂ) ^ 2)
  have hre := csqrt_re_nonneg (e - (kx : ℂ) ^ 2)
  have hi := congrArg Complex.im h2
  generalize Complex.sqrt (e - (kx : ℂ) ^ 2) = q at *
  simp [pow_two] at hi
  by_contra hc
  nlinarith

lemma film_range (n0 theta lbda : ℝ) (e1 eb : ℂ) (ee) (a b : ℂ) (d : ℝ) : (filmResult n0 theta lbda e1 eb ee a b d).range = ⟨-180, 180⟩ := rfl

lemma film_rho (n0 theta lbda : ℝ) (e1 eb : ℂ) (ee) (a b : ℂ) (hb : b ≠ 0) (d : ℝ) :
    (filmResult n0 theta lbda e1 eb ee a b d).rho =
      a / b * ((filmResult n0 theta lbda e1 eb ee a b d).jr 0 0 / (filmResult n0 theta lbda e1 eb ee a b d).jr 1 1) := by
  have hcross := fun i j hij => (C79_no_cross_polarisation ⟨isoTensor ((n0 ^ 2 : ℝ) : ℂ), [(d, isoTensor e1)], isoTensor eb, true⟩ rfl
    (by
      intro l hl
      simp only [List.mem_singleton] at hl
      subst hl
      simp [isoTensor]) theta lbda ee i j hij).1
  exact rho_diag_any _ _ _ a b hb (hcross 0 1 (by decide)) (hcross 1 0 (by decide))

/-- The measured angles determine the ratio of the reflection coefficients. -/
lemma film_ratio (n0 theta lbda : ℝ) (e1 eb : ℂ) (ee) (a b : ℂ) (ha : a ≠ 0) (hb : b ≠ 0) (d : ℝ) (h : (filmResult n0 theta lbda e1 eb ee a b d).jr 1 1 ≠ 0) :
    (filmResult n0 theta lbda e1 eb ee a b d).jr 0 0 =
      b / a * calcRho (filmResult n0 theta lbda e1 eb ee a b d).psi (filmResult n0 theta lbda e1 eb ee a b d).delta *
        (filmResult n0 theta lbda e1 eb ee a b d).jr 1 1 := by
  have hrho := film_rho n0 theta lbda e1 eb ee a b hb d
  set R := filmResult n0 theta lbda e1 eb ee a b d with hR
  have hround := C03_round_trip_factor R
  have hone : Complex.exp (-Complex.I * ((2 * R.range.lower * Real.pi / 180 : ℝ) : ℂ)) = 1 := by
    rw [Complex.exp_eq_one_iff]
    refine ⟨1, ?_⟩
    have : R.range.lower = -180 := rfl
    rw [this]
    push_cast
    ring
  rw [hone, mul_one] at hround
  rw [hround, hrho]
  field_simp

lemma film_three {n0 theta lbda : ℝ} {e1 eb : ℂ} (ee) (hn0 : 0 < n0) (hth : |theta| < 90) (hl : 0 < lbda)
    (h1 : e1 ≠ 0) (h1' : 0 ≤ e1.im) (hb : eb ≠ 0) (hb' : 0 ≤ eb.im) (ρ : ℂ) :
    let kx : ℝ := n0 * Real.sin (deg2rad theta)
    let q1 := Complex.sqrt (e1 - kx ^ 2)
    let X := fun d : ℝ => Complex.exp (2 * I * (2 * Real.pi * q1 * d / lbda))
    let out := fun d => calculate4x4 propExpm ⟨isoTensor ((n0 ^ 2 : ℝ) : ℂ), [(d, isoTensor e1)], isoTensor eb, true⟩ theta lbda ee
    0 < q1.re → ∀ x y z, 0 ≤ x → 0 ≤ y → 0 ≤ z → X x ≠ X y → X y ≠ X z → X x ≠ X z →
    (out x).jr 0 0 = ρ * (out x).jr 1 1 → (out y).jr 0 0 = ρ * (out y).jr 1 1 → (out z).jr 0 0 = ρ * (out z).jr 1 1 → Blind kx (n0 ^ 2) e1 eb := by
  intro kx q1 X out hq1 x y z hx hy hz hxy hyz hxz ex ey ez
  have hcos := cos_pos_of_angle hth
  have hq0 : 0 < ((n0 : ℂ) * (Real.cos (deg2rad theta) : ℝ)).re := by
    rw [← Complex.ofReal_mul, Complex.ofReal_re]
    exact mul_pos hn0 hcos
  have n0' : (n0 : ℂ) ^ 2 ≠ 0 := pow_ne_zero 2 (by exact_mod_cast hn0.ne')
  obtain ⟨c2, c1, c0⟩ := quadratic_three ((film_quadratic ee hn0 hth hl hx h1 h1' hb hb' ρ hq1).1 ex)
    ((film_quadratic ee hn0 hth hl hy h1 h1' hb hb' ρ hq1).1 ey) ((film_quadratic ee hn0 hth hl hz h1 h1' hb hb' ρ hq1).1 ez) hxy hyz hxz
  have hne : ∀ w : ℂ, 0 < w.re → w ≠ 0 := fun w hw h => by rw [h] at hw; simp at hw
  refine blind_of_vanishing n0' h1 (hne _ hq0) (hne _ hq1) (front_sq n0 theta) (csqrt_sq _) (csqrt_sq _)
    (s_sum_ne hq0 hq1.le) (s_sum_ne hq1 (csqrt_re_nonneg _)) (p_sum_ne n0' h1 (front_sq n0 theta) (csqrt_sq _) hq0 hq1.le)
    (p_sum_ne h1 hb (csqrt_sq _) (csqrt_sq _) hq1 (csqrt_re_nonneg _)) c2 c1 c0

/-- Thicknesses in one period have distinct phase factors. -/
lemma phase_inj {q : ℂ} {lbda D : ℝ} (hl : 0 < lbda) (hq : 0 < q.re) {d d' : ℝ} (hd : d ∈ Ico D (D + lbda / (2 * q.re)))
    (hd' : d' ∈ Ico D (D + lbda / (2 * q.re)))
    (h : Complex.exp (2 * I * (2 * Real.pi * q * d / lbda)) = Complex.exp (2 * I * (2 * Real.pi * q * d' / lbda))) : d = d' := by
  obtain ⟨n, hn, -⟩ := phase_eq_iff hl h
  have hw : |d - d'| < lbda / (2 * q.re) := by
    rw [abs_lt]
    constructor <;> linarith [hd.1, hd.2, hd'.1, hd'.2]
  have h1 : |(n : ℝ)| * lbda < 1 * lbda := by
    have : |2 * q.re * (d - d')| = |(n : ℝ)| * lbda := by rw [hn, abs_mul, abs_of_pos hl]
    rw [← this, abs_mul, abs_of_pos (by linarith), one_mul]
    rwa [lt_div_iff₀' (by linarith)] at hw
  have h2 : |(n : ℝ)| < 1 := lt_of_mul_lt_mul_right h1 hl.le
  have h3 : n = 0 := by
    rw [← Int.abs_lt_one_iff]
    exact_mod_cast h2
  rw [h3, Int.cast_zero, zero_mul] at hn
  have := (mul_eq_zero.1 hn).resolve_left (by linarith)
  linarith

/-- C133: within one period of the interference at most two thicknesses of a film give the measured pair `Ψ`, `Δ`, unless the sample is
blind. -/
theorem C133_period (n0 theta lbda : ℝ) (e1 eb : ℂ) (ee) (a b : ℂ) (hn0 : 0 < n0) (hth : |theta| < 90) (hl : 0 < lbda)
    (h1 : e1 ≠ 0) (h1' : 0 ≤ e1.im) (hb : eb ≠ 0) (hb' : 0 ≤ eb.im) (ha : a ≠ 0) (hj : b ≠ 0) (D Ψ Δ : ℝ) :
    let kx : ℝ := n0 * Real.sin (deg2rad theta)
    let R := filmResult n0 theta lbda e1 eb ee a b
    0 < e1.im ∨ kx ^ 2 < e1.re → ¬ Blind kx (n0 ^ 2) e1 eb →
    {d | 0 ≤ d ∧ d ∈ Ico D (D + lbda / (2 * (Complex.sqrt (e1 - kx ^ 2)).re)) ∧ (R d).jr 1 1 ≠ 0 ∧ (R d).psi = Ψ ∧ (R d).delta = Δ}.encard ≤ 2 := by
  intro kx R hq hB
  have hq1 := kz_re_pos h1' hq
  have eq : ∀ d, (R d).jr 1 1 ≠ 0 → (R d).psi = Ψ → (R d).delta = Δ → (R d).jr 0 0 = b / a * calcRho Ψ Δ * (R d).jr 1 1 := fun d h hp hd => by
    rw [← hp, ← hd]
    exact film_ratio n0 theta lbda e1 eb ee a b ha hj d h
  refine encard_le_two ?_
  rintro x ⟨x1, x2, x3, x4, x5⟩ y ⟨y1, y2, y3, y4, y5⟩ z ⟨z1, z2, z3, z4, z5⟩
  by_contra hc
  push Not at hc
  exact hB (film_three ee hn0 hth hl h1 h1' hb hb' (b / a * calcRho Ψ Δ) hq1 x y z x1 y1 z1 (fun h => hc.1 (phase_inj hl hq1 x2 y2 h))
    (fun h => hc.2.1 (phase_inj hl hq1 y2 z2 h)) (fun h => hc.2.2 (phase_inj hl hq1 x2 z2 h)) (eq x x3 x4 x5) (eq y y3 y4 y5) (eq z z3 z4 z5))

/-- C133: an absorbing film has at most two thicknesses altogether with the measured pair `Ψ`, `Δ`. -/
theorem C133_absorbing (n0 theta lbda : ℝ) (e1 eb : ℂ) (ee) (a b : ℂ) (hn0 : 0 < n0) (hth : |theta| < 90) (hth0 : theta ≠ 0) (hl : 0 < lbda)
    (h1 : 0 < e1.im) (hb : eb ≠ 0) (hb' : 0 ≤ eb.im) (hne : e1 ≠ eb) (ha : a ≠ 0) (hj : b ≠ 0) (Ψ Δ : ℝ) :
    let R := filmResult n0 theta lbda e1 eb ee a b
    {d | 0 ≤ d ∧ (R d).jr 1 1 ≠ 0 ∧ (R d).psi = Ψ ∧ (R d).delta = Δ}.encard ≤ 2 := by
  intro R
  have he1 : e1 ≠ 0 := fun h => by rw [h] at h1; simp at h1
  set kx : ℝ := n0 * Real.sin (deg2rad theta) with hkx
  have hk0 : kx ≠ 0 := by
    refine mul_ne_zero hn0.ne' ?_
    have hab := abs_lt.1 hth
    rcases lt_or_gt_of_ne hth0 with h | h
    · have := sin_pos_of_angle (theta := -theta) (by linarith) (by linarith)
      rw [show deg2rad (-theta) = -deg2rad theta by unfold deg2rad; ring, Real.sin_neg] at this
      linarith
    · exact (sin_pos_of_angle h hab.2).ne'
  have hq1 : 0 < (Complex.sqrt (e1 - (kx : ℂ) ^ 2)).re := kz_re_pos h1.le (Or.inl h1)
  have hq2 : 0 < (Complex.sqrt (e1 - (kx : ℂ) ^ 2)).im := film_kz_im_pos h1
  have eq : ∀ d, (R d).jr 1 1 ≠ 0 → (R d).psi = Ψ → (R d).delta = Δ → (R d).jr 0 0 = b / a * calcRho Ψ Δ * (R d).jr 1 1 := fun d h hp hd => by
    rw [← hp, ← hd]
    exact film_ratio n0 theta lbda e1 eb ee a b ha hj d h
  have hinj : ∀ d d' : ℝ, Complex.exp (2 * I * (2 * Real.pi * Complex.sqrt (e1 - (kx : ℂ) ^ 2) * d / lbda)) =
      Complex.exp (2 * I * (2 * Real.pi * Complex.sqrt (e1 - (kx : ℂ) ^ 2) * d' / lbda)) → d = d' := fun d d' h => by
    obtain ⟨-, -, h2⟩ := phase_eq_iff hl h
    linarith [(mul_eq_zero.1 h2).resolve_left hq2.ne']
  refine encard_le_two ?_
  rintro x ⟨x1, x3, x4, x5⟩ y ⟨y1, y3, y4, y5⟩ z ⟨z1, z3, z4, z5⟩
  by_contra hc
  push Not at hc
  have hB := film_three ee hn0 hth hl he1 h1.le hb hb' (b / a * calcRho Ψ Δ) hq1 x y z x1 y1 z1 (fun h => hc.1 (hinj _ _ h))
    (fun h => hc.2.1 (hinj _ _ h)) (fun h => hc.2.2 (hinj _ _ h)) (eq x x3 x4 x5) (eq y y3 y4 y5) (eq z z3 z4 z5)
  rcases hB with h | h | h | ⟨-, h⟩
  · exact hk0 h
  · rw [h, ← Complex.ofReal_pow, Complex.ofReal_im] at h1
    exact lt_irrefl _ h1
  · exact hne h
  · have := congrArg Complex.im h
    rw [← Complex.ofReal_pow, ← Complex.ofReal_pow, Complex.im_ofReal_mul, Complex.im_ofReal_mul, Complex.add_im, Complex.ofReal_im, zero_add] at this
    have h2 : kx ^ 2 = n0 ^ 2 := mul_right_cancel₀ h1.ne' this
    have hcos := cos_pos_of_angle hth
    have h3 : kx ^ 2 = n0 ^ 2 * (1 - Real.cos (deg2rad theta) ^ 2) := by rw [hkx, mul_pow, Real.sin_sq]
    have : 0 < n0 ^ 2 * Real.cos (deg2rad theta) ^ 2 := by positivity
    linarith

/-- C133: the thickness drops out of `rho` exactly for the blind samples. -/
theorem C133_blind (n0 theta lbda : ℝ) (e1 eb : ℂ) (ee) (hn0 : 0 < n0) (hth : |theta| < 90) (hl : 0 < lbda)
    (h1 : e1 ≠ 0) (h1' : 0 ≤ e1.im) (hb : eb ≠ 0) (hb' : 0 ≤ eb.im) :
    let kx : ℝ := n0 * Real.sin (deg2rad theta)
    let out := fun d => calculate4x4 propExpm ⟨isoTensor ((n0 ^ 2 : ℝ) : ℂ), [(d, isoTensor e1)], isoTensor eb, true⟩ theta lbda ee
    0 < e1.im ∨ kx ^ 2 < e1.re →
    (Blind kx (n0 ^ 2) e1 eb ↔ ∃ ρ, ∀ d, 0 ≤ d → (out d).jr 0 0 = ρ * (out d).jr 1 1) := by
  intro kx out hq
  have hq1 := kz_re_pos h1' hq
  have hcos := cos_pos_of_angle hth
  have hq0 : 0 < ((n0 : ℂ) * (Real.cos (deg2rad theta) : ℝ)).re := by
    rw [← Complex.ofReal_mul, Complex.ofReal_re]
    exact mul_pos hn0 hcos
  have n0' : (n0 : ℂ) ^ 2 ≠ 0 := pow_ne_zero 2 (by exact_mod_cast hn0.ne')
  constructor
  · intro hB
    obtain ⟨ρ, c2, c1, c0⟩ := vanishing_of_blind n0' h1 hb hq0 hq1 (csqrt_re_nonneg _) (Or.inl hq0) (csqrt_principal _) (csqrt_principal _)
      (front_sq n0 theta) (csqrt_sq _) (csqrt_sq _) hB
    refine ⟨ρ, fun d hd => (film_quadratic ee hn0 hth hl hd h1 h1' hb hb' ρ hq1).2 ?_⟩
    rw [c2, c1, c0]
    ring
  · rintro ⟨ρ, h⟩
    set w := lbda / (2 * (Complex.sqrt (e1 - (kx : ℂ) ^ 2)).re) with hw
    have hw0 : 0 < w := by positivity
    have m : ∀ t : ℝ, 0 ≤ t → t < 1 → t * w ∈ Ico (0 : ℝ) (0 + w) := fun t h0 h1 => ⟨by positivity, by rw [zero_add]; nlinarith⟩
    have key : ∀ s t : ℝ, 0 ≤ s → s < 1 → 0 ≤ t → t < 1 → s ≠ t →
        Complex.exp (2 * I * (2 * Real.pi * Complex.sqrt (e1 - (kx : ℂ) ^ 2) * ((s * w : ℝ) : ℂ) / lbda)) ≠
        Complex.exp (2 * I * (2 * Real.pi * Complex.sqrt (e1 - (kx : ℂ) ^ 2) * ((t * w : ℝ) : ℂ) / lbda)) := fun s t s0 s1 t0 t1 hst h =>
      hst (mul_right_cancel₀ hw0.ne' (phase_inj hl hq1 (m s s0 s1) (m t t0 t1) h))
    exact film_three ee hn0 hth hl h1 h1' hb hb' ρ hq1 (0 * w) (1 / 3 * w) (2 / 3 * w) (by positivity) (by positivity) (by positivity)
      (key _ _ (by norm_num) (by norm_num) (by norm_num) (by norm_num) (by norm_num)) (key _ _ (by norm_num) (by norm_num) (by norm_num) (by norm_num) (by norm_num))
      (key _ _ (by norm_num) (by norm_num) (by norm_num) (by norm_num) (by norm_num)) (h _ (by positivity)) (h _ (by positivity)) (h _ (by positivity))

/-- C133: two thicknesses within one period can indeed share their angles. -/
theorem C133_two_attained (lbda : ℝ) (ee) (hl : 0 < lbda) :
    ∃ theta : ℝ, 0 < theta ∧ theta < 90 ∧ ¬ Blind (1 * Real.sin (deg2rad theta)) ((1 : ℝ) ^ 2) (32 / 5) (4 / 5) ∧
      ∃ d d' : ℝ, 0 ≤ d ∧ d < d' ∧ d' < lbda / (2 * (Complex.sqrt (32 / 5 - ((1 * Real.sin (deg2rad theta) : ℝ) : ℂ) ^ 2)).re) ∧
        let R := filmResult 1 theta lbda (32 / 5) (4 / 5) ee 1 1
        (R d).jr 1 1 ≠ 0 ∧ (R d').jr 1 1 ≠ 0 ∧ (R d).psi = (R d').psi ∧ (R d).delta = (R d').delta := by
  set theta := rad2deg (Real.arcsin (4 / 5)) with hth
  have hd : deg2rad theta = Real.arcsin (4 / 5) := by rw [hth]; unfold deg2rad rad2deg; field_simp
  have hs : Real.sin (deg2rad theta) = 4 / 5 := by rw [hd, Real.sin_arcsin (by norm_num) (by norm_num)]
  have hc : Real.cos (deg2rad theta) = 3 / 5 := by
    rw [hd, Real.cos_arcsin, show (1 : ℝ) - (4 / 5) ^ 2 = (3 / 5) ^ 2 by norm_num, Real.sqrt_sq (by norm_num)]
  have t0 : 0 < theta := by
    have : 0 < Real.arcsin (4 / 5) := Real.arcsin_pos.2 (by norm_num)
    rw [hth]
    unfold rad2deg
    positivity
  have t1 : theta < 90 := by
    have : Real.arcsin (4 / 5) < Real.pi / 2 := Real.arcsin_lt_pi_div_two.2 (by norm_num)
    rw [hth]
    unfold rad2deg
    have hp := Real.pi_pos
    rw [mul_div_assoc', div_lt_iff₀ hp]
    linarith
  have t2 : |theta| < 90 := by rw [abs_of_pos t0]; exact t1
  have hq1 : Complex.sqrt (32 / 5 - ((1 * Real.sin (deg2rad theta) : ℝ) : ℂ) ^ 2) = 12 / 5 := by
    rw [csqrt_eq_iff, hs]
    exact ⟨Or.inl (by norm_num), by push_cast; norm_num⟩
  have hqb : Complex.sqrt (4 / 5 - ((1 * Real.sin (deg2rad theta) : ℝ) : ℂ) ^ 2) = 2 / 5 := by
    rw [csqrt_eq_iff, hs]
    exact ⟨Or.inl (by norm_num), by push_cast; norm_num⟩
  have hre : (12 / 5 : ℂ).re = 12 / 5 := by norm_num
  set φ := Real.arccos (5 / 21) with hφ
  have hφc : Real.cos φ = 5 / 21 := Real.cos_arccos (by norm_num) (by norm_num)
  have φ0 : 0 < φ := Real.arccos_pos.2 (by norm_num)
  have φ1 : φ < Real.pi := by
    rcases (Real.arccos_le_pi (5 / 21)).lt_or_eq with h | h
    · exact h
    · have : Real.cos φ = -1 := by rw [hφ, h, Real.cos_pi]
      rw [hφc] at this
      norm_num at this
  have hp := Real.pi_pos
  have hl' : (lbda : ℂ) ≠ 0 := by exact_mod_cast hl.ne'
  have hp' : (Real.pi : ℂ) ≠ 0 := by exact_mod_cast hp.ne'
  -- a thickness with the phase `ψ`
  have key : ∀ ψ : ℝ, 0 ≤ ψ → Real.cos ψ = 5 / 21 →
      (filmResult 1 theta lbda (32 / 5) (4 / 5) ee 1 1 (lbda * ψ / (4 * Real.pi * (12 / 5)))).jr 1 1 ≠ 0 ∧
      (filmResult 1 theta lbda (32 / 5) (4 / 5) ee 1 1 (lbda * ψ / (4 * Real.pi * (12 / 5)))).rho = -5 / 17 := by
    intro ψ h0 hψ
    have hd0 : 0 ≤ lbda * ψ / (4 * Real.pi * (12 / 5)) := by positivity
    have hX : Complex.exp (2 * I * (2 * Real.pi * (12 / 5) * ((lbda * ψ / (4 * Real.pi * (12 / 5)) : ℝ) : ℂ) / lbda)) = Complex.exp (ψ * I) := by
      congr 1
      push_cast
      field_simp
      ring
    have hXX : Complex.exp (ψ * I) ^ 2 = 10 / 21 * Complex.exp (ψ * I) - 1 := by
      have e1 : Complex.exp (ψ * I) * Complex.exp (-(ψ * I)) = 1 := by rw [← Complex.exp_add, add_neg_cancel, Complex.exp_zero]
      have e2 : Complex.exp (ψ * I) + Complex.exp (-(ψ * I)) = 10 / 21 := by
        have := Complex.two_cos (ψ : ℂ)
        rw [neg_mul] at this
        rw [← this, ← Complex.ofReal_cos, hψ]
        push_cast
        ring
      linear_combination Complex.exp (ψ * I) * e2 - e1
    have h1 : (32 / 5 : ℂ) ≠ 0 := by norm_num
    have hb : (4 / 5 : ℂ) ≠ 0 := by norm_num
    have hq := film_quadratic (n0 := 1) (theta := theta) (lbda := lbda) (d := lbda * ψ / (4 * Real.pi * (12 / 5))) (e1 := 32 / 5) (eb := 4 / 5) ee one_pos t2 hl hd0 h1
      (by norm_num) hb (by norm_num) (-5 / 17)
    have ha := C94_airy 1 theta lbda (lbda * ψ / (4 * Real.pi * (12 / 5))) (32 / 5) (4 / 5) ee one_pos t2 hl hd0 h1 (by norm_num) hb (by norm_num)
    simp only [hq1, hqb, hX, hre] at hq ha
    have hq := (hq (by norm_num)).2 (by
      rw [hXX, hc]
      unfold rP rS
      push_cast
      ring)
    have hs1 := (ha (by norm_num)).1
    have hjr : (filmResult 1 theta lbda (32 / 5) (4 / 5) ee 1 1 (lbda * ψ / (4 * Real.pi * (12 / 5)))).jr 1 1 ≠ 0 := by
      refine fun h => ?_
      have h2 := hs1.1.symm.trans h
      unfold airyR at h2
      rw [hX, div_eq_zero_iff] at h2
      rcases h2 with h2 | h2
      · have h3 : Complex.exp (ψ * I) = 21 / 25 := by
          rw [hc] at h2
          unfold rS at h2
          push_cast at h2
          linear_combination 7 / 5 * h2
        rw [h3] at hXX
        norm_num at hXX
      · exact hs1.2.2 h2
    refine ⟨hjr, ?_⟩
    have hq' : (filmResult 1 theta lbda (32 / 5) (4 / 5) ee 1 1 (lbda * ψ / (4 * Real.pi * (12 / 5)))).jr 0 0 =
      -5 / 17 * (filmResult 1 theta lbda (32 / 5) (4 / 5) ee 1 1 (lbda * ψ / (4 * Real.pi * (12 / 5)))).jr 1 1 := hq
    rw [film_rho _ _ _ _ _ _ _ _ one_ne_zero, hq', mul_div_assoc, div_self hjr]
    norm_num
  refine ⟨theta, t0, t1, ?_, lbda * φ / (4 * Real.pi * (12 / 5)), lbda * (2 * Real.pi - φ) / (4 * Real.pi * (12 / 5)), by positivity, ?_, ?_, ?_⟩
  · rw [hs]
    rintro (h | h | h | ⟨h, -⟩) <;> norm_num at h
  · gcongr
    linarith
  · rw [hq1, hre, div_lt_div_iff₀ (by positivity) (by positivity)]
    have : lbda * φ > 0 := by positivity
    nlinarith
  · obtain ⟨k1, k2⟩ := key φ φ0.le hφc
    obtain ⟨k3, k4⟩ := key (2 * Real.pi - φ) (by linarith) (by rw [Real.cos_two_pi_sub, hφc])
    refine ⟨k1, k3, ?_, ?_⟩
    · unfold Result.psi
      rw [k2, k4]
    · unfold Result.delta
      rw [k2, k4, film_range, film_range]

/-- A silicon oxide like film on silicon at 70 degrees. -/
example (Ψ Δ : ℝ) (ee) :
    let kx : ℝ := 1 * Real.sin (deg2rad 70)
    {d | 0 ≤ d ∧ d ∈ Ico 0 (0 + 633 / (2 * (Complex.sqrt ((53 / 25 : ℝ) - kx ^ 2)).re)) ∧ (filmResult 1 70 633 (53 / 25 : ℝ) (15 + I / 5) ee 1 1 d).jr 1 1 ≠ 0 ∧
      (filmResult 1 70 633 (53 / 25 : ℝ) (15 + I / 5) ee 1 1 d).psi = Ψ ∧ (filmResult 1 70 633 (53 / 25 : ℝ) (15 + I / 5) ee 1 1 d).delta = Δ}.encard ≤ 2 := by
  intro kx
  have hs : 0 < Real.sin (deg2rad 70) := sin_pos_of_angle (by norm_num) (by norm_num)
  have hs1 : Real.sin (deg2rad 70) ^ 2 ≤ 1 := by nlinarith [Real.sin_le_one (deg2rad 70)]
  refine C133_period 1 70 633 (53 / 25 : ℝ) (15 + I / 5) ee 1 1 one_pos (by norm_num) (by norm_num) (by norm_num) (by norm_num) ?_ (by norm_num) one_ne_zero one_ne_zero 0 Ψ Δ
    (Or.inr ?_) ?_
  · intro h
    have := congrArg Complex.im h
    norm_num at this
  · rw [Complex.ofReal_re, one_mul]
    linarith
  · rintro (h | h | h | ⟨h, -⟩)
    · rw [one_mul] at h
      exact hs.ne' h
    · have := congrArg Complex.re h
      norm_num at this
    · have := congrArg Complex.im h
      norm_num at this
    · have := congrArg Complex.im h
      norm_num at this

/-- An absorbing film, amorphous silicon on silicon oxide. -/
example (Ψ Δ : ℝ) (ee) :
    {d | 0 ≤ d ∧ (filmResult 1 65 500 (15 + 5 * I) (53 / 25) ee 1 1 d).jr 1 1 ≠ 0 ∧ (filmResult 1 65 500 (15 + 5 * I) (53 / 25) ee 1 1 d).psi = Ψ ∧
      (filmResult 1 65 500 (15 + 5 * I) (53 / 25) ee 1 1 d).delta = Δ}.encard ≤ 2 := by
  refine C133_absorbing 1 65 500 (15 + 5 * I) (53 / 25) ee 1 1 one_pos (by norm_num) (by norm_num) (by norm_num) (by norm_num) (by norm_num) (by norm_num) ?_
    one_ne_zero one_ne_zero Ψ Δ
  intro h
  have := congrArg Complex.im h
  norm_num at this

/-- A film between equal media is blind at its Brewster angle only. -/
example : Blind (Real.sqrt (36 / 13)) 4 9 4 ∧ ¬ Blind 1 4 9 4 := by
  constructor
  · right; right; right
    refine ⟨rfl, ?_⟩
    rw [← Complex.ofReal_pow, Real.sq_sqrt (by norm_num)]
    push_cast
    norm_num
  · rintro (h | h | h | ⟨-, h⟩) <;> norm_num at h

end PyElli
