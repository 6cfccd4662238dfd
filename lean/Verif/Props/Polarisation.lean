import Verif.Spec.Polarisation
import Verif.Model.Experiment
import Verif.Lemmas.Polarisation
import Mathlib.Tactic

/-! # Incident polarisation (C05 - C09) -/

namespace PyElli

open Complex Spec

/-- The tuple stored by the code, as a vector. -/
def tuple4 (t : ℝ × ℝ × ℝ × ℝ) : Fin 4 → ℝ := ![t.1, t.2.1, t.2.2.1, t.2.2.2]

/-! ## C05 -/

/-- C05: a Jones vector is stored as given together with its Stokes vector (differences of intensities behind
analysers). -/
theorem C05_jones_sets_stokes (st : Pol) (a b : ℂ) :
    (setVector st (.jones a b)).jones = .vec a b ∧
      ∃ t, (setVector st (.jones a b)).stokes = some t ∧ tuple4 t = Spec.stokes a b := by
  refine ⟨rfl, stokesOfJones a b, rfl, ?_⟩
  rw [stokesOfJones_eq]
  ext i
  fin_cases i <;> simp [tuple4]

/-- C05: light given by a nonzero Jones vector is fully polarised. -/
theorem C05_jones_fully_polarised (st : Pol) (a b : ℂ) (h : a ≠ 0 ∨ b ≠ 0) :
    ∃ t, (setVector st (.jones a b)).stokes = some t ∧ FullyPolarised (tuple4 t) := by
  obtain ⟨_, t, ht, hs⟩ := C05_jones_sets_stokes st a b
  refine ⟨t, ht, ?_⟩
  rw [hs, stokes_explicit]
  constructor
  · have ha : ∀ z : ℂ, z ≠ 0 → 0 < z.re ^ 2 + z.im ^ 2 := by
      intro z hz
      have := Complex.normSq_pos.2 hz
      rw [Complex.normSq_apply] at this
      nlinarith
    have h1 : 0 ≤ a.re ^ 2 + a.im ^ 2 := by positivity
    have h2 : 0 ≤ b.re ^ 2 + b.im ^ 2 := by positivity
    rcases h with h | h
    · have := ha a h
      simp
      linarith
    · have := ha b h
      simp
      linarith
  · simp
    ring

/-- C05: the Stokes vector does not depend on the global phase. -/
theorem C05_phase_invariant (st : Pol) (a b c : ℂ) (hc : ‖c‖ = 1) :
    (setVector st (.jones (c * a) (c * b))).stokes = (setVector st (.jones a b)).stokes := by
  have hn : c.re ^ 2 + c.im ^ 2 = 1 := by
    have : Complex.normSq c = 1 := by rw [Complex.normSq_eq_norm_sq, hc]; norm_num
    rw [Complex.normSq_apply] at this
    nlinarith
  simp only [setVector, stokesOfJones_eq, stokes_explicit]
  simp
  refine ⟨?_, ?_, ?_, ?_⟩
  · linear_combination (a.re ^ 2 + a.im ^ 2 + b.re ^ 2 + b.im ^ 2) * hn
  · linear_combination (a.re ^ 2 + a.im ^ 2 - b.re ^ 2 - b.im ^ 2) * hn
  · linear_combination (a.re * b.re + a.im * b.im) * hn
  · linear_combination (a.re * b.im - a.im * b.re) * hn

example : (1 : ℂ) ≠ 0 ∨ (I : ℂ) ≠ 0 := Or.inl one_ne_zero
example : ‖(I : ℂ)‖ = 1 := Complex.norm_I

/-! ## C06 -/

lemma jonesOfStokes_polarised (s0 s1 s2 s3 : ℝ) (h0 : s0 ≠ 0)
    (hp : s1 ≠ 0 ∨ s2 ≠ 0 ∨ s3 ≠ 0) :
    ∃ a b, jonesOfStokes s0 s1 s2 s3 = .vec a b ∧
      Spec.stokes a b = ![1, s1 / Real.sqrt (s1 ^ 2 + s2 ^ 2 + s3 ^ 2),
        s2 / Real.sqrt (s1 ^ 2 + s2 ^ 2 + s3 ^ 2), s3 / Real.sqrt (s1 ^ 2 + s2 ^ 2 + s3 ^ 2)] ∧
      a.im = 0 ∧ 0 ≤ a.re := by
  have hpos : 0 < s1 ^ 2 + s2 ^ 2 + s3 ^ 2 := by
    rcases hp with h | h | h
    · have := sq_pos_of_ne_zero h; positivity
    · have := sq_pos_of_ne_zero h; positivity
    · have := sq_pos_of_ne_zero h; positivity
  set n := Real.sqrt (s1 ^ 2 + s2 ^ 2 + s3 ^ 2) with hn
  have hnpos : 0 < n := Real.sqrt_pos.2 hpos
  have hnsq : n ^ 2 = s1 ^ 2 + s2 ^ 2 + s3 ^ 2 := Real.sq_sqrt hpos.le
  have e : s0 * (n / s0) = n := by field_simp
  unfold jonesOfStokes
  simp only [← hn, e]
  rw [if_neg (by push Not; exact ⟨h0, hnpos.ne'⟩)]
  set Q := s1 / n with hQ
  set U := s2 / n with hU
  set V := s3 / n with hV
  have hunit : Q ^ 2 + U ^ 2 + V ^ 2 = 1 := by
    rw [hQ, hU, hV]
    field_simp
    linarith
  by_cases hq : Q = -1
  · rw [if_pos hq]
    have hUV : U ^ 2 + V ^ 2 = 0 := by rw [hq] at hunit; linarith
    have hU0 : U = 0 := by nlinarith [sq_nonneg U, sq_nonneg V]
    have hV0 : V = 0 := by nlinarith [sq_nonneg U, sq_nonneg V]
    refine ⟨0, 1, rfl, ?_, by simp, by simp⟩
    rw [stokes_explicit, hq, hU0, hV0]
    ext i
    fin_cases i <;> simp
  · rw [if_neg hq]
    have hQ1 : 0 < 1 + Q := by
      have h1 : Q ^ 2 ≤ 1 := by nlinarith [sq_nonneg U, sq_nonneg V]
      have h2 : -1 ≤ Q := by nlinarith
      have h3 : Q ≠ -1 := hq
      rcases lt_or_eq_of_le h2 with h | h
      · linarith
      · exact absurd h.symm h3
    set a := Real.sqrt ((1 + Q) / 2) with ha
    have hapos : 0 < a := Real.sqrt_pos.2 (by linarith)
    have hasq : a ^ 2 = (1 + Q) / 2 := Real.sq_sqrt (by linarith)
    have hb : (U / (2 * a)) ^ 2 + (V / (2 * a)) ^ 2 = (1 - Q) / 2 := by
      have : (U / (2 * a)) ^ 2 + (V / (2 * a)) ^ 2 = (U ^ 2 + V ^ 2) / (4 * a ^ 2) := by
        field_simp
        ring
      rw [this, hasq, div_eq_iff (by linarith)]
      nlinarith
    have hx : 2 * a * (U / (2 * a)) = U := by field_simp
    have hy : 2 * a * (V / (2 * a)) = V := by field_simp
    refine ⟨_, _, rfl, ?_, by simp, by simpa using hapos.le⟩
    generalize U / (2 * a) = x at *
    generalize V / (2 * a) = y at *
    rw [stokes_explicit]
    ext i
    fin_cases i
    · simp
      linarith
    · simp
      linarith
    · simp
      linarith
    · simp
      linarith

/-- C06: for polarised light the Jones vector set from a Stokes vector has exactly the normalised
polarised part as its Stokes vector (as intensities), and the given Stokes vector is stored unchanged. -/
theorem C06_stokes_round_trip (st : Pol) (s0 s1 s2 s3 : ℝ) (h0 : s0 ≠ 0)
    (hp : s1 ≠ 0 ∨ s2 ≠ 0 ∨ s3 ≠ 0) :
    (setVector st (.stokes s0 s1 s2 s3)).stokes = some (s0, s1, s2, s3) ∧
    ∃ a b, (setVector st (.stokes s0 s1 s2 s3)).jones = .vec a b ∧
      Spec.stokes a b = ![1, s1 / Real.sqrt (s1 ^ 2 + s2 ^ 2 + s3 ^ 2),
        s2 / Real.sqrt (s1 ^ 2 + s2 ^ 2 + s3 ^ 2), s3 / Real.sqrt (s1 ^ 2 + s2 ^ 2 + s3 ^ 2)] := by
  obtain ⟨a, b, h, hs, _⟩ := jonesOfStokes_polarised s0 s1 s2 s3 h0 hp
  exact ⟨rfl, a, b, h, hs⟩

/-- C06: in particular a fully polarised unit Stokes vector is reproduced exactly, including the special
branch `S1 = -S0`. -/
theorem C06_unit_stokes_round_trip (st : Pol) (s1 s2 s3 : ℝ) (h : s1 ^ 2 + s2 ^ 2 + s3 ^ 2 = 1) :
    ∃ a b, (setVector st (.stokes 1 s1 s2 s3)).jones = .vec a b ∧
      Spec.stokes a b = ![1, s1, s2, s3] := by
  have hp : s1 ≠ 0 ∨ s2 ≠ 0 ∨ s3 ≠ 0 := by
    by_contra hc
    push Not at hc
    obtain ⟨h1, h2, h3⟩ := hc
    rw [h1, h2, h3] at h
    norm_num at h
  obtain ⟨_, a, b, hj, hs⟩ := C06_stokes_round_trip st 1 s1 s2 s3 one_ne_zero hp
  refine ⟨a, b, hj, ?_⟩
  rw [hs, h, Real.sqrt_one, div_one, div_one, div_one]

example : (1 : ℝ) ≠ 0 ∧ ((-1 : ℝ) ≠ 0 ∨ (0 : ℝ) ≠ 0 ∨ (0 : ℝ) ≠ 0) := by norm_num

/-! ## C07 -/

/-- C07: Jones → Stokes → Jones returns the same polarisation state. -/
theorem C07_jones_round_trip (st st' : Pol) (a b : ℂ) (h : a ≠ 0 ∨ b ≠ 0) :
    ∃ s0 s1 s2 s3, (setVector st (.jones a b)).stokes = some (s0, s1, s2, s3) ∧
      ∃ a' b', (setVector st' (.stokes s0 s1 s2 s3)).jones = .vec a' b' ∧ SameState a b a' b' := by
  obtain ⟨_, t, ht, hs⟩ := C05_jones_sets_stokes st a b
  obtain ⟨t', ht', hf⟩ := C05_jones_fully_polarised st a b h
  rw [ht] at ht'
  cases ht'
  obtain ⟨s0, s1, s2, s3⟩ := t
  refine ⟨s0, s1, s2, s3, ht, ?_⟩
  obtain ⟨hpos, hsq⟩ := hf
  simp [tuple4] at hpos hsq
  have hp : s1 ≠ 0 ∨ s2 ≠ 0 ∨ s3 ≠ 0 := by
    by_contra hc
    push Not at hc
    obtain ⟨h1, h2, h3⟩ := hc
    rw [h1, h2, h3] at hsq
    nlinarith
  have hroot : Real.sqrt (s1 ^ 2 + s2 ^ 2 + s3 ^ 2) = s0 := by
    rw [← hsq, Real.sqrt_sq hpos.le]
  obtain ⟨a', b', hj, hs', him, hre⟩ := jonesOfStokes_polarised s0 s1 s2 s3 hpos.ne' hp
  refine ⟨a', b', hj, ?_⟩
  rw [hroot] at hs'
  rw [stokes_explicit] at hs hs'
  have g0 := congrFun hs 0
  have g1 := congrFun hs 1
  have g2 := congrFun hs 2
  have g3 := congrFun hs 3
  have k0 := congrFun hs' 0
  have k1 := congrFun hs' 1
  have k2 := congrFun hs' 2
  have k3 := congrFun hs' 3
  simp [tuple4] at g0 g1 g2 g3 k0 k1 k2 k3
  rw [him] at k0 k1 k2 k3
  have hs0 : s0 ≠ 0 := hpos.ne'
  -- |a'|^2 = |a|^2/s0 etc.
  have m1 : a'.re ^ 2 * s0 = a.re ^ 2 + a.im ^ 2 := by
    have : a'.re ^ 2 = (1 + s1 / s0) / 2 := by linarith
    rw [this, g0, g1] at *
    field_simp
    ring
  have m2 : s0 * (a'.re * b'.re) = a.re * b.re + a.im * b.im := by
    have : a'.re * b'.re = s2 / s0 / 2 := by linarith
    rw [this]
    field_simp
    linarith
  have m3 : s0 * (a'.re * b'.im) = a.re * b.im - a.im * b.re := by
    have : a'.re * b'.im = s3 / s0 / 2 := by linarith
    rw [this]
    field_simp
    linarith
  by_cases ha : a = 0
  · have hb : b ≠ 0 := by tauto
    have ha' : a'.re = 0 := by
      rw [ha] at m1
      simp at m1
      rcases m1 with h | h
      · exact h
      · exact absurd h hs0
    refine ⟨b' / b, ?_, ?_, ?_⟩
    · apply div_ne_zero _ hb
      intro hb0
      rw [hb0, ha'] at k0
      norm_num at k0
    · rw [ha, mul_zero]
      exact Complex.ext ha' him
    · field_simp
  · have hna : 0 < a.re ^ 2 + a.im ^ 2 := by
      have := Complex.normSq_pos.2 ha
      rw [Complex.normSq_apply] at this
      nlinarith
    have ha'0 : a'.re ≠ 0 := by
      intro h0
      rw [h0] at m1
      norm_num at m1
      linarith
    have ha' : a' ≠ 0 := by
      intro h0
      rw [h0] at ha'0
      exact ha'0 rfl
    refine ⟨a' / a, div_ne_zero ha' ha, by field_simp, ?_⟩
    rw [div_mul_eq_mul_div, eq_div_iff ha]
    have q1 : a'.re * s0 * (b'.re * a.re - b'.im * a.im) = a'.re * s0 * (a'.re * b.re) := by
      have : a'.re * s0 * (b'.re * a.re - b'.im * a.im) =
          (s0 * (a'.re * b'.re)) * a.re - (s0 * (a'.re * b'.im)) * a.im := by ring
      rw [this, m2, m3]
      linear_combination (-b.re) * m1
    have q2 : a'.re * s0 * (b'.re * a.im + b'.im * a.re) = a'.re * s0 * (a'.re * b.im) := by
      have : a'.re * s0 * (b'.re * a.im + b'.im * a.re) =
          (s0 * (a'.re * b'.re)) * a.im + (s0 * (a'.re * b'.im)) * a.re := by ring
      rw [this, m2, m3]
      linear_combination (-b.im) * m1
    have hne : a'.re * s0 ≠ 0 := mul_ne_zero ha'0 hs0
    apply Complex.ext
    · simp [him]
      exact mul_left_cancel₀ hne q1
    · simp [him]
      exact mul_left_cancel₀ hne q2

/-! ## C08 -/

/-- C08: the Jones vector computed from a Stokes vector is finite exactly for polarised light with
`S0 ≠ 0`. -/
theorem C08_finite_iff (st : Pol) (s0 s1 s2 s3 : ℝ) :
    (setVector st (.stokes s0 s1 s2 s3)).jones = .nan ↔ (s0 = 0 ∨ (s1 = 0 ∧ s2 = 0 ∧ s3 = 0)) := by
  constructor
  · intro h
    by_contra hc
    push Not at hc
    obtain ⟨h0, hp⟩ := hc
    have hp' : s1 ≠ 0 ∨ s2 ≠ 0 ∨ s3 ≠ 0 := by tauto
    obtain ⟨a, b, hj, _⟩ := jonesOfStokes_polarised s0 s1 s2 s3 h0 hp'
    simp only [setVector] at h
    rw [hj] at h
    cases h
  · rintro (h | ⟨h1, h2, h3⟩)
    · simp [setVector, jonesOfStokes, h]
    · simp [setVector, jonesOfStokes, h1, h2, h3]

/-- C08 is false: the documented unpolarised vector `[s0, 0, 0, 0]` always sets a NaN Jones vector. -/
theorem C08_unpolarised_refuted (st : Pol) (s0 : ℝ) :
    (setVector st (.stokes s0 0 0 0)).jones = .nan :=
  (C08_finite_iff st s0 0 0 0).2 (Or.inr ⟨rfl, rfl, rfl⟩)

/-! ## C09 -/

/-- The last call of a list that is not an ignored shape. -/
def lastEffective : List VecArg → Option VecArg
  | [] => none
  | c :: cs => (lastEffective cs).or (match c with | .otherShape => none | c => some c)

/-- C09: after any sequence of `set_vector` calls the state is that of the last effective call alone. -/
theorem C09_last_call_wins (st : Pol) (calls : List VecArg) :
    calls.foldl setVector st = ((lastEffective calls).map (setVector Pol.init)).getD st := by
  induction calls generalizing st with
  | nil => rfl
  | cons c cs ih =>
    rw [List.foldl_cons, ih]
    simp only [lastEffective]
    cases h : lastEffective cs with
    | some d => simp
    | none => cases c <;> simp [setVector]

/-- C09: a vector of any other shape is ignored. -/
theorem C09_other_shape_ignored (st : Pol) : setVector st .otherShape = st := rfl

/-- C09: consequently an experiment created with a wrongly shaped vector has no Jones vector at all. -/
theorem C09_other_shape_at_construction : (setVector Pol.init .otherShape).jones = .unset := rfl

/-- C09: `None` selects diagonally polarised light `(1, 1)/sqrt 2`, whose Stokes vector is (1, 0, 1, 0). -/
theorem C09_none_is_diagonal (st : Pol) :
    ∃ a b, (setVector st .none).jones = .vec a b ∧ a = b ∧ Spec.stokes a b = ![1, 0, 1, 0] := by
  have hsq : Real.sqrt (1 / 2) ^ 2 = 1 / 2 := Real.sq_sqrt (by norm_num)
  have hne : Real.sqrt (1 / 2) ≠ 0 := (Real.sqrt_pos.2 (by norm_num)).ne'
  have hj : (setVector st .none).jones =
      .vec (Real.sqrt (1 / 2) : ℝ) (Real.sqrt (1 / 2) : ℝ) := by
    have hd : (1 / (2 * Real.sqrt (1 / 2)) : ℝ) = Real.sqrt (1 / 2) := by
      rw [div_eq_iff (by simpa using hne)]
      linarith [hsq, sq (Real.sqrt (1 / 2))]
    have h0 : Real.sqrt ((0 : ℝ) ^ 2 + 1 ^ 2 + 0 ^ 2) = 1 := by norm_num
    simp only [setVector, jonesOfStokes, h0]
    rw [if_neg (by norm_num), if_neg (by norm_num)]
    norm_num only [div_one, mul_one, add_zero, zero_div, Complex.ofReal_zero, mul_zero]
    rw [hd]
  refine ⟨_, _, hj, rfl, ?_⟩
  generalize Real.sqrt (1 / 2) = x at *
  rw [stokes_explicit]
  ext i
  fin_cases i
  · simp
    linarith
  · simp
  · simp
    linarith
  · simp

example : lastEffective [.jones 1 0, .otherShape] = some (.jones 1 0) := rfl

end PyElli
