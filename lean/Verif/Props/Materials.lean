import Verif.Lemmas.Ema
import Verif.Props.Rotation
import Mathlib.Tactic

/-! # Effective medium models (C19 - C24) -/

namespace PyElli

open Complex Matrix

/-! ## C19 -/

/-- C19: construction succeeds exactly for fractions in [0, 1] and stores the fraction; every other value
(also NaN) is a `ValueError`. -/
theorem C19_construct (k : EmaKind) (h g : ℝ → Tensor) (f : FractionArg) :
    (∀ m, mkMixture k h g f = .ok m ↔
      ∃ x : ℝ, f = some x ∧ 0 ≤ x ∧ x ≤ 1 ∧ m = ⟨k, h, g, x⟩) ∧
    ((¬ ∃ x : ℝ, f = some x ∧ 0 ≤ x ∧ x ≤ 1) ↔ mkMixture k h g f = .error .valueError) := by
  cases f with
  | none => simp [mkMixture, checkFraction]
  | some x =>
    by_cases hx : 0 ≤ x ∧ x ≤ 1
    · have e : mkMixture k h g (some x) = .ok ⟨k, h, g, x⟩ := by
        simp only [mkMixture, checkFraction]
        rw [if_neg (not_not.2 hx)]
      rw [e]
      constructor
      · intro m
        constructor
        · intro h0
          cases h0
          exact ⟨x, rfl, hx.1, hx.2, rfl⟩
        · rintro ⟨y, hy, -, -, rfl⟩
          cases hy
          rfl
      · constructor
        · intro h0
          exact absurd ⟨x, rfl, hx⟩ h0
        · intro h0
          cases h0
    · have e : mkMixture k h g (some x) = .error .valueError := by
        simp only [mkMixture, checkFraction]
        rw [if_pos hx]
      rw [e]
      constructor
      · intro m
        constructor
        · intro h0
          cases h0
        · rintro ⟨y, hy, h1, h2, -⟩
          cases hy
          exact absurd ⟨h1, h2⟩ hx
      · constructor
        · intro _
          rfl
        · rintro - ⟨y, hy, h1⟩
          cases hy
          exact hx h1

/-- C19: one `set_fraction` call: accepted values in [0, 1] are stored and nothing else changes; refused values raise
`ValueError` and change nothing. -/
theorem C19_set_fraction (m : Mixture) (f : FractionArg) :
    (∃ x : ℝ, f = some x ∧ 0 ≤ x ∧ x ≤ 1 ∧ m.setFraction f = ({ m with fraction := x }, .ok ())) ∨
    ((∀ x : ℝ, f = some x → x < 0 ∨ 1 < x) ∧ m.setFraction f = (m, .error .valueError)) := by
  cases f with
  | none => right; simp [Mixture.setFraction, checkFraction]
  | some x =>
    by_cases hx : 0 ≤ x ∧ x ≤ 1
    · left
      refine ⟨x, rfl, hx.1, hx.2, ?_⟩
      simp only [Mixture.setFraction, checkFraction]
      rw [if_neg (not_not.2 hx)]
    · right
      constructor
      · intro y hy
        cases hy
        by_contra h
        push Not at h
        exact hx ⟨h.1, h.2⟩
      · simp only [Mixture.setFraction, checkFraction]
        rw [if_pos hx]

open Classical in
/-- C19: after construction and any sequence of `set_fraction` calls, accepted or refused, the stored fraction lies in
[0, 1] and is the last accepted value. -/
theorem C19_fraction_invariant (k : EmaKind) (h g : ℝ → Tensor) (f : FractionArg) (m : Mixture)
    (hm : mkMixture k h g f = .ok m) (calls : List FractionArg) :
    let m' := calls.foldl (fun s c => (s.setFraction c).1) m
    0 ≤ m'.fraction ∧ m'.fraction ≤ 1 ∧ m'.kind = k ∧ m'.host = h ∧ m'.guest = g ∧
      some m'.fraction = ((f :: calls).filter
        (fun c => decide (∃ x : ℝ, c = some x ∧ 0 ≤ x ∧ x ≤ 1))).getLast?.join := by
  intro m'
  obtain ⟨x, hx, h0, h1, rfl⟩ := ((C19_construct k h g f).1 m).1 hm
  subst hx
  have key : ∀ (calls : List FractionArg) (x : ℝ), 0 ≤ x → x ≤ 1 →
      let m' : Mixture := calls.foldl (fun (s : Mixture) c => (s.setFraction c).1) ⟨k, h, g, x⟩
      0 ≤ m'.fraction ∧ m'.fraction ≤ 1 ∧ m'.kind = k ∧ m'.host = h ∧ m'.guest = g ∧
      some m'.fraction = ((some x :: calls).filter
        (fun c => decide (∃ x : ℝ, c = some x ∧ 0 ≤ x ∧ x ≤ 1))).getLast?.join := by
    intro calls
    induction calls with
    | nil =>
      intro x h0 h1
      have : ∃ y : ℝ, (some x : FractionArg) = some y ∧ 0 ≤ y ∧ y ≤ 1 := ⟨x, rfl, h0, h1⟩
      simp [h0, h1]
    | cons c t ih =>
      intro x h0 h1
      simp only [List.foldl_cons]
      have hx' : decide (∃ y : ℝ, (some x : FractionArg) = some y ∧ 0 ≤ y ∧ y ≤ 1) = true :=
        decide_eq_true ⟨x, rfl, h0, h1⟩
      rcases C19_set_fraction ⟨k, h, g, x⟩ c with ⟨y, rfl, hy0, hy1, e⟩ | ⟨hc, e⟩
      · rw [e]
        have hy' : decide (∃ z : ℝ, (some y : FractionArg) = some z ∧ 0 ≤ z ∧ z ≤ 1) = true :=
          decide_eq_true ⟨y, rfl, hy0, hy1⟩
        have := ih y hy0 hy1
        simp only at this
        refine ⟨this.1, this.2.1, this.2.2.1, this.2.2.2.1, this.2.2.2.2.1, ?_⟩
        rw [this.2.2.2.2.2]
        simp only [List.filter_cons, hx', hy', if_true, List.getLast?_cons_cons]
      · rw [e]
        have hc' : ¬ (decide (∃ z : ℝ, c = some z ∧ 0 ≤ z ∧ z ≤ 1) = true) := by
          intro h2
          obtain ⟨z, hz, hz0, hz1⟩ := of_decide_eq_true h2
          rcases hc z hz with h3 | h3 <;> linarith
        have := ih x h0 h1
        simp only at this
        refine ⟨this.1, this.2.1, this.2.2.1, this.2.2.2.1, this.2.2.2.2.1, ?_⟩
        rw [this.2.2.2.2.2]
        simp only [List.filter_cons, hx', if_true, if_neg hc']
  exact key calls x h0 h1

example (h g : ℝ → Tensor) : mkMixture .vca h g (some (1 / 2)) = .ok ⟨.vca, h, g, 1 / 2⟩ := by
  simp only [mkMixture, checkFraction]
  rw [if_neg (by norm_num)]

/-! ## C20 -/

/-- C20: virtual crystal and Looyenga mixtures return the host tensor at fraction 0, the guest tensor at fraction 1 and
the common tensor for equal constituents, for all tensors. -/
theorem C20_limits_vca_looyenga (k : EmaKind) (hk : k = .vca ∨ k = .looyenga) (h g : Tensor) (f : ℝ) :
    (k.tensor h g 0 = fun i j => some (h i j)) ∧ (k.tensor h g 1 = fun i j => some (g i j)) ∧
      k.tensor h h f = fun i j => some (h i j) := by
  rcases hk with rfl | rfl
  · refine ⟨?_, ?_, ?_⟩ <;> funext i j <;> simp [EmaKind.tensor, EmaKind.entry, vcaEntry]
    ring
  · refine ⟨?_, ?_, ?_⟩ <;> funext i j <;>
      simp only [EmaKind.tensor, EmaKind.entry, looyengaEntry, Option.some.injEq]
    · have := cbrt_cube (h i j)
      simpa using this
    · have := cbrt_cube (g i j)
      simpa using this
    · have e : h i j ^ (1 / 3 : ℂ) * (1 - (f : ℂ)) + h i j ^ (1 / 3 : ℂ) * f = h i j ^ (1 / 3 : ℂ) := by ring
      rw [e, cbrt_cube]

/-- C20: Maxwell Garnett. Equal constituents are always returned. The host limit needs `g + 2 h ≠ 0` (the
dipole resonance) and the guest limit needs `h ≠ 0` (unless both entries vanish). -/
theorem C20_limits_maxwell_garnett (h g : ℂ) (f : ℝ) :
    maxwellGarnettEntry h h f = some h ∧
    (g + 2 * h ≠ 0 ∨ (h = 0 ∧ g = 0) ↔ maxwellGarnettEntry h g 0 = some h) ∧
    (h ≠ 0 ∨ (h = 0 ∧ g = 0) ↔ maxwellGarnettEntry h g 1 = some g) := by
  refine ⟨?_, ?_, ?_⟩
  · unfold maxwellGarnettEntry
    by_cases h0 : h = 0
    · rw [if_pos ⟨h0, h0⟩]
    · rw [if_neg (fun h1 => h0 h1.1)]
      have e : 2 * h + h - f * (h - h) = 3 * h := by ring
      have e3 : (3 : ℂ) * h ≠ 0 := mul_ne_zero (by norm_num) h0
      simp only [e]
      rw [if_neg e3]
      congr 1
      field_simp
      ring
  · unfold maxwellGarnettEntry
    by_cases h0 : h = 0 ∧ g = 0
    · rw [if_pos h0]
      simp [h0]
    · rw [if_neg h0]
      have e : 2 * h + g - ((0 : ℝ) : ℂ) * (g - h) = g + 2 * h := by push_cast; ring
      simp only [e]
      by_cases h1 : g + 2 * h = 0
      · rw [if_pos h1]
        simp [h1, h0]
      · rw [if_neg h1]
        simp only [ne_eq, h1, not_false_eq_true, true_or, true_iff, Option.some.injEq]
        push_cast
        rw [div_eq_iff h1]
        ring
  · unfold maxwellGarnettEntry
    by_cases h0 : h = 0 ∧ g = 0
    · rw [if_pos h0]
      simp [h0]
    · rw [if_neg h0]
      have e : 2 * h + g - ((1 : ℝ) : ℂ) * (g - h) = 3 * h := by push_cast; ring
      simp only [e]
      by_cases h1 : h = 0
      · rw [if_pos (by simp [h1])]
        simp [h0, h1]
        intro h2
        exact h0 ⟨h1, h2⟩
      · rw [if_neg (mul_ne_zero (by norm_num) h1)]
        simp only [ne_eq, h1, not_false_eq_true, true_or, true_iff, Option.some.injEq]
        push_cast
        field_simp
        ring

/-- C20 fails for Maxwell Garnett tensors: an isotropic host with a rotated guest has zero host and non-zero guest
off-diagonal entries; at fraction 1 numpy computes 0/0 there, and the tensor contains NaN. -/
theorem C20_maxwell_garnett_refuted :
    ∃ h g : Tensor, h = Matrix.diagonal ![2, 2, 2] ∧ g = !![3, 1, 0; 1, 3, 0; 0, 0, 2] ∧
      EmaKind.tensor .maxwellGarnett h g 1 0 1 = none := by
  refine ⟨_, _, rfl, rfl, ?_⟩
  simp [EmaKind.tensor, EmaKind.entry, maxwellGarnettEntry, Matrix.diagonal]

lemma bruggeman_f0_aux {h g : ℂ} (hh : h ≠ 0) (hg : g ≠ 0) (hne : h ≠ g) :
    bruggemanEntry h g 0 = some h ↔
      Principal (2 * (Complex.sqrt h / Complex.sqrt g) + Complex.sqrt g / Complex.sqrt h) := by
  have sh : Complex.sqrt h ≠ 0 := fun h0 => hh (csqrt_eq_zero.1 h0)
  have sg : Complex.sqrt g ≠ 0 := fun h0 => hg (csqrt_eq_zero.1 h0)
  set u := Complex.sqrt h with hu
  set v := Complex.sqrt g with hv
  have eu : h = u ^ 2 := (csqrt_sq h).symm
  unfold bruggemanEntry
  rw [if_neg hne]
  simp only
  rw [if_neg (by
    rintro (h0 | h0)
    · exact sg h0
    · exact (div_ne_zero sh sg) h0)]
  rw [← hu, ← hv]
  have eb : (0.25 : ℂ) * ((3 * ((0 : ℝ) : ℂ) - 1) * (1 / (u / v) - u / v) + u / v) =
      (2 * (u / v) - v / u) / 4 := by
    push_cast
    field_simp
    ring
  rw [eb]
  set w : ℂ := 2 * (u / v) + v / u with hw
  have es : ((2 * (u / v) - v / u) / 4) ^ 2 + (0.5 : ℂ) = (w / 4) ^ 2 := by
    rw [hw]
    field_simp
    ring
  rw [es]
  have ep : Principal (w / 4) ↔ Principal w := by
    unfold Principal
    have h1 : (w / 4).re = w.re / 4 := by simp
    have h2 : (w / 4).im = w.im / 4 := by simp
    rw [h1, h2]
    constructor
    · rintro (h0 | ⟨h0, h0'⟩)
      · left; linarith
      · right; constructor <;> linarith
    · rintro (h0 | ⟨h0, h0'⟩)
      · left; linarith
      · right; constructor <;> linarith
  rw [← ep]
  constructor
  · intro h0
    have h1 := Option.some.inj h0
    rw [eu] at h1
    have h2 : Complex.sqrt ((w / 4) ^ 2) = w / 4 := by
      have : (2 * (u / v) - v / u) / 4 + Complex.sqrt ((w / 4) ^ 2) = u / v := by
        field_simp
        field_simp at h1
        linear_combination h1
      have hw' : w / 4 = u / v - (2 * (u / v) - v / u) / 4 := by rw [hw]; ring
      exact (eq_sub_of_add_eq' this).trans hw'.symm
    exact (csqrt_eq_iff.1 h2).1
  · intro h0
    rw [csqrt_sq_eq h0, hw]
    congr 1
    rw [eu]
    field_simp
    ring

/-- Swapping host and guest and complementing the fraction gives the same Bruggeman value. -/
lemma bruggeman_swap {h g : ℂ} (f : ℝ) : bruggemanEntry h g f = bruggemanEntry g h (1 - f) := by
  by_cases hne : h = g
  · subst hne
    simp [bruggemanEntry]
  by_cases hh : h = 0
  · subst hh
    unfold bruggemanEntry
    rw [if_neg hne, if_neg (Ne.symm hne)]
    simp
  by_cases hg : g = 0
  · subst hg
    unfold bruggemanEntry
    rw [if_neg hne, if_neg (Ne.symm hne)]
    simp
  have sh : Complex.sqrt h ≠ 0 := fun h0 => hh (csqrt_eq_zero.1 h0)
  have sg : Complex.sqrt g ≠ 0 := fun h0 => hg (csqrt_eq_zero.1 h0)
  unfold bruggemanEntry
  rw [if_neg hne, if_neg (Ne.symm hne)]
  simp only
  rw [if_neg (by
    rintro (h0 | h0)
    · exact sg h0
    · exact (div_ne_zero sh sg) h0), if_neg (by
    rintro (h0 | h0)
    · exact sh h0
    · exact (div_ne_zero sg sh) h0)]
  set u := Complex.sqrt h with hu
  set v := Complex.sqrt g with hv
  have eb : (0.25 : ℂ) * ((3 * (f : ℂ) - 1) * (1 / (u / v) - u / v) + u / v) =
      0.25 * ((3 * ((1 - f : ℝ) : ℂ) - 1) * (1 / (v / u) - v / u) + v / u) := by
    push_cast
    field_simp
    ring
  rw [eb]
  congr 1
  ring

/-- C20: Bruggeman limits, exact condition: with `p = sqrt h / sqrt g`, the host is returned at fraction 0 iff
`2 p + 1/p` lies in the principal half plane, and the guest at fraction 1 iff `2/p + p` does. -/
theorem C20_limits_bruggeman_iff (h g : ℂ) (hh : h ≠ 0) (hg : g ≠ 0) (hne : h ≠ g) :
    (bruggemanEntry h g 0 = some h ↔
      Principal (2 * (Complex.sqrt h / Complex.sqrt g) + Complex.sqrt g / Complex.sqrt h)) ∧
    (bruggemanEntry h g 1 = some g ↔
      Principal (2 * (Complex.sqrt g / Complex.sqrt h) + Complex.sqrt h / Complex.sqrt g)) := by
  refine ⟨bruggeman_f0_aux hh hg hne, ?_⟩
  rw [bruggeman_swap]
  norm_num
  exact bruggeman_f0_aux hg hh (Ne.symm hne)

/-- C20: for passive constituents (`Im ≥ 0`) whose permittivities do not have opposite directions in the complex plane, the
Bruggeman model has both limits; equal constituents are returned for every fraction. Missing for the full
claim: opposite real permittivities (metal/dielectric without loss) and vanishing entries, see the refutations. -/
theorem C20_limits_bruggeman_partial (h g : ℂ) (hi : 0 ≤ h.im) (gi : 0 ≤ g.im) (hh : h ≠ 0) (hg : g ≠ 0)
    (hdir : ¬ (h.im = 0 ∧ g.im = 0 ∧ h.re * g.re < 0)) (f : ℝ) :
    bruggemanEntry h g 0 = some h ∧ bruggemanEntry h g 1 = some g ∧ bruggemanEntry h h f = some h := by
  have hfin : bruggemanEntry h h f = some h := by simp [bruggemanEntry]
  by_cases hne : h = g
  · subst hne
    simp [bruggemanEntry]
  have sh : Complex.sqrt h ≠ 0 := fun h0 => hh (csqrt_eq_zero.1 h0)
  have sg : Complex.sqrt g ≠ 0 := fun h0 => hg (csqrt_eq_zero.1 h0)
  have hu1 := csqrt_re_nonneg h
  have hu2 := csqrt_im_nonneg hi
  have hv1 := csqrt_re_nonneg g
  have hv2 := csqrt_im_nonneg gi
  have eu := csqrt_mul_self h
  have ev := csqrt_mul_self g
  set u := Complex.sqrt h with hu
  set v := Complex.sqrt g with hv
  -- the real part of `u * conj v` is positive
  have hpos : 0 < u.re * v.re + u.im * v.im := by
    rcases (add_nonneg (mul_nonneg hu1 hv1) (mul_nonneg hu2 hv2)).lt_or_eq with h0 | h0
    · exact h0
    · exfalso
      have z1 : u.re * v.re = 0 := by nlinarith [mul_nonneg hu1 hv1, mul_nonneg hu2 hv2]
      have z2 : u.im * v.im = 0 := by nlinarith [mul_nonneg hu1 hv1, mul_nonneg hu2 hv2]
      have hre : h.re = u.re * u.re - u.im * u.im := by rw [← eu]; simp
      have him : h.im = u.re * u.im + u.im * u.re := by rw [← eu]; simp
      have gre : g.re = v.re * v.re - v.im * v.im := by rw [← ev]; simp
      have gim : g.im = v.re * v.im + v.im * v.re := by rw [← ev]; simp
      have un : u.re ≠ 0 ∨ u.im ≠ 0 := by
        by_contra hc
        push Not at hc
        exact sh (Complex.ext hc.1 hc.2)
      have vn : v.re ≠ 0 ∨ v.im ≠ 0 := by
        by_contra hc
        push Not at hc
        exact sg (Complex.ext hc.1 hc.2)
      apply hdir
      rcases mul_eq_zero.1 z1 with a | a <;> rcases mul_eq_zero.1 z2 with b | b
      · exfalso; rcases un with c | c
        · exact c a
        · exact c b
      · have c : u.im ≠ 0 := by rcases un with c | c; exact absurd a c; exact c
        have d : v.re ≠ 0 := by rcases vn with d | d; exact d; exact absurd b d
        refine ⟨by rw [him, a]; ring, by rw [gim, b]; ring, ?_⟩
        rw [hre, gre, a, b]
        have h1 : 0 < u.im * u.im := by positivity
        have h2 : 0 < v.re * v.re := by positivity
        nlinarith
      · have c : u.re ≠ 0 := by rcases un with c | c; exact c; exact absurd b c
        have d : v.im ≠ 0 := by rcases vn with d | d; exact absurd a d; exact d
        refine ⟨by rw [him, b]; ring, by rw [gim, a]; ring, ?_⟩
        rw [hre, gre, a, b]
        have h1 : 0 < u.re * u.re := by positivity
        have h2 : 0 < v.im * v.im := by positivity
        nlinarith
      · exfalso; rcases vn with c | c
        · exact c a
        · exact c b
  have hr1 : 0 < (u / v).re := by
    rw [Complex.div_re, ← add_div]
    exact div_pos hpos (Complex.normSq_pos.2 sg)
  have hr2 : 0 < (v / u).re := by
    rw [Complex.div_re, ← add_div]
    exact div_pos (by linarith [mul_comm v.re u.re, mul_comm v.im u.im]) (Complex.normSq_pos.2 sh)
  obtain ⟨i1, i2⟩ := C20_limits_bruggeman_iff h g hh hg hne
  refine ⟨i1.2 (Or.inl ?_), i2.2 (Or.inl ?_), hfin⟩
  · simp only [Complex.add_re, Complex.mul_re]
    norm_num
    linarith
  · simp only [Complex.add_re, Complex.mul_re]
    norm_num
    linarith

/-- C20 fails for Bruggeman: (i) host -1 and guest 4 at fraction 0 give -2, not the host; (ii) a vanishing host or
guest entry (off-diagonal entries of a rotated constituent against an isotropic one) gives NaN at every fraction. -/
theorem C20_bruggeman_refuted :
    bruggemanEntry (-1) 4 0 = some (-2) ∧
    (∀ (x : ℂ) (f : ℝ), x ≠ 0 → bruggemanEntry 0 x f = none ∧ bruggemanEntry x 0 f = none) := by
  constructor
  · have s1 : Complex.sqrt (-1) = I := Complex.sqrt_neg_one
    have s2 : Complex.sqrt 4 = 2 := by
      rw [csqrt_eq_iff]
      constructor
      · left; norm_num
      · norm_num
    have s3 : Complex.sqrt (-1 / 16) = I / 4 := by
      rw [csqrt_eq_iff]
      constructor
      · right; norm_num
      · rw [div_pow, Complex.I_sq]; norm_num
    unfold bruggemanEntry
    rw [if_neg (by norm_num)]
    simp only
    rw [s1, s2]
    rw [if_neg (by
      rintro (h0 | h0)
      · norm_num at h0
      · simp at h0)]
    have eb : (0.25 : ℂ) * ((3 * ((0 : ℝ) : ℂ) - 1) * (1 / (I / 2) - I / 2) + I / 2) = 3 * I / 4 := by
      have hI : I ^ 2 = -1 := Complex.I_sq
      have h0 : I ≠ 0 := Complex.I_ne_zero
      push_cast
      field_simp
      rw [hI]
      norm_num
    rw [eb]
    have es : (3 * I / 4) ^ 2 + (0.5 : ℂ) = -1 / 16 := by
      rw [div_pow, mul_pow, Complex.I_sq]; norm_num
    rw [es, s3]
    congr 1
    have hI : I * I = -1 := Complex.I_mul_I
    linear_combination 2 * hI
  · intro x f hx
    unfold bruggemanEntry
    rw [if_neg (Ne.symm hx), if_neg hx]
    simp

example : (0 : ℝ) ≤ (2 + I : ℂ).im ∧ (0 : ℝ) ≤ (-3 + 2 * I : ℂ).im ∧ (2 + I : ℂ) ≠ 0 ∧
    ¬ ((2 + I : ℂ).im = 0 ∧ (-3 + 2 * I : ℂ).im = 0 ∧ (2 + I : ℂ).re * (-3 + 2 * I : ℂ).re < 0) := by
  refine ⟨by simp, by simp, ?_, by simp⟩
  intro h
  have := congrArg Complex.im h
  simp at this

/-! ## C21 -/

/-- C21: whenever the code returns a number, it solves the Bruggeman equation without denominators. -/
theorem C21_bruggeman_equation (h g e : ℂ) (f : ℝ) (he : bruggemanEntry h g f = some e) :
    f * (g - e) * (h + 2 * e) + (1 - f) * (h - e) * (g + 2 * e) = 0 :=
  bruggeman_balance he

/-- C21: for non-zero constituents and fractions other than 0 and 1 the result exists, both denominators are non-zero and
the self-consistency condition holds as written. -/
theorem C21_bruggeman_self_consistent (h g : ℂ) (f : ℝ) (hh : h ≠ 0) (hg : g ≠ 0)
    (f0 : f ≠ 0) (f1 : f ≠ 1) :
    ∃ e : ℂ, bruggemanEntry h g f = some e ∧ g + 2 * e ≠ 0 ∧ h + 2 * e ≠ 0 ∧
      f * ((g - e) / (g + 2 * e)) + (1 - f) * ((h - e) / (h + 2 * e)) = 0 := by
  by_cases hne : h = g
  · subst hne
    have h3 : h + 2 * h ≠ 0 := by
      have : h + 2 * h = 3 * h := by ring
      rw [this]
      exact mul_ne_zero (by norm_num) hh
    exact ⟨h, by simp [bruggemanEntry], h3, h3, by simp⟩
  · obtain ⟨p, z, -, -, -, -, -, he⟩ := bruggeman_some hh hg hne f
    refine ⟨_, he, ?_⟩
    have hb := bruggeman_balance he
    set e := z * Complex.sqrt h * Complex.sqrt g with hedef
    have fc0 : (f : ℂ) ≠ 0 := by exact_mod_cast f0
    have fc1 : (1 - f : ℂ) ≠ 0 := by
      intro h0
      apply f1
      have : (f : ℂ) = 1 := by linear_combination -h0
      exact_mod_cast this
    have hd : g - h ≠ 0 := sub_ne_zero.2 (Ne.symm hne)
    have hd1 : g + 2 * e ≠ 0 := by
      intro h0
      have he' : e = -g / 2 := by linear_combination h0 / 2
      rw [he'] at hb
      have : (f : ℂ) * (3 * g / 2) * (g - h) = 0 := by linear_combination -hb
      rcases mul_eq_zero.1 this with h1 | h1
      · rcases mul_eq_zero.1 h1 with h2 | h2
        · exact fc0 h2
        · apply hg; linear_combination (2 / 3) * h2
      · exact hd h1
    have hd2 : h + 2 * e ≠ 0 := by
      intro h0
      have he' : e = -h / 2 := by linear_combination h0 / 2
      rw [he'] at hb
      have : (1 - f : ℂ) * (3 * h / 2) * (g - h) = 0 := by linear_combination hb
      rcases mul_eq_zero.1 this with h1 | h1
      · rcases mul_eq_zero.1 h1 with h2 | h2
        · exact fc1 h2
        · apply hh; linear_combination (2 / 3) * h2
      · exact hd h1
    refine ⟨hd1, hd2, ?_⟩
    rw [mul_div, mul_div, div_add_div _ _ hd1 hd2, div_eq_zero_iff]
    left
    linear_combination hb

example : ((2 : ℂ) + I ≠ 0) ∧ ((1 / 3 : ℝ) ≠ 0) ∧ ((1 / 3 : ℝ) ≠ 1) := by
  refine ⟨?_, by norm_num, by norm_num⟩
  intro h
  have := congrArg Complex.im h
  simp at this

/-! ## C22 -/

/-- C22: for positive real constituents and a fraction in [0, 1] every model returns a real value between the two. -/
theorem C22_between (k : EmaKind) (h g f : ℝ) (hh : 0 < h) (hg : 0 < g) (f0 : 0 ≤ f) (f1 : f ≤ 1) :
    ∃ e : ℝ, k.entry h g f = some (e : ℂ) ∧ min h g ≤ e ∧ e ≤ max h g := by
  have f1' : 0 ≤ 1 - f := by linarith
  have conv : ∀ a b : ℝ, min a b ≤ a * (1 - f) + b * f ∧ a * (1 - f) + b * f ≤ max a b := by
    intro a b
    rcases le_total a b with hab | hab
    · rw [min_eq_left hab, max_eq_right hab]
      constructor <;> nlinarith
    · rw [min_eq_right hab, max_eq_left hab]
      constructor <;> nlinarith
  cases k with
  | vca =>
    refine ⟨h * (1 - f) + g * f, ?_, conv h g⟩
    simp [EmaKind.entry, vcaEntry]
  | looyenga =>
    set a := h ^ (1 / 3 : ℝ) with ha
    set b := g ^ (1 / 3 : ℝ) with hb
    have a0 : 0 ≤ a := Real.rpow_nonneg hh.le _
    have b0 : 0 ≤ b := Real.rpow_nonneg hg.le _
    have cube : ∀ x : ℝ, 0 ≤ x → (x ^ (1 / 3 : ℝ)) ^ 3 = x := by
      intro x hx
      rw [← Real.rpow_natCast, ← Real.rpow_mul hx]
      norm_num
    have ha3 : a ^ 3 = h := cube h hh.le
    have hb3 : b ^ 3 = g := cube g hg.le
    refine ⟨(a * (1 - f) + b * f) ^ 3, ?_, ?_, ?_⟩
    · simp only [EmaKind.entry, looyengaEntry]
      have c1 : (h : ℂ) ^ (1 / 3 : ℂ) = (a : ℂ) := by
        rw [ha, Complex.ofReal_cpow hh.le]; norm_num
      have c2 : (g : ℂ) ^ (1 / 3 : ℂ) = (b : ℂ) := by
        rw [hb, Complex.ofReal_cpow hg.le]; norm_num
      rw [c1, c2]
      push_cast
      rfl
    · have h1 := (conv a b).1
      have h2 : min h g ≤ (min a b) ^ 3 := by
        rcases le_total a b with hab | hab
        · rw [min_eq_left hab, ha3]; exact min_le_left _ _
        · rw [min_eq_right hab, hb3]; exact min_le_right _ _
      exact h2.trans (pow_le_pow_left₀ (le_min a0 b0) h1 3)
    · have h1 := (conv a b).2
      have h2 : (max a b) ^ 3 ≤ max h g := by
        rcases le_total a b with hab | hab
        · rw [max_eq_right hab, hb3]; exact le_max_right _ _
        · rw [max_eq_left hab, ha3]; exact le_max_left _ _
      have : 0 ≤ a * (1 - f) + b * f := by positivity
      exact (pow_le_pow_left₀ this h1 3).trans h2
  | maxwellGarnett =>
    have hden : 0 < 2 * h + g - f * (g - h) := by nlinarith
    refine ⟨h * (2 * f * (g - h) + g + 2 * h) / (2 * h + g - f * (g - h)), ?_, ?_, ?_⟩
    · simp only [EmaKind.entry, maxwellGarnettEntry]
      rw [if_neg (by
        rintro ⟨h0, -⟩
        exact hh.ne' (by exact_mod_cast h0))]
      rw [if_neg (by
        intro h0
        exact hden.ne' (by exact_mod_cast h0))]
      push_cast
      rfl
    · rw [le_div_iff₀ hden]
      rcases le_total h g with hab | hab
      · rw [min_eq_left hab]
        nlinarith [mul_nonneg (mul_nonneg hh.le f0) (sub_nonneg.2 hab)]
      · rw [min_eq_right hab]
        nlinarith [mul_nonneg (mul_nonneg hh.le f1') (sub_nonneg.2 hab),
          mul_nonneg (mul_nonneg hg.le f1') (sub_nonneg.2 hab)]
    · rw [div_le_iff₀ hden]
      rcases le_total h g with hab | hab
      · rw [max_eq_right hab]
        nlinarith [mul_nonneg (mul_nonneg hh.le f1') (sub_nonneg.2 hab),
          mul_nonneg (mul_nonneg hg.le f1') (sub_nonneg.2 hab)]
      · rw [max_eq_left hab]
        nlinarith [mul_nonneg (mul_nonneg hh.le f0) (sub_nonneg.2 hab)]
  | bruggeman =>
    by_cases hne : h = g
    · subst hne
      refine ⟨h, ?_, by simp, by simp⟩
      simp [EmaKind.entry, bruggemanEntry]
    · obtain ⟨e, he0, he⟩ := bruggeman_real hh hg hne f
      refine ⟨e, he, ?_, ?_⟩
      all_goals
        have hb' := bruggeman_balance he
        have hb : f * (g - e) * (h + 2 * e) + (1 - f) * (h - e) * (g + 2 * e) = 0 := by exact_mod_cast hb'
        by_contra hcon
        push Not at hcon
      · have c1 := lt_of_lt_of_le hcon (min_le_left h g)
        have c2 := lt_of_lt_of_le hcon (min_le_right h g)
        rcases f0.lt_or_eq with hf | hf
        · have p1 : 0 < f * (g - e) * (h + 2 * e) := by
            apply mul_pos (mul_pos hf (by linarith)); linarith
          have p2 : 0 ≤ (1 - f) * (h - e) * (g + 2 * e) := by
            apply mul_nonneg (mul_nonneg f1' (by linarith)); linarith
          linarith
        · rw [← hf] at hb
          have : 0 < (h - e) * (g + 2 * e) := by apply mul_pos <;> linarith
          nlinarith
      · have c1 := lt_of_le_of_lt (le_max_left h g) hcon
        have c2 := lt_of_le_of_lt (le_max_right h g) hcon
        rcases f0.lt_or_eq with hf | hf
        · have p1 : 0 < f * (e - g) * (h + 2 * e) := by
            apply mul_pos (mul_pos hf (by linarith)); linarith
          have p2 : 0 ≤ (1 - f) * (e - h) * (g + 2 * e) := by
            apply mul_nonneg (mul_nonneg f1' (by linarith)); linarith
          nlinarith
        · rw [← hf] at hb
          have : 0 < (e - h) * (g + 2 * e) := by apply mul_pos <;> linarith
          nlinarith

example : (0 : ℝ) < 2 ∧ (0 : ℝ) < 12 ∧ (0 : ℝ) ≤ 1 / 3 ∧ (1 / 3 : ℝ) ≤ 1 := by norm_num

/-! ## C23 -/

/-- C23: mixing passive constituents never yields gain, in any model, whenever the code returns a number. -/
theorem C23_passive (k : EmaKind) (h g e : ℂ) (f : ℝ) (hi : 0 ≤ h.im) (gi : 0 ≤ g.im)
    (f0 : 0 ≤ f) (f1 : f ≤ 1) (he : k.entry h g f = some e) : 0 ≤ e.im := by
  have f1' : 0 ≤ 1 - f := by linarith
  cases k with
  | vca =>
    cases he
    simp only [vcaEntry, add_im, mul_im, sub_re, one_re, ofReal_re, sub_im, one_im, ofReal_im]
    have := mul_nonneg hi f1'
    have := mul_nonneg gi f0
    linarith
  | looyenga =>
    cases he
    exact sector_cube (sector_comb (cbrt_sector hi) (cbrt_sector gi) f0 f1)
  | maxwellGarnett =>
    simp only [EmaKind.entry, maxwellGarnettEntry] at he
    by_cases h0 : h = 0 ∧ g = 0
    · rw [if_pos h0] at he
      cases he
      exact hi
    · rw [if_neg h0] at he
      by_cases hden : 2 * h + g - f * (g - h) = 0
      · rw [if_pos hden] at he
        cases he
      · rw [if_neg hden] at he
        cases he
        by_cases hh : h = 0
        · subst hh
          simp
        · by_cases hA : g + 2 * h = 0
          · -- dipole resonance: both real
            have hg : g = -2 * h := by linear_combination hA
            have him : h.im = 0 := by
              have : g.im = -2 * h.im := by rw [hg]; simp
              linarith
            have hfc : (f : ℂ) * h ≠ 0 := by
              intro h1
              apply hden
              rw [hg]
              linear_combination 3 * h1
            have hf : (f : ℂ) ≠ 0 := left_ne_zero_of_mul hfc
            have e1 : h * (2 * f * (g - h) + g + 2 * h) / (2 * h + g - f * (g - h)) = -2 * h := by
              have e2 : 2 * h + g - f * (g - h) = 3 * (f * h) := by rw [hg]; ring
              rw [e2, hg]
              field_simp
              ring
            rw [e1]
            simp [him]
          · have hB : (3 : ℂ) * h ≠ 0 := mul_ne_zero (by norm_num) hh
            have hw : (f : ℂ) * (g + 2 * h)⁻¹ + (1 - f) * (3 * h)⁻¹ ≠ 0 := by
              intro h1
              apply hden
              field_simp at h1
              linear_combination h1
            have hc := harmonic_halfplane (c := 2 * h.im) (f := f) hA hB (by linarith)
              (by simp [gi]) (by simp; linarith) f0 f1 hw
            have e1 : h * (2 * f * (g - h) + g + 2 * h) / (2 * h + g - f * (g - h)) =
                ((f : ℂ) * (g + 2 * h)⁻¹ + (1 - f) * (3 * h)⁻¹)⁻¹ - 2 * h := by
              have e2 : (f : ℂ) * (g + 2 * h)⁻¹ + (1 - f) * (3 * h)⁻¹ =
                  (2 * h + g - f * (g - h)) / ((g + 2 * h) * (3 * h)) := by
                field_simp
                ring
              rw [e2, inv_div, div_eq_iff hden, sub_mul, div_mul_cancel₀ _ hden]
              ring
            rw [e1]
            simp only [sub_im]
            have e3 : (2 * h).im = 2 * h.im := by simp
            rw [e3]
            linarith
  | bruggeman =>
    simp only [EmaKind.entry] at he
    by_cases hne : h = g
    · subst hne
      simp [bruggemanEntry] at he
      rw [← he]
      exact hi
    by_cases hh : h = 0
    · subst hh
      unfold bruggemanEntry at he
      rw [if_neg hne] at he
      simp at he
    by_cases hg : g = 0
    · subst hg
      unfold bruggemanEntry at he
      rw [if_neg hne] at he
      simp at he
    have hbal := bruggeman_balance he
    obtain ⟨p, z, -, -, hz, hz0, -, hs⟩ := bruggeman_some hh hg hne f
    rw [hs] at he
    have he' := Option.some.inj he
    have sh : Complex.sqrt h ≠ 0 := fun h0 => hh (csqrt_eq_zero.1 h0)
    have sg : Complex.sqrt g ≠ 0 := fun h0 => hg (csqrt_eq_zero.1 h0)
    have a0 := csqrt_re_nonneg h
    have b0 := csqrt_im_nonneg hi
    have c0 := csqrt_re_nonneg g
    have d0 := csqrt_im_nonneg gi
    have eu := csqrt_mul_self h
    have ev := csqrt_mul_self g
    set u := Complex.sqrt h with hu
    set v := Complex.sqrt g with hv
    by_contra hneg
    push Not at hneg
    have e0 : e ≠ 0 := by
      rw [← he']
      exact mul_ne_zero (mul_ne_zero hz0 sh) sg
    -- the ratios to the effective value
    set tg := g / e with htg
    set th := h / e with hth
    have etg : tg = v / (u * z) := by
      rw [htg, ← he', ← ev]; field_simp
    have eth : th = u / (v * z) := by
      rw [hth, ← he', ← eu]; field_simp
    have him : z.re * (u.re * v.im + u.im * v.re) + z.im * (u.re * v.re - u.im * v.im) < 0 := by
      have : e.im = z.re * (u.re * v.im + u.im * v.re) + z.im * (u.re * v.re - u.im * v.im) := by
        rw [← he']
        simp
        ring
      linarith
    have nt : ∀ x y : ℂ, y ≠ 0 → (x / (y * z)).im =
        (z.re * (x.im * y.re - x.re * y.im) - z.im * (x.re * y.re + x.im * y.im)) /
          Complex.normSq (y * z) := by
      intro x y hy
      rw [Complex.div_im]
      simp only [mul_re, mul_im]
      ring
    have n1 : 0 < Complex.normSq (u * z) := Complex.normSq_pos.2 (mul_ne_zero sh hz0)
    have n2 : 0 < Complex.normSq (v * z) := Complex.normSq_pos.2 (mul_ne_zero sg hz0)
    have ac := mul_nonneg a0 c0
    have bd := mul_nonneg b0 d0
    have ad := mul_nonneg a0 d0
    have bc := mul_nonneg b0 c0
    have hsign : (0 < tg.im ∧ 0 < th.im) ∨ (tg.im < 0 ∧ th.im < 0) := by
      rw [etg, eth, nt v u sh, nt u v sg]
      rcases lt_or_ge z.im 0 with hy | hy
      · left
        constructor
        · apply div_pos _ n1
          nlinarith [mul_nonneg hz ad, mul_nonneg hz bc, mul_nonneg (neg_nonneg.2 hy.le) bd,
            mul_nonneg (neg_nonneg.2 hy.le) ac]
        · apply div_pos _ n2
          nlinarith [mul_nonneg hz ad, mul_nonneg hz bc, mul_nonneg (neg_nonneg.2 hy.le) bd,
            mul_nonneg (neg_nonneg.2 hy.le) ac]
      · right
        constructor
        · apply div_neg_of_neg_of_pos _ n1
          nlinarith [mul_nonneg hz ad, mul_nonneg hz bc, mul_nonneg hy bd, mul_nonneg hy ac]
        · apply div_neg_of_neg_of_pos _ n2
          nlinarith [mul_nonneg hz ad, mul_nonneg hz bc, mul_nonneg hy bd, mul_nonneg hy ac]
    -- average of the inverses
    have hgt : g = tg * e := by rw [htg]; field_simp
    have hht : h = th * e := by rw [hth]; field_simp
    have bal2 : (f : ℂ) * (tg - 1) * (th + 2) + (1 - f) * (th - 1) * (tg + 2) = 0 := by
      have : ((f : ℂ) * (tg - 1) * (th + 2) + (1 - f) * (th - 1) * (tg + 2)) * e ^ 2 = 0 := by
        rw [hgt, hht] at hbal
        linear_combination hbal
      rcases mul_eq_zero.1 this with h1 | h1
      · exact h1
      · exact absurd h1 (pow_ne_zero 2 e0)
    have tg2 : tg + 2 ≠ 0 := by
      intro h1
      have := congrArg Complex.im h1
      simp at this
      rcases hsign with ⟨h2, h3⟩ | ⟨h2, h3⟩ <;> linarith
    have th2 : th + 2 ≠ 0 := by
      intro h1
      have := congrArg Complex.im h1
      simp at this
      rcases hsign with ⟨h2, h3⟩ | ⟨h2, h3⟩ <;> linarith
    have avg : (f : ℂ) * (tg + 2)⁻¹ + (1 - f) * (th + 2)⁻¹ = 1 / 3 := by
      field_simp
      linear_combination -bal2
    have av := congrArg Complex.im avg
    simp only [add_im, mul_im, ofReal_re, ofReal_im, sub_re, sub_im, one_re, one_im, inv_im, zero_mul, add_zero,
      sub_zero] at av
    have r0 : ((1 : ℂ) / 3).im = 0 := by norm_num
    rw [r0] at av
    have i2 : ((2 : ℂ)).im = 0 := by norm_num
    rw [i2] at av
    have m1 : 0 < Complex.normSq (tg + 2) := Complex.normSq_pos.2 tg2
    have m2 : 0 < Complex.normSq (th + 2) := Complex.normSq_pos.2 th2
    have fsplit : 0 < f ∨ 0 < 1 - f := by
      rcases f0.lt_or_eq with h1 | h1
      · exact Or.inl h1
      · right; rw [← h1]; norm_num
    simp only [add_zero] at av
    rcases hsign with ⟨h1, h2⟩ | ⟨h1, h2⟩
    · have q1 : -tg.im / Complex.normSq (tg + 2) < 0 := div_neg_of_neg_of_pos (by linarith) m1
      have q2 : -th.im / Complex.normSq (th + 2) < 0 := div_neg_of_neg_of_pos (by linarith) m2
      rcases fsplit with h3 | h3
      · nlinarith [mul_pos h3 (neg_pos.2 q1), mul_nonneg f1' (neg_pos.2 q2).le]
      · nlinarith [mul_nonneg f0 (neg_pos.2 q1).le, mul_pos h3 (neg_pos.2 q2)]
    · have q1 : 0 < -tg.im / Complex.normSq (tg + 2) := div_pos (by linarith) m1
      have q2 : 0 < -th.im / Complex.normSq (th + 2) := div_pos (by linarith) m2
      rcases fsplit with h3 | h3
      · nlinarith [mul_pos h3 q1, mul_nonneg f1' q2.le]
      · nlinarith [mul_nonneg f0 q1.le, mul_pos h3 q2]

example : (0 : ℝ) ≤ (2 + I : ℂ).im ∧ (0 : ℝ) ≤ (-3 : ℂ).im ∧
    EmaKind.entry .vca (2 + I) (-3) (1 / 2) = some (vcaEntry (2 + I) (-3) (1 / 2)) := by
  refine ⟨by simp, by simp, rfl⟩

/-! ## C24 -/

/-- Rotation of a tensor as `get_tensor` does it. -/
noncomputable def rotT (R : Mat3) (e : Tensor) : Tensor :=
  R.map Complex.ofReal * e * (R.map Complex.ofReal)ᵀ

/-- C24 for the virtual crystal model: rotating both constituents rotates the mixture, for all matrices. Missing: the other
three models, for which the claim is false. -/
theorem C24_vca_partial (R : Mat3) (h g : Tensor) (f : ℝ) :
    ∃ m : Tensor, (EmaKind.tensor .vca h g f = fun i j => some (m i j)) ∧
      EmaKind.tensor .vca (rotT R h) (rotT R g) f = fun i j => some (rotT R m i j) := by
  refine ⟨(1 - f : ℂ) • h + (f : ℂ) • g, ?_, ?_⟩
  · funext i j
    simp [EmaKind.tensor, EmaKind.entry, vcaEntry]
    ring
  · funext i j
    have : rotT R ((1 - f : ℂ) • h + (f : ℂ) • g) = (1 - f : ℂ) • rotT R h + (f : ℂ) • rotT R g := by
      unfold rotT
      rw [Matrix.mul_add, Matrix.add_mul, Matrix.mul_smul, Matrix.mul_smul, Matrix.smul_mul, Matrix.smul_mul]
    rw [this]
    simp [EmaKind.tensor, EmaKind.entry, vcaEntry]
    ring

/-- Rotation about z by `arcsin 3/5`, a proper rotation. -/
noncomputable def R345 : Mat3 := !![4 / 5, -3 / 5, 0; 3 / 5, 4 / 5, 0; 0, 0, 1]

lemma rotT_diag (a b c : ℂ) : rotT R345 (Matrix.diagonal ![a, b, c]) =
    !![(16 * a + 9 * b) / 25, 12 * (a - b) / 25, 0; 12 * (a - b) / 25, (9 * a + 16 * b) / 25, 0; 0, 0, c] := by
  unfold rotT R345
  ext i j
  fin_cases i <;> fin_cases j <;>
    simp [Matrix.mul_apply, Fin.sum_univ_three, Matrix.diagonal] <;> ring

/-- C24 fails for Maxwell Garnett and Bruggeman: with a proper rotation, host diag(1, 6, 6) and isotropic guest 2 the
off-diagonal entry is zero (Maxwell Garnett: `0/0`-free but wrong) or NaN (Bruggeman). -/
theorem C24_rotation_refuted :
    Spec.IsProperRotation R345 ∧
    (∃ (h g m : Tensor), (EmaKind.tensor .maxwellGarnett h g (1 / 2) = fun i j => some (m i j)) ∧
      EmaKind.tensor .maxwellGarnett (rotT R345 h) (rotT R345 g) (1 / 2) ≠ fun i j => some (rotT R345 m i j)) ∧
    (∃ (h g m : Tensor), (EmaKind.tensor .bruggeman h g (1 / 2) = fun i j => some (m i j)) ∧
      EmaKind.tensor .bruggeman (rotT R345 h) (rotT R345 g) (1 / 2) 0 1 = none) ∧
    (∃ (h g m : Tensor), (EmaKind.tensor .looyenga h g (1 / 2) = fun i j => some (m i j)) ∧
      EmaKind.tensor .looyenga (rotT R345 h) (rotT R345 g) (1 / 2) ≠ fun i j => some (rotT R345 m i j)) := by
  refine ⟨?_, ?_, ?_, ?_⟩
  · refine ⟨?_, ?_, ?_⟩
    · unfold R345
      ext i j
      fin_cases i <;> fin_cases j <;> simp [Matrix.mul_apply, Fin.sum_univ_three] <;> norm_num
    · unfold R345
      ext i j
      fin_cases i <;> fin_cases j <;> simp [Matrix.mul_apply, Fin.sum_univ_three] <;> norm_num
    · unfold R345
      rw [Matrix.det_fin_three]
      simp
      norm_num
  · refine ⟨Matrix.diagonal ![1, 6, 6], Matrix.diagonal ![2, 2, 2],
      Matrix.diagonal ![10 / 7, 15 / 4, 15 / 4], ?_, ?_⟩
    · funext i j
      fin_cases i <;> fin_cases j <;>
        simp [EmaKind.tensor, EmaKind.entry, maxwellGarnettEntry, Matrix.diagonal] <;> norm_num
    · intro h0
      have h1 := congrFun (congrFun h0 0) 1
      rw [rotT_diag, rotT_diag, rotT_diag] at h1
      simp [EmaKind.tensor, EmaKind.entry, maxwellGarnettEntry] at h1
      norm_num at h1
  · have hs : ∀ x : ℂ, x ≠ 0 → ∃ y, EmaKind.entry .bruggeman x 2 (1 / 2) = some y := by
      intro x hx
      by_cases h2 : x = 2
      · exact ⟨x, by simp [EmaKind.entry, bruggemanEntry, h2]⟩
      · obtain ⟨p, z, -, -, -, -, -, he⟩ := bruggeman_some hx (by norm_num : (2 : ℂ) ≠ 0) h2 (1 / 2)
        exact ⟨_, he⟩
    obtain ⟨y1, hy1⟩ := hs 1 (by norm_num)
    obtain ⟨y6, hy6⟩ := hs 6 (by norm_num)
    refine ⟨Matrix.diagonal ![1, 6, 6], Matrix.diagonal ![2, 2, 2], Matrix.diagonal ![y1, y6, y6], ?_, ?_⟩
    · have h00 : EmaKind.entry .bruggeman 0 0 (1 / 2) = some 0 := by simp [EmaKind.entry, bruggemanEntry]
      funext i j
      fin_cases i <;> fin_cases j <;> simp [EmaKind.tensor, Matrix.diagonal] <;>
        first | (simpa using hy1) | (simpa using hy6) | (simpa using h00)
    · rw [rotT_diag, rotT_diag]
      simp [EmaKind.tensor, EmaKind.entry]
      exact (C20_bruggeman_refuted.2 _ _ (by norm_num)).2
  · have c1 : (1 : ℂ) ^ (1 / 3 : ℂ) = 1 := by simp
    have cr : ∀ x : ℝ, 0 ≤ x → ((x ^ 3 : ℝ) : ℂ) ^ (1 / 3 : ℂ) = (x : ℂ) := by
      intro x hx
      have : ((x ^ 3 : ℝ) : ℂ) ^ (1 / 3 : ℂ) = (((x ^ 3 : ℝ) ^ (1 / 3 : ℝ) : ℝ) : ℂ) := by
        rw [Complex.ofReal_cpow (by positivity)]
        norm_num
      rw [this]
      congr 1
      rw [← Real.rpow_natCast, ← Real.rpow_mul hx]
      norm_num
    have c8 : (8 : ℂ) ^ (1 / 3 : ℂ) = 2 := by
      have := cr 2 (by norm_num)
      norm_num at this
      norm_num
      exact this
    have c27 : (27 : ℂ) ^ (1 / 3 : ℂ) = 3 := by
      have := cr 3 (by norm_num)
      norm_num at this
      norm_num
      exact this
    have c0 : (0 : ℂ) ^ (1 / 3 : ℂ) = 0 := Complex.zero_cpow (by norm_num)
    refine ⟨Matrix.diagonal ![1, 27, 27], Matrix.diagonal ![8, 8, 8],
      Matrix.diagonal ![27 / 8, 125 / 8, 125 / 8], ?_, ?_⟩
    · funext i j
      fin_cases i <;> fin_cases j <;>
        simp only [EmaKind.tensor, EmaKind.entry, looyengaEntry, Matrix.diagonal] <;>
        simp [-one_div, c1, c8, c27, c0] <;> norm_num
    · intro h0
      have h1 := congrFun (congrFun h0 0) 1
      rw [rotT_diag, rotT_diag, rotT_diag] at h1
      simp only [EmaKind.tensor, EmaKind.entry, looyengaEntry, Option.some.injEq] at h1
      have h2 : ((12 * (1 - 27) / 25 : ℂ) ^ (1 / 3 : ℂ)) ^ 3 = 12 * (1 - 27) / 25 := cbrt_cube _
      simp only [Matrix.of_apply, Matrix.cons_val', Matrix.cons_val_zero, Matrix.cons_val_one, sub_self, mul_zero,
        zero_div, c0, zero_mul, add_zero] at h1
      rw [mul_pow, h2] at h1
      norm_num at h1

end PyElli
