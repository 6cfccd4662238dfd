import Verif.Model.IntLambda
import Verif.Props.Dispersion

/-! # Integer wavelengths -/

namespace PyElli

open Complex

lemma divN_eq_some_of_ne {a b : ℝ} (h : b ≠ 0) : divN a b = some (a / b) := by rw [divN, if_neg h]

lemma re_mk (a b : ℝ) : ((a : ℂ) + I * (b : ℂ)).re = a := by simp

lemma wrap_of_lt {w : ℕ} {x : ℤ} (h0 : 0 ≤ x) (h : 2 * x < 2 ^ w) : wrap w x = x := by
  have e : ((2 ^ w : ℕ) : ℤ) = 2 ^ w := by push_cast; rfl
  exact Int.bmod_eq_of_le_mul_two (by rw [e]; linarith [h]) (by rw [e]; linarith)

lemma wrap_ne {w : ℕ} {x : ℤ} (h : 2 ^ w ≤ 2 * x) : wrap w x ≠ x := by
  intro he
  have h1 : wrap w x < (((2 ^ w : ℕ) : ℤ) + 1) / 2 := Int.bmod_lt (by positivity)
  have e : ((2 ^ w : ℕ) : ℤ) = 2 ^ w := by push_cast; rfl
  rw [e, he] at h1
  omega

lemma wrap_zero {w : ℕ} {x : ℤ} (h : (2 : ℤ) ^ w ∣ x) : wrap w x = 0 := by
  have e : ((2 ^ w : ℕ) : ℤ) = 2 ^ w := by push_cast; rfl
  exact Int.dvd_iff_bmod_eq_zero.1 (by rw [e]; exact h)

lemma two_of_four {w : ℕ} {x : ℤ} (h : 2 * x ^ 4 < 2 ^ w) : 2 * x ^ 2 < 2 ^ w := by
  have h1 : x ^ 2 ≤ x ^ 4 := by
    have h2 : 0 ≤ x ^ 2 := sq_nonneg x
    rcases h2.lt_or_eq with h3 | h3
    · have : 1 ≤ x ^ 2 := h3
      nlinarith
    · rw [show x ^ 4 = x ^ 2 * x ^ 2 by ring, ← h3]
      norm_num
  linarith

/-- The parameters of a Cauchy dispersion. -/
def cauchyDict (n0 n1 n2 k0 k1 k2 : ℝ) : Dict ℝ := [("n0", n0), ("n1", n1), ("n2", n2), ("k0", k0), ("k1", k1), ("k2", k2)]

lemma cauchyLam_eq (n0 n1 n2 k0 k1 k2 : ℝ) (l : Lam) : cauchyIndexLam (cauchyDict n0 n1 n2 k0 k1 k2) l =
    ((divN (1e2 * n1) (l.npow 2)).bind fun a => (divN (1e7 * n2) (l.npow 4)).bind fun b => (divN (1e2 * k1) (l.npow 2)).bind fun c =>
      (divN (1e7 * k2) (l.npow 4)).bind fun d => some (((n0 + a + b : ℝ) : ℂ) + I * ((k0 + c + d : ℝ) : ℂ))) := rfl

/-- C109, Cauchy: with integer wavelengths whose fourth power fits into the integer type (`2 x⁴ < 2 ^ w`) the index is the one for the same
wavelength as a float. Missing: larger wavelengths (`C109_cauchy_wrong_refuted`, `C109_cauchy_nan_refuted`). -/
theorem C109_cauchy_partial (s : Dict ℝ) (w : ℕ) (x : ℤ) (h : 2 * x ^ 4 < 2 ^ w) : cauchyIndexLam s (.int w x) = cauchyIndex s x := by
  have h2 : (Lam.int w x).npow 2 = (x : ℝ) ^ 2 := by
    rw [Lam.npow, wrap_of_lt (sq_nonneg x) (two_of_four h)]
    push_cast
    rfl
  have h4 : (Lam.int w x).npow 4 = (x : ℝ) ^ 4 := by
    rw [Lam.npow, wrap_of_lt (by positivity) h]
    push_cast
    rfl
  rw [cauchyIndexLam, cauchyIndex, h2, h4]

/-- Non-trivial case: 632 nm as integer of 64 bits. -/
example (s : Dict ℝ) : cauchyIndexLam s (.int 64 632) = cauchyIndex s ((632 : ℤ) : ℝ) := C109_cauchy_partial s 64 632 (by norm_num)

/-- C109 fails for the Cauchy dispersion when the fourth power does not fit (but the square does): whatever the parameters, if `n2` is not
zero the index is wrong (or no number) although it is a number for the same wavelength as a float. With 32 bits this concerns all
wavelengths from 216 nm on (to 46 µm), with 64 bits those from 55.109 µm on. -/
theorem C109_cauchy_wrong_refuted (n0 n1 n2 k0 k1 k2 : ℝ) (w : ℕ) (x : ℤ) (hx : 0 < x) (hn : n2 ≠ 0) (h2 : 2 * x ^ 2 < 2 ^ w)
    (h4 : 2 ^ w ≤ 2 * x ^ 4) :
    (∃ v, cauchyIndex (cauchyDict n0 n1 n2 k0 k1 k2) x = some v) ∧
    cauchyIndexLam (cauchyDict n0 n1 n2 k0 k1 k2) (.int w x) ≠ cauchyIndex (cauchyDict n0 n1 n2 k0 k1 k2) x := by
  have hx' : (x : ℝ) ≠ 0 := by exact_mod_cast hx.ne'
  have e2 : (Lam.int w x).npow 2 = (x : ℝ) ^ 2 := by
    rw [Lam.npow, wrap_of_lt (sq_nonneg x) h2]
    push_cast
    rfl
  have p2 : (x : ℝ) ^ 2 ≠ 0 := pow_ne_zero 2 hx'
  have p4 : (x : ℝ) ^ 4 ≠ 0 := pow_ne_zero 4 hx'
  have hval : cauchyIndex (cauchyDict n0 n1 n2 k0 k1 k2) x = some (((n0 + 1e2 * n1 / (x : ℝ) ^ 2 + 1e7 * n2 / (x : ℝ) ^ 4 : ℝ) : ℂ) +
      I * ((k0 + 1e2 * k1 / (x : ℝ) ^ 2 + 1e7 * k2 / (x : ℝ) ^ 4 : ℝ) : ℂ)) := by
    have := cauchyLam_eq n0 n1 n2 k0 k1 k2 (.float x)
    simp only [Lam.npow, divN_eq_some_of_ne p2, divN_eq_some_of_ne p4, Option.bind_some] at this
    exact this
  refine ⟨⟨_, hval⟩, ?_⟩
  rw [hval, cauchyLam_eq, e2]
  set y : ℝ := (Lam.int w x).npow 4 with hy
  have hne : y ≠ (x : ℝ) ^ 4 := by
    rw [hy, Lam.npow]
    intro h
    have h' : wrap w (x ^ 4) = x ^ 4 := by exact_mod_cast h
    exact wrap_ne h4 h'
  by_cases h0 : y = 0
  · simp [divN, h0]
  · simp only [divN_eq_some_of_ne p2, divN_eq_some_of_ne h0, Option.bind_some]
    intro h
    have h1 := congrArg re (Option.some.inj h)
    rw [re_mk, re_mk] at h1
    apply hne
    replace h1 : 1e7 * n2 / y = 1e7 * n2 / (x : ℝ) ^ 4 := by linarith
    rw [div_eq_div_iff h0 p4] at h1
    have h3 : (1e7 : ℝ) * n2 ≠ 0 := mul_ne_zero (by norm_num) hn
    exact (mul_left_cancel₀ h3 h1).symm

/-- Non-trivial case: 500 nm as integer of 32 bits. -/
example : cauchyIndexLam (cauchyDict 1.5 36 1 0 0 0) (.int 32 500) ≠ cauchyIndex (cauchyDict 1.5 36 1 0 0 0) ((500 : ℤ) : ℝ) :=
  (C109_cauchy_wrong_refuted 1.5 36 1 0 0 0 32 500 (by norm_num) (by norm_num) (by norm_num) (by norm_num)).2

/-- With 32 bits the wavelengths concerned are 216 nm to 32767 nm at least; with 64 bits those from 55109 nm to 2147483647 nm. -/
theorem C109_cauchy_widths (x : ℤ) : (216 ≤ x → x ≤ 32767 → 2 * x ^ 2 < 2 ^ 32 ∧ 2 ^ 32 ≤ 2 * x ^ 4) ∧
    (0 ≤ x → x ≤ 215 → 2 * x ^ 4 < 2 ^ 32) ∧ (0 ≤ x → x ≤ 55108 → 2 * x ^ 4 < 2 ^ 64) := by
  refine ⟨fun h1 h2 => ⟨by nlinarith, ?_⟩, fun h1 h2 => ?_, fun h1 h2 => ?_⟩
  · have : (216 : ℤ) ^ 4 ≤ x ^ 4 := pow_le_pow_left₀ (by norm_num) h1 4
    norm_num at this ⊢
    linarith
  · have : x ^ 4 ≤ (215 : ℤ) ^ 4 := pow_le_pow_left₀ h1 h2 4
    norm_num at this ⊢
    linarith
  · have : x ^ 4 ≤ (55108 : ℤ) ^ 4 := pow_le_pow_left₀ h1 h2 4
    norm_num at this ⊢
    linarith

/-- C109 fails for every Cauchy dispersion, also with `n2 = 0`, at the wavelengths whose fourth power is a multiple of `2 ^ w`: the division
by zero gives NaN. With 32 bits these are the multiples of 256 nm. -/
theorem C109_cauchy_nan_refuted (n0 n1 n2 k0 k1 k2 : ℝ) (w : ℕ) (x : ℤ) (h : (2 : ℤ) ^ w ∣ x ^ 4) :
    cauchyIndexLam (cauchyDict n0 n1 n2 k0 k1 k2) (.int w x) = none ∧ ∀ m : ℤ, (2 : ℤ) ^ 32 ∣ (256 * m) ^ 4 := by
  constructor
  · have e4 : (Lam.int w x).npow 4 = 0 := by
      rw [Lam.npow, wrap_zero h]
      simp
    rw [cauchyLam_eq, e4]
    simp [divN]
  · intro m
    exact ⟨m ^ 4, by ring⟩

/-- Non-trivial case: a constant index at 512 nm with 32 bits. -/
example : cauchyIndexLam (cauchyDict 1.5 0 0 0 0 0) (.int 32 512) = none :=
  (C109_cauchy_nan_refuted 1.5 0 0 0 0 0 32 512 ⟨16, by norm_num⟩).1

/-! ## Powers -/

lemma pow_float (l : Lam) (e : ℝ) : l.pow (.float e) = .ok (powN l.real e) := by cases l <;> rfl

lemma powN_nat (x : ℝ) (n : ℕ) : powN x n = some (x ^ n) := by
  have h1 : ¬ (x < 0 ∧ ¬ ∃ k : ℤ, (n : ℝ) = k) := fun h => h.2 ⟨n, by simp⟩
  have h2 : ¬ (x = 0 ∧ (n : ℝ) < 0) := fun h => absurd h.2 (not_lt.2 (Nat.cast_nonneg n))
  rw [powN, if_neg h1, if_neg h2, Real.rpow_natCast]

/-- The exponents for which an integer wavelength is treated correctly: floats, and natural numbers whose power fits. -/
def Expo.Fits (w : ℕ) (x : ℤ) : Expo → Prop
  | .float _ => True
  | .int e => 0 ≤ e ∧ 2 * x ^ e.toNat < 2 ^ w

lemma pow_fits {w : ℕ} {x : ℤ} (hx : 0 ≤ x) (e : Expo) (h : e.Fits w x) : (Lam.int w x).pow e = .ok (powN x e.real) := by
  cases e with
  | float e => rfl
  | int e =>
    obtain ⟨h0, h1⟩ := h
    obtain ⟨n, rfl⟩ := Int.eq_ofNat_of_zero_le h0
    have e1 : (Expo.int (n : ℤ)).real = ((n : ℕ) : ℝ) := by simp [Expo.real]
    rw [Lam.pow, if_neg (by omega), e1, powN_nat, wrap_of_lt (pow_nonneg hx _) h1]
    simp

/-- C109, CauchyCustomExponent and Polynomial: integer wavelengths are treated as floats if every exponent is a float or a natural number
whose power fits. Missing: negative integer exponents (`C109_negative_exponent_refuted`), overflow. -/
theorem C109_powers_partial (x0 : ℝ) (cs : List PowerSet) (w : ℕ) (x : ℤ) (hx : 0 ≤ x) (h : ∀ c ∈ cs, c.e.Fits w x) :
    powerModelLam x0 cs (.int w x) = .ok (cauchyCustomIndex [("n0", x0)] (cs.map PowerSet.dict) x) ∧
    powerModelLam x0 cs (.int w x) = .ok (polynomial [("e0", x0)] (cs.map PowerSet.dict) x) := by
  have key : powerSumLam (.int w x) cs = .ok (sumN ((cs.map PowerSet.dict).map (powerTerm x))) := by
    induction cs with
    | nil => rfl
    | cons c cs ih =>
      have hc := pow_fits hx c.e (h c (by simp))
      have ih' := ih fun d hd => h d (by simp [hd])
      have ht : powerTerm (x : ℝ) c.dict = (powN x c.e.real).map fun p => ((c.f * p : ℝ) : ℂ) := by
        show (powN x c.e.real).bind (fun p => some ((c.f * p : ℝ) : ℂ)) = _
        cases powN (x : ℝ) c.e.real <;> rfl
      rw [powerSumLam, hc]
      simp only [ih', List.map_cons, ht]
      cases powN (x : ℝ) c.e.real with
      | none => rfl
      | some p =>
        cases hs : sumN ((cs.map PowerSet.dict).map (powerTerm x)) <;> simp only [Option.map_some, sumN, hs] <;> rfl
  rw [powerModelLam, key]
  constructor
  · show Except.ok _ = Except.ok ((sumN ((cs.map PowerSet.dict).map (powerTerm x))).bind fun t => some ((x0 : ℂ) + t))
    cases sumN ((cs.map PowerSet.dict).map (powerTerm x)) <;> rfl
  · show Except.ok _ = Except.ok ((sumN ((cs.map PowerSet.dict).map (powerTerm x))).bind fun t => some ((x0 : ℂ) + t))
    cases sumN ((cs.map PowerSet.dict).map (powerTerm x)) <;> rfl

/-- Non-trivial case: `n0 + 3000 λ^-2.0` at 500 nm. -/
example : powerModelLam 1.5 [⟨3000, .float (-2)⟩, ⟨1, .int 2⟩] (.int 64 500) =
    .ok (cauchyCustomIndex [("n0", 1.5)] [[("f", 3000), ("e", -2)], [("f", 1), ("e", ((2 : ℤ) : ℝ))]] ((500 : ℤ) : ℝ)) :=
  (C109_powers_partial 1.5 [⟨3000, .float (-2)⟩, ⟨1, .int 2⟩] 64 500 (by norm_num)
    (by simp [Expo.Fits])).1

/-- C109 fails for a negative integer exponent (the usual case for Cauchy-like models): with integer wavelengths `ValueError` is raised, with
the same wavelengths as floats there is a value. -/
theorem C109_negative_exponent_refuted (x0 f : ℝ) (e : ℤ) (he : e < 0) (cs : List PowerSet) (w : ℕ) (x : ℤ) (hx : 0 < x) :
    powerModelLam x0 (⟨f, .int e⟩ :: cs) (.int w x) = .error .valueError ∧
    ∃ v, powerModelLam x0 [⟨f, .int e⟩] (.float x) = .ok (some v) := by
  have hx' : (0 : ℝ) < x := by exact_mod_cast hx
  constructor
  · simp [powerModelLam, powerSumLam, Lam.pow, he]
  · refine ⟨(x0 : ℂ) + (((f * (x : ℝ) ^ (e : ℝ) : ℝ) : ℂ) + 0), ?_⟩
    rw [powerModelLam, powerSumLam, Lam.pow, powN, if_neg (by rintro ⟨h, -⟩; linarith), if_neg (by rintro ⟨h, -⟩; linarith)]
    rfl

/-- Non-trivial case: `λ⁻²` at 500 nm. -/
example : powerModelLam 1.5 [⟨3000, .int (-2)⟩] (.int 64 500) = .error .valueError :=
  (C109_negative_exponent_refuted 1.5 3000 (-2) (by norm_num) [] 64 500 (by norm_num)).1

/-- C109, LorentzLambda: integer wavelengths whose square fits are treated as floats. -/
theorem C109_lorentz_partial (rep : List (Dict ℝ)) (w : ℕ) (x : ℤ) (h : 2 * x ^ 2 < 2 ^ w) :
    lorentzLambdaLam rep (.int w x) = lorentzLambda rep x := by
  have h2 : (Lam.int w x).npow 2 = (x : ℝ) ^ 2 := by
    rw [Lam.npow, wrap_of_lt (sq_nonneg x) h]
    push_cast
    rfl
  have ht : lorentzLambdaTermLam (.int w x) = lorentzLambdaTerm x := by
    funext c
    rw [lorentzLambdaTermLam, lorentzLambdaTerm, h2]
    simp only [Lam.real, ofReal_pow]
  rw [lorentzLambdaLam, lorentzLambda, ht]

/-- Non-trivial case: 10 µm with 32 bits. -/
example (rep : List (Dict ℝ)) : lorentzLambdaLam rep (.int 32 10000) = lorentzLambda rep ((10000 : ℤ) : ℝ) :=
  C109_lorentz_partial rep 32 10000 (by norm_num)

/-- C109: floats are always treated correctly. -/
theorem C109_float (s : Dict ℝ) (rep : List (Dict ℝ)) (x : ℝ) :
    cauchyIndexLam s (.float x) = cauchyIndex s x ∧ lorentzLambdaLam rep (.float x) = lorentzLambda rep x := by
  refine ⟨rfl, ?_⟩
  have ht : lorentzLambdaTermLam (.float x) = lorentzLambdaTerm x := by
    funext c
    rw [lorentzLambdaTermLam, lorentzLambdaTerm]
    simp only [Lam.npow, Lam.real, ofReal_pow]
  rw [lorentzLambdaLam, lorentzLambda, ht]

end PyElli
