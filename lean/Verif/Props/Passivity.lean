import Verif.Props.Dispersion
import Verif.Lemmas.Sqrt
import Verif.Spec.Dispersion

/-! # Dispersion models are passive (C49) -/

namespace PyElli

open Complex

lemma divN_some {R : Type} [DivisionRing R] {a b v : R} (h : divN a b = some v) : b ≠ 0 ∧ v = a / b := by
  unfold divN at h
  split_ifs at h with h0
  exact ⟨h0, (Option.some.inj h).symm⟩

lemma im_div_nonneg {a : ℝ} {d : ℂ} (ha : 0 ≤ a) (hd : d.im ≤ 0) : 0 ≤ ((a : ℂ) / d).im := by
  rw [div_im]
  simp only [ofReal_im, ofReal_re, zero_mul, zero_div, zero_sub]
  rw [← neg_div, ← mul_neg]
  exact div_nonneg (mul_nonneg ha (by linarith)) (normSq_nonneg _)

/-- An oscillator parameter of a dictionary is nonnegative (if present). -/
def NonnegAt (c : Dict ℝ) (k : String) : Prop := ∀ x, c.get k = some x → 0 ≤ x

/-- C49: Lorentz oscillators (energy units) with nonnegative amplitudes and broadenings absorb at every wavelength. -/
theorem C49_lorentz_energy (K : PhysConst) (rep : List (Dict ℝ)) (lbda : ℝ) (hl : 0 < lbda)
    (h : ∀ c ∈ rep, NonnegAt c "A" ∧ NonnegAt c "gamma") (v : ℂ) (hv : lorentzEnergy K rep lbda = some v) : 0 ≤ v.im := by
  unfold lorentzEnergy at hv
  simp only [Option.bind_eq_bind, Option.bind_eq_some_iff, Option.some.injEq] at hv
  obtain ⟨E, hE, t, ht, rfl⟩ := hv
  have hEp := energy_pos K hl hE
  rw [add_im, one_im, zero_add]
  refine sumN_im_nonneg ?_ ht
  intro x hx y hxy
  obtain ⟨c, hc, rfl⟩ := List.mem_map.1 hx
  obtain ⟨hA, hg⟩ := h c hc
  simp only [lorentzEnergyTerm, Option.bind_eq_bind, Option.bind_eq_some_iff] at hxy
  obtain ⟨A, hA', E0, -, g, hg', hd⟩ := hxy
  obtain ⟨-, rfl⟩ := divN_some hd
  refine im_div_nonneg (hA A hA') ?_
  have : 0 ≤ g * E := mul_nonneg (hg g hg') hEp.le
  simpa [pow_two] using this

/-- C49: Lorentz oscillators (wavelength units) with nonnegative amplitudes and broadenings absorb at every wavelength. -/
theorem C49_lorentz_lambda (rep : List (Dict ℝ)) (lbda : ℝ) (hl : 0 < lbda)
    (h : ∀ c ∈ rep, NonnegAt c "A" ∧ NonnegAt c "gamma") (v : ℂ) (hv : lorentzLambda rep lbda = some v) : 0 ≤ v.im := by
  unfold lorentzLambda at hv
  simp only [Option.bind_eq_bind, Option.bind_eq_some_iff, Option.some.injEq] at hv
  obtain ⟨t, ht, rfl⟩ := hv
  rw [add_im, one_im, zero_add]
  refine sumN_im_nonneg ?_ ht
  intro x hx y hxy
  obtain ⟨c, hc, rfl⟩ := List.mem_map.1 hx
  obtain ⟨hA, hg⟩ := h c hc
  simp only [lorentzLambdaTerm, Option.bind_eq_bind, Option.bind_eq_some_iff] at hxy
  obtain ⟨A, hA', r, -, g, hg', hd⟩ := hxy
  obtain ⟨-, rfl⟩ := divN_some hd
  rw [show (A : ℂ) * (lbda : ℂ) ^ 2 = ((A * lbda ^ 2 : ℝ) : ℂ) by push_cast; ring]
  refine im_div_nonneg (mul_nonneg (hA A hA') (sq_nonneg _)) ?_
  have : 0 ≤ g * lbda := mul_nonneg (hg g hg') hl.le
  simpa [pow_two] using this

/-- C49: the Drude model (energy units). -/
theorem C49_drude_energy (K : PhysConst) (s : Dict ℝ) (lbda : ℝ) (hl : 0 < lbda) (hA : NonnegAt s "A")
    (hg : NonnegAt s "gamma") (v : ℂ) (hv : drudeEnergy K s lbda = some v) : 0 ≤ v.im := by
  simp only [drudeEnergy, Option.bind_eq_bind, Option.bind_eq_some_iff] at hv
  obtain ⟨E, hE, A, hA', g, hg', hd⟩ := hv
  have hEp := energy_pos K hl hE
  obtain ⟨-, rfl⟩ := divN_some hd
  refine im_div_nonneg (hA A hA') ?_
  have : 0 ≤ g * E := mul_nonneg (hg g hg') hEp.le
  simpa [pow_two] using this

/-- C49: the Drude model (resistivity). -/
theorem C49_drude_resistivity (K : PhysConst) (s : Dict ℝ) (lbda : ℝ) (hl : 0 < lbda) (hr : NonnegAt s "rho_opt")
    (v : ℂ) (hv : drudeResistivity K s lbda = some v) : 0 ≤ v.im := by
  simp only [drudeResistivity, Option.bind_eq_bind, Option.bind_eq_some_iff] at hv
  obtain ⟨E, hE, r, hr', t, -, hd⟩ := hv
  have hEp := energy_pos K hl hE
  obtain ⟨-, rfl⟩ := divN_some hd
  rw [show ((K.h / 2 / Real.pi : ℝ) : ℂ) ^ 2 = (((K.h / 2 / Real.pi) ^ 2 : ℝ) : ℂ) by push_cast; ring]
  refine im_div_nonneg (sq_nonneg _) ?_
  have h1 : 0 ≤ K.eps0 * 1e-2 * r := mul_nonneg (mul_nonneg K.eps0_pos.le (by norm_num)) (hr r hr')
  have h2 : 0 ≤ K.h / 2 / Real.pi * E :=
    mul_nonneg (div_nonneg (div_nonneg K.h_pos.le (by norm_num)) Real.pi_pos.le) hEp.le
  have : (((K.eps0 * 1e-2 : ℝ) : ℂ) * r * (t * (E : ℂ) ^ 2 - I * ((K.h / 2 / Real.pi : ℝ) : ℂ) * E)) =
      ((K.eps0 * 1e-2 * r * (t * E ^ 2) : ℝ) : ℂ) - ((K.eps0 * 1e-2 * r * (K.h / 2 / Real.pi * E) : ℝ) : ℂ) * I := by
    push_cast; ring
  rw [this, sub_im, ofReal_im, mul_I_im, ofReal_re]
  have := mul_nonneg h1 h2
  linarith

/-- C49: Gaussian oscillators with nonnegative amplitudes and central energies, any broadening. -/
theorem C49_gaussian (dawsn : ℝ → ℝ) (K : PhysConst) (rep : List (Dict ℝ)) (lbda : ℝ) (hl : 0 < lbda)
    (h : ∀ c ∈ rep, NonnegAt c "A" ∧ NonnegAt c "E") (v : ℂ) (hv : gaussian dawsn K rep lbda = some v) : 0 ≤ v.im := by
  unfold gaussian at hv
  simp only [Option.bind_eq_bind, Option.bind_eq_some_iff] at hv
  obtain ⟨E, hE, ht⟩ := hv
  have hEp := energy_pos K hl hE
  refine sumN_im_nonneg ?_ ht
  intro x hx y hxy
  obtain ⟨c, hc, rfl⟩ := List.mem_map.1 hx
  obtain ⟨hA, hE0⟩ := h c hc
  simp only [gaussianTerm, Option.bind_eq_bind, Option.bind_eq_some_iff, Option.some.injEq] at hxy
  obtain ⟨A, hA', E0, hE0', s, -, p, hp, q, hq, rfl⟩ := hxy
  obtain ⟨hs, rfl⟩ := divN_some hp
  obtain ⟨-, rfl⟩ := divN_some hq
  have h0 := hE0 E0 hE0'
  have hle : Real.exp (-(2 * √(Real.log 2) * (E + E0) / s) ^ 2) ≤ Real.exp (-(2 * √(Real.log 2) * (E - E0) / s) ^ 2) := by
    apply Real.exp_le_exp.2
    have h4 : 0 ≤ 4 * (2 * √(Real.log 2) / s) ^ 2 * (E * E0) := by positivity
    have : (2 * √(Real.log 2) * (E + E0) / s) ^ 2 - (2 * √(Real.log 2) * (E - E0) / s) ^ 2 =
        4 * (2 * √(Real.log 2) / s) ^ 2 * (E * E0) := by ring
    linarith
  have := mul_le_mul_of_nonneg_left hle (hA A hA')
  simp only [add_im, ofReal_im, zero_add, mul_im, I_re, I_im, ofReal_re, zero_mul, one_mul]
  linarith

/-! ## Tauc-Lorentz -/

lemma tauc_alpha {Ei Ci : ℝ} (hEi : 0 < Ei) (hCi : 0 < Ci) (hu : Ci < 2 * Ei) :
    ∃ a : ℝ, 0 < a ∧ a ^ 2 = 4 * Ei ^ 2 - Ci ^ 2 ∧ Complex.sqrt ((4 * Ei ^ 2 - Ci ^ 2 : ℝ) : ℂ) = (a : ℂ) := by
  have h : 0 < 4 * Ei ^ 2 - Ci ^ 2 := by nlinarith
  exact ⟨√(4 * Ei ^ 2 - Ci ^ 2), Real.sqrt_pos.2 h, Real.sq_sqrt h.le, csqrt_ofReal h.le⟩

lemma tauc_zeta (E Ei Ci : ℝ) :
    (E ^ 2 - (Ei ^ 2 - Ci ^ 2 / 2)) ^ 2 + (4 * Ei ^ 2 - Ci ^ 2) * Ci ^ 2 / 4 = (E ^ 2 - Ei ^ 2) ^ 2 + Ci ^ 2 * E ^ 2 := by
  ring

/-- Below critical damping the function `eps1` is defined at every energy except the gap, and real. -/
lemma taucEps1_real (E Eg Ai Ei Ci : ℝ) (hE : 0 < E) (hEg : 0 ≤ Eg) (hEi : 0 < Ei) (hCi : 0 < Ci) (hu : Ci < 2 * Ei)
    (hne : E ≠ Eg) : ∃ r : ℝ, taucEps1 E Eg Ai Ei Ci = some (r : ℂ) := by
  obtain ⟨a, ha, ha2, hal⟩ := tauc_alpha hEi hCi hu
  have hz : 0 < (E ^ 2 - (Ei ^ 2 - Ci ^ 2 / 2)) ^ 2 + a ^ 2 * Ci ^ 2 / 4 := by positivity
  have hden : 0 < Ei ^ 2 + Eg ^ 2 - a * Eg := by nlinarith [sq_nonneg (Ei - Eg), sq_nonneg (a - 2 * Eg), sq_nonneg (a - Eg)]
  have hnum : 0 < Ei ^ 2 + Eg ^ 2 + a * Eg := by positivity
  have hroot : 0 < √((Ei ^ 2 - Eg ^ 2) ^ 2 + Eg ^ 2 * Ci ^ 2) := by
    apply Real.sqrt_pos.2
    rcases eq_or_lt_of_le hEg with h | h
    · subst h
      have : 0 < (Ei ^ 2) ^ 2 := by positivity
      simpa using this
    · positivity
  have habs : 0 < |E - Eg| := abs_pos.2 (sub_ne_zero.2 hne)
  have hsum : 0 < E + Eg := by linarith
  unfold taucEps1
  simp only [hal, csqrt_sq]
  rw [if_neg]
  · have hlog : Complex.log (((Ei : ℂ) ^ 2 + (Eg : ℂ) ^ 2 + a * Eg) / ((Ei : ℂ) ^ 2 + (Eg : ℂ) ^ 2 - a * Eg)) =
        (Real.log ((Ei ^ 2 + Eg ^ 2 + a * Eg) / (Ei ^ 2 + Eg ^ 2 - a * Eg)) : ℝ) := by
      rw [Complex.ofReal_log (div_pos hnum hden).le]
      push_cast
      rfl
    have h1 : Complex.arctan ((2 * (Eg : ℂ) + a) / Ci) = (Real.arctan ((2 * Eg + a) / Ci) : ℝ) := by
      rw [Complex.ofReal_arctan]; push_cast; rfl
    have h2 : Complex.arctan (((a : ℂ) - 2 * Eg) / Ci) = (Real.arctan ((a - 2 * Eg) / Ci) : ℝ) := by
      rw [Complex.ofReal_arctan]; push_cast; rfl
    have h3 : Complex.arctan (2 / (a : ℂ) / Ci * (((Ei ^ 2 - Ci ^ 2 / 2 : ℝ) : ℂ) - (Eg : ℂ) ^ 2)) =
        (Real.arctan (2 / a / Ci * (Ei ^ 2 - Ci ^ 2 / 2 - Eg ^ 2)) : ℝ) := by
      rw [Complex.ofReal_arctan]; push_cast; rfl
    rw [hlog, h1, h2, h3]
    generalize Real.log _ = L1
    generalize Real.arctan _ = A1
    generalize Real.arctan _ = A2
    generalize Real.arctan _ = A3
    generalize Real.log _ = L2
    generalize Real.log _ = L3
    refine ⟨_, congrArg some (Complex.conj_eq_iff_re.1 ?_).symm⟩
    simp [Complex.conj_ofNat]
  · rintro (h | h | h | h | h | h | h | h | h)
    · have h' : (((E ^ 2 - (Ei ^ 2 - Ci ^ 2 / 2)) ^ 2 + a ^ 2 * Ci ^ 2 / 4 : ℝ) : ℂ) = 0 := by
        rw [← h]; push_cast; ring
      exact hz.ne' (by exact_mod_cast h')
    · exact ha.ne' (by exact_mod_cast h)
    · exact hEi.ne' h
    · exact hCi.ne' h
    · exact hE.ne' h
    · exact hden.ne' (by exact_mod_cast h)
    · exact hroot.ne' h
    · exact absurd (div_pos habs hsum) (not_lt.2 h)
    · exact absurd (mul_pos habs hsum) (not_lt.2 h)

/-- On the imaginary axis above `i` the arctangent has real part `π/2`. -/
lemma arctan_I_mul {y : ℝ} (hy : 1 < y) :
    Complex.arctan (I * y) = (Real.pi / 2 : ℝ) - I / 2 * (Real.log ((y - 1) / (1 + y)) : ℝ) := by
  have hu : ((1 : ℂ) + I * y * I) / (1 - I * y * I) = ((-((y - 1) / (1 + y)) : ℝ) : ℂ) := by
    have : (I * y * I : ℂ) = -y := by ring_nf; rw [I_sq]; ring
    rw [this]; push_cast; ring
  have hp : 0 < (y - 1) / (1 + y) := div_pos (by linarith) (by linarith)
  have hlog : Complex.log ((-((y - 1) / (1 + y)) : ℝ) : ℂ) = (Real.log ((y - 1) / (1 + y)) : ℝ) + Real.pi * I := by
    rw [show ((-((y - 1) / (1 + y)) : ℝ) : ℂ) = (((y - 1) / (1 + y) : ℝ) : ℂ) * (-1) by push_cast; ring,
      Complex.log_ofReal_mul hp (by norm_num), Complex.log_neg_one]
  rw [Complex.arctan, hu, hlog]
  push_cast
  ring_nf
  rw [I_sq]
  ring

/-- Reflection of the arctangent in the right half plane. -/
lemma arctan_neg_conj {w : ℂ} (hw : 0 < w.re) :
    Complex.arctan (-(starRingEnd ℂ) w) = -(starRingEnd ℂ) (Complex.arctan w) := by
  have hne : (1 : ℂ) - w * I ≠ 0 := by
    intro h
    have := congrArg Complex.im h
    simp at this
    exact hw.ne' this
  have hu : ((1 : ℂ) + -(starRingEnd ℂ) w * I) / (1 - -(starRingEnd ℂ) w * I) =
      (starRingEnd ℂ) ((1 + w * I) / (1 - w * I)) := by
    simp
  have harg : ((1 + w * I) / (1 - w * I)).arg ≠ Real.pi := by
    intro h
    have him := (Complex.arg_eq_pi_iff.1 h).2
    rw [Complex.div_im] at him
    have hpos : 0 < normSq (1 - w * I) := normSq_pos.2 hne
    field_simp at him
    simp at him
    nlinarith
  rw [Complex.arctan, hu, Complex.log_conj _ harg, Complex.arctan]
  simp [Complex.conj_ofNat]
  ring

/-- Above critical damping (`Ci > 2 Ei`) the function `eps1` of the code, which is meant to be the real part, has this imaginary
part. -/
lemma taucEps1_overdamped (E Eg Ai Ei Ci : ℝ) (hE : 0 < E) (hEg : 0 < Eg) (hEi : 0 < Ei) (ho : 2 * Ei < Ci) (hne : E ≠ Eg) :
    ∃ v, taucEps1 E Eg Ai Ei Ci = some v ∧
      v.im = -(4 * Ai * Ei * Eg * (E ^ 2 - Ei ^ 2 + Ci ^ 2 / 2)) /
        (√(Ci ^ 2 - 4 * Ei ^ 2) * ((E ^ 2 - Ei ^ 2) ^ 2 + Ci ^ 2 * E ^ 2)) := by
  have hCi : 0 < Ci := by linarith
  have hb2 : 0 < Ci ^ 2 - 4 * Ei ^ 2 := by nlinarith
  obtain ⟨b, hb, hbs, hbe⟩ : ∃ b : ℝ, 0 < b ∧ b ^ 2 = Ci ^ 2 - 4 * Ei ^ 2 ∧ b = √(Ci ^ 2 - 4 * Ei ^ 2) :=
    ⟨_, Real.sqrt_pos.2 hb2, Real.sq_sqrt hb2.le, rfl⟩
  rw [← hbe]
  have hal : Complex.sqrt ((4 * Ei ^ 2 - Ci ^ 2 : ℝ) : ℂ) = I * b := by
    rw [csqrt_eq_iff]
    refine ⟨?_, ?_⟩
    · exact Or.inr ⟨by simp, by simpa using hb.le⟩
    · rw [mul_pow, I_sq]
      have : (b : ℂ) ^ 2 = ((Ci ^ 2 - 4 * Ei ^ 2 : ℝ) : ℂ) := by rw [← hbs]; push_cast; ring
      rw [this]; push_cast; ring
  have hz : 0 < (E ^ 2 - Ei ^ 2) ^ 2 + Ci ^ 2 * E ^ 2 := by positivity
  have hzeta : ((E : ℂ) ^ 2 - ((Ei ^ 2 - Ci ^ 2 / 2 : ℝ) : ℂ)) ^ 2 + (I * b) ^ 2 * (Ci : ℂ) ^ 2 / 4 =
      (((E ^ 2 - Ei ^ 2) ^ 2 + Ci ^ 2 * E ^ 2 : ℝ) : ℂ) := by
    have : (b : ℂ) ^ 2 = ((Ci ^ 2 - 4 * Ei ^ 2 : ℝ) : ℂ) := by rw [← hbs]; push_cast; ring
    rw [mul_pow, I_sq, this]; push_cast; ring
  have hroot : 0 < √((Ei ^ 2 - Eg ^ 2) ^ 2 + Eg ^ 2 * Ci ^ 2) := Real.sqrt_pos.2 (by positivity)
  have habs : 0 < |E - Eg| := abs_pos.2 (sub_ne_zero.2 hne)
  have hsum : 0 < E + Eg := by linarith
  have hre : 0 < Ei ^ 2 + Eg ^ 2 := by positivity
  have hdenC : (Ei : ℂ) ^ 2 + (Eg : ℂ) ^ 2 - I * b * Eg ≠ 0 := by
    intro h
    have := congrArg Complex.re h
    simp [pow_two] at this
    nlinarith
  unfold taucEps1
  simp only [hal, csqrt_sq]
  rw [hzeta, if_neg]
  · refine ⟨_, rfl, ?_⟩
    -- the logarithm is imaginary
    obtain ⟨th, hth⟩ : ∃ th : ℝ, Complex.log (((Ei : ℂ) ^ 2 + (Eg : ℂ) ^ 2 + I * b * Eg) /
        ((Ei : ℂ) ^ 2 + (Eg : ℂ) ^ 2 - I * b * Eg)) = I * th := by
      refine ⟨(Complex.log (((Ei : ℂ) ^ 2 + (Eg : ℂ) ^ 2 + I * b * Eg) / ((Ei : ℂ) ^ 2 + (Eg : ℂ) ^ 2 - I * b * Eg))).im, ?_⟩
      apply Complex.ext
      · rw [Complex.log_re]
        have hc : (Ei : ℂ) ^ 2 + (Eg : ℂ) ^ 2 + I * b * Eg =
            (starRingEnd ℂ) ((Ei : ℂ) ^ 2 + (Eg : ℂ) ^ 2 - I * b * Eg) := by simp
        rw [norm_div, hc, RCLike.norm_conj, div_self (norm_ne_zero_iff.2 hdenC)]
        simp
      · simp
    -- the difference of arctangents is real
    obtain ⟨r, hr⟩ : ∃ r : ℝ, (Real.pi : ℂ) - Complex.arctan ((2 * Eg + I * b) / Ci) + Complex.arctan ((I * b - 2 * Eg) / Ci) =
        (r : ℂ) := by
      have hw : 0 < ((2 * (Eg : ℂ) + I * b) / Ci).re := by
        rw [Complex.div_ofReal_re]
        simp
        positivity
      have hc : (I * (b : ℂ) - 2 * Eg) / Ci = -(starRingEnd ℂ) ((2 * (Eg : ℂ) + I * b) / Ci) := by
        simp [Complex.conj_ofNat]; ring
      rw [hc, arctan_neg_conj hw]
      refine ⟨_, (Complex.conj_eq_iff_re.1 ?_).symm⟩
      simp
      ring
    -- the last arctangent sits on the branch cut
    have hy : 1 < 2 / b / Ci * (Ci ^ 2 / 2 - Ei ^ 2 + Eg ^ 2) := by
      have h1 : b * Ci < Ci ^ 2 - 2 * Ei ^ 2 + 2 * Eg ^ 2 := by
        refine lt_of_pow_lt_pow_left₀ 2 (by nlinarith) ?_
        rw [mul_pow, hbs]
        nlinarith [sq_nonneg Eg, sq_nonneg Ei, pow_pos hEi 4, mul_pos hEg hEg, mul_nonneg (sq_nonneg Eg) hb2.le,
          mul_nonneg (sq_nonneg Eg) (sq_nonneg Ei)]
      have h2 : 2 / b / Ci * (Ci ^ 2 / 2 - Ei ^ 2 + Eg ^ 2) = (Ci ^ 2 - 2 * Ei ^ 2 + 2 * Eg ^ 2) / (b * Ci) := by
        field_simp
      rw [h2, lt_div_iff₀ (mul_pos hb hCi)]
      linarith
    have hx : (2 : ℂ) / (I * b) / Ci * (((Ei ^ 2 - Ci ^ 2 / 2 : ℝ) : ℂ) - (Eg : ℂ) ^ 2) =
        I * ((2 / b / Ci * (Ci ^ 2 / 2 - Ei ^ 2 + Eg ^ 2) : ℝ) : ℂ) := by
      have hb' : (b : ℂ) ≠ 0 := by exact_mod_cast hb.ne'
      have hC' : (Ci : ℂ) ≠ 0 := by exact_mod_cast hCi.ne'
      push_cast
      field_simp
      rw [I_sq]
      ring
    rw [hth, hr, hx, arctan_I_mul hy]
    generalize Real.log ((_ - 1) / _) = L1
    generalize Real.log (|E - Eg| / (E + Eg)) = L2
    generalize Real.log _ = L3
    generalize (E ^ 2 - Ei ^ 2) ^ 2 + Ci ^ 2 * E ^ 2 = Z at hz
    generalize (Eg ^ 2 - Ei ^ 2) * E ^ 2 + Eg ^ 2 * Ci ^ 2 - Ei ^ 2 * (Ei ^ 2 + 3 * Eg ^ 2) = aL
    generalize (E ^ 2 - Ei ^ 2) * (Ei ^ 2 + Eg ^ 2) + Eg ^ 2 * Ci ^ 2 = aA
    have hb' : (b : ℂ) ≠ 0 := by exact_mod_cast hb.ne'
    have hZ' : (Z : ℂ) ≠ 0 := by exact_mod_cast hz.ne'
    have hpi' : (Real.pi : ℂ) ≠ 0 := by exact_mod_cast Real.pi_ne_zero
    have hEi' : (Ei : ℂ) ≠ 0 := by exact_mod_cast hEi.ne'
    have hE' : (E : ℂ) ≠ 0 := by exact_mod_cast hE.ne'
    have t1 : (Ai : ℂ) * Ci * aL / 2 / Real.pi / Z / (I * b) / Ei * (I * th) =
        ((Ai * Ci * aL / 2 / Real.pi / Z / b / Ei * th : ℝ) : ℂ) := by
      push_cast
      field_simp
    have t3 : 2 * (Ai : ℂ) * Ei * Eg / Real.pi / Z / (I * b) * ((E : ℂ) ^ 2 - ((Ei ^ 2 - Ci ^ 2 / 2 : ℝ) : ℂ)) *
          (Real.pi + 2 * (((Real.pi / 2 : ℝ) : ℂ) - I / 2 * (L1 : ℝ))) =
        ((-(2 * Ai * Ei * Eg / Real.pi / Z / b * (E ^ 2 - Ei ^ 2 + Ci ^ 2 / 2) * L1) : ℝ) : ℂ) +
          I * ((-(4 * Ai * Ei * Eg * (E ^ 2 - Ei ^ 2 + Ci ^ 2 / 2)) / (b * Z) : ℝ) : ℂ) := by
      push_cast
      field_simp
      ring_nf
      rw [I_sq]
      ring
    rw [t1, t3]
    generalize -(4 * Ai * Ei * Eg * (E ^ 2 - Ei ^ 2 + Ci ^ 2 / 2)) / (b * Z) = M
    generalize Ai * Ci * aL / 2 / Real.pi / Z / b / Ei * th = T1
    generalize -(2 * Ai * Ei * Eg / Real.pi / Z / b * (E ^ 2 - Ei ^ 2 + Ci ^ 2 / 2) * L1) = T3
    have hreal : ((T1 : ℂ) - (Ai : ℂ) * aA / Real.pi / Z / Ei * r + T3
        - (Ai : ℂ) * Ei * Ci * ((E : ℂ) ^ 2 + (Eg : ℂ) ^ 2) / Real.pi / Z / E * (L2 : ℝ)
        + 2 * (Ai : ℂ) * Ei * Ci * Eg / Real.pi / Z * (L3 : ℝ)).im = 0 := by
      rw [← Complex.conj_eq_iff_im]
      simp [Complex.conj_ofNat]
    simp only [add_im, sub_im, mul_im, I_re, I_im, ofReal_re, ofReal_im, zero_mul, one_mul, zero_add] at hreal ⊢
    linarith
  · rintro (h | h | h | h | h | h | h | h | h)
    · exact hz.ne' (by exact_mod_cast h)
    · have : (b : ℂ) = 0 := by simpa using h
      exact hb.ne' (by exact_mod_cast this)
    · exact hEi.ne' h
    · exact hCi.ne' h
    · exact hE.ne' h
    · exact hdenC h
    · exact hroot.ne' h
    · exact absurd (div_pos habs hsum) (not_lt.2 h)
    · exact absurd (mul_pos habs hsum) (not_lt.2 h)

lemma taucTerm_split (E Eg A E0 C : ℝ) (hE : 0 < E) (hC : 0 < C) (e1 : ℂ) (h1 : taucEps1 E Eg A E0 C = some e1) :
    taucTerm E Eg [("A", A), ("E", E0), ("C", C)] = some (I * (Spec.taucAbsorption E Eg A E0 C : ℝ) + e1) := by
  have hz : (E ^ 2 - E0 ^ 2) ^ 2 + C ^ 2 * E ^ 2 ≠ 0 := by positivity
  simp only [taucTerm, Dict.get, Option.bind_eq_bind]
  simp only [String.reduceEq, if_true, if_false, Option.bind_some, divN, hz, hE.ne', h1]
  congr 2
  unfold Spec.taucAbsorption heaviside
  rcases lt_trichotomy E Eg with h | h | h
  · rw [if_pos (by linarith), if_pos h.le]; simp
  · rw [if_neg (by linarith), if_pos (by linarith), if_pos h.le]; simp
  · rw [if_neg (by linarith), if_neg (by linarith), if_neg (by linarith)]; simp

/-- C49: Tauc-Lorentz below critical damping (`C < 2E`), any number of oscillators, at every photon energy other than the gap: the
value is defined, its imaginary part is the sum of the absorptions of the literature; it is nonnegative, zero below the gap
and positive above it. -/
theorem C49_tauc_lorentz (K : PhysConst) (Eg : ℝ) (osc : List (ℝ × ℝ × ℝ)) (lbda : ℝ) (hl : 0 < lbda) (hEg : 0 ≤ Eg)
    (hne : K.c * K.h / (lbda * 1e-9) ≠ Eg) (h : ∀ o ∈ osc, 0 ≤ o.1 ∧ 0 < o.2.1 ∧ 0 < o.2.2 ∧ o.2.2 < 2 * o.2.1) :
    ∃ v, taucLorentz K [("Eg", Eg)] (osc.map fun o => [("A", o.1), ("E", o.2.1), ("C", o.2.2)]) lbda = some v ∧
      v.im = (osc.map fun o => Spec.taucAbsorption (K.c * K.h / (lbda * 1e-9)) Eg o.1 o.2.1 o.2.2).sum ∧
      0 ≤ v.im ∧ (K.c * K.h / (lbda * 1e-9) < Eg → v.im = 0) ∧
      (Eg < K.c * K.h / (lbda * 1e-9) → (∃ o ∈ osc, 0 < o.1) → 0 < v.im) := by
  have he := energy_some K hl.ne'
  have hE := energy_pos K hl he
  generalize K.c * K.h / (lbda * 1e-9) = E at *
  have key : ∃ v, sumN ((osc.map fun o => [("A", o.1), ("E", o.2.1), ("C", o.2.2)]).map (taucTerm E Eg)) = some v ∧
      v.im = (osc.map fun o => Spec.taucAbsorption E Eg o.1 o.2.1 o.2.2).sum := by
    clear he
    induction osc with
    | nil => exact ⟨0, rfl, by simp⟩
    | cons o osc ih =>
      obtain ⟨v, hv, hvi⟩ := ih (fun o ho => h o (List.mem_cons_of_mem _ ho))
      obtain ⟨hA, hE0, hC, hu⟩ := h o (by simp)
      obtain ⟨r, hr⟩ := taucEps1_real E Eg o.1 o.2.1 o.2.2 hE hEg hE0 hC hu hne
      refine ⟨I * (Spec.taucAbsorption E Eg o.1 o.2.1 o.2.2 : ℝ) + r + v, by simp only [List.map_cons, taucTerm_split E Eg o.1 o.2.1 o.2.2 hE hC r hr, sumN, hv, Option.map_some], ?_⟩
      simp [hvi]
  obtain ⟨v, hv, hvi⟩ := key
  have hnn : ∀ o ∈ osc, 0 ≤ Spec.taucAbsorption E Eg o.1 o.2.1 o.2.2 := by
    intro o ho
    obtain ⟨hA, hE0, hC, hu⟩ := h o ho
    unfold Spec.taucAbsorption
    split_ifs with h'
    · exact le_refl _
    · positivity
  refine ⟨v, ?_, hvi, ?_, ?_, ?_⟩
  · simp only [taucLorentz, he, Option.bind_eq_bind, Option.bind_some, Dict.get, if_true, hv]
  · rw [hvi]
    apply List.sum_nonneg
    intro x hx
    obtain ⟨o, ho, rfl⟩ := List.mem_map.1 hx
    exact hnn o ho
  · intro hlt
    rw [hvi]
    apply List.sum_eq_zero
    intro x hx
    obtain ⟨o, ho, rfl⟩ := List.mem_map.1 hx
    simp [Spec.taucAbsorption, hlt.le]
  · rintro hlt ⟨o, ho, hpos⟩
    rw [hvi]
    obtain ⟨hA, hE0, hC, hu⟩ := h o ho
    have h1 : 0 < Spec.taucAbsorption E Eg o.1 o.2.1 o.2.2 := by
      unfold Spec.taucAbsorption
      rw [if_neg (by linarith)]
      have : 0 < E - Eg := by linarith
      positivity
    refine lt_of_lt_of_le h1 (List.single_le_sum ?_ _ (List.mem_map_of_mem (f := fun o : ℝ × ℝ × ℝ => Spec.taucAbsorption E Eg o.1 o.2.1 o.2.2) ho))
    intro x hx
    obtain ⟨o, ho, rfl⟩ := List.mem_map.1 hx
    exact hnn o ho

/-- C49 is false for Tauc-Lorentz above critical damping: for all positive parameters with `C > 2E` every photon energy below the
gap shows a strictly negative imaginary part (gain in the transparent region). The documented admissible range
`0 < C < 10` contains such values for every `E < 5`. -/
theorem C49_tauc_overdamped_refuted (K : PhysConst) (Eg A E0 C lbda : ℝ) (hl : 0 < lbda) (hA : 0 < A) (hE0 : 0 < E0)
    (ho : 2 * E0 < C) (hlt : K.c * K.h / (lbda * 1e-9) < Eg) :
    ∃ v, taucLorentz K [("Eg", Eg)] [[("A", A), ("E", E0), ("C", C)]] lbda = some v ∧ v.im < 0 := by
  have he := energy_some K hl.ne'
  have hE := energy_pos K hl he
  generalize K.c * K.h / (lbda * 1e-9) = E at *
  obtain ⟨e1, h1, h2⟩ := taucEps1_overdamped E Eg A E0 C hE (hE.trans hlt) hE0 ho hlt.ne
  have hC : 0 < C := by linarith
  refine ⟨I * (Spec.taucAbsorption E Eg A E0 C : ℝ) + e1 + 0, by simp only [taucLorentz, he, Option.bind_eq_bind, Option.bind_some,
    Dict.get, if_true, List.map_cons, List.map_nil, sumN, taucTerm_split E Eg A E0 C hE hC e1 h1, Option.map_some], ?_⟩
  have hb : 0 < √(C ^ 2 - 4 * E0 ^ 2) := Real.sqrt_pos.2 (by nlinarith)
  have hEg : 0 < Eg := hE.trans hlt
  have hd : 0 < E ^ 2 - E0 ^ 2 + C ^ 2 / 2 := by nlinarith [sq_nonneg E]
  have : e1.im < 0 := by
    rw [h2, neg_div]
    have : 0 < 4 * A * E0 * Eg * (E ^ 2 - E0 ^ 2 + C ^ 2 / 2) / (√(C ^ 2 - 4 * E0 ^ 2) * ((E ^ 2 - E0 ^ 2) ^ 2 + C ^ 2 * E ^ 2)) := by
      positivity
    linarith
  simpa [Spec.taucAbsorption, hlt.le] using this

/-- C49: exactly at the gap the Tauc-Lorentz model yields no number (logarithm of zero), for all parameters. -/
theorem C49_tauc_at_gap_refuted (K : PhysConst) (A E0 C lbda : ℝ) (hl : lbda ≠ 0) :
    taucLorentz K [("Eg", K.c * K.h / (lbda * 1e-9))] [[("A", A), ("E", E0), ("C", C)]] lbda = none := by
  have he := energy_some K hl
  have : ∀ E A' E' C', taucEps1 E E A' E' C' = none := by
    intro E A' E' C'
    unfold taucEps1
    simp
  simp only [taucLorentz, he, Option.bind_eq_bind, Option.bind_some, Dict.get, if_true, List.map_cons, List.map_nil, taucTerm,
    this]
  simp only [String.reduceEq, if_true, if_false, Option.bind_some, Option.bind_none]
  simp [sumN]

/-- Non-trivial cases for the Tauc-Lorentz theorems: gap 2 eV, photon energy 1 eV, one oscillator at 3 eV, broadening 1 eV
(transparent) and 7 eV (gain). -/
example : ∃ K : PhysConst, (∃ v, taucLorentz K [("Eg", 2)] [[("A", 1), ("E", 3), ("C", 1)]] 1e9 = some v ∧ v.im = 0) ∧
    ∃ v, taucLorentz K [("Eg", 2)] [[("A", 1), ("E", 3), ("C", 7)]] 1e9 = some v ∧ v.im < 0 := by
  refine ⟨⟨1, 1, 1, one_pos, one_pos, one_pos⟩, ?_, ?_⟩
  · obtain ⟨v, h1, -, -, h2, -⟩ := C49_tauc_lorentz ⟨1, 1, 1, one_pos, one_pos, one_pos⟩ 2 [(1, 3, 1)] 1e9 (by norm_num)
      (by norm_num) (by norm_num) (by intro o ho; simp only [List.mem_singleton] at ho; subst ho; norm_num)
    exact ⟨v, h1, h2 (by norm_num)⟩
  · exact C49_tauc_overdamped_refuted _ 2 1 3 7 1e9 (by norm_num) (by norm_num) (by norm_num) (by norm_num) (by norm_num)

/-- Non-trivial case for the Lorentz theorem: one damped oscillator with a strictly positive absorption. -/
example : ∃ v, lorentzLambda [[("A", 1), ("lambda_r", 1), ("gamma", 1)]] 1 = some v ∧ 0 < v.im := by
  refine ⟨1 + (1 / (-I) + 0), ?_, ?_⟩
  · simp [lorentzLambda, lorentzLambdaTerm, Dict.get, divN, sumN]
  · rw [show (1 : ℂ) / (-I) = I by field_simp; simp]; simp

/-! ## Cody-Lorentz -/

/-- C49: the imaginary part of the Cody-Lorentz model is nonnegative at every positive photon energy, for nonnegative amplitude,
resonance energy, broadening and tail energy. -/
theorem C49_cody_eps2 (s : Dict ℝ) (E : ℝ) (hE : 0 < E) (hA : NonnegAt s "A") (h0 : NonnegAt s "E0") (hg : NonnegAt s "gamma")
    (ht : NonnegAt s "Et") (v : ℝ) (hv : codyEps2 s E = some v) : 0 ≤ v := by
  unfold codyEps2 at hv
  obtain ⟨Eg, -, hv⟩ := Option.bind_eq_some_iff.1 hv
  obtain ⟨A, hA', hv⟩ := Option.bind_eq_some_iff.1 hv
  obtain ⟨Et, ht', hv⟩ := Option.bind_eq_some_iff.1 hv
  obtain ⟨g, hg', hv⟩ := Option.bind_eq_some_iff.1 hv
  obtain ⟨Ep, -, hv⟩ := Option.bind_eq_some_iff.1 hv
  obtain ⟨E0, h0', hv⟩ := Option.bind_eq_some_iff.1 hv
  obtain ⟨Eu, -, hv⟩ := Option.bind_eq_some_iff.1 hv
  obtain ⟨Gt, hGt, hv⟩ := Option.bind_eq_some_iff.1 hv
  obtain ⟨Lt, hLt, hv⟩ := Option.bind_eq_some_iff.1 hv
  obtain ⟨q, hq, hv⟩ := Option.bind_eq_some_iff.1 hv
  obtain ⟨x, -, hv⟩ := Option.bind_eq_some_iff.1 hv
  obtain ⟨G, hG, hv⟩ := Option.bind_eq_some_iff.1 hv
  obtain ⟨L, hL, hv⟩ := Option.bind_eq_some_iff.1 hv
  obtain rfl := Option.some.inj hv
  have hA := hA A hA'
  have ht := ht Et ht'
  have hg := hg g hg'
  have h0 := h0 E0 h0'
  obtain ⟨-, rfl⟩ := divN_some hGt
  obtain ⟨-, rfl⟩ := divN_some hLt
  obtain ⟨-, rfl⟩ := divN_some hq
  obtain ⟨-, rfl⟩ := divN_some hG
  obtain ⟨-, rfl⟩ := divN_some hL
  have hh : ∀ y v : ℝ, 0 ≤ v → 0 ≤ heaviside y v := by
    intro y v hv
    unfold heaviside
    split_ifs <;> first | exact le_refl _ | exact hv | norm_num
  have := hh (Et - E) 1 (by norm_num)
  have := hh (E - Et) 0 (le_refl _)
  positivity

/-- C49: the Urbach tail joins the Cody-Lorentz absorption continuously: at the transition energy both expressions have the same
value, and the code takes exactly one of them at every other energy. -/
theorem C49_cody_joins (Eg A Et gamma Ep E0 Eu E : ℝ) (hE : E ≠ 0) (hEt : Et ≠ 0) (hEu : Eu ≠ 0) (hEp : Ep ≠ 0) (hg : gamma ≠ 0) :
    let G := fun E => (E - Eg) ^ 2 / ((E - Eg) ^ 2 + Ep ^ 2)
    let L := fun E => A * E0 * gamma * E / ((E ^ 2 - E0 ^ 2) ^ 2 + gamma ^ 2 * E ^ 2)
    codyEps2 [("Eg", Eg), ("A", A), ("Et", Et), ("gamma", gamma), ("Ep", Ep), ("E0", E0), ("Eu", Eu)] E =
      some (if E ≤ Et then Et * G Et * L Et / E * Real.exp ((E - Et) / Eu) else G E * L E) ∧
    Et * G Et * L Et / Et * Real.exp ((Et - Et) / Eu) = G Et * L Et := by
  intro G L
  have hd1 : ∀ x : ℝ, (x - Eg) ^ 2 + Ep ^ 2 ≠ 0 := fun x => by positivity
  have hd2 : ∀ x : ℝ, x ≠ 0 → (x ^ 2 - E0 ^ 2) ^ 2 + gamma ^ 2 * x ^ 2 ≠ 0 := fun x hx => by positivity
  refine ⟨?_, ?_⟩
  · simp only [codyEps2, Dict.get, Option.bind_eq_bind, codyG, codyL]
    simp only [String.reduceEq, if_true, if_false, Option.bind_some, divN, hd1, hd2 E hE, hd2 Et hEt, hE, hEu]
    congr 1
    unfold heaviside
    rcases lt_trichotomy E Et with h | h | h
    · rw [if_neg (by linarith), if_neg (by linarith), if_pos (by linarith), if_pos h.le]; simp [G, L]
    · rw [if_neg (by linarith), if_pos (by linarith), if_neg (by linarith), if_pos (by linarith), if_pos h.le]; simp [G, L]
    · rw [if_pos (by linarith), if_neg (by linarith), if_neg (by linarith), if_neg (by linarith)]; simp [G, L]
  · simp
    field_simp

end PyElli
