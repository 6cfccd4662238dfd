import Verif.Props.Dispersion
import Verif.Props.Rii
import Verif.Spec.DispersionDoc
import Mathlib.Analysis.Complex.ExponentialBounds

/-!
# C84: the dispersions compute the formulas of their documentation

Parameters are given by what `get` returns for their names. Photon energy: `K.c * K.h / (lbda * 1e-9)`, see C69.
-/

namespace PyElli

open Complex Spec

/-- Photon energy in eV of a wavelength in nm. -/
noncomputable def photon (K : PhysConst) (lbda : ℝ) : ℝ := K.c * K.h / (lbda * 1e-9)

lemma photon_ne (K : PhysConst) {lbda : ℝ} (hl : lbda ≠ 0) : photon K lbda ≠ 0 :=
  div_ne_zero (mul_ne_zero K.c_pos.ne' K.h_pos.ne') (mul_ne_zero hl (by norm_num))

lemma energy_photon (K : PhysConst) {lbda : ℝ} (hl : lbda ≠ 0) : conversionWavelengthEnergy K lbda = some (photon K lbda) := energy_some K hl

lemma divN_ne {R : Type} [DivisionRing R] {a b : R} (h : b ≠ 0) : divN a b = some (a / b) := by
  unfold divN
  rw [if_neg h]

/-- C84: `Cauchy`. -/
theorem C84_cauchy (s : Dict ℝ) (n0 n1 n2 k0 k1 k2 lbda : ℝ) (hl : lbda ≠ 0) (h0 : s.get "n0" = some n0) (h1 : s.get "n1" = some n1)
    (h2 : s.get "n2" = some n2) (h3 : s.get "k0" = some k0) (h4 : s.get "k1" = some k1) (h5 : s.get "k2" = some k2) :
    cauchyIndex s lbda = some (Doc.cauchy n0 n1 n2 k0 k1 k2 lbda) := by
  simp only [cauchyIndex, h0, h1, h2, h3, h4, h5, divN_ne (pow_ne_zero 2 hl), divN_ne (pow_ne_zero 4 hl), Option.bind_eq_bind, Option.bind_some]
  congr 1
  unfold Doc.cauchy
  push_cast
  norm_num

/-- C84: `CauchyUrbach`. -/
theorem C84_cauchy_urbach (K : PhysConst) (s : Dict ℝ) (n0 B C D Eg Eu lbda : ℝ) (hl : lbda ≠ 0) (hu : Eu ≠ 0) (h0 : s.get "n0" = some n0)
    (h1 : s.get "B" = some B) (h2 : s.get "C" = some C) (h3 : s.get "D" = some D) (h4 : s.get "Eg" = some Eg) (h5 : s.get "Eu" = some Eu) :
    cauchyUrbachIndex K s lbda = some (Doc.cauchyUrbach n0 B C D Eg Eu (photon K lbda)) := by
  simp only [cauchyUrbachIndex, h0, h1, h2, h3, h4, h5, energy_photon K hl, divN_ne hu, Option.bind_eq_bind, Option.bind_some]
  congr 1
  unfold Doc.cauchyUrbach
  push_cast
  ring

/-- C84: `CauchyCustomExponent` and `Polynomial`, for wavelengths above zero. -/
theorem C84_powers (s : Dict ℝ) (n0 lbda : ℝ) (hl : 0 < lbda) (fe : List (ℝ × ℝ)) (rep : List (Dict ℝ))
    (hr : List.Forall₂ (fun (d : Dict ℝ) p => d.get "f" = some p.1 ∧ d.get "e" = some p.2) rep fe) :
    (s.get "n0" = some n0 → cauchyCustomIndex s rep lbda = some (Doc.cauchyCustom n0 fe lbda)) ∧
    (s.get "e0" = some n0 → polynomial s rep lbda = some (Doc.polynomial n0 fe lbda)) := by
  have hsum : sumN (rep.map (powerTerm lbda)) = some ((fe.map fun p => p.1 * lbda ^ p.2).sum : ℝ) := by
    induction hr with
    | nil => simp [sumN]
    | cons h _ ih =>
      have hp : ∀ e, powN lbda e = some (lbda ^ e) := fun e => by
        unfold powN
        rw [if_neg (fun h => absurd h.1 (not_lt.2 hl.le)), if_neg (fun h => hl.ne' h.1)]
      simp only [List.map_cons, List.sum_cons]
      simp only [powerTerm, h.1, h.2, hp, Option.bind_eq_bind, Option.bind_some, sumN] at ih ⊢
      rw [ih]
      simp
  constructor
  · intro h
    simp only [cauchyCustomIndex, h, hsum, Option.bind_eq_bind, Option.bind_some]
    rfl
  · intro h
    simp only [polynomial, h, hsum, Option.bind_eq_bind, Option.bind_some]
    rfl

/-- C84: `ConstantRefractiveIndex` (ε is the square of the index) and `EpsilonInf`. -/
theorem C84_constants (s : Dict ℝ) (n lbda : ℝ) :
    (s.get "n" = some n → (constantIndex s lbda).map (· ^ 2) = some (Doc.constantIndex n)) ∧
    (s.get "eps" = some n → epsilonInf s lbda = some (Doc.epsilonInf n)) := by
  constructor
  · intro h
    simp [constantIndex, toC, h, Doc.constantIndex]
  · intro h
    simp [epsilonInf, toC, h, Doc.epsilonInf]

lemma drude_den_ne {E : ℝ} (hE : E ≠ 0) (g : ℝ) : (E : ℂ) ^ 2 - I * g * E ≠ 0 := by
  intro h
  have := congrArg Complex.re h
  simp [pow_two] at this
  exact hE this

/-- C84: `DrudeEnergy`. -/
theorem C84_drude_energy (K : PhysConst) (s : Dict ℝ) (A gamma lbda : ℝ) (hl : lbda ≠ 0) (hA : s.get "A" = some A) (hg : s.get "gamma" = some gamma) :
    drudeEnergy K s lbda = some (Doc.drudeEnergy A gamma (photon K lbda)) := by
  simp only [drudeEnergy, hA, hg, energy_photon K hl, Option.bind_eq_bind, Option.bind_some, divN_ne (drude_den_ne (photon_ne K hl) gamma)]
  rfl

/-- C84, part that holds: `DrudeResistivity` computes `ħ² / (ε₀ ρ (τ E² - i ħ E))`; the printed formula has `ħ` in the numerator and leaves
`ε₀ ρ` out of the second term. -/
theorem C84_drude_resistivity_partial (K : PhysConst) (s : Dict ℝ) (rho tau lbda : ℝ) (hl : lbda ≠ 0) (hr0 : rho ≠ 0)
    (hr : s.get "rho_opt" = some rho) (ht : s.get "tau" = some tau) :
    drudeResistivity K s lbda = some (((K.h / 2 / Real.pi : ℝ) : ℂ) ^ 2 /
      (((K.eps0 * 1e-2 : ℝ) : ℂ) * rho * (tau * (photon K lbda : ℂ) ^ 2 - I * ((K.h / 2 / Real.pi : ℝ) : ℂ) * photon K lbda))) := by
  have hE := photon_ne K hl
  have hh : K.h / 2 / Real.pi ≠ 0 := div_ne_zero (div_ne_zero K.h_pos.ne' two_ne_zero) Real.pi_pos.ne'
  simp only [drudeResistivity, hr, ht, energy_photon K hl, Option.bind_eq_bind, Option.bind_some]
  generalize hhb : K.h / 2 / Real.pi = hbar at *
  generalize photon K lbda = E at *
  rw [divN_ne]
  refine mul_ne_zero (mul_ne_zero ?_ (by exact_mod_cast hr0)) ?_
  · have := K.eps0_pos
    exact_mod_cast (by positivity : K.eps0 * 1e-2 ≠ 0)
  · intro h
    have := congrArg Complex.im h
    simp [pow_two] at this
    rcases this with h | h
    · exact hh h
    · exact hE h

/-- C84 is false for `DrudeResistivity`: whatever the constants, there is a sample for which the printed formula gives another value
(here `τ = 0`, `ε₀ρ = 1 + ħ` in the printed units). -/
theorem C84_drude_resistivity_refuted (K : PhysConst) (lbda : ℝ) (hl : lbda ≠ 0) :
    ∃ rho tau : ℝ, drudeResistivity K [("rho_opt", rho), ("tau", tau)] lbda ≠
      some (Doc.drudeResistivity (K.h / 2 / Real.pi) (K.eps0 * 1e-2) rho tau (photon K lbda)) := by
  have hE := photon_ne K hl
  have hh : 0 < K.h / 2 / Real.pi := by
    have := K.h_pos
    have := Real.pi_pos
    positivity
  have he : 0 < K.eps0 * 1e-2 := by
    have := K.eps0_pos
    positivity
  refine ⟨(1 + K.h / 2 / Real.pi) / (K.eps0 * 1e-2), 0, ?_⟩
  rw [C84_drude_resistivity_partial K _ ((1 + K.h / 2 / Real.pi) / (K.eps0 * 1e-2)) 0 lbda hl (by positivity) rfl rfl]
  unfold Doc.drudeResistivity
  generalize K.h / 2 / Real.pi = hbar at *
  generalize K.eps0 * 1e-2 = eps0 at *
  generalize photon K lbda = E at *
  intro h
  simp only [Option.some.injEq] at h
  have hEc : (E : ℂ) ≠ 0 := by exact_mod_cast hE
  have hhc : (hbar : ℂ) ≠ 0 := by exact_mod_cast hh.ne'
  have hec : (eps0 : ℂ) ≠ 0 := by exact_mod_cast he.ne'
  have h1c : (1 + hbar : ℂ) ≠ 0 := by exact_mod_cast (by positivity : (1 + hbar : ℝ) ≠ 0)
  push_cast at h
  rw [mul_div_cancel₀ _ hec] at h
  have hI := I_ne_zero
  have h1 : (0 : ℂ) * (E : ℂ) ^ 2 - I * hbar * E = -(I * hbar * E) := by ring
  have h2 : (1 + (hbar : ℂ)) * 0 * (E : ℂ) ^ 2 - I * hbar * E = -(I * hbar * E) := by ring
  rw [h1, h2] at h
  have h3 : (-(I * hbar * E) : ℂ) ≠ 0 := neg_ne_zero.2 (mul_ne_zero (mul_ne_zero hI hhc) hEc)
  rw [div_eq_div_iff (mul_ne_zero h1c h3) h3] at h
  have h4 : (hbar : ℂ) * (-(I * hbar * E)) * hbar = (hbar : ℂ) * (-(I * hbar * E)) * (1 + hbar) := by linear_combination h
  have h5 := mul_left_cancel₀ (mul_ne_zero hhc h3) h4
  have h6 : (0 : ℂ) = 1 := by linear_combination h5
  exact zero_ne_one h6

/-- C84: `Poles`. -/
theorem C84_poles (K : PhysConst) (s : Dict ℝ) (Air Auv Euv lbda : ℝ) (hl : lbda ≠ 0) (hd : Euv ^ 2 ≠ photon K lbda ^ 2)
    (h0 : s.get "A_ir" = some Air) (h1 : s.get "A_uv" = some Auv) (h2 : s.get "E_uv" = some Euv) :
    poles K s lbda = some (Doc.poles Air Auv Euv (photon K lbda)) := by
  simp only [poles, h0, h1, h2, energy_photon K hl, Option.bind_eq_bind, Option.bind_some, divN_ne (pow_ne_zero 2 (photon_ne K hl)),
    divN_ne (sub_ne_zero.2 hd)]
  congr 1
  unfold Doc.poles
  push_cast
  ring

/-- C84: `Sellmeier`. -/
theorem C84_sellmeier (lbda : ℝ) (ab : List (ℝ × ℝ)) (rep : List (Dict ℝ)) (hd : ∀ p ∈ ab, (lbda / 1000) ^ 2 ≠ p.2)
    (hr : List.Forall₂ (fun (d : Dict ℝ) p => d.get "A" = some p.1 ∧ d.get "B" = some p.2) rep ab) :
    sellmeier rep lbda = some (Doc.sellmeier ab lbda) := by
  have hsum : sumN (rep.map (sellmeierTerm (lbda / 1e3))) =
      some ((ab.map fun p => (p.1 : ℂ) * ((lbda / 1000 : ℝ) : ℂ) ^ 2 / (((lbda / 1000 : ℝ) : ℂ) ^ 2 - p.2)).sum) := by
    induction hr with
    | nil => simp [sumN]
    | @cons d p _ _ h _ ih =>
      have hp := hd p List.mem_cons_self
      have e : (lbda / 1e3 : ℝ) = lbda / 1000 := by norm_num
      simp only [List.map_cons, List.sum_cons]
      rw [e] at ih ⊢
      simp only [sellmeierTerm, h.1, h.2, divN_ne (sub_ne_zero.2 hp), Option.bind_eq_bind, Option.bind_some, toC, Option.pure_def, Option.map_some, sumN] at ih ⊢
      rw [ih fun q hq => hd q (List.mem_cons_of_mem _ hq)]
      simp
  simp only [sellmeier, hsum, Option.bind_eq_bind, Option.bind_some]
  rfl

/-- C84: `SellmeierCustomExponent`, for wavelengths above zero and `B` not negative (a real base). -/
theorem C84_sellmeier_custom (lbda : ℝ) (hl : 0 < lbda) (ab : List (ℝ × ℝ × ℝ × ℝ)) (rep : List (Dict ℝ))
    (hd : ∀ p ∈ ab, 0 ≤ p.2.2.1 ∧ (p.2.2.1 = 0 → 0 ≤ p.2.2.2) ∧ (lbda / 1000) ^ 2 ≠ p.2.2.1 ^ p.2.2.2)
    (hr : List.Forall₂ (fun (d : Dict ℝ) p => d.get "A" = some p.1 ∧ d.get "e_A" = some p.2.1 ∧ d.get "B" = some p.2.2.1 ∧
      d.get "e_B" = some p.2.2.2) rep ab) :
    sellmeierCustom rep lbda = some (Doc.sellmeierCustom ab lbda) := by
  have e : (lbda / 1e3 : ℝ) = lbda / 1000 := by norm_num
  have hl' : 0 < lbda / 1000 := by positivity
  unfold sellmeierCustom Doc.sellmeierCustom
  rw [e]
  induction hr with
  | nil => simp [sumN]
  | @cons d p _ _ h _ ih =>
    obtain ⟨p1, p2, p3⟩ := hd p List.mem_cons_self
    have hp : powN (lbda / 1000) p.2.1 = some ((lbda / 1000) ^ p.2.1) := by
      unfold powN
      rw [if_neg (fun h => absurd h.1 (not_lt.2 hl'.le)), if_neg (fun h => hl'.ne' h.1)]
    have hq : powN p.2.2.1 p.2.2.2 = some (p.2.2.1 ^ p.2.2.2) := by
      unfold powN
      rw [if_neg (fun h => absurd h.1 (not_lt.2 p1)), if_neg (fun h => absurd h.2 (not_lt.2 (p2 h.1)))]
    simp only [List.map_cons, List.sum_cons]
    simp only [sellmeierCustomTerm, h.1, h.2.1, h.2.2.1, h.2.2.2, hp, hq, divN_ne (sub_ne_zero.2 p3), Option.bind_eq_bind, Option.bind_some, toC,
      Option.pure_def, Option.map_some, sumN] at ih ⊢
    rw [ih fun q hq => hd q (List.mem_cons_of_mem _ hq)]
    simp

/-- C84, part that holds for `LorentzEnergy`: the printed formula with the opposite sign of the sum. -/
theorem C84_lorentz_energy_partial (K : PhysConst) (lbda : ℝ) (hl : lbda ≠ 0) (osc : List (ℝ × ℝ × ℝ)) (rep : List (Dict ℝ))
    (hd : ∀ o ∈ osc, o.2.2 ≠ 0 ∨ o.2.1 ^ 2 ≠ photon K lbda ^ 2)
    (hr : List.Forall₂ (fun (d : Dict ℝ) p => d.get "A" = some p.1 ∧ d.get "E" = some p.2.1 ∧ d.get "gamma" = some p.2.2) rep osc) :
    lorentzEnergy K rep lbda = some (2 - Doc.lorentzEnergy osc (photon K lbda)) := by
  have hE := photon_ne K hl
  simp only [lorentzEnergy, energy_photon K hl, Option.bind_eq_bind, Option.bind_some, Doc.lorentzEnergy]
  generalize photon K lbda = E at *
  have hsum : sumN (rep.map (lorentzEnergyTerm E)) =
      some (-(osc.map fun o => (o.1 : ℂ) / ((E : ℂ) ^ 2 - (o.2.1 : ℂ) ^ 2 + I * o.2.2 * E)).sum) := by
    induction hr with
    | nil => simp [sumN]
    | @cons d p _ _ h _ ih =>
      have hne : (p.2.1 : ℂ) ^ 2 - (E : ℂ) ^ 2 - I * p.2.2 * E ≠ 0 := by
        intro h0
        have h1 := congrArg Complex.re h0
        have h2 := congrArg Complex.im h0
        simp [pow_two] at h1 h2
        rcases hd p List.mem_cons_self with h3 | h3
        · rcases h2 with h2 | h2
          · exact h3 h2
          · exact hE h2
        · apply h3
          nlinarith
      simp only [List.map_cons, List.sum_cons]
      simp only [lorentzEnergyTerm, h.1, h.2.1, h.2.2, divN_ne hne, Option.bind_eq_bind, Option.bind_some, sumN] at ih ⊢
      rw [ih fun q hq => hd q (List.mem_cons_of_mem _ hq)]
      simp only [Option.map_some, Option.some.injEq]
      have hn2 : (E : ℂ) ^ 2 - (p.2.1 : ℂ) ^ 2 + I * p.2.2 * E = -((p.2.1 : ℂ) ^ 2 - (E : ℂ) ^ 2 - I * p.2.2 * E) := by ring
      rw [hn2, div_neg]
      ring
  rw [hsum]
  simp only [Option.bind_some]
  congr 1
  ring

/-- C84 is false for `LorentzEnergy`: a single oscillator of amplitude `A ≠ 0` never has the printed value. -/
theorem C84_lorentz_energy_refuted (K : PhysConst) (A E0 gamma lbda : ℝ) (hl : lbda ≠ 0) (hA : A ≠ 0) (hd : gamma ≠ 0 ∨ E0 ^ 2 ≠ photon K lbda ^ 2) :
    lorentzEnergy K [[("A", A), ("E", E0), ("gamma", gamma)]] lbda ≠ some (Doc.lorentzEnergy [(A, E0, gamma)] (photon K lbda)) := by
  have hE := photon_ne K hl
  rw [C84_lorentz_energy_partial K lbda hl [(A, E0, gamma)] _ (by simpa using hd) (.cons ⟨rfl, rfl, rfl⟩ .nil)]
  intro h
  simp only [Option.some.injEq, Doc.lorentzEnergy, List.map_cons, List.map_nil, List.sum_cons, List.sum_nil, add_zero] at h
  have h0 : (A : ℂ) / ((photon K lbda : ℂ) ^ 2 - (E0 : ℂ) ^ 2 + I * gamma * photon K lbda) = 0 := by linear_combination -h / 2
  rw [div_eq_zero_iff] at h0
  rcases h0 with h0 | h0
  · exact hA (by exact_mod_cast h0)
  · have h1 := congrArg Complex.re h0
    have h2 := congrArg Complex.im h0
    simp [pow_two] at h1 h2
    rcases hd with h3 | h3
    · rcases h2 with h2 | h2
      · exact h3 h2
      · exact hE h2
    · apply h3
      nlinarith

/-- C84, part that holds for `LorentzLambda`: the complex conjugate of the printed formula. -/
theorem C84_lorentz_lambda_partial (lbda : ℝ) (hl : lbda ≠ 0) (osc : List (ℝ × ℝ × ℝ)) (rep : List (Dict ℝ))
    (hd : ∀ o ∈ osc, o.2.2 ≠ 0 ∨ o.2.1 ^ 2 ≠ lbda ^ 2)
    (hr : List.Forall₂ (fun (d : Dict ℝ) p => d.get "A" = some p.1 ∧ d.get "lambda_r" = some p.2.1 ∧ d.get "gamma" = some p.2.2) rep osc) :
    lorentzLambda rep lbda = some ((starRingEnd ℂ) (Doc.lorentzLambda osc lbda)) := by
  simp only [lorentzLambda, Option.bind_eq_bind, Doc.lorentzLambda, map_add, map_one]
  have hsum : sumN (rep.map (lorentzLambdaTerm lbda)) =
      some ((starRingEnd ℂ) (osc.map fun o => (o.1 : ℂ) * (lbda : ℂ) ^ 2 / ((lbda : ℂ) ^ 2 - (o.2.1 : ℂ) ^ 2 + I * o.2.2 * lbda)).sum) := by
    induction hr with
    | nil => simp [sumN]
    | @cons d p _ _ h _ ih =>
      have hne : (lbda : ℂ) ^ 2 - (p.2.1 : ℂ) ^ 2 - I * p.2.2 * lbda ≠ 0 := by
        intro h0
        have h1 := congrArg Complex.re h0
        have h2 := congrArg Complex.im h0
        simp [pow_two] at h1 h2
        rcases hd p List.mem_cons_self with h3 | h3
        · rcases h2 with h2 | h2
          · exact h3 h2
          · exact hl h2
        · apply h3
          nlinarith
      simp only [List.map_cons, List.sum_cons]
      simp only [lorentzLambdaTerm, h.1, h.2.1, h.2.2, divN_ne hne, Option.bind_eq_bind, Option.bind_some, sumN] at ih ⊢
      rw [ih fun q hq => hd q (List.mem_cons_of_mem _ hq)]
      simp only [Option.map_some, Option.some.injEq, map_add, map_div₀, map_mul, map_pow, map_sub, Complex.conj_ofReal, Complex.conj_I]
      congr 2
      ring
  rw [hsum]
  simp only [Option.bind_some]

/-- C84 is false for `LorentzLambda`: a damped oscillator never has the printed value (which would amplify light). -/
theorem C84_lorentz_lambda_refuted (A r gamma lbda : ℝ) (hl : lbda ≠ 0) (hA : A ≠ 0) (hg : gamma ≠ 0) :
    lorentzLambda [[("A", A), ("lambda_r", r), ("gamma", gamma)]] lbda ≠ some (Doc.lorentzLambda [(A, r, gamma)] lbda) := by
  rw [C84_lorentz_lambda_partial lbda hl [(A, r, gamma)] _ (by simp [hg]) (.cons ⟨rfl, rfl, rfl⟩ .nil)]
  intro h
  simp only [Option.some.injEq] at h
  have him := Complex.conj_eq_iff_im.1 h
  simp only [Doc.lorentzLambda, List.map_cons, List.map_nil, List.sum_cons, List.sum_nil, add_zero, Complex.add_im, Complex.one_im, zero_add] at him
  rw [Complex.div_im] at him
  have e1 : ((A : ℂ) * (lbda : ℂ) ^ 2).im = 0 := by rw [← Complex.ofReal_pow, ← Complex.ofReal_mul]; rfl
  have e2 : ((A : ℂ) * (lbda : ℂ) ^ 2).re = A * lbda ^ 2 := by rw [← Complex.ofReal_pow, ← Complex.ofReal_mul]; rfl
  have e3 : ((lbda : ℂ) ^ 2 - (r : ℂ) ^ 2 + I * gamma * lbda).im = gamma * lbda := by simp [pow_two]
  have hns : Complex.normSq ((lbda : ℂ) ^ 2 - (r : ℂ) ^ 2 + I * gamma * lbda) ≠ 0 := by
    intro h0
    have h1 := congrArg Complex.im (Complex.normSq_eq_zero.1 h0)
    rw [e3] at h1
    exact mul_ne_zero hg hl h1
  rw [e1, e2, e3, zero_mul, zero_div, zero_sub, neg_eq_zero, div_eq_zero_iff] at him
  rcases him with h | h
  · exact mul_ne_zero (mul_ne_zero hA (pow_ne_zero 2 hl)) (mul_ne_zero hg hl) h
  · exact hns h

/-- C84, part that holds for `Gaussian`: the widths are those of the references (full width at half maximum `sigma`): at a distance of
`sigma / 2` from the centre the resonant part of the absorption has half its maximal value `A`. The printed factors `2 √(2 ln 2)` and
`4 ln 2` are not used. -/
theorem C84_gaussian_partial (dawsn : ℝ → ℝ) (K : PhysConst) (lbda : ℝ) (hl : lbda ≠ 0) (A E0 sigma : ℝ) (hs : sigma ≠ 0) :
    (∃ v, gaussian dawsn K [[("A", A), ("E", E0), ("sigma", sigma)]] lbda = some v ∧
      v.im = A * Real.exp (-(4 * Real.log 2) * ((photon K lbda - E0) / sigma) ^ 2) - A * Real.exp (-(4 * Real.log 2) * ((photon K lbda + E0) / sigma) ^ 2) ∧
      v.re = 2 * A / √Real.pi * (dawsn (2 * √(Real.log 2) * (photon K lbda + E0) / sigma) - dawsn (2 * √(Real.log 2) * (photon K lbda - E0) / sigma))) ∧
    A * Real.exp (-(4 * Real.log 2) * ((E0 + sigma / 2 - E0) / sigma) ^ 2) = A / 2 := by
  have hlog : (0 : ℝ) ≤ Real.log 2 := Real.log_nonneg (by norm_num)
  have hsq : √(Real.log 2) ^ 2 = Real.log 2 := Real.sq_sqrt hlog
  refine ⟨⟨((2 * A / √Real.pi * (dawsn (2 * √(Real.log 2) * (photon K lbda + E0) / sigma) - dawsn (2 * √(Real.log 2) * (photon K lbda - E0) / sigma)) : ℝ) : ℂ)
    + I * ((A * Real.exp (-(2 * √(Real.log 2) * (photon K lbda - E0) / sigma) ^ 2) - A * Real.exp (-(2 * √(Real.log 2) * (photon K lbda + E0) / sigma) ^ 2) : ℝ) : ℂ),
    ?_, ?_, ?_⟩, ?_⟩
  · simp [gaussian, energy_photon K hl, gaussianTerm, Dict.get, divN_ne hs, sumN]
  · generalize photon K lbda = E
    simp only [Complex.add_im, Complex.ofReal_im, Complex.mul_im, Complex.I_re, Complex.I_im, Complex.ofReal_re, zero_mul, one_mul, zero_add]
    have h1 : -(2 * √(Real.log 2) * (E - E0) / sigma) ^ 2 = -(4 * Real.log 2) * ((E - E0) / sigma) ^ 2 := by
      rw [div_pow, mul_pow, mul_pow, hsq]; ring
    have h2 : -(2 * √(Real.log 2) * (E + E0) / sigma) ^ 2 = -(4 * Real.log 2) * ((E + E0) / sigma) ^ 2 := by
      rw [div_pow, mul_pow, mul_pow, hsq]; ring
    simp [h1, h2]
  · simp only [Complex.add_re, Complex.ofReal_re, Complex.mul_re, Complex.I_re, Complex.I_im, Complex.ofReal_im]
    ring
  · have h1 : (E0 + sigma / 2 - E0) / sigma = 1 / 2 := by field_simp; ring
    rw [h1, show -(4 * Real.log 2) * (1 / 2) ^ 2 = -Real.log 2 by ring, Real.exp_neg, Real.exp_log (by norm_num)]
    ring

/-- C84 is false for `Gaussian`: at its centre no oscillator has the printed absorption. -/
theorem C84_gaussian_refuted (dawsn : ℝ → ℝ) (K : PhysConst) (lbda : ℝ) (hl : lbda ≠ 0) (A sigma : ℝ) (hA : A ≠ 0) (hs : sigma ≠ 0) :
    gaussian dawsn K [[("A", A), ("E", photon K lbda), ("sigma", sigma)]] lbda ≠
      some (Doc.gaussian dawsn [(A, photon K lbda, sigma)] (photon K lbda)) := by
  obtain ⟨⟨v, hv, him, -⟩, -⟩ := C84_gaussian_partial dawsn K lbda hl A (photon K lbda) sigma hs
  rw [hv]
  intro h
  simp only [Option.some.injEq] at h
  have h1 := congrArg Complex.im h
  rw [him] at h1
  have hE := photon_ne K hl
  generalize photon K lbda = E at *
  simp only [Doc.gaussian, List.map_cons, List.map_nil, List.sum_cons, List.sum_nil, add_zero, Complex.add_im, Complex.ofReal_im, Complex.mul_im,
    Complex.I_re, Complex.I_im, Complex.ofReal_re, zero_mul, one_mul, zero_add, sub_self, zero_div, mul_zero] at h1
  have hlog : (0.6931471803 : ℝ) < Real.log 2 := Real.log_two_gt_d9
  have h4 : -(4 * Real.log 2) * ((E + E) / sigma) ^ 2 = -(4 * Real.log 2 * (E + E) / sigma) ^ 2 := by
    norm_num at h1
    rcases h1 with h1 | h1
    · linarith
    · exact absurd h1 hA
  have h5 : ((E + E) / sigma) ^ 2 * (4 * Real.log 2 * (4 * Real.log 2 - 1)) = 0 := by
    have : (4 * Real.log 2 * (E + E) / sigma) ^ 2 = (4 * Real.log 2) ^ 2 * ((E + E) / sigma) ^ 2 := by ring
    rw [this] at h4
    linear_combination h4
  have h6 : (E + E) / sigma ≠ 0 := div_ne_zero (by intro h0; apply hE; linarith) hs
  rcases mul_eq_zero.1 h5 with h7 | h7
  · exact h6 (pow_eq_zero_iff (two_ne_zero) |>.1 h7)
  · have : 0 < 4 * Real.log 2 * (4 * Real.log 2 - 1) := by
      apply mul_pos <;> linarith
    linarith

/-- Parameters as `get` finds them in the default template of `Cauchy`; the wavelengths and energies that satisfy the hypotheses. -/
example : Dict.get ([("n0", 1.5), ("n1", 0), ("n2", 0), ("k0", 0), ("k1", 0), ("k2", 0)] : Dict ℝ) "n2" = some 0 ∧
    ∀ K : PhysConst, photon K 500 ≠ 0 := ⟨by simp [Dict.get], fun K => photon_ne K (by norm_num)⟩

example : List.Forall₂ (fun (d : Dict ℝ) (p : ℝ × ℝ) => d.get "A" = some p.1 ∧ d.get "B" = some p.2) [[("A", (1.04 : ℝ)), ("B", 0.006)], [("B", 0.02), ("A", 0.23)]]
    [((1.04 : ℝ), (0.006 : ℝ)), (0.23, 0.02)] ∧ ∀ p ∈ [((1.04 : ℝ), (0.006 : ℝ)), (0.23, 0.02)], ((500 : ℝ) / 1000) ^ 2 ≠ p.2 := by
  refine ⟨.cons ⟨by simp [Dict.get], by simp [Dict.get]⟩ (.cons ⟨by simp [Dict.get], by simp [Dict.get]⟩ .nil), ?_⟩
  intro p hp
  simp only [List.mem_cons, List.not_mem_nil, or_false] at hp
  rcases hp with rfl | rfl <;> norm_num

end PyElli
