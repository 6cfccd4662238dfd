import Verif.Model.Dispersion
import Verif.Props.Params
import Mathlib.Tactic

/-! # Dispersion models: order of oscillators (C47), equivalent parametrisations (C48), passivity (C49) -/

namespace PyElli

open Complex

/-! ## Sums -/

lemma sumN_eq_some {R : Type} [AddMonoid R] (l : List (Option R)) (v : R) :
    sumN l = some v ↔ ∃ xs : List R, l = xs.map some ∧ xs.sum = v := by
  induction l generalizing v with
  | nil =>
    simp only [sumN, Option.some.injEq]
    constructor
    · rintro rfl; exact ⟨[], rfl, rfl⟩
    · rintro ⟨xs, h, rfl⟩
      rw [eq_comm, List.map_eq_nil_iff] at h
      subst h; rfl
  | cons a l ih =>
    cases a with
    | none =>
      simp only [sumN, reduceCtorEq, false_iff, not_exists, not_and]
      rintro xs h
      cases xs <;> simp at h
    | some a =>
      simp only [sumN, Option.map_eq_some_iff]
      constructor
      · rintro ⟨s, hs, rfl⟩
        obtain ⟨xs, rfl, rfl⟩ := (ih s).1 hs
        exact ⟨a :: xs, rfl, rfl⟩
      · rintro ⟨xs, h, rfl⟩
        cases xs with
        | nil => simp at h
        | cons x xs =>
          simp only [List.map_cons, List.cons.injEq, Option.some.injEq] at h
          obtain ⟨rfl, h⟩ := h
          exact ⟨xs.sum, (ih _).2 ⟨xs, h, rfl⟩, rfl⟩

/-- Python's `sum` does not depend on the order. -/
lemma sumN_perm {R : Type} [AddCommMonoid R] {l l' : List (Option R)} (h : l.Perm l') : sumN l = sumN l' := by
  induction h with
  | nil => rfl
  | cons x _ ih => cases x <;> simp [sumN, ih]
  | swap x y l =>
    cases x <;> cases y <;> simp only [sumN, Option.map_none, Option.map_map]
    congr 1
    funext s
    simp only [Function.comp]
    abel
  | trans _ _ h1 h2 => exact h1.trans h2

lemma sumN_mem {R : Type} [AddMonoid R] {l : List (Option R)} {v : R} (h : sumN l = some v) :
    ∀ x ∈ l, ∃ y, x = some y := by
  obtain ⟨xs, rfl, -⟩ := (sumN_eq_some l v).1 h
  intro x hx
  obtain ⟨y, -, rfl⟩ := List.mem_map.1 hx
  exact ⟨y, rfl⟩

lemma sumN_im_nonneg {l : List (Option ℂ)} (hl : ∀ x ∈ l, ∀ y, x = some y → 0 ≤ y.im) {v : ℂ} (h : sumN l = some v) :
    0 ≤ v.im := by
  induction l generalizing v with
  | nil => simp only [sumN, Option.some.injEq] at h; subst h; simp
  | cons a l ih =>
    cases a with
    | none => simp [sumN] at h
    | some a =>
      simp only [sumN, Option.map_eq_some_iff] at h
      obtain ⟨s, hs, rfl⟩ := h
      have h1 := ih (fun x hx => hl x (List.mem_cons_of_mem _ hx)) hs
      have h2 := hl (some a) (by simp) a rfl
      simp only [add_im]
      linarith

/-! ## The order of oscillators does not matter (C47) -/

/-- The dispersions with repeated parameters. -/
inductive RepModel
  | cauchyCustom | polynomial | sellmeier | sellmeierCustom | lorentzEnergy | lorentzLambda | gaussian | taucLorentz

/-- What each of them computes: refractive index for `cauchyCustom`, dielectric function for the others. -/
noncomputable def RepModel.value (dawsn : ℝ → ℝ) (K : PhysConst) : RepModel → Dict ℝ → List (Dict ℝ) → ℝ → Option ℂ
  | .cauchyCustom, s, rep, l => cauchyCustomIndex s rep l
  | .polynomial, s, rep, l => PyElli.polynomial s rep l
  | .sellmeier, _, rep, l => PyElli.sellmeier rep l
  | .sellmeierCustom, _, rep, l => PyElli.sellmeierCustom rep l
  | .lorentzEnergy, _, rep, l => PyElli.lorentzEnergy K rep l
  | .lorentzLambda, _, rep, l => PyElli.lorentzLambda rep l
  | .gaussian, _, rep, l => PyElli.gaussian dawsn K rep l
  | .taucLorentz, s, rep, l => PyElli.taucLorentz K s rep l

/-- C47: two objects whose oscillators are the same up to order have the same value at every wavelength. -/
theorem C47_order (dawsn : ℝ → ℝ) (K : PhysConst) (k : RepModel) (s : Dict ℝ) (rep rep' : List (Dict ℝ))
    (h : rep.Perm rep') (lbda : ℝ) : k.value dawsn K s rep lbda = k.value dawsn K s rep' lbda := by
  cases k <;> simp only [RepModel.value, cauchyCustomIndex, polynomial, sellmeier, sellmeierCustom, lorentzEnergy,
    lorentzLambda, gaussian, taucLorentz, sumN_perm (h.map _)]

/-- C47: two histories of `add` calls that are permutations of each other give objects with the same value at every wavelength,
whatever calls among them fail. -/
theorem C47_history_order (dawsn : ℝ → ℝ) (K : PhysConst) (k : RepModel) (s : Dict ℝ) (t : ℕ) (template : Dict ℝ)
    (hn : template.keys.Nodup) (st : RepState ℝ) (ht : st.mem[t]? = some template) (hr : ∀ p ∈ st.rep, p < st.mem.length)
    (calls calls' : List (AddCall ℝ)) (hp : calls.Perm calls') (hc : ∀ c ∈ calls, c.2.keys.Nodup) (lbda : ℝ) :
    k.value dawsn K s (addRun t st calls).params lbda = k.value dawsn K s (addRun t st calls').params lbda := by
  rw [(C47_add_history t template hn calls st ht hr hc).1,
    (C47_add_history t template hn calls' st ht hr (fun c hc' => hc c (hp.mem_iff.2 hc'))).1]
  exact C47_order _ _ _ _ _ _ (((hp.filter _).map _).append_left _) _

/-- Non-trivial case: two Sellmeier oscillators in both orders, value 1 + 4/3 + 4·2/(4-2). -/
example : sellmeier [[("A", 1), ("B", 1)], [("A", 2), ("B", 2)]] 2000 = some (1 + ((4 / 3 : ℝ) + ((4 : ℝ) + 0))) := by
  norm_num [sellmeier, sumN, sellmeierTerm, Dict.get, divN, toC]

/-! ## Equivalent parametrisations (C48) -/

lemma divN_mul_left {R : Type} [Field R] (k a b : R) (hk : k ≠ 0) : divN (k * a) (k * b) = divN a b := by
  unfold divN
  by_cases hb : b = 0
  · simp [hb]
  · simp [hb, hk, mul_div_mul_left]

lemma divN_scale {R : Type} [Field R] {a b a' b' : R} (k : R) (hk : k ≠ 0) (ha : a' = k * a) (hb : b' = k * b) :
    divN a' b' = divN a b := by rw [ha, hb, divN_mul_left k a b hk]

lemma toC_divN (a b : ℝ) : toC (divN a b) = divN (a : ℂ) (b : ℂ) := by
  unfold toC divN
  by_cases hb : b = 0
  · simp [hb]
  · have : (b : ℂ) ≠ 0 := by exact_mod_cast hb
    simp [hb]

/-- C48: `DrudeResistivity` is `DrudeEnergy` with amplitude `ħ²/(ε₀ρτ)` and broadening `ħ/τ`. -/
theorem C48_drude (K : PhysConst) (rho tau lbda : ℝ) (hr : rho ≠ 0) (ht : tau ≠ 0) :
    drudeResistivity K [("rho_opt", rho), ("tau", tau)] lbda =
      drudeEnergy K [("A", (K.h / (2 * Real.pi)) ^ 2 / (K.eps0 * 1e-2 * rho * tau)),
        ("gamma", K.h / (2 * Real.pi) / tau)] lbda := by
  unfold drudeResistivity drudeEnergy
  cases conversionWavelengthEnergy K lbda with
  | none => rfl
  | some E =>
    have h0 : K.eps0 ≠ 0 := K.eps0_pos.ne'
    have hpi : Real.pi ≠ 0 := Real.pi_ne_zero
    simp [Dict.get]
    have h0' : (K.eps0 : ℂ) ≠ 0 := by exact_mod_cast h0
    have hpi' : (Real.pi : ℂ) ≠ 0 := by exact_mod_cast hpi
    have hr' : (rho : ℂ) ≠ 0 := by exact_mod_cast hr
    have ht' : (tau : ℂ) ≠ 0 := by exact_mod_cast ht
    apply divN_scale ((K.eps0 * 1e-2 * rho * tau : ℝ) : ℂ)
    · norm_cast; exact mul_ne_zero (mul_ne_zero (mul_ne_zero h0 (by norm_num)) hr) ht
    · push_cast; field_simp
    · push_cast; field_simp

/-- C48: a list of `LorentzLambda` oscillators equals the list of `LorentzEnergy` oscillators with resonance energy
`E_r = ch/λ_r`, amplitude `A·E_r²` and broadening `γ·ch/λ_r²`. -/
theorem C48_lorentz (K : PhysConst) (osc : List (ℝ × ℝ × ℝ)) (lbda : ℝ) (hl : lbda ≠ 0) (hosc : ∀ o ∈ osc, o.2.1 ≠ 0) :
    lorentzLambda (osc.map fun o => [("A", o.1), ("lambda_r", o.2.1), ("gamma", o.2.2)]) lbda =
      lorentzEnergy K (osc.map fun o =>
        [("A", o.1 * (K.c * K.h / (o.2.1 * 1e-9)) ^ 2), ("E", K.c * K.h / (o.2.1 * 1e-9)),
          ("gamma", o.2.2 * (K.c * K.h / 1e-9) / o.2.1 ^ 2)]) lbda := by
  have hk : K.c * K.h ≠ 0 := mul_ne_zero K.c_pos.ne' K.h_pos.ne'
  have he : conversionWavelengthEnergy K lbda = some (K.c * K.h / (lbda * 1e-9)) := by
    unfold conversionWavelengthEnergy divN
    rw [if_neg (mul_ne_zero hl (by norm_num))]
  unfold lorentzLambda lorentzEnergy
  rw [he]
  simp only [List.map_map, Option.bind_eq_bind, Option.bind_some]
  congr 2
  apply List.map_congr_left
  intro o ho
  obtain ⟨A, r, g⟩ := o
  have hr : r ≠ 0 := hosc _ ho
  simp [Function.comp, lorentzLambdaTerm, lorentzEnergyTerm, Dict.get]
  have hc' : (K.c : ℂ) ≠ 0 := by exact_mod_cast K.c_pos.ne'
  have hh' : (K.h : ℂ) ≠ 0 := by exact_mod_cast K.h_pos.ne'
  have hr' : (r : ℂ) ≠ 0 := by exact_mod_cast hr
  have hl' : (lbda : ℂ) ≠ 0 := by exact_mod_cast hl
  apply divN_scale ((lbda : ℂ) ^ 2 * (r : ℂ) ^ 2 * 1e-9 ^ 2 / (K.c ^ 2 * K.h ^ 2))
  · field_simp; norm_num
    exact ⟨⟨hl, hr⟩, K.c_pos.ne', K.h_pos.ne'⟩
  · field_simp
  · field_simp

lemma energy_ne (K : PhysConst) {lbda E : ℝ} (h : conversionWavelengthEnergy K lbda = some E) : E ≠ 0 := by
  unfold conversionWavelengthEnergy divN at h
  split_ifs at h with h0
  simp only [Option.some.injEq] at h
  rw [← h]
  exact div_ne_zero (mul_ne_zero K.c_pos.ne' K.h_pos.ne') h0

lemma energy_pos (K : PhysConst) {lbda E : ℝ} (hl : 0 < lbda) (h : conversionWavelengthEnergy K lbda = some E) : 0 < E := by
  unfold conversionWavelengthEnergy divN at h
  split_ifs at h with h0
  simp only [Option.some.injEq] at h
  rw [← h]
  exact div_pos (mul_pos K.c_pos K.h_pos) (by positivity)

lemma energy_some (K : PhysConst) {lbda : ℝ} (hl : lbda ≠ 0) :
    conversionWavelengthEnergy K lbda = some (K.c * K.h / (lbda * 1e-9)) := by
  unfold conversionWavelengthEnergy divN
  rw [if_neg (mul_ne_zero hl (by norm_num))]

/-- C48: `Sellmeier` is `LorentzLambda` without damping, with resonance wavelength `1000·√B`. -/
theorem C48_sellmeier_lorentz (osc : List (ℝ × ℝ)) (lbda : ℝ) (hB : ∀ o ∈ osc, 0 ≤ o.2) :
    sellmeier (osc.map fun o => [("A", o.1), ("B", o.2)]) lbda =
      lorentzLambda (osc.map fun o => [("A", o.1), ("lambda_r", 1000 * √o.2), ("gamma", 0)]) lbda := by
  unfold sellmeier lorentzLambda
  simp only [List.map_map, Option.bind_eq_bind]
  congr 2
  apply List.map_congr_left
  intro o ho
  obtain ⟨A, B⟩ := o
  have hB' : 0 ≤ B := hB _ ho
  have hs : ((√B : ℝ) : ℂ) ^ 2 = B := by exact_mod_cast Real.sq_sqrt hB'
  simp [Function.comp, lorentzLambdaTerm, sellmeierTerm, Dict.get, toC_divN]
  symm
  apply divN_scale (1e6 : ℂ) (by norm_num)
  · push_cast; ring
  · push_cast; rw [mul_pow, hs]; ring

/-- C48: `SellmeierCustomExponent` with exponents 2 and 1 plus one is `Sellmeier`. -/
theorem C48_sellmeier_custom (osc : List (ℝ × ℝ)) (lbda : ℝ) :
    (sellmeierCustom (osc.map fun o => [("A", o.1), ("e_A", 2), ("B", o.2), ("e_B", 1)]) lbda).map (1 + ·) =
      sellmeier (osc.map fun o => [("A", o.1), ("B", o.2)]) lbda := by
  unfold sellmeier sellmeierCustom
  simp only [List.map_map, Option.bind_eq_bind]
  have : (osc.map (sellmeierCustomTerm (lbda / 1e3) ∘ fun o => [("A", o.1), ("e_A", 2), ("B", o.2), ("e_B", 1)])) =
      osc.map (sellmeierTerm (lbda / 1e3) ∘ fun o => [("A", o.1), ("B", o.2)]) := by
    apply List.map_congr_left
    intro o _
    have h1 : powN (lbda / 1e3) 2 = some ((lbda / 1e3) ^ 2) := by
      unfold powN
      rw [if_neg (fun h => h.2 ⟨2, by norm_num⟩), if_neg (fun h => absurd h.2 (by norm_num))]
      norm_num
    have h2 : powN o.2 1 = some o.2 := by
      unfold powN
      rw [if_neg (fun h => h.2 ⟨1, by norm_num⟩), if_neg (fun h => absurd h.2 (by norm_num))]
      norm_num
    simp [Function.comp, sellmeierCustomTerm, sellmeierTerm, Dict.get, h1, h2]
  rw [this]
  cases sumN (osc.map (sellmeierTerm (lbda / 1e3) ∘ fun o => [("A", o.1), ("B", o.2)])) <;> rfl

/-- C48: `Cauchy` without absorption is `CauchyCustomExponent` with exponents -2 and -4. -/
theorem C48_cauchy (n0 n1 n2 lbda : ℝ) :
    cauchyIndex [("n0", n0), ("n1", n1), ("n2", n2), ("k0", 0), ("k1", 0), ("k2", 0)] lbda =
      cauchyCustomIndex [("n0", n0)] [[("f", 1e2 * n1), ("e", -2)], [("f", 1e7 * n2), ("e", -4)]] lbda := by
  by_cases hl : lbda = 0
  · subst hl
    simp [cauchyIndex, cauchyCustomIndex, Dict.get, divN, sumN, powerTerm, powN]
  · have h1 : powN lbda (-2) = some (lbda ^ 2)⁻¹ := by
      unfold powN
      rw [if_neg (fun h => h.2 ⟨-2, by norm_num⟩), if_neg (fun h => hl h.1)]
      congr 1
      rw [show (-2 : ℝ) = ((-2 : ℤ) : ℝ) by norm_num, Real.rpow_intCast]
      norm_num [zpow_neg]
    have h2 : powN lbda (-4) = some (lbda ^ 4)⁻¹ := by
      unfold powN
      rw [if_neg (fun h => h.2 ⟨-4, by norm_num⟩), if_neg (fun h => hl h.1)]
      congr 1
      rw [show (-4 : ℝ) = ((-4 : ℤ) : ℝ) by norm_num, Real.rpow_intCast]
      norm_num [zpow_neg]
    simp [cauchyIndex, cauchyCustomIndex, Dict.get, divN, sumN, powerTerm, h1, h2, hl]
    push_cast
    ring

/-- C48: `Poles` is a pair of undamped Lorentz oscillators (without the 1), the infrared one with amplitude `-A_ir` at zero energy. -/
theorem C48_poles (K : PhysConst) (Air Auv Euv lbda : ℝ) :
    (poles K [("A_ir", Air), ("A_uv", Auv), ("E_uv", Euv)] lbda).map (1 + ·) =
      lorentzEnergy K [[("A", -Air), ("E", 0), ("gamma", 0)], [("A", Auv), ("E", Euv), ("gamma", 0)]] lbda := by
  unfold poles lorentzEnergy
  cases he : conversionWavelengthEnergy K lbda with
  | none => rfl
  | some E =>
    have hE := energy_ne K he
    have h1 : lorentzEnergyTerm E [("A", Auv), ("E", Euv), ("gamma", 0)] = toC (divN Auv (Euv ^ 2 - E ^ 2)) := by
      rw [toC_divN]
      simp [lorentzEnergyTerm, Dict.get]
    have h2 : lorentzEnergyTerm E [("A", -Air), ("E", 0), ("gamma", 0)] = some ((Air / E ^ 2 : ℝ) : ℂ) := by
      have hE' : (E : ℂ) ≠ 0 := by exact_mod_cast hE
      simp [lorentzEnergyTerm, Dict.get, divN, hE]
    simp only [List.map_cons, List.map_nil, h1, h2, Dict.get, Option.bind_eq_bind, Option.bind_some]
    cases hd : divN Auv (Euv ^ 2 - E ^ 2) with
    | none => simp [toC, sumN, Dict.get, hd, hE]
    | some b =>
      have : divN Air (E ^ 2) = some (Air / E ^ 2) := by simp [divN, hE]
      simp [toC, sumN, Dict.get, hd, this]

/-- C48 is false for the infrared pole of `Poles` as documented ("Lorentz oscillators ... and zero broadening"): for every non-zero
amplitude it has the opposite sign of a Lorentz oscillator with that amplitude. -/
theorem C48_poles_refuted (K : PhysConst) (Air Auv Euv lbda : ℝ) (hA : Air ≠ 0) (hl : lbda ≠ 0)
    (hd : Euv ≠ K.c * K.h / (lbda * 1e-9) ∧ Euv ≠ -(K.c * K.h / (lbda * 1e-9))) :
    (poles K [("A_ir", Air), ("A_uv", Auv), ("E_uv", Euv)] lbda).map (1 + ·) ≠
      lorentzEnergy K [[("A", Air), ("E", 0), ("gamma", 0)], [("A", Auv), ("E", Euv), ("gamma", 0)]] lbda := by
  rw [C48_poles]
  unfold lorentzEnergy
  have he := energy_some K hl
  have hE := energy_ne K he
  generalize K.c * K.h / (lbda * 1e-9) = E at *
  have hden : Euv ^ 2 - E ^ 2 ≠ 0 := by
    intro h
    rcases sq_eq_sq_iff_eq_or_eq_neg.1 (sub_eq_zero.1 h) with h | h
    · exact hd.1 h
    · exact hd.2 h
  have hdenC : (Euv : ℂ) ^ 2 - (E : ℂ) ^ 2 ≠ 0 := by exact_mod_cast hden
  rw [he]
  have hE' : (E : ℂ) ≠ 0 := by exact_mod_cast hE
  have hA' : (Air : ℂ) ≠ 0 := by exact_mod_cast hA
  simp [lorentzEnergyTerm, Dict.get, divN, sumN, hE, hdenC]
  intro h
  field_simp at h
  norm_num at h

/-- C48 is false for "Drude is the zero-resonance limit of Lorentz": the Lorentz oscillator at zero energy is `1 - A/(E² + iγE)`,
`DrudeEnergy` is `A/(E² - iγE)`, so `1 + DrudeEnergy` differs from it for every non-zero amplitude, damping and wavelength. -/
theorem C48_drude_limit_refuted (K : PhysConst) (A gamma lbda : ℝ) (hA : A ≠ 0) (hl : lbda ≠ 0) :
    (drudeEnergy K [("A", A), ("gamma", gamma)] lbda).map (1 + ·) ≠
      lorentzEnergy K [[("A", A), ("E", 0), ("gamma", gamma)]] lbda := by
  unfold drudeEnergy lorentzEnergy
  have he := energy_some K hl
  have hE := energy_ne K he
  generalize K.c * K.h / (lbda * 1e-9) = E at *
  rw [he]
  have hd1 : (E : ℂ) ^ 2 - I * gamma * E ≠ 0 := by
    intro h
    have := congrArg Complex.re h
    simp [pow_two] at this
    exact hE this
  have hd2 : -(E : ℂ) ^ 2 - I * gamma * E ≠ 0 := by
    intro h
    have := congrArg Complex.re h
    simp [pow_two] at this
    exact hE this
  have hA' : (A : ℂ) ≠ 0 := by exact_mod_cast hA
  simp [lorentzEnergyTerm, Dict.get, divN, sumN, hd1, hd2]
  intro h
  rw [div_eq_div_iff hd1 hd2] at h
  have h2 : (A : ℂ) * (2 * (E : ℂ) ^ 2) = 0 := by linear_combination -h
  have hE' : (E : ℂ) ≠ 0 := by exact_mod_cast hE
  simp [hA', hE'] at h2

/-- C48, what does hold for Drude: it is minus the complex conjugate of the zero-energy Lorentz oscillator, so the imaginary parts
agree and the real parts are opposite; in particular its real part is positive, unlike that of a free-electron metal. -/
theorem C48_drude_limit_partial (K : PhysConst) (A gamma lbda : ℝ) (hl : lbda ≠ 0) (vd vl : ℂ)
    (hd : drudeEnergy K [("A", A), ("gamma", gamma)] lbda = some vd)
    (hL : lorentzEnergy K [[("A", A), ("E", 0), ("gamma", gamma)]] lbda = some vl) :
    vd.im = vl.im ∧ vd.re = -(vl.re - 1) ∧ (0 < A → 0 < vd.re) := by
  unfold drudeEnergy at hd
  unfold lorentzEnergy at hL
  have he := energy_some K hl
  have hE := energy_ne K he
  generalize K.c * K.h / (lbda * 1e-9) = E at *
  rw [he] at hd hL
  have hd1 : (E : ℂ) ^ 2 - I * gamma * E ≠ 0 := by
    intro h
    have := congrArg Complex.re h
    simp [pow_two] at this
    exact hE this
  have hd2 : -(E : ℂ) ^ 2 - I * gamma * E ≠ 0 := by
    intro h
    have := congrArg Complex.re h
    simp [pow_two] at this
    exact hE this
  simp [Dict.get, divN, hd1] at hd
  simp [lorentzEnergyTerm, Dict.get, divN, sumN, hd2] at hL
  subst hd hL
  have hn : 0 < normSq ((E : ℂ) ^ 2 - I * gamma * E) := normSq_pos.2 hd1
  have hnn : normSq (-(E : ℂ) ^ 2 - I * gamma * E) = normSq ((E : ℂ) ^ 2 - I * gamma * E) := by
    simp [normSq_apply, pow_two]
  have hre : ((A : ℂ) / ((E : ℂ) ^ 2 - I * gamma * E)).re = A * E ^ 2 / normSq ((E : ℂ) ^ 2 - I * gamma * E) := by
    rw [div_re]; simp [pow_two]
  refine ⟨?_, ?_, ?_⟩
  · rw [add_im, div_im, div_im, hnn]
    simp [pow_two]
  · rw [add_re, div_re, div_re, hnn]
    simp [pow_two]
    ring
  · intro hA
    rw [hre]
    positivity

/-- Non-trivial case of the Drude equalities: everything is defined. -/
example : ∃ K : PhysConst, ∃ v, drudeEnergy K [("A", 1), ("gamma", 1)] 1e9 = some v ∧ v = 1 / (1 - I) := by
  refine ⟨⟨1, 1, 1, one_pos, one_pos, one_pos⟩, _, ?_, rfl⟩
  have h : (1 : ℂ) - I ≠ 0 := by
    intro h; have := congrArg Complex.re h; simp at this
  simp [drudeEnergy, conversionWavelengthEnergy, divN, Dict.get]
  norm_num [h]

end PyElli
