import Verif.Model.Pseudo
import Verif.Props.ThinFilm
import Verif.Props.Angles

/-! # C98: the pseudo dielectric function of a bulk measurement -/

namespace PyElli

open Complex

/-- The simulated measurement of a bulk sample of permittivity `e` in air with incident light `(a, b)`. -/
noncomputable def bulkResult (theta : ℝ) (a b : ℂ) (ee : (Fin 4 → ℂ) × Mat4) (lbda : ℝ) (e : ℂ) : Result :=
  let out := calculate4x4 propExpm ⟨isoTensor 1, [], isoTensor e, true⟩ theta lbda ee
  Result.mk' out.jr out.jt out.power ![a, b]

/-- One point: psi and delta of the measurement give the permittivity of the sample. -/
lemma pseudo_point (e : ℂ) (he0 : e ≠ 0) (he1 : e ≠ 1) (theta lbda : ℝ) (ee) (h1 : 0 < theta) (h2 : theta < 90) (p : Pol) (a b : ℂ)
    (hj : (setVector p .none).jones = .vec a b) :
    pseudoEps (calcRho (bulkResult theta a b ee lbda e).psi (bulkResult theta a b ee lbda e).delta) theta = some e := by
  obtain ⟨a', b', hj', h⟩ := C42_pseudo_dielectric_relative ⟨isoTensor 1, [], isoTensor e, true⟩ 1 theta lbda ee one_pos
    (by simp [isoTensor]) rfl rfl h1 h2 (by simpa [isoTensor] using he0) (by simpa [isoTensor] using he1) p
  rw [hj] at hj'
  simp only [JonesVal.vec.injEq] at hj'
  obtain ⟨rfl, rfl⟩ := hj'
  have hr := (C03_calc_rho_spec _ _ _).2 (C03_round_trip_default
    (calculate4x4 propExpm ⟨isoTensor 1, [], isoTensor e, true⟩ theta lbda ee).jr
    (calculate4x4 propExpm ⟨isoTensor 1, [], isoTensor e, true⟩ theta lbda ee).jt
    (calculate4x4 propExpm ⟨isoTensor 1, [], isoTensor e, true⟩ theta lbda ee).power ![a, b])
  unfold bulkResult
  simp only at hr ⊢
  rw [hr]
  simpa [isoTensor] using h

/-- C98: `PseudoDielectricFunction` built from the psi and delta of a bulk sample in air is the dielectric function of the sample at every
wavelength of the table, and the spline through these values in between; outside of the table it raises `ValueError`. -/
theorem C98_bulk (S : Spline) (theta : ℝ) (h1 : 0 < theta) (h2 : theta < 90) (p : Pol) (a b : ℂ) (ee)
    (hj : (setVector p .none).jones = .vec a b) (table : List (ℝ × ℂ)) (h4 : 4 ≤ table.length) (hn : (table.map Prod.fst).Nodup)
    (he : ∀ r ∈ table, r.2 ≠ 0 ∧ r.2 ≠ 1) :
    ∃ f, mkPseudo S theta (table.map Prod.fst) (table.map fun r => (bulkResult theta a b ee r.1 r.2).psi)
        (table.map fun r => (bulkResult theta a b ee r.1 r.2).delta) = .ok f ∧
      (∀ r ∈ table, f r.1 = .ok (some r.2)) ∧
      (∀ x, (∃ r ∈ table, r.1 ≤ x) → (∃ r ∈ table, x ≤ r.1) → f x = .ok (some (S.eval table x))) ∧
      ∀ x, (∀ r ∈ table, x < r.1) ∨ (∀ r ∈ table, r.1 < x) → f x = .error .valueError := by
  have hm : ((table.map fun r => (bulkResult theta a b ee r.1 r.2).psi).zip
      (table.map fun r => (bulkResult theta a b ee r.1 r.2).delta)).mapM (fun pd => pseudoEps (calcRho pd.1 pd.2) theta) =
      some (table.map Prod.snd) := by
    clear h4 hn
    induction table with
    | nil => rfl
    | cons r t ih =>
      have hr := he r (by simp)
      simp only [List.map_cons, List.zip_cons_cons, List.mapM_cons, pseudo_point r.2 hr.1 hr.2 theta r.1 ee h1 h2 p a b hj,
        ih fun q hq => he q (by simp [hq])]
      rfl
  have hz : (table.map Prod.fst).zip (table.map Prod.snd) = table := (List.zip_of_prod rfl rfl).symm
  have hval : ∀ x, (∃ r ∈ table, r.1 ≤ x) → (∃ r ∈ table, x ≤ r.1) →
      ¬ ((∀ l ∈ table.map Prod.fst, x < l) ∨ (∀ l ∈ table.map Prod.fst, l < x)) := by
    rintro x ⟨r, hr, hrx⟩ ⟨q, hq, hqx⟩ (h | h)
    · exact absurd (h r.1 (List.mem_map_of_mem hr)) (not_lt.2 hrx)
    · exact absurd (h q.1 (List.mem_map_of_mem hq)) (not_lt.2 hqx)
  refine ⟨_, by
    unfold mkPseudo
    rw [if_neg (by simp), if_neg (by simp), if_neg (by simpa using h4), if_neg (not_not.2 hn)], ?_, ?_, ?_⟩
  · intro r hr
    rw [if_neg (hval r.1 ⟨r, hr, le_refl _⟩ ⟨r, hr, le_refl _⟩), hm]
    simp only [Option.map_some, hz, S.node table hn r hr]
  · intro x hx1 hx2
    rw [if_neg (hval x hx1 hx2), hm]
    simp only [Option.map_some, hz]
  · intro x hx
    rw [if_pos]
    simpa using hx

/-- Too short, unequal or repeated tables are refused. -/
theorem C98_refused (S : Spline) (theta : ℝ) (lbda psi delta : List ℝ) :
    (∃ f, mkPseudo S theta lbda psi delta = .ok f) ↔
      psi.length = delta.length ∧ lbda.length = psi.length ∧ 4 ≤ lbda.length ∧ lbda.Nodup := by
  unfold mkPseudo
  by_cases h1 : psi.length = delta.length
  · rw [if_neg (not_not.2 h1)]
    by_cases h2 : lbda.length = psi.length
    · rw [if_neg (not_not.2 h2)]
      by_cases h3 : lbda.length < 4
      · rw [if_pos h3]
        exact ⟨fun ⟨f, h⟩ => (by cases h), fun h => absurd h3 (not_lt.2 h.2.2.1)⟩
      · rw [if_neg h3]
        by_cases h4 : lbda.Nodup
        · rw [if_neg (not_not.2 h4)]
          exact ⟨fun _ => ⟨h1, h2, not_lt.1 h3, h4⟩, fun _ => ⟨_, rfl⟩⟩
        · rw [if_pos h4]
          exact ⟨fun ⟨f, h⟩ => (by cases h), fun h => absurd h.2.2.2 h4⟩
    · rw [if_pos h2]
      exact ⟨fun ⟨f, h⟩ => (by cases h), fun h => absurd h.2.1 h2⟩
  · rw [if_pos h1]
    exact ⟨fun ⟨f, h⟩ => (by cases h), fun h => absurd h.1 h1⟩

/-- The formula printed in the documentation, `pseudo_dielectric.py:30-33`: without the square of the last factor. -/
noncomputable def printedPseudo (rho : ℂ) (theta : ℝ) : ℂ :=
  (Real.sin theta : ℂ) ^ 2 * (1 + (Real.tan theta : ℂ) ^ 2 * ((1 - rho) / (1 + rho)))

/-- C84 fails for `PseudoDielectricFunction`: the printed formula has no square, so it differs from the value of the class for every
rho other than 1 and 0 (for which the factor is 0 or 1), at all angles between 0 and 90 degrees. -/
theorem C84_pseudo_refuted (rho : ℂ) (angle : ℝ) (h1 : 0 < angle) (h2 : angle < 90) (hr : rho ≠ -1) :
    pseudoEps rho angle = some (printedPseudo rho (angle * Real.pi / 180)) ↔ rho = 1 ∨ rho = 0 := by
  have hang : deg2rad angle = angle * Real.pi / 180 := by unfold deg2rad; ring
  have hc : 0 < Real.cos (angle * Real.pi / 180) := hang ▸ cos_pos_of_angle (by rw [abs_of_pos h1]; exact h2)
  have hs : 0 < Real.sin (angle * Real.pi / 180) := hang ▸ sin_pos_of_angle h1 h2
  have ht : (Real.tan (angle * Real.pi / 180) : ℂ) ≠ 0 := by
    rw [Real.tan_eq_sin_div_cos]
    exact_mod_cast (div_pos hs hc).ne'
  have hs' : (Real.sin (angle * Real.pi / 180) : ℂ) ≠ 0 := by exact_mod_cast hs.ne'
  have hd : (1 : ℂ) + rho ≠ 0 := fun h => hr (by linear_combination h)
  unfold pseudoEps printedPseudo
  simp only
  rw [if_neg (by rintro (h | h); exacts [hd h, hc.ne' h])]
  simp only [Option.some.injEq]
  rw [mul_right_inj' (pow_ne_zero 2 hs'), add_right_inj, mul_right_inj' (pow_ne_zero 2 ht)]
  rw [div_pow, div_eq_div_iff (pow_ne_zero 2 hd) hd]
  constructor
  · intro h
    have h3 : (1 + rho) * ((1 - rho) * (-2 * rho)) = 0 := by linear_combination h
    rcases mul_eq_zero.1 h3 with h | h
    · exact absurd h hd
    · rcases mul_eq_zero.1 h with h | h
      · left; linear_combination -h
      · right
        rcases mul_eq_zero.1 h with h | h
        · norm_num at h
        · exact h
  · rintro (rfl | rfl) <;> ring

/-- Functions through given points exist, so the results are not about nothing. -/
noncomputable def lookupSpline : Spline where
  eval rows x := ((rows.find? fun r => open Classical in decide (r.1 = x)).map Prod.snd).getD 0
  node rows hn r hr := by
    classical
    have : rows.find? (fun q => decide (q.1 = r.1)) = some r := by
      induction rows with
      | nil => cases hr
      | cons q t ih =>
        rw [List.map_cons, List.nodup_cons] at hn
        by_cases hq : q.1 = r.1
        · rcases List.mem_cons.1 hr with rfl | hr
          · simp
          · exact absurd (hq ▸ List.mem_map_of_mem hr) hn.1
        · rcases List.mem_cons.1 hr with rfl | hr
          · exact absurd rfl hq
          · rw [List.find?_cons_of_neg (by simpa using hq)]
            exact ih hn.2 hr
    rw [show (rows.find? fun q => decide (q.1 = r.1)) = some r by convert this]
    rfl

/-- Non-trivial case of C98_bulk: an absorbing sample at 70 degrees, four wavelengths. -/
example : (0 : ℝ) < 70 ∧ (70 : ℝ) < 90 ∧ 4 ≤ ([(400, 4 + I), (500, 3 + I), (600, 5), (700, -2 + I)] : List (ℝ × ℂ)).length ∧
    (([(400, 4 + I), (500, 3 + I), (600, 5), (700, -2 + I)] : List (ℝ × ℂ)).map Prod.fst).Nodup ∧
    ∀ r ∈ ([(400, 4 + I), (500, 3 + I), (600, 5), (700, -2 + I)] : List (ℝ × ℂ)), r.2 ≠ 0 ∧ r.2 ≠ 1 := by
  refine ⟨by norm_num, by norm_num, by simp, by norm_num, ?_⟩
  have him : ∀ x : ℝ, ((x : ℂ) + I) ≠ 0 ∧ ((x : ℂ) + I) ≠ 1 := by
    intro x
    constructor <;> intro h <;> have := congrArg Complex.im h <;> simp at this
  intro r hr
  simp only [List.mem_cons, List.not_mem_nil, or_false] at hr
  rcases hr with rfl | rfl | rfl | rfl
  · simpa using him 4
  · simpa using him 3
  · norm_num
  · simpa using him (-2)

end PyElli
