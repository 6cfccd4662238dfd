import Verif.Props.Cody
import Verif.Props.KkrDispersion
import Mathlib.Analysis.SpecialFunctions.Log.NegMulLog

/-! # Absorption edges of the Tauc-Lorentz and Cody-Lorentz models (C155) -/

namespace PyElli

open Complex Filter Topology

/-- C155: the absorption of `CodyLorentz` is continuous in the photon energy, also where the tail begins, and in the tail `E ε₂` falls
exponentially with the Urbach energy (Urbach's law). -/
theorem C155_cody (Eg A Et gamma Ep E0 Eu : ℝ) (ht : 0 < Et) (hg : gamma ≠ 0) (hp : Ep ≠ 0) (hu : Eu ≠ 0) :
    ∃ a : ℝ → ℝ, (∀ E, 0 < E → codyEps2 [("Eg", Eg), ("A", A), ("Et", Et), ("gamma", gamma), ("Ep", Ep), ("E0", E0), ("Eu", Eu)] E = some (a E)) ∧
      ContinuousOn a (Set.Ioi 0) ∧ (∀ E, 0 < E → E ≤ Et → E * a E = Et * a Et * Real.exp ((E - Et) / Eu)) ∧
      ∀ E, Et ≤ E → a E = (E - Eg) ^ 2 / ((E - Eg) ^ 2 + Ep ^ 2) * (A * E0 * gamma * E / ((E ^ 2 - E0 ^ 2) ^ 2 + gamma ^ 2 * E ^ 2)) := by
  have d1 : ∀ x : ℝ, (x - Eg) ^ 2 + Ep ^ 2 ≠ 0 := fun x => by positivity
  have d2 : ∀ x : ℝ, 0 < x → (x ^ 2 - E0 ^ 2) ^ 2 + gamma ^ 2 * x ^ 2 ≠ 0 := fun x hx => by positivity
  obtain ⟨b, hb⟩ : ∃ b : ℝ → ℝ, b = fun E => (E - Eg) ^ 2 / ((E - Eg) ^ 2 + Ep ^ 2) * (A * E0 * gamma * E / ((E ^ 2 - E0 ^ 2) ^ 2 + gamma ^ 2 * E ^ 2)) := ⟨_, rfl⟩
  have hbt : ∀ E, b E = (E - Eg) ^ 2 / ((E - Eg) ^ 2 + Ep ^ 2) * (A * E0 * gamma * E / ((E ^ 2 - E0 ^ 2) ^ 2 + gamma ^ 2 * E ^ 2)) := fun E => by rw [hb]
  refine ⟨fun E => if E ≤ Et then Et * b Et / E * Real.exp ((E - Et) / Eu) else b E, ?_, ?_, ?_, ?_⟩
  · intro E hE
    simp only [codyEps2, Dict.get, Option.bind_eq_bind]
    simp only [String.reduceEq, if_true, if_false, Option.bind_some, codyG, codyL, divN_ne (d1 _), divN_ne (d2 _ ht), divN_ne (d2 _ hE), divN_ne hE.ne', divN_ne hu]
    congr 1
    unfold heaviside
    rw [hbt, hbt]
    rcases lt_trichotomy E Et with h | h | h
    · rw [if_neg (by linarith), if_neg (by linarith), if_pos (by linarith), if_pos h.le]
      ring
    · subst h
      rw [if_neg (by linarith), if_pos (by ring), if_neg (by linarith), if_pos (by ring), if_pos le_rfl]
      ring
    · rw [if_pos (by linarith), if_neg (by linarith), if_neg (by linarith), if_neg (by linarith)]
      ring
  · refine ContinuousOn.if' ?_ ?_ ?_ ?_
    · rintro E ⟨hE, hf⟩
      have : E = Et := by
        have hs : {a : ℝ | a ≤ Et} = Set.Iic Et := rfl
        rw [hs, frontier_Iic] at hf
        exact hf
      subst this
      rw [if_pos le_rfl]
      have hc : ContinuousAt (fun x => E * b E / x * Real.exp ((x - E) / Eu)) E := by
        refine ContinuousAt.mul (ContinuousAt.div continuousAt_const continuousAt_id ht.ne') (by fun_prop)
      exact hc.tendsto.mono_left nhdsWithin_le_nhds
    · rintro E ⟨hE, hf⟩
      have : E = Et := by
        have hs : {a : ℝ | a ≤ Et} = Set.Iic Et := rfl
        rw [hs, frontier_Iic] at hf
        exact hf
      subst this
      rw [if_pos le_rfl]
      have hc : ContinuousAt b E := by
        rw [hb]
        exact ((by fun_prop : ContinuousAt (fun x : ℝ => (x - Eg) ^ 2) E).div (by fun_prop) (d1 E)).mul
          ((by fun_prop : ContinuousAt (fun x : ℝ => A * E0 * gamma * x) E).div (by fun_prop) (d2 E hE))
      have hv : E * b E / E * Real.exp ((E - E) / Eu) = b E := by
        rw [sub_self, zero_div, Real.exp_zero, mul_one, mul_div_cancel_left₀ _ ht.ne']
      rw [hv]
      exact hc.tendsto.mono_left nhdsWithin_le_nhds
    · rintro E ⟨hE, -⟩
      have : 0 < E := hE
      exact (ContinuousAt.mul (ContinuousAt.div continuousAt_const continuousAt_id this.ne') (by fun_prop)).continuousWithinAt
    · rintro E ⟨hE, -⟩
      rw [hb]
      exact (((by fun_prop : ContinuousAt (fun x : ℝ => (x - Eg) ^ 2) E).div (by fun_prop) (d1 E)).mul
          ((by fun_prop : ContinuousAt (fun x : ℝ => A * E0 * gamma * x) E).div (by fun_prop) (d2 E hE))).continuousWithinAt
  · intro E hE hle
    simp only [if_pos hle, if_pos le_rfl]
    rw [sub_self, zero_div, Real.exp_zero, mul_one, mul_div_cancel_left₀ _ ht.ne']
    have := hE.ne'
    field_simp
  · intro E hle
    rw [← hbt]
    rcases hle.lt_or_eq with h | h
    · simp only [if_neg (not_le.2 h)]
    · subst h
      simp only [if_pos le_rfl]
      rw [sub_self, zero_div, Real.exp_zero, mul_one, mul_div_cancel_left₀ _ ht.ne']

/-- The real part of one Tauc-Lorentz oscillator with the two logarithms that diverge at the gap collected. -/
noncomputable def taucFilled (Eg A E0 C : ℝ) (E : ℝ) : ℝ :=
  let al := √(4 * E0 ^ 2 - C ^ 2)
  let z := (E ^ 2 - E0 ^ 2) ^ 2 + C ^ 2 * E ^ 2
  A * C * ((Eg ^ 2 - E0 ^ 2) * E ^ 2 + Eg ^ 2 * C ^ 2 - E0 ^ 2 * (E0 ^ 2 + 3 * Eg ^ 2)) / 2 / Real.pi / z / al / E0 *
      Real.log ((E0 ^ 2 + Eg ^ 2 + al * Eg) / (E0 ^ 2 + Eg ^ 2 - al * Eg))
    - A * ((E ^ 2 - E0 ^ 2) * (E0 ^ 2 + Eg ^ 2) + Eg ^ 2 * C ^ 2) / Real.pi / z / E0 * (Real.pi - Real.arctan ((2 * Eg + al) / C) + Real.arctan ((al - 2 * Eg) / C))
    + 2 * A * E0 * Eg / Real.pi / z / al * (E ^ 2 - (E0 ^ 2 - C ^ 2 / 2)) * (Real.pi + 2 * Real.arctan (2 / al / C * ((E0 ^ 2 - C ^ 2 / 2) - Eg ^ 2)))
    + A * E0 * C / Real.pi / z / E * ((E + Eg) ^ 2 * Real.log (E + Eg) - 2 * Eg * E * Real.log √((E0 ^ 2 - Eg ^ 2) ^ 2 + Eg ^ 2 * C ^ 2)
      - (E - Eg) * ((E - Eg) * Real.log (E - Eg)))

lemma taucFilled_continuous {Eg A E0 C : ℝ} (hEg : 0 ≤ Eg) (hC : 0 < C) : ContinuousOn (taucFilled Eg A E0 C) (Set.Ioi 0) := by
  have hz : ∀ E ∈ Set.Ioi (0 : ℝ), (E ^ 2 - E0 ^ 2) ^ 2 + C ^ 2 * E ^ 2 ≠ 0 := by
    intro E hE
    have : 0 < E := hE
    positivity
  have hzc : ContinuousOn (fun E : ℝ => (E ^ 2 - E0 ^ 2) ^ 2 + C ^ 2 * E ^ 2) (Set.Ioi 0) := by fun_prop
  have hml : ContinuousOn (fun E : ℝ => (E - Eg) * ((E - Eg) * Real.log (E - Eg))) (Set.Ioi 0) := by
    have h1 : Continuous fun E : ℝ => (E - Eg) * Real.log (E - Eg) := Real.continuous_mul_log.comp (by fun_prop : Continuous fun E : ℝ => E - Eg)
    exact ((by fun_prop : Continuous fun E : ℝ => E - Eg).mul h1).continuousOn
  have hl : ContinuousOn (fun E : ℝ => Real.log (E + Eg)) (Set.Ioi 0) := by
    refine ContinuousOn.log (by fun_prop) ?_
    intro E hE
    have : 0 < E := hE
    linarith
  unfold taucFilled
  refine ContinuousOn.add (ContinuousOn.add (ContinuousOn.sub ?_ ?_) ?_) ?_
  · refine ContinuousOn.mul ?_ continuousOn_const
    refine ContinuousOn.div_const (ContinuousOn.div_const (ContinuousOn.div ?_ hzc hz) _) _
    fun_prop
  · refine ContinuousOn.mul ?_ continuousOn_const
    refine ContinuousOn.div_const (ContinuousOn.div ?_ hzc hz) _
    fun_prop
  · refine ContinuousOn.mul (ContinuousOn.mul ?_ (by fun_prop)) continuousOn_const
    exact ContinuousOn.div_const (ContinuousOn.div continuousOn_const hzc hz) _
  · refine ContinuousOn.mul ?_ ?_
    · exact ContinuousOn.div (ContinuousOn.div continuousOn_const hzc hz) continuousOn_id fun E hE => ne_of_gt hE
    · exact ((ContinuousOn.mul (by fun_prop) hl).sub (by fun_prop)).sub hml

lemma taucFilled_value {E Eg A E0 C : ℝ} (hE : 0 < E) (hEg : 0 ≤ Eg) (hE0 : 0 < E0) (hC : 0 < C) (hu : C < 2 * E0) (hne : E ≠ Eg) :
    taucEps1 E Eg A E0 C = some ((taucFilled Eg A E0 C E : ℝ) : ℂ) := by
  have hpos : 0 < 4 * E0 ^ 2 - C ^ 2 := by nlinarith
  rw [taucEps1_value E Eg A E0 C _ hE hEg hE0 hC hu hne (Real.sqrt_pos.2 hpos) (Real.sq_sqrt hpos.le)]
  have hab : 0 < |E - Eg| := abs_pos.2 (sub_ne_zero.2 hne)
  have hsum : 0 < E + Eg := by linarith
  have hroot : 0 < √((E0 ^ 2 - Eg ^ 2) ^ 2 + Eg ^ 2 * C ^ 2) := by
    refine Real.sqrt_pos.2 ?_
    rcases hEg.lt_or_eq with h | h
    · positivity
    · subst h
      have : 0 < E0 ^ 2 := by positivity
      nlinarith
  unfold taucFilled
  rw [Real.log_div hab.ne' hsum.ne', Real.log_div (mul_pos hab hsum).ne' hroot.ne', Real.log_mul hab.ne' hsum.ne', Real.log_abs]
  congr 2
  simp only
  have hz : (E ^ 2 - E0 ^ 2) ^ 2 + C ^ 2 * E ^ 2 ≠ 0 := by positivity
  generalize (E ^ 2 - E0 ^ 2) ^ 2 + C ^ 2 * E ^ 2 = z at hz ⊢
  generalize Real.log (E - Eg) = L1
  generalize Real.log (E + Eg) = L2
  generalize Real.log √((E0 ^ 2 - Eg ^ 2) ^ 2 + Eg ^ 2 * C ^ 2) = L3
  rw [sub_add, sub_eq_add_neg, add_left_cancel_iff]
  have n4 := hE.ne'
  have n5 := Real.pi_ne_zero
  generalize Real.pi = pi at n5 ⊢
  field_simp
  ring

/-- C155: with one value filled in at the gap (where the code gives NaN, `C49_tauc_at_gap_refuted`) the Tauc-Lorentz model is continuous in the
wavelength, and beyond the gap the absorption grows as Tauc's law says: `E ε₂ / (E - Eg)²` has a limit at the gap, the sum over the oscillators. -/
theorem C155_tauc (K : PhysConst) (Eg : ℝ) (hEg : 0 < Eg) (osc : List (ℝ × ℝ × ℝ)) (h : ∀ o ∈ osc, 0 < o.2.1 ∧ 0 < o.2.2 ∧ o.2.2 < 2 * o.2.1) :
    ∃ eps : ℝ → ℂ, (∀ l, 0 < l → photon K l ≠ Eg →
        taucLorentz K [("Eg", Eg)] (osc.map fun o => [("A", o.1), ("E", o.2.1), ("C", o.2.2)]) l = some (eps l)) ∧
      ContinuousOn eps (Set.Ioi 0) ∧
      ∀ l, 0 < l → photon K l = Eg → (eps l).im = 0 ∧ Tendsto (fun x => photon K x * (eps x).im / (photon K x - Eg) ^ 2) (𝓝[<] l)
        (𝓝 (osc.map fun o => o.1 * o.2.1 * o.2.2 / ((Eg ^ 2 - o.2.1 ^ 2) ^ 2 + o.2.2 ^ 2 * Eg ^ 2)).sum) := by
  have hk := photon_const_pos K
  have hpc : ContinuousOn (photon K) (Set.Ioi 0) := by
    have : photon K = fun x => K.c * K.h / 1e-9 / x := funext fun x => photon_eq K x
    rw [this]
    exact ContinuousOn.div continuousOn_const continuousOn_id fun x hx => ne_of_gt hx
  have hpp : ∀ l, 0 < l → 0 < photon K l := fun l hl => by rw [photon_eq]; exact div_pos hk hl
  have listCont : ∀ (L : List (ℝ × ℝ × ℝ)) (F : ℝ × ℝ × ℝ → ℝ → ℝ), (∀ o ∈ L, ContinuousOn (F o) (Set.Ioi 0)) →
      ContinuousOn (fun l => (L.map fun o => F o (photon K l)).sum) (Set.Ioi 0) := by
    intro L F hF
    induction L with
    | nil => simpa using continuousOn_const
    | cons o L ih =>
      simp only [List.map_cons, List.sum_cons]
      exact ((hF o (by simp)).comp hpc fun l hl => hpp l hl).add (ih fun o ho => hF o (List.mem_cons_of_mem _ ho))
  refine ⟨fun l => ⟨(osc.map fun o => taucFilled Eg o.1 o.2.1 o.2.2 (photon K l)).sum, (osc.map fun o => Spec.taucAbsorption (photon K l) Eg o.1 o.2.1 o.2.2).sum⟩, ?_, ?_, ?_⟩
  · intro l hl hne
    have hE := hpp l hl
    simp only [taucLorentz, energy_photon K hl.ne', Option.bind_eq_bind, Option.bind_some, Dict.get, if_true]
    generalize photon K l = E at *
    clear hpc hpp listCont hk
    induction osc with
    | nil => rfl
    | cons o osc ih =>
      obtain ⟨h1, h2, h3⟩ := h o (by simp)
      simp only [List.map_cons, sumN, taucTerm_split E Eg o.1 o.2.1 o.2.2 hE h2 _ (taucFilled_value hE hEg.le h1 h2 h3 hne),
        ih (fun o ho => h o (List.mem_cons_of_mem _ ho)), Option.map_some, List.sum_cons]
      congr 1
      apply Complex.ext <;> simp
  · have h1 := listCont osc (fun o => taucFilled Eg o.1 o.2.1 o.2.2) fun o ho => taucFilled_continuous hEg.le (h o ho).2.1
    have h2 := listCont osc (fun o x => Spec.taucAbsorption x Eg o.1 o.2.1 o.2.2) fun o ho => (taucAbs_regular Eg o.1 (h o ho).2.1).1
    have : (fun l => (⟨(osc.map fun o => taucFilled Eg o.1 o.2.1 o.2.2 (photon K l)).sum, (osc.map fun o => Spec.taucAbsorption (photon K l) Eg o.1 o.2.1 o.2.2).sum⟩ : ℂ)) =
        fun l => (((osc.map fun o => taucFilled Eg o.1 o.2.1 o.2.2 (photon K l)).sum : ℝ) : ℂ) +
          (((osc.map fun o => Spec.taucAbsorption (photon K l) Eg o.1 o.2.1 o.2.2).sum : ℝ) : ℂ) * I := by
      funext l
      apply Complex.ext <;> simp
    rw [this]
    exact (Complex.continuous_ofReal.comp_continuousOn h1).add ((Complex.continuous_ofReal.comp_continuousOn h2).mul continuousOn_const)
  · intro l hl hgap
    refine ⟨?_, ?_⟩
    · show (osc.map fun o => Spec.taucAbsorption (photon K l) Eg o.1 o.2.1 o.2.2).sum = 0
      rw [hgap]
      apply List.sum_eq_zero
      intro x hx
      obtain ⟨o, -, rfl⟩ := List.mem_map.1 hx
      simp [Spec.taucAbsorption]
    · have hev : ∀ᶠ x in 𝓝[<] l, 0 < x ∧ Eg < photon K x := by
        have h0 : ∀ᶠ x in 𝓝[<] l, 0 < x := nhdsWithin_le_nhds (lt_mem_nhds hl)
        filter_upwards [h0, self_mem_nhdsWithin] with x hx hxl
        refine ⟨hx, ?_⟩
        rw [← hgap, photon_eq, photon_eq]
        exact div_lt_div_of_pos_left hk hx hxl
      have hlim := (listCont osc (fun o E => o.1 * o.2.1 * o.2.2 / ((E ^ 2 - o.2.1 ^ 2) ^ 2 + o.2.2 ^ 2 * E ^ 2)) (by
        intro o ho
        refine ContinuousOn.div continuousOn_const (by fun_prop) ?_
        intro E hE
        have : 0 < E := hE
        have := (h o ho).2.1
        positivity)).continuousAt (Ioi_mem_nhds hl)
      have hlim' := hlim.tendsto.mono_left (nhdsWithin_le_nhds (s := Set.Iio l))
      simp only [hgap] at hlim'
      refine hlim'.congr' ?_
      filter_upwards [hev] with x hx
      obtain ⟨hx0, hxg⟩ := hx
      show _ = photon K x * (osc.map fun o => Spec.taucAbsorption (photon K x) Eg o.1 o.2.1 o.2.2).sum / (photon K x - Eg) ^ 2
      have hd : photon K x - Eg ≠ 0 := by linarith
      have hE := (hpp x hx0).ne'
      have hC : ∀ o ∈ osc, 0 < o.2.2 := fun o ho => (h o ho).2.1
      generalize photon K x = E at *
      clear hlim hlim' hev listCont hpc hpp h
      induction osc with
      | nil => simp
      | cons o osc ih =>
        have ih := ih fun o ho => hC o (List.mem_cons_of_mem _ ho)
        have hC0 := hC o (by simp)
        simp only [List.map_cons, List.sum_cons]
        rw [ih, mul_add, add_div]
        congr 1
        unfold Spec.taucAbsorption
        rw [if_neg (not_le.2 hxg)]
        have hz : (E ^ 2 - o.2.1 ^ 2) ^ 2 + o.2.2 ^ 2 * E ^ 2 ≠ 0 := by positivity
        generalize (E ^ 2 - o.2.1 ^ 2) ^ 2 + o.2.2 ^ 2 * E ^ 2 = z at hz ⊢
        generalize E - Eg = y at hd ⊢
        field_simp

/-- Amorphous silicon: gap 1.6 eV, two oscillators below critical damping, and the wavelength of the gap. -/
example : (0 : ℝ) < 1.6 ∧ (∀ o ∈ ([(120, 3.45, 2.4), (5, 6, 1)] : List (ℝ × ℝ × ℝ)), 0 < o.2.1 ∧ 0 < o.2.2 ∧ o.2.2 < 2 * o.2.1) ∧
    ∀ K : PhysConst, ∃ l, 0 < l ∧ photon K l = 1.6 := by
  refine ⟨by norm_num, ?_, fun K => ⟨K.c * K.h / 1e-9 / 1.6, div_pos (photon_const_pos K) (by norm_num), ?_⟩⟩
  · intro o ho
    simp only [List.mem_cons, List.not_mem_nil, or_false] at ho
    rcases ho with rfl | rfl <;> norm_num
  · rw [photon_eq, div_div_cancel₀ (photon_const_pos K).ne']

/-- The parameters of the template of `CodyLorentz`. -/
example : (0 : ℝ) < 1.8 ∧ (2.4 : ℝ) ≠ 0 ∧ (0.8 : ℝ) ≠ 0 ∧ (0.05 : ℝ) ≠ 0 := by norm_num

end PyElli
