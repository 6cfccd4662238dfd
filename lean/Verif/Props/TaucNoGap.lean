import Verif.Props.KkrTauc
import Verif.Props.SumRules
import Verif.Props.StaticLimits

/-! # A Tauc-Lorentz model without a gap is a Lorentz model (C48)

The two models compute their real part in very different ways: `TaucLorentz` from logarithms and arctangents, `LorentzEnergy` by one complex division. Both are
the Kramers-Kronig transform of the same absorption. -/

namespace PyElli

open Filter Topology Complex

/-- A function has only one Kramers-Kronig transform. -/
lemma kk_unique {f : ℝ → ℝ} {w u v : ℝ} (hw : 0 < w) (h1 : Kk f w u) (h2 : Kk f w v) : u = v := by
  obtain ⟨U, hU, tU⟩ := h1
  obtain ⟨V, hV, tV⟩ := h2
  have ta : Tendsto (fun p : ℝ × ℝ => p.1) (𝓝[>] (0 : ℝ) ×ˢ (atTop : Filter ℝ)) (𝓝[>] (0 : ℝ)) := tendsto_fst
  have tb : Tendsto (fun p : ℝ × ℝ => p.2) (𝓝[>] (0 : ℝ) ×ˢ (atTop : Filter ℝ)) atTop := tendsto_snd
  have e : ∀ᶠ p : ℝ × ℝ in (𝓝[>] (0 : ℝ) ×ˢ (atTop : Filter ℝ)), U p.1 p.2 = V p.1 p.2 := by
    filter_upwards [ta.eventually self_mem_nhdsWithin, ta.eventually (nhdsWithin_le_nhds (gt_mem_nhds hw)), tb.eventually (eventually_gt_atTop w)] with p h1 h2 h3
    exact tendsto_nhds_unique (hU p.1 p.2 h1 h2 h3) (hV p.1 p.2 h1 h2 h3)
  have h := tendsto_nhds_unique tU (tV.congr' (e.mono fun p hp => hp.symm))
  exact mul_left_cancel₀ (div_ne_zero Real.pi_ne_zero two_ne_zero) h

lemma lz_im {A E g x : ℝ} (hg : 0 < g) (hx : 0 < x) : (lz A E g x).im = A * g * x / ((x ^ 2 - E ^ 2) ^ 2 + g ^ 2 * x ^ 2) := by
  have hd : (x ^ 2 - E ^ 2) ^ 2 + g ^ 2 * x ^ 2 ≠ 0 := by positivity
  have e : (E : ℂ) ^ 2 - (x : ℂ) ^ 2 - I * g * x = ⟨E ^ 2 - x ^ 2, -(g * x)⟩ := by
    apply Complex.ext <;> simp [pow_two]
  unfold lz
  rw [e, Complex.div_im]
  simp only [Complex.normSq_mk, Complex.ofReal_im, Complex.ofReal_re]
  have : (E ^ 2 - x ^ 2) * (E ^ 2 - x ^ 2) + -(g * x) * -(g * x) = (x ^ 2 - E ^ 2) ^ 2 + g ^ 2 * x ^ 2 := by ring
  rw [this]
  field_simp
  ring

/-- The documented absorption without a gap is that of a Lorentz oscillator. -/
lemma taucAbs_no_gap (A E0 : ℝ) {C x : ℝ} (hC : 0 < C) (hx : 0 < x) : Spec.taucAbsorption x 0 A E0 C = (lz (A * E0) E0 C x).im := by
  have hd : (x ^ 2 - E0 ^ 2) ^ 2 + C ^ 2 * x ^ 2 ≠ 0 := by positivity
  rw [lz_im hC hx]
  unfold Spec.taucAbsorption
  rw [if_neg (not_le.2 hx), sub_zero]
  field_simp

/-- One oscillator. -/
lemma taucTerm_no_gap (A : ℝ) {E0 C E : ℝ} (hE0 : 0 < E0) (hC : 0 < C) (hne : C ≠ 2 * E0) (hE : 0 < E) :
    taucTerm E 0 [("A", A), ("E", E0), ("C", C)] = some (lz (A * E0) E0 C E) := by
  obtain ⟨s, h4, h5⟩ : ∃ s : ℝ, taucEps1 E 0 A E0 C = some (s : ℂ) ∧ Kk (fun x => Spec.taucAbsorption x 0 A E0 C) E s := by
    rcases lt_or_gt_of_ne hne with hu | hu
    · exact tauc_kk 0 A le_rfl hE0 hC hu hE hE.ne'
    · obtain ⟨p, q, hq, hqp, he, hpq⟩ := over_rates hE0 hu
      obtain ⟨s, h6, h7⟩ := tauc_kk_over 0 A le_rfl hE0 hq hqp hpq hE hE.ne'
      rw [he]
      refine ⟨s, ?_, h7⟩
      rw [h6]
      simp [taucExcess]
  have hs : s = (lz (A * E0) E0 C E).re :=
    kk_unique hE (kk_congr (fun x hx => taucAbs_no_gap A E0 hC hx) h5) (lz_kk (A * E0) E0 hC hE)
  rw [taucTerm_split E 0 A E0 C hE hC _ h4, taucAbs_no_gap A E0 hC hE, hs]
  congr 1
  apply Complex.ext <;> simp

/-- **C48.** A `TaucLorentz` model with gap zero, to which 1 is added, is the `LorentzEnergy` model with amplitudes `A E`, resonances `E` and broadenings `C`,
for any oscillators except at critical damping (where `TaucLorentz` gives NaN, `C91_tauc_critical_refuted`). -/
theorem C48_tauc_no_gap (K : PhysConst) (osc : List (ℝ × ℝ × ℝ)) (h : ∀ o ∈ osc, 0 < o.2.1 ∧ 0 < o.2.2 ∧ o.2.2 ≠ 2 * o.2.1) (l : ℝ) (hl : 0 < l) :
    (taucLorentz K [("Eg", 0)] (osc.map fun o => [("A", o.1), ("E", o.2.1), ("C", o.2.2)]) l).map (1 + ·) =
      lorentzEnergy K (osc.map fun o => [("A", o.1 * o.2.1), ("E", o.2.1), ("gamma", o.2.2)]) l := by
  have hE : 0 < photon K l := by rw [photon_eq]; exact div_pos (photon_const_pos K) hl
  have hL := lorentzEnergy_val (osc.map fun o => (o.1 * o.2.1, o.2.1, o.2.2)) (by
    intro o ho
    obtain ⟨o', ho', rfl⟩ := List.mem_map.1 ho
    exact (h o' ho').2.1) hE
  simp only [List.map_map, Function.comp_def] at hL
  have hT : sumN ((osc.map fun o => [("A", o.1), ("E", o.2.1), ("C", o.2.2)]).map (taucTerm (photon K l) 0)) =
      some ((osc.map fun o => lz (o.1 * o.2.1) o.2.1 o.2.2 (photon K l)).sum) := by
    clear hL
    induction osc with
    | nil => rfl
    | cons o osc ih =>
      obtain ⟨h1, h2, h3⟩ := h o (by simp)
      simp only [List.map_cons, sumN, taucTerm_no_gap o.1 h1 h2 h3 hE, ih (fun o ho => h o (List.mem_cons_of_mem _ ho)), Option.map_some, List.sum_cons]
  simp only [List.map_map, Function.comp_def] at hT
  simp only [taucLorentz, lorentzEnergy, energy_photon K hl.ne', Option.bind_eq_bind, Option.bind_some, Dict.get, if_true, hT, List.map_map, Function.comp_def, hL,
    Option.map_some]

lemma map_add_left {x y : Option ℂ} (h : x.map (1 + ·) = y) : x = y.map (fun v => v - 1) := by
  rw [← h]
  cases x <;> simp

/-- **C126.** Without a gap the f-sum rule holds for Tauc-Lorentz oscillators above critical damping as well, with the closed value `W = Σ A E`. -/
theorem C126_sum_rule_tauc_no_gap (K : PhysConst) (osc : List (ℝ × ℝ × ℝ)) (h : ∀ o ∈ osc, 0 < o.2.1 ∧ 0 < o.2.2 ∧ o.2.2 ≠ 2 * o.2.1) :
    Spec.SumRule K.c K.h (taucLorentz K [("Eg", 0)] (osc.map fun o => [("A", o.1), ("E", o.2.1), ("C", o.2.2)])) 0 (osc.map fun o => o.1 * o.2.1).sum := by
  have e : ∀ l, 0 < l → taucLorentz K [("Eg", 0)] (osc.map fun o => [("A", o.1), ("E", o.2.1), ("C", o.2.2)]) l =
      (lorentzEnergy K (osc.map fun o => [("A", o.1 * o.2.1), ("E", o.2.1), ("gamma", o.2.2)]) l).map (fun v => v - 1) :=
    fun l hl => map_add_left (C48_tauc_no_gap K osc h l hl)
  have hs := C126_sum_rule_lorentz_energy K (osc.map fun o => (o.1 * o.2.1, o.2.1, o.2.2)) (by
    intro o ho
    obtain ⟨o', ho', rfl⟩ := List.mem_map.1 ho
    exact (h o' ho').2.1)
  simp only [List.map_map, Function.comp_def] at hs
  obtain ⟨⟨⟨g, g1, g2⟩, ⟨k, k1, k2⟩⟩, f, f1, f2, f3⟩ := hs
  refine ⟨⟨⟨fun l => g l - 1, ?_, ?_⟩, k, ?_, k2⟩, fun E => f E - 1, ?_, ?_, ?_⟩
  · filter_upwards [g1, self_mem_nhdsWithin] with l h1 h2
    rw [e l h2, h1, Option.map_some]
  · simpa using g2.sub_const 1
  · filter_upwards [k1, self_mem_nhdsWithin] with l h1 h2
    rw [← h1, e l h2, Option.map_map]
    congr 1
    funext v
    simp only [Function.comp]
    ring
  · filter_upwards [f1] with l h1 h2
    rw [e l h2, h1 h2, Option.map_some]
  · simpa using f2
  · simpa using f3

/-- **C126.** The static value without a gap is `Σ A / E`. -/
theorem C126_static_tauc_no_gap (K : PhysConst) (osc : List (ℝ × ℝ × ℝ)) (h : ∀ o ∈ osc, 0 < o.2.1 ∧ 0 < o.2.2 ∧ o.2.2 ≠ 2 * o.2.1) :
    Spec.Static (taucLorentz K [("Eg", 0)] (osc.map fun o => [("A", o.1), ("E", o.2.1), ("C", o.2.2)])) (osc.map fun o => (o.1 : ℂ) / (o.2.1 : ℂ)).sum := by
  have hs := C126_static_lorentz_energy K (osc.map fun o => (o.1 * o.2.1, o.2.1, o.2.2)) (by
    intro o ho
    obtain ⟨o', ho', rfl⟩ := List.mem_map.1 ho
    exact (h o' ho').1.ne')
  simp only [List.map_map, Function.comp_def] at hs
  have e2 : (osc.map fun o => ((o.1 * o.2.1 : ℝ) : ℂ) / (o.2.1 : ℂ) ^ 2) = osc.map fun o => (o.1 : ℂ) / (o.2.1 : ℂ) := by
    refine List.map_congr_left fun o ho => ?_
    have : (o.2.1 : ℂ) ≠ 0 := by exact_mod_cast (h o ho).1.ne'
    push_cast
    field_simp
  rw [e2] at hs
  obtain ⟨g, g1, g2⟩ := hs
  refine ⟨fun l => g l - 1, ?_, ?_⟩
  · filter_upwards [g1, eventually_gt_atTop 0] with l h1 h2
    rw [map_add_left (C48_tauc_no_gap K osc h l h2), h1, Option.map_some]
  · simpa using g2.sub_const 1

/-- Two oscillators, one of them above critical damping. -/
example (K : PhysConst) : (taucLorentz K [("Eg", 0)] [[("A", 20), ("E", 3), ("C", 1)], [("A", 5), ("E", 2), ("C", 7)]] 500).map (1 + ·) =
    lorentzEnergy K [[("A", 60), ("E", 3), ("gamma", 1)], [("A", 10), ("E", 2), ("gamma", 7)]] 500 := by
  have := C48_tauc_no_gap K [(20, 3, 1), (5, 2, 7)] (by simp; norm_num) 500 (by norm_num)
  simp only [List.map_cons, List.map_nil] at this
  rw [this]
  norm_num

/-- Their sum rule: `W = 20 · 3 + 5 · 2`. -/
example (K : PhysConst) : Spec.SumRule K.c K.h (taucLorentz K [("Eg", 0)] [[("A", 20), ("E", 3), ("C", 1)], [("A", 5), ("E", 2), ("C", 7)]]) 0 70 := by
  have := C126_sum_rule_tauc_no_gap K [(20, 3, 1), (5, 2, 7)] (by simp; norm_num)
  norm_num at this
  exact this

end PyElli
