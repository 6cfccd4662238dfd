import Verif.Props.KkrDispersion
import Verif.Spec.DispLimits

/-! # The dispersion models far away from their resonances (C126) -/

namespace PyElli

open Filter Topology MeasureTheory Complex

/-! ## Sums of terms -/

lemma approaches_sum {α : Type*} {F : Filter ℝ} (T : ℝ → α → Option ℂ) (L : List α) (z : α → ℂ) (h : ∀ o ∈ L, Spec.Approaches F (fun l => T l o) (z o)) :
    Spec.Approaches F (fun l => sumN (L.map (T l))) (L.map z).sum := by
  induction L with
  | nil => exact ⟨fun _ => 0, Eventually.of_forall fun _ => rfl, tendsto_const_nhds⟩
  | cons o L ih =>
    obtain ⟨g, h1, h2⟩ := h o (by simp)
    obtain ⟨k, h3, h4⟩ := ih fun o ho => h o (List.mem_cons_of_mem _ ho)
    refine ⟨fun l => g l + k l, ?_, by simpa using h2.add h4⟩
    filter_upwards [h1, h3] with l a b
    simp only [List.map_cons, sumN, a, b, Option.map_some]

lemma free_sum {α : Type*} {c h : ℝ} (T : ℝ → α → Option ℂ) (L : List α) (W : α → ℂ) (H : ∀ o ∈ L, Spec.FreeElectrons c h (fun l => T l o) 0 (W o)) :
    Spec.FreeElectrons c h (fun l => sumN (L.map (T l))) 0 (L.map W).sum := by
  refine ⟨by simpa using approaches_sum T L (fun _ => 0) fun o ho => (H o ho).1, ?_⟩
  induction L with
  | nil => exact ⟨fun _ => 0, Eventually.of_forall fun _ => by simp [sumN], tendsto_const_nhds⟩
  | cons o L ih =>
    obtain ⟨⟨g0, a1, _⟩, ⟨g, h1, h2⟩⟩ := H o (by simp)
    obtain ⟨k0, a3, _⟩ := approaches_sum T L (fun _ => 0) fun o ho => (H o (List.mem_cons_of_mem _ ho)).1
    obtain ⟨k, h3, h4⟩ := ih fun o ho => H o (List.mem_cons_of_mem _ ho)
    refine ⟨fun l => g l + k l, ?_, by simpa using h2.add h4⟩
    filter_upwards [h1, h3, a1, a3] with l b1 b2 b3 b4
    simp only [b3, b4, Option.map_some, Option.some.injEq] at b1 b2
    simp only [List.map_cons, sumN, b3, b4, Option.map_some, ← b1, ← b2, Option.some.injEq]
    ring

/-- Adding a constant moves the limit. -/
lemma free_shift {c h : ℝ} {f : ℝ → Option ℂ} {z W : ℂ} (a : ℂ) (H : Spec.FreeElectrons c h f z W) :
    Spec.FreeElectrons c h (fun l => (f l).bind fun t => some (a + t)) (a + z) W := by
  obtain ⟨⟨g, h1, h2⟩, k, h3, h4⟩ := H
  refine ⟨⟨fun l => a + g l, ?_, h2.const_add a⟩, k, ?_, h4⟩
  · filter_upwards [h1] with l b
    simp [b]
  · filter_upwards [h1, h3] with l b b'
    simp only [b, Option.map_some, Option.some.injEq] at b'
    simp only [b, Option.bind_some, Option.map_some, ← b', Option.some.injEq]
    ring

lemma approaches_shift {F : Filter ℝ} {f : ℝ → Option ℂ} {z : ℂ} (a : ℂ) (H : Spec.Approaches F f z) :
    Spec.Approaches F (fun l => (f l).bind fun t => some (a + t)) (a + z) := by
  obtain ⟨g, h1, h2⟩ := H
  refine ⟨fun l => a + g l, ?_, h2.const_add a⟩
  filter_upwards [h1] with l b
  simp [b]

lemma approaches_congr {F : Filter ℝ} {f f' : ℝ → Option ℂ} {z : ℂ} (h : ∀ᶠ l in F, f l = f' l) (H : Spec.Approaches F f' z) : Spec.Approaches F f z := by
  obtain ⟨g, h1, h2⟩ := H
  refine ⟨g, ?_, h2⟩
  filter_upwards [h, h1] with l a b
  rw [a, b]

lemma free_congr {c h : ℝ} {f f' : ℝ → Option ℂ} {z W : ℂ} (e : ∀ᶠ l in 𝓝[>] 0, f l = f' l) (H : Spec.FreeElectrons c h f' z W) : Spec.FreeElectrons c h f z W :=
  ⟨approaches_congr e H.1, approaches_congr (by filter_upwards [e] with l a; rw [a]) H.2⟩

/-! ## The variable `1/E` -/

/-- The inverse photon energy. -/
noncomputable def invPhoton (K : PhysConst) (l : ℝ) : ℝ := l / (K.c * K.h / 1e-9)

lemma invPhoton_tendsto (K : PhysConst) : Tendsto (invPhoton K) (𝓝[>] 0) (𝓝[>] 0) := by
  have hk := photon_const_pos K
  refine tendsto_nhdsWithin_iff.2 ⟨?_, ?_⟩
  · have : Tendsto (invPhoton K) (𝓝 0) (𝓝 (0 / (K.c * K.h / 1e-9))) := tendsto_id.div_const _
    rw [zero_div] at this
    exact this.mono_left nhdsWithin_le_nhds
  · filter_upwards [self_mem_nhdsWithin] with l hl
    exact div_pos hl hk

lemma photon_inv (K : PhysConst) (l : ℝ) : photon K l = (invPhoton K l)⁻¹ := by
  rw [photon_eq, invPhoton, inv_div]

lemma photonEnergy_eq (K : PhysConst) (l : ℝ) : Spec.photonEnergy K.c K.h l = (invPhoton K l)⁻¹ := photon_inv K l

/-- A function of the photon energy that behaves as `-W u²` for small `u = 1/E`. -/
lemma free_of_energy (K : PhysConst) {f : ℝ → Option ℂ} {W : ℂ} (G r : ℝ → ℂ) (h1 : ∀ᶠ u : ℝ in 𝓝[>] 0, f u⁻¹ = some (G u))
    (h2 : ∀ᶠ u : ℝ in 𝓝[>] 0, G u = -(u : ℂ) ^ 2 * r u) (h3 : Tendsto r (𝓝[>] 0) (𝓝 W)) :
    Spec.FreeElectrons K.c K.h (fun l => (conversionWavelengthEnergy K l).bind f) 0 W := by
  have hi := invPhoton_tendsto K
  have hz : Tendsto (fun u : ℝ => -(u : ℂ) ^ 2 * r u) (𝓝[>] 0) (𝓝 0) := by
    have h4 : Tendsto (fun u : ℝ => -(u : ℂ) ^ 2) (𝓝[>] 0) (𝓝 (-(((0 : ℝ) : ℂ)) ^ 2)) :=
      ((by fun_prop : Continuous fun u : ℝ => -(u : ℂ) ^ 2).tendsto 0).mono_left nhdsWithin_le_nhds
    simpa using h4.mul h3
  refine ⟨⟨fun l => -(invPhoton K l : ℂ) ^ 2 * r (invPhoton K l), ?_, hz.comp hi⟩, fun l => r (invPhoton K l), ?_, h3.comp hi⟩
  · filter_upwards [hi.eventually h1, hi.eventually h2, self_mem_nhdsWithin] with l a b hl
    have hl' : l ≠ 0 := ne_of_gt hl
    rw [energy_photon K hl', Option.bind_some, photon_inv, a, b]
  · filter_upwards [hi.eventually h1, hi.eventually h2, self_mem_nhdsWithin, hi.eventually self_mem_nhdsWithin] with l a b hl hp
    have hl' : l ≠ 0 := ne_of_gt hl
    have hp' : ((invPhoton K l : ℝ) : ℂ) ≠ 0 := by exact_mod_cast ne_of_gt hp
    simp only [energy_photon K hl', Option.bind_some, photon_inv, a, b, Option.map_some, photonEnergy_eq, Option.some.injEq]
    push_cast
    field_simp
    ring

lemma ofReal_small : Tendsto (fun u : ℝ => (u : ℂ)) (𝓝[>] 0) (𝓝 0) := by
  have := (Complex.continuous_ofReal.tendsto 0).mono_left (nhdsWithin_le_nhds (s := Set.Ioi (0 : ℝ)))
  simpa using this

/-! ## Short wavelengths -/

lemma lorentz_free (K : PhysConst) (o : ℝ × ℝ × ℝ) :
    Spec.FreeElectrons K.c K.h (fun l => (conversionWavelengthEnergy K l).bind fun E => lorentzEnergyTerm E [("A", o.1), ("E", o.2.1), ("gamma", o.2.2)]) 0 (o.1 : ℂ) := by
  obtain ⟨A, E0, g⟩ := o
  have hd : Tendsto (fun u : ℝ => 1 + I * g * u - (E0 : ℂ) ^ 2 * (u : ℂ) ^ 2) (𝓝[>] 0) (𝓝 1) := by
    have : Tendsto (fun u : ℂ => 1 + I * g * u - (E0 : ℂ) ^ 2 * u ^ 2) (𝓝 0) (𝓝 (1 + I * g * 0 - (E0 : ℂ) ^ 2 * 0 ^ 2)) := (by fun_prop : Continuous _).tendsto _
    simpa [Function.comp_def] using this.comp ofReal_small
  have key : ∀ u : ℝ, u ≠ 0 → (E0 : ℂ) ^ 2 - ((u⁻¹ : ℝ) : ℂ) ^ 2 - I * g * ((u⁻¹ : ℝ) : ℂ) = -((u : ℂ) ^ 2)⁻¹ * (1 + I * g * u - (E0 : ℂ) ^ 2 * (u : ℂ) ^ 2) := by
    intro u hu
    have : (u : ℂ) ≠ 0 := by exact_mod_cast hu
    push_cast
    field_simp
    ring
  refine free_of_energy K (fun u => (A : ℂ) / ((E0 : ℂ) ^ 2 - ((u⁻¹ : ℝ) : ℂ) ^ 2 - I * g * ((u⁻¹ : ℝ) : ℂ))) (fun u => A / (1 + I * g * u - (E0 : ℂ) ^ 2 * (u : ℂ) ^ 2)) ?_ ?_ ?_
  · filter_upwards [self_mem_nhdsWithin, hd.eventually_ne one_ne_zero] with u hu hn
    have hu' : u ≠ 0 := ne_of_gt hu
    have hu'' : (u : ℂ) ≠ 0 := by exact_mod_cast hu'
    have : (E0 : ℂ) ^ 2 - ((u⁻¹ : ℝ) : ℂ) ^ 2 - I * g * ((u⁻¹ : ℝ) : ℂ) ≠ 0 := by
      rw [key u hu']
      exact mul_ne_zero (neg_ne_zero.2 (inv_ne_zero (pow_ne_zero 2 hu''))) hn
    simp only [lorentzEnergyTerm, Dict.get, Option.bind_eq_bind]
    simp only [String.reduceEq, if_true, if_false, Option.bind_some, divN_ne this]
  · filter_upwards [self_mem_nhdsWithin, hd.eventually_ne one_ne_zero] with u hu hn
    have hu' : u ≠ 0 := ne_of_gt hu
    have hu'' : (u : ℂ) ≠ 0 := by exact_mod_cast hu'
    rw [key u hu']
    generalize 1 + I * g * u - (E0 : ℂ) ^ 2 * (u : ℂ) ^ 2 = d at *
    field_simp
  · simpa [Pi.div_def] using tendsto_const_nhds.div hd one_ne_zero

/-- C126: any Lorentz oscillators in energy approach vacuum, with the sum of the amplitudes as the square of the plasma energy. -/
theorem C126_lorentz_energy (K : PhysConst) (osc : List (ℝ × ℝ × ℝ)) :
    Spec.FreeElectrons K.c K.h (lorentzEnergy K (osc.map fun o => [("A", o.1), ("E", o.2.1), ("gamma", o.2.2)])) 1 ((osc.map fun o => (o.1 : ℂ)).sum) := by
  have h0 := free_sum (α := ℝ × ℝ × ℝ) (c := K.c) (h := K.h)
    (fun l o => (conversionWavelengthEnergy K l).bind fun E => lorentzEnergyTerm E [("A", o.1), ("E", o.2.1), ("gamma", o.2.2)]) osc (fun o => (o.1 : ℂ))
    fun o _ => lorentz_free K o
  have h := free_shift 1 h0
  rw [add_zero] at h
  refine free_congr ?_ h
  filter_upwards [self_mem_nhdsWithin] with l hl
  have hl' : l ≠ 0 := ne_of_gt hl
  simp only [lorentzEnergy, energy_photon K hl', Option.bind_eq_bind, Option.bind_some, List.map_map, Function.comp_def]

/-- Terms given over the wavelength: `A l² / d(l)` with `d → -r ≠ 0`. -/
lemma lambda_free (K : PhysConst) {f : ℝ → Option ℂ} (A r : ℂ) (hr : r ≠ 0) (d : ℝ → ℂ) (hd : Tendsto d (𝓝[>] 0) (𝓝 (-r)))
    (h : ∀ l, d l ≠ 0 → f l = some (A * (l : ℂ) ^ 2 / d l)) :
    Spec.FreeElectrons K.c K.h f 0 (((K.c * K.h / 1e-9 : ℝ) : ℂ) ^ 2 * (A / r)) := by
  have hn := hd.eventually_ne (neg_ne_zero.2 hr)
  refine ⟨⟨fun l => A * (l : ℂ) ^ 2 / d l, ?_, ?_⟩, fun l => ((K.c * K.h / 1e-9 : ℝ) : ℂ) ^ 2 * (-A / d l), ?_, ?_⟩
  · filter_upwards [hn] with l a
    exact h l a
  · have := (tendsto_const_nhds (x := A)).mul (ofReal_small.pow 2)
    simpa [Pi.div_def] using this.div hd (neg_ne_zero.2 hr)
  · filter_upwards [hn, self_mem_nhdsWithin] with l a hl
    have hl' : (l : ℂ) ≠ 0 := by exact_mod_cast (ne_of_gt hl : l ≠ 0)
    rw [h l a, Option.map_some, show Spec.photonEnergy K.c K.h l = K.c * K.h / 1e-9 / l from photon_eq K l]
    generalize K.c * K.h / 1e-9 = k
    push_cast
    congr 1
    generalize d l = x at *
    field_simp
    ring
  · have := ((tendsto_const_nhds (x := -A)).div hd (neg_ne_zero.2 hr)).const_mul (((K.c * K.h / 1e-9 : ℝ) : ℂ) ^ 2)
    rwa [neg_div_neg_eq] at this

/-- C126: any Lorentz oscillators over the wavelength approach vacuum; each carries the plasma energy `√A` times its resonance energy. -/
theorem C126_lorentz_lambda (K : PhysConst) (osc : List (ℝ × ℝ × ℝ)) (h : ∀ o ∈ osc, o.2.1 ≠ 0) :
    Spec.FreeElectrons K.c K.h (lorentzLambda (osc.map fun o => [("A", o.1), ("lambda_r", o.2.1), ("gamma", o.2.2)])) 1
      ((osc.map fun o => (o.1 : ℂ) * (Spec.photonEnergy K.c K.h o.2.1 : ℂ) ^ 2).sum) := by
  have H := free_shift 1 (free_sum (c := K.c) (h := K.h) (fun l o => lorentzLambdaTerm l [("A", o.1), ("lambda_r", o.2.1), ("gamma", o.2.2)]) osc
    (fun o => (o.1 : ℂ) * (Spec.photonEnergy K.c K.h o.2.1 : ℂ) ^ 2) fun o ho => ?_)
  · rw [add_zero] at H
    refine free_congr (Eventually.of_forall fun l => ?_) H
    simp only [lorentzLambda, Option.bind_eq_bind, List.map_map, Function.comp_def]
  · have hr : (o.2.1 : ℂ) ≠ 0 := by exact_mod_cast h o ho
    have hd : Tendsto (fun l : ℝ => (l : ℂ) ^ 2 - (o.2.1 : ℂ) ^ 2 - I * o.2.2 * l) (𝓝[>] 0) (𝓝 (-(o.2.1 : ℂ) ^ 2)) := by
      have : Tendsto (fun l : ℂ => l ^ 2 - (o.2.1 : ℂ) ^ 2 - I * o.2.2 * l) (𝓝 0) (𝓝 (0 ^ 2 - (o.2.1 : ℂ) ^ 2 - I * o.2.2 * 0)) := (by fun_prop : Continuous _).tendsto _
      simpa [Function.comp_def] using this.comp ofReal_small
    have := lambda_free K (f := fun l => lorentzLambdaTerm l [("A", o.1), ("lambda_r", o.2.1), ("gamma", o.2.2)]) o.1 _ (pow_ne_zero 2 hr) _ hd (fun l hl => by
      simp only [lorentzLambdaTerm, Dict.get, Option.bind_eq_bind]
      simp only [String.reduceEq, if_true, if_false, Option.bind_some, divN_ne hl])
    rw [show Spec.photonEnergy K.c K.h o.2.1 = K.c * K.h / 1e-9 / o.2.1 from photon_eq K _]
    convert this using 1
    generalize K.c * K.h / 1e-9 = k
    push_cast
    ring

/-- C126: Sellmeier's equation approaches vacuum; `B` is the square of the resonance wavelength in micrometres. -/
theorem C126_sellmeier (K : PhysConst) (osc : List (ℝ × ℝ)) (h : ∀ o ∈ osc, o.2 ≠ 0) :
    Spec.FreeElectrons K.c K.h (sellmeier (osc.map fun o => [("A", o.1), ("B", o.2)])) 1
      ((osc.map fun o => (o.1 : ℂ) * (Spec.photonEnergy K.c K.h 1000 : ℂ) ^ 2 / o.2).sum) := by
  have H := free_shift 1 (free_sum (c := K.c) (h := K.h) (fun l o => sellmeierTerm (l / 1e3) [("A", o.1), ("B", o.2)]) osc
    (fun o => (o.1 : ℂ) * (Spec.photonEnergy K.c K.h 1000 : ℂ) ^ 2 / o.2) fun o ho => ?_)
  · rw [add_zero] at H
    refine free_congr (Eventually.of_forall fun l => ?_) H
    simp only [sellmeier, Option.bind_eq_bind, List.map_map, Function.comp_def]
  · have hr : (o.2 : ℂ) ≠ 0 := by exact_mod_cast h o ho
    have hd : Tendsto (fun l : ℝ => (l : ℂ) ^ 2 - 1000 ^ 2 * (o.2 : ℂ)) (𝓝[>] 0) (𝓝 (-(1000 ^ 2 * (o.2 : ℂ)))) := by
      have : Tendsto (fun l : ℂ => l ^ 2 - 1000 ^ 2 * (o.2 : ℂ)) (𝓝 0) (𝓝 (0 ^ 2 - 1000 ^ 2 * (o.2 : ℂ))) := (by fun_prop : Continuous _).tendsto _
      simpa [Function.comp_def] using this.comp ofReal_small
    have := lambda_free K (f := fun l => sellmeierTerm (l / 1e3) [("A", o.1), ("B", o.2)]) o.1 _ (mul_ne_zero (by norm_num) hr) _ hd (fun l hl => by
      have hx : (l / 1e3) ^ 2 - o.2 = (l ^ 2 - 1000 ^ 2 * o.2) / 1000 ^ 2 := by norm_num; ring
      have hl' : l ^ 2 - 1000 ^ 2 * o.2 ≠ 0 := by exact_mod_cast hl
      have hn : (l / 1e3) ^ 2 - o.2 ≠ 0 := by rw [hx]; exact div_ne_zero hl' (by norm_num)
      simp only [sellmeierTerm, Dict.get, Option.bind_eq_bind]
      simp only [String.reduceEq, if_true, if_false, Option.bind_some, divN_ne hn, toC, Option.map_some, Option.some.injEq]
      rw [hx, show ((o.1 : ℂ) * (l : ℂ) ^ 2 / ((l : ℂ) ^ 2 - 1000 ^ 2 * (o.2 : ℂ))) = ((o.1 * l ^ 2 / (l ^ 2 - 1000 ^ 2 * o.2) : ℝ) : ℂ) by push_cast; rfl]
      congr 1
      generalize l ^ 2 - 1000 ^ 2 * o.2 = x at *
      norm_num
      field_simp
      norm_num)
    rw [show Spec.photonEnergy K.c K.h 1000 = K.c * K.h / 1e-9 / 1000 from photon_eq K _]
    convert this using 1
    generalize K.c * K.h / 1e-9 = k
    push_cast
    field_simp

/-- The Drude models have the opposite sign: they fall off as free electrons of the negative squared plasma energy `-A`. -/
theorem C126_drude_refuted (K : PhysConst) (A g : ℝ) : Spec.FreeElectrons K.c K.h (drudeEnergy K [("A", A), ("gamma", g)]) 0 (-A : ℂ) := by
  have hd : Tendsto (fun u : ℝ => 1 - I * g * (u : ℂ)) (𝓝[>] 0) (𝓝 1) := by
    have : Tendsto (fun u : ℂ => 1 - I * g * u) (𝓝 0) (𝓝 (1 - I * g * 0)) := (by fun_prop : Continuous _).tendsto _
    simpa [Function.comp_def] using this.comp ofReal_small
  have key : ∀ u : ℝ, u ≠ 0 → ((u⁻¹ : ℝ) : ℂ) ^ 2 - I * g * ((u⁻¹ : ℝ) : ℂ) = ((u : ℂ) ^ 2)⁻¹ * (1 - I * g * u) := by
    intro u hu
    have : (u : ℂ) ≠ 0 := by exact_mod_cast hu
    push_cast
    field_simp
  have H := free_of_energy K (f := fun E : ℝ => divN (A : ℂ) ((E : ℂ) ^ 2 - I * g * E)) (fun u => (A : ℂ) / (((u⁻¹ : ℝ) : ℂ) ^ 2 - I * g * ((u⁻¹ : ℝ) : ℂ)))
    (fun u => -A / (1 - I * g * (u : ℂ))) (W := -A) ?_ ?_ ?_
  · refine free_congr (Eventually.of_forall fun l => ?_) H
    simp only [drudeEnergy, Dict.get, Option.bind_eq_bind]
    simp only [String.reduceEq, if_true, if_false, Option.bind_some]
  · filter_upwards [self_mem_nhdsWithin, hd.eventually_ne one_ne_zero] with u hu hn
    have hu' : u ≠ 0 := ne_of_gt hu
    have hu'' : (u : ℂ) ≠ 0 := by exact_mod_cast hu'
    rw [divN_ne]
    rw [key u hu']
    exact mul_ne_zero (inv_ne_zero (pow_ne_zero 2 hu'')) hn
  · filter_upwards [self_mem_nhdsWithin, hd.eventually_ne one_ne_zero] with u hu hn
    have hu' : u ≠ 0 := ne_of_gt hu
    have hu'' : (u : ℂ) ≠ 0 := by exact_mod_cast hu'
    rw [key u hu']
    generalize 1 - I * g * (u : ℂ) = d at *
    field_simp
  · simpa [Pi.div_def] using (tendsto_const_nhds (x := (-A : ℂ))).div hd one_ne_zero

theorem C126_drude_resistivity_refuted (K : PhysConst) (rho tau : ℝ) (hr : rho ≠ 0) (ht : tau ≠ 0) :
    Spec.FreeElectrons K.c K.h (drudeResistivity K [("rho_opt", rho), ("tau", tau)]) 0
      (-(((K.h / (2 * Real.pi)) ^ 2 / (K.eps0 * 1e-2 * rho * tau) : ℝ) : ℂ)) :=
  free_congr (Eventually.of_forall fun l => C48_drude K rho tau l hr ht) (C126_drude_refuted K _ _)

/-- The infrared pole has the opposite sign as well: it takes away from the plasma energy of the ultraviolet pole. -/
theorem C126_poles_refuted (K : PhysConst) (a b E0 : ℝ) :
    Spec.FreeElectrons K.c K.h (poles K [("A_ir", a), ("A_uv", b), ("E_uv", E0)]) 0 ((b : ℂ) - a) := by
  have hd : Tendsto (fun u : ℝ => (1 : ℂ) - (E0 : ℂ) ^ 2 * (u : ℂ) ^ 2) (𝓝[>] 0) (𝓝 1) := by
    have : Tendsto (fun u : ℂ => (1 : ℂ) - (E0 : ℂ) ^ 2 * u ^ 2) (𝓝 0) (𝓝 (1 - (E0 : ℂ) ^ 2 * 0 ^ 2)) := (by fun_prop : Continuous _).tendsto _
    simpa [Function.comp_def] using this.comp ofReal_small
  have key : ∀ u : ℝ, u ≠ 0 → E0 ^ 2 - u⁻¹ ^ 2 = -(u ^ 2)⁻¹ * (1 - E0 ^ 2 * u ^ 2) := by
    intro u hu
    field_simp
    ring
  have H := free_of_energy K (f := fun E : ℝ => (divN a (E ^ 2)).bind fun x => (divN b (E0 ^ 2 - E ^ 2)).bind fun y => some ((x + y : ℝ) : ℂ))
    (fun u => ((a / u⁻¹ ^ 2 + b / (E0 ^ 2 - u⁻¹ ^ 2) : ℝ) : ℂ))
    (fun u => b / (1 - (E0 : ℂ) ^ 2 * (u : ℂ) ^ 2) - a) (W := (b : ℂ) - a) ?_ ?_ ?_
  · refine free_congr (Eventually.of_forall fun l => ?_) H
    simp only [poles, Dict.get, Option.bind_eq_bind]
    simp only [String.reduceEq, if_true, if_false, Option.bind_some]
  · filter_upwards [self_mem_nhdsWithin, hd.eventually_ne one_ne_zero] with u hu hn
    have hu' : u ≠ 0 := ne_of_gt hu
    have hn' : 1 - E0 ^ 2 * u ^ 2 ≠ 0 := by exact_mod_cast hn
    rw [divN_ne (pow_ne_zero 2 (inv_ne_zero hu')), divN_ne (by rw [key u hu']; exact mul_ne_zero (neg_ne_zero.2 (inv_ne_zero (pow_ne_zero 2 hu'))) hn')]
    rfl
  · filter_upwards [self_mem_nhdsWithin, hd.eventually_ne one_ne_zero] with u hu hn
    have hu' : u ≠ 0 := ne_of_gt hu
    have hu'' : (u : ℂ) ≠ 0 := by exact_mod_cast hu'
    rw [key u hu']
    push_cast
    generalize 1 - (E0 : ℂ) ^ 2 * (u : ℂ) ^ 2 = d at *
    field_simp
    ring
  · simpa [Pi.div_def] using ((tendsto_const_nhds (x := (b : ℂ))).div hd one_ne_zero).sub_const (a : ℂ)

/-! ## Gaussian oscillators -/

/-- Dawson's integral falls off as `1 / (2x)`, up to the order `1 / x²` and beyond. -/
lemma dawson_tail {D : ℝ → ℝ} (hD : ∀ x, D x = Real.exp (-x ^ 2) * ∫ u in (0 : ℝ)..x, Real.exp (u ^ 2)) :
    Tendsto (fun x : ℝ => x ^ 2 * (D x - 1 / (2 * x))) atTop (𝓝 0) := by
  set F : ℝ → ℝ := fun x => ∫ u in (0 : ℝ)..x, Real.exp (u ^ 2) with hF
  have dF : ∀ x, HasDerivAt F (Real.exp (x ^ 2)) x := fun x =>
    intervalIntegral.integral_hasDerivAt_right ((by fun_prop : Continuous fun u : ℝ => Real.exp (u ^ 2)).intervalIntegrable _ _)
      (by fun_prop : Continuous fun u : ℝ => Real.exp (u ^ 2)).aestronglyMeasurable.stronglyMeasurableAtFilter (by fun_prop : Continuous fun u : ℝ => Real.exp (u ^ 2)).continuousAt
  -- upper and lower comparison functions
  let G : ℝ → ℝ := fun x => Real.exp (x ^ 2) * (1 / (2 * x) + 1 / (2 * x ^ 3))
  let H : ℝ → ℝ := fun x => Real.exp (x ^ 2) * (1 / (2 * x))
  have dE : ∀ x : ℝ, HasDerivAt (fun x : ℝ => Real.exp (x ^ 2)) (Real.exp (x ^ 2) * (2 * x)) x := fun x => by
    simpa using (hasDerivAt_pow 2 x).exp
  have d1 : ∀ x : ℝ, 0 < x → HasDerivAt (fun x : ℝ => 1 / (2 * x)) (-1 / (2 * x ^ 2)) x := fun x hx => by
    have h0 : HasDerivAt (fun x : ℝ => 2 * x) (2 * 1) x := (hasDerivAt_id x).const_mul 2
    have h1 : HasDerivAt (fun x : ℝ => 1 / (2 * x)) _ x := (hasDerivAt_const x (1 : ℝ)).fun_div h0 (by positivity)
    refine h1.congr_deriv ?_
    field_simp
    ring
  have d3 : ∀ x : ℝ, 0 < x → HasDerivAt (fun x : ℝ => 1 / (2 * x ^ 3)) (-3 / (2 * x ^ 4)) x := fun x hx => by
    have h0 : HasDerivAt (fun x : ℝ => 2 * x ^ 3) (2 * (3 * x ^ 2)) x := by simpa using (hasDerivAt_pow 3 x).const_mul 2
    have h1 : HasDerivAt (fun x : ℝ => 1 / (2 * x ^ 3)) _ x := (hasDerivAt_const x (1 : ℝ)).fun_div h0 (by positivity)
    refine h1.congr_deriv ?_
    field_simp
    ring
  have dH : ∀ x : ℝ, 0 < x → HasDerivAt H (Real.exp (x ^ 2) * (1 - 1 / (2 * x ^ 2))) x := fun x hx => by
    have h1 : HasDerivAt H _ x := (dE x).fun_mul (d1 x hx)
    refine h1.congr_deriv ?_
    field_simp
    ring
  have dG : ∀ x : ℝ, 0 < x → HasDerivAt G (Real.exp (x ^ 2) * (1 + 1 / (2 * x ^ 2) - 3 / (2 * x ^ 4))) x := fun x hx => by
    have h1 : HasDerivAt G _ x := (dE x).fun_mul ((d1 x hx).fun_add (d3 x hx))
    refine h1.congr_deriv ?_
    field_simp
    ring
  have m1 : MonotoneOn (fun x => F x - H x) (Set.Ici 2) := by
    refine monotoneOn_of_deriv_nonneg (convex_Ici 2) ?_ ?_ ?_
    · intro x hx
      have : (0 : ℝ) < x := lt_of_lt_of_le two_pos hx
      exact ((dF x).sub (dH x this)).continuousAt.continuousWithinAt
    · intro x hx
      rw [interior_Ici] at hx
      have : (0 : ℝ) < x := lt_trans two_pos hx
      exact ((dF x).sub (dH x this)).differentiableAt.differentiableWithinAt
    · intro x hx
      rw [interior_Ici] at hx
      have : (0 : ℝ) < x := lt_trans two_pos hx
      rw [((dF x).fun_sub (dH x this)).deriv]
      have : Real.exp (x ^ 2) - Real.exp (x ^ 2) * (1 - 1 / (2 * x ^ 2)) = Real.exp (x ^ 2) * (1 / (2 * x ^ 2)) := by ring
      rw [this]
      positivity
  have m2 : MonotoneOn (fun x => G x - F x) (Set.Ici 2) := by
    refine monotoneOn_of_deriv_nonneg (convex_Ici 2) ?_ ?_ ?_
    · intro x hx
      have : (0 : ℝ) < x := lt_of_lt_of_le two_pos hx
      exact ((dG x this).sub (dF x)).continuousAt.continuousWithinAt
    · intro x hx
      rw [interior_Ici] at hx
      have : (0 : ℝ) < x := lt_trans two_pos hx
      exact ((dG x this).sub (dF x)).differentiableAt.differentiableWithinAt
    · intro x hx
      rw [interior_Ici] at hx
      have h2 : (2 : ℝ) < x := hx
      have : (0 : ℝ) < x := lt_trans two_pos hx
      rw [((dG x this).fun_sub (dF x)).deriv]
      have : Real.exp (x ^ 2) * (1 + 1 / (2 * x ^ 2) - 3 / (2 * x ^ 4)) - Real.exp (x ^ 2) = Real.exp (x ^ 2) * ((x ^ 2 - 3) / (2 * x ^ 4)) := by
        field_simp
        ring
      rw [this]
      have : 0 < x ^ 2 - 3 := by nlinarith
      positivity
  have hlo : ∀ x, 2 ≤ x → 1 / (2 * x) - |F 2 - H 2| * Real.exp (-x ^ 2) ≤ D x := fun x hx => by
    have h1 := m1 (Set.mem_Ici.2 le_rfl) (Set.mem_Ici.2 hx) hx
    simp only at h1
    have h2 : D x = Real.exp (-x ^ 2) * F x := hD x
    have h3 : Real.exp (-x ^ 2) * H x = 1 / (2 * x) := by
      simp only [H]
      rw [← mul_assoc, ← Real.exp_add]
      simp
    have h4 := Real.exp_pos (-x ^ 2)
    have h5 := neg_abs_le (F 2 - H 2)
    rw [h2, ← h3]
    nlinarith
  have hup : ∀ x, 2 ≤ x → D x ≤ 1 / (2 * x) + 1 / (2 * x ^ 3) + |G 2 - F 2| * Real.exp (-x ^ 2) := fun x hx => by
    have h1 := m2 (Set.mem_Ici.2 le_rfl) (Set.mem_Ici.2 hx) hx
    simp only at h1
    have h2 : D x = Real.exp (-x ^ 2) * F x := hD x
    have h3 : Real.exp (-x ^ 2) * G x = 1 / (2 * x) + 1 / (2 * x ^ 3) := by
      simp only [G]
      rw [← mul_assoc, ← Real.exp_add]
      simp
    have h4 := Real.exp_pos (-x ^ 2)
    have h5 := neg_abs_le (G 2 - F 2)
    rw [h2, ← h3]
    nlinarith
  -- the remainders vanish
  have hexp : Tendsto (fun x : ℝ => x ^ 2 * Real.exp (-x ^ 2)) atTop (𝓝 0) := by
    have h1 : Tendsto (fun x : ℝ => x ^ 1 * Real.exp (-x)) atTop (𝓝 0) := Real.tendsto_pow_mul_exp_neg_atTop_nhds_zero 1
    have h2 := h1.comp (tendsto_pow_atTop (two_ne_zero : (2 : ℕ) ≠ 0) (α := ℝ))
    simpa [Function.comp_def] using h2
  have hinv : Tendsto (fun x : ℝ => 1 / (2 * x)) atTop (𝓝 0) := by
    have := (tendsto_inv_atTop_zero (𝕜 := ℝ)).const_mul (1 / 2)
    rw [mul_zero] at this
    refine this.congr fun x => ?_
    ring
  refine tendsto_of_tendsto_of_tendsto_of_le_of_le' (g := fun x : ℝ => -(|F 2 - H 2| * (x ^ 2 * Real.exp (-x ^ 2))))
    (h := fun x : ℝ => 1 / (2 * x) + |G 2 - F 2| * (x ^ 2 * Real.exp (-x ^ 2))) ?_ ?_ ?_ ?_
  · simpa using (hexp.const_mul _).neg
  · simpa using hinv.add (hexp.const_mul _)
  · filter_upwards [eventually_ge_atTop (2 : ℝ)] with x hx
    have := hlo x hx
    have h2 : 0 ≤ x ^ 2 := sq_nonneg x
    nlinarith
  · filter_upwards [eventually_ge_atTop (2 : ℝ)] with x hx
    have := hup x hx
    have h2 : 0 ≤ x ^ 2 := sq_nonneg x
    have h3 : x ^ 2 * (1 / (2 * x ^ 3)) = 1 / (2 * x) := by
      have : 0 < x := by linarith
      field_simp
    have h4 := mul_le_mul_of_nonneg_left this h2
    nlinarith

lemma energy_shift {d : ℝ → ℝ} (hd : Tendsto (fun x : ℝ => x ^ 2 * d x) atTop (𝓝 0)) {k : ℝ} (hk : 0 < k) (e : ℝ) :
    Tendsto (fun E : ℝ => E ^ 2 * d (k * (E + e))) atTop (𝓝 0) := by
  have hx : Tendsto (fun E : ℝ => k * (E + e)) atTop atTop := (tendsto_atTop_add_const_right _ e tendsto_id).const_mul_atTop hk
  have h1 : Tendsto (fun x : ℝ => (1 / k - e / x) ^ 2) atTop (𝓝 ((1 / k - 0) ^ 2)) :=
    ((tendsto_const_nhds (x := 1 / k)).sub (tendsto_const_nhds.div_atTop tendsto_id)).pow 2
  have h2 := (h1.mul hd).comp hx
  rw [mul_zero] at h2
  refine h2.congr' ?_
  filter_upwards [hx.eventually (eventually_gt_atTop 0)] with E hE
  simp only [Function.comp]
  have : E = (1 / k - e / (k * (E + e))) * (k * (E + e)) := by
    rw [sub_mul, div_mul_cancel₀ _ hE.ne']
    field_simp
    ring
  generalize hX : k * (E + e) = X at *
  have h3 : E ^ 2 = (1 / k - e / X) ^ 2 * X ^ 2 := by rw [← mul_pow, ← this]
  rw [h3]
  ring

lemma gaussian_free {D : ℝ → ℝ} (hD : ∀ x, D x = Real.exp (-x ^ 2) * ∫ u in (0 : ℝ)..x, Real.exp (u ^ 2)) (K : PhysConst) (o : ℝ × ℝ × ℝ) (hs : 0 < o.2.2) :
    Spec.FreeElectrons K.c K.h (fun l => (conversionWavelengthEnergy K l).bind fun E => gaussianTerm D E [("A", o.1), ("E", o.2.1), ("sigma", o.2.2)]) 0
      ((o.1 * o.2.1 * o.2.2 / √(Real.pi * Real.log 2) : ℝ) : ℂ) := by
  obtain ⟨A, E0, sg⟩ := o
  simp only at hs ⊢
  have hk := gaussWidth_pos hs
  set k := gaussWidth sg with hkd
  have tl := dawson_tail hD
  have te : Tendsto (fun x : ℝ => x ^ 2 * Real.exp (-x ^ 2)) atTop (𝓝 0) := by
    have h1 : Tendsto (fun x : ℝ => x ^ 1 * Real.exp (-x)) atTop (𝓝 0) := Real.tendsto_pow_mul_exp_neg_atTop_nhds_zero 1
    have h2 := h1.comp (tendsto_pow_atTop (two_ne_zero : (2 : ℕ) ≠ 0) (α := ℝ))
    simpa [Function.comp_def] using h2
  have q : Tendsto (fun E : ℝ => -(E0 / k) * (1 / (1 - (E0 * E⁻¹) ^ 2))) atTop (𝓝 (-(E0 / k) * (1 / (1 - (E0 * 0) ^ 2)))) := by
    refine ((tendsto_const_nhds.div (tendsto_const_nhds.sub ((tendsto_inv_atTop_zero.const_mul E0).pow 2)) (by simp)).const_mul _)
  have qq : Tendsto (fun E : ℝ => E ^ 2 * (1 / (2 * (k * (E + E0))) - 1 / (2 * (k * (E + -E0))))) atTop (𝓝 (-(E0 / k))) := by
    have : -(E0 / k) * (1 / (1 - (E0 * 0) ^ 2)) = -(E0 / k) := by simp
    rw [this] at q
    refine q.congr' ?_
    filter_upwards [eventually_gt_atTop |E0|] with E hE
    have hE0 : 0 < E := lt_of_le_of_lt (abs_nonneg _) hE
    obtain ⟨h1, h2⟩ := abs_lt.1 hE
    have h3 : E + E0 ≠ 0 := by linarith
    have h4 : E + -E0 ≠ 0 := by linarith
    have h5 : E ^ 2 - E0 ^ 2 ≠ 0 := by
      have : E ^ 2 - E0 ^ 2 = (E + E0) * (E + -E0) := by ring
      rw [this]
      exact mul_ne_zero h3 h4
    have h6 : 1 - (E0 * E⁻¹) ^ 2 = (E ^ 2 - E0 ^ 2) / E ^ 2 := by field_simp
    rw [h6, show 1 / (2 * (k * (E + E0))) - 1 / (2 * (k * (E + -E0))) = -(E0 / k) / (E ^ 2 - E0 ^ 2) by
      have : E ^ 2 - E0 ^ 2 = (E + E0) * (E + -E0) := by ring
      rw [this]
      field_simp
      ring]
    field_simp
  have re : Tendsto (fun E : ℝ => -(E ^ 2 * (2 * A / √Real.pi * (D (k * (E + E0)) - D (k * (E + -E0)))))) atTop (𝓝 (A * E0 * sg / √(Real.pi * Real.log 2))) := by
    have h1 := (((energy_shift tl hk E0).sub (energy_shift tl hk (-E0))).add qq).const_mul (-(2 * A / √Real.pi))
    have e1 : -(2 * A / √Real.pi) * (0 - 0 + -(E0 / k)) = A * E0 * sg / √(Real.pi * Real.log 2) := by
      have h2 : 0 < √(Real.log 2) := Real.sqrt_pos.2 (Real.log_pos one_lt_two)
      have h3 : 0 < √Real.pi := Real.sqrt_pos.2 Real.pi_pos
      rw [Real.sqrt_mul Real.pi_pos.le, hkd]
      unfold gaussWidth
      field_simp
      ring
    rw [e1] at h1
    refine h1.congr fun E => ?_
    ring
  have im : Tendsto (fun E : ℝ => -(E ^ 2 * (A * Real.exp (-(k * (E + -E0)) ^ 2) - A * Real.exp (-(k * (E + E0)) ^ 2)))) atTop (𝓝 0) := by
    have h1 := ((energy_shift (d := fun x => Real.exp (-x ^ 2)) te hk (-E0)).sub (energy_shift (d := fun x => Real.exp (-x ^ 2)) te hk E0)).const_mul (-A)
    simp only [sub_self, mul_zero] at h1
    refine h1.congr fun E => ?_
    ring
  have all := ((Complex.continuous_ofReal.tendsto _).comp re).add (((Complex.continuous_ofReal.tendsto _).comp im).const_mul I)
  have all' := all.comp tendsto_inv_nhdsGT_zero
  simp only [Complex.ofReal_zero, mul_zero, add_zero] at all'
  refine free_of_energy K
    (fun u => ((2 * A / √Real.pi * (D (k * (u⁻¹ + E0)) - D (k * (u⁻¹ + -E0))) : ℝ) : ℂ) + I * ((A * Real.exp (-(k * (u⁻¹ + -E0)) ^ 2) - A * Real.exp (-(k * (u⁻¹ + E0)) ^ 2) : ℝ) : ℂ)) _ ?_ ?_ all'
  · refine Eventually.of_forall fun u => ?_
    simp only [gaussianTerm, Dict.get, Option.bind_eq_bind]
    simp only [String.reduceEq, if_true, if_false, Option.bind_some, divN, hs.ne']
    have e1 : ∀ y, 2 * √(Real.log 2) * y / sg = k * y := fun y => by rw [hkd]; unfold gaussWidth; ring
    rw [e1, e1, sub_eq_add_neg u⁻¹ E0]
  · filter_upwards [self_mem_nhdsWithin] with u hu
    have hu' : (u : ℂ) ≠ 0 := by exact_mod_cast (ne_of_gt hu : u ≠ 0)
    simp only [Function.comp]
    generalize 2 * A / √Real.pi * (D (k * (u⁻¹ + E0)) - D (k * (u⁻¹ + -E0))) = x
    generalize A * Real.exp (-(k * (u⁻¹ + -E0)) ^ 2) - A * Real.exp (-(k * (u⁻¹ + E0)) ^ 2) = y
    push_cast
    field_simp
    ring

end PyElli
