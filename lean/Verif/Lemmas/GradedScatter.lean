import Verif.Lemmas.Graded

/-! # The scattering problem of samples whose layers vary with depth -/

namespace PyElli

open Matrix Complex Spec Set Filter Topology

/-- The half spaces of the sample without the layers. -/
def bare (n0 : ℝ) (eb : ℂ) : Stack := sampleStack ⟨n0, [], eb⟩

lemma bare_passive {n0 : ℝ} {eb : ℂ} {theta lbda : ℝ} (hn : 0 < n0) (he : eb ≠ 0) (hi : 0 ≤ eb.im) (ht : |theta| < 90) (hl : 0 < lbda) :
    PassiveStack (bare n0 eb) theta lbda :=
  ⟨⟨n0, hn, by simp [bare, sampleStack, isoTensor]⟩, ht, hl, by simp [bare, sampleStack], by simpa [bare, sampleStack, isoTensor] using he,
    by simpa [bare, sampleStack, isoTensor] using hi, rfl⟩

lemma graded22 {eb : ℂ} (he : eb ≠ 0) : ∀ (L : List (ℝ × (ℝ → Tensor))), (∀ l ∈ L, GradedOk l) → ∀ z, 0 ≤ z → gradedBelow eb L z 2 2 ≠ 0
  | [], _, z, _ => by simpa [gradedBelow] using he
  | (d, e) :: ls, hL, z, hz => by
    simp only [gradedBelow]
    split
    · rename_i h
      exact (hL _ List.mem_cons_self).ne z ⟨hz, le_of_lt h⟩
    · exact graded22 he ls (fun l hl => hL l (List.mem_cons_of_mem _ hl)) _ (by linarith)

section

variable {S : Graded} {theta lbda : ℝ} {M : Mat4}

/-- What the slab part of a transfer matrix has to do. -/
structure Carries (S : Graded) (lbda : ℝ) (kx : ℂ) (M : Mat4) : Prop where
  carries : ∀ psi : ℝ → Fin 4 → ℂ, Continuous psi →
    (∀ z, z ∉ S.interfaces → 0 < z → z < S.depth → HasDerivAt psi (slabX lbda kx (gradedBelow S.eb S.layers z) *ᵥ psi z) z) →
    psi 0 = M *ᵥ psi S.depth
  solves : ∀ w : Fin 4 → ℂ, ∃ psi : ℝ → Fin 4 → ℂ, Continuous psi ∧ psi 0 = M *ᵥ w ∧
    (∀ s, 0 ≤ s → psi (S.depth + s) = (NormedSpace.exp (s • slabX lbda kx (S.eb • 1)) : Mat4) *ᵥ w) ∧
    ∀ z, 0 < z → z ∉ S.interfaces → (∀ i j, DifferentiableAt ℝ (fun s => gradedBelow S.eb S.layers s i j) z) ∧
      HasDerivAt psi (slabX lbda kx (gradedBelow S.eb S.layers z) *ᵥ psi z) z

lemma graded_fields (hn : 0 < S.n0) (he : S.eb ≠ 0) (hi : 0 ≤ S.eb.im) (ht : |theta| < 90) (hl : 0 < lbda) (hL : ∀ l ∈ S.layers, GradedOk l)
    (hM : Carries S lbda (kxOf (bare S.n0 S.eb) theta) M) {a r t : Fin 2 → ℂ} {E H : Field} (hs : S.Scattering theta lbda a r t E H) :
    isoHalf (kxOf (bare S.n0 S.eb) theta) (bare S.n0 S.eb).front *ᵥ ![a 1, r 1, a 0, r 0] =
      M *ᵥ (isoHalf (kxOf (bare S.n0 S.eb) theta) (bare S.n0 S.eb).back *ᵥ ![t 1, 0, t 0, 0]) := by
  have h := bare_passive hn he hi ht hl
  have hk := wave_ne h
  have hL0 : ∀ l ∈ S.layers, 0 ≤ l.1 := fun l hl => (hL l hl).thick
  have hkx : kxOf (bare S.n0 S.eb) theta = _ := sample_kx (S := ⟨S.n0, [], S.eb⟩) h hn
  obtain ⟨hf1, hf2⟩ := sample_front (S := ⟨S.n0, [], S.eb⟩) h hn
  obtain ⟨hb1, hb2⟩ := sample_back (S := ⟨S.n0, [], S.eb⟩) h hn
  simp only at hf1 hf2 hb1 hb2 hkx
  change nOf (bare S.n0 S.eb).front = _ at hf1
  change nOf (bare S.n0 S.eb).front * cosPhi (kxOf (bare S.n0 S.eb) theta) (bare S.n0 S.eb).front = _ at hf2
  change IsIndex (nOf (bare S.n0 S.eb).back) _ at hb1
  change IsOutgoing (nOf (bare S.n0 S.eb).back * cosPhi (kxOf (bare S.n0 S.eb) theta) (bare S.n0 S.eb).back) _ _ at hb2
  have hnb : nOf (bare S.n0 S.eb).back ≠ 0 := fun hh => h.back_ne (csqrt_eq_zero.1 hh)
  have hn0 : ((S.n0 : ℝ) : ℂ) ≠ 0 := by exact_mod_cast hn.ne'
  rw [← waves_one _ _ a r (by rw [hf1]; exact hn0), hf2, hf1]
  have hw := waves_one (kxOf (bare S.n0 S.eb) theta) (bare S.n0 S.eb).back t 0 hnb
  simp only [Pi.zero_apply] at hw
  rw [← hw]
  obtain ⟨nb, kz, hix, ho, hback⟩ := hs.back
  have e1 : nb = nOf (bare S.n0 S.eb).back := root_unique hix.1 hb1.1 hix.2.2 hb1.2.2 (fun _ => hix.2.1) (fun _ => hb1.2.1)
  have e2 : kz = nOf (bare S.n0 S.eb).back * cosPhi (kxOf (bare S.n0 S.eb) theta) (bare S.n0 S.eb).back :=
    root_unique ho.1 hb2.1 ho.2.1 hb2.2.1 ho.2.2 hb2.2.2
  rw [← e2, ← e1]
  rw [← e1] at hnb
  have hmax : ∀ z, z ∉ S.interfaces → _ := fun z hz =>
    (maxwell_lateral (S.medium z) (e := fun z => E 0 0 z) (h := fun z => H 0 0 z) hs.lateralE hs.lateralH 0 0 z).1 (hs.maxwell 0 0 z hz)
  have hc : ∀ i, Continuous fun s => tang (E 0 0 s) (H 0 0 s) i := by
    intro i
    fin_cases i
    · exact hs.contE 0 0 0 (by decide)
    · exact hs.contE 0 0 1 (by decide)
    · exact hs.contH 0 0 0 (by decide)
    · exact hs.contH 0 0 1 (by decide)
  have front : tang (E 0 0 0) (H 0 0 0) = waves S.n0 (S.n0 * Real.cos (theta * Real.pi / 180) : ℝ) a r 1 1 := by
    have := agree_left hc (fun i => waves_continuous S.n0 (S.n0 * Real.cos (theta * Real.pi / 180) : ℝ) a r
      (I * (2 * Real.pi / lbda : ℝ) * (S.n0 * Real.cos (theta * Real.pi / 180) : ℝ)) 0 i) 0 fun z hz => by
        have hzi : z ∉ S.interfaces := fun hm => absurd (interfaces_ge _ 0 z hL0 hm) (not_le.2 hz)
        refine waves_tang (e := fun z => E 0 0 z) (h := fun z => H 0 0 z) hk hn0 ?_ a r 0 z _ _ ?_ (hmax z hzi).2.2
        · have := Real.sin_sq_add_cos_sq (theta * Real.pi / 180)
          exact_mod_cast (by linear_combination S.n0 ^ 2 * this : (S.n0 * Real.cos (theta * Real.pi / 180)) ^ 2 = S.n0 ^ 2 - (S.n0 * Real.sin (theta * Real.pi / 180)) ^ 2)
        · filter_upwards [Iio_mem_nhds hz] with s hs'
          rw [hs.front 0 0 s hs']
          have := planeWave_pair lbda S.n0 (S.n0 * Real.sin (theta * Real.pi / 180) : ℝ) (S.n0 * Real.cos (theta * Real.pi / 180) : ℝ) a r 0 s
          rw [sub_zero]
          rw [← this]
          push_cast
          rfl
    simpa using this
  have back : tang (E 0 0 S.depth) (H 0 0 S.depth) = waves nb kz t 0 1 1 := by
    have := agree_right hc (fun i => waves_continuous nb kz t 0
      (I * (2 * Real.pi / lbda : ℝ) * kz) S.depth i) S.depth fun z hz => by
        have hzi : z ∉ S.interfaces := fun hm => by
          have := interfaces_le _ 0 z hL0 hm
          rw [zero_add] at this
          exact absurd this (not_le.2 hz)
        refine waves_tang (e := fun z => E 0 0 z) (h := fun z => H 0 0 z) hk hnb ?_ t 0 S.depth z _ _ ?_ (hmax z hzi).2.2
        · rw [ho.1, hix.1]
        · filter_upwards [Ioi_mem_nhds hz] with s hs'
          rw [hback 0 0 s hs', planeWave_single]
    simpa using this
  rw [← front, ← back]
  refine hM.carries (fun z => tang (E 0 0 z) (H 0 0 z)) (continuous_pi hc) fun z hzi hz0 _ => ?_
  have hm := hmax z hzi
  have hmed : S.medium z = gradedBelow S.eb S.layers z := by rw [Graded.medium, if_neg (not_lt.2 hz0.le)]
  have h22 : S.medium z 2 2 ≠ 0 := by
    rw [hmed]
    exact graded22 he _ hL z hz0.le
  have hr := (reduced_iff hk h22 _ _ _ _).1 hm.2.2
  rw [← hmed, hkx]
  unfold slabX
  rw [← hr.1]
  refine hasDerivAt_pi.2 fun i => ?_
  fin_cases i
  · exact (hm.1 0).hasDerivAt
  · exact (hm.1 1).hasDerivAt
  · exact (hm.2.1 0).hasDerivAt
  · exact (hm.2.1 1).hasDerivAt

lemma graded_end {eb : ℂ} : ∀ L : List (ℝ × (ℝ → Tensor)), (∀ l ∈ L, 0 ≤ l.1) → ∀ s, 0 ≤ s → gradedBelow eb L ((L.map Prod.fst).sum + s) = eb • 1
  | [], _, s, _ => rfl
  | (d, ep) :: ls, hL, s, hs => by
    have hL' : ∀ l ∈ ls, 0 ≤ l.1 := fun l hl => hL l (List.mem_cons_of_mem _ hl)
    have h0 := depth_nonneg ls hL'
    simp only [gradedBelow, List.map_cons, List.sum_cons]
    rw [if_neg (by linarith), show d + (ls.map Prod.fst).sum + s - d = (ls.map Prod.fst).sum + s by ring]
    exact graded_end ls hL' s hs

lemma fields_graded (hn : 0 < S.n0) (he : S.eb ≠ 0) (hi : 0 ≤ S.eb.im) (ht : |theta| < 90) (hl : 0 < lbda) (hL : ∀ l ∈ S.layers, GradedOk l)
    (hM : Carries S lbda (kxOf (bare S.n0 S.eb) theta) M) {a r t : Fin 2 → ℂ}
    (hm : isoHalf (kxOf (bare S.n0 S.eb) theta) (bare S.n0 S.eb).front *ᵥ ![a 1, r 1, a 0, r 0] =
      M *ᵥ (isoHalf (kxOf (bare S.n0 S.eb) theta) (bare S.n0 S.eb).back *ᵥ ![t 1, 0, t 0, 0])) :
    ∃ E H : Field, S.Scattering theta lbda a r t E H := by
  have h := bare_passive hn he hi ht hl
  have hk := wave_ne h
  have hL0 : ∀ l ∈ S.layers, 0 ≤ l.1 := fun l hl => (hL l hl).thick
  have hD : 0 ≤ S.depth := depth_nonneg _ hL0
  have hkx : kxOf (bare S.n0 S.eb) theta = _ := sample_kx (S := ⟨S.n0, [], S.eb⟩) h hn
  obtain ⟨hf1, hf2⟩ := sample_front (S := ⟨S.n0, [], S.eb⟩) h hn
  obtain ⟨hb1, hb2⟩ := sample_back (S := ⟨S.n0, [], S.eb⟩) h hn
  simp only at hf1 hf2 hb1 hb2 hkx
  change nOf (bare S.n0 S.eb).front = _ at hf1
  change nOf (bare S.n0 S.eb).front * cosPhi (kxOf (bare S.n0 S.eb) theta) (bare S.n0 S.eb).front = _ at hf2
  change IsIndex (nOf (bare S.n0 S.eb).back) _ at hb1
  change IsOutgoing (nOf (bare S.n0 S.eb).back * cosPhi (kxOf (bare S.n0 S.eb) theta) (bare S.n0 S.eb).back) _ _ at hb2
  have hnb : nOf (bare S.n0 S.eb).back ≠ 0 := fun hh => h.back_ne (csqrt_eq_zero.1 hh)
  have hn0 : ((S.n0 : ℝ) : ℂ) ≠ 0 := by exact_mod_cast hn.ne'
  rw [← waves_one _ _ a r (by rw [hf1]; exact hn0), hf2, hf1] at hm
  have hw := waves_one (kxOf (bare S.n0 S.eb) theta) (bare S.n0 S.eb).back t 0 hnb
  simp only [Pi.zero_apply] at hw
  rw [← hw] at hm
  generalize nOf (bare S.n0 S.eb).back * cosPhi (kxOf (bare S.n0 S.eb) theta) (bare S.n0 S.eb).back = kz at *
  generalize nOf (bare S.n0 S.eb).back = nb at *
  rw [hkx] at hM
  have hkz0 : ((S.n0 * Real.cos (theta * Real.pi / 180) : ℝ) : ℂ) ^ 2 = ((S.n0 ^ 2 : ℝ) : ℂ) - ((S.n0 * Real.sin (theta * Real.pi / 180) : ℝ) : ℂ) ^ 2 := by
    have := Real.sin_sq_add_cos_sq (theta * Real.pi / 180)
    exact_mod_cast (by linear_combination S.n0 ^ 2 * this : (S.n0 * Real.cos (theta * Real.pi / 180)) ^ 2 = S.n0 ^ 2 - (S.n0 * Real.sin (theta * Real.pi / 180)) ^ 2)
  have hneg : ((-(S.n0 * Real.cos (theta * Real.pi / 180)) : ℝ) : ℂ) = -((S.n0 * Real.cos (theta * Real.pi / 180) : ℝ) : ℂ) := by push_cast; ring
  have hsq : ((S.n0 : ℝ) : ℂ) ^ 2 = ((S.n0 ^ 2 : ℝ) : ℂ) := by push_cast; ring
  clear hkx hf1 hf2
  generalize hkxr : ((S.n0 * Real.sin (theta * Real.pi / 180) : ℝ) : ℂ) = kx at *
  generalize hkzr : ((S.n0 * Real.cos (theta * Real.pi / 180) : ℝ) : ℂ) = kz0 at *
  obtain ⟨psi, pc, p0, pend, pode⟩ := hM.solves (waves nb kz t 0 1 1)
  rw [← hm] at p0
  set v : Fin 4 → ℂ := waves S.n0 kz0 a r 1 1 with hv
  -- fields everywhere
  let Psi : ℝ → Fin 4 → ℂ := fun z => if z < 0 then (NormedSpace.exp (z • slabX lbda kx (((S.n0 ^ 2 : ℝ) : ℂ) • 1)) : Mat4) *ᵥ v else psi z
  have Pc : ∀ i, Continuous fun z => Psi z i := by
    intro i
    have hfun : (fun z => Psi z i) = fun z => if z < 0 then
        ((NormedSpace.exp (z • slabX lbda kx (((S.n0 ^ 2 : ℝ) : ℂ) • 1)) : Mat4) *ᵥ v) i else psi z i := by
      funext z
      simp only [Psi]
      split <;> rfl
    rw [hfun]
    refine glue_continuous 0 (exp_mulVec_continuous _ v i) ((continuous_apply i).comp pc) ?_
    rw [p0]
    simp
  have Pode : ∀ z, z ∉ S.interfaces → (∀ i j, DifferentiableAt ℝ (fun s => S.medium s i j) z) ∧ S.medium z 2 2 ≠ 0 ∧
      ∀ i, HasDerivAt (fun s => Psi s i) ((slabX lbda kx (S.medium z) *ᵥ Psi z) i) z := by
    intro z hz
    have hne : z ≠ 0 := by
      rintro rfl
      exact hz (head_mem _ _)
    rcases lt_or_gt_of_ne hne with hlt | hgt
    · refine ⟨fun i j => ?_, ?_, fun i => ?_⟩
      · refine (differentiableAt_const ((((S.n0 ^ 2 : ℝ) : ℂ) • (1 : Tensor)) i j)).congr_of_eventuallyEq ?_
        filter_upwards [Iio_mem_nhds hlt] with s hs
        simp only [Graded.medium, if_pos (show s < 0 from hs)]
      · simp [Graded.medium, hlt, hn.ne']
      · have := psi_hasDerivAt (slabX lbda kx (((S.n0 ^ 2 : ℝ) : ℂ) • 1)) v i z
        simp only [Graded.medium, Psi, if_pos hlt]
        refine this.congr_of_eventuallyEq ?_
        filter_upwards [Iio_mem_nhds hlt] with s hs
        simp only [if_pos (show s < 0 from hs)]
    · obtain ⟨o1, o2⟩ := pode z hgt hz
      have hng : ¬ z < 0 := not_lt.2 hgt.le
      refine ⟨fun i j => ?_, ?_, fun i => ?_⟩
      · refine (o1 i j).congr_of_eventuallyEq ?_
        filter_upwards [Ioi_mem_nhds hgt] with s hs
        simp only [Graded.medium, if_neg (not_lt.2 (le_of_lt (show 0 < s from hs)))]
      · rw [Graded.medium, if_neg hng]
        exact graded22 he _ hL z hgt.le
      · simp only [Graded.medium, Psi, if_neg hng]
        refine (hasDerivAt_pi.1 o2 i).congr_of_eventuallyEq ?_
        filter_upwards [Ioi_mem_nhds hgt] with s hs
        simp only [if_neg (not_lt.2 (le_of_lt (show 0 < s from hs)))]
  let e : ℝ → Fin 3 → ℂ := fun z => fieldE kx (S.medium z) (Psi z)
  let hh : ℝ → Fin 3 → ℂ := fun z => ![Psi z 2, Psi z 3, kx * Psi z 1]
  have htang : ∀ z, tang (e z) (hh z) = Psi z := by
    intro z
    funext i
    fin_cases i <;> rfl
  have hfront : ∀ z, z < 0 → e z = wavesE S.n0 kx kz0 a r (Complex.exp (I * (2 * Real.pi / lbda : ℝ) * kz0 * z))
      (Complex.exp (-(I * (2 * Real.pi / lbda : ℝ) * kz0 * z))) := by
    intro z hz
    simp only [e, Psi, if_pos hz, Graded.medium]
    rw [hv, waves_exp lbda kx _ S.n0 kz0 hn0 hsq hkz0, fieldE_waves _ _ _ _ hn0 hsq]
  have hback : ∀ z, S.depth < z → e z = planeWave lbda nb kx kz t 0 0 (z - S.depth) := by
    intro z hz
    have hz0 : ¬ z < 0 := by linarith
    have hzd : z = S.depth + (z - S.depth) := by ring
    have hme : gradedBelow S.eb S.layers (S.depth + (z - S.depth)) = S.eb • 1 := graded_end _ hL0 _ (by linarith)
    rw [planeWave_single]
    simp only [e, Psi, if_neg hz0, Graded.medium]
    rw [hzd, hme, pend _ (by linarith), waves_exp lbda kx _ nb kz hnb hb1.1 hb2.1, fieldE_waves _ _ _ _ hnb hb1.1, ← hzd]
  refine ⟨fun x _ z => Complex.exp (I * (2 * Real.pi / lbda : ℝ) * kx * x) • e z,
    fun x _ z => Complex.exp (I * (2 * Real.pi / lbda : ℝ) * kx * x) • hh z, ?_, ?_, ?_, ?_, ?_, ?_, ?_⟩
  · intro x y z hz
    rw [maxwell_lateral (S.medium z) (e := e) (h := hh) (fun _ _ _ => rfl) (fun _ _ _ => rfl)]
    obtain ⟨l1, l22, l2⟩ := Pode z hz
    have he0 : HasDerivAt (fun s => e s 0) ((slabX lbda kx (S.medium z) *ᵥ Psi z) 0) z := l2 0
    have he1 : HasDerivAt (fun s => e s 1) ((slabX lbda kx (S.medium z) *ᵥ Psi z) 1) z := l2 1
    have he2 : DifferentiableAt ℝ (fun s => e s 2) z := by
      have d0 := (l2 0).differentiableAt
      have d1 := (l2 1).differentiableAt
      have d3 := (l2 3).differentiableAt
      exact (((((l1 2 0).mul d0).add ((l1 2 1).mul d1)).add (d3.const_mul kx)).neg).div (l1 2 2) l22
    have hh' : ∀ j, HasDerivAt (fun s => hh s j) (![(slabX lbda kx (S.medium z) *ᵥ Psi z) 2,
        (slabX lbda kx (S.medium z) *ᵥ Psi z) 3, kx * (slabX lbda kx (S.medium z) *ᵥ Psi z) 1] j) z := by
      intro j
      fin_cases j
      · exact l2 2
      · exact l2 3
      · exact (l2 1).const_mul kx
    refine ⟨fun j => ?_, fun j => (hh' j).differentiableAt, ?_⟩
    · fin_cases j
      · exact he0.differentiableAt
      · exact he1.differentiableAt
      · exact he2
    rw [reduced_iff hk l22]
    refine ⟨?_, ?_, rfl⟩
    · rw [htang]
      funext i
      fin_cases i
      · exact he0.deriv
      · exact he1.deriv
      · exact (hh' 0).deriv
      · exact (hh' 1).deriv
    · rw [htang]
  · intro x y j hj
    fin_cases j
    · exact continuous_const.mul (Pc 0)
    · exact continuous_const.mul (Pc 1)
    · exact absurd rfl hj
  · intro x y j hj
    fin_cases j
    · exact continuous_const.mul (Pc 2)
    · exact continuous_const.mul (Pc 3)
    · exact absurd rfl hj
  · intro x y z
    simp [hkxr]
  · intro x y z
    simp [hkxr]
  · intro x y z hz
    simp only [hneg, hkxr, hkzr]
    rw [planeWave_lateral _ _ _ _ _ x y 0 z, planeWave_lateral _ _ _ _ _ x y 0 z, ← smul_add, planeWave_pair, hfront z hz]
  · refine ⟨nb, kz, hb1, ?_, ?_⟩
    · rw [hkxr]; exact hb2
    intro x y z hz
    rw [hkxr, planeWave_lateral _ _ _ _ _ x y 0 _, hback z hz]

end

/-! ## Amplitudes -/

/-- Transfer matrix with a given slab part. -/
noncomputable def transferM (n0 : ℝ) (eb : ℂ) (theta : ℝ) (M : Mat4) : Mat4 :=
  isoHalfInv (kxOf (bare n0 eb) theta) (bare n0 eb).front * (M * isoHalf (kxOf (bare n0 eb) theta) (bare n0 eb).back)

section

variable {n0 : ℝ} {eb : ℂ} {theta lbda : ℝ} {M : Mat4}

lemma front_inv (h : PassiveStack (bare n0 eb) theta lbda) (hn : 0 < n0) :
    isoHalfInv (kxOf (bare n0 eb) theta) (bare n0 eb).front * isoHalf (kxOf (bare n0 eb) theta) (bare n0 eb).front = 1 ∧
    isoHalf (kxOf (bare n0 eb) theta) (bare n0 eb).front * isoHalfInv (kxOf (bare n0 eb) theta) (bare n0 eb).front = 1 := by
  obtain ⟨hf1, -⟩ := sample_front (S := ⟨n0, [], eb⟩) h hn
  have hn0 : ((n0 : ℝ) : ℂ) ≠ 0 := by exact_mod_cast hn.ne'
  have hnf : nOf (bare n0 eb).front ≠ 0 := by
    change nOf (sampleStack ⟨n0, [], eb⟩).front ≠ 0
    rw [hf1]
    exact hn0
  have hcf : cosPhi (kxOf (bare n0 eb) theta) (bare n0 eb).front ≠ 0 := by
    rw [cosPhi_front _ theta hnf (cos_pos_of_angle h.angle)]
    exact_mod_cast (cos_pos_of_angle h.angle).ne'
  have hI := isoHalfInv_mul (kxOf (bare n0 eb) theta) (bare n0 eb).front hnf hcf
  exact ⟨hI, mul_eq_one_comm.1 hI⟩

/-- The matrix to be inverted is invertible if the slab part is and does not create energy. -/
lemma tIt_transferM (h : PassiveStack (bare n0 eb) theta lbda) (hn : 0 < n0) (hu : IsUnit M) (hf : ∀ v, flux v ≤ flux (M *ᵥ v)) :
    (tIt (transferM n0 eb theta M)).det ≠ 0 := by
  intro hdet
  obtain ⟨x, hx, hx0⟩ := Matrix.exists_mulVec_eq_zero_iff.2 hdet
  obtain ⟨n, c, hnp, hcp, hn', hc', ⟨kx, hkx⟩, -⟩ := two_norms (bare n0 eb) theta lbda h (0, 0)
  have hfr : isoHalf (kxOf (bare n0 eb) theta) (bare n0 eb).front *ᵥ (transferM n0 eb theta M *ᵥ ![x 1, 0, x 0, 0]) =
      M *ᵥ (isoHalf (kxOf (bare n0 eb) theta) (bare n0 eb).back *ᵥ ![x 1, 0, x 0, 0]) := by
    unfold transferM
    rw [Matrix.mulVec_mulVec, ← Matrix.mul_assoc, (front_inv h hn).2, Matrix.one_mul, Matrix.mulVec_mulVec]
  have hflux := hf (isoHalf (kxOf (bare n0 eb) theta) (bare n0 eb).back *ᵥ ![x 1, 0, x 0, 0])
  rw [← hfr, transfer_split (transferM n0 eb theta M), hx0, isoHalf_eq, isoHalf_eq, hn', hc', flux_front, flux_exit] at hflux
  have hre : 0 ≤ (nOf (bare n0 eb).back * cosPhi (kxOf (bare n0 eb) theta) (bare n0 eb).back).re := by
    have := exit_re_nonneg (e := (bare n0 eb).back 0 0) kx h.back_ne h.back_passive
    simp only [cosPhi, nOf]
    rw [hkx]
    exact this
  have hre2 : 0 ≤ (cosPhi (kxOf (bare n0 eb) theta) (bare n0 eb).back * (starRingEnd ℂ) (nOf (bare n0 eb).back)).re := by
    refine hre.trans ?_
    rw [hkx]
    exact exit_flux_ge (e := (bare n0 eb).back 0 0) kx h.back_passive
  have h1 := mul_nonneg hre (sq_nonneg ‖x 1‖)
  have h2 := mul_nonneg hre2 (sq_nonneg ‖x 0‖)
  have hlow := (add_nonneg h1 h2).trans hflux
  have hnc : 0 < n * c := by positivity
  simp at hlow
  have hsum : ‖(tRt (transferM n0 eb theta M) *ᵥ x) 1‖ ^ 2 + ‖(tRt (transferM n0 eb theta M) *ᵥ x) 0‖ ^ 2 ≤ 0 := by nlinarith
  have r0 : (tRt (transferM n0 eb theta M) *ᵥ x) 0 = 0 := by
    rw [← norm_eq_zero, ← sq_eq_zero_iff]
    nlinarith [sq_nonneg ‖(tRt (transferM n0 eb theta M) *ᵥ x) 0‖, sq_nonneg ‖(tRt (transferM n0 eb theta M) *ᵥ x) 1‖]
  have r1 : (tRt (transferM n0 eb theta M) *ᵥ x) 1 = 0 := by
    rw [← norm_eq_zero, ← sq_eq_zero_iff]
    nlinarith [sq_nonneg ‖(tRt (transferM n0 eb theta M) *ᵥ x) 0‖, sq_nonneg ‖(tRt (transferM n0 eb theta M) *ᵥ x) 1‖]
  have hz : transferM n0 eb theta M *ᵥ ![x 1, 0, x 0, 0] = 0 := by
    rw [transfer_split, hx0, r0, r1]
    funext i
    fin_cases i <;> simp
  rw [hz, Matrix.mulVec_zero] at hfr
  have hexit : isoHalf (kxOf (bare n0 eb) theta) (bare n0 eb).back *ᵥ ![x 1, 0, x 0, 0] = 0 := by
    obtain ⟨u, rfl⟩ := hu
    have := congrArg (fun v => (↑u⁻¹ : Mat4) *ᵥ v) hfr
    simp only [Matrix.mulVec_zero, Matrix.mulVec_mulVec] at this
    rw [← Matrix.mul_assoc, Units.inv_mul, Matrix.one_mul] at this
    exact this.symm
  have e1 := congrFun hexit 1
  have e3 := congrFun hexit 3
  have hnb : nOf (bare n0 eb).back ≠ 0 := fun hh => h.back_ne (csqrt_eq_zero.1 hh)
  simp [isoHalf, Matrix.mulVec, dotProduct, Fin.sum_univ_four] at e1 e3
  apply hx
  funext i
  fin_cases i
  · simpa [hnb] using e3
  · simpa using e1

/-- The matrix equation between the amplitudes. -/
lemma amplitudesM (h : PassiveStack (bare n0 eb) theta lbda) (hn : 0 < n0) (hdet : (tIt (transferM n0 eb theta M)).det ≠ 0) (a r t : Fin 2 → ℂ) :
    (isoHalf (kxOf (bare n0 eb) theta) (bare n0 eb).front *ᵥ ![a 1, r 1, a 0, r 0] =
      M *ᵥ (isoHalf (kxOf (bare n0 eb) theta) (bare n0 eb).back *ᵥ ![t 1, 0, t 0, 0])) ↔
    r = (tRt (transferM n0 eb theta M) * (tIt (transferM n0 eb theta M))⁻¹) *ᵥ a ∧ t = (tIt (transferM n0 eb theta M))⁻¹ *ᵥ a := by
  obtain ⟨hI, hI'⟩ := front_inv h hn
  have hu : IsUnit (tIt (transferM n0 eb theta M)).det := isUnit_iff_ne_zero.2 hdet
  have step : (isoHalf (kxOf (bare n0 eb) theta) (bare n0 eb).front *ᵥ ![a 1, r 1, a 0, r 0] =
      M *ᵥ (isoHalf (kxOf (bare n0 eb) theta) (bare n0 eb).back *ᵥ ![t 1, 0, t 0, 0])) ↔
      ![a 1, r 1, a 0, r 0] = transferM n0 eb theta M *ᵥ ![t 1, 0, t 0, 0] := by
    unfold transferM
    rw [← Matrix.mulVec_mulVec, ← Matrix.mulVec_mulVec]
    constructor
    · intro hh
      rw [← hh, Matrix.mulVec_mulVec, hI, Matrix.one_mulVec]
    · intro hh
      rw [hh, Matrix.mulVec_mulVec, hI', Matrix.one_mulVec]
  rw [step, transfer_split]
  generalize transferM n0 eb theta M = m at *
  constructor
  · intro hh
    have ha : a = tIt m *ᵥ t := by
      funext i
      fin_cases i
      · exact congrFun hh 2
      · exact congrFun hh 0
    have hr : r = tRt m *ᵥ t := by
      funext i
      fin_cases i
      · exact congrFun hh 3
      · exact congrFun hh 1
    have ht : t = (tIt m)⁻¹ *ᵥ a := by rw [ha, Matrix.mulVec_mulVec, Matrix.nonsing_inv_mul _ hu, Matrix.one_mulVec]
    refine ⟨?_, ht⟩
    rw [← Matrix.mulVec_mulVec, ← ht, hr]
  · rintro ⟨hr, ht⟩
    rw [← Matrix.mulVec_mulVec, ← ht] at hr
    have ha : a = tIt m *ᵥ t := by rw [ht, Matrix.mulVec_mulVec, Matrix.mul_nonsing_inv _ hu, Matrix.one_mulVec]
    funext i
    fin_cases i
    · exact congrFun ha 1
    · exact congrFun hr 1
    · exact congrFun ha 0
    · exact congrFun hr 0

lemma calculate_transferM (L : List (ℝ × Tensor)) (ee) :
    transfer4x4 propExpm (sampleStack ⟨n0, L, eb⟩) theta lbda ee = transferM n0 eb theta (slabs (kxOf (bare n0 eb) theta) lbda L) := by
  rw [transfer_slabs]
  have hex : exitMatrix (sampleStack ⟨n0, L, eb⟩) (kxOf (sampleStack ⟨n0, L, eb⟩) theta) ee = isoHalf (kxOf (bare n0 eb) theta) (bare n0 eb).back := by
    simp [exitMatrix, sampleStack, bare, kxOf]
  rw [hex]
  rfl

end

/-- The Jones matrices depend continuously on the slab part where the incident block is invertible. -/
lemma jones_tendsto {n0 : ℝ} {eb : ℂ} {theta : ℝ} {Mk : ℕ → Mat4} {M : Mat4} (hM : Tendsto Mk atTop (𝓝 M))
    (hdet : (tIt (transferM n0 eb theta M)).det ≠ 0) :
    Tendsto (fun k => tRt (transferM n0 eb theta (Mk k)) * (tIt (transferM n0 eb theta (Mk k)))⁻¹) atTop
      (𝓝 (tRt (transferM n0 eb theta M) * (tIt (transferM n0 eb theta M))⁻¹)) ∧
    Tendsto (fun k => (tIt (transferM n0 eb theta (Mk k)))⁻¹) atTop (𝓝 (tIt (transferM n0 eb theta M))⁻¹) := by
  have ht : Tendsto (fun k => transferM n0 eb theta (Mk k)) atTop (𝓝 (transferM n0 eb theta M)) :=
    (tendsto_const_nhds.mul (hM.mul tendsto_const_nhds))
  have hent : ∀ i j, Tendsto (fun k => transferM n0 eb theta (Mk k) i j) atTop (𝓝 (transferM n0 eb theta M i j)) := fun i j =>
    (tendsto_pi_nhds.1 ((tendsto_pi_nhds.1 ht) i)) j
  have h1 : Tendsto (fun k => tIt (transferM n0 eb theta (Mk k))) atTop (𝓝 (tIt (transferM n0 eb theta M))) := by
    refine tendsto_pi_nhds.2 fun i => tendsto_pi_nhds.2 fun j => ?_
    fin_cases i <;> fin_cases j <;> simp [tIt] <;> exact hent _ _
  have h2 : Tendsto (fun k => tRt (transferM n0 eb theta (Mk k))) atTop (𝓝 (tRt (transferM n0 eb theta M))) := by
    refine tendsto_pi_nhds.2 fun i => tendsto_pi_nhds.2 fun j => ?_
    fin_cases i <;> fin_cases j <;> simp [tRt] <;> exact hent _ _
  have h3 : Tendsto (fun k => (tIt (transferM n0 eb theta (Mk k)))⁻¹) atTop (𝓝 (tIt (transferM n0 eb theta M))⁻¹) := by
    simp only [Matrix.inv_def, Ring.inverse_eq_inv']
    have hd : Tendsto (fun k => (tIt (transferM n0 eb theta (Mk k))).det) atTop (𝓝 (tIt (transferM n0 eb theta M)).det) :=
      ((Continuous.matrix_det continuous_id).tendsto _).comp h1
    have ha : Tendsto (fun k => (tIt (transferM n0 eb theta (Mk k))).adjugate) atTop (𝓝 (tIt (transferM n0 eb theta M)).adjugate) :=
      ((Continuous.matrix_adjugate continuous_id).tendsto _).comp h1
    exact (hd.inv₀ hdet).smul ha
  exact ⟨h2.mul h3, h3⟩

end PyElli
