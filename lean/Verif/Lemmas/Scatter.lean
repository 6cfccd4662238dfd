import Verif.Lemmas.Maxwell

/-! # The scattering problem of a layered sample and the transfer matrix -/

namespace PyElli

open Matrix Complex Spec

lemma waves_one (kx : ℂ) (eps : Tensor) (a r : Fin 2 → ℂ) (hn : nOf eps ≠ 0) :
    waves (nOf eps) (nOf eps * cosPhi kx eps) a r 1 1 = isoHalf kx eps *ᵥ ![a 1, r 1, a 0, r 0] := by
  funext i
  fin_cases i
  · simp [waves, isoHalf, Matrix.mulVec, dotProduct, Fin.sum_univ_four, mul_div_cancel_left₀ _ hn]
    ring
  · simp [waves, isoHalf, Matrix.mulVec, dotProduct, Fin.sum_univ_four]
  · simp [waves, isoHalf, Matrix.mulVec, dotProduct, Fin.sum_univ_four]
    ring
  · simp [waves, isoHalf, Matrix.mulVec, dotProduct, Fin.sum_univ_four]
    ring

lemma planeWave_pair (lbda : ℝ) (n kx kz : ℂ) (a r : Fin 2 → ℂ) (y z : ℝ) :
    planeWave lbda n kx kz a 0 y z + planeWave lbda n kx (-kz) r 0 y z =
      wavesE n kx kz a r (Complex.exp (I * (2 * Real.pi / lbda : ℝ) * kz * z)) (Complex.exp (-(I * (2 * Real.pi / lbda : ℝ) * kz * z))) := by
  have e1 : I * (2 * Real.pi / lbda : ℝ) * (kx * (0 : ℝ) + kz * z) = I * (2 * Real.pi / lbda : ℝ) * kz * z := by
    push_cast; ring
  have e2 : I * (2 * Real.pi / lbda : ℝ) * (kx * (0 : ℝ) + -kz * z) = -(I * (2 * Real.pi / lbda : ℝ) * kz * z) := by
    push_cast; ring
  unfold planeWave
  rw [e1, e2]
  generalize Complex.exp (I * (2 * Real.pi / lbda : ℝ) * kz * z) = p
  generalize Complex.exp (-(I * (2 * Real.pi / lbda : ℝ) * kz * z)) = m
  funext i
  fin_cases i <;> simp [pVec, sVec, wavesE] <;> ring

lemma planeWave_single (lbda : ℝ) (n kx kz : ℂ) (a : Fin 2 → ℂ) (y z : ℝ) :
    planeWave lbda n kx kz a 0 y z =
      wavesE n kx kz a 0 (Complex.exp (I * (2 * Real.pi / lbda : ℝ) * kz * z)) (Complex.exp (-(I * (2 * Real.pi / lbda : ℝ) * kz * z))) := by
  have := planeWave_pair lbda n kx kz a 0 y z
  have h0 : planeWave lbda n kx (-kz) 0 0 y z = 0 := by
    unfold planeWave
    simp
  rw [h0, add_zero] at this
  exact this

lemma planeWave_lateral (lbda : ℝ) (n kx kz : ℂ) (a : Fin 2 → ℂ) (x y y' z : ℝ) :
    planeWave lbda n kx kz a x y z = Complex.exp (I * (2 * Real.pi / lbda : ℝ) * kx * x) • planeWave lbda n kx kz a 0 y' z := by
  unfold planeWave
  rw [smul_smul, ← Complex.exp_add]
  congr 2
  push_cast
  ring

lemma agree_left {f g : ℝ → Fin 4 → ℂ} (hf : ∀ i, Continuous fun s => f s i) (hg : ∀ i, Continuous fun s => g s i) (z0 : ℝ)
    (h : ∀ z, z < z0 → f z = g z) : f z0 = g z0 := by
  funext i
  have h1 : Filter.Tendsto (fun s => f s i) (nhdsWithin z0 (Set.Iio z0)) (nhds (f z0 i)) := ((hf i).tendsto z0).mono_left nhdsWithin_le_nhds
  have h2 : Filter.Tendsto (fun s => g s i) (nhdsWithin z0 (Set.Iio z0)) (nhds (g z0 i)) := ((hg i).tendsto z0).mono_left nhdsWithin_le_nhds
  refine tendsto_nhds_unique h1 (h2.congr' ?_)
  filter_upwards [self_mem_nhdsWithin] with s hs
  rw [h s hs]

lemma agree_right {f g : ℝ → Fin 4 → ℂ} (hf : ∀ i, Continuous fun s => f s i) (hg : ∀ i, Continuous fun s => g s i) (z0 : ℝ)
    (h : ∀ z, z0 < z → f z = g z) : f z0 = g z0 := by
  funext i
  have h1 : Filter.Tendsto (fun s => f s i) (nhdsWithin z0 (Set.Ioi z0)) (nhds (f z0 i)) := ((hf i).tendsto z0).mono_left nhdsWithin_le_nhds
  have h2 : Filter.Tendsto (fun s => g s i) (nhdsWithin z0 (Set.Ioi z0)) (nhds (g z0 i)) := ((hg i).tendsto z0).mono_left nhdsWithin_le_nhds
  refine tendsto_nhds_unique h1 (h2.congr' ?_)
  filter_upwards [self_mem_nhdsWithin] with s hs
  rw [h s hs]

lemma waves_continuous (n kz : ℂ) (a r : Fin 2 → ℂ) (c : ℂ) (z0 : ℝ) (i : Fin 4) :
    Continuous fun s : ℝ => waves n kz a r (Complex.exp (c * (s - z0 : ℝ))) (Complex.exp (-(c * (s - z0 : ℝ)))) i := by
  fin_cases i <;> simp only [waves] <;> simp <;> fun_prop

/-- Tangential fields of a pair of waves at any depth, from the exponential of the delta matrix. -/
lemma waves_exp (lbda : ℝ) (kx e n kz : ℂ) (hn : n ≠ 0) (he : n ^ 2 = e) (hkz : kz ^ 2 = e - kx ^ 2) (a r : Fin 2 → ℂ) (z : ℝ) :
    (NormedSpace.exp (z • slabX lbda kx (e • 1)) : Mat4) *ᵥ waves n kz a r 1 1 =
      waves n kz a r (Complex.exp (I * (2 * Real.pi / lbda : ℝ) * kz * z)) (Complex.exp (-(I * (2 * Real.pi / lbda : ℝ) * kz * z))) := by
  subst he
  have hX : slabX lbda kx (n ^ 2 • (1 : Tensor)) = ((2 * Real.pi / lbda : ℝ) : ℂ) • (I • blk (deltaS kx (n ^ 2)) (deltaP kx (n ^ 2))) := by
    unfold slabX
    rw [← buildDelta_iso]
    congr 3
    ext i j
    simp [isoTensor, Matrix.one_apply]
  have hp : slabX lbda kx (n ^ 2 • 1) *ᵥ waves n kz a 0 1 1 = (I * (2 * Real.pi / lbda : ℝ) * kz) • waves n kz a 0 1 1 := by
    rw [hX]
    generalize ((2 * Real.pi / lbda : ℝ) : ℂ) = k
    funext i
    fin_cases i <;> simp [waves, blk, deltaS, deltaP, Matrix.mulVec, dotProduct, Fin.sum_univ_four]
    · field_simp
      linear_combination -(k * a 0) * hkz
    · ring
    · linear_combination I * k * a 1 * hkz
    · field_simp
  have hm : slabX lbda kx (n ^ 2 • 1) *ᵥ waves n kz 0 r 1 1 = (-(I * (2 * Real.pi / lbda : ℝ) * kz)) • waves n kz 0 r 1 1 := by
    rw [hX]
    generalize ((2 * Real.pi / lbda : ℝ) : ℂ) = k
    funext i
    fin_cases i <;> simp [waves, blk, deltaS, deltaP, Matrix.mulVec, dotProduct, Fin.sum_univ_four]
    · field_simp
      linear_combination -(k * r 0) * hkz
    · ring
    · linear_combination I * k * r 1 * hkz
    · field_simp
  have hsum : ∀ p m : ℂ, waves n kz a r p m = p • waves n kz a 0 1 1 + m • waves n kz 0 r 1 1 := by
    intro p m
    funext i
    fin_cases i <;> simp [waves] <;> ring
  rw [hsum 1 1, one_smul, one_smul, Matrix.mulVec_add, exp_eigen _ _ _ hp, exp_eigen _ _ _ hm, hsum, neg_mul]

/-- The sample as the permittivity profile that the solver receives. -/
def sampleStack (S : Sample) : Stack := ⟨isoTensor ((S.n0 ^ 2 : ℝ) : ℂ), S.layers, isoTensor S.eb, true⟩

lemma isoTensor_eq (e : ℂ) : isoTensor e = e • (1 : Tensor) := by
  ext i j
  simp [isoTensor, Matrix.one_apply]

/-- `IsOutgoing` has only one solution, and likewise `IsIndex`. -/
lemma root_unique {u v c : ℂ} (hu : u ^ 2 = c) (hv : v ^ 2 = c) (hu1 : 0 ≤ u.im) (hv1 : 0 ≤ v.im) (hu2 : u.im = 0 → 0 ≤ u.re)
    (hv2 : v.im = 0 → 0 ≤ v.re) : u = v := by
  have h : (u - v) * (u + v) = 0 := by linear_combination hu - hv
  rcases mul_eq_zero.1 h with h | h
  · exact sub_eq_zero.1 h
  · have e1 := congrArg Complex.im h
    have e2 := congrArg Complex.re h
    simp only [Complex.add_im, Complex.add_re, Complex.zero_im, Complex.zero_re] at e1 e2
    have a1 : u.im = 0 := by linarith
    have a2 : v.im = 0 := by linarith
    have b1 := hu2 a1
    have b2 := hv2 a2
    apply Complex.ext <;> linarith

section sample

variable {S : Sample} {theta lbda : ℝ}

lemma deg2rad_eq (theta : ℝ) : deg2rad theta = theta * Real.pi / 180 := by
  unfold deg2rad
  ring

lemma sample_kx (h : PassiveStack (sampleStack S) theta lbda) (hn : 0 < S.n0) :
    kxOf (sampleStack S) theta = ((S.n0 * Real.sin (theta * Real.pi / 180) : ℝ) : ℂ) := by
  rw [kxOf_real hn (by simp [sampleStack, isoTensor]), deg2rad_eq]

lemma sample_front (h : PassiveStack (sampleStack S) theta lbda) (hn : 0 < S.n0) :
    nOf (sampleStack S).front = S.n0 ∧ nOf (sampleStack S).front * cosPhi (kxOf (sampleStack S) theta) (sampleStack S).front =
      ((S.n0 * Real.cos (theta * Real.pi / 180) : ℝ) : ℂ) := by
  have h1 : nOf (sampleStack S).front = S.n0 := nOf_front hn (by simp [sampleStack, isoTensor])
  refine ⟨h1, ?_⟩
  rw [cosPhi_front _ theta (by rw [h1]; exact_mod_cast hn.ne') (cos_pos_of_angle h.angle), h1, deg2rad_eq]
  push_cast
  rfl

lemma sample_back (h : PassiveStack (sampleStack S) theta lbda) (hn : 0 < S.n0) :
    IsIndex (nOf (sampleStack S).back) S.eb ∧
      IsOutgoing (nOf (sampleStack S).back * cosPhi (kxOf (sampleStack S) theta) (sampleStack S).back) S.eb
        ((S.n0 * Real.sin (theta * Real.pi / 180) : ℝ) : ℂ) := by
  have hb0 : (sampleStack S).back 0 0 = S.eb := by simp [sampleStack, isoTensor]
  have hne := h.back_ne
  have hpas := h.back_passive
  rw [sample_kx h hn]
  unfold cosPhi nOf
  rw [hb0] at hne hpas ⊢
  obtain ⟨h1, h2, h3, h4⟩ := first_quadrant (e := S.eb) (S.n0 * Real.sin (theta * Real.pi / 180)) hpas
  refine ⟨⟨csqrt_sq _, h1, h2⟩, ?_⟩
  rw [← kz_exit _ hne hpas]
  refine ⟨by rw [csqrt_sq, csqrt_sq], csqrt_im_nonneg ?_, fun _ => csqrt_re_nonneg _⟩
  rw [csqrt_sq, Complex.sub_im, ← Complex.ofReal_pow, Complex.ofReal_im, sub_zero]
  exact hpas

lemma medium22 (h : PassiveStack (sampleStack S) theta lbda) (hn : 0 < S.n0) (z : ℝ) : S.medium z 2 2 ≠ 0 := by
  unfold Sample.medium
  split
  · simp [hn.ne']
  · have hl : ∀ L : List (ℝ × Tensor), (∀ l ∈ L, l.2 2 2 ≠ 0) → ∀ z, mediumBelow S.eb L z 2 2 ≠ 0 := by
      intro L
      induction L with
      | nil =>
        intro _ z
        have := h.back_ne
        simpa [mediumBelow, sampleStack, isoTensor] using this
      | cons l rest ih =>
        intro hL z
        simp only [mediumBelow]
        split
        · exact hL l List.mem_cons_self
        · exact ih (fun l hl => hL l (List.mem_cons_of_mem _ hl)) _
    exact hl _ (fun l hl => (h.layers l hl).2.1) z

lemma wave_ne (h : PassiveStack (sampleStack S) theta lbda) : ((2 * Real.pi / lbda : ℝ) : ℂ) ≠ 0 := by
  have := h.lbda_pos
  have := Real.pi_pos
  exact_mod_cast (by positivity : (2 * Real.pi / lbda : ℝ) ≠ 0)

lemma layers_nonneg (h : PassiveStack (sampleStack S) theta lbda) : ∀ l ∈ S.layers, 0 ≤ l.1 := fun l hl => (h.layers l hl).1

/-- The tangential fields of a solution at the front and at the back of the layers. -/
lemma scattering_fields (h : PassiveStack (sampleStack S) theta lbda) (hn : 0 < S.n0) {a r t : Fin 2 → ℂ} {E H : Field}
    (hs : Scattering S theta lbda a r t E H) :
    isoHalf (kxOf (sampleStack S) theta) (sampleStack S).front *ᵥ ![a 1, r 1, a 0, r 0] =
      slabs (kxOf (sampleStack S) theta) lbda S.layers *ᵥ
        (isoHalf (kxOf (sampleStack S) theta) (sampleStack S).back *ᵥ ![t 1, 0, t 0, 0]) := by
  have hk := wave_ne h
  have hL := layers_nonneg h
  have hD : 0 ≤ S.depth := depth_nonneg _ hL
  have hkx := sample_kx h hn
  obtain ⟨hf1, hf2⟩ := sample_front h hn
  obtain ⟨hb1, hb2⟩ := sample_back h hn
  have hnb : nOf (sampleStack S).back ≠ 0 := fun hh => h.back_ne (csqrt_eq_zero.1 hh)
  have hn0 : ((S.n0 : ℝ) : ℂ) ≠ 0 := by exact_mod_cast hn.ne'
  rw [← waves_one _ _ a r (by rw [hf1]; exact hn0), hf2, hf1]
  have hw := waves_one (kxOf (sampleStack S) theta) (sampleStack S).back t 0 hnb
  simp only [Pi.zero_apply] at hw
  rw [← hw]
  obtain ⟨nb, kz, hi, ho, hback⟩ := hs.back
  have e1 : nb = nOf (sampleStack S).back := root_unique hi.1 hb1.1 hi.2.2 hb1.2.2 (fun _ => hi.2.1) (fun _ => hb1.2.1)
  have e2 : kz = nOf (sampleStack S).back * cosPhi (kxOf (sampleStack S) theta) (sampleStack S).back :=
    root_unique ho.1 hb2.1 ho.2.1 hb2.2.1 ho.2.2 hb2.2.2
  rw [← e2, ← e1, hkx]
  rw [← e1] at hnb
  have hmax : ∀ z, z ∉ S.interfaces → _ := fun z hz =>
    (maxwell_lateral (S.medium z) (e := fun z => E 0 0 z) (h := fun z => H 0 0 z) hs.lateralE hs.lateralH 0 0 z).1 (hs.maxwell 0 0 z hz)
  have hc : ∀ i, Continuous fun s => tang (E 0 0 s) (H 0 0 s) i := by
    intro i
    fin_cases i
    · exact hs.contE 0 0 0 (by decide)
    · exact hs.contE 0 0 1 (by decide)
    · exact hs.contH 0 0 0 (by decide)
    · exact hs.contH 0 0 1 (by decide)
  -- front
  have front : tang (E 0 0 0) (H 0 0 0) = waves S.n0 (S.n0 * Real.cos (theta * Real.pi / 180) : ℝ) a r 1 1 := by
    have := agree_left hc (fun i => waves_continuous S.n0 (S.n0 * Real.cos (theta * Real.pi / 180) : ℝ) a r
      (I * (2 * Real.pi / lbda : ℝ) * (S.n0 * Real.cos (theta * Real.pi / 180) : ℝ)) 0 i) 0 fun z hz => by
        have hzi : z ∉ S.interfaces := fun hm => absurd (interfaces_ge _ 0 z hL hm) (not_le.2 hz)
        refine waves_tang (e := fun z => E 0 0 z) (h := fun z => H 0 0 z) hk hn0 ?_ a r 0 z _ _ ?_ (hmax z hzi).2.2
        · have := Real.sin_sq_add_cos_sq (theta * Real.pi / 180)
          exact_mod_cast (by linear_combination S.n0 ^ 2 * this : (S.n0 * Real.cos (theta * Real.pi / 180)) ^ 2 = S.n0 ^ 2 - (S.n0 * Real.sin (theta * Real.pi / 180)) ^ 2)
        · filter_upwards [Iio_mem_nhds hz] with s hs'
          rw [hs.front 0 0 s hs']
          have := planeWave_pair lbda S.n0 (S.n0 * Real.sin (theta * Real.pi / 180) : ℝ) (S.n0 * Real.cos (theta * Real.pi / 180) : ℝ) a r 0 s
          rw [sub_zero]
          rw [← this]
          push_cast
          rfl
    simpa using this
  have back : tang (E 0 0 S.depth) (H 0 0 S.depth) = waves nb kz t 0 1 1 := by
    have := agree_right hc (fun i => waves_continuous nb kz t 0
      (I * (2 * Real.pi / lbda : ℝ) * kz) S.depth i) S.depth fun z hz => by
        have hzi : z ∉ S.interfaces := fun hm => by
          have := interfaces_le _ 0 z hL hm
          rw [zero_add] at this
          exact absurd this (not_le.2 hz)
        refine waves_tang (e := fun z => E 0 0 z) (h := fun z => H 0 0 z) hk hnb ?_ t 0 S.depth z _ _ ?_ (hmax z hzi).2.2
        · rw [ho.1, hi.1]
        · filter_upwards [Ioi_mem_nhds hz] with s hs'
          rw [hback 0 0 s hs', planeWave_single]
    simpa using this
  rw [← front, ← back]
  have := carried_slabs ((S.n0 * Real.sin (theta * Real.pi / 180) : ℝ) : ℂ) lbda S.eb (fun z => tang (E 0 0 z) (H 0 0 z)) hc S.layers 0 hL
    fun z hzi hz0 _ i => by
      have hm := hmax z hzi
      have hr := (reduced_iff hk (medium22 h hn z) _ _ _ _).1 hm.2.2
      have hmed : mediumBelow S.eb S.layers (z - 0) = S.medium z := by
        rw [sub_zero, Sample.medium, if_neg (not_lt.2 hz0.le)]
      rw [hmed]
      unfold slabX
      have hd := congrFun hr.1 i
      rw [← hd]
      fin_cases i
      · exact (hm.1 0).hasDerivAt
      · exact (hm.1 1).hasDerivAt
      · exact (hm.2.1 0).hasDerivAt
      · exact (hm.2.1 1).hasDerivAt
  rw [zero_add] at this
  exact this

end sample

/-! ## Construction of the fields -/

/-- Tangential fields below an interface with the fields `v`. -/
noncomputable def psiBelow (lbda : ℝ) (kx eb : ℂ) : List (ℝ × Tensor) → (Fin 4 → ℂ) → ℝ → Fin 4 → ℂ
  | [], v, z => (NormedSpace.exp (z • slabX lbda kx (eb • 1)) : Mat4) *ᵥ v
  | (d, e) :: ls, v, z =>
    if z < d then (NormedSpace.exp (z • slabX lbda kx e) : Mat4) *ᵥ v
    else psiBelow lbda kx eb ls ((NormedSpace.exp (d • slabX lbda kx e) : Mat4) *ᵥ v) (z - d)

lemma psiBelow_zero (lbda : ℝ) (kx eb : ℂ) : ∀ (L : List (ℝ × Tensor)) (v : Fin 4 → ℂ), (∀ l ∈ L, 0 ≤ l.1) → psiBelow lbda kx eb L v 0 = v
  | [], v, _ => by simp [psiBelow]
  | (d, e) :: ls, v, hL => by
    have hd : 0 ≤ d := hL (d, e) List.mem_cons_self
    have hL' : ∀ l ∈ ls, 0 ≤ l.1 := fun l hl => hL l (List.mem_cons_of_mem _ hl)
    simp only [psiBelow]
    split
    · simp
    · have : d = 0 := by linarith
      subst this
      rw [sub_zero, psiBelow_zero lbda kx eb ls _ hL']
      simp

lemma exp_mulVec_continuous (X : Mat4) (v : Fin 4 → ℂ) (i : Fin 4) :
    Continuous fun z : ℝ => ((NormedSpace.exp (z • X) : Mat4) *ᵥ v) i :=
  continuous_iff_continuousAt.2 fun z => (psi_hasDerivAt X v i z).continuousAt

lemma glue_continuous {f g : ℝ → ℂ} (d : ℝ) (hf : Continuous f) (hg : Continuous g) (h : f d = g d) :
    Continuous fun z => if z < d then f z else g z := by
  have e : (fun z => if z < d then f z else g z) = fun z => if z ≤ d then f z else g z := by
    funext z
    rcases lt_trichotomy z d with hz | rfl | hz
    · rw [if_pos hz, if_pos hz.le]
    · rw [if_neg (lt_irrefl _), if_pos le_rfl, h]
    · rw [if_neg (not_lt.2 hz.le), if_neg (not_le.2 hz)]
  rw [e]
  refine Continuous.if_le hf hg continuous_id continuous_const ?_
  intro z hz
  rw [hz, h]

lemma psiBelow_continuous (lbda : ℝ) (kx eb : ℂ) : ∀ (L : List (ℝ × Tensor)) (v : Fin 4 → ℂ), (∀ l ∈ L, 0 ≤ l.1) → ∀ i,
    Continuous fun z => psiBelow lbda kx eb L v z i
  | [], v, _, i => exp_mulVec_continuous _ v i
  | (d, e) :: ls, v, hL, i => by
    have hL' : ∀ l ∈ ls, 0 ≤ l.1 := fun l hl => hL l (List.mem_cons_of_mem _ hl)
    have hfun : (fun z => psiBelow lbda kx eb ((d, e) :: ls) v z i) = fun z => if z < d then ((NormedSpace.exp (z • slabX lbda kx e) : Mat4) *ᵥ v) i
        else psiBelow lbda kx eb ls ((NormedSpace.exp (d • slabX lbda kx e) : Mat4) *ᵥ v) (z - d) i := by
      funext z
      simp only [psiBelow]
      split <;> rfl
    rw [hfun]
    refine glue_continuous d (exp_mulVec_continuous _ v i) ?_ ?_
    · exact (psiBelow_continuous lbda kx eb ls _ hL' i).comp (continuous_id.sub continuous_const)
    · rw [sub_self, psiBelow_zero lbda kx eb ls _ hL']

lemma interfaces_shift {α : Type*} : ∀ (L : List (ℝ × α)) (z0 c z : ℝ), z ∈ interfacesFrom (z0 + c) L ↔ z - c ∈ interfacesFrom z0 L
  | [], z0, c, z => by
    simp only [interfacesFrom, List.mem_singleton]
    constructor <;> intro h <;> linarith
  | (d, e) :: ls, z0, c, z => by
    simp only [interfacesFrom, List.mem_cons]
    rw [show z0 + c + d = z0 + d + c by ring, interfaces_shift ls (z0 + d) c z]
    refine or_congr_left ?_
    constructor <;> intro h <;> linarith

lemma head_mem {α : Type*} (L : List (ℝ × α)) (z : ℝ) : z ∈ interfacesFrom z L := by
  cases L with
  | nil => simp [interfacesFrom]
  | cons l ls => simp [interfacesFrom]

lemma psiBelow_local (lbda : ℝ) (kx eb : ℂ) : ∀ (L : List (ℝ × Tensor)) (v : Fin 4 → ℂ) (z : ℝ), (∀ l ∈ L, 0 ≤ l.1) → 0 < z →
    z ∉ interfacesFrom 0 L →
    (∀ᶠ s in nhds z, mediumBelow eb L s = mediumBelow eb L z) ∧
    ∀ i, HasDerivAt (fun s => psiBelow lbda kx eb L v s i) ((slabX lbda kx (mediumBelow eb L z) *ᵥ psiBelow lbda kx eb L v z) i) z
  | [], v, z, _, _, _ => ⟨Filter.Eventually.of_forall fun _ => rfl, fun i => psi_hasDerivAt _ v i z⟩
  | (d, e) :: ls, v, z, hL, hz, hi => by
    have hL' : ∀ l ∈ ls, 0 ≤ l.1 := fun l hl => hL l (List.mem_cons_of_mem _ hl)
    have hd : 0 ≤ d := hL (d, e) List.mem_cons_self
    simp only [interfacesFrom, List.mem_cons, not_or] at hi
    obtain ⟨-, hi⟩ := hi
    have hne : z ≠ d := by
      rintro rfl
      apply hi
      rw [zero_add]
      exact head_mem _ _
    rcases lt_or_gt_of_ne hne with hlt | hgt
    · refine ⟨?_, fun i => ?_⟩
      · filter_upwards [Iio_mem_nhds hlt] with s hs
        simp only [mediumBelow, if_pos hlt, if_pos (show s < d from hs)]
      · have := psi_hasDerivAt (slabX lbda kx e) v i z
        simp only [mediumBelow, psiBelow, if_pos hlt]
        refine this.congr_of_eventuallyEq ?_
        filter_upwards [Iio_mem_nhds hlt] with s hs
        simp only [if_pos (show s < d from hs)]
    · rw [interfaces_shift] at hi
      obtain ⟨i1, i2⟩ := psiBelow_local lbda kx eb ls ((NormedSpace.exp (d • slabX lbda kx e) : Mat4) *ᵥ v) (z - d) hL' (by linarith) hi
      have hng : ¬ z < d := not_lt.2 hgt.le
      refine ⟨?_, fun i => ?_⟩
      · have ht : Filter.Tendsto (fun s : ℝ => s - d) (nhds z) (nhds (z - d)) := (continuous_id.sub continuous_const).tendsto z
        filter_upwards [Ioi_mem_nhds hgt, ht.eventually i1] with s hs h2
        simp only [mediumBelow, if_neg hng, if_neg (not_lt.2 (le_of_lt (show d < s from hs))), h2]
      · have h2 := HasDerivAt.comp_sub_const z d (i2 i)
        simp only [mediumBelow, psiBelow, if_neg hng]
        refine h2.congr_of_eventuallyEq ?_
        filter_upwards [Ioi_mem_nhds hgt] with s hs
        simp only [if_neg (not_lt.2 (le_of_lt (show d < s from hs)))]

/-- Behind the layers. -/
lemma psiBelow_end (lbda : ℝ) (kx eb : ℂ) (w : Fin 4 → ℂ) (s : ℝ) (hs : 0 ≤ s) : ∀ (L : List (ℝ × Tensor)), (∀ l ∈ L, 0 ≤ l.1) →
    psiBelow lbda kx eb L (slabs kx lbda L *ᵥ w) ((L.map Prod.fst).sum + s) = (NormedSpace.exp (s • slabX lbda kx (eb • 1)) : Mat4) *ᵥ w
  | [], _ => by simp [psiBelow, slabs]
  | (d, e) :: ls, hL => by
    have hL' : ∀ l ∈ ls, 0 ≤ l.1 := fun l hl => hL l (List.mem_cons_of_mem _ hl)
    have h0 := depth_nonneg ls hL'
    have hsl : slabs kx lbda ((d, e) :: ls) = NormedSpace.exp ((-d) • slabX lbda kx e) * slabs kx lbda ls := by
      simp only [slabs, List.map_cons, List.prod_cons]
      rw [propExpm_slabX]
    simp only [psiBelow, List.map_cons, List.sum_cons]
    rw [if_neg (by linarith), hsl, Matrix.mulVec_mulVec, ← Matrix.mul_assoc, exp_real_smul_mul, add_neg_cancel, zero_smul, NormedSpace.exp_zero,
      Matrix.one_mul, show d + (ls.map Prod.fst).sum + s - d = (ls.map Prod.fst).sum + s by ring]
    exact psiBelow_end lbda kx eb w s hs ls hL'

/-- Tangential fields everywhere, from those at the front. -/
noncomputable def psiAll (S : Sample) (lbda : ℝ) (kx : ℂ) (v : Fin 4 → ℂ) (z : ℝ) : Fin 4 → ℂ :=
  if z < 0 then (NormedSpace.exp (z • slabX lbda kx (((S.n0 ^ 2 : ℝ) : ℂ) • 1)) : Mat4) *ᵥ v else psiBelow lbda kx S.eb S.layers v z

lemma psiAll_continuous (S : Sample) (lbda : ℝ) (kx : ℂ) (v : Fin 4 → ℂ) (hL : ∀ l ∈ S.layers, 0 ≤ l.1) (i : Fin 4) :
    Continuous fun z => psiAll S lbda kx v z i := by
  have hfun : (fun z => psiAll S lbda kx v z i) = fun z => if z < 0 then
      ((NormedSpace.exp (z • slabX lbda kx (((S.n0 ^ 2 : ℝ) : ℂ) • 1)) : Mat4) *ᵥ v) i else psiBelow lbda kx S.eb S.layers v z i := by
    funext z
    simp only [psiAll]
    split <;> rfl
  rw [hfun]
  refine glue_continuous 0 (exp_mulVec_continuous _ v i) (psiBelow_continuous lbda kx S.eb S.layers v hL i) ?_
  rw [psiBelow_zero lbda kx S.eb S.layers _ hL]
  simp

lemma psiAll_local (S : Sample) (lbda : ℝ) (kx : ℂ) (v : Fin 4 → ℂ) (hL : ∀ l ∈ S.layers, 0 ≤ l.1) (z : ℝ) (hz : z ∉ S.interfaces) :
    (∀ᶠ s in nhds z, S.medium s = S.medium z) ∧
    ∀ i, HasDerivAt (fun s => psiAll S lbda kx v s i) ((slabX lbda kx (S.medium z) *ᵥ psiAll S lbda kx v z) i) z := by
  have hne : z ≠ 0 := by
    rintro rfl
    exact hz (head_mem _ _)
  rcases lt_or_gt_of_ne hne with hlt | hgt
  · refine ⟨?_, fun i => ?_⟩
    · filter_upwards [Iio_mem_nhds hlt] with s hs
      simp only [Sample.medium, if_pos hlt, if_pos (show s < 0 from hs)]
    · have := psi_hasDerivAt (slabX lbda kx (((S.n0 ^ 2 : ℝ) : ℂ) • 1)) v i z
      simp only [Sample.medium, psiAll, if_pos hlt]
      refine this.congr_of_eventuallyEq ?_
      filter_upwards [Iio_mem_nhds hlt] with s hs
      simp only [if_pos (show s < 0 from hs)]
  · obtain ⟨i1, i2⟩ := psiBelow_local lbda kx S.eb S.layers v z hL hgt hz
    have hng : ¬ z < 0 := not_lt.2 hgt.le
    refine ⟨?_, fun i => ?_⟩
    · filter_upwards [Ioi_mem_nhds hgt, i1] with s hs h2
      simp only [Sample.medium, if_neg hng, if_neg (not_lt.2 (le_of_lt (show 0 < s from hs))), h2]
    · simp only [Sample.medium, psiAll, if_neg hng]
      refine (i2 i).congr_of_eventuallyEq ?_
      filter_upwards [Ioi_mem_nhds hgt] with s hs
      simp only [if_neg (not_lt.2 (le_of_lt (show 0 < s from hs)))]

section sample

variable {S : Sample} {theta lbda : ℝ}

lemma fieldE_waves (kx e n kz : ℂ) (hn : n ≠ 0) (he : n ^ 2 = e) (a r : Fin 2 → ℂ) (p m : ℂ) :
    fieldE kx (e • 1) (waves n kz a r p m) = wavesE n kx kz a r p m := by
  subst he
  funext i
  fin_cases i
  · simp [fieldE, waves, wavesE]
  · simp [fieldE, waves, wavesE]
  · simp [fieldE, waves, wavesE]
    field_simp

/-- Amplitudes that satisfy the matrix equation belong to a solution. -/
lemma fields_scattering (h : PassiveStack (sampleStack S) theta lbda) (hn : 0 < S.n0) {a r t : Fin 2 → ℂ}
    (hm : isoHalf (kxOf (sampleStack S) theta) (sampleStack S).front *ᵥ ![a 1, r 1, a 0, r 0] =
      slabs (kxOf (sampleStack S) theta) lbda S.layers *ᵥ
        (isoHalf (kxOf (sampleStack S) theta) (sampleStack S).back *ᵥ ![t 1, 0, t 0, 0])) :
    ∃ E H : Field, Scattering S theta lbda a r t E H := by
  have hk := wave_ne h
  have hL := layers_nonneg h
  have hD : 0 ≤ S.depth := depth_nonneg _ hL
  have hkx := sample_kx h hn
  obtain ⟨hf1, hf2⟩ := sample_front h hn
  obtain ⟨hb1, hb2⟩ := sample_back h hn
  have hnb : nOf (sampleStack S).back ≠ 0 := fun hh => h.back_ne (csqrt_eq_zero.1 hh)
  have hn0 : ((S.n0 : ℝ) : ℂ) ≠ 0 := by exact_mod_cast hn.ne'
  rw [← waves_one _ _ a r (by rw [hf1]; exact hn0), hf2, hf1] at hm
  have hw := waves_one (kxOf (sampleStack S) theta) (sampleStack S).back t 0 hnb
  simp only [Pi.zero_apply] at hw
  rw [← hw] at hm
  generalize nOf (sampleStack S).back * cosPhi (kxOf (sampleStack S) theta) (sampleStack S).back = kz at *
  generalize nOf (sampleStack S).back = nb at *
  rw [hkx] at hm
  have hkz0 : ((S.n0 * Real.cos (theta * Real.pi / 180) : ℝ) : ℂ) ^ 2 = ((S.n0 ^ 2 : ℝ) : ℂ) - ((S.n0 * Real.sin (theta * Real.pi / 180) : ℝ) : ℂ) ^ 2 := by
    have := Real.sin_sq_add_cos_sq (theta * Real.pi / 180)
    exact_mod_cast (by linear_combination S.n0 ^ 2 * this : (S.n0 * Real.cos (theta * Real.pi / 180)) ^ 2 = S.n0 ^ 2 - (S.n0 * Real.sin (theta * Real.pi / 180)) ^ 2)
  have hneg : ((-(S.n0 * Real.cos (theta * Real.pi / 180)) : ℝ) : ℂ) = -((S.n0 * Real.cos (theta * Real.pi / 180) : ℝ) : ℂ) := by push_cast; ring
  have hsq : ((S.n0 : ℝ) : ℂ) ^ 2 = ((S.n0 ^ 2 : ℝ) : ℂ) := by push_cast; ring
  generalize hkxr : ((S.n0 * Real.sin (theta * Real.pi / 180) : ℝ) : ℂ) = kx at *
  generalize hkzr : ((S.n0 * Real.cos (theta * Real.pi / 180) : ℝ) : ℂ) = kz0 at *
  set v : Fin 4 → ℂ := waves S.n0 kz0 a r 1 1 with hv
  let e : ℝ → Fin 3 → ℂ := fun z => fieldE kx (S.medium z) (psiAll S lbda kx v z)
  let hh : ℝ → Fin 3 → ℂ := fun z => ![psiAll S lbda kx v z 2, psiAll S lbda kx v z 3, kx * psiAll S lbda kx v z 1]
  have htang : ∀ z, tang (e z) (hh z) = psiAll S lbda kx v z := by
    intro z
    funext i
    fin_cases i <;> rfl
  have hfront : ∀ z, z < 0 → e z = wavesE S.n0 kx kz0 a r (Complex.exp (I * (2 * Real.pi / lbda : ℝ) * kz0 * z))
      (Complex.exp (-(I * (2 * Real.pi / lbda : ℝ) * kz0 * z))) := by
    intro z hz
    simp only [e, psiAll, if_pos hz, Sample.medium]
    rw [hv, waves_exp lbda kx _ S.n0 kz0 hn0 hsq hkz0, fieldE_waves _ _ _ _ hn0 hsq]
  have hmedEnd : ∀ L : List (ℝ × Tensor), (∀ l ∈ L, 0 ≤ l.1) → ∀ s, 0 ≤ s → mediumBelow S.eb L ((L.map Prod.fst).sum + s) = S.eb • 1 := by
    intro L
    induction L with
    | nil => intro _ s _; rfl
    | cons l ls ih =>
      obtain ⟨d, ep⟩ := l
      intro hL s hs
      have hL' : ∀ l ∈ ls, 0 ≤ l.1 := fun l hl => hL l (List.mem_cons_of_mem _ hl)
      have h0 := depth_nonneg ls hL'
      simp only [mediumBelow, List.map_cons, List.sum_cons]
      rw [if_neg (by linarith), show d + (ls.map Prod.fst).sum + s - d = (ls.map Prod.fst).sum + s by ring]
      exact ih hL' s hs
  have hback : ∀ z, S.depth < z → e z = planeWave lbda nb kx kz t 0 0 (z - S.depth) := by
    intro z hz
    have hz0 : ¬ z < 0 := by linarith
    have hzd : z = (S.layers.map Prod.fst).sum + (z - S.depth) := by
      unfold Sample.depth
      ring
    rw [planeWave_single]
    simp only [e, psiAll, if_neg hz0, Sample.medium]
    rw [hzd, hmedEnd _ hL _ (by linarith), hm, psiBelow_end lbda kx S.eb _ _ (by linarith) S.layers hL,
      waves_exp lbda kx _ nb kz hnb hb1.1 hb2.1, fieldE_waves _ _ _ _ hnb hb1.1, ← hzd]
  refine ⟨fun x _ z => Complex.exp (I * (2 * Real.pi / lbda : ℝ) * kx * x) • e z,
    fun x _ z => Complex.exp (I * (2 * Real.pi / lbda : ℝ) * kx * x) • hh z, ?_, ?_, ?_, ?_, ?_, ?_, ?_⟩
  · intro x y z hz
    rw [maxwell_lateral (S.medium z) (e := e) (h := hh) (fun _ _ _ => rfl) (fun _ _ _ => rfl)]
    obtain ⟨l1, l2⟩ := psiAll_local S lbda kx v hL z hz
    have he : ∀ j, HasDerivAt (fun s => e s j) (fieldE kx (S.medium z) (slabX lbda kx (S.medium z) *ᵥ psiAll S lbda kx v z) j) z := by
      intro j
      have hloc : (fun s => e s j) =ᶠ[nhds z] fun s => fieldE kx (S.medium z) (psiAll S lbda kx v s) j := by
        filter_upwards [l1] with s hs
        simp only [e, hs]
      refine HasDerivAt.congr_of_eventuallyEq ?_ hloc
      fin_cases j
      · exact l2 0
      · exact l2 1
      · have := ((((l2 0).const_mul (S.medium z 2 0)).add ((l2 1).const_mul (S.medium z 2 1))).add ((l2 3).const_mul kx)).neg.div_const (S.medium z 2 2)
        exact this
    have hh' : ∀ j, HasDerivAt (fun s => hh s j) (![(slabX lbda kx (S.medium z) *ᵥ psiAll S lbda kx v z) 2,
        (slabX lbda kx (S.medium z) *ᵥ psiAll S lbda kx v z) 3, kx * (slabX lbda kx (S.medium z) *ᵥ psiAll S lbda kx v z) 1] j) z := by
      intro j
      fin_cases j
      · exact l2 2
      · exact l2 3
      · exact (l2 1).const_mul kx
    refine ⟨fun j => (he j).differentiableAt, fun j => (hh' j).differentiableAt, ?_⟩
    rw [reduced_iff hk (medium22 h hn z)]
    refine ⟨?_, ?_, rfl⟩
    · rw [htang]
      funext i
      fin_cases i
      · exact (he 0).deriv
      · exact (he 1).deriv
      · exact (hh' 0).deriv
      · exact (hh' 1).deriv
    · rw [htang]
  · intro x y j hj
    have hc := psiAll_continuous S lbda kx v hL
    fin_cases j
    · exact continuous_const.mul (hc 0)
    · exact continuous_const.mul (hc 1)
    · exact absurd rfl hj
  · intro x y j hj
    have hc := psiAll_continuous S lbda kx v hL
    fin_cases j
    · exact continuous_const.mul (hc 2)
    · exact continuous_const.mul (hc 3)
    · exact absurd rfl hj
  · intro x y z
    simp [hkxr]
  · intro x y z
    simp [hkxr]
  · intro x y z hz
    simp only [hneg, hkxr, hkzr]
    rw [planeWave_lateral _ _ _ _ _ x y 0 z, planeWave_lateral _ _ _ _ _ x y 0 z, ← smul_add, planeWave_pair, hfront z hz]
  · refine ⟨nb, kz, hb1, ?_, ?_⟩
    · rw [hkxr]; exact hb2
    intro x y z hz
    rw [hkxr, planeWave_lateral _ _ _ _ _ x y 0 _, hback z hz]

end sample

end PyElli
