import Verif.Lemmas.Continuity
import Verif.Props.Energy

/-!
# C87: small changes of the sample or of the setting cause small changes of the result

A fit varies thicknesses, permittivities, angle and wavelength; it needs results that depend on them continuously, and gradients need derivatives. The
solver takes complex square roots with a branch cut and inverts a matrix, so neither is obvious.
-/

namespace PyElli

open Matrix Complex Spec Set Filter Topology

section

variable {X : Type*} [TopologicalSpace X]

/-- C87: the Jones matrices of `Solver4x4` and the power factor of the transmittance are continuous in everything at once: front index, thicknesses
and tensors of the layers, exit permittivity, angle and wavelength, at every passive sample, total reflection and grazing exit included. -/
theorem C87_continuous (p : X) (n0 : X → ℝ) (L : List ((X → ℝ) × (X → Tensor))) (eb : X → ℂ) (theta lbda : X → ℝ)
    (cn : ContinuousAt n0 p) (cL : ∀ l ∈ L, ContinuousAt l.1 p ∧ ContinuousAt l.2 p) (ce : ContinuousAt eb p)
    (ct : ContinuousAt theta p) (cl : ContinuousAt lbda p) (he : ∀ q, 0 ≤ (eb q).im)
    (hn : 0 < n0 p) (hL : ∀ l ∈ L, 0 ≤ l.1 p ∧ l.2 p 2 2 ≠ 0 ∧ Passive (l.2 p)) (he0 : eb p ≠ 0) (ht : |theta p| < 90) (hl : 0 < lbda p) (ee) :
    ContinuousAt (fun q => (calculate4x4 propExpm (sampleStack ⟨n0 q, layersAt L q, eb q⟩) (theta q) (lbda q) ee).jr) p ∧
    ContinuousAt (fun q => (calculate4x4 propExpm (sampleStack ⟨n0 q, layersAt L q, eb q⟩) (theta q) (lbda q) ee).jt) p ∧
    ∃ f : X → ℝ, ContinuousAt f p ∧
      ∀ q, (calculate4x4 propExpm (sampleStack ⟨n0 q, layersAt L q, eb q⟩) (theta q) (lbda q) ee).power = some (f q) := by
  have h : PassiveStack (sampleStack ⟨n0 p, layersAt L p, eb p⟩) (theta p) (lbda p) := by
    refine ⟨⟨n0 p, hn, by simp [sampleStack, isoTensor]⟩, ht, hl, ?_, by simpa [sampleStack, isoTensor] using he0,
      by simpa [sampleStack, isoTensor] using he p, rfl⟩
    intro l hl
    obtain ⟨m, hm, rfl⟩ := List.mem_map.1 hl
    exact hL m hm
  have cnf : ContinuousAt (fun q => nOf (isoTensor ((n0 q ^ 2 : ℝ) : ℂ))) p := by
    unfold nOf
    refine csqrt_continuousAt ?_ (Eventually.of_forall fun q => by simp [isoTensor, ← Complex.ofReal_pow])
    simp only [isoTensor, ↓reduceIte]
    exact Complex.continuous_ofReal.continuousAt.comp (cn.pow 2)
  have cnb : ContinuousAt (fun q => nOf (isoTensor (eb q))) p := by
    unfold nOf
    exact csqrt_continuousAt (by simpa [isoTensor] using ce) (Eventually.of_forall fun q => by simpa [isoTensor] using he q)
  have csin : ContinuousAt (fun q => ((Real.sin (deg2rad (theta q)) : ℝ) : ℂ)) p := by
    refine Complex.continuous_ofReal.continuousAt.comp (Real.continuous_sin.continuousAt.comp ?_)
    unfold deg2rad
    fun_prop
  have ck : ContinuousAt (fun q => nOf (isoTensor ((n0 q ^ 2 : ℝ) : ℂ)) * ((Real.sin (deg2rad (theta q)) : ℝ) : ℂ)) p := cnf.mul csin
  have hreal : ∀ q, nOf (isoTensor ((n0 q ^ 2 : ℝ) : ℂ)) = ((|n0 q| : ℝ) : ℂ) := by
    intro q
    simp only [nOf, isoTensor, ↓reduceIte]
    rw [csqrt_ofReal (by positivity), Real.sqrt_sq_eq_abs]
  have hnf : nOf (isoTensor ((n0 p ^ 2 : ℝ) : ℂ)) ≠ 0 := by
    rw [hreal]
    exact_mod_cast (abs_pos.2 hn.ne').ne'
  have hnb : nOf (isoTensor (eb p)) ≠ 0 := fun hh => he0 (by simpa [isoTensor] using csqrt_eq_zero.1 hh)
  have ccos : ∀ e : X → ℂ, ContinuousAt (fun q => nOf (isoTensor (e q))) p → nOf (isoTensor (e p)) ≠ 0 → (∀ q, 0 ≤ (e q).im) →
      ContinuousAt (fun q => cosPhi (nOf (isoTensor ((n0 q ^ 2 : ℝ) : ℂ)) * ((Real.sin (deg2rad (theta q)) : ℝ) : ℂ)) (isoTensor (e q))) p := by
    intro e h1 h2 h3
    unfold cosPhi
    refine csqrt_continuousAt ?_ (Eventually.of_forall fun q => ?_)
    · exact continuousAt_const.sub ((ck.div h1 h2).pow 2)
    · rw [hreal, ← Complex.ofReal_mul, div_pow]
      simp only [nOf, isoTensor, ↓reduceIte, csqrt_sq]
      rw [← Complex.ofReal_pow, Complex.sub_im, Complex.one_im, zero_sub, Complex.div_im]
      simp only [Complex.ofReal_im, Complex.ofReal_re, zero_mul, zero_div, zero_sub, neg_neg]
      have := Complex.normSq_nonneg (e q)
      have := h3 q
      positivity
  have ccf := ccos (fun q => ((n0 q ^ 2 : ℝ) : ℂ)) cnf hnf fun q => by simp [← Complex.ofReal_pow]
  have ccb := ccos eb cnb hnb he
  have hcf : cosPhi (nOf (isoTensor ((n0 p ^ 2 : ℝ) : ℂ)) * ((Real.sin (deg2rad (theta p)) : ℝ) : ℂ)) (isoTensor ((n0 p ^ 2 : ℝ) : ℂ)) ≠ 0 := by
    have := cosPhi_front (sampleStack ⟨n0 p, layersAt L p, eb p⟩) (theta p) hnf (cos_pos_of_angle ht)
    change cosPhi (kxOf (sampleStack ⟨n0 p, layersAt L p, eb p⟩) (theta p)) (sampleStack ⟨n0 p, layersAt L p, eb p⟩).front ≠ 0
    rw [this]
    exact_mod_cast (cos_pos_of_angle ht).ne'
  have cslab := slabs_continuousAt (lbda := lbda) ck cl hl.ne' L fun l hl => ⟨(cL l hl).1, (cL l hl).2, (hL l hl).2.1⟩
  have ctr : ContinuousAt (fun q => transfer4x4 propExpm (sampleStack ⟨n0 q, layersAt L q, eb q⟩) (theta q) (lbda q) ee) p := by
    simp only [calculate_transferM, transferM]
    exact (isoHalfInv_continuousAt cnf ccf hnf hcf).mul (cslab.mul (isoHalf_continuousAt cnb ccb))
  have hdet := tIt_det_ne_zero _ _ _ h ee
  obtain ⟨c1, c2⟩ := tIt_continuousAt ctr
  have c3 := inv_continuousAt c1 hdet
  refine ⟨c2.mul c3, c3, fun q => (getKz (isoTensor (eb q)) (nOf (isoTensor ((n0 q ^ 2 : ℝ) : ℂ)) * ((Real.sin (deg2rad (theta q)) : ℝ) : ℂ))).re /
    (getKz (isoTensor ((n0 q ^ 2 : ℝ) : ℂ)) (nOf (isoTensor ((n0 q ^ 2 : ℝ) : ℂ)) * ((Real.sin (deg2rad (theta q)) : ℝ) : ℂ))).re, ?_, fun q => rfl⟩
  have ckz : ∀ e : X → ℂ, ContinuousAt (fun q => nOf (isoTensor (e q))) p → (∀ q, 0 ≤ (e q).im) →
      ContinuousAt (fun q => getKz (isoTensor (e q)) (nOf (isoTensor ((n0 q ^ 2 : ℝ) : ℂ)) * ((Real.sin (deg2rad (theta q)) : ℝ) : ℂ))) p := by
    intro e h1 h3
    unfold getKz
    refine csqrt_continuousAt ((h1.pow 2).sub (ck.pow 2)) (Eventually.of_forall fun q => ?_)
    rw [hreal, ← Complex.ofReal_mul]
    simp only [nOf, isoTensor, ↓reduceIte, csqrt_sq]
    rw [← Complex.ofReal_pow, Complex.sub_im, Complex.ofReal_im, sub_zero]
    exact h3 q
  have k1 := Complex.continuous_re.continuousAt.comp (ckz eb cnb he)
  have k2 := Complex.continuous_re.continuousAt.comp (ckz (fun q => ((n0 q ^ 2 : ℝ) : ℂ)) cnf fun q => by simp [← Complex.ofReal_pow])
  refine k1.div k2 ?_
  have hg := getKz_front (sampleStack ⟨n0 p, layersAt L p, eb p⟩) (theta p) (lbda p) h
  have hc := cosPhi_front (sampleStack ⟨n0 p, layersAt L p, eb p⟩) (theta p) hnf (cos_pos_of_angle ht)
  change (getKz (sampleStack ⟨n0 p, layersAt L p, eb p⟩).front (kxOf (sampleStack ⟨n0 p, layersAt L p, eb p⟩) (theta p))).re ≠ 0
  rw [hg, hc]
  change (nOf (isoTensor ((n0 p ^ 2 : ℝ) : ℂ)) * _).re ≠ 0
  rw [hreal, ← Complex.ofReal_mul, Complex.ofReal_re]
  exact (mul_pos (abs_pos.2 hn.ne') (cos_pos_of_angle ht)).ne'

/-- At the critical angle of total reflection (glass to air, 45 degrees and index √2) the result still depends continuously on the angle. -/
example (ee) : ContinuousAt (fun t : ℝ => (calculate4x4 propExpm (sampleStack ⟨Real.sqrt 2, layersAt [] t, 1⟩) t 500 ee).jr) 45 :=
  (C87_continuous (45 : ℝ) (fun _ => Real.sqrt 2) [] (fun _ => 1) (fun t => t) (fun _ => 500) continuousAt_const (by simp) continuousAt_const continuousAt_id
    continuousAt_const (by simp) (by positivity) (by simp) one_ne_zero (by rw [abs_of_pos] <;> norm_num) (by norm_num) ee).1

end

/-- C87: for fixed half spaces and angle every entry of the Jones matrices is differentiable in the thicknesses, the tensors of the layers and the
wavelength, at every passive sample. -/
theorem C87_differentiable {E : Type*} [NormedAddCommGroup E] [NormedSpace ℝ E] (p : E) (n0 : ℝ) (L : List ((E → ℝ) × (E → Tensor))) (eb : ℂ)
    (theta : ℝ) (lbda : E → ℝ) (dL : ∀ l ∈ L, DifferentiableAt ℝ l.1 p ∧ ∀ i j, DifferentiableAt ℝ (fun q => l.2 q i j) p)
    (dl : DifferentiableAt ℝ lbda p) (hn : 0 < n0) (hL : ∀ l ∈ L, 0 ≤ l.1 p ∧ l.2 p 2 2 ≠ 0 ∧ Passive (l.2 p))
    (he0 : eb ≠ 0) (hi : 0 ≤ eb.im) (ht : |theta| < 90) (hl : 0 < lbda p) (ee) (i j : Fin 2) :
    DifferentiableAt ℝ (fun q => (calculate4x4 propExpm (sampleStack ⟨n0, layersAt L q, eb⟩) theta (lbda q) ee).jr i j) p ∧
    DifferentiableAt ℝ (fun q => (calculate4x4 propExpm (sampleStack ⟨n0, layersAt L q, eb⟩) theta (lbda q) ee).jt i j) p := by
  have h : PassiveStack (sampleStack ⟨n0, layersAt L p, eb⟩) theta (lbda p) := by
    refine ⟨⟨n0, hn, by simp [sampleStack, isoTensor]⟩, ht, hl, ?_, by simpa [sampleStack, isoTensor] using he0,
      by simpa [sampleStack, isoTensor] using hi, rfl⟩
    intro l hl
    obtain ⟨m, hm, rfl⟩ := List.mem_map.1 hl
    exact hL m hm
  have ds := slabs_entryDiff (p := p) (kxOf (bare n0 eb) theta) dl hl.ne' L fun l hl => ⟨(dL l hl).1, (dL l hl).2, (hL l hl).2.1⟩
  have dt : EntryDiff (fun q => transfer4x4 propExpm (sampleStack ⟨n0, layersAt L q, eb⟩) theta (lbda q) ee) p := by
    simp only [calculate_transferM, transferM]
    exact (EntryDiff.const _).mul (ds.mul (EntryDiff.const _))
  obtain ⟨d1, d2⟩ := dt.blocks
  have d3 := d1.inv (tIt_det_ne_zero _ _ _ h ee)
  exact ⟨(d2.mul d3) i j, d3 i j⟩

/-- A film of unknown thickness and index on glass at 70 degrees; the parameters are (thickness, index). -/
example (ee) : DifferentiableAt ℝ (fun q : ℝ × ℝ =>
    (calculate4x4 propExpm (sampleStack ⟨1, layersAt [(fun q => q.1, fun q => isoTensor ((q.2 ^ 2 : ℝ) : ℂ))] q, 2.25⟩) 70 500 ee).jr 0 0) (100, 1.5) := by
  refine (C87_differentiable (100, 1.5) 1 [(fun q : ℝ × ℝ => q.1, fun q => isoTensor ((q.2 ^ 2 : ℝ) : ℂ))] 2.25 70 (fun _ => 500) ?_
    (differentiableAt_const _) one_pos ?_ (by norm_num) (by norm_num) (by norm_num) (by norm_num) ee 0 0).1
  · intro l hl
    rw [List.mem_singleton.1 hl]
    refine ⟨differentiableAt_fst, fun i j => ?_⟩
    have hd : DifferentiableAt ℝ (fun q : ℝ × ℝ => ((q.2 ^ 2 : ℝ) : ℂ)) (100, 1.5) :=
      Complex.ofRealCLM.differentiableAt.comp _ (differentiableAt_snd.pow 2)
    unfold isoTensor
    by_cases hij : i = j
    · simpa [hij] using hd
    · simp [hij]
  · intro l hl
    rw [List.mem_singleton.1 hl]
    refine ⟨by norm_num, by simp [isoTensor]; norm_num, ?_⟩
    exact passive_isoTensor (by simp [← Complex.ofReal_pow])

end PyElli
