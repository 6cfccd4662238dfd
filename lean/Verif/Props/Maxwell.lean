import Verif.Lemmas.Scatter
import Verif.Props.Energy
import Verif.Props.Symmetry

/-!
# C83: the solvers solve Maxwell's equations

`Spec/Maxwell.lean` states the scattering problem of a plane wave on a layered sample with curls, continuity conditions and an outgoing wave; it does not
mention any matrix of the solvers.
-/

namespace PyElli

open Matrix Complex Spec

/-- A sample for which the scattering problem is posed: transparent incidence medium, passive layers of any anisotropy, passive isotropic exit
medium. -/
def PassiveSample (S : Sample) : Prop :=
  0 < S.n0 ∧ (∀ l ∈ S.layers, 0 ≤ l.1 ∧ l.2 2 2 ≠ 0 ∧ Passive l.2) ∧ S.eb ≠ 0 ∧ 0 ≤ S.eb.im

lemma PassiveSample.stack {S : Sample} (h : PassiveSample S) {theta lbda : ℝ} (ht : |theta| < 90) (hl : 0 < lbda) :
    PassiveStack (sampleStack S) theta lbda :=
  ⟨⟨S.n0, h.1, by simp [sampleStack, isoTensor]⟩, ht, hl, h.2.1, by simpa [sampleStack, isoTensor] using h.2.2.1,
    by simpa [sampleStack, isoTensor] using h.2.2.2, rfl⟩

/-- The matrix equation between the amplitudes says that the transfer matrix carries the transmitted to the incident and reflected amplitudes. -/
lemma amplitudes_iff {S : Sample} {theta lbda : ℝ} (h : PassiveStack (sampleStack S) theta lbda) (hn : 0 < S.n0) (ee) (a r t : Fin 2 → ℂ) :
    (isoHalf (kxOf (sampleStack S) theta) (sampleStack S).front *ᵥ ![a 1, r 1, a 0, r 0] =
      slabs (kxOf (sampleStack S) theta) lbda S.layers *ᵥ
        (isoHalf (kxOf (sampleStack S) theta) (sampleStack S).back *ᵥ ![t 1, 0, t 0, 0])) ↔
    r = (calculate4x4 propExpm (sampleStack S) theta lbda ee).jr *ᵥ a ∧ t = (calculate4x4 propExpm (sampleStack S) theta lbda ee).jt *ᵥ a := by
  obtain ⟨hf1, hf2⟩ := sample_front h hn
  have hn0 : ((S.n0 : ℝ) : ℂ) ≠ 0 := by exact_mod_cast hn.ne'
  have hnf : nOf (sampleStack S).front ≠ 0 := by rw [hf1]; exact hn0
  have hcf : cosPhi (kxOf (sampleStack S) theta) (sampleStack S).front ≠ 0 := by
    rw [cosPhi_front _ theta hnf (cos_pos_of_angle h.angle)]
    exact_mod_cast (cos_pos_of_angle h.angle).ne'
  have hI := isoHalfInv_mul (kxOf (sampleStack S) theta) (sampleStack S).front hnf hcf
  have hI' : isoHalf (kxOf (sampleStack S) theta) (sampleStack S).front * isoHalfInv (kxOf (sampleStack S) theta) (sampleStack S).front = 1 :=
    mul_eq_one_comm.1 hI
  have hT := transfer_slabs (sampleStack S) theta lbda ee
  have hex : exitMatrix (sampleStack S) (kxOf (sampleStack S) theta) ee = isoHalf (kxOf (sampleStack S) theta) (sampleStack S).back := by
    simp [exitMatrix, sampleStack]
  rw [hex] at hT
  have hdet := tIt_det_ne_zero (sampleStack S) theta lbda h ee
  have hu : IsUnit (tIt (transfer4x4 propExpm (sampleStack S) theta lbda ee)).det := isUnit_iff_ne_zero.2 hdet
  have step : (isoHalf (kxOf (sampleStack S) theta) (sampleStack S).front *ᵥ ![a 1, r 1, a 0, r 0] =
      slabs (kxOf (sampleStack S) theta) lbda S.layers *ᵥ
        (isoHalf (kxOf (sampleStack S) theta) (sampleStack S).back *ᵥ ![t 1, 0, t 0, 0])) ↔
      ![a 1, r 1, a 0, r 0] = transfer4x4 propExpm (sampleStack S) theta lbda ee *ᵥ ![t 1, 0, t 0, 0] := by
    rw [hT, ← Matrix.mulVec_mulVec, ← Matrix.mulVec_mulVec]
    constructor
    · intro hh
      change _ = _ *ᵥ (slabs (kxOf (sampleStack S) theta) lbda S.layers *ᵥ _)
      rw [← hh, Matrix.mulVec_mulVec, hI, Matrix.one_mulVec]
    · intro hh
      rw [hh, Matrix.mulVec_mulVec, hI', Matrix.one_mulVec]
      rfl
  rw [step, transfer_split]
  simp only [calculate4x4]
  generalize transfer4x4 propExpm (sampleStack S) theta lbda ee = m at *
  constructor
  · intro hh
    have ha : a = tIt m *ᵥ t := by
      funext i
      fin_cases i
      · exact congrFun hh 2
      · exact congrFun hh 0
    have hr : r = tRt m *ᵥ t := by
      funext i
      fin_cases i
      · exact congrFun hh 3
      · exact congrFun hh 1
    have ht : t = (tIt m)⁻¹ *ᵥ a := by rw [ha, Matrix.mulVec_mulVec, Matrix.nonsing_inv_mul _ hu, Matrix.one_mulVec]
    refine ⟨?_, ht⟩
    rw [← Matrix.mulVec_mulVec, ← ht, hr]
  · rintro ⟨hr, ht⟩
    rw [← Matrix.mulVec_mulVec, ← ht] at hr
    have ha : a = tIt m *ᵥ t := by rw [ht, Matrix.mulVec_mulVec, Matrix.mul_nonsing_inv _ hu, Matrix.one_mulVec]
    funext i
    fin_cases i
    · exact congrFun ha 1
    · exact congrFun hr 1
    · exact congrFun ha 0
    · exact congrFun hr 0

/-- C83: whatever fields solve Maxwell's equations for the sample, their reflected and transmitted amplitudes are the ones that `Solver4x4` returns
(matrices applied to the incident amplitudes). -/
theorem C83_maxwell_unique (S : Sample) (hS : PassiveSample S) (theta lbda : ℝ) (ht : |theta| < 90) (hl : 0 < lbda) (ee)
    (a r t : Fin 2 → ℂ) (E H : Field) (hs : Scattering S theta lbda a r t E H) :
    r = (calculate4x4 propExpm (sampleStack S) theta lbda ee).jr *ᵥ a ∧ t = (calculate4x4 propExpm (sampleStack S) theta lbda ee).jt *ᵥ a :=
  (amplitudes_iff (hS.stack ht hl) hS.1 ee a r t).1 (scattering_fields (hS.stack ht hl) hS.1 hs)

/-- C83: for every incident wave there are fields that solve Maxwell's equations and have the reflected and transmitted amplitudes that `Solver4x4`
returns. -/
theorem C83_maxwell_exists (S : Sample) (hS : PassiveSample S) (theta lbda : ℝ) (ht : |theta| < 90) (hl : 0 < lbda) (ee) (a : Fin 2 → ℂ) :
    ∃ E H : Field, Scattering S theta lbda a ((calculate4x4 propExpm (sampleStack S) theta lbda ee).jr *ᵥ a)
      ((calculate4x4 propExpm (sampleStack S) theta lbda ee).jt *ᵥ a) E H :=
  fields_scattering (hS.stack ht hl) hS.1 ((amplitudes_iff (hS.stack ht hl) hS.1 ee a _ _).2 ⟨rfl, rfl⟩)

/-- C83: the amplitudes of `Solver4x4` are exactly those for which Maxwell's equations have a solution. -/
theorem C83_maxwell_iff (S : Sample) (hS : PassiveSample S) (theta lbda : ℝ) (ht : |theta| < 90) (hl : 0 < lbda) (ee) (a r t : Fin 2 → ℂ) :
    (∃ E H : Field, Scattering S theta lbda a r t E H) ↔
      r = (calculate4x4 propExpm (sampleStack S) theta lbda ee).jr *ᵥ a ∧ t = (calculate4x4 propExpm (sampleStack S) theta lbda ee).jt *ᵥ a := by
  constructor
  · rintro ⟨E, H, hs⟩
    exact C83_maxwell_unique S hS theta lbda ht hl ee a r t E H hs
  · rintro ⟨rfl, rfl⟩
    exact C83_maxwell_exists S hS theta lbda ht hl ee a

/-- C83: the same for `Solver2x2` on isotropic samples, under the conditions of C37. -/
theorem C83_maxwell_2x2 (asin : ℂ → ℂ) (hasin : IsArcsin asin) (S : Sample) (hS : PassiveSample S) (hiso : IsoLayers S.layers)
    (theta lbda : ℝ) (ht : |theta| < 90) (hl : 0 < lbda)
    (hfw : ForwardOk (nOf (sampleStack S).back * cosPhi (kxOf (sampleStack S) theta) (sampleStack S).back))
    (hreg : Regular2x2 asin (sampleStack S) theta) (a r t : Fin 2 → ℂ) :
    (∃ E H : Field, Scattering S theta lbda a r t E H) ↔
      r = (calculate2x2 asin (sampleStack S) theta lbda).jr *ᵥ a ∧ t = (calculate2x2 asin (sampleStack S) theta lbda).jt *ᵥ a := by
  rw [C37_solvers_agree_passive asin hasin (sampleStack S) theta lbda (0, 0) (hS.stack ht hl) hiso hfw hreg]
  exact C83_maxwell_iff S hS theta lbda ht hl (0, 0) a r t

/-- A birefringent film with tilted axes on an absorbing substrate. -/
example : PassiveSample ⟨1, [(100, tilted)], 4 + I⟩ := by
  refine ⟨one_pos, ?_, ?_, by simp⟩
  · intro l hl
    simp only [List.mem_singleton] at hl
    subst hl
    exact ⟨by norm_num, by simp [tilted], lossless_passive tilted_lossless⟩
  · intro h
    have := congrArg Complex.im h
    simp at this

/-- A solution with incident s light on a bare surface at normal incidence: the Fresnel amplitudes. -/
example : (calculate4x4 propExpm (sampleStack ⟨1, [], 4⟩) 0 500 (0, 0)).jr *ᵥ ![0, 1] = ![0, -1 / 3] ∧
    PassiveSample ⟨1, [], 4⟩ := by
  have hS : PassiveSample ⟨1, [], 4⟩ := ⟨one_pos, by simp, by norm_num, by simp⟩
  refine ⟨?_, hS⟩
  have h := (amplitudes_iff (hS.stack (theta := 0) (lbda := 500) (by norm_num) (by norm_num)) one_pos (0, 0) ![0, 1] ![0, -1 / 3] ![0, 2 / 3]).1 ?_
  · exact h.1.symm
  have h1 : kxOf (sampleStack ⟨1, [], 4⟩) 0 = 0 := by simp [kxOf, deg2rad]
  have h2 : nOf (isoTensor 4) = 2 := by
    have : Complex.sqrt ((4 : ℝ) : ℂ) = ((2 : ℝ) : ℂ) := by
      rw [csqrt_ofReal (by norm_num), show (4 : ℝ) = 2 ^ 2 by norm_num, Real.sqrt_sq (by norm_num)]
    simpa [nOf, isoTensor] using this
  have h3 : nOf (isoTensor 1) = 1 := by
    have : Complex.sqrt ((1 : ℝ) : ℂ) = ((1 : ℝ) : ℂ) := by rw [csqrt_ofReal (by norm_num), Real.sqrt_one]
    simpa [nOf, isoTensor] using this
  rw [h1]
  simp only [sampleStack, slabs, isoHalf, cosPhi_zero]
  rw [h2]
  simp only [one_pow, Complex.ofReal_one, h3]
  funext i
  fin_cases i <;> simp [Matrix.mulVec, dotProduct, Fin.sum_univ_four] <;> norm_num

end PyElli
