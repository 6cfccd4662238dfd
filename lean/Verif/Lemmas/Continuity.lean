import Verif.Lemmas.GradedScatter
import Mathlib.Analysis.Normed.Algebra.Exponential
import Mathlib.Analysis.Normed.Algebra.MatrixExponential
import Mathlib.Analysis.Analytic.Constructions
import Mathlib.Analysis.Calculus.FDeriv.Analytic

/-! # The solver's building blocks depend continuously and differentiably on the sample -/

namespace PyElli

open Matrix Complex Spec Set Filter Topology

/-- In the closed upper half plane the principal root is continuous (the cut is approached from above). -/
lemma csqrt_upper {z : ℂ} (h : 0 ≤ z.im) :
    Complex.sqrt z = (Real.sqrt ((‖z‖ + z.re) / 2) : ℝ) + (Real.sqrt ((‖z‖ - z.re) / 2) : ℝ) * I := by
  have h1 : 0 ≤ (‖z‖ + z.re) / 2 := by have := Complex.abs_re_le_norm z; have := neg_abs_le z.re; linarith
  have h2 : 0 ≤ (‖z‖ - z.re) / 2 := by have := Complex.abs_re_le_norm z; have := le_abs_self z.re; linarith
  have hn : ‖z‖ ^ 2 = z.re ^ 2 + z.im ^ 2 := by rw [Complex.sq_norm, Complex.normSq_apply]; ring
  have hprod : Real.sqrt ((‖z‖ + z.re) / 2) * Real.sqrt ((‖z‖ - z.re) / 2) = z.im / 2 := by
    rw [← Real.sqrt_mul h1]
    have : (‖z‖ + z.re) / 2 * ((‖z‖ - z.re) / 2) = (z.im / 2) ^ 2 := by nlinarith
    rw [this, Real.sqrt_sq (by linarith)]
  set a := Real.sqrt ((‖z‖ + z.re) / 2) with ha
  set b := Real.sqrt ((‖z‖ - z.re) / 2) with hb
  have ha2 : a ^ 2 = (‖z‖ + z.re) / 2 := Real.sq_sqrt h1
  have hb2 : b ^ 2 = (‖z‖ - z.re) / 2 := Real.sq_sqrt h2
  have hw : ((a : ℂ) + b * I) ^ 2 = z := by
    apply Complex.ext
    · simp [pow_two]; nlinarith
    · simp [pow_two]; nlinarith
  have hpr := csqrt_im_nonneg h
  have hre := csqrt_re_nonneg z
  have hsq : Complex.sqrt z ^ 2 = ((a : ℂ) + b * I) ^ 2 := by rw [csqrt_sq, hw]
  rcases sq_eq_sq_iff_eq_or_eq_neg.1 hsq with h | h
  · exact h
  · have e1 := congrArg Complex.re h
    have e2 := congrArg Complex.im h
    have a0 : 0 ≤ a := Real.sqrt_nonneg _
    have b0 : 0 ≤ b := Real.sqrt_nonneg _
    simp at e1 e2
    have ea : a = 0 := by linarith
    have eb : b = 0 := by linarith
    rw [h, ea, eb]
    simp

section

variable {X : Type*} [TopologicalSpace X] {p : X}

lemma csqrt_continuousAt {f : X → ℂ} (hf : ContinuousAt f p) (hi : ∀ᶠ q in 𝓝 p, 0 ≤ (f q).im) :
    ContinuousAt (fun q => Complex.sqrt (f q)) p := by
  have h1 : ContinuousAt (fun q => ((Real.sqrt ((‖f q‖ + (f q).re) / 2) : ℝ) : ℂ) + (Real.sqrt ((‖f q‖ - (f q).re) / 2) : ℝ) * I) p := by
    have hn := hf.norm
    have hre := Complex.continuous_re.continuousAt.comp hf
    have a := Complex.continuous_ofReal.continuousAt.comp (Real.continuous_sqrt.continuousAt.comp ((hn.add hre).div_const 2))
    have b := Complex.continuous_ofReal.continuousAt.comp (Real.continuous_sqrt.continuousAt.comp ((hn.sub hre).div_const 2))
    exact a.add (b.mul continuousAt_const)
  refine h1.congr (hi.mono fun q hq => ?_)
  exact (csqrt_upper hq).symm

lemma matrix_continuousAt {m n : Type*} {f : X → Matrix m n ℂ} : ContinuousAt f p ↔ ∀ i j, ContinuousAt (fun q => f q i j) p := by
  constructor
  · intro h i j
    exact (continuousAt_pi.1 (continuousAt_pi.1 h i)) j
  · intro h
    exact continuousAt_pi.2 fun i => continuousAt_pi.2 fun j => h i j

lemma buildDelta_continuousAt {kx : X → ℂ} {e : X → Tensor} (hk : ContinuousAt kx p) (he : ContinuousAt e p) (h22 : e p 2 2 ≠ 0) :
    ContinuousAt (fun q => buildDelta (kx q) (e q)) p := by
  have he' := matrix_continuousAt.1 he
  have hz : ∀ {f : X → ℂ}, ContinuousAt f p → ContinuousAt (fun q => f q / e q 2 2) p := fun hf => hf.div (he' 2 2) h22
  have h1 : ContinuousAt (fun q => -kx q * e q 2 0 / e q 2 2) p := hz (hk.neg.mul (he' 2 0))
  have h2 : ContinuousAt (fun q => -kx q * e q 2 1 / e q 2 2) p := hz (hk.neg.mul (he' 2 1))
  have h3 : ContinuousAt (fun q => 1 - kx q ^ 2 / e q 2 2) p := continuousAt_const.sub (hz (hk.pow 2))
  have h4 : ContinuousAt (fun q => e q 1 2 * e q 2 0 / e q 2 2 - e q 1 0) p := (hz ((he' 1 2).mul (he' 2 0))).sub (he' 1 0)
  have h5 : ContinuousAt (fun q => kx q ^ 2 - e q 1 1 + e q 1 2 * e q 2 1 / e q 2 2) p :=
    ((hk.pow 2).sub (he' 1 1)).add (hz ((he' 1 2).mul (he' 2 1)))
  have h6 : ContinuousAt (fun q => kx q * e q 1 2 / e q 2 2) p := hz (hk.mul (he' 1 2))
  have h7 : ContinuousAt (fun q => e q 0 0 - e q 0 2 * e q 2 0 / e q 2 2) p := (he' 0 0).sub (hz ((he' 0 2).mul (he' 2 0)))
  have h8 : ContinuousAt (fun q => e q 0 1 - e q 0 2 * e q 2 1 / e q 2 2) p := (he' 0 1).sub (hz ((he' 0 2).mul (he' 2 1)))
  have h9 : ContinuousAt (fun q => -kx q * e q 0 2 / e q 2 2) p := hz (hk.neg.mul (he' 0 2))
  refine matrix_continuousAt.2 fun i j => ?_
  fin_cases i <;> fin_cases j <;> simp only [buildDelta, Matrix.of_apply, Matrix.cons_val', Matrix.cons_val_zero, Matrix.cons_val_one, Matrix.cons_val,
    Fin.mk_one, Fin.zero_eta, Fin.reduceFinMk, Matrix.cons_val_fin_one] <;> first | assumption | exact continuousAt_const

open scoped Matrix.Norms.Operator in
lemma propExpm_continuousAt {D : X → Mat4} {d lbda : X → ℝ} (hD : ContinuousAt D p) (hd : ContinuousAt d p) (hl : ContinuousAt lbda p) (h0 : lbda p ≠ 0) :
    ContinuousAt (fun q => propExpm (D q) (d q) (lbda q)) p := by
  have hw : ContinuousAt (fun q => ((wavenumber (lbda q) : ℝ) : ℂ)) p :=
    Complex.continuous_ofReal.continuousAt.comp (by
      unfold wavenumber
      exact continuousAt_const.div hl h0)
  have hd' : ContinuousAt (fun q => I * ((d q : ℝ) : ℂ)) p := continuousAt_const.mul (Complex.continuous_ofReal.continuousAt.comp hd)
  have hs : ContinuousAt (fun q => (I * ((d q : ℝ) : ℂ)) • (((wavenumber (lbda q) : ℝ) : ℂ) • D q)) p := hd'.smul (hw.smul hD)
  have hexp : Continuous (NormedSpace.exp : Mat4 → Mat4) := NormedSpace.exp_continuous
  exact hexp.continuousAt.comp hs

/-- The layers at one value of the parameters. -/
def layersAt {X : Type*} (L : List ((X → ℝ) × (X → Tensor))) (q : X) : List (ℝ × Tensor) := L.map fun l => (l.1 q, l.2 q)

lemma slabs_continuousAt {kx : X → ℂ} {lbda : X → ℝ} (hk : ContinuousAt kx p) (hl : ContinuousAt lbda p) (h0 : lbda p ≠ 0) :
    ∀ L : List ((X → ℝ) × (X → Tensor)), (∀ l ∈ L, ContinuousAt l.1 p ∧ ContinuousAt l.2 p ∧ l.2 p 2 2 ≠ 0) →
      ContinuousAt (fun q => slabs (kx q) (lbda q) (layersAt L q)) p := by
  intro L
  induction L with
  | nil => intro _; simpa [slabs, layersAt] using continuousAt_const
  | cons l L ih =>
    intro h
    obtain ⟨h1, h2, h3⟩ := h l List.mem_cons_self
    have := ih fun l hl => h l (List.mem_cons_of_mem _ hl)
    have hp := propExpm_continuousAt (buildDelta_continuousAt hk h2 h3) h1.neg hl h0
    have : ContinuousAt (fun q => propExpm (buildDelta (kx q) (l.2 q)) (-l.1 q) (lbda q) * slabs (kx q) (lbda q) (layersAt L q)) p := by
      exact ContinuousAt.mul hp this
    refine this.congr (Eventually.of_forall fun q => ?_)
    simp [slabs, layersAt]

lemma isoHalf_continuousAt {kx : X → ℂ} {e : X → Tensor} (hn : ContinuousAt (fun q => nOf (e q)) p) (hc : ContinuousAt (fun q => cosPhi (kx q) (e q)) p) :
    ContinuousAt (fun q => isoHalf (kx q) (e q)) p := by
  refine matrix_continuousAt.2 fun i j => ?_
  have h1 := hn.neg.mul hc
  have h2 := hn.mul hc
  have h3 := hc.neg
  simp only [isoHalf]
  fin_cases i <;> fin_cases j <;> simp only [Matrix.of_apply, Matrix.cons_val', Matrix.cons_val_zero, Matrix.cons_val_one, Matrix.cons_val,
    Fin.mk_one, Fin.zero_eta, Fin.reduceFinMk, Matrix.cons_val_fin_one] <;> first | assumption | exact continuousAt_const

lemma isoHalfInv_continuousAt {kx : X → ℂ} {e : X → Tensor} (hn : ContinuousAt (fun q => nOf (e q)) p) (hc : ContinuousAt (fun q => cosPhi (kx q) (e q)) p)
    (n0 : nOf (e p) ≠ 0) (c0 : cosPhi (kx p) (e p) ≠ 0) :
    ContinuousAt (fun q => isoHalfInv (kx q) (e q)) p := by
  refine matrix_continuousAt.2 fun i j => ?_
  have h1 : ContinuousAt (fun q => -1 / cosPhi (kx q) (e q) / nOf (e q)) p := (continuousAt_const.div hc c0).div hn n0
  have h2 : ContinuousAt (fun q => 1 / cosPhi (kx q) (e q) / nOf (e q)) p := (continuousAt_const.div hc c0).div hn n0
  have h3 : ContinuousAt (fun q => 1 / cosPhi (kx q) (e q)) p := continuousAt_const.div hc c0
  have h4 : ContinuousAt (fun q => -1 / cosPhi (kx q) (e q)) p := continuousAt_const.div hc c0
  have h5 : ContinuousAt (fun q => 1 / nOf (e q)) p := continuousAt_const.div hn n0
  simp only [isoHalfInv]
  fin_cases i <;> fin_cases j <;> simp only [Matrix.smul_apply, Matrix.of_apply, Matrix.cons_val', Matrix.cons_val_zero, Matrix.cons_val_one, Matrix.cons_val,
    Fin.mk_one, Fin.zero_eta, Fin.reduceFinMk, Matrix.cons_val_fin_one, smul_eq_mul] <;>
    first | exact continuousAt_const | exact continuousAt_const.mul h1 | exact continuousAt_const.mul h2 | exact continuousAt_const.mul h3 |
      exact continuousAt_const.mul h4 | exact continuousAt_const.mul h5

lemma tIt_continuousAt {m : X → Mat4} (h : ContinuousAt m p) : ContinuousAt (fun q => tIt (m q)) p ∧ ContinuousAt (fun q => tRt (m q)) p := by
  have hm := matrix_continuousAt.1 h
  constructor
  · refine matrix_continuousAt.2 fun i j => ?_
    fin_cases i <;> fin_cases j <;> simp [tIt] <;> exact hm _ _
  · refine matrix_continuousAt.2 fun i j => ?_
    fin_cases i <;> fin_cases j <;> simp [tRt] <;> exact hm _ _

lemma inv_continuousAt {m : X → Mat2} (h : ContinuousAt m p) (hd : (m p).det ≠ 0) : ContinuousAt (fun q => (m q)⁻¹) p := by
  simp only [Matrix.inv_def, Ring.inverse_eq_inv']
  have h1 : ContinuousAt (fun q => (m q).det) p := (Continuous.matrix_det continuous_id).continuousAt.comp h
  have h2 : ContinuousAt (fun q => (m q).adjugate) p := (Continuous.matrix_adjugate continuous_id).continuousAt.comp h
  exact (h1.inv₀ hd).smul h2

end

/-! ## Derivatives -/

section

variable {E : Type*} [NormedAddCommGroup E] [NormedSpace ℝ E] {p : E}

/-- All entries are differentiable. -/
def EntryDiff {m n : Type*} (f : E → Matrix m n ℂ) (p : E) : Prop := ∀ i j, DifferentiableAt ℝ (fun q => f q i j) p

lemma EntryDiff.const {m n : Type*} (A : Matrix m n ℂ) : EntryDiff (fun _ : E => A) p := fun _ _ => differentiableAt_const _

lemma EntryDiff.mul {k m n : Type*} [Fintype m] {f : E → Matrix k m ℂ} {g : E → Matrix m n ℂ} (hf : EntryDiff f p) (hg : EntryDiff g p) :
    EntryDiff (fun q => f q * g q) p := by
  intro i j
  simp only [Matrix.mul_apply]
  exact DifferentiableAt.fun_sum fun k _ => (hf i k).mul (hg k j)

lemma EntryDiff.smul {m n : Type*} {c : E → ℂ} {f : E → Matrix m n ℂ} (hc : DifferentiableAt ℝ c p) (hf : EntryDiff f p) :
    EntryDiff (fun q => c q • f q) p := by
  intro i j
  simp only [Matrix.smul_apply, smul_eq_mul]
  exact hc.mul (hf i j)

lemma EntryDiff.inv {m : E → Mat2} (h : EntryDiff m p) (hd : (m p).det ≠ 0) : EntryDiff (fun q => (m q)⁻¹) p := by
  have hdet : DifferentiableAt ℝ (fun q => (m q).det) p := by
    simp only [Matrix.det_fin_two]
    exact ((h 0 0).mul (h 1 1)).sub ((h 0 1).mul (h 1 0))
  have hadj : EntryDiff (fun q => (m q).adjugate) p := by
    intro i j
    have h1 := (h 0 1).neg
    have h2 := (h 1 0).neg
    fin_cases i <;> fin_cases j <;> simp [Matrix.adjugate_fin_two] <;> first | exact h1 | exact h2 | exact h _ _
  simp only [Matrix.inv_def, Ring.inverse_eq_inv']
  exact EntryDiff.smul (hdet.inv hd) hadj

open scoped Matrix.Norms.Operator in
lemma entryDiff_iff {f : E → Mat4} : DifferentiableAt ℝ f p ↔ EntryDiff f p := by
  constructor
  · intro h i j
    have hl := (LinearMap.toContinuousLinearMap (Matrix.entryLinearMap ℝ ℂ i j : Mat4 →ₗ[ℝ] ℂ)).differentiableAt (x := f p)
    exact hl.comp p h
  · intro h
    have hs : f = fun q => ∑ i, ∑ j, f q i j • (Matrix.single i j (1 : ℂ) : Mat4) := by
      funext q
      conv_lhs => rw [Matrix.matrix_eq_sum_single (f q)]
      refine Finset.sum_congr rfl fun i _ => Finset.sum_congr rfl fun j _ => ?_
      rw [Matrix.smul_single, smul_eq_mul, mul_one]
    rw [hs]
    exact DifferentiableAt.fun_sum fun i _ => DifferentiableAt.fun_sum fun j _ => (h i j).smul_const _

open scoped Matrix.Norms.Operator in
lemma EntryDiff.exp {f : E → Mat4} (hf : EntryDiff f p) : EntryDiff (fun q => (NormedSpace.exp (f q) : Mat4)) p := by
  have h := entryDiff_iff.2 hf
  have he : DifferentiableAt ℝ (NormedSpace.exp : Mat4 → Mat4) (f p) := (NormedSpace.exp_analytic (𝕂 := ℝ) (f p)).differentiableAt
  exact entryDiff_iff.1 (he.comp p h)

lemma EntryDiff.buildDelta {kx : ℂ} {e : E → Tensor} (he : EntryDiff e p) (h22 : e p 2 2 ≠ 0) : EntryDiff (fun q => PyElli.buildDelta kx (e q)) p := by
  have hz : ∀ {f : E → ℂ}, DifferentiableAt ℝ f p → DifferentiableAt ℝ (fun q => f q / e q 2 2) p := fun hf => by
    simp only [div_eq_mul_inv]
    exact hf.mul ((he 2 2).inv h22)
  have hk : DifferentiableAt ℝ (fun _ : E => kx) p := differentiableAt_const _
  have h1 : DifferentiableAt ℝ (fun q => -kx * e q 2 0 / e q 2 2) p := hz (hk.neg.mul (he 2 0))
  have h2 : DifferentiableAt ℝ (fun q => -kx * e q 2 1 / e q 2 2) p := hz (hk.neg.mul (he 2 1))
  have h3 : DifferentiableAt ℝ (fun q => 1 - kx ^ 2 / e q 2 2) p := (differentiableAt_const _).sub (hz (hk.pow 2))
  have h4 : DifferentiableAt ℝ (fun q => e q 1 2 * e q 2 0 / e q 2 2 - e q 1 0) p := (hz ((he 1 2).mul (he 2 0))).sub (he 1 0)
  have h5 : DifferentiableAt ℝ (fun q => kx ^ 2 - e q 1 1 + e q 1 2 * e q 2 1 / e q 2 2) p :=
    ((hk.pow 2).sub (he 1 1)).add (hz ((he 1 2).mul (he 2 1)))
  have h6 : DifferentiableAt ℝ (fun q => kx * e q 1 2 / e q 2 2) p := hz (hk.mul (he 1 2))
  have h7 : DifferentiableAt ℝ (fun q => e q 0 0 - e q 0 2 * e q 2 0 / e q 2 2) p := (he 0 0).sub (hz ((he 0 2).mul (he 2 0)))
  have h8 : DifferentiableAt ℝ (fun q => e q 0 1 - e q 0 2 * e q 2 1 / e q 2 2) p := (he 0 1).sub (hz ((he 0 2).mul (he 2 1)))
  have h9 : DifferentiableAt ℝ (fun q => -kx * e q 0 2 / e q 2 2) p := hz (hk.neg.mul (he 0 2))
  intro i j
  fin_cases i <;> fin_cases j <;> simp only [PyElli.buildDelta, Matrix.of_apply, Matrix.cons_val', Matrix.cons_val_zero, Matrix.cons_val_one, Matrix.cons_val,
    Fin.mk_one, Fin.zero_eta, Fin.reduceFinMk, Matrix.cons_val_fin_one] <;> first | assumption | exact differentiableAt_const _

lemma EntryDiff.propExpm {D : E → Mat4} {d lbda : E → ℝ} (hD : EntryDiff D p) (hd : DifferentiableAt ℝ d p) (hl : DifferentiableAt ℝ lbda p) (h0 : lbda p ≠ 0) :
    EntryDiff (fun q => PyElli.propExpm (D q) (d q) (lbda q)) p := by
  have hw : DifferentiableAt ℝ (fun q => ((wavenumber (lbda q) : ℝ) : ℂ)) p := by
    have : DifferentiableAt ℝ (fun q => wavenumber (lbda q)) p := by
      unfold wavenumber
      simp only [div_eq_mul_inv]
      exact (differentiableAt_const _).mul (hl.inv h0)
    exact (Complex.ofRealCLM.differentiableAt).comp p this
  have hd' : DifferentiableAt ℝ (fun q => I * ((d q : ℝ) : ℂ)) p :=
    (differentiableAt_const _).mul ((Complex.ofRealCLM.differentiableAt).comp p hd)
  unfold PyElli.propExpm
  exact EntryDiff.exp (EntryDiff.smul hd' (EntryDiff.smul hw hD))

lemma slabs_entryDiff (kx : ℂ) {lbda : E → ℝ} (hl : DifferentiableAt ℝ lbda p) (h0 : lbda p ≠ 0) :
    ∀ L : List ((E → ℝ) × (E → Tensor)), (∀ l ∈ L, DifferentiableAt ℝ l.1 p ∧ EntryDiff l.2 p ∧ l.2 p 2 2 ≠ 0) →
      EntryDiff (fun q => slabs kx (lbda q) (layersAt L q)) p := by
  intro L
  induction L with
  | nil => intro _; simpa [slabs, layersAt] using EntryDiff.const (E := E) (p := p) (1 : Mat4)
  | cons l L ih =>
    intro h
    obtain ⟨h1, h2, h3⟩ := h l List.mem_cons_self
    have hr := ih fun l hl => h l (List.mem_cons_of_mem _ hl)
    have hp := EntryDiff.propExpm (EntryDiff.buildDelta (kx := kx) h2 h3) h1.neg hl h0
    have := hp.mul hr
    simpa [slabs, layersAt] using this

lemma EntryDiff.blocks {m : E → Mat4} (h : EntryDiff m p) : EntryDiff (fun q => tIt (m q)) p ∧ EntryDiff (fun q => tRt (m q)) p := by
  constructor
  · intro i j
    fin_cases i <;> fin_cases j <;> simp [tIt] <;> exact h _ _
  · intro i j
    fin_cases i <;> fin_cases j <;> simp [tRt] <;> exact h _ _

end

end PyElli
