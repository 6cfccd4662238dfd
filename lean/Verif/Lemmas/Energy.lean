import Verif.Lemmas.Berreman
import Verif.Spec.Optics
import Mathlib.Analysis.Calculus.Deriv.Add
import Mathlib.Analysis.Calculus.Deriv.Mul
import Mathlib.Analysis.Calculus.Deriv.MeanValue
import Mathlib.Analysis.Calculus.MeanValue
import Mathlib.Analysis.Calculus.Deriv.Star
import Mathlib.Analysis.Matrix.Hermitian
import Mathlib.Tactic

/-! Energy flow through Berreman stacks. -/

namespace PyElli

open Matrix Complex Spec

/-- The z component of E that belongs to tangential fields. -/
noncomputable def fieldE (kx : ℂ) (eps : Tensor) (v : Fin 4 → ℂ) : Fin 3 → ℂ :=
  ![v 0, v 1, -(eps 2 0 * v 0 + eps 2 1 * v 1 + kx * v 3) / eps 2 2]

/-- Bilinear expression whose real part is the flux derivative. -/
noncomputable def fluxForm (v w : Fin 4 → ℂ) : ℂ :=
  w 0 * (starRingEnd ℂ) (v 3) + v 0 * (starRingEnd ℂ) (w 3) - w 1 * (starRingEnd ℂ) (v 2) - v 1 * (starRingEnd ℂ) (w 2)

lemma im_quadratic (kx : ℝ) (eps : Tensor) (h : eps 2 2 ≠ 0) (v : Fin 4 → ℂ) :
    (fluxForm v (I • (buildDelta kx eps *ᵥ v))).re = -(star (fieldE kx eps v) ⬝ᵥ eps *ᵥ fieldE kx eps v).im := by
  set Ez := -(eps 2 0 * v 0 + eps 2 1 * v 1 + kx * v 3) / eps 2 2 with hEz
  have hz : eps 2 2 * Ez = -(eps 2 0 * v 0 + eps 2 1 * v 1 + kx * v 3) := by
    rw [hEz]; field_simp
  have w0 : (buildDelta kx eps *ᵥ v) 0 = kx * Ez + v 3 := by
    rw [hEz]
    simp [buildDelta, Matrix.mulVec, dotProduct, Fin.sum_univ_four]
    field_simp
    ring
  have w1 : (buildDelta kx eps *ᵥ v) 1 = -v 2 := by
    simp [buildDelta, Matrix.mulVec, dotProduct, Fin.sum_univ_four]
  have w2 : (buildDelta kx eps *ᵥ v) 2 = kx ^ 2 * v 1 - (eps 1 0 * v 0 + eps 1 1 * v 1 + eps 1 2 * Ez) := by
    rw [hEz]
    simp [buildDelta, Matrix.mulVec, dotProduct, Fin.sum_univ_four]
    field_simp
    ring
  have w3 : (buildDelta kx eps *ᵥ v) 3 = eps 0 0 * v 0 + eps 0 1 * v 1 + eps 0 2 * Ez := by
    rw [hEz]
    simp [buildDelta, Matrix.mulVec, dotProduct, Fin.sum_univ_four]
    field_simp
    ring
  have hF : fieldE kx eps v = ![v 0, v 1, Ez] := rfl
  have hE : star (fieldE kx eps v) ⬝ᵥ eps *ᵥ fieldE kx eps v =
      (starRingEnd ℂ) (v 0) * (eps 0 0 * v 0 + eps 0 1 * v 1 + eps 0 2 * Ez) +
      (starRingEnd ℂ) (v 1) * (eps 1 0 * v 0 + eps 1 1 * v 1 + eps 1 2 * Ez) -
      (starRingEnd ℂ) Ez * (kx * v 3) := by
    have : star (fieldE kx eps v) ⬝ᵥ eps *ᵥ fieldE kx eps v =
      (starRingEnd ℂ) (v 0) * (eps 0 0 * v 0 + eps 0 1 * v 1 + eps 0 2 * Ez) +
      (starRingEnd ℂ) (v 1) * (eps 1 0 * v 0 + eps 1 1 * v 1 + eps 1 2 * Ez) +
      (starRingEnd ℂ) Ez * (eps 2 0 * v 0 + eps 2 1 * v 1 + eps 2 2 * Ez) := by
      rw [hF]
      generalize Ez = e
      simp [Matrix.mulVec, dotProduct, Fin.sum_univ_three]
    rw [this, hz]
    ring
  rw [hE]
  simp only [fluxForm, Pi.smul_apply, smul_eq_mul, w0, w1, w2, w3]
  generalize eps 0 0 * v 0 + eps 0 1 * v 1 + eps 0 2 * Ez = a
  generalize eps 1 0 * v 0 + eps 1 1 * v 1 + eps 1 2 * Ez = b
  generalize Ez = e
  simp [Complex.mul_re, Complex.mul_im, pow_two]
  ring

lemma psi_hasDerivAt (X : Mat4) (v : Fin 4 → ℂ) (i : Fin 4) (z : ℝ) :
    HasDerivAt (fun z : ℝ => ((NormedSpace.exp (z • X) : Mat4) *ᵥ v) i)
      ((X *ᵥ ((NormedSpace.exp (z • X) : Mat4) *ᵥ v)) i) z := by
  have h : HasDerivAt (fun z : ℝ => ∑ j, (NormedSpace.exp (z • X) : Mat4) i j * v j)
      (∑ j, (X * NormedSpace.exp (z • X) : Mat4) i j * v j) z := by
    refine HasDerivAt.fun_sum fun j _ => ?_
    exact (exp_entry_hasDerivAt X i j z).mul_const (v j)
  rw [Matrix.mulVec_mulVec]
  exact h

lemma flux_hasDerivAt (X : Mat4) (v : Fin 4 → ℂ) (z : ℝ) :
    HasDerivAt (fun z : ℝ => flux ((NormedSpace.exp (z • X) : Mat4) *ᵥ v))
      (fluxForm ((NormedSpace.exp (z • X) : Mat4) *ᵥ v) (X *ᵥ ((NormedSpace.exp (z • X) : Mat4) *ᵥ v))).re z := by
  have key := fun i => psi_hasDerivAt X v i z
  have conjD : ∀ i, HasDerivAt (fun z : ℝ => (starRingEnd ℂ) (((NormedSpace.exp (z • X) : Mat4) *ᵥ v) i))
      ((starRingEnd ℂ) ((X *ᵥ ((NormedSpace.exp (z • X) : Mat4) *ᵥ v)) i)) z := by
    intro i
    exact (key i).star
  have h := (((key 0).mul (conjD 3)).sub ((key 1).mul (conjD 2)))
  have hre := HasFDerivAt.comp_hasDerivAt z (Complex.reCLM.hasFDerivAt (x := _)) h
  have e : (fluxForm ((NormedSpace.exp (z • X) : Mat4) *ᵥ v) (X *ᵥ ((NormedSpace.exp (z • X) : Mat4) *ᵥ v))) =
      (X *ᵥ ((NormedSpace.exp (z • X) : Mat4) *ᵥ v)) 0 * (starRingEnd ℂ) (((NormedSpace.exp (z • X) : Mat4) *ᵥ v) 3) +
      ((NormedSpace.exp (z • X) : Mat4) *ᵥ v) 0 * (starRingEnd ℂ) ((X *ᵥ ((NormedSpace.exp (z • X) : Mat4) *ᵥ v)) 3) -
      ((X *ᵥ ((NormedSpace.exp (z • X) : Mat4) *ᵥ v)) 1 * (starRingEnd ℂ) (((NormedSpace.exp (z • X) : Mat4) *ᵥ v) 2) +
      ((NormedSpace.exp (z • X) : Mat4) *ᵥ v) 1 * (starRingEnd ℂ) ((X *ᵥ ((NormedSpace.exp (z • X) : Mat4) *ᵥ v)) 2)) := by
    unfold fluxForm
    ring
  rw [e]
  exact hre

lemma fluxForm_smul (k : ℝ) (v w : Fin 4 → ℂ) : fluxForm v ((k : ℂ) • w) = k * fluxForm v w := by
  simp [fluxForm]
  ring

/-- The exponent of `propExpm` as a real multiple of `i k Δ`. -/
lemma propExpm_eq (delta : Mat4) (d lbda : ℝ) :
    propExpm delta d lbda = NormedSpace.exp (d • ((wavenumber lbda : ℂ) • (I • delta))) := by
  unfold propExpm
  congr 1
  ext i j
  simp
  ring

lemma flux_deriv_eq (kx : ℝ) (eps : Tensor) (h : eps 2 2 ≠ 0) (lbda : ℝ) (u : Fin 4 → ℂ) :
    (fluxForm u (((wavenumber lbda : ℂ) • (I • buildDelta kx eps)) *ᵥ u)).re =
      -(wavenumber lbda * (star (fieldE kx eps u) ⬝ᵥ eps *ᵥ fieldE kx eps u).im) := by
  rw [Matrix.smul_mulVec, fluxForm_smul, Matrix.smul_mulVec, Complex.re_ofReal_mul, im_quadratic kx eps h]
  ring

/-- Passive slab: the flux at the front is at least the flux at the back. -/
lemma flux_prop_ge (kx : ℝ) (eps : Tensor) (h : eps 2 2 ≠ 0) (hp : Passive eps) {d lbda : ℝ} (hd : 0 ≤ d) (hl : 0 < lbda)
    (v : Fin 4 → ℂ) : flux v ≤ flux (propExpm (buildDelta kx eps) (-d) lbda *ᵥ v) := by
  rw [propExpm_eq]
  set X : Mat4 := (wavenumber lbda : ℂ) • (I • buildDelta kx eps) with hX
  have hanti : Antitone (fun z : ℝ => flux ((NormedSpace.exp (z • X) : Mat4) *ᵥ v)) := by
    apply antitone_of_deriv_nonpos
    · exact fun z => (flux_hasDerivAt X v z).differentiableAt
    · intro z
      rw [(flux_hasDerivAt X v z).deriv, hX, flux_deriv_eq kx eps h]
      have : 0 ≤ wavenumber lbda := by unfold wavenumber; positivity
      have := mul_nonneg this (hp (fieldE kx eps ((NormedSpace.exp (z • X) : Mat4) *ᵥ v)))
      linarith
  have := hanti (show -d ≤ 0 by linarith)
  simpa using this

lemma lossless_im {eps : Tensor} (h : Lossless eps) (E : Fin 3 → ℂ) : (star E ⬝ᵥ eps *ᵥ E).im = 0 :=
  Matrix.IsHermitian.im_star_dotProduct_mulVec_self h E

lemma lossless_passive {eps : Tensor} (h : Lossless eps) : Passive eps := fun E => (lossless_im h E).ge

/-- Lossless slab: the flux does not change. -/
lemma flux_prop_eq (kx : ℝ) (eps : Tensor) (h : eps 2 2 ≠ 0) (hp : Lossless eps) (d lbda : ℝ)
    (v : Fin 4 → ℂ) : flux (propExpm (buildDelta kx eps) (-d) lbda *ᵥ v) = flux v := by
  rw [propExpm_eq]
  set X : Mat4 := (wavenumber lbda : ℂ) • (I • buildDelta kx eps) with hX
  have := is_const_of_deriv_eq_zero (f := fun z : ℝ => flux ((NormedSpace.exp (z • X) : Mat4) *ᵥ v))
    (fun z => (flux_hasDerivAt X v z).differentiableAt) (fun z => by
      rw [(flux_hasDerivAt X v z).deriv, hX, flux_deriv_eq kx eps h, lossless_im hp]
      simp) (-d) 0
  simpa using this

lemma flux_stack_ge (kx : ℝ) {lbda : ℝ} (hl : 0 < lbda) (layers : List (ℝ × Tensor))
    (h : ∀ l ∈ layers, 0 ≤ l.1 ∧ l.2 2 2 ≠ 0 ∧ Passive l.2) (v : Fin 4 → ℂ) :
    flux v ≤ flux ((layers.map fun l => propExpm (buildDelta kx l.2) (-l.1) lbda).prod *ᵥ v) := by
  induction layers with
  | nil => simp
  | cons l rest ih =>
    obtain ⟨h1, h2, h3⟩ := h l (by simp)
    simp only [List.map_cons, List.prod_cons]
    rw [← Matrix.mulVec_mulVec]
    exact (ih fun x hx => h x (by simp [hx])).trans (flux_prop_ge kx l.2 h2 h3 h1 hl _)

lemma flux_stack_eq (kx : ℝ) (lbda : ℝ) (layers : List (ℝ × Tensor))
    (h : ∀ l ∈ layers, l.2 2 2 ≠ 0 ∧ Lossless l.2) (v : Fin 4 → ℂ) :
    flux ((layers.map fun l => propExpm (buildDelta kx l.2) (-l.1) lbda).prod *ᵥ v) = flux v := by
  induction layers with
  | nil => simp
  | cons l rest ih =>
    obtain ⟨h2, h3⟩ := h l (by simp)
    simp only [List.map_cons, List.prod_cons]
    rw [← Matrix.mulVec_mulVec, flux_prop_eq kx l.2 h2 h3, ih fun x hx => h x (by simp [hx])]

end PyElli
