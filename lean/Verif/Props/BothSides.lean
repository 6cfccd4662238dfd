import Verif.Props.Symmetry
import Verif.Props.Airy
import Verif.Spec.BothSides
import Mathlib.Analysis.Matrix.Spectrum

/-! # Light of any polarisation, and samples seen from both sides (C127) -/

namespace PyElli

open Matrix Complex Spec

/-! ## Any polarisation -/

lemma any_column (m : Mat4) (hdet : (tIt m).det ≠ 0) (v : Fin 2 → ℂ) :
    tIt m *ᵥ ((tIt m)⁻¹ *ᵥ v) = v ∧ tRt m *ᵥ ((tIt m)⁻¹ *ᵥ v) = (tRt m * (tIt m)⁻¹) *ᵥ v := by
  have hu : IsUnit (tIt m).det := isUnit_iff_ne_zero.2 hdet
  refine ⟨?_, Matrix.mulVec_mulVec _ _ _⟩
  rw [Matrix.mulVec_mulVec, Matrix.mul_nonsing_inv _ hu, Matrix.one_mulVec]

/-- C127: a lossless stack (Hermitian tensors, real exit permittivity) conserves the power of light of every polarisation, not only of the two basis
states: what is reflected and what is transmitted adds up to what comes in. -/
theorem C127_every_polarisation (s : Stack) (theta lbda : ℝ) (h : PassiveStack s theta lbda)
    (hl : ∀ l ∈ s.layers, Lossless l.2) (hb : (s.back 0 0).im = 0) (ee) (v : Fin 2 → ℂ) :
    let out := calculate4x4 propExpm s theta lbda ee
    ∃ p, out.power = some p ∧ jonesPower (out.jr *ᵥ v) + p * jonesPower (out.jt *ᵥ v) = jonesPower v := by
  intro out
  have hdet := tIt_det_ne_zero s theta lbda h ee
  obtain ⟨c1, c2⟩ := any_column _ hdet v
  have hbal := balance_eq s theta lbda h hl hb ee ((tIt (transfer4x4 propExpm s theta lbda ee))⁻¹ *ᵥ v)
  rw [c1, c2, ← getKz_back s theta lbda h, ← getKz_front s theta lbda h] at hbal
  refine ⟨(getKz s.back (kxOf s theta)).re / (getKz s.front (kxOf s theta)).re, by simp only [out, calculate4x4, h.iso, if_true], ?_⟩
  simp only [out, calculate4x4, jonesPower]
  linarith

/-- C127: a passive stack amplifies no state of polarisation. -/
theorem C127_no_gain (s : Stack) (theta lbda : ℝ) (h : PassiveStack s theta lbda) (ee) (v : Fin 2 → ℂ) :
    let out := calculate4x4 propExpm s theta lbda ee
    ∃ p, out.power = some p ∧ 0 ≤ p ∧ jonesPower (out.jr *ᵥ v) + p * jonesPower (out.jt *ᵥ v) ≤ jonesPower v := by
  intro out
  have hdet := tIt_det_ne_zero s theta lbda h ee
  obtain ⟨c1, c2⟩ := any_column _ hdet v
  have hbal := balance_ge s theta lbda h ee ((tIt (transfer4x4 propExpm s theta lbda ee))⁻¹ *ᵥ v)
  rw [c1, c2, ← getKz_back s theta lbda h, ← getKz_front s theta lbda h] at hbal
  refine ⟨(getKz s.back (kxOf s theta)).re / (getKz s.front (kxOf s theta)).re, by simp only [out, calculate4x4, h.iso, if_true],
    div_nonneg (csqrt_re_nonneg _) (csqrt_re_nonneg _), ?_⟩
  simp only [out, calculate4x4, jonesPower]
  linarith

/-! ## The Gram matrices -/

lemma jonesPower_form (m : Matrix (Fin 2) (Fin 2) ℂ) (v : Fin 2 → ℂ) :
    ((jonesPower (m *ᵥ v) : ℝ) : ℂ) = star v ⬝ᵥ (mᴴ * m) *ᵥ v := by
  rw [← Matrix.mulVec_mulVec, Matrix.dotProduct_mulVec, ← Matrix.star_mulVec]
  simp only [jonesPower, dotProduct, Fin.sum_univ_two, Pi.star_apply, RCLike.star_def, Complex.conj_mul']
  push_cast
  ring

lemma jonesPower_one (v : Fin 2 → ℂ) : ((jonesPower v : ℝ) : ℂ) = star v ⬝ᵥ v := by
  simp only [jonesPower, dotProduct, Fin.sum_univ_two, Pi.star_apply, RCLike.star_def, Complex.conj_mul']
  push_cast
  ring

/-- A matrix is determined by its quadratic form. -/
lemma form_ext (a b : Matrix (Fin 2) (Fin 2) ℂ) (h : ∀ v : Fin 2 → ℂ, star v ⬝ᵥ a *ᵥ v = star v ⬝ᵥ b *ᵥ v) : a = b := by
  have h0 := h ![1, 0]
  have h1 := h ![0, 1]
  have h2 := h ![1, 1]
  have h3 := h ![1, I]
  simp [dotProduct, Matrix.mulVec, Fin.sum_univ_two] at h0 h1 h2 h3
  rw [h0, h1] at h2 h3
  have e2 : a 0 1 + a 1 0 = b 0 1 + b 1 0 := by linear_combination h2
  have e3 : a 0 1 - a 1 0 = b 0 1 - b 1 0 := by
    linear_combination (-I) * h3 + (a 0 1 - a 1 0 - b 0 1 + b 1 0 - (b 1 1 - b 1 1) * I) * Complex.I_sq
  ext i j
  fin_cases i <;> fin_cases j
  · exact h0
  · show a 0 1 = b 0 1
    linear_combination (e2 + e3) / 2
  · show a 1 0 = b 1 0
    linear_combination (e2 - e3) / 2
  · exact h1

/-- The Gram matrices of reflection and transmission of a lossless stack add up to one. -/
lemma gram_sum (s : Stack) (theta lbda : ℝ) (h : PassiveStack s theta lbda)
    (hl : ∀ l ∈ s.layers, Lossless l.2) (hb : (s.back 0 0).im = 0) (ee) (p : ℝ)
    (hp : (calculate4x4 propExpm s theta lbda ee).power = some p) :
    (calculate4x4 propExpm s theta lbda ee).jrᴴ * (calculate4x4 propExpm s theta lbda ee).jr =
      1 - (p : ℂ) • ((calculate4x4 propExpm s theta lbda ee).jtᴴ * (calculate4x4 propExpm s theta lbda ee).jt) := by
  apply form_ext
  intro v
  obtain ⟨q, hq, e⟩ := C127_every_polarisation s theta lbda h hl hb ee v
  rw [hp, Option.some.injEq] at hq
  subst hq
  rw [← jonesPower_form, Matrix.sub_mulVec, Matrix.one_mulVec, dotProduct_sub, Matrix.smul_mulVec, dotProduct_smul, ← jonesPower_form,
    ← jonesPower_one, smul_eq_mul, ← e]
  push_cast
  ring

/-! ## Unitarily equivalent Gram matrices show the same values -/

lemma reflectances_congr (a b : Matrix (Fin 2) (Fin 2) ℂ) (h : (aᴴ * a).charpoly = (bᴴ * b).charpoly) :
    Reflectances a ⊆ Reflectances b := by
  have hA := Matrix.isHermitian_conjTranspose_mul_self a
  have hB := Matrix.isHermitian_conjTranspose_mul_self b
  have he := (Matrix.IsHermitian.eigenvalues_eq_eigenvalues_iff hA hB).2 h
  have sA := hA.spectral_theorem
  have sB := hB.spectral_theorem
  rw [he] at sA
  rw [Unitary.conjStarAlgAut_apply] at sA sB
  set U : Matrix (Fin 2) (Fin 2) ℂ := hA.eigenvectorUnitary.1 with hU
  set V : Matrix (Fin 2) (Fin 2) ℂ := hB.eigenvectorUnitary.1 with hV
  have u1 : U * star U = 1 := Unitary.mul_star_self_of_mem hA.eigenvectorUnitary.2
  have u2 : star U * U = 1 := Unitary.star_mul_self_of_mem hA.eigenvectorUnitary.2
  have v1 : V * star V = 1 := Unitary.mul_star_self_of_mem hB.eigenvectorUnitary.2
  have v2 : star V * V = 1 := Unitary.star_mul_self_of_mem hB.eigenvectorUnitary.2
  generalize (diagonal (RCLike.ofReal ∘ hB.eigenvalues) : Matrix (Fin 2) (Fin 2) ℂ) = D at sA sB
  clear_value U V
  clear hU hV he hA hB
  rintro x ⟨v, hv, rfl⟩
  set W := V * star U with hW
  have hw : Wᴴ * W = 1 := by
    rw [hW, Matrix.conjTranspose_mul, ← Matrix.star_eq_conjTranspose, ← Matrix.star_eq_conjTranspose, star_star]
    calc U * star V * (V * star U) = U * (star V * V) * star U := by simp only [Matrix.mul_assoc]
      _ = 1 := by rw [v2, Matrix.mul_one, u1]
  have hg : Wᴴ * (bᴴ * b) * W = aᴴ * a := by
    rw [sA, sB, hW, Matrix.conjTranspose_mul, ← Matrix.star_eq_conjTranspose, ← Matrix.star_eq_conjTranspose, star_star]
    calc U * star V * (V * D * star V) * (V * star U)
        = U * (star V * V) * D * (star V * V) * star U := by simp only [Matrix.mul_assoc]
      _ = _ := by rw [v2]; simp only [Matrix.mul_one]
  refine ⟨W *ᵥ v, ?_, ?_⟩
  · have := jonesPower_form W v
    rw [hw, Matrix.one_mulVec, ← jonesPower_one] at this
    rw [← hv]
    exact_mod_cast this
  · have e1 := jonesPower_form a v
    rw [← hg] at e1
    have e2 := jonesPower_form b (W *ᵥ v)
    have e3 : star (W *ᵥ v) ⬝ᵥ (bᴴ * b) *ᵥ W *ᵥ v = star v ⬝ᵥ (Wᴴ * (bᴴ * b) * W) *ᵥ v := by
      rw [Matrix.star_mulVec, ← Matrix.dotProduct_mulVec, Matrix.mulVec_mulVec, Matrix.mulVec_mulVec, Matrix.mul_assoc]
    rw [e3, ← e1] at e2
    exact_mod_cast e2.symm

/-! ## The other side -/

lemma flip_lossless {e : Matrix (Fin 3) (Fin 3) ℂ} (h : Lossless e) :
    Lossless (flipY.map Complex.ofReal * e * (flipY.map Complex.ofReal)ᵀ) := by
  have hf : (flipY.map Complex.ofReal)ᴴ = (flipY.map Complex.ofReal)ᵀ := by
    ext i j
    simp [Matrix.conjTranspose_apply]
  unfold Lossless
  rw [← hf]
  exact Matrix.isHermitian_mul_mul_conjTranspose _ h

lemma flip_zz (e : Matrix (Fin 3) (Fin 3) ℂ) : (flipY.map Complex.ofReal * e * (flipY.map Complex.ofReal)ᵀ) 2 2 = e 2 2 := by
  simp [flipY, Matrix.mul_apply, Fin.sum_univ_three]

lemma upside_down_layers {s : Stack} (hl : ∀ l ∈ s.layers, Lossless l.2) : ∀ l ∈ (upsideDown s).layers, Lossless l.2 := by
  intro l hm
  simp only [upsideDown, moved, List.mem_reverse, List.mem_map] at hm
  obtain ⟨k, hk, rfl⟩ := hm
  exact flip_lossless (hl k hk)

lemma upside_down_passive {s : Stack} {theta theta' lbda nb : ℝ} (h : PassiveStack s theta lbda) (hl : ∀ l ∈ s.layers, Lossless l.2)
    (hnb : 0 < nb) (hbk : s.back 0 0 = ((nb ^ 2 : ℝ) : ℂ)) (hth' : |theta'| < 90) : PassiveStack (upsideDown s) theta' lbda := by
  obtain ⟨n0, hn0, hf⟩ := h.front
  refine ⟨⟨nb, hnb, hbk⟩, hth', h.lbda_pos, ?_, ?_, ?_, rfl⟩
  · intro l hm
    refine ⟨?_, ?_, lossless_passive (upside_down_layers hl l hm)⟩
    · simp only [upsideDown, moved, List.mem_reverse, List.mem_map] at hm
      obtain ⟨k, hk, rfl⟩ := hm
      exact (h.layers k hk).1
    · simp only [upsideDown, moved, List.mem_reverse, List.mem_map] at hm
      obtain ⟨k, hk, rfl⟩ := hm
      show (flipY.map Complex.ofReal * k.2 * (flipY.map Complex.ofReal)ᵀ) 2 2 ≠ 0
      rw [flip_zz]
      exact (h.layers k hk).2.1
  · show s.front 0 0 ≠ 0
    rw [hf]
    exact_mod_cast (by positivity)
  · show 0 ≤ (s.front 0 0).im
    rw [hf, Complex.ofReal_im]

/-- The transmitted powers of both sides, and the Gram matrices of reflection. -/
lemma both_grams (s : Stack) (n0 nb theta theta' lbda : ℝ) (ee ee') (hn0 : 0 < n0) (hnb : 0 < nb) (h : PassiveStack s theta lbda)
    (hl : ∀ l ∈ s.layers, Lossless l.2) (hs : Symmetric s)
    (hf : s.front 0 0 = ((n0 ^ 2 : ℝ) : ℂ)) (hbk : s.back 0 0 = ((nb ^ 2 : ℝ) : ℂ)) (hth' : |theta'| < 90)
    (hsnell : nb * Real.sin (deg2rad theta') = n0 * Real.sin (deg2rad theta)) :
    ∃ (q : ℝ) (t : Matrix (Fin 2) (Fin 2) ℂ),
      (calculate4x4 propExpm s theta lbda ee).jrᴴ * (calculate4x4 propExpm s theta lbda ee).jr = 1 - (q : ℂ) • (tᴴ * t) ∧
      (calculate4x4 propExpm (upsideDown s) theta' lbda ee').jrᴴ * (calculate4x4 propExpm (upsideDown s) theta' lbda ee').jr =
        1 - (q : ℂ) • ((!![1, 0; 0, -1] * tᵀ * !![1, 0; 0, -1])ᴴ * (!![1, 0; 0, -1] * tᵀ * !![1, 0; 0, -1])) := by
  have hth := h.angle
  have hb := h.iso
  obtain ⟨f1, f2, f3⟩ := cosPhi_snell hn0 hf hth
  obtain ⟨b1, b2, b3⟩ := cosPhi_snell hnb hbk hth'
  have hk : kxOf s theta = ((n0 * Real.sin (deg2rad theta) : ℝ) : ℂ) := kxOf_real hn0 hf theta
  have hk' : kxOf (upsideDown s) theta' = kxOf s theta := by
    rw [hk, ← hsnell]
    exact kxOf_real (s := upsideDown s) hnb hbk theta'
  rw [hsnell] at b2 b3
  have c1 := cos_pos_of_angle hth
  have c2 := cos_pos_of_angle hth'
  have hA := C81_amplitudes s theta theta' lbda ee ee' hb hs hk' (by rw [f1]; exact_mod_cast hn0.ne')
    (by rw [hk, f2]; exact_mod_cast c1.ne') (by rw [b1]; exact_mod_cast hnb.ne') (by rw [hk, b2]; exact_mod_cast c2.ne')
  rw [hk, f1, f2, b1, b2] at hA
  have p1 : (calculate4x4 propExpm s theta lbda ee).power =
      some ((nb * Real.cos (deg2rad theta')) / (n0 * Real.cos (deg2rad theta))) := by
    simp only [calculate4x4, hb, if_true, hk, f3, b3, Complex.ofReal_re]
  have p2 : (calculate4x4 propExpm (upsideDown s) theta' lbda ee').power =
      some ((n0 * Real.cos (deg2rad theta)) / (nb * Real.cos (deg2rad theta'))) := by
    have e1 : (upsideDown s).backIsotropic = true := rfl
    have e2 : (upsideDown s).front = s.back := rfl
    have e3 : (upsideDown s).back = s.front := rfl
    simp only [calculate4x4, e1, e2, e3, if_true, hk', hk, f3, b3, Complex.ofReal_re]
  have g1 := gram_sum s theta lbda h hl (by rw [hbk, Complex.ofReal_im]) ee _ p1
  have g2 := gram_sum (upsideDown s) theta' lbda (upside_down_passive h hl hnb hbk hth') (upside_down_layers hl)
    (by show (s.front 0 0).im = 0; rw [hf, Complex.ofReal_im]) ee' _ p2
  generalize (calculate4x4 propExpm s theta lbda ee).jt = t at *
  have ht : (calculate4x4 propExpm (upsideDown s) theta' lbda ee').jt =
      (((nb * Real.cos (deg2rad theta')) / (n0 * Real.cos (deg2rad theta)) : ℝ) : ℂ) • (!![1, 0; 0, -1] * tᵀ * !![1, 0; 0, -1]) := by
    ext i j
    rw [hA i j]
    fin_cases i <;> fin_cases j <;> simp [Matrix.mul_apply, Matrix.vecMul, dotProduct, Fin.sum_univ_two]
  refine ⟨_, t, g1, ?_⟩
  rw [g2, ht, Matrix.conjTranspose_smul, Matrix.smul_mul, Matrix.mul_smul, smul_smul, smul_smul, RCLike.star_def, Complex.conj_ofReal,
    ← Complex.ofReal_mul, ← Complex.ofReal_mul]
  congr 3
  field_simp

lemma gram_charpoly (q : ℂ) (t : Matrix (Fin 2) (Fin 2) ℂ) :
    (1 - q • ((!![1, 0; 0, -1] * tᵀ * !![1, 0; 0, -1])ᴴ * (!![1, 0; 0, -1] * tᵀ * !![1, 0; 0, -1])) : Matrix (Fin 2) (Fin 2) ℂ).charpoly =
      (1 - q • (tᴴ * t)).charpoly := by
  obtain ⟨a, b, c, d, rfl⟩ : ∃ a b c d, t = !![a, b; c, d] := ⟨t 0 0, t 0 1, t 1 0, t 1 1, Matrix.eta_fin_two t⟩
  have e1 : (!![1, 0; 0, -1] * !![a, b; c, d]ᵀ * !![1, 0; 0, -1] : Matrix (Fin 2) (Fin 2) ℂ) = !![a, -c; -b, d] := by
    have e0 : !![a, b; c, d]ᵀ = !![a, c; b, d] := by
      ext i j
      fin_cases i <;> fin_cases j <;> rfl
    rw [e0, Matrix.mul_fin_two, Matrix.mul_fin_two]
    simp
  have e2 : ∀ x y z w : ℂ, (1 - q • (!![x, y; z, w]ᴴ * !![x, y; z, w]) : Matrix (Fin 2) (Fin 2) ℂ) =
      !![1 - q * (star x * x + star z * z), -(q * (star x * y + star z * w)); -(q * (star y * x + star w * z)),
        1 - q * (star y * y + star w * w)] := by
    intro x y z w
    ext i j
    fin_cases i <;> fin_cases j <;> simp [Matrix.mul_apply, Fin.sum_univ_two]
  rw [e1, e2, e2, Matrix.charpoly_fin_two, Matrix.charpoly_fin_two]
  simp only [Matrix.trace_fin_two_of, Matrix.det_fin_two_of, star_neg]
  have h1 : ∀ x y x' y' : ℂ, x = x' → y = y' →
      (Polynomial.X ^ 2 - Polynomial.C x * Polynomial.X + Polynomial.C y : Polynomial ℂ) =
        Polynomial.X ^ 2 - Polynomial.C x' * Polynomial.X + Polynomial.C y' := by
    rintro x y x' y' rfl rfl
    rfl
  apply h1 <;> ring

/-- C127: between transparent half spaces a lossless non-gyrotropic sample reflects the same from both sides: the set of reflectances that is reached
by varying the polarisation (in particular the largest and the smallest one) does not depend on the side; the angles belong together by Snell's law. -/
theorem C127_both_sides (s : Stack) (n0 nb theta theta' lbda : ℝ) (ee ee') (hn0 : 0 < n0) (hnb : 0 < nb) (h : PassiveStack s theta lbda)
    (hl : ∀ l ∈ s.layers, Lossless l.2) (hs : Symmetric s)
    (hf : s.front 0 0 = ((n0 ^ 2 : ℝ) : ℂ)) (hbk : s.back 0 0 = ((nb ^ 2 : ℝ) : ℂ)) (hth' : |theta'| < 90)
    (hsnell : nb * Real.sin (deg2rad theta') = n0 * Real.sin (deg2rad theta)) :
    Reflectances (calculate4x4 propExpm (upsideDown s) theta' lbda ee').jr = Reflectances (calculate4x4 propExpm s theta lbda ee).jr := by
  obtain ⟨q, t, g1, g2⟩ := both_grams s n0 nb theta theta' lbda ee ee' hn0 hnb h hl hs hf hbk hth' hsnell
  have key : ((calculate4x4 propExpm (upsideDown s) theta' lbda ee').jrᴴ * (calculate4x4 propExpm (upsideDown s) theta' lbda ee').jr).charpoly =
      ((calculate4x4 propExpm s theta lbda ee).jrᴴ * (calculate4x4 propExpm s theta lbda ee).jr).charpoly := by
    rw [g1, g2, gram_charpoly]
  exact Set.Subset.antisymm (reflectances_congr _ _ key) (reflectances_congr _ _ key.symm)

/-- C127: unpolarised light, with both outgoing polarisations collected. -/
theorem C127_unpolarised (s : Stack) (n0 nb theta theta' lbda : ℝ) (ee ee') (hn0 : 0 < n0) (hnb : 0 < nb) (h : PassiveStack s theta lbda)
    (hl : ∀ l ∈ s.layers, Lossless l.2) (hs : Symmetric s)
    (hf : s.front 0 0 = ((n0 ^ 2 : ℝ) : ℂ)) (hbk : s.back 0 0 = ((nb ^ 2 : ℝ) : ℂ)) (hth' : |theta'| < 90)
    (hsnell : nb * Real.sin (deg2rad theta') = n0 * Real.sin (deg2rad theta)) (jones : Fin 2 → ℂ) :
    let a := calculate4x4 propExpm s theta lbda ee
    let b := calculate4x4 propExpm (upsideDown s) theta' lbda ee'
    ∑ i, ∑ j, (Result.mk' b.jr b.jt b.power jones).RMatrix i j = ∑ i, ∑ j, (Result.mk' a.jr a.jt a.power jones).RMatrix i j := by
  intro a b
  have t := fun i j => (C81_transmittance s n0 nb theta theta' lbda ee ee' hn0 hnb hf hbk h.angle hth' hsnell h.iso hs jones i j).1
  have ha := C35_energy_conservation s theta lbda h hl (by rw [hbk, Complex.ofReal_im]) ee jones
  have hb := C35_energy_conservation (upsideDown s) theta' lbda (upside_down_passive h hl hnb hbk hth') (upside_down_layers hl)
    (by show (s.front 0 0).im = 0; rw [hf, Complex.ofReal_im]) ee' jones
  simp only [Fin.sum_univ_two]
  have a0 := ha 0
  have a1 := ha 1
  have b0 := hb 0
  have b1 := hb 1
  rw [t 0 0, t 1 0] at b0
  rw [t 0 1, t 1 1] at b1
  simp only [a, b]
  linarith

lemma upside_down_iso {s : Stack} (h : IsoLayers s.layers) : IsoLayers (upsideDown s).layers := by
  intro l hm
  simp only [upsideDown, moved, List.mem_reverse, List.mem_map] at hm
  obtain ⟨k, hk, rfl⟩ := hm
  have := h k hk
  show flipY.map Complex.ofReal * k.2 * (flipY.map Complex.ofReal)ᵀ = isoTensor ((flipY.map Complex.ofReal * k.2 * (flipY.map Complex.ofReal)ᵀ) 0 0)
  rw [this]
  ext i j
  fin_cases i <;> fin_cases j <;> simp [flipY, isoTensor, Matrix.mul_apply, Matrix.vecMul, dotProduct, Fin.sum_univ_three]

lemma iso_symmetric {s : Stack} (h : IsoLayers s.layers) : Symmetric s := by
  intro l hm i j
  rw [h l hm]
  simp only [isoTensor, Matrix.diagonal_apply, Matrix.smul_apply, Matrix.one_apply]
  fin_cases i <;> fin_cases j <;> simp

/-- C127: for isotropic layers this holds for the s and the p wave separately, and for the attribute `R`. -/
theorem C127_isotropic (s : Stack) (n0 nb theta theta' lbda : ℝ) (ee ee') (hn0 : 0 < n0) (hnb : 0 < nb) (h : PassiveStack s theta lbda)
    (hl : ∀ l ∈ s.layers, Lossless l.2) (hiso : IsoLayers s.layers)
    (hf : s.front 0 0 = ((n0 ^ 2 : ℝ) : ℂ)) (hbk : s.back 0 0 = ((nb ^ 2 : ℝ) : ℂ)) (hth' : |theta'| < 90)
    (hsnell : nb * Real.sin (deg2rad theta') = n0 * Real.sin (deg2rad theta)) (jones : Fin 2 → ℂ) :
    let a := calculate4x4 propExpm s theta lbda ee
    let b := calculate4x4 propExpm (upsideDown s) theta' lbda ee'
    (∀ i j, (Result.mk' b.jr b.jt b.power jones).RMatrix i j = (Result.mk' a.jr a.jt a.power jones).RMatrix i j) ∧
      (Result.mk' b.jr b.jt b.power jones).R = (Result.mk' a.jr a.jt a.power jones).R := by
  intro a b
  have hs := iso_symmetric hiso
  have t := fun i j => (C81_transmittance s n0 nb theta theta' lbda ee ee' hn0 hnb hf hbk h.angle hth' hsnell h.iso hs jones i j).1
  have ha := C35_energy_conservation s theta lbda h hl (by rw [hbk, Complex.ofReal_im]) ee jones
  have hb := C35_energy_conservation (upsideDown s) theta' lbda (upside_down_passive h hl hnb hbk hth') (upside_down_layers hl)
    (by show (s.front 0 0).im = 0; rw [hf, Complex.ofReal_im]) ee' jones
  have x := fun i j hij => C38_no_cross_polarisation s theta lbda ee hiso h.iso i j hij
  have y := fun i j hij => C38_no_cross_polarisation (upsideDown s) theta' lbda ee' (upside_down_iso hiso) rfl i j hij
  have z : ∀ i j, i ≠ j → (Result.mk' b.jr b.jt b.power jones).RMatrix i j = 0 ∧ (Result.mk' a.jr a.jt a.power jones).RMatrix i j = 0 ∧
      (Result.mk' a.jr a.jt a.power jones).TMatrix i j = 0 := by
    intro i j hij
    simp only [Result.mk', Result.RMatrix, Result.TMatrix, a, b, (x i j hij).1, (x i j hij).2, (y i j hij).1, norm_zero]
    norm_num
  have a0 := ha 0
  have a1 := ha 1
  have b0 := hb 0
  have b1 := hb 1
  rw [t 0 0, t 1 0] at b0
  rw [t 0 1, t 1 1] at b1
  obtain ⟨z1, z2, z3⟩ := z 0 1 (by decide)
  obtain ⟨z4, z5, z6⟩ := z 1 0 (by decide)
  simp only [a, b] at z1 z2 z3 z4 z5 z6
  rw [z5, z6] at a0
  rw [z2, z3] at a1
  rw [z4, z3] at b0
  rw [z1, z6] at b1
  have r0 : (Result.mk' b.jr b.jt b.power jones).RMatrix 0 0 = (Result.mk' a.jr a.jt a.power jones).RMatrix 0 0 := by
    simp only [a, b]; linarith
  have r1 : (Result.mk' b.jr b.jt b.power jones).RMatrix 1 1 = (Result.mk' a.jr a.jt a.power jones).RMatrix 1 1 := by
    simp only [a, b]; linarith
  refine ⟨?_, ?_⟩
  · intro i j
    fin_cases i <;> fin_cases j
    · exact r0
    · exact (z 0 1 (by decide)).1.trans (z 0 1 (by decide)).2.1.symm
    · exact (z 1 0 (by decide)).1.trans (z 1 0 (by decide)).2.1.symm
    · exact r1
  · simp only [Result.R, r0, r1]

/-- An absorbing film (index 1 + i, half a wavelength) between air and a half space of index 3. -/
noncomputable def absorbingFilm : Stack := ⟨isoTensor ((1 ^ 2 : ℝ) : ℂ), [(1 / 2, isoTensor (2 * I))], isoTensor ((3 ^ 2 : ℝ) : ℂ), true⟩

lemma film_upside_down :
    upsideDown absorbingFilm = ⟨isoTensor ((3 ^ 2 : ℝ) : ℂ), [(1 / 2, isoTensor (2 * I))], isoTensor ((1 ^ 2 : ℝ) : ℂ), true⟩ := by
  have : flipY.map Complex.ofReal * isoTensor (2 * I) * (flipY.map Complex.ofReal)ᵀ = isoTensor (2 * I) := by
    ext i j
    fin_cases i <;> fin_cases j <;> simp [flipY, isoTensor, Matrix.mul_apply, Matrix.vecMul, dotProduct, Fin.sum_univ_three]
  simp only [upsideDown, moved, absorbingFilm, List.map_cons, List.map_nil, List.reverse_singleton, this]

lemma airy_denominators {a b u : ℂ} : 1 + a * b * u = 1 + (-b) * (-a) * u := by ring

/-- C127: the hypothesis that the sample is lossless cannot be dropped: an absorbing film reflects differently from its two sides, although it
transmits the same (C81). -/
theorem C127_absorbing_refuted (ee ee') (jones : Fin 2 → ℂ) :
    let a := calculate4x4 propExpm absorbingFilm 0 1 ee
    let b := calculate4x4 propExpm (upsideDown absorbingFilm) 0 1 ee'
    (Result.mk' b.jr b.jt b.power jones).RMatrix 1 1 ≠ (Result.mk' a.jr a.jt a.power jones).RMatrix 1 1 := by
  intro a b
  have n1 : Complex.sqrt (2 * I) = 1 + I := by
    rw [csqrt_eq_iff]
    refine ⟨by simp [Principal], ?_⟩
    linear_combination Complex.I_sq
  have k0 : ∀ n : ℝ, n * Real.sin (deg2rad 0) = 0 := by intro n; simp [deg2rad]
  have hr : ∀ x : ℝ, 0 ≤ x → Complex.sqrt (((x ^ 2 : ℝ) : ℂ) - ((0 : ℝ) : ℂ) ^ 2) = x := by
    intro x hx
    rw [Complex.ofReal_zero, zero_pow two_ne_zero, sub_zero, csqrt_ofReal (sq_nonneg x), Real.sqrt_sq hx]
  have c0 : Real.cos (deg2rad 0) = 1 := by simp [deg2rad]
  have h2 : (2 * I : ℂ) ≠ 0 := mul_ne_zero two_ne_zero Complex.I_ne_zero
  have ha := C94_airy 1 0 1 (1 / 2) (2 * I) ((3 ^ 2 : ℝ) : ℂ) ee one_pos (by norm_num) one_pos (by norm_num) h2 (by simp)
    (by exact_mod_cast (by norm_num : (3 : ℝ) ^ 2 ≠ 0)) (by rw [Complex.ofReal_im])
  have hb := C94_airy 3 0 1 (1 / 2) (2 * I) ((1 ^ 2 : ℝ) : ℂ) ee' (by norm_num) (by norm_num) one_pos (by norm_num) h2 (by simp)
    (by exact_mod_cast (by norm_num : (1 : ℝ) ^ 2 ≠ 0)) (by rw [Complex.ofReal_im])
  have hz : Complex.sqrt (2 * I - ((0 : ℝ) : ℂ) ^ 2) = 1 + I := by rw [Complex.ofReal_zero, zero_pow two_ne_zero, sub_zero, n1]
  have hn : (1 + I : ℂ) ≠ 0 := by
    intro h
    have := congrArg Complex.re h
    simp at this
  simp only [k0, c0, hr 3 (by norm_num), hr 1 zero_le_one, hz] at ha hb
  have ha' := (ha hn).1
  have hb' := (hb hn).1
  have hu : Complex.exp (2 * I * (2 * Real.pi * (1 + I) * ((1 / 2 : ℝ) : ℂ) / ((1 : ℝ) : ℂ))) = ((Real.exp (-(2 * Real.pi)) : ℝ) : ℂ) := by
    have : 2 * I * (2 * Real.pi * (1 + I) * ((1 / 2 : ℝ) : ℂ) / ((1 : ℝ) : ℂ)) = 2 * Real.pi * I + ((-(2 * Real.pi) : ℝ) : ℂ) := by
      push_cast
      linear_combination (2 * Real.pi) * Complex.I_sq
    rw [this, Complex.exp_add, Complex.exp_two_pi_mul_I, one_mul, Complex.ofReal_exp]
  obtain ⟨ra, -, da⟩ := ha'
  obtain ⟨rb, -, db⟩ := hb'
  unfold airyR at ra rb
  rw [hu] at ra rb da db
  have hu1 : Real.exp (-(2 * Real.pi)) < 1 := by
    rw [Real.exp_lt_one_iff]
    have := Real.pi_pos
    linarith
  have hu0 := Real.exp_pos (-(2 * Real.pi))
  generalize Real.exp (-(2 * Real.pi)) = u at *
  have s1 : rS (((3 : ℝ) : ℂ) * ((1 : ℝ) : ℂ)) (1 + I) = -rS (1 + I) ((3 : ℝ) : ℂ) := by
    unfold rS
    rw [← neg_div]
    congr 1 <;> push_cast <;> ring
  have s2 : rS (1 + I) ((1 : ℝ) : ℂ) = -rS (((1 : ℝ) : ℂ) * ((1 : ℝ) : ℂ)) (1 + I) := by
    unfold rS
    rw [← neg_div]
    congr 1 <;> push_cast <;> ring
  have v1 : rS (((1 : ℝ) : ℂ) * ((1 : ℝ) : ℂ)) (1 + I) = (-1 - 2 * I) / 5 := by
    unfold rS
    rw [div_eq_div_iff]
    · push_cast
      linear_combination (2 : ℂ) * Complex.I_sq
    · intro h
      have := congrArg Complex.re h
      norm_num at this
    · norm_num
  have v2 : rS (1 + I) ((3 : ℝ) : ℂ) = (-7 + 6 * I) / 17 := by
    unfold rS
    rw [div_eq_div_iff]
    · push_cast
      linear_combination (-6 : ℂ) * Complex.I_sq
    · intro h
      have := congrArg Complex.re h
      norm_num at this
    · norm_num
  rw [s1, s2] at rb db
  rw [v1, v2] at ra rb da db
  simp only [Result.mk', Result.RMatrix, a, b, film_upside_down]
  have ea : calculate4x4 propExpm absorbingFilm 0 1 ee = calculate4x4 propExpm ⟨isoTensor ((1 ^ 2 : ℝ) : ℂ), [(1 / 2, isoTensor (2 * I))],
    isoTensor ((3 ^ 2 : ℝ) : ℂ), true⟩ 0 1 ee := rfl
  rw [ea, ra, rb, ← airy_denominators, norm_div, norm_div, div_pow, div_pow]
  have hd : (0 : ℝ) < ‖1 + (-1 - 2 * I) / 5 * ((-7 + 6 * I) / 17) * (u : ℂ)‖ ^ 2 := pow_pos (norm_pos_iff.2 da) 2
  intro h
  rw [div_left_inj' hd.ne', ← Complex.normSq_eq_norm_sq, ← Complex.normSq_eq_norm_sq] at h
  have g1 : -((-7 + 6 * I) / 17) + -((-1 - 2 * I) / 5) * (u : ℂ) = ((7 / 17 + u / 5 : ℝ) : ℂ) + ((-6 / 17 + 2 * u / 5 : ℝ) : ℂ) * I := by
    push_cast; ring
  have g2 : (-1 - 2 * I) / 5 + (-7 + 6 * I) / 17 * (u : ℂ) = ((-1 / 5 - 7 * u / 17 : ℝ) : ℂ) + ((-2 / 5 + 6 * u / 17 : ℝ) : ℂ) * I := by
    push_cast; ring
  rw [g1, g2, Complex.normSq_add_mul_I, Complex.normSq_add_mul_I] at h
  nlinarith

/-! ## The hypotheses can be met -/

/-- A coating on glass, from the air and from the glass side. -/
example : ∃ theta' : ℝ, |theta'| < 90 ∧ (2 : ℝ) * Real.sin (deg2rad theta') = 1 * Real.sin (deg2rad 0) ∧
    PassiveStack (demoStack ((2 ^ 2 : ℝ) : ℂ)) 0 500 ∧ (∀ l ∈ (demoStack ((2 ^ 2 : ℝ) : ℂ)).layers, Lossless l.2) ∧
    IsoLayers (demoStack ((2 ^ 2 : ℝ) : ℂ)).layers ∧ (demoStack ((2 ^ 2 : ℝ) : ℂ)).front 0 0 = ((1 ^ 2 : ℝ) : ℂ) := by
  refine ⟨0, by norm_num, by simp [deg2rad], demo_passive _ (by norm_num) (by simp [← Complex.ofReal_pow]) 0 (by norm_num), ?_, ?_, ?_⟩
  · intro l hl
    simp only [demoStack, List.mem_singleton] at hl
    subst hl
    exact lossless_isoTensor (by norm_num)
  · intro l hl
    simp only [demoStack, List.mem_singleton] at hl
    subst hl
    ext i j
    simp [isoTensor]
  · simp [demoStack, isoTensor]

/-- A tilted crystal plate between half spaces of index 1 and 2. -/
example : PassiveStack (tiltedStack ((2 ^ 2 : ℝ) : ℂ)) 30 500 ∧ (∀ l ∈ (tiltedStack ((2 ^ 2 : ℝ) : ℂ)).layers, Lossless l.2) ∧
    Symmetric (tiltedStack ((2 ^ 2 : ℝ) : ℂ)) ∧ (tiltedStack ((2 ^ 2 : ℝ) : ℂ)).layers ≠ [] := by
  refine ⟨⟨⟨1, one_pos, by simp [tiltedStack, isoTensor]⟩, by norm_num, by norm_num, ?_, ?_, ?_, rfl⟩, ?_, tilted_symm _, by simp [tiltedStack]⟩
  · intro l hl
    simp only [tiltedStack, List.mem_singleton] at hl
    subst hl
    exact ⟨by norm_num, by simp [tilted], lossless_passive tilted_lossless⟩
  · simp [tiltedStack, isoTensor]
  · simp [tiltedStack, isoTensor, ← Complex.ofReal_pow]
  · intro l hl
    simp only [tiltedStack, List.mem_singleton] at hl
    subst hl
    exact tilted_lossless

end PyElli
