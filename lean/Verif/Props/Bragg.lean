import Verif.Props.SolverLaws
import Verif.Props.ThinFilm
import Verif.Lemmas.Periodic
import Verif.Spec.Bloch

/-!
# C93: stop bands and pass bands of a periodic stack (Bragg mirror)

`RepeatedLayers` is the documented way to enter a Bragg mirror; by C39 it is the period written out `N` times.
-/

namespace PyElli

open Matrix Complex Spec

/-- The stack with its layers replaced by `pre`, `N` periods and `post`. -/
def periodic (s : Stack) (pre per post : List (ℝ × Tensor)) (N : ℕ) : Stack :=
  { s with layers := pre ++ (List.replicate N per).flatten ++ post }

lemma mem_periodic {s : Stack} {pre per post : List (ℝ × Tensor)} {N : ℕ} {l} (h : l ∈ (periodic s pre per post N).layers) :
    l ∈ pre ++ per ++ post := by
  simp only [periodic, List.mem_append, List.mem_flatten, List.mem_replicate] at h ⊢
  rcases h with (h | ⟨a, ⟨_, rfl⟩, h⟩) | h
  · exact Or.inl (Or.inl h)
  · exact Or.inl (Or.inr h)
  · exact Or.inr h

/-- A lossless isotropic stack: front, layers and exit. -/
structure LosslessIso (s : Stack) (theta lbda : ℝ) : Prop where
  passive : PassiveStack s theta lbda
  iso : IsoLayers s.layers
  lossless : ∀ l ∈ s.layers, Lossless l.2
  back : (s.back 0 0).im = 0

lemma LosslessIso.periodic {s : Stack} {pre per post : List (ℝ × Tensor)} {theta lbda : ℝ}
    (h : LosslessIso { s with layers := pre ++ per ++ post } theta lbda) (N : ℕ) : LosslessIso (periodic s pre per post N) theta lbda where
  passive :=
    { front := h.passive.front
      angle := h.passive.angle
      lbda_pos := h.passive.lbda_pos
      layers := fun l hl => h.passive.layers l (mem_periodic hl)
      back_ne := h.passive.back_ne
      back_passive := h.passive.back_passive
      iso := h.passive.iso }
  iso := fun l hl => h.iso l (mem_periodic hl)
  lossless := fun l hl => h.lossless l (mem_periodic hl)
  back := h.back

lemma prodS_periodic (kx : ℂ) (lbda : ℝ) (pre per post : List (ℝ × Tensor)) (N : ℕ) :
    prodS kx lbda (pre ++ (List.replicate N per).flatten ++ post) = prodS kx lbda pre * prodS kx lbda per ^ N * prodS kx lbda post := by
  simp [prodS, List.map_flatten, List.map_replicate, List.prod_flatten, List.prod_replicate, mul_assoc]

lemma prodP_periodic (kx : ℂ) (lbda : ℝ) (pre per post : List (ℝ × Tensor)) (N : ℕ) :
    prodP kx lbda (pre ++ (List.replicate N per).flatten ++ post) = prodP kx lbda pre * prodP kx lbda per ^ N * prodP kx lbda post := by
  simp [prodP, List.map_flatten, List.map_replicate, List.prod_flatten, List.prod_replicate, mul_assoc]

lemma charMat_isUnit (D : Mat2) (lbda d : ℝ) : IsUnit (charMat D lbda d) := by
  unfold charMat
  exact Matrix.isUnit_exp _

lemma prodS_isUnit (kx : ℂ) (lbda : ℝ) (l : List (ℝ × Tensor)) : IsUnit (prodS kx lbda l) := by
  induction l with
  | nil => simp [prodS]
  | cons a r ih => simp only [prodS, List.map_cons, List.prod_cons] at ih ⊢; exact (charMat_isUnit _ _ _).mul ih

lemma prodP_isUnit (kx : ℂ) (lbda : ℝ) (l : List (ℝ × Tensor)) : IsUnit (prodP kx lbda l) := by
  induction l with
  | nil => simp [prodP]
  | cons a r ih => simp only [prodP, List.map_cons, List.prod_cons] at ih ⊢; exact (charMat_isUnit _ _ _).mul ih

/-- Flux of an s wave and of a p wave. -/
noncomputable def fluxS (v : Fin 2 → ℂ) : ℝ := flux ![0, v 0, v 1, 0]
noncomputable def fluxP (v : Fin 2 → ℂ) : ℝ := flux ![v 0, 0, 0, v 1]

lemma blk_mulVec_s (S P : Mat2) (v : Fin 2 → ℂ) : blk S P *ᵥ ![0, v 0, v 1, 0] = ![0, (S *ᵥ v) 0, (S *ᵥ v) 1, 0] := by
  funext i
  fin_cases i <;> simp [blk, Matrix.mulVec, dotProduct, Fin.sum_univ_four, Fin.sum_univ_two]

lemma blk_mulVec_p (S P : Mat2) (v : Fin 2 → ℂ) : blk S P *ᵥ ![v 0, 0, 0, v 1] = ![(P *ᵥ v) 0, 0, 0, (P *ᵥ v) 1] := by
  funext i
  fin_cases i <;> simp [blk, Matrix.mulVec, dotProduct, Fin.sum_univ_four, Fin.sum_univ_two]

lemma flux_smul' (c : ℂ) (v : Fin 4 → ℂ) : flux (c • v) = ‖c‖ ^ 2 * flux v := by
  unfold flux
  rw [← Complex.normSq_eq_norm_sq, Complex.normSq_apply]
  simp [Complex.mul_re, Complex.mul_im]
  ring

lemma fluxS_smul (c : ℂ) (v : Fin 2 → ℂ) : fluxS (c • v) = ‖c‖ ^ 2 * fluxS v := by
  unfold fluxS
  rw [← flux_smul']
  congr 1
  funext i
  fin_cases i <;> simp

lemma fluxP_smul (c : ℂ) (v : Fin 2 → ℂ) : fluxP (c • v) = ‖c‖ ^ 2 * fluxP v := by
  unfold fluxP
  rw [← flux_smul']
  congr 1
  funext i
  fin_cases i <;> simp

lemma fluxS_prod (kx lbda : ℝ) (l : List (ℝ × Tensor)) (hi : IsoLayers l) (h : ∀ a ∈ l, a.2 2 2 ≠ 0 ∧ Lossless a.2) (v : Fin 2 → ℂ) :
    fluxS (prodS kx lbda l *ᵥ v) = fluxS v := by
  unfold fluxS
  rw [← blk_mulVec_s (prodS kx lbda l) (prodP kx lbda l) v, ← loop4x4_iso _ _ _ hi, flux_stack_eq kx lbda l h]

lemma fluxP_prod (kx lbda : ℝ) (l : List (ℝ × Tensor)) (hi : IsoLayers l) (h : ∀ a ∈ l, a.2 2 2 ≠ 0 ∧ Lossless a.2) (v : Fin 2 → ℂ) :
    fluxP (prodP kx lbda l *ᵥ v) = fluxP v := by
  unfold fluxP
  rw [← blk_mulVec_p (prodS kx lbda l) (prodP kx lbda l) v, ← loop4x4_iso _ _ _ hi, flux_stack_eq kx lbda l h]

lemma fluxS_exit (n c : ℂ) : fluxS (Ds n c *ᵥ ![1, 0]) = (n * c).re := by
  simp [fluxS, flux, Ds, Matrix.mulVec, dotProduct, Fin.sum_univ_two]

lemma fluxP_exit (n c : ℂ) : fluxP (Dp n c *ᵥ ![1, 0]) = (c * (starRingEnd ℂ) n).re := by
  simp [fluxP, flux, Dp, Matrix.mulVec, dotProduct, Fin.sum_univ_two]

/-- The power correction. -/
noncomputable def powFactor (s : Stack) (theta : ℝ) : ℝ := (getKz s.back (kxOf s theta)).re / (getKz s.front (kxOf s theta)).re

/-- Powers of a lossless isotropic stack in terms of the two transfer matrices. -/
lemma powers_iso (s : Stack) (theta lbda : ℝ) (h : LosslessIso s theta lbda) (ee) (jones : Fin 2 → ℂ) :
    0 ≤ powFactor s theta ∧ (powFactor s theta = 0 ∨ (nOf s.back * cosPhi (kxOf s theta) s.back).re ≠ 0) ∧
      ((nOf s.back * cosPhi (kxOf s theta) s.back).re ≠ 0 → 0 < powFactor s theta) ∧
      let out := calculate4x4 propExpm s theta lbda ee
      let res := Result.mk' out.jr out.jt out.power jones
      let S := DsInv (nOf s.front) (cosPhi (kxOf s theta) s.front) * prodS (kxOf s theta) lbda s.layers * Ds (nOf s.back) (cosPhi (kxOf s theta) s.back)
      let P := DpInv (nOf s.front) (cosPhi (kxOf s theta) s.front) * prodP (kxOf s theta) lbda s.layers * Dp (nOf s.back) (cosPhi (kxOf s theta) s.back)
      S 0 0 ≠ 0 ∧ P 0 0 ≠ 0 ∧
      res.RMatrix 1 1 = ‖S 1 0 / S 0 0‖ ^ 2 ∧ res.TMatrix 1 1 = powFactor s theta * ‖1 / S 0 0‖ ^ 2 ∧ res.RMatrix 1 1 + res.TMatrix 1 1 = 1 ∧
      res.RMatrix 0 0 = ‖P 1 0 / P 0 0‖ ^ 2 ∧ res.TMatrix 0 0 = powFactor s theta * ‖1 / P 0 0‖ ^ 2 ∧ res.RMatrix 0 0 + res.TMatrix 0 0 = 1 := by
  have hT := transfer4x4_iso s theta lbda ee h.iso h.passive.iso
  obtain ⟨hS, hP⟩ := transfer_diag_ne s theta lbda h.passive ee _ _ hT
  obtain ⟨hr, ht⟩ := calc4x4_of_blkD s theta lbda ee _ _ hT hS hP
  have hkb := getKz_back s theta lbda h.passive
  have hkf := getKz_front s theta lbda h.passive
  obtain ⟨n0, c0, hn0, hc0, hn, hc, _⟩ := two_norms s theta lbda h.passive ee
  have hfr : (getKz s.front (kxOf s theta)).re = n0 * c0 := by rw [hkf, hn, hc, ← Complex.ofReal_mul, Complex.ofReal_re]
  have hpos : 0 ≤ (nOf s.back * cosPhi (kxOf s theta) s.back).re := by
    rw [← hkb]
    unfold getKz
    exact csqrt_re_nonneg _
  unfold powFactor
  refine ⟨?_, ?_, ?_, hS, hP, ?_⟩
  · rw [hfr, hkb]; positivity
  · by_cases h0 : (nOf s.back * cosPhi (kxOf s theta) s.back).re = 0
    · left; rw [hkb, h0, zero_div]
    · right; exact h0
  · intro h0
    rw [hfr, hkb]
    have := lt_of_le_of_ne hpos (Ne.symm h0)
    positivity
  · have e0 := C35_energy_conservation s theta lbda h.passive h.lossless h.back ee jones 0
    have e1 := C35_energy_conservation s theta lbda h.passive h.lossless h.back ee jones 1
    have x1 := C38_no_cross_polarisation s theta lbda ee h.iso h.passive.iso 0 1 (by decide)
    have x2 := C38_no_cross_polarisation s theta lbda ee h.iso h.passive.iso 1 0 (by decide)
    have hpw : (calculate4x4 propExpm s theta lbda ee).power = some ((getKz s.back (kxOf s theta)).re / (getKz s.front (kxOf s theta)).re) := by
      simp only [calculate4x4, h.passive.iso, if_true]
    simp only [Result.mk', Result.RMatrix, Result.TMatrix, x1.1, x1.2, x2.1, x2.2, norm_zero] at e0 e1 ⊢
    rw [hpw] at e0 e1 ⊢
    simp only [Option.getD_some] at e0 e1 ⊢
    refine ⟨by rw [hr]; rfl, by rw [ht, mul_comm]; rfl, by linarith, by rw [hr]; rfl, by rw [ht, mul_comm]; rfl, by linarith⟩

/-- Column zero of the transfer matrix of a periodic stack. -/
lemma column_zero (A B M Q D : Mat2) (N : ℕ) (i : Fin 2) :
    (A * (B * M ^ N * Q) * D) i 0 = ((A * B) *ᵥ (M ^ N *ᵥ ((Q * D) *ᵥ ![1, 0]))) i := by
  have h : ∀ X : Mat2, X i 0 = (X *ᵥ ![1, 0]) i := by
    intro X
    simp [Matrix.mulVec, dotProduct, Fin.sum_univ_two]
  rw [h (A * (B * M ^ N * Q) * D), Matrix.mulVec_mulVec, Matrix.mulVec_mulVec]
  simp only [Matrix.mul_assoc]

/-- The decay of the transmission from the growth of the amplitudes. -/
lemma stop_core (M F : Mat2) (x : Fin 2 → ℂ) (R T : ℕ → ℝ) (p : ℝ) (hp : 0 ≤ p) (phi : (Fin 2 → ℂ) → ℝ) (hpx : p = 0 ∨ phi x ≠ 0)
    (hdet : M.det = 1) (ht : 2 < |M.trace.re|) (hF : IsUnit F.det)
    (hM : ∀ v, phi (M *ᵥ v) = phi v) (hs : ∀ (c : ℂ) v, phi (c • v) = ‖c‖ ^ 2 * phi v)
    (h0 : ∀ N, (F *ᵥ (M ^ N *ᵥ x)) 0 ≠ 0)
    (hR : ∀ N, R N = ‖(F *ᵥ (M ^ N *ᵥ x)) 1 / (F *ᵥ (M ^ N *ᵥ x)) 0‖ ^ 2)
    (hT : ∀ N, T N = p * ‖1 / (F *ᵥ (M ^ N *ᵥ x)) 0‖ ^ 2) (hRT : ∀ N, R N + T N = 1) :
    ∃ C ρ : ℝ, 0 ≤ ρ ∧ ρ < 1 ∧ ∀ N, T N ≤ C * ρ ^ N ∧ 1 - C * ρ ^ N ≤ R N ∧ R N ≤ 1 := by
  have hT0 : ∀ N, 0 ≤ T N := fun N => by rw [hT]; positivity
  have fin : ∀ C ρ : ℝ, (∀ N, T N ≤ C * ρ ^ N) → ∀ N, T N ≤ C * ρ ^ N ∧ 1 - C * ρ ^ N ≤ R N ∧ R N ≤ 1 := by
    intro C ρ h N
    have a := h N
    have b := hRT N
    have c := hT0 N
    exact ⟨a, by linarith, by linarith⟩
  rcases hpx with hp0 | hx
  · refine ⟨0, 0, le_rfl, one_pos, fin _ _ fun N => ?_⟩
    rw [hT, hp0]
    simp
  · obtain ⟨C, ρ, hC, hρ, hρ1, hg⟩ := stop_growth M F x hdet ht hF phi hM hs hx
    refine ⟨p * C ^ 2, ρ ^ 2, by positivity, by nlinarith, fin _ _ fun N => ?_⟩
    have hRle : R N ≤ 1 := by have a := hRT N; have b := hT0 N; linarith
    have hn0 : 0 < ‖(F *ᵥ (M ^ N *ᵥ x)) 0‖ := norm_pos_iff.2 (h0 N)
    rw [hR, norm_div, div_pow, div_le_one (by positivity)] at hRle
    have hle : ‖(F *ᵥ (M ^ N *ᵥ x)) 1‖ ≤ ‖(F *ᵥ (M ^ N *ᵥ x)) 0‖ := le_of_sq_le_sq hRle hn0.le
    have hnorm : ‖F *ᵥ (M ^ N *ᵥ x)‖ ≤ ‖(F *ᵥ (M ^ N *ᵥ x)) 0‖ := by
      rw [pi_norm_le_iff_of_nonneg hn0.le]
      intro i
      fin_cases i
      · exact le_rfl
      · exact hle
    have hgN := hg N
    have h1 : 1 ≤ C * ρ ^ N * ‖(F *ᵥ (M ^ N *ᵥ x)) 0‖ := hgN.trans (mul_le_mul_of_nonneg_left hnorm (by positivity))
    rw [hT, norm_div, norm_one, mul_assoc]
    refine mul_le_mul_of_nonneg_left ?_ hp
    have h2 : 1 / ‖(F *ᵥ (M ^ N *ᵥ x)) 0‖ ≤ C * ρ ^ N := by rw [div_le_iff₀ hn0]; exact h1
    calc (1 / ‖(F *ᵥ (M ^ N *ᵥ x)) 0‖) ^ 2 ≤ (C * ρ ^ N) ^ 2 := pow_le_pow_left₀ (by positivity) h2 2
      _ = C ^ 2 * (ρ ^ 2) ^ N := by ring

lemma pass_core (M F : Mat2) (x : Fin 2 → ℂ) (T : ℕ → ℝ) (p : ℝ) (hp : 0 < p) (hdet : M.det = 1) (hi : M.trace.im = 0) (ht : |M.trace.re| < 2)
    (h0 : ∀ N, (F *ᵥ (M ^ N *ᵥ x)) 0 ≠ 0) (hT : ∀ N, T N = p * ‖1 / (F *ᵥ (M ^ N *ᵥ x)) 0‖ ^ 2) :
    ∃ t : ℝ, 0 < t ∧ ∀ N, t ≤ T N := by
  obtain ⟨K, hK, hb⟩ := pass_bound M F x hdet hi ht
  refine ⟨p * (1 / K) ^ 2, by positivity, fun N => ?_⟩
  have hn0 : 0 < ‖(F *ᵥ (M ^ N *ᵥ x)) 0‖ := norm_pos_iff.2 (h0 N)
  rw [hT, norm_div, norm_one]
  refine mul_le_mul_of_nonneg_left (pow_le_pow_left₀ (by positivity) ?_ 2) hp.le
  exact one_div_le_one_div_of_le hn0 ((norm_le_pi_norm _ 0).trans (hb N))

/-- Characteristic matrix of a layer. -/
noncomputable def layerT (sg z : ℂ) (B : ℂ) : Mat2 := !![Complex.cos B, sg * I * Complex.sin B / z; sg * I * z * Complex.sin B, Complex.cos B]

lemma charS_closed {kx eps n c : ℂ} (hn : n ≠ 0) (hc : c ≠ 0) (hn2 : n ^ 2 = eps) (hc2 : c ^ 2 = 1 - (kx / n) ^ 2) (lbda d : ℝ) :
    charMat (deltaS kx eps) lbda d = layerT 1 (n * c) (2 * Real.pi * n * c / lbda * d) := by
  have h := congrArg (fun A => A * DsInv n c) (charS_mul hn hc hn2 hc2 lbda d)
  simp only [Matrix.mul_assoc] at h
  rw [Ds_mul_inv hn hc, Matrix.mul_one] at h
  rw [h]
  generalize (2 * Real.pi * n * c / lbda * d : ℂ) = B
  unfold layerT Ds DsInv
  rw [Complex.cos, Complex.sin, neg_mul, neg_mul, mul_comm B I]
  generalize Complex.exp (I * B) = u
  generalize Complex.exp (-(I * B)) = v
  ext i j
  have hI : I * I = -1 := I_mul_I
  fin_cases i <;> fin_cases j <;> simp [Matrix.mul_apply, Fin.sum_univ_two] <;> field_simp
  · ring
  · rw [I_sq]; ring
  · rw [I_sq]; ring
  · ring

lemma charP_closed {kx eps n c : ℂ} (hn : n ≠ 0) (hc : c ≠ 0) (hn2 : n ^ 2 = eps) (hc2 : c ^ 2 = 1 - (kx / n) ^ 2) (lbda d : ℝ) :
    charMat (deltaP kx eps) lbda d = layerT (-1) (n / c) (2 * Real.pi * n * c / lbda * d) := by
  have h := congrArg (fun A => A * DpInv n c) (charP_mul hn hc hn2 hc2 lbda d)
  simp only [Matrix.mul_assoc] at h
  rw [Dp_mul_inv hn hc, Matrix.mul_one] at h
  rw [h]
  generalize (2 * Real.pi * n * c / lbda * d : ℂ) = B
  unfold layerT Dp DpInv
  rw [Complex.cos, Complex.sin, neg_mul, neg_mul, mul_comm B I]
  generalize Complex.exp (I * B) = u
  generalize Complex.exp (-(I * B)) = v
  ext i j
  fin_cases i <;> fin_cases j <;> simp [Matrix.mul_apply, Fin.sum_univ_two] <;> field_simp
  · ring
  · rw [I_sq]; ring
  · rw [I_sq]; ring
  · ring

lemma layerT_pair (sg : ℂ) (hsg : sg ^ 2 = 1) (z1 z2 b1 b2 : ℝ) (h1 : z1 ≠ 0) (h2 : z2 ≠ 0) :
    (layerT sg z1 b1 * layerT sg z2 b2).det = 1 ∧ (layerT sg z1 b1 * layerT sg z2 b2).trace = ((2 * blochCos z1 z2 b1 b2 : ℝ) : ℂ) := by
  have h1' : (z1 : ℂ) ≠ 0 := by exact_mod_cast h1
  have h2' : (z2 : ℂ) ≠ 0 := by exact_mod_cast h2
  have hd : ∀ z b : ℂ, z ≠ 0 → (layerT sg z b).det = 1 := by
    intro z b hz
    unfold layerT
    rw [Matrix.det_fin_two_of]
    have := Complex.sin_sq_add_cos_sq b
    field_simp
    rw [hsg, I_sq]
    linear_combination this
  constructor
  · rw [Matrix.det_mul, hd _ _ h1', hd _ _ h2', one_mul]
  · unfold blochCos
    rw [Matrix.trace_fin_two]
    push_cast
    unfold layerT
    simp only [Matrix.mul_apply, Fin.sum_univ_two, Matrix.of_apply, Matrix.cons_val', Matrix.cons_val_zero, Matrix.cons_val_one, Matrix.cons_val_fin_one]
    generalize Complex.cos (b1 : ℂ) = c1
    generalize Complex.cos (b2 : ℂ) = c2
    generalize Complex.sin (b1 : ℂ) = s1
    generalize Complex.sin (b2 : ℂ) = s2
    field_simp
    rw [hsg, I_sq]
    ring

/-- The two blocks of a real, propagating layer. -/
lemma layer_real {kx e : ℝ} (he : kx ^ 2 < e) (lbda d : ℝ) :
    0 < Real.sqrt (e - kx ^ 2) ∧ 0 < e ∧
    charMat (deltaS kx e) lbda d = layerT 1 (Real.sqrt (e - kx ^ 2) : ℝ) (2 * Real.pi * Real.sqrt (e - kx ^ 2) / lbda * d : ℝ) ∧
    charMat (deltaP kx e) lbda d = layerT (-1) (e / Real.sqrt (e - kx ^ 2) : ℝ) (2 * Real.pi * Real.sqrt (e - kx ^ 2) / lbda * d : ℝ) := by
  have he0 : 0 < e := lt_of_le_of_lt (sq_nonneg kx) he
  have hq : 0 < Real.sqrt (e - kx ^ 2) := Real.sqrt_pos.2 (by linarith)
  have hn : 0 < Real.sqrt e := Real.sqrt_pos.2 he0
  have hn2 : Real.sqrt e ^ 2 = e := Real.sq_sqrt he0.le
  have hq2 : Real.sqrt (e - kx ^ 2) ^ 2 = e - kx ^ 2 := Real.sq_sqrt (by linarith)
  set n := Real.sqrt e
  set q := Real.sqrt (e - kx ^ 2)
  have hn' : (n : ℂ) ≠ 0 := by exact_mod_cast hn.ne'
  have hc' : ((q / n : ℝ) : ℂ) ≠ 0 := by exact_mod_cast (div_pos hq hn).ne'
  have e1 : (n : ℂ) ^ 2 = (e : ℂ) := by exact_mod_cast hn2
  have e2 : ((q / n : ℝ) : ℂ) ^ 2 = 1 - ((kx : ℂ) / n) ^ 2 := by
    have : (q / n) ^ 2 = 1 - (kx / n) ^ 2 := by
      field_simp
      rw [hq2, hn2]
    exact_mod_cast this
  have p1 : (n : ℂ) * ((q / n : ℝ) : ℂ) = (q : ℂ) := by
    have : n * (q / n) = q := by field_simp
    exact_mod_cast this
  have p2 : (n : ℂ) / ((q / n : ℝ) : ℂ) = ((e / q : ℝ) : ℂ) := by
    have : n / (q / n) = e / q := by field_simp; exact hn2
    exact_mod_cast this
  have p3 : (2 * Real.pi * n * ((q / n : ℝ) : ℂ) / lbda * d : ℂ) = ((2 * Real.pi * q / lbda * d : ℝ) : ℂ) := by
    rw [mul_assoc (2 * (Real.pi : ℂ)), p1]
    push_cast
    rfl
  refine ⟨hq, he0, ?_, ?_⟩
  · rw [charS_closed hn' hc' e1 e2 lbda d, p1, p3]
  · rw [charP_closed hn' hc' e1 e2 lbda d, p2, p3]

lemma det_isUnit {A B : Mat2} (hA : IsUnit A) (hB : IsUnit B) : IsUnit (A * B).det := (Matrix.isUnit_iff_isUnit_det _).1 (hA.mul hB)

/-- Everything about a two-layer period that the band theorems need, for both polarisations. -/
lemma bragg_data (s : Stack) (pre post : List (ℝ × Tensor)) (d1 d2 e1 e2 n0 theta lbda : ℝ) (hn0 : 0 < n0)
    (hf : s.front 0 0 = ((n0 ^ 2 : ℝ) : ℂ))
    (h : LosslessIso { s with layers := pre ++ [(d1, isoTensor (e1 : ℂ)), (d2, isoTensor (e2 : ℂ))] ++ post } theta lbda)
    (he1 : (n0 * Real.sin (deg2rad theta)) ^ 2 < e1) (he2 : (n0 * Real.sin (deg2rad theta)) ^ 2 < e2) (ee) (jones : Fin 2 → ℂ) :
    let per := [(d1, isoTensor (e1 : ℂ)), (d2, isoTensor (e2 : ℂ))]
    let q : ℝ → ℝ := fun e => Real.sqrt (e - (n0 * Real.sin (deg2rad theta)) ^ 2)
    let b : ℝ → ℝ → ℝ := fun d e => 2 * Real.pi * q e / lbda * d
    let out := fun N => calculate4x4 propExpm (periodic s pre per post N) theta lbda ee
    let res := fun N => Result.mk' (out N).jr (out N).jt (out N).power jones
    ∃ p : ℝ, 0 ≤ p ∧ ((nOf s.back * cosPhi (kxOf s theta) s.back).re ≠ 0 → 0 < p) ∧
      (∃ (M F : Mat2) (x : Fin 2 → ℂ), M.det = 1 ∧ M.trace = ((2 * blochCos (q e1) (q e2) (b d1 e1) (b d2 e2) : ℝ) : ℂ) ∧ IsUnit F.det ∧
        (∀ v, fluxS (M *ᵥ v) = fluxS v) ∧ (p = 0 ∨ fluxS x ≠ 0) ∧
        (∀ N, (F *ᵥ (M ^ N *ᵥ x)) 0 ≠ 0) ∧
        (∀ N, (res N).RMatrix 1 1 = ‖(F *ᵥ (M ^ N *ᵥ x)) 1 / (F *ᵥ (M ^ N *ᵥ x)) 0‖ ^ 2) ∧
        (∀ N, (res N).TMatrix 1 1 = p * ‖1 / (F *ᵥ (M ^ N *ᵥ x)) 0‖ ^ 2) ∧ (∀ N, (res N).RMatrix 1 1 + (res N).TMatrix 1 1 = 1)) ∧
      (∃ (M F : Mat2) (x : Fin 2 → ℂ), M.det = 1 ∧
        M.trace = ((2 * blochCos (q e1 / e1) (q e2 / e2) (b d1 e1) (b d2 e2) : ℝ) : ℂ) ∧ IsUnit F.det ∧
        (∀ v, fluxP (M *ᵥ v) = fluxP v) ∧ (p = 0 ∨ fluxP x ≠ 0) ∧
        (∀ N, (F *ᵥ (M ^ N *ᵥ x)) 0 ≠ 0) ∧
        (∀ N, (res N).RMatrix 0 0 = ‖(F *ᵥ (M ^ N *ᵥ x)) 1 / (F *ᵥ (M ^ N *ᵥ x)) 0‖ ^ 2) ∧
        (∀ N, (res N).TMatrix 0 0 = p * ‖1 / (F *ᵥ (M ^ N *ᵥ x)) 0‖ ^ 2) ∧ (∀ N, (res N).RMatrix 0 0 + (res N).TMatrix 0 0 = 1)) := by
  intro per q b out res
  have hkx : kxOf s theta = ((n0 * Real.sin (deg2rad theta) : ℝ) : ℂ) := kxOf_real hn0 hf theta
  set kx := n0 * Real.sin (deg2rad theta) with hkxdef
  have hc := cos_pos_of_angle h.passive.angle
  have hnf : nOf s.front = n0 := nOf_front hn0 hf
  have hnf' : nOf s.front ≠ 0 := by rw [hnf]; exact_mod_cast hn0.ne'
  have hcp := cosPhi_front s theta hnf' hc
  have hcf' : cosPhi (kxOf s theta) s.front ≠ 0 := by rw [hcp]; exact_mod_cast hc.ne'
  obtain ⟨hq1, he1', s1, p1⟩ := layer_real he1 lbda d1
  obtain ⟨hq2, he2', s2, p2⟩ := layer_real he2 lbda d2
  have hMs : prodS (kxOf s theta) lbda per = layerT 1 (q e1) (b d1 e1) * layerT 1 (q e2) (b d2 e2) := by
    rw [hkx]
    simp only [per, prodS, List.map_cons, List.map_nil, List.prod_cons, List.prod_nil, Matrix.mul_one, isoTensor, if_true]
    rw [s1, s2]
  have hMp : prodP (kxOf s theta) lbda per = layerT (-1) (e1 / q e1 : ℝ) (b d1 e1) * layerT (-1) (e2 / q e2 : ℝ) (b d2 e2) := by
    rw [hkx]
    simp only [per, prodP, List.map_cons, List.map_nil, List.prod_cons, List.prod_nil, Matrix.mul_one, isoTensor, if_true]
    rw [p1, p2]
  have hP := fun N => powers_iso (periodic s pre per post N) theta lbda (h.periodic N) ee jones
  have hpf : ∀ N, powFactor (periodic s pre per post N) theta = powFactor s theta := fun _ => rfl
  have hkN : ∀ N, kxOf (periodic s pre per post N) theta = kxOf s theta := fun _ => rfl
  have hlN : ∀ N, (periodic s pre per post N).layers = pre ++ (List.replicate N per).flatten ++ post := fun _ => rfl
  have hfN : ∀ N, (periodic s pre per post N).front = s.front := fun _ => rfl
  have hbN : ∀ N, (periodic s pre per post N).back = s.back := fun _ => rfl
  simp only [hpf, hkN, hlN, hfN, hbN, prodS_periodic, prodP_periodic, column_zero] at hP
  obtain ⟨hp0, hp1, hp2, _⟩ := hP 0
  have hlay : ∀ l : List (ℝ × Tensor), (∀ a ∈ l, a ∈ pre ++ per ++ post) → IsoLayers l ∧ ∀ a ∈ l, a.2 2 2 ≠ 0 ∧ Lossless a.2 :=
    fun l hl => ⟨fun a ha => h.iso a (hl a ha), fun a ha => ⟨(h.passive.layers a (hl a ha)).2.1, h.lossless a (hl a ha)⟩⟩
  have lper := hlay per (fun a ha => by simp [ha])
  have lpost := hlay post (fun a ha => by simp [ha])
  have hex : powFactor s theta = 0 ∨ (cosPhi (kxOf s theta) s.back * (starRingEnd ℂ) (nOf s.back)).re ≠ 0 := by
    rcases hp1 with h0 | h0
    · exact Or.inl h0
    · right
      rw [hkx] at h0 ⊢
      unfold cosPhi nOf at h0 ⊢
      rw [exit_flux_eq kx h.back]
      exact h0
  refine ⟨powFactor s theta, hp0, hp2, ⟨prodS (kxOf s theta) lbda per, _, _, ?_, ?_, ?_, ?_, ?_, fun N => (hP N).2.2.2.1,
    fun N => (hP N).2.2.2.2.2.1, fun N => (hP N).2.2.2.2.2.2.1, fun N => (hP N).2.2.2.2.2.2.2.1⟩,
    ⟨prodP (kxOf s theta) lbda per, _, _, ?_, ?_, ?_, ?_, ?_, fun N => (hP N).2.2.2.2.1,
    fun N => (hP N).2.2.2.2.2.2.2.2.1, fun N => (hP N).2.2.2.2.2.2.2.2.2.1, fun N => (hP N).2.2.2.2.2.2.2.2.2.2⟩⟩
  · rw [hMs]; exact (layerT_pair 1 (by norm_num) _ _ _ _ hq1.ne' hq2.ne').1
  · rw [hMs]; exact (layerT_pair 1 (by norm_num) _ _ _ _ hq1.ne' hq2.ne').2
  · exact det_isUnit (IsUnit.of_mul_eq_one _ (DsInv_mul hnf' hcf')) (prodS_isUnit _ _ _)
  · intro v; rw [hkx]; exact fluxS_prod kx lbda per lper.1 lper.2 v
  · rw [← Matrix.mulVec_mulVec]
    have := fluxS_prod kx lbda post lpost.1 lpost.2
    rw [← hkx] at this
    rw [this, fluxS_exit]
    exact hp1
  · rw [hMp]; exact (layerT_pair (-1) (by norm_num) _ _ _ _ (div_pos he1' hq1).ne' (div_pos he2' hq2).ne').1
  · rw [hMp, (layerT_pair (-1) (by norm_num) _ _ _ _ (div_pos he1' hq1).ne' (div_pos he2' hq2).ne').2]
    congr 2
    unfold blochCos
    congr 3
    simp only [q]
    rw [div_div_div_eq, div_div_div_eq, div_div_div_eq, div_div_div_eq]
    ring
  · exact det_isUnit (IsUnit.of_mul_eq_one _ (DpInv_mul hnf' hcf')) (prodP_isUnit _ _ _)
  · intro v; rw [hkx]; exact fluxP_prod kx lbda per lper.1 lper.2 v
  · rw [← Matrix.mulVec_mulVec]
    have := fluxP_prod kx lbda post lpost.1 lpost.2
    rw [← hkx] at this
    rw [this, fluxP_exit]
    exact hex

/-- C93, stop band: if `cos(K Λ)` of a period of two lossless layers lies outside `[-1, 1]`, adding periods makes the transmitted power of this
polarisation decay exponentially and the reflected power tend to one, whatever lossless layers surround the periods. -/
theorem C93_stop_band (s : Stack) (pre post : List (ℝ × Tensor)) (d1 d2 e1 e2 n0 theta lbda : ℝ) (hn0 : 0 < n0)
    (hf : s.front 0 0 = ((n0 ^ 2 : ℝ) : ℂ))
    (h : LosslessIso { s with layers := pre ++ [(d1, isoTensor (e1 : ℂ)), (d2, isoTensor (e2 : ℂ))] ++ post } theta lbda)
    (he1 : (n0 * Real.sin (deg2rad theta)) ^ 2 < e1) (he2 : (n0 * Real.sin (deg2rad theta)) ^ 2 < e2) (ee) (jones : Fin 2 → ℂ) :
    let q : ℝ → ℝ := fun e => Real.sqrt (e - (n0 * Real.sin (deg2rad theta)) ^ 2)
    let b : ℝ → ℝ → ℝ := fun d e => 2 * Real.pi * q e / lbda * d
    let out := fun N : ℕ => calculate4x4 propExpm { s with layers :=
      pre ++ (List.replicate N [(d1, isoTensor (e1 : ℂ)), (d2, isoTensor (e2 : ℂ))]).flatten ++ post } theta lbda ee
    let res := fun N => Result.mk' (out N).jr (out N).jt (out N).power jones
    (1 < |blochCos (q e1) (q e2) (b d1 e1) (b d2 e2)| →
      ∃ C ρ : ℝ, 0 ≤ ρ ∧ ρ < 1 ∧ ∀ N, (res N).TMatrix 1 1 ≤ C * ρ ^ N ∧ 1 - C * ρ ^ N ≤ (res N).RMatrix 1 1 ∧ (res N).RMatrix 1 1 ≤ 1) ∧
    (1 < |blochCos (q e1 / e1) (q e2 / e2) (b d1 e1) (b d2 e2)| →
      ∃ C ρ : ℝ, 0 ≤ ρ ∧ ρ < 1 ∧ ∀ N, (res N).TMatrix 0 0 ≤ C * ρ ^ N ∧ 1 - C * ρ ^ N ≤ (res N).RMatrix 0 0 ∧ (res N).RMatrix 0 0 ≤ 1) := by
  intro q b out res
  obtain ⟨p, hp, _, ⟨M, F, x, a1, a2, a3, a4, a5, a6, a7, a8, a9⟩, ⟨M', F', x', b1, b2, b3, b4, b5, b6, b7, b8, b9⟩⟩ :=
    bragg_data s pre post d1 d2 e1 e2 n0 theta lbda hn0 hf h he1 he2 ee jones
  constructor
  · intro hb
    refine stop_core M F x _ _ p hp fluxS a5 a1 ?_ a3 a4 fluxS_smul a6 a7 a8 a9
    rw [a2, Complex.ofReal_re, abs_mul, abs_two]
    linarith
  · intro hb
    refine stop_core M' F' x' _ _ p hp fluxP b5 b1 ?_ b3 b4 fluxP_smul b6 b7 b8 b9
    rw [b2, Complex.ofReal_re, abs_mul, abs_two]
    linarith

/-- C93, pass band: inside the band the transmitted power stays above a positive bound, however many periods there are, if the exit medium
carries a propagating wave. -/
theorem C93_pass_band (s : Stack) (pre post : List (ℝ × Tensor)) (d1 d2 e1 e2 eb n0 theta lbda : ℝ) (hn0 : 0 < n0)
    (hf : s.front 0 0 = ((n0 ^ 2 : ℝ) : ℂ)) (hb : s.back 0 0 = (eb : ℂ))
    (h : LosslessIso { s with layers := pre ++ [(d1, isoTensor (e1 : ℂ)), (d2, isoTensor (e2 : ℂ))] ++ post } theta lbda)
    (he1 : (n0 * Real.sin (deg2rad theta)) ^ 2 < e1) (he2 : (n0 * Real.sin (deg2rad theta)) ^ 2 < e2)
    (heb : (n0 * Real.sin (deg2rad theta)) ^ 2 < eb) (ee) (jones : Fin 2 → ℂ) :
    let q : ℝ → ℝ := fun e => Real.sqrt (e - (n0 * Real.sin (deg2rad theta)) ^ 2)
    let b : ℝ → ℝ → ℝ := fun d e => 2 * Real.pi * q e / lbda * d
    let out := fun N : ℕ => calculate4x4 propExpm { s with layers :=
      pre ++ (List.replicate N [(d1, isoTensor (e1 : ℂ)), (d2, isoTensor (e2 : ℂ))]).flatten ++ post } theta lbda ee
    let res := fun N => Result.mk' (out N).jr (out N).jt (out N).power jones
    (|blochCos (q e1) (q e2) (b d1 e1) (b d2 e2)| < 1 → ∃ t : ℝ, 0 < t ∧ ∀ N, t ≤ (res N).TMatrix 1 1) ∧
    (|blochCos (q e1 / e1) (q e2 / e2) (b d1 e1) (b d2 e2)| < 1 → ∃ t : ℝ, 0 < t ∧ ∀ N, t ≤ (res N).TMatrix 0 0) := by
  intro q b out res
  obtain ⟨p, hp, hp2, ⟨M, F, x, a1, a2, a3, a4, a5, a6, a7, a8, a9⟩, ⟨M', F', x', b1, b2, b3, b4, b5, b6, b7, b8, b9⟩⟩ :=
    bragg_data s pre post d1 d2 e1 e2 n0 theta lbda hn0 hf h he1 he2 ee jones
  have hpp : 0 < p := by
    apply hp2
    have hk := getKz_back _ theta lbda (h.periodic 0).passive
    have hk' : nOf s.back * cosPhi (kxOf s theta) s.back = getKz s.back (kxOf s theta) := hk.symm
    rw [hk']
    unfold getKz
    rw [nOf_sq, hb, kxOf_real hn0 hf theta, ← Complex.ofReal_pow, ← Complex.ofReal_sub, csqrt_ofReal (by linarith), Complex.ofReal_re]
    exact (Real.sqrt_pos.2 (by linarith)).ne'
  constructor
  · intro hlt
    refine pass_core M F x _ p hpp a1 (by rw [a2, Complex.ofReal_im]) ?_ a6 a8
    rw [a2, Complex.ofReal_re, abs_mul, abs_two]
    linarith
  · intro hlt
    refine pass_core M' F' x' _ p hpp b1 (by rw [b2, Complex.ofReal_im]) ?_ b6 b8
    rw [b2, Complex.ofReal_re, abs_mul, abs_two]
    linarith

lemma qwp_pair (sg : ℂ) (hsg : sg ^ 2 = 1) (z1 z2 : ℝ) (h1 : z1 ≠ 0) (h2 : z2 ≠ 0) :
    layerT sg z1 ((Real.pi / 2 : ℝ) : ℂ) * layerT sg z2 ((Real.pi / 2 : ℝ) : ℂ) = Matrix.diagonal ![-(z2 / z1 : ℂ), -(z1 / z2 : ℂ)] := by
  have h1' : (z1 : ℂ) ≠ 0 := by exact_mod_cast h1
  have h2' : (z2 : ℂ) ≠ 0 := by exact_mod_cast h2
  unfold layerT
  rw [← Complex.ofReal_cos, ← Complex.ofReal_sin, Real.cos_pi_div_two, Real.sin_pi_div_two]
  ext i j
  fin_cases i <;> fin_cases j <;> simp [Matrix.mul_apply, Fin.sum_univ_two] <;> field_simp <;> rw [hsg, I_sq] <;> ring

lemma qwp_real {n lbda : ℝ} (hn : 0 < n) (hl : 0 < lbda) :
    charMat (deltaS 0 ((n ^ 2 : ℝ) : ℂ)) lbda (qwpThickness (isoTensor ((n ^ 2 : ℝ) : ℂ)) lbda) = layerT 1 n ((Real.pi / 2 : ℝ) : ℂ) ∧
    charMat (deltaP 0 ((n ^ 2 : ℝ) : ℂ)) lbda (qwpThickness (isoTensor ((n ^ 2 : ℝ) : ℂ)) lbda) = layerT (-1) n ((Real.pi / 2 : ℝ) : ℂ) := by
  have hd : qwpThickness (isoTensor ((n ^ 2 : ℝ) : ℂ)) lbda = lbda / (4 * n) := by
    unfold qwpThickness
    rw [nOf_iso_sq hn.le, Complex.ofReal_re]
  obtain ⟨_, _, hs, hp⟩ := layer_real (kx := 0) (e := n ^ 2) (by rw [zero_pow two_ne_zero]; positivity) lbda (lbda / (4 * n))
  rw [hd]
  have hq : Real.sqrt (n ^ 2 - 0 ^ 2) = n := by rw [zero_pow two_ne_zero, sub_zero, Real.sqrt_sq hn.le]
  have hph : 2 * Real.pi * n / lbda * (lbda / (4 * n)) = Real.pi / 2 := by
    field_simp
    norm_num
  have hz : n ^ 2 / n = n := by field_simp
  rw [hq, hph] at hs hp
  rw [hz] at hp
  exact ⟨by simpa using hs, by simpa using hp⟩

/-- C93, quarter-wave mirror: the reflection of `N` pairs of quarter-wave layers at normal incidence is that of a single interface to a medium of
index `n_s (n_1 / n_2)^(2N)`. -/
theorem C93_quarter_wave_mirror (n0 n1 n2 ns lbda : ℝ) (hn0 : 0 < n0) (hn1 : 0 < n1) (hn2 : 0 < n2) (hns : 0 < ns) (hl : 0 < lbda) (N : ℕ) (ee) :
    let layer : ℝ → ℝ × Tensor := fun n => (qwpThickness (isoTensor ((n ^ 2 : ℝ) : ℂ)) lbda, isoTensor ((n ^ 2 : ℝ) : ℂ))
    let Y : ℝ := ns * (n1 / n2) ^ (2 * N)
    let r : ℝ := (n0 - Y) / (n0 + Y)
    (calculate4x4 propExpm ⟨isoTensor ((n0 ^ 2 : ℝ) : ℂ), (List.replicate N [layer n1, layer n2]).flatten,
      isoTensor ((ns ^ 2 : ℝ) : ℂ), true⟩ 0 lbda ee).jr = !![((-r : ℝ) : ℂ), 0; 0, ((r : ℝ) : ℂ)] := by
  intro layer Y r
  set s : Stack := ⟨isoTensor ((n0 ^ 2 : ℝ) : ℂ), (List.replicate N [layer n1, layer n2]).flatten, isoTensor ((ns ^ 2 : ℝ) : ℂ), true⟩ with hs
  have hk : kxOf s 0 = 0 := by simp [kxOf, deg2rad]
  have hcos : ∀ e, cosPhi 0 (isoTensor e) = 1 := by
    intro e
    unfold cosPhi
    have := csqrt_ofReal (x := 1) (by norm_num)
    simpa using this
  have hT := transfer4x4_iso s 0 lbda ee (by
    intro l hl
    simp only [hs, List.mem_flatten, List.mem_replicate] at hl
    obtain ⟨a, ⟨_, rfl⟩, hl⟩ := hl
    simp only [List.mem_cons, List.not_mem_nil, or_false] at hl
    rcases hl with rfl | rfl <;>
    · ext i j
      simp [layer, isoTensor]) rfl
  rw [hk] at hT
  have hcf : cosPhi 0 s.front = 1 := hcos _
  have hcb : cosPhi 0 s.back = 1 := hcos _
  have hnf : nOf s.front = n0 := nOf_iso_sq hn0.le
  have hnb : nOf s.back = ns := nOf_iso_sq hns.le
  rw [hcf, hcb, hnf, hnb] at hT
  obtain ⟨s1, p1⟩ := qwp_real hn1 hl
  obtain ⟨s2, p2⟩ := qwp_real hn2 hl
  have hS : prodS 0 lbda s.layers = Matrix.diagonal ![(-(n2 / n1 : ℂ)) ^ N, (-(n1 / n2 : ℂ)) ^ N] := by
    have := prodS_periodic 0 lbda [] [layer n1, layer n2] [] N
    simp only [List.nil_append, List.append_nil] at this
    have e0 : prodS 0 lbda [] = 1 := rfl
    have e1 : prodS 0 lbda [layer n1, layer n2] = Matrix.diagonal ![-(n2 / n1 : ℂ), -(n1 / n2 : ℂ)] := by
      rw [← qwp_pair 1 (by norm_num) n1 n2 hn1.ne' hn2.ne', ← s1, ← s2]
      simp [prodS, layer, isoTensor]
    change prodS 0 lbda (List.replicate N [layer n1, layer n2]).flatten = _
    rw [this, e0, e1, Matrix.one_mul, Matrix.mul_one, Matrix.diagonal_pow]
    congr 1
    funext i
    fin_cases i <;> simp
  have hP : prodP 0 lbda s.layers = Matrix.diagonal ![(-(n2 / n1 : ℂ)) ^ N, (-(n1 / n2 : ℂ)) ^ N] := by
    have := prodP_periodic 0 lbda [] [layer n1, layer n2] [] N
    simp only [List.nil_append, List.append_nil] at this
    have e0 : prodP 0 lbda [] = 1 := rfl
    have e1 : prodP 0 lbda [layer n1, layer n2] = Matrix.diagonal ![-(n2 / n1 : ℂ), -(n1 / n2 : ℂ)] := by
      rw [← qwp_pair (-1) (by norm_num) n1 n2 hn1.ne' hn2.ne', ← p1, ← p2]
      simp [prodP, layer, isoTensor]
    change prodP 0 lbda (List.replicate N [layer n1, layer n2]).flatten = _
    rw [this, e0, e1, Matrix.one_mul, Matrix.mul_one, Matrix.diagonal_pow]
    congr 1
    funext i
    fin_cases i <;> simp
  rw [hS, hP] at hT
  -- u = (n2/n1)^N, w = (n1/n2)^N, sign e
  obtain ⟨u, hu, hu0⟩ : ∃ u : ℝ, u = (n2 / n1) ^ N ∧ 0 < u := ⟨_, rfl, by positivity⟩
  obtain ⟨w, hw, hw0⟩ : ∃ w : ℝ, w = (n1 / n2) ^ N ∧ 0 < w := ⟨_, rfl, by positivity⟩
  have huw : u * w = 1 := by
    rw [hu, hw, ← mul_pow, div_mul_div_comm, mul_comm n2, div_self (by positivity), one_pow]
  have a1 : (-(n2 / n1 : ℂ)) ^ N = (-1) ^ N * (u : ℂ) := by rw [neg_pow, hu]; push_cast; rfl
  have a2 : (-(n1 / n2 : ℂ)) ^ N = (-1) ^ N * (w : ℂ) := by rw [neg_pow, hw]; push_cast; rfl
  rw [a1, a2] at hT
  have hsgn : ((-1 : ℂ) ^ N) ≠ 0 := pow_ne_zero _ (by norm_num)
  generalize ((-1 : ℂ) ^ N) = g at hT hsgn
  have hY : Y = ns * w ^ 2 := by simp only [Y]; rw [hw, mul_comm 2 N, pow_mul]
  have hr : r = (n0 * u - ns * w) / (n0 * u + ns * w) := by
    simp only [r]
    rw [hY, div_eq_div_iff (by positivity) (by positivity)]
    linear_combination (-2 * n0 * ns * w) * huw
  have n0c : (n0 : ℂ) ≠ 0 := by exact_mod_cast hn0.ne'
  have hden : (n0 * u + ns * w : ℂ) ≠ 0 := by
    have : n0 * u + ns * w ≠ 0 := by positivity
    exact_mod_cast this
  set S := DsInv (n0 : ℂ) 1 * Matrix.diagonal ![g * (u : ℂ), g * (w : ℂ)] * Ds (ns : ℂ) 1 with hSd
  set P := DpInv (n0 : ℂ) 1 * Matrix.diagonal ![g * (u : ℂ), g * (w : ℂ)] * Dp (ns : ℂ) 1 with hPd
  have S0 : S 0 0 = g * (n0 * u + ns * w) / (2 * n0) := by
    rw [hSd, diagonal_two]; simp [DsInv, Ds, Matrix.mul_apply, Fin.sum_univ_two]; field_simp; try ring
  have S1 : S 1 0 = g * (n0 * u - ns * w) / (2 * n0) := by
    rw [hSd, diagonal_two]; simp [DsInv, Ds, Matrix.mul_apply, Fin.sum_univ_two]; field_simp; try ring
  have P0 : P 0 0 = g * (n0 * u + ns * w) / (2 * n0) := by
    rw [hPd, diagonal_two]; simp [DpInv, Dp, Matrix.mul_apply, Fin.sum_univ_two]; field_simp; try ring
  have P1 : P 1 0 = -(g * (n0 * u - ns * w) / (2 * n0)) := by
    rw [hPd, diagonal_two]; simp [DpInv, Dp, Matrix.mul_apply, Fin.sum_univ_two]; field_simp; try ring
  have h0 : g * (n0 * u + ns * w) / (2 * n0) ≠ 0 := div_ne_zero (mul_ne_zero hsgn hden) (mul_ne_zero two_ne_zero n0c)
  obtain ⟨hj, _⟩ := calc4x4_of_blkD s 0 lbda ee S P hT (by rw [S0]; exact h0) (by rw [P0]; exact h0)
  rw [hj, S0, S1, P0, P1, hr]
  push_cast
  have e : g * (n0 * u - ns * w : ℂ) / (2 * n0) / (g * (n0 * u + ns * w) / (2 * n0)) = (n0 * u - ns * w) / (n0 * u + ns * w) := by
    field_simp
  rw [neg_div, e]

/-- The hypotheses of the stop band hold: quarter-wave pairs of index 2 and 3/2 between air and glass at normal incidence; `cos(K Λ) = -25/24`. -/
example : LosslessIso ⟨isoTensor 1, [] ++ [(125 / 2, isoTensor ((4 : ℝ) : ℂ)), (250 / 3, isoTensor ((9 / 4 : ℝ) : ℂ))] ++ [], isoTensor (9 / 4), true⟩ 0 500 ∧
    blochCos 2 (3 / 2) (2 * Real.pi * 2 / 500 * (125 / 2)) (2 * Real.pi * (3 / 2) / 500 * (250 / 3)) = -(25 / 24) := by
  refine ⟨⟨⟨⟨1, one_pos, by simp [isoTensor]⟩, by norm_num, by norm_num, ?_, by simp [isoTensor], by simp [isoTensor], rfl⟩, ?_, ?_, by simp [isoTensor]⟩, ?_⟩
  · intro l hl
    simp only [List.nil_append, List.append_nil, List.mem_cons, List.not_mem_nil, or_false] at hl
    rcases hl with rfl | rfl
    · exact ⟨by norm_num, by simp [isoTensor], passive_isoTensor (by simp)⟩
    · exact ⟨by norm_num, by simp [isoTensor], passive_isoTensor (by simp)⟩
  · intro l hl
    simp only [List.nil_append, List.append_nil, List.mem_cons, List.not_mem_nil, or_false] at hl
    rcases hl with rfl | rfl <;> (ext i j; simp [isoTensor])
  · intro l hl
    simp only [List.nil_append, List.append_nil, List.mem_cons, List.not_mem_nil, or_false] at hl
    rcases hl with rfl | rfl <;> exact lossless_isoTensor (by simp)
  · have h1 : 2 * Real.pi * 2 / 500 * (125 / 2) = Real.pi / 2 := by ring
    have h2 : 2 * Real.pi * (3 / 2) / 500 * (250 / 3) = Real.pi / 2 := by ring
    unfold blochCos
    rw [h1, h2, Real.cos_pi_div_two, Real.sin_pi_div_two]
    norm_num

/-- The same pair at twice the wavelength is in a pass band: `cos(K Λ) = -1/48`. -/
example : |blochCos 2 (3 / 2) (2 * Real.pi * 2 / 1000 * (125 / 2)) (2 * Real.pi * (3 / 2) / 1000 * (250 / 3))| < 1 := by
  have h1 : 2 * Real.pi * 2 / 1000 * (125 / 2) = Real.pi / 4 := by ring
  have h2 : 2 * Real.pi * (3 / 2) / 1000 * (250 / 3) = Real.pi / 4 := by ring
  have h3 : Real.sqrt 2 * Real.sqrt 2 = 2 := Real.mul_self_sqrt (by norm_num)
  unfold blochCos
  rw [h1, h2, Real.cos_pi_div_four, Real.sin_pi_div_four]
  have : Real.sqrt 2 / 2 * (Real.sqrt 2 / 2) - (2 / (3 / 2) + 3 / 2 / 2) / 2 * (Real.sqrt 2 / 2) * (Real.sqrt 2 / 2) = -(1 / 48) := by
    linear_combination (-(1 / 96) : ℝ) * h3
  rw [this]
  norm_num

end PyElli
