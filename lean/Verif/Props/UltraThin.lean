import Verif.Props.PlaneStack
import Verif.Props.Homogenise
import Verif.Props.Angles
import Verif.Props.Airy
import Verif.Props.Symmetry
import Mathlib.Analysis.InnerProductSpace.Calculus

/-!
# C131: ultra-thin films

First-order effect of layers that are thin compared to the wavelength (Drude's formulas), and what ellipsometry cannot know about them.
-/

namespace PyElli

open Matrix Complex Spec Set

section deriv

lemma mul_entry_deriv {A B : ℝ → Mat2} {A' B' : Mat2} (hA : ∀ i j, HasDerivAt (fun d => A d i j) (A' i j) 0)
    (hB : ∀ i j, HasDerivAt (fun d => B d i j) (B' i j) 0) (i j : Fin 2) :
    HasDerivAt (fun d => (A d * B d) i j) ((A' * B 0 + A 0 * B') i j) 0 := by
  have := ((hA i 0).mul (hB 0 j)).add ((hA i 1).mul (hB 1 j))
  simp only [Matrix.mul_apply, Fin.sum_univ_two, Matrix.add_apply]
  refine HasDerivAt.congr_deriv (f := fun d => A d i 0 * B d 0 j + A d i 1 * B d 1 j) this ?_
  ring

/-- The sum of the generators of the layers. -/
noncomputable def generator (g : Tensor → Mat2) (lbda : ℝ) (L : List (ℝ × Tensor)) : Mat2 :=
  fun i j => -I * (wavenumber lbda : ℂ) * lsum L fun e => g e i j

lemma charMat_deriv (D : Mat2) (lbda a : ℝ) (i j : Fin 2) :
    HasDerivAt (fun d : ℝ => charMat D lbda (d * a) i j) (((-I * a * (wavenumber lbda : ℂ)) • D) i j) 0 := by
  have h := exp_entry_hasDerivAt ((-I * a * (wavenumber lbda : ℂ)) • D) i j 0
  rw [zero_smul, NormedSpace.exp_zero, Matrix.mul_one] at h
  have e : (fun d : ℝ => charMat D lbda (d * a) i j) = fun z : ℝ => (NormedSpace.exp (z • ((-I * a * (wavenumber lbda : ℂ)) • D)) : Mat2) i j := by
    funext d
    unfold charMat
    have : (I * ((-(d * a) : ℝ) : ℂ) * (wavenumber lbda : ℂ)) • D = d • ((-I * a * (wavenumber lbda : ℂ)) • D) := by
      ext k l
      simp only [Matrix.smul_apply, smul_eq_mul, Complex.real_smul]
      push_cast
      ring
    rw [this]
  rw [e]
  exact h

/-- The layers with thicknesses `d` times as large. -/
def scaled (L : List (ℝ × Tensor)) (d : ℝ) : List (ℝ × Tensor) := L.map fun l => (d * l.1, l.2)

lemma prod_zero (g : Tensor → Mat2) (lbda : ℝ) (L : List (ℝ × Tensor)) : ((scaled L 0).map fun l => charMat (g l.2) lbda l.1).prod = 1 := by
  induction L with
  | nil => simp [scaled]
  | cons l L ih =>
    simp only [scaled, List.map_cons, List.prod_cons, zero_mul] at ih ⊢
    rw [ih, charMat_zero, Matrix.mul_one]

lemma prod_deriv (g : Tensor → Mat2) (lbda : ℝ) (L : List (ℝ × Tensor)) (i j : Fin 2) :
    HasDerivAt (fun d : ℝ => ((scaled L d).map fun l => charMat (g l.2) lbda l.1).prod i j) (generator g lbda L i j) 0 := by
  induction L generalizing i j with
  | nil =>
    have := hasDerivAt_const (0 : ℝ) ((1 : Mat2) i j)
    simpa [scaled, generator, lsum] using this
  | cons l L ih =>
    have h := mul_entry_deriv (fun i j => charMat_deriv (g l.2) lbda l.1 i j) ih i j
    (try beta_reduce at h)
    rw [prod_zero g lbda L, zero_mul, charMat_zero, Matrix.mul_one, Matrix.one_mul] at h
    have e : (fun d : ℝ => ((scaled (l :: L) d).map fun l => charMat (g l.2) lbda l.1).prod i j) =
        fun d => (charMat (g l.2) lbda (d * l.1) * ((scaled L d).map fun l => charMat (g l.2) lbda l.1).prod) i j := by
      funext d
      simp only [scaled, List.map_cons, List.prod_cons]
    rw [e]
    refine h.congr_deriv ?_
    simp only [generator, lsum, List.map_cons, List.sum_cons, Matrix.add_apply, Matrix.smul_apply, smul_eq_mul]
    ring

lemma sandwich_deriv (A B : Mat2) {M : ℝ → Mat2} {N : Mat2} (h : ∀ i j, HasDerivAt (fun d => M d i j) (N i j) 0) (i j : Fin 2) :
    HasDerivAt (fun d => (A * M d * B) i j) ((A * N * B) i j) 0 := by
  have h1 := mul_entry_deriv (A := fun _ => A) (A' := 0) (fun i j => by simpa using hasDerivAt_const (0 : ℝ) (A i j)) h
  have h2 := mul_entry_deriv (B := fun _ => B) (B' := 0) h1 (fun i j => by simpa using hasDerivAt_const (0 : ℝ) (B i j)) i j
  simpa using h2

end deriv


section coefficients

/-- The quotient of two entries. -/
lemma ratio_deriv {u v : ℝ → ℂ} {u' v' : ℂ} (hu : HasDerivAt u u' 0) (hv : HasDerivAt v v' 0) (h0 : v 0 ≠ 0) :
    HasDerivAt (fun d => u d / v d) ((u' * v 0 - u 0 * v') / v 0 ^ 2) 0 := hu.div hv h0

/-- The s coefficient as the slope of the ratio. -/
lemma slope_s {q0 qb k A : ℂ} {N : Mat2} (h0 : q0 ≠ 0) (hs : q0 + qb ≠ 0) (n c : ℂ) (hnc : n * c = q0) (n' c' : ℂ) (hnc' : n' * c' = qb)
    (hN : N = !![0, k; A, 0]) :
    let S := DsInv n c * 1 * Ds n' c'
    let S' := DsInv n c * N * Ds n' c'
    (S' 1 0 * S 0 0 - S 1 0 * S' 0 0) / S 0 0 ^ 2 = 2 * q0 * (A - k * qb ^ 2) / (q0 + qb) ^ 2 := by
  intro S S'
  have e1 : S 0 0 = (q0 + qb) / (2 * q0) := by
    simp [S, DsInv, Ds, hnc, hnc', Matrix.mul_apply, Fin.sum_univ_two]
    field_simp
  have e2 : S 1 0 = (q0 - qb) / (2 * q0) := by
    simp [S, DsInv, Ds, hnc, hnc', Matrix.mul_apply, Fin.sum_univ_two]
    field_simp
    ring
  have e3 : S' 0 0 = (-k * qb * q0 - A) / (2 * q0) := by
    simp [S', DsInv, Ds, hnc, hnc', hN, Matrix.mul_apply, Fin.sum_univ_two, Matrix.vecMul, dotProduct]
    field_simp
    ring
  have e4 : S' 1 0 = (-k * qb * q0 + A) / (2 * q0) := by
    simp [S', DsInv, Ds, hnc, hnc', hN, Matrix.mul_apply, Fin.sum_univ_two, Matrix.vecMul, dotProduct]
    field_simp
    ring
  rw [e1, e2, e3, e4]
  field_simp
  ring

/-- The p coefficient as the slope of the ratio, in terms of the impedances `Z = c / n`. -/
lemma slope_p {n c n' c' : ℂ} {N : Mat2} (hn : n ≠ 0) (hc : c ≠ 0) (hn' : n' ≠ 0) (hs : c / n + c' / n' ≠ 0) :
    let S := DpInv n c * 1 * Dp n' c'
    let S' := DpInv n c * N * Dp n' c'
    (S' 1 0 * S 0 0 - S 1 0 * S' 0 0) / S 0 0 ^ 2 =
      -2 * (c / n) * (N 0 1 + (N 0 0 - N 1 1) * (c' / n') - N 1 0 * (c' / n') ^ 2) / (c / n + c' / n') ^ 2 := by
  intro S S'
  have hs' : c * n' + c' * n ≠ 0 := by
    intro h
    apply hs
    rw [div_add_div _ _ hn hn', mul_comm n c', h, zero_div]
  have e1 : S 0 0 = (c * n' + c' * n) / (2 * c * n) := by
    simp [S, DpInv, Dp, Matrix.mul_apply, Fin.sum_univ_two]
    field_simp
    ring
  have e2 : S 1 0 = (c * n' - c' * n) / (2 * c * n) := by
    simp [S, DpInv, Dp, Matrix.mul_apply, Fin.sum_univ_two]
    field_simp
    ring
  have e3 : S' 0 0 = (n * (N 0 0 * c' + N 0 1 * n') + c * (N 1 0 * c' + N 1 1 * n')) / (2 * c * n) := by
    simp [S', DpInv, Dp, Matrix.mul_apply, Fin.sum_univ_two, Matrix.vecMul, dotProduct]
    field_simp
  have e4 : S' 1 0 = (-(n * (N 0 0 * c' + N 0 1 * n')) + c * (N 1 0 * c' + N 1 1 * n')) / (2 * c * n) := by
    simp [S', DpInv, Dp, Matrix.mul_apply, Fin.sum_univ_two, Matrix.vecMul, dotProduct]
    field_simp
  rw [e1, e2, e3, e4, div_add_div _ _ hn hn']
  field_simp
  ring

end coefficients

lemma lsum_neg (L : List (ℝ × Tensor)) (f : Tensor → ℂ) : lsum L (fun e => -f e) = -lsum L f := by
  have := lsum_mul L (-1) f
  simpa using this

/-- The bare substrate covered with layers of thicknesses `d` times those of `L`. -/
noncomputable def covered (n0 : ℝ) (L : List (ℝ × Tensor)) (eb : ℂ) (d : ℝ) : Stack :=
  ⟨isoTensor ((n0 ^ 2 : ℝ) : ℂ), scaled L d, isoTensor eb, true⟩

lemma covered_passive {n0 theta lbda : ℝ} {L : List (ℝ × Tensor)} {eb : ℂ} (hn0 : 0 < n0) (hth : |theta| < 90) (hl : 0 < lbda)
    (hL : ∀ l ∈ L, 0 ≤ l.1 ∧ l.2 2 2 ≠ 0 ∧ Passive l.2) (hb : eb ≠ 0) (hb' : 0 ≤ eb.im) {d : ℝ} (hd : 0 ≤ d) :
    PassiveStack (covered n0 L eb d) theta lbda where
  front := ⟨n0, hn0, by simp [covered, isoTensor]⟩
  angle := hth
  lbda_pos := hl
  layers := by
    intro l h
    simp only [covered, scaled, List.mem_map] at h
    obtain ⟨l', h', rfl⟩ := h
    exact ⟨mul_nonneg hd (hL l' h').1, (hL l' h').2⟩
  back_ne := by simpa [covered, isoTensor] using hb
  back_passive := by simpa [covered, isoTensor] using hb'
  iso := rfl

/-- C131: first-order change of the reflection coefficients for layers symmetric to the plane of incidence. -/
theorem C131_coefficients (n0 theta lbda : ℝ) (L : List (ℝ × Tensor)) (eb : ℂ) (ee) (hn0 : 0 < n0) (hth : |theta| < 90) (hl : 0 < lbda)
    (hL : ∀ l ∈ L, 0 ≤ l.1 ∧ l.2 2 2 ≠ 0 ∧ Passive l.2) (hI : ∀ l ∈ L, InPlane l.2) (hb : eb ≠ 0) (hb' : 0 ≤ eb.im) :
    let kx : ℝ := n0 * Real.sin (deg2rad theta)
    let q0 : ℂ := n0 * (Real.cos (deg2rad theta) : ℝ)
    let qb := Complex.sqrt (eb - kx ^ 2)
    let out := fun d => calculate4x4 propExpm (covered n0 L eb d) theta lbda ee
    q0 + qb ≠ 0 ∧ q0 / n0 ^ 2 + qb / eb ≠ 0 ∧
    (out 0).jr 1 1 = (q0 - qb) / (q0 + qb) ∧ (out 0).jr 0 0 = (q0 / n0 ^ 2 - qb / eb) / (q0 / n0 ^ 2 + qb / eb) ∧
    HasDerivWithinAt (fun d => (out d).jr 1 1) (2 * I * (2 * Real.pi / lbda) * q0 * (L.map fun l => (l.1 : ℂ) * (l.2 1 1 - eb)).sum / (q0 + qb) ^ 2) (Ici 0) 0 ∧
    HasDerivWithinAt (fun d => (out d).jr 0 0)
      (2 * I * (2 * Real.pi / lbda) * (q0 / n0 ^ 2) * (L.map fun l => (l.1 : ℂ) * ((1 - kx ^ 2 / l.2 2 2) + kx * (l.2 0 2 - l.2 2 0) / l.2 2 2 * (qb / eb) -
        (l.2 0 0 - l.2 0 2 * l.2 2 0 / l.2 2 2) * (qb / eb) ^ 2)).sum / (q0 / n0 ^ 2 + qb / eb) ^ 2) (Ici 0) 0 := by
  intro kx q0 qb out
  have hf : (covered n0 L eb 0).front 0 0 = ((n0 ^ 2 : ℝ) : ℂ) := by simp [covered, isoTensor]
  have hcos := cos_pos_of_angle hth
  have n0' : (n0 : ℂ) ≠ 0 := by exact_mod_cast hn0.ne'
  have c0' : ((Real.cos (deg2rad theta) : ℝ) : ℂ) ≠ 0 := by exact_mod_cast hcos.ne'
  have hk : ∀ d, kxOf (covered n0 L eb d) theta = (kx : ℂ) := fun d => kxOf_real hn0 (by simp [covered, isoTensor]) theta
  have hnf : nOf (isoTensor ((n0 ^ 2 : ℝ) : ℂ)) = n0 := nOf_iso_sq hn0.le
  have hcf : cosPhi (kx : ℂ) (isoTensor ((n0 ^ 2 : ℝ) : ℂ)) = (Real.cos (deg2rad theta) : ℝ) := by
    have := cosPhi_front (covered n0 L eb 0) theta (by rw [show (covered n0 L eb 0).front = isoTensor ((n0 ^ 2 : ℝ) : ℂ) from rfl, hnf]; exact n0') hcos
    rwa [hk] at this
  obtain ⟨b1, b2, b3, b4, b5⟩ := kz_medium kx hb hb'
  have hz : cosPhi kx (isoTensor eb) / nOf (isoTensor eb) = qb / eb := by
    rw [show qb = nOf (isoTensor eb) * cosPhi kx (isoTensor eb) from b2.symm, div_eq_div_iff b4 hb]
    linear_combination -(cosPhi kx (isoTensor eb)) * b3
  have hz0 : ((Real.cos (deg2rad theta) : ℝ) : ℂ) / n0 = q0 / n0 ^ 2 := by
    rw [show q0 = n0 * ((Real.cos (deg2rad theta) : ℝ) : ℂ) from rfl]
    generalize ((Real.cos (deg2rad theta) : ℝ) : ℂ) = c
    field_simp
  have key : ∀ d, 0 ≤ d → ∃ S P : Mat2,
      S = DsInv n0 (Real.cos (deg2rad theta) : ℝ) * ((scaled L d).map fun l => charMat (deltaS kx (l.2 1 1)) lbda l.1).prod *
        Ds (nOf (isoTensor eb)) (cosPhi kx (isoTensor eb)) ∧
      P = DpInv n0 (Real.cos (deg2rad theta) : ℝ) * ((scaled L d).map fun l => charMat (planeP kx l.2) lbda l.1).prod *
        Dp (nOf (isoTensor eb)) (cosPhi kx (isoTensor eb)) ∧
      S 0 0 ≠ 0 ∧ P 0 0 ≠ 0 ∧ (out d).jr 1 1 = S 1 0 / S 0 0 ∧ (out d).jr 0 0 = P 1 0 / P 0 0 := by
    intro d hd
    have hp := covered_passive (theta := theta) hn0 hth hl hL hb hb' hd
    have hin : ∀ l ∈ (covered n0 L eb d).layers, InPlane l.2 := by
      intro l h
      simp only [covered, scaled, List.mem_map] at h
      obtain ⟨l', h', rfl⟩ := h
      exact hI l' h'
    have hT := transfer_inPlane (covered n0 L eb d) theta lbda ee hin hp.iso
    obtain ⟨h1, h2⟩ := transfer_diag_ne _ theta lbda hp ee _ _ hT
    obtain ⟨h3, -⟩ := calc4x4_of_blkD _ theta lbda ee _ _ hT h1 h2
    rw [hk] at h1 h2 h3
    simp only [show (covered n0 L eb d).front = isoTensor ((n0 ^ 2 : ℝ) : ℂ) from rfl, show (covered n0 L eb d).back = isoTensor eb from rfl,
      show (covered n0 L eb d).layers = scaled L d from rfl, hnf, hcf] at h1 h2 h3
    refine ⟨_, _, rfl, rfl, h1, h2, ?_, ?_⟩
    · show (calculate4x4 propExpm (covered n0 L eb d) theta lbda ee).jr 1 1 = _
      rw [h3]
      rfl
    · show (calculate4x4 propExpm (covered n0 L eb d) theta lbda ee).jr 0 0 = _
      rw [h3]
      rfl
  obtain ⟨S0, P0, eS, eP, hS0, hP0, rS0, rP0⟩ := key 0 le_rfl
  rw [prod_zero (fun e => deltaS kx (e 1 1))] at eS
  rw [prod_zero (fun e => planeP kx e)] at eP
  have q0' : q0 ≠ 0 := mul_ne_zero n0' c0'
  have hqb : qb ^ 2 = eb - (kx : ℂ) ^ 2 := csqrt_sq _
  have hsum : q0 + qb ≠ 0 := by
    intro h
    apply hS0
    rw [eS]
    have e2 : nOf (isoTensor eb) * cosPhi kx (isoTensor eb) = -q0 := by
      rw [b2]
      linear_combination h
    have e3 : (n0 : ℂ) * ((Real.cos (deg2rad theta) : ℝ) : ℂ) = q0 := rfl
    simp only [DsInv, Ds, e2, e3, Matrix.mul_one]
    simp [Matrix.mul_apply, Fin.sum_univ_two]
    field_simp
    ring
  have hsump : q0 / n0 ^ 2 + qb / eb ≠ 0 := by
    intro h
    apply hP0
    rw [eP]
    rw [← hz0, ← hz, div_add_div _ _ n0' b4, div_eq_zero_iff] at h
    have h' := h.resolve_right (mul_ne_zero n0' b4)
    simp only [DpInv, Dp, Matrix.mul_one]
    generalize ((Real.cos (deg2rad theta) : ℝ) : ℂ) = c at *
    simp [Matrix.mul_apply, Fin.sum_univ_two]
    field_simp
    linear_combination h'
  refine ⟨hsum, hsump, ?_, ?_, ?_, ?_⟩
  · rw [rS0, eS]
    have e3 : (n0 : ℂ) * ((Real.cos (deg2rad theta) : ℝ) : ℂ) = q0 := rfl
    simp only [DsInv, Ds, e3, b2, Matrix.mul_one]
    change _ = (q0 - Complex.sqrt (eb - (kx : ℂ) ^ 2)) / (q0 + Complex.sqrt (eb - (kx : ℂ) ^ 2))
    change q0 + Complex.sqrt (eb - (kx : ℂ) ^ 2) ≠ 0 at hsum
    generalize Complex.sqrt (eb - (kx : ℂ) ^ 2) = w at *
    clear_value q0
    have e4 : (!![1 / 2, -(1 / (2 * q0)); 1 / 2, 1 / (2 * q0)] * !![1, 1; -w, w] : Mat2) 0 0 = (q0 + w) / (2 * q0) := by
      simp [Matrix.mul_apply, Fin.sum_univ_two]
      field_simp
    have e5 : (!![1 / 2, -(1 / (2 * q0)); 1 / 2, 1 / (2 * q0)] * !![1, 1; -w, w] : Mat2) 1 0 = (q0 - w) / (2 * q0) := by
      simp [Matrix.mul_apply, Fin.sum_univ_two]
      field_simp
      ring
    rw [e4, e5]
    field_simp
  · rw [rP0, eP, ← hz0, ← hz]
    rw [← hz0, ← hz] at hsump
    simp only [DpInv, Dp, Matrix.mul_one]
    generalize ((Real.cos (deg2rad theta) : ℝ) : ℂ) = c at *
    generalize cosPhi kx (isoTensor eb) = w at *
    generalize nOf (isoTensor eb) = m at *
    have e4 : (!![1 / (2 * c), 1 / (2 * (n0 : ℂ)); -(1 / (2 * c)), 1 / (2 * (n0 : ℂ))] * !![w, -w; m, m] : Mat2) 0 0 = m / (2 * c) * (c / n0 + w / m) := by
      simp [Matrix.mul_apply, Fin.sum_univ_two]
      field_simp
      ring
    have e5 : (!![1 / (2 * c), 1 / (2 * (n0 : ℂ)); -(1 / (2 * c)), 1 / (2 * (n0 : ℂ))] * !![w, -w; m, m] : Mat2) 1 0 = m / (2 * c) * (c / n0 - w / m) := by
      simp [Matrix.mul_apply, Fin.sum_univ_two]
      field_simp
      ring
    rw [e4, e5, mul_div_mul_left _ _ (div_ne_zero b4 (mul_ne_zero two_ne_zero c0'))]
  · have d1 := fun i j => sandwich_deriv (DsInv n0 (Real.cos (deg2rad theta) : ℝ)) (Ds (nOf (isoTensor eb)) (cosPhi kx (isoTensor eb)))
      (prod_deriv (fun e => deltaS kx (e 1 1)) lbda L) i j
    have d2 := ratio_deriv (d1 1 0) (d1 0 0) (by rw [prod_zero (fun e => deltaS kx (e 1 1)), ← eS]; exact hS0)
    rw [prod_zero (fun e => deltaS kx (e 1 1))] at d2
    have d3 := d2.hasDerivWithinAt (s := Ici (0 : ℝ))
    have d4 := d3.congr (f₁ := fun d => (out d).jr 1 1) (fun d hd => by
      obtain ⟨S, P, e1, -, -, -, e2, -⟩ := key d hd
      rw [e2, e1]) (by
      obtain ⟨S, P, e1, -, -, -, e2, -⟩ := key 0 le_rfl
      rw [e2, e1])
    refine d4.congr_deriv ?_
    rw [slope_s (q0 := q0) (qb := qb) (k := I * (wavenumber lbda : ℂ) * ((L.map Prod.fst).sum : ℝ))
      (A := -I * (wavenumber lbda : ℂ) * lsum L fun e => kx ^ 2 - e 1 1) q0' hsum _ _ rfl _ _ b2 ?_]
    · have h1 : (L.map fun l => (l.1 : ℂ) * (l.2 1 1 - eb)).sum = lsum L fun e => e 1 1 - eb := rfl
      have h2 : (lsum L fun e => e 1 1 - eb) = -(lsum L fun e => kx ^ 2 - e 1 1) + (kx ^ 2 - eb) * ((L.map Prod.fst).sum : ℝ) := by
        rw [← lsum_const, ← lsum_neg, ← lsum_add]
        congr 1
        funext e
        ring
      rw [h1, h2, hqb, wavenumber]
      push_cast
      ring
    · ext i j
      fin_cases i <;> fin_cases j <;> simp [generator, deltaS, lsum_const]
  · have d1 := fun i j => sandwich_deriv (DpInv n0 (Real.cos (deg2rad theta) : ℝ)) (Dp (nOf (isoTensor eb)) (cosPhi kx (isoTensor eb)))
      (prod_deriv (fun e => planeP kx e) lbda L) i j
    have d2 := ratio_deriv (d1 1 0) (d1 0 0) (by rw [prod_zero (fun e => planeP kx e), ← eP]; exact hP0)
    rw [prod_zero (fun e => planeP kx e)] at d2
    have d3 := d2.hasDerivWithinAt (s := Ici (0 : ℝ))
    have d4 := d3.congr (f₁ := fun d => (out d).jr 0 0) (fun d hd => by
      obtain ⟨S, P, -, e1, -, -, -, e2⟩ := key d hd
      rw [e2, e1]) (by
      obtain ⟨S, P, -, e1, -, -, -, e2⟩ := key 0 le_rfl
      rw [e2, e1])
    refine d4.congr_deriv ?_
    rw [slope_p n0' c0' b4 (by rw [hz, hz0]; exact hsump), hz, hz0]
    have h1 : (L.map fun l => (l.1 : ℂ) * ((1 - kx ^ 2 / l.2 2 2) + kx * (l.2 0 2 - l.2 2 0) / l.2 2 2 * (qb / eb) -
        (l.2 0 0 - l.2 0 2 * l.2 2 0 / l.2 2 2) * (qb / eb) ^ 2)).sum =
        (lsum L fun e => planeP kx e 0 1) + (qb / eb) * ((lsum L fun e => planeP kx e 0 0) + -(lsum L fun e => planeP kx e 1 1)) +
          -((qb / eb) ^ 2 * (lsum L fun e => planeP kx e 1 0)) := by
      rw [← lsum_neg, ← lsum_add, ← lsum_mul, ← lsum_mul, ← lsum_neg, ← lsum_add, ← lsum_add]
      unfold lsum
      congr 2
      funext l
      simp only [planeP, Matrix.of_apply, Matrix.cons_val', Matrix.cons_val_zero, Matrix.cons_val_one, Matrix.cons_val_fin_one]
      ring
    rw [h1]
    simp only [generator, wavenumber]
    push_cast
    ring

/-- The layers of isotropic films. -/
noncomputable def films (P : List (ℝ × ℂ)) : List (ℝ × Tensor) := P.map fun p => (p.1, isoTensor p.2)

/-- Drude's sum. -/
noncomputable def drudeSum (ea eb : ℂ) (P : List (ℝ × ℂ)) : ℂ := (P.map fun p => (p.1 : ℂ) * ((eb - p.2) * (p.2 - ea) / p.2)).sum

lemma quotient_within {u v : ℝ → ℂ} {u' v' : ℂ} {s : Set ℝ} (hu : HasDerivWithinAt u u' s 0) (hv : HasDerivWithinAt v v' s 0) (h0 : v 0 ≠ 0) (a : ℂ) :
    HasDerivWithinAt (fun d => a * (u d / v d)) (a * ((u' * v 0 - u 0 * v') / v 0 ^ 2)) s 0 := (hu.div hv h0).const_mul a

/-- Drude's algebra for one film. -/
lemma drude_algebra {ea eb e k2 q0 qb : ℂ} (ha : ea ≠ 0) (hb : eb ≠ 0) (he : e ≠ 0) (h0 : q0 ^ 2 = ea - k2) (h1 : qb ^ 2 = eb - k2) :
    (q0 / ea) * ((1 - k2 / e) - e * (qb / eb) ^ 2) * (q0 ^ 2 - qb ^ 2) - q0 * (e - eb) * ((q0 / ea) ^ 2 - (qb / eb) ^ 2) =
      -(q0 * k2 * (eb - ea) / (ea ^ 2 * eb)) * ((eb - e) * (e - ea) / e) := by
  rw [div_pow, div_pow, h0, h1]
  field_simp
  ring

lemma drude_sum {ea eb k2 q0 qb : ℂ} (ha : ea ≠ 0) (hb : eb ≠ 0) (h0 : q0 ^ 2 = ea - k2) (h1 : qb ^ 2 = eb - k2) (P : List (ℝ × ℂ)) (hP : ∀ p ∈ P, p.2 ≠ 0) :
    (q0 / ea) * (P.map fun p => (p.1 : ℂ) * ((1 - k2 / p.2) - p.2 * (qb / eb) ^ 2)).sum * (q0 ^ 2 - qb ^ 2) -
      q0 * (P.map fun p => (p.1 : ℂ) * (p.2 - eb)).sum * ((q0 / ea) ^ 2 - (qb / eb) ^ 2) =
      -(q0 * k2 * (eb - ea) / (ea ^ 2 * eb)) * drudeSum ea eb P := by
  induction P with
  | nil => simp [drudeSum]
  | cons p P ih =>
    have h := drude_algebra ha hb (hP p (by simp)) h0 h1
    have h' := ih fun p hp => hP p (by simp [hp])
    simp only [drudeSum, List.map_cons, List.sum_cons] at h' ⊢
    linear_combination (p.1 : ℂ) * h + h'

/-- The quotient rule for `rho`. -/
lemma drude_quotient {ea eb k2 q0 qb k0 S T D rs rp : ℂ} (ha : ea ≠ 0) (hb : eb ≠ 0) (h0 : q0 ^ 2 = ea - k2) (h1 : qb ^ 2 = eb - k2) (hab : eb ≠ ea)
    (hs : q0 + qb ≠ 0) (hp : q0 / ea + qb / eb ≠ 0) (hrs : rs = (q0 - qb) / (q0 + qb)) (hrp : rp = (q0 / ea - qb / eb) / (q0 / ea + qb / eb))
    (hD : (q0 / ea) * T * (q0 ^ 2 - qb ^ 2) - q0 * S * ((q0 / ea) ^ 2 - (qb / eb) ^ 2) = -(q0 * k2 * (eb - ea) / (ea ^ 2 * eb)) * D) :
    rs ≠ 0 ∧ (2 * I * k0 * (q0 / ea) * T / (q0 / ea + qb / eb) ^ 2 * rs - rp * (2 * I * k0 * q0 * S / (q0 + qb) ^ 2)) / rs ^ 2 =
      -(2 * I * k0 * (q0 * k2 * eb * (eb - ea) / ((q0 - qb) ^ 2 * (eb * q0 + ea * qb) ^ 2)) * D) := by
  have hd : q0 - qb ≠ 0 := by
    intro h
    apply hab
    have : q0 ^ 2 - qb ^ 2 = 0 := by rw [show q0 ^ 2 - qb ^ 2 = (q0 - qb) * (q0 + qb) by ring, h, zero_mul]
    rw [h0, h1] at this
    linear_combination -this
  have hZ : eb * q0 + ea * qb = ea * eb * (q0 / ea + qb / eb) := by field_simp
  refine ⟨by rw [hrs]; exact div_ne_zero hd hs, ?_⟩
  rw [hZ]
  generalize q0 / ea = Z0 at *
  generalize qb / eb = Zb at *
  have hD' : D * (q0 * k2 * (eb - ea)) = -(ea ^ 2 * eb) * (Z0 * T * (q0 ^ 2 - qb ^ 2) - q0 * S * (Z0 ^ 2 - Zb ^ 2)) := by
    rw [hD]
    field_simp
  have e1 : -(2 * I * k0 * (q0 * k2 * eb * (eb - ea) / ((q0 - qb) ^ 2 * (ea * eb * (Z0 + Zb)) ^ 2)) * D) =
      2 * I * k0 * (Z0 * T * (q0 ^ 2 - qb ^ 2) - q0 * S * (Z0 ^ 2 - Zb ^ 2)) / ((q0 - qb) ^ 2 * (Z0 + Zb) ^ 2) := by
    rw [show -(2 * I * k0 * (q0 * k2 * eb * (eb - ea) / ((q0 - qb) ^ 2 * (ea * eb * (Z0 + Zb)) ^ 2)) * D) =
      -(2 * I * k0 * eb * (D * (q0 * k2 * (eb - ea))) / ((q0 - qb) ^ 2 * (ea * eb * (Z0 + Zb)) ^ 2)) by ring, hD']
    field_simp
  rw [e1, hrs, hrp]
  field_simp
  ring

lemma rho_diag_any (jr jt : Mat2) (power : Option ℝ) (a b : ℂ) (hb : b ≠ 0) (h01 : jr 0 1 = 0) (h10 : jr 1 0 = 0) :
    (Result.mk' jr jt power ![a, b]).rho = a / b * (jr 0 0 / jr 1 1) := by
  unfold Result.rho foldRho Result.mk'
  rw [if_neg (by norm_num)]
  simp only [ratioOf, rhoMatrix, Matrix.mulVec, dotProduct, Fin.sum_univ_two, h01, h10]
  by_cases h : jr 1 1 = 0
  · simp [h]
  · simp [h]
    field_simp

lemma clear_denom {ea eb : ℂ} (ha : ea ≠ 0) (hb : eb ≠ 0) (q w : ℂ) :
    eb * q + ea * w = ea * eb * (q / ea + w / eb) ∧ eb * q - ea * w = ea * eb * (q / ea - w / eb) := by
  constructor <;> field_simp

/-- `rho` of the covered substrate for light with the Jones vector `(a, b)`. -/
noncomputable def filmRho (n0 : ℝ) (P : List (ℝ × ℂ)) (eb : ℂ) (theta lbda : ℝ) (ee : (Fin 4 → ℂ) × Mat4) (a b : ℂ) (d : ℝ) : ℂ :=
  let out := calculate4x4 propExpm (covered n0 (films P) eb d) theta lbda ee
  (Result.mk' out.jr out.jt out.power ![a, b]).rho

/-- C131, Drude's formula: first-order change of `rho`. -/
theorem C131_drude (n0 theta lbda : ℝ) (P : List (ℝ × ℂ)) (eb : ℂ) (ee) (a b : ℂ) (hn0 : 0 < n0) (hth : |theta| < 90) (hl : 0 < lbda)
    (hP : ∀ p ∈ P, 0 ≤ p.1 ∧ p.2 ≠ 0 ∧ 0 ≤ p.2.im) (hb : eb ≠ 0) (hb' : 0 ≤ eb.im) (hab : eb ≠ n0 ^ 2) (hj : b ≠ 0) :
    let kx : ℝ := n0 * Real.sin (deg2rad theta)
    let q0 : ℂ := n0 * (Real.cos (deg2rad theta) : ℝ)
    let qb := Complex.sqrt (eb - kx ^ 2)
    let out := calculate4x4 propExpm (covered n0 (films P) eb 0) theta lbda ee
    out.jr 1 1 ≠ 0 ∧ eb * q0 + n0 ^ 2 * qb ≠ 0 ∧
    filmRho n0 P eb theta lbda ee a b 0 = a / b * ((eb * q0 - n0 ^ 2 * qb) * (q0 + qb) / ((eb * q0 + n0 ^ 2 * qb) * (q0 - qb))) ∧
    HasDerivWithinAt (filmRho n0 P eb theta lbda ee a b)
      (-(a / b * (4 * Real.pi * I / lbda * (q0 * kx ^ 2 * eb * (eb - n0 ^ 2) / ((q0 - qb) ^ 2 * (eb * q0 + n0 ^ 2 * qb) ^ 2)) * drudeSum (n0 ^ 2) eb P)))
      (Ici 0) 0 := by
  intro kx q0 qb out
  have hL : ∀ l ∈ films P, 0 ≤ l.1 ∧ l.2 2 2 ≠ 0 ∧ Passive l.2 := by
    intro l hl
    simp only [films, List.mem_map] at hl
    obtain ⟨p, hp, rfl⟩ := hl
    obtain ⟨h1, h2, h3⟩ := hP p hp
    exact ⟨h1, by simpa [isoTensor] using h2, passive_isoTensor h3⟩
  have hI : ∀ l ∈ films P, InPlane l.2 := by
    intro l hl
    simp only [films, List.mem_map] at hl
    obtain ⟨p, hp, rfl⟩ := hl
    exact inPlane_iso _
  obtain ⟨c1, c2, c3, c4, c5, c6⟩ := C131_coefficients n0 theta lbda (films P) eb ee hn0 hth hl hL hI hb hb'
  have hx : ∀ d, ∀ l ∈ (covered n0 (films P) eb d).layers, InPlane l.2 := by
    intro d l h
    simp only [covered, scaled, List.mem_map] at h
    obtain ⟨l', h', rfl⟩ := h
    exact hI l' h'
  have hrho : filmRho n0 P eb theta lbda ee a b = fun d => a / b * ((calculate4x4 propExpm (covered n0 (films P) eb d) theta lbda ee).jr 0 0 /
      (calculate4x4 propExpm (covered n0 (films P) eb d) theta lbda ee).jr 1 1) := by
    funext d
    exact rho_diag_any _ _ _ a b hj (C79_no_cross_polarisation _ rfl (hx d) theta lbda ee 0 1 (by decide)).1
      (C79_no_cross_polarisation _ rfl (hx d) theta lbda ee 1 0 (by decide)).1
  have n0' : (n0 : ℂ) ^ 2 ≠ 0 := pow_ne_zero 2 (by exact_mod_cast hn0.ne')
  have h0 : q0 ^ 2 = (n0 : ℂ) ^ 2 - (kx : ℂ) ^ 2 := by
    have : ((Real.cos (deg2rad theta) : ℝ) : ℂ) ^ 2 + ((Real.sin (deg2rad theta) : ℝ) : ℂ) ^ 2 = 1 := by
      exact_mod_cast Real.cos_sq_add_sin_sq (deg2rad theta)
    simp only [q0, kx]
    rw [Complex.ofReal_mul]
    linear_combination (n0 : ℂ) ^ 2 * this
  have h1 : qb ^ 2 = eb - (kx : ℂ) ^ 2 := csqrt_sq _
  have hD := drude_sum n0' hb h0 h1 P fun p hp => (hP p hp).2.1
  have e1 : ((films P).map fun l => (l.1 : ℂ) * (l.2 1 1 - eb)).sum = (P.map fun p => (p.1 : ℂ) * (p.2 - eb)).sum := by
    simp [films, List.map_map, Function.comp_def, isoTensor]
  have e2 : ((films P).map fun l => (l.1 : ℂ) * ((1 - kx ^ 2 / l.2 2 2) + kx * (l.2 0 2 - l.2 2 0) / l.2 2 2 * (qb / eb) -
        (l.2 0 0 - l.2 0 2 * l.2 2 0 / l.2 2 2) * (qb / eb) ^ 2)).sum = (P.map fun p => (p.1 : ℂ) * ((1 - kx ^ 2 / p.2) - p.2 * (qb / eb) ^ 2)).sum := by
    simp [films, List.map_map, Function.comp_def, isoTensor]
  rw [e1] at c5
  rw [e2] at c6
  obtain ⟨r1, r2⟩ := drude_quotient (k0 := 2 * Real.pi / lbda) n0' hb h0 h1 hab c1 c2 c3 c4 hD
  have hZ : eb * q0 + (n0 : ℂ) ^ 2 * qb = (n0 : ℂ) ^ 2 * eb * (q0 / n0 ^ 2 + qb / eb) := (clear_denom n0' hb q0 qb).1
  have hZ' : eb * q0 - (n0 : ℂ) ^ 2 * qb = (n0 : ℂ) ^ 2 * eb * (q0 / n0 ^ 2 - qb / eb) := (clear_denom n0' hb q0 qb).2
  refine ⟨r1, by rw [hZ]; exact mul_ne_zero (mul_ne_zero n0' hb) c2, ?_, ?_⟩
  · rw [hrho]
    simp only
    rw [c3, c4, hZ, hZ', div_div_div_eq]
    congr 1
    rw [mul_assoc, mul_assoc ((n0 : ℂ) ^ 2 * eb) (q0 / n0 ^ 2 + qb / eb), mul_div_mul_left _ _ (mul_ne_zero n0' hb)]
  · rw [hrho]
    refine (quotient_within c6 c5 r1 (a / b)).congr_deriv ?_
    rw [r2]
    ring

/-! ## What can be learnt from an ultra-thin film -/

lemma front_sq (n0 theta : ℝ) : ((n0 : ℂ) * (Real.cos (deg2rad theta) : ℝ)) ^ 2 = (n0 : ℂ) ^ 2 - ((n0 * Real.sin (deg2rad theta) : ℝ) : ℂ) ^ 2 := by
  have : ((Real.cos (deg2rad theta) : ℝ) : ℂ) ^ 2 + ((Real.sin (deg2rad theta) : ℝ) : ℂ) ^ 2 = 1 := by
    exact_mod_cast Real.cos_sq_add_sin_sq (deg2rad theta)
  rw [Complex.ofReal_mul]
  linear_combination (n0 : ℂ) ^ 2 * this

lemma medium_diff {ea eb k2 q0 qb : ℂ} (h0 : q0 ^ 2 = ea - k2) (h1 : qb ^ 2 = eb - k2) (hab : eb ≠ ea) : q0 - qb ≠ 0 := by
  intro h
  apply hab
  have : q0 ^ 2 - qb ^ 2 = 0 := by rw [show q0 ^ 2 - qb ^ 2 = (q0 - qb) * (q0 + qb) by ring, h, zero_mul]
  rw [h0, h1] at this
  linear_combination -this

open Asymptotics Topology in
/-- C131: to first order ellipsometry sees only Drude's sum. The values of `rho` for two different coverings of the same substrate differ by less than any
multiple of the thickness exactly if the sums are equal. -/
theorem C131_indistinguishable (n0 theta lbda : ℝ) (P Q : List (ℝ × ℂ)) (eb : ℂ) (ee ee') (a b : ℂ) (hn0 : 0 < n0) (ht : 0 < theta) (hth : theta < 90) (hl : 0 < lbda)
    (hP : ∀ p ∈ P, 0 ≤ p.1 ∧ p.2 ≠ 0 ∧ 0 ≤ p.2.im) (hQ : ∀ p ∈ Q, 0 ≤ p.1 ∧ p.2 ≠ 0 ∧ 0 ≤ p.2.im) (hb : eb ≠ 0) (hb' : 0 ≤ eb.im) (hab : eb ≠ n0 ^ 2)
    (ha : a ≠ 0) (hj : b ≠ 0) :
    (fun d => filmRho n0 P eb theta lbda ee a b d - filmRho n0 Q eb theta lbda ee' a b d) =o[𝓝[≥] 0] (fun d : ℝ => d) ↔
      drudeSum (n0 ^ 2) eb P = drudeSum (n0 ^ 2) eb Q := by
  have hth' : |theta| < 90 := by rw [abs_of_pos ht]; exact hth
  obtain ⟨-, p2, p3, p4⟩ := C131_drude n0 theta lbda P eb ee a b hn0 hth' hl hP hb hb' hab hj
  obtain ⟨-, -, q3, q4⟩ := C131_drude n0 theta lbda Q eb ee' a b hn0 hth' hl hQ hb hb' hab hj
  have h := p4.sub q4
  have h0 : filmRho n0 P eb theta lbda ee a b 0 - filmRho n0 Q eb theta lbda ee' a b 0 = 0 := by rw [p3, q3, sub_self]
  have hq := front_sq n0 theta
  have hcos := cos_pos_of_angle hth'
  have hsin := sin_pos_of_angle ht hth
  have hq0 : (n0 : ℂ) * (Real.cos (deg2rad theta) : ℝ) ≠ 0 := mul_ne_zero (by exact_mod_cast hn0.ne') (by exact_mod_cast hcos.ne')
  have hkx : ((n0 * Real.sin (deg2rad theta) : ℝ) : ℂ) ≠ 0 := by exact_mod_cast (mul_pos hn0 hsin).ne'
  have hqb : Complex.sqrt (eb - ((n0 * Real.sin (deg2rad theta) : ℝ) : ℂ) ^ 2) ^ 2 = eb - ((n0 * Real.sin (deg2rad theta) : ℝ) : ℂ) ^ 2 := csqrt_sq _
  have hd := medium_diff hq hqb hab
  generalize ((n0 * Real.sin (deg2rad theta) : ℝ) : ℂ) = kx at *
  generalize (n0 : ℂ) * (Real.cos (deg2rad theta) : ℝ) = q0 at *
  generalize Complex.sqrt (eb - kx ^ 2) = qb at *
  have hl' : (lbda : ℂ) ≠ 0 := by exact_mod_cast hl.ne'
  have hpi : (Real.pi : ℂ) ≠ 0 := by exact_mod_cast Real.pi_ne_zero
  have hC : a / b * (4 * Real.pi * I / lbda * (q0 * kx ^ 2 * eb * (eb - n0 ^ 2) / ((q0 - qb) ^ 2 * (eb * q0 + n0 ^ 2 * qb) ^ 2))) ≠ 0 :=
    mul_ne_zero (div_ne_zero ha hj) (mul_ne_zero (div_ne_zero (mul_ne_zero (mul_ne_zero (by norm_num) hpi) Complex.I_ne_zero) hl')
      (div_ne_zero (mul_ne_zero (mul_ne_zero (mul_ne_zero hq0 (pow_ne_zero 2 hkx)) hb) (sub_ne_zero.2 hab))
        (mul_ne_zero (pow_ne_zero 2 hd) (pow_ne_zero 2 p2))))
  have hz : (fun d => filmRho n0 P eb theta lbda ee a b d - filmRho n0 Q eb theta lbda ee' a b d) =o[𝓝[≥] 0] (fun d : ℝ => d) ↔
      HasDerivWithinAt (fun d => filmRho n0 P eb theta lbda ee a b d - filmRho n0 Q eb theta lbda ee' a b d) 0 (Ici 0) 0 := by
    rw [hasDerivWithinAt_iff_isLittleO]
    simp only [h0, sub_zero, smul_zero]
  rw [hz]
  constructor
  · intro h'
    have e := (uniqueDiffWithinAt_Ici (0 : ℝ)).eq_deriv _ h' h
    have e' : a / b * (4 * Real.pi * I / lbda * (q0 * kx ^ 2 * eb * (eb - n0 ^ 2) / ((q0 - qb) ^ 2 * (eb * q0 + n0 ^ 2 * qb) ^ 2))) *
        (drudeSum (n0 ^ 2) eb Q - drudeSum (n0 ^ 2) eb P) = 0 := by
      linear_combination -e
    exact (sub_eq_zero.1 ((mul_eq_zero.1 e').resolve_left hC)).symm
  · intro e
    refine h.congr_deriv ?_
    rw [e, sub_self]

lemma bare_ne {ea eb k2 q0 qb : ℂ} (h0 : q0 ^ 2 = ea - k2) (h1 : qb ^ 2 = eb - k2) (hab : eb ≠ ea)
    (hp : eb * q0 + ea * qb ≠ 0) (hX : ea * eb - k2 * (ea + eb) ≠ 0) : (eb * q0 - ea * qb) * (q0 + qb) / ((eb * q0 + ea * qb) * (q0 - qb)) ≠ 0 := by
  have hd := medium_diff h0 h1 hab
  refine div_ne_zero (fun h => ?_) (mul_ne_zero hp hd)
  have : (eb * q0 - ea * qb) * (q0 + qb) * ((q0 - qb) * (eb * q0 + ea * qb)) = -((eb - ea) ^ 2 * (ea * eb - k2 * (ea + eb))) := by
    rw [show (eb * q0 - ea * qb) * (q0 + qb) * ((q0 - qb) * (eb * q0 + ea * qb)) = (eb ^ 2 * q0 ^ 2 - ea ^ 2 * qb ^ 2) * (q0 ^ 2 - qb ^ 2) by ring, h0, h1]
    ring
  rw [h, zero_mul] at this
  exact mul_ne_zero (pow_ne_zero 2 (sub_ne_zero.2 hab)) hX (by linear_combination this)

/-- The logarithmic derivative. -/
lemma log_slope {ea eb k2 q0 qb : ℂ} (ha : ea ≠ 0) (hb : eb ≠ 0) (h0 : q0 ^ 2 = ea - k2) (h1 : qb ^ 2 = eb - k2) (hab : eb ≠ ea)
    (hp : eb * q0 + ea * qb ≠ 0) (hX : ea * eb - k2 * (ea + eb) ≠ 0) :
    q0 * k2 * eb * (eb - ea) / ((q0 - qb) ^ 2 * (eb * q0 + ea * qb) ^ 2) =
      -((eb * q0 - ea * qb) * (q0 + qb) / ((eb * q0 + ea * qb) * (q0 - qb)) * (q0 * k2 * eb / ((eb - ea) * (ea * eb - k2 * (ea + eb))))) := by
  have hd := medium_diff h0 h1 hab
  have hY := sub_ne_zero.2 hab
  have e1 : (eb * q0 - ea * qb) * (q0 + qb) = -((eb - ea) ^ 2 * (ea * eb - k2 * (ea + eb))) / ((q0 - qb) * (eb * q0 + ea * qb)) := by
    rw [eq_div_iff (mul_ne_zero hd hp)]
    have : (eb * q0 - ea * qb) * (q0 + qb) * ((q0 - qb) * (eb * q0 + ea * qb)) = (eb ^ 2 * q0 ^ 2 - ea ^ 2 * qb ^ 2) * (q0 ^ 2 - qb ^ 2) := by ring
    rw [this, h0, h1]
    ring
  rw [e1]
  generalize ea * eb - k2 * (ea + eb) = X at *
  generalize eb * q0 + ea * qb = W at *
  generalize q0 - qb = V at *
  generalize eb - ea = Y at *
  field_simp

lemma drudeSum_real (n0 eb : ℝ) (P : List (ℝ × ℝ)) : drudeSum (n0 ^ 2) eb (P.map fun p => (p.1, (p.2 : ℂ))) =
    ((P.map fun p => p.1 * ((eb - p.2) * (p.2 - n0 ^ 2) / p.2)).sum : ℝ) := by
  induction P with
  | nil => simp [drudeSum]
  | cons p P ih =>
    simp only [drudeSum, List.map_cons, List.sum_cons] at ih ⊢
    rw [ih]
    push_cast
    rfl

/-- C131: for a transparent or lossless covering and substrate the film changes delta in proportion to its thickness, and psi only in second order. -/
theorem C131_transparent (n0 theta lbda : ℝ) (P : List (ℝ × ℝ)) (eb : ℝ) (ee) (a b : ℂ) (hn0 : 0 < n0) (hth : |theta| < 90) (hl : 0 < lbda)
    (hP : ∀ p ∈ P, 0 ≤ p.1 ∧ p.2 ≠ 0) (hb : eb ≠ 0) (hab : eb ≠ n0 ^ 2) (ha : a ≠ 0) (hj : b ≠ 0)
    (hB : n0 ^ 2 * eb ≠ (n0 * Real.sin (deg2rad theta)) ^ 2 * (n0 ^ 2 + eb)) :
    let kx : ℝ := n0 * Real.sin (deg2rad theta)
    let q0 : ℝ := n0 * Real.cos (deg2rad theta)
    let slope : ℝ := 4 * Real.pi / lbda * (q0 * kx ^ 2 * eb / ((eb - n0 ^ 2) * (n0 ^ 2 * eb - kx ^ 2 * (n0 ^ 2 + eb)))) *
      (P.map fun p => p.1 * ((eb - p.2) * (p.2 - n0 ^ 2) / p.2)).sum
    let out := fun d => calculate4x4 propExpm (covered n0 (films (P.map fun p => (p.1, (p.2 : ℂ)))) eb d) theta lbda ee
    let res := fun d => Result.mk' (out d).jr (out d).jt (out d).power ![a, b]
    HasDerivWithinAt (fun d => (res d).psi) 0 (Ici 0) 0 ∧
    HasDerivWithinAt (fun d => Complex.exp (-I * ((res d).delta * Real.pi / 180 : ℝ)))
      (Complex.exp (-I * ((res 0).delta * Real.pi / 180 : ℝ)) * (I * slope)) (Ici 0) 0 := by
  intro kx q0 slope out res
  obtain ⟨-, h2, h3, h4⟩ := C131_drude n0 theta lbda (P.map fun p => (p.1, (p.2 : ℂ))) eb ee a b hn0 hth hl (by
    intro p hp
    simp only [List.mem_map] at hp
    obtain ⟨p', hp', rfl⟩ := hp
    exact ⟨(hP p' hp').1, Complex.ofReal_ne_zero.2 (hP p' hp').2, by simp⟩) (by exact_mod_cast hb) (by simp) (by exact_mod_cast hab) hj
  have hX : (n0 : ℂ) ^ 2 * eb - ((kx : ℝ) : ℂ) ^ 2 * ((n0 : ℂ) ^ 2 + eb) ≠ 0 := by exact_mod_cast sub_ne_zero.2 hB
  have hq := front_sq n0 theta
  have hqb : Complex.sqrt ((eb : ℂ) - ((n0 * Real.sin (deg2rad theta) : ℝ) : ℂ) ^ 2) ^ 2 = eb - ((n0 * Real.sin (deg2rad theta) : ℝ) : ℂ) ^ 2 := csqrt_sq _
  have n0' : (n0 : ℂ) ^ 2 ≠ 0 := pow_ne_zero 2 (by exact_mod_cast hn0.ne')
  have hb0 : (eb : ℂ) ≠ 0 := by exact_mod_cast hb
  have hab' : (eb : ℂ) ≠ (n0 : ℂ) ^ 2 := by exact_mod_cast hab
  have hls := log_slope n0' hb0 hq hqb hab' h2 hX
  have hsl : ((slope : ℝ) : ℂ) = 4 * Real.pi / lbda * (n0 * (Real.cos (deg2rad theta) : ℝ) * ((kx : ℝ) : ℂ) ^ 2 * eb / ((eb - (n0 : ℂ) ^ 2) *
      ((n0 : ℂ) ^ 2 * eb - ((kx : ℝ) : ℂ) ^ 2 * ((n0 : ℂ) ^ 2 + eb)))) * drudeSum (n0 ^ 2) eb (P.map fun p => (p.1, (p.2 : ℂ))) := by
    rw [drudeSum_real]
    simp only [slope, q0]
    push_cast
    rfl
  set rho := filmRho n0 (P.map fun p => (p.1, (p.2 : ℂ))) eb theta lbda ee a b with hrho
  have hr : HasDerivWithinAt rho (rho 0 * (I * slope)) (Ici 0) 0 := by
    refine h4.congr_deriv ?_
    rw [h3, hls, hsl]
    ring
  have hr0 : rho 0 ≠ 0 := by
    rw [h3]
    exact mul_ne_zero (div_ne_zero ha hj) (bare_ne hq hqb hab' h2 hX)
  have hres : ∀ d, (res d).rho = rho d := fun d => rfl
  have hpsi : ∀ d, (res d).psi = rad2deg (Real.arctan (Real.sqrt (‖rho d‖ ^ 2))) := by
    intro d
    rw [Real.sqrt_sq (norm_nonneg _)]
    rfl
  have hns : HasDerivWithinAt (fun d => ‖rho d‖ ^ 2) 0 (Ici 0) 0 := by
    refine hr.norm_sq.congr_deriv ?_
    simp [Complex.inner]
    ring
  have hsq : HasDerivWithinAt (fun d => Real.sqrt (‖rho d‖ ^ 2)) 0 (Ici 0) 0 := by
    refine (hns.sqrt (by positivity)).congr_deriv ?_
    simp
  constructor
  · have h5 := (hsq.arctan).const_mul (180 / Real.pi)
    have : (fun d => (res d).psi) = fun d => 180 / Real.pi * Real.arctan (Real.sqrt (‖rho d‖ ^ 2)) := by
      funext d
      rw [hpsi d, rad2deg]
      ring
    rw [this]
    refine h5.congr_deriv ?_
    simp
  · have h6 : ∀ d, rho d ≠ 0 → Complex.exp (-I * ((res d).delta * Real.pi / 180 : ℝ)) = rho d / (Real.sqrt (‖rho d‖ ^ 2) : ℝ) := by
      intro d hd
      have e := (C03_calc_rho_spec _ _ _).2 (C03_round_trip_default (out d).jr (out d).jt (out d).power ![a, b])
      change calcRho (res d).psi (res d).delta = rho d at e
      have e1 : Real.tan (deg2rad (res d).psi) = Real.sqrt (‖rho d‖ ^ 2) := by rw [hpsi, deg2rad_rad2deg, Real.tan_arctan]
      have e2 : ((Real.sqrt (‖rho d‖ ^ 2) : ℝ) : ℂ) ≠ 0 := by
        rw [Real.sqrt_sq (norm_nonneg _)]
        exact_mod_cast (norm_pos_iff.2 hd).ne'
      rw [eq_div_iff e2, ← e1, mul_comm]
      rw [calcRho] at e
      rw [← e]
      congr 3
      unfold deg2rad
      push_cast
      ring
    have hne : ∀ᶠ d in nhdsWithin (0 : ℝ) (Ici 0), rho d ≠ 0 := hr.continuousWithinAt.eventually_ne hr0
    have h7 : HasDerivWithinAt (fun d => rho d / ((Real.sqrt (‖rho d‖ ^ 2) : ℝ) : ℂ)) (rho 0 / ((Real.sqrt (‖rho 0‖ ^ 2) : ℝ) : ℂ) * (I * slope)) (Ici 0) 0 := by
      have h8 := hr.div hsq.ofReal_comp (by
        rw [Real.sqrt_sq (norm_nonneg _)]
        exact_mod_cast (norm_pos_iff.2 hr0).ne')
      refine h8.congr_deriv ?_
      simp only [Complex.ofReal_zero, mul_zero, sub_zero]
      have e2 : ((Real.sqrt (‖rho 0‖ ^ 2) : ℝ) : ℂ) ≠ 0 := by
        rw [Real.sqrt_sq (norm_nonneg _)]
        exact_mod_cast (norm_pos_iff.2 hr0).ne'
      generalize ((Real.sqrt (‖rho 0‖ ^ 2) : ℝ) : ℂ) = w at *
      field_simp
    rw [h6 0 hr0]
    exact h7.congr_of_eventuallyEq (hne.mono h6) (h6 0 hr0)

/-- The slope of the pseudo dielectric function from that of `rho`. -/
lemma pseudo_algebra {n0 c s ea eb k2 q0 qb D k0 : ℂ} (hn : n0 ≠ 0) (hc : c ≠ 0) (hs : s ≠ 0) (hea : ea = n0 ^ 2) (hk : k2 = n0 ^ 2 * s ^ 2) (hq : q0 = n0 * c)
    (hcs : c ^ 2 + s ^ 2 = 1) (hqb : qb ^ 2 = eb - k2) (hab : eb ≠ ea) (hp : eb * q0 + ea * qb ≠ 0) :
    let rho := (eb * q0 - ea * qb) * (q0 + qb) / ((eb * q0 + ea * qb) * (q0 - qb))
    let rho' := -(2 * I * k0 * (q0 * k2 * eb * (eb - ea) / ((q0 - qb) ^ 2 * (eb * q0 + ea * qb) ^ 2)) * D)
    1 + rho ≠ 0 ∧ s ^ 2 * (1 + (s / c) ^ 2 * ((1 - rho) / (1 + rho)) ^ 2) = eb / ea ∧
    s ^ 2 * ((s / c) ^ 2 * (2 * ((1 - rho) / (1 + rho)) * ((-rho' * (1 + rho) - (1 - rho) * rho') / (1 + rho) ^ 2))) =
      2 * I * k0 * (eb * qb / (eb - ea)) * D / ea := by
  intro rho rho'
  have h0 : q0 ^ 2 = ea - k2 := by
    rw [hq, hea, hk]
    linear_combination n0 ^ 2 * hcs
  have hd := medium_diff h0 hqb hab
  have hY := sub_ne_zero.2 hab
  have hk0 : k2 ≠ 0 := by rw [hk]; exact mul_ne_zero (pow_ne_zero 2 hn) (pow_ne_zero 2 hs)
  have hM : (eb * q0 + ea * qb) * (q0 - qb) ≠ 0 := mul_ne_zero hp hd
  have e1 : 1 + rho = -(2 * k2 * (eb - ea)) / ((eb * q0 + ea * qb) * (q0 - qb)) := by
    simp only [rho]
    rw [eq_div_iff hM, add_mul, div_mul_cancel₀ _ hM]
    linear_combination 2 * eb * h0 - 2 * ea * hqb
  have e2 : 1 - rho = -(2 * q0 * qb * (eb - ea)) / ((eb * q0 + ea * qb) * (q0 - qb)) := by
    simp only [rho]
    rw [eq_div_iff hM, sub_mul, div_mul_cancel₀ _ hM]
    ring
  have hne : 1 + rho ≠ 0 := by
    rw [e1]
    exact div_ne_zero (neg_ne_zero.2 (mul_ne_zero (mul_ne_zero two_ne_zero hk0) hY)) hM
  have ew : (1 - rho) / (1 + rho) = q0 * qb / k2 := by
    rw [e1, e2]
    generalize (eb * q0 + ea * qb) * (q0 - qb) = M at *
    generalize eb - ea = Y at *
    field_simp
  have ew' : (-rho' * (1 + rho) - (1 - rho) * rho') / (1 + rho) ^ 2 = I * k0 * q0 * eb * D / (k2 * (eb - ea)) := by
    have : -rho' * (1 + rho) - (1 - rho) * rho' = -2 * rho' := by ring
    rw [this, e1]
    simp only [rho']
    rw [show (q0 - qb) ^ 2 * (eb * q0 + ea * qb) ^ 2 = ((eb * q0 + ea * qb) * (q0 - qb)) ^ 2 by ring]
    generalize (eb * q0 + ea * qb) * (q0 - qb) = M at *
    generalize eb - ea = Y at *
    field_simp
  refine ⟨hne, ?_, ?_⟩
  · have : s ^ 2 * (1 + (s / c) ^ 2 * (q0 * qb / k2) ^ 2) = (n0 ^ 2 * s ^ 2 + qb ^ 2) / n0 ^ 2 := by
      rw [hq, hk]
      field_simp
    rw [ew, this, hqb, hk, hea]
    ring
  · rw [ew, ew', hq, hk, hea]
    rw [hea] at hY
    generalize eb - n0 ^ 2 = Y at *
    field_simp

/-- C131: the pseudo dielectric function of a covered substrate starts at the dielectric function of the substrate (relative to the front medium) and
changes in proportion to Drude's sum. -/
theorem C131_pseudo (n0 theta lbda : ℝ) (P : List (ℝ × ℂ)) (eb : ℂ) (ee) (a : ℂ) (hn0 : 0 < n0) (ht : 0 < theta) (hth : theta < 90) (hl : 0 < lbda)
    (hP : ∀ p ∈ P, 0 ≤ p.1 ∧ p.2 ≠ 0 ∧ 0 ≤ p.2.im) (hb : eb ≠ 0) (hb' : 0 ≤ eb.im) (hab : eb ≠ n0 ^ 2) (ha : a ≠ 0) :
    ∃ f : ℝ → ℂ, (∀ᶠ d in nhdsWithin 0 (Ici 0), pseudoEps (filmRho n0 P eb theta lbda ee a a d) theta = some (f d)) ∧ f 0 = eb / n0 ^ 2 ∧
      HasDerivWithinAt f (4 * Real.pi * I / lbda * (eb * Complex.sqrt (eb - ((n0 * Real.sin (deg2rad theta) : ℝ) : ℂ) ^ 2) / (eb - n0 ^ 2)) *
        drudeSum (n0 ^ 2) eb P / n0 ^ 2) (Ici 0) 0 := by
  have hth' : |theta| < 90 := by rw [abs_of_pos ht]; exact hth
  obtain ⟨-, p2, p3, p4⟩ := C131_drude n0 theta lbda P eb ee a a hn0 hth' hl hP hb hb' hab ha
  have hcos := cos_pos_of_angle hth'
  have hsin := sin_pos_of_angle ht hth
  have hcs : ((Real.cos (deg2rad theta) : ℝ) : ℂ) ^ 2 + ((Real.sin (deg2rad theta) : ℝ) : ℂ) ^ 2 = 1 := by
    exact_mod_cast Real.cos_sq_add_sin_sq (deg2rad theta)
  have hq : Complex.sqrt (eb - ((n0 * Real.sin (deg2rad theta) : ℝ) : ℂ) ^ 2) ^ 2 = eb - ((n0 * Real.sin (deg2rad theta) : ℝ) : ℂ) ^ 2 := csqrt_sq _
  obtain ⟨g1, g2, g3⟩ := pseudo_algebra (D := drudeSum (n0 ^ 2) eb P) (k0 := 2 * Real.pi / lbda) (n0 := n0) (c := (Real.cos (deg2rad theta) : ℝ))
    (s := (Real.sin (deg2rad theta) : ℝ)) (by exact_mod_cast hn0.ne') (by exact_mod_cast hcos.ne') (by exact_mod_cast hsin.ne') rfl
    (by push_cast; ring) rfl hcs hq hab p2
  rw [div_self ha, one_mul] at p3 p4
  have hdeg : theta * Real.pi / 180 = deg2rad theta := by unfold deg2rad; ring
  set rho := filmRho n0 P eb theta lbda ee a a with hrho
  rw [← p3] at g1 g2 g3
  obtain ⟨R, hR⟩ : ∃ R, -(2 * I * (2 * Real.pi / lbda) * ((n0 : ℂ) * (Real.cos (deg2rad theta) : ℝ) * ((n0 * Real.sin (deg2rad theta) : ℝ) : ℂ) ^ 2 * eb *
      (eb - (n0 : ℂ) ^ 2) / (((n0 : ℂ) * (Real.cos (deg2rad theta) : ℝ) - Complex.sqrt (eb - ((n0 * Real.sin (deg2rad theta) : ℝ) : ℂ) ^ 2)) ^ 2 *
      (eb * ((n0 : ℂ) * (Real.cos (deg2rad theta) : ℝ)) + (n0 : ℂ) ^ 2 * Complex.sqrt (eb - ((n0 * Real.sin (deg2rad theta) : ℝ) : ℂ) ^ 2)) ^ 2)) *
      drudeSum ((n0 : ℂ) ^ 2) eb P) = R := ⟨_, rfl⟩
  rw [hR] at g3
  have hp4 : HasDerivWithinAt rho R (Ici 0) 0 := by
    refine p4.congr_deriv ?_
    rw [← hR]
    ring
  refine ⟨fun d => (Real.sin (deg2rad theta) : ℂ) ^ 2 * (1 + ((Real.sin (deg2rad theta) : ℂ) / (Real.cos (deg2rad theta) : ℂ)) ^ 2 *
    ((1 - rho d) / (1 + rho d)) ^ 2), ?_, g2, ?_⟩
  · have hne : ∀ᶠ d in nhdsWithin (0 : ℝ) (Ici 0), 1 + rho d ≠ 0 := (continuousWithinAt_const.add hp4.continuousWithinAt).eventually_ne g1
    filter_upwards [hne] with d hd
    simp only [pseudoEps, hdeg]
    rw [if_neg (by push Not; exact ⟨hd, hcos.ne'⟩), Real.tan_eq_sin_div_cos]
    push_cast
    rfl
  · have h5 := (((hp4.const_sub 1).div (hp4.const_add 1) g1).pow 2).const_mul (((Real.sin (deg2rad theta) : ℂ) / (Real.cos (deg2rad theta) : ℂ)) ^ 2)
    have h6 := (h5.const_add 1).const_mul ((Real.sin (deg2rad theta) : ℂ) ^ 2)
    refine h6.congr_deriv ?_
    rw [show 4 * Real.pi * I / lbda * (eb * Complex.sqrt (eb - ((n0 * Real.sin (deg2rad theta) : ℝ) : ℂ) ^ 2) / (eb - n0 ^ 2)) *
        drudeSum (n0 ^ 2) eb P / n0 ^ 2 = 2 * I * (2 * Real.pi / lbda) *
        (eb * Complex.sqrt (eb - ((n0 * Real.sin (deg2rad theta) : ℝ) : ℂ) ^ 2) / (eb - n0 ^ 2)) * drudeSum (n0 ^ 2) eb P / n0 ^ 2 by ring, ← g3]
    simp only [Pi.div_apply, Nat.cast_ofNat, Nat.add_one_sub_one, pow_one]

/-! ## A thin oxide on an absorbing substrate -/

/-- 1 nm and 2 nm of two transparent films, an absorbing substrate, 70°. -/
example : (∀ p ∈ ([(1, 2), (2, 3)] : List (ℝ × ℂ)), 0 ≤ p.1 ∧ p.2 ≠ 0 ∧ 0 ≤ p.2.im) ∧ (15 + I : ℂ) ≠ 0 ∧ 0 ≤ (15 + I : ℂ).im ∧
    (15 + I : ℂ) ≠ ((1 : ℝ) : ℂ) ^ 2 ∧ |(70 : ℝ)| < 90 ∧ drudeSum 1 (15 + I) [(1, 2), (2, 3)] ≠ 0 := by
  refine ⟨by simp, ?_, by simp, ?_, by norm_num [abs_of_pos], ?_⟩
  · intro h
    have := congrArg Complex.im h
    simp at this
  · intro h
    have := congrArg Complex.im h
    simp [← Complex.ofReal_pow] at this
  · intro h
    have := congrArg Complex.re h
    simp [drudeSum] at this
    norm_num at this

/-- Two different films on the same substrate with the same sum: 8 nm of permittivity 2 and 9 nm of permittivity 3, in air on a substrate of 5. -/
example : drudeSum (((1 : ℝ) : ℂ) ^ 2) 5 [(8, 2)] = drudeSum (((1 : ℝ) : ℂ) ^ 2) 5 [(9, 3)] ∧ drudeSum (((1 : ℝ) : ℂ) ^ 2) 5 [(8, 2)] ≠ 0 := by
  simp [drudeSum]
  norm_num

/-- Glass with a transparent film at 45°, away from Brewster's angle. -/
example : (∀ p ∈ ([(1, 2)] : List (ℝ × ℝ)), 0 ≤ p.1 ∧ p.2 ≠ 0) ∧ (9 / 4 : ℝ) ≠ 0 ∧ (9 / 4 : ℝ) ≠ 1 ^ 2 ∧
    (1 : ℝ) ^ 2 * (9 / 4) ≠ (1 * Real.sin (deg2rad 45)) ^ 2 * (1 ^ 2 + 9 / 4) := by
  have h : deg2rad 45 = Real.pi / 4 := by unfold deg2rad; ring
  refine ⟨by simp, by norm_num, by norm_num, ?_⟩
  rw [h, Real.sin_pi_div_four, mul_pow, div_pow, Real.sq_sqrt (by norm_num)]
  norm_num

end PyElli
