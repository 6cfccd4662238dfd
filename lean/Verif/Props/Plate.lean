import Verif.Props.PlaneStack
import Verif.Props.Structure
import Verif.Props.Symmetry
import Verif.Props.Mueller
import Verif.Props.ThinFilm
import Verif.Props.Slicing

/-! # Birefringent plates between polarisers (C130) -/

namespace PyElli

open Complex Matrix Spec

/-- A structure of crystal plates between two isotropic half spaces, all turned by the azimuth `phi` (in degrees) with `set_rotation`. Isotropic coatings are
crystals with three equal dispersions. -/
noncomputable def turnedPlates (front back : ℝ → ℂ) (ls : List (SingleMaterial × ℝ)) (phi : ℝ) : Struct :=
  ⟨.single .isotropic (isotropicMaterial front), ls.map fun p => .layer (.single .biaxial (p.1.setRotation (rotationVTheta eZ phi))) p.2,
    .single .isotropic (isotropicMaterial back)⟩

/-- The same plates with their axes along x, y and z. -/
noncomputable def plainPlates (front back : ℝ → ℂ) (ls : List (SingleMaterial × ℝ)) : Struct :=
  ⟨.single .isotropic (isotropicMaterial front), ls.map fun p => .layer (.single .biaxial p.1) p.2, .single .isotropic (isotropicMaterial back)⟩

/-- The stack of the plates with their axes along x, y and z. -/
noncomputable def plateStack (front back : ℝ → ℂ) (ls : List (SingleMaterial × ℝ)) (lbda : ℝ) : Stack :=
  ⟨isoTensor (front lbda), ls.map fun p => (p.2, Matrix.diagonal ![p.1.dispersionX lbda, p.1.dispersionY lbda, p.1.dispersionZ lbda]),
    isoTensor (back lbda), true⟩

lemma iso_getTensor (e : ℝ → ℂ) (lbda : ℝ) : (Material.single .isotropic (isotropicMaterial e)).getTensor lbda = fun i j => some (isoTensor (e lbda) i j) := by
  funext i j
  simp only [Material.getTensor, isotropicMaterial, SingleMaterial.getTensor, isoTensor]
  fin_cases i <;> fin_cases j <;> simp [Matrix.diagonal_apply]

lemma profileList_layers (ls : List (SingleMaterial × ℝ)) (f : SingleMaterial → SingleMaterial) (lbda : ℝ) :
    profileList (ls.map fun p => LayerObj.layer (.single .biaxial (f p.1)) p.2) lbda =
      ls.map fun p => ⟨p.2, (Material.single .biaxial (f p.1)).getTensor lbda⟩ := by
  induction ls with
  | nil => simp [profileList]
  | cons p ls ih => simp [profileList, LayerObj.profile, ih]

lemma plates_stack (front back : ℝ → ℂ) (ls : List (SingleMaterial × ℝ)) (f : SingleMaterial → SingleMaterial) (lbda : ℝ) :
    Struct.stack ⟨.single .isotropic (isotropicMaterial front), ls.map fun p => .layer (.single .biaxial (f p.1)) p.2,
      .single .isotropic (isotropicMaterial back)⟩ lbda =
      some ⟨isoTensor (front lbda), ls.map fun p => (p.2, (f p.1).getTensor lbda), isoTensor (back lbda), true⟩ := by
  unfold Struct.stack
  simp only
  rw [iso_getTensor, iso_getTensor, profileList_layers, finite_some, finite_some,
    finiteSlices_map ls (fun p => p.2) (fun p => (Material.single .biaxial (f p.1)).getTensor lbda) (fun p => (f p.1).getTensor lbda) (fun p _ => rfl)]
  rfl

lemma plain_stack (front back : ℝ → ℂ) (ls : List (SingleMaterial × ℝ)) (h : ∀ p ∈ ls, p.1.rotation = none) (lbda : ℝ) :
    (plainPlates front back ls).stack lbda = some (plateStack front back ls lbda) := by
  have e := plates_stack front back ls id lbda
  simp only [id] at e
  rw [plainPlates, e, plateStack]
  congr 2
  refine List.map_congr_left fun p hp => ?_
  simp [SingleMaterial.getTensor, h p hp]

lemma turned_stack (front back : ℝ → ℂ) (ls : List (SingleMaterial × ℝ)) (phi lbda : ℝ) :
    (turnedPlates front back ls phi).stack lbda = some (moved (Spec.Rz (phi * Real.pi / 180)) (plateStack front back ls lbda)) := by
  rw [turnedPlates, plates_stack front back ls (fun m => m.setRotation (rotationVTheta eZ phi)) lbda]
  simp only [plateStack, moved, List.map_map]
  congr 2
  refine List.map_congr_left fun p _ => ?_
  simp [SingleMaterial.getTensor, SingleMaterial.setRotation, rotationVTheta_eZ]

lemma plate_inPlane (front back : ℝ → ℂ) (ls : List (SingleMaterial × ℝ)) (lbda : ℝ) : ∀ l ∈ (plateStack front back ls lbda).layers, InPlane l.2 := by
  intro l hl
  simp only [plateStack, List.mem_map] at hl
  obtain ⟨p, -, rfl⟩ := hl
  simp [InPlane, Matrix.diagonal_apply]

lemma nOf_ne {e : ℂ} (h : e ≠ 0) : nOf (isoTensor e) ≠ 0 := by
  intro h'
  apply h
  have := nOf_sq (isoTensor e)
  rw [h'] at this
  simpa [isoTensor] using this.symm

/-- C130: transmission and reflection of plates at azimuth `phi`, light at normal incidence. `a`, `b` (`c`, `d`) are the amplitudes transmitted (reflected) by
the plates with their axes along x and y. -/
theorem C130_azimuth (front back : ℝ → ℂ) (ls : List (SingleMaterial × ℝ)) (h : ∀ p ∈ ls, p.1.rotation = none) (phi lbda : ℝ) (hf : front lbda ≠ 0) (ee ee') :
    ∃ s s', (plainPlates front back ls).stack lbda = some s ∧ (turnedPlates front back ls phi).stack lbda = some s' ∧
      let out := calculate4x4 propExpm s 0 lbda ee
      let out' := calculate4x4 propExpm s' 0 lbda ee'
      let co : ℂ := Real.cos (phi * Real.pi / 180)
      let si : ℂ := Real.sin (phi * Real.pi / 180)
      let a := out.jt 0 0
      let b := out.jt 1 1
      let c := out.jr 0 0
      let d := out.jr 1 1
      out.jt = !![a, 0; 0, b] ∧ out.jr = !![c, 0; 0, d] ∧ out'.power = out.power ∧
      out'.jt = !![co ^ 2 * a + si ^ 2 * b, si * co * (a - b); si * co * (a - b), si ^ 2 * a + co ^ 2 * b] ∧
      out'.jr = !![co ^ 2 * c - si ^ 2 * d, si * co * (c + d); -(si * co * (c + d)), co ^ 2 * d - si ^ 2 * c] := by
  refine ⟨_, _, plain_stack front back ls h lbda, turned_stack front back ls phi lbda, ?_⟩
  have hI := plate_inPlane front back ls lbda
  obtain ⟨ht, hr⟩ := C80_azimuth (plateStack front back ls lbda) rfl (nOf_ne hf) (phi * Real.pi / 180) lbda ee ee'
  have hx := fun i j (hij : i ≠ j) => C79_no_cross_polarisation (plateStack front back ls lbda) rfl hI 0 lbda ee i j hij
  have hpow : (calculate4x4 propExpm (moved (Spec.Rz (phi * Real.pi / 180)) (plateStack front back ls lbda)) 0 lbda ee').power =
      (calculate4x4 propExpm (plateStack front back ls lbda) 0 lbda ee).power := rfl
  intro out out' co si a b c d
  have e1 : out.jt = !![a, 0; 0, b] := by
    ext i j
    fin_cases i <;> fin_cases j <;> simp [a, b]
    · exact (hx 0 1 (by decide)).2
    · exact (hx 1 0 (by decide)).2
  have e2 : out.jr = !![c, 0; 0, d] := by
    ext i j
    fin_cases i <;> fin_cases j <;> simp [c, d]
    · exact (hx 0 1 (by decide)).1
    · exact (hx 1 0 (by decide)).1
  refine ⟨e1, e2, hpow, ?_, ?_⟩
  · show (calculate4x4 propExpm (moved (Spec.Rz (phi * Real.pi / 180)) (plateStack front back ls lbda)) 0 lbda ee').jt = _
    rw [ht]
    change turn2 _ * out.jt * turn2 _ = _
    rw [e1]
    clear_value a b c d out out'
    ext i j
    fin_cases i <;> fin_cases j <;> simp [turn2, Matrix.mul_apply, Fin.sum_univ_two, co, si] <;> ring
  · show (calculate4x4 propExpm (moved (Spec.Rz (phi * Real.pi / 180)) (plateStack front back ls lbda)) 0 lbda ee').jr = _
    rw [hr]
    change turn2 _ * out.jr * turn2 _ = _
    rw [e2]
    clear_value a b c d out out'
    ext i j
    fin_cases i <;> fin_cases j <;> simp [turn2, Matrix.mul_apply, Fin.sum_univ_two, co, si] <;> ring

/-! ## Polarisers -/

lemma normSq_real_mul (x : ℝ) (z : ℂ) : ‖(x : ℂ) * z‖ ^ 2 = x ^ 2 * ‖z‖ ^ 2 := by
  rw [norm_mul, mul_pow, Complex.norm_real, Real.norm_eq_abs, sq_abs]

lemma malus (x : ℝ) (a b : ℂ) (P : ℝ) (J' : Mat2)
    (h : J' = !![(Real.cos x : ℂ) ^ 2 * a + (Real.sin x : ℂ) ^ 2 * b, (Real.sin x : ℂ) * (Real.cos x : ℂ) * (a - b);
      (Real.sin x : ℂ) * (Real.cos x : ℂ) * (a - b), (Real.sin x : ℂ) ^ 2 * a + (Real.cos x : ℂ) ^ 2 * b]) :
    ‖J' 0 1‖ ^ 2 * P = Real.sin (2 * x) ^ 2 / 4 * (‖a - b‖ ^ 2 * P) ∧ ‖J' 1 0‖ ^ 2 * P = ‖J' 0 1‖ ^ 2 * P ∧
    ‖J' 0 0‖ ^ 2 * P + ‖J' 1 0‖ ^ 2 * P = Real.cos x ^ 2 * (‖a‖ ^ 2 * P) + Real.sin x ^ 2 * (‖b‖ ^ 2 * P) ∧
    ‖J' 0 1‖ ^ 2 * P + ‖J' 1 1‖ ^ 2 * P = Real.sin x ^ 2 * (‖a‖ ^ 2 * P) + Real.cos x ^ 2 * (‖b‖ ^ 2 * P) := by
  have hcs := Real.sin_sq_add_cos_sq x
  rw [Real.sin_two_mul, h]
  generalize Real.sin x = s at *
  generalize Real.cos x = c at *
  have hs : s ^ 2 = 1 - c ^ 2 := by linarith
  have e01 : ‖(s : ℂ) * (c : ℂ) * (a - b)‖ ^ 2 = (s * c) ^ 2 * ‖a - b‖ ^ 2 := by
    rw [← Complex.ofReal_mul, normSq_real_mul]
  have key : ∀ u v : ℂ, ∀ p q : ℝ, ‖(p : ℂ) ^ 2 * u + (q : ℂ) ^ 2 * v‖ ^ 2 + (p * q) ^ 2 * ‖u - v‖ ^ 2 =
      (p ^ 2 + q ^ 2) * (p ^ 2 * ‖u‖ ^ 2 + q ^ 2 * ‖v‖ ^ 2) := by
    intro u v p q
    simp only [← Complex.normSq_eq_norm_sq, Complex.normSq_apply]
    simp [← Complex.ofReal_pow]
    ring
  have k1 := key a b c s
  have k2 := key a b s c
  rw [show c ^ 2 + s ^ 2 = 1 by linarith, one_mul] at k1
  rw [hcs, one_mul] at k2
  refine ⟨?_, rfl, ?_, ?_⟩
  · simp only [Matrix.of_apply, Matrix.cons_val', Matrix.cons_val_zero, Matrix.cons_val_one, Matrix.cons_val_fin_one, e01]
    ring
  · simp only [Matrix.of_apply, Matrix.cons_val', Matrix.cons_val_zero, Matrix.cons_val_one, Matrix.cons_val_fin_one, e01]
    linear_combination P * k1
  · simp only [Matrix.of_apply, Matrix.cons_val', Matrix.cons_val_zero, Matrix.cons_val_one, Matrix.cons_val_fin_one, e01]
    linear_combination P * k2

/-- C130 between polarisers: crossed polarisers let `sin²(2 phi) |a - b|² / 4` pass, so nothing with the axes along the polarisers and most at 45°; the whole
transmitted power for p light is the mean of those of the two axes, weighted with `cos²` and `sin²` (Malus). The attribute `T`, which leaves out the crossed
terms, is smaller by `T_ps` than that of the plates with their axes along x and y. -/
theorem C130_polarisers (front back : ℝ → ℂ) (ls : List (SingleMaterial × ℝ)) (h : ∀ p ∈ ls, p.1.rotation = none) (phi lbda : ℝ) (hf : front lbda ≠ 0) (ee ee')
    (jones : Fin 2 → ℂ) :
    ∃ s s', (plainPlates front back ls).stack lbda = some s ∧ (turnedPlates front back ls phi).stack lbda = some s' ∧
      let out := calculate4x4 propExpm s 0 lbda ee
      let out' := calculate4x4 propExpm s' 0 lbda ee'
      let res := Result.mk' out.jr out.jt out.power jones
      let res' := Result.mk' out'.jr out'.jt out'.power jones
      let x := phi * Real.pi / 180
      res'.TMatrix 0 1 = Real.sin (2 * x) ^ 2 / 4 * (‖out.jt 0 0 - out.jt 1 1‖ ^ 2 * res.power) ∧ res'.TMatrix 1 0 = res'.TMatrix 0 1 ∧
      res'.TMatrix 0 0 + res'.TMatrix 1 0 = Real.cos x ^ 2 * res.TMatrix 0 0 + Real.sin x ^ 2 * res.TMatrix 1 1 ∧
      res'.TMatrix 0 1 + res'.TMatrix 1 1 = Real.sin x ^ 2 * res.TMatrix 0 0 + Real.cos x ^ 2 * res.TMatrix 1 1 ∧
      res'.T = res.T - res'.TMatrix 0 1 := by
  obtain ⟨s, s', h1, h2, -, -, h5, h6, -⟩ := C130_azimuth front back ls h phi lbda hf ee ee'
  refine ⟨s, s', h1, h2, ?_⟩
  generalize calculate4x4 propExpm s 0 lbda ee = out at *
  generalize calculate4x4 propExpm s' 0 lbda ee' = out' at *
  obtain ⟨m1, m2, m3, m4⟩ := malus _ _ _ (out.power.getD 1) _ h6
  intro _ _ res res' x
  have r : ∀ i j, res.TMatrix i j = ‖out.jt i j‖ ^ 2 * out.power.getD 1 := fun i j => rfl
  have r' : ∀ i j, res'.TMatrix i j = ‖out'.jt i j‖ ^ 2 * out.power.getD 1 := by
    intro i j
    show ‖out'.jt i j‖ ^ 2 * out'.power.getD 1 = _
    rw [h5]
  have hcs := Real.sin_sq_add_cos_sq x
  simp only [Result.T, r, r']
  refine ⟨m1, m2, m3, m4, ?_⟩
  generalize ‖out.jt 0 0‖ ^ 2 * out.power.getD 1 = A at *
  generalize ‖out.jt 1 1‖ ^ 2 * out.power.getD 1 = B at *
  generalize ‖out'.jt 0 0‖ ^ 2 * out.power.getD 1 = A' at *
  generalize ‖out'.jt 1 1‖ ^ 2 * out.power.getD 1 = B' at *
  generalize ‖out'.jt 0 1‖ ^ 2 * out.power.getD 1 = C' at *
  rw [m2] at m3
  linear_combination (m3 + m4) / 2 + (A + B) / 2 * hcs

lemma jonesTc_entries (J : Mat2) : jonesTc J =
    !![(J 0 0 + J 1 1 + I * (J 0 1 - J 1 0)) / 2, (J 0 0 - J 1 1 - I * (J 0 1 + J 1 0)) / 2;
      (J 0 0 - J 1 1 + I * (J 0 1 + J 1 0)) / 2, (J 0 0 + J 1 1 - I * (J 0 1 - J 1 0)) / 2] := by
  have h2 : (1 / (Real.sqrt 2 : ℂ)) * (1 / (Real.sqrt 2 : ℂ)) = 1 / 2 := by
    rw [div_mul_div_comm, one_mul, ← Complex.ofReal_mul, Real.mul_self_sqrt (by norm_num)]
    norm_num
  rw [jonesTc, circC_inv, circC, Matrix.smul_mul, Matrix.smul_mul, Matrix.mul_smul, smul_smul, h2]
  ext i j
  fin_cases i <;> fin_cases j <;> simp [Matrix.mul_apply, Fin.sum_univ_two, Matrix.vecMul, dotProduct] <;>
    first
    | linear_combination (-J 1 1 / 2) * Complex.I_sq
    | linear_combination (J 1 1 / 2) * Complex.I_sq

/-- C130 for circular light: the plates keep the handedness with the amplitude `(a + b) / 2` at every azimuth and turn it over with the amplitude
`(a - b) / 2`, whose phase is twice the azimuth (the geometric phase of turned plates). -/
theorem C130_circular (front back : ℝ → ℂ) (ls : List (SingleMaterial × ℝ)) (h : ∀ p ∈ ls, p.1.rotation = none) (phi lbda : ℝ) (hf : front lbda ≠ 0) (ee ee') :
    ∃ s s', (plainPlates front back ls).stack lbda = some s ∧ (turnedPlates front back ls phi).stack lbda = some s' ∧
      let out := calculate4x4 propExpm s 0 lbda ee
      let out' := calculate4x4 propExpm s' 0 lbda ee'
      let x := phi * Real.pi / 180
      jonesTc out'.jt = !![(out.jt 0 0 + out.jt 1 1) / 2, (out.jt 0 0 - out.jt 1 1) / 2 * Complex.exp (-(2 * x * I));
        (out.jt 0 0 - out.jt 1 1) / 2 * Complex.exp (2 * x * I), (out.jt 0 0 + out.jt 1 1) / 2] := by
  obtain ⟨s, s', h1, h2, -, -, -, h6, -⟩ := C130_azimuth front back ls h phi lbda hf ee ee'
  refine ⟨s, s', h1, h2, ?_⟩
  generalize calculate4x4 propExpm s 0 lbda ee = out at *
  generalize calculate4x4 propExpm s' 0 lbda ee' = out' at *
  intro _ _ x
  rw [jonesTc_entries, h6]
  have hcs : (Real.sin x : ℂ) ^ 2 + (Real.cos x : ℂ) ^ 2 = 1 := by exact_mod_cast Real.sin_sq_add_cos_sq x
  have e1 : Complex.exp (2 * x * I) = ((Real.cos x : ℂ) + Real.sin x * I) ^ 2 := by
    rw [Complex.ofReal_cos, Complex.ofReal_sin, ← Complex.exp_mul_I, ← Complex.exp_nat_mul]
    congr 1
    push_cast
    ring
  have e2 : Complex.exp (-(2 * x * I)) = ((Real.cos x : ℂ) - Real.sin x * I) ^ 2 := by
    have : (Real.cos x : ℂ) - Real.sin x * I = Complex.exp (-x * I) := by
      rw [Complex.exp_mul_I, Complex.cos_neg, Complex.sin_neg, Complex.ofReal_cos, Complex.ofReal_sin]
      ring
    rw [this, ← Complex.exp_nat_mul]
    congr 1
    push_cast
    ring
  rw [e1, e2]
  have hx : phi * Real.pi / 180 = x := rfl
  rw [hx]
  generalize out.jt 0 0 = a
  generalize out.jt 1 1 = b
  generalize (Real.sin x : ℂ) = si at *
  generalize (Real.cos x : ℂ) = co at *
  ext i j
  fin_cases i <;> fin_cases j <;> simp
  · linear_combination (a + b) * hcs
  · linear_combination (-(a - b) / 2 * si ^ 2) * Complex.I_sq
  · linear_combination (-(a - b) / 2 * si ^ 2) * Complex.I_sq
  · linear_combination (a + b) * hcs

/-- C130, quarter-wave plates: if the amplitudes of the axes differ by the factor `i`, the plates at 45° turn linear light into circular light. -/
theorem C130_quarter_wave (front back : ℝ → ℂ) (ls : List (SingleMaterial × ℝ)) (h : ∀ p ∈ ls, p.1.rotation = none) (lbda : ℝ) (hf : front lbda ≠ 0) (ee ee') :
    ∃ s s', (plainPlates front back ls).stack lbda = some s ∧ (turnedPlates front back ls 45).stack lbda = some s' ∧
      let out := calculate4x4 propExpm s 0 lbda ee
      let out' := calculate4x4 propExpm s' 0 lbda ee'
      (out.jt 1 1 = I * out.jt 0 0 → out'.jt *ᵥ ![1, 0] = (out'.jt 0 0) • ![1, -I]) ∧
      (out.jt 1 1 = -I * out.jt 0 0 → out'.jt *ᵥ ![1, 0] = (out'.jt 0 0) • ![1, I]) := by
  obtain ⟨s, s', h1, h2, -, -, -, h6, -⟩ := C130_azimuth front back ls h 45 lbda hf ee ee'
  refine ⟨s, s', h1, h2, ?_⟩
  generalize calculate4x4 propExpm s 0 lbda ee = out at *
  generalize calculate4x4 propExpm s' 0 lbda ee' = out' at *
  intro _ _
  have hx : (45 : ℝ) * Real.pi / 180 = Real.pi / 4 := by ring
  rw [hx, Real.cos_pi_div_four, Real.sin_pi_div_four] at h6
  have h2 : ((Real.sqrt 2 / 2 : ℝ) : ℂ) * ((Real.sqrt 2 / 2 : ℝ) : ℂ) = 1 / 2 := by
    rw [← Complex.ofReal_mul, div_mul_div_comm, Real.mul_self_sqrt (by norm_num)]
    norm_num
  generalize ((Real.sqrt 2 / 2 : ℝ) : ℂ) = r at *
  generalize out.jt 0 0 = a at *
  generalize out.jt 1 1 = b at *
  rw [h6]
  constructor
  · rintro rfl
    ext i
    fin_cases i <;> simp [Matrix.mulVec, dotProduct]
    linear_combination (a * r ^ 2) * Complex.I_sq
  · rintro rfl
    ext i
    fin_cases i <;> simp [Matrix.mulVec, dotProduct]
    linear_combination (a * r ^ 2) * Complex.I_sq

/-! ## Half-wave plates -/

lemma passive_diag {x y z : ℂ} (hx : 0 ≤ x.im) (hy : 0 ≤ y.im) (hz : 0 ≤ z.im) : Passive (Matrix.diagonal ![x, y, z]) := by
  intro E
  have e : (star E ⬝ᵥ Matrix.diagonal ![x, y, z] *ᵥ E).im = x.im * normSq (E 0) + y.im * normSq (E 1) + z.im * normSq (E 2) := by
    simp [dotProduct, Fin.sum_univ_three, Matrix.mulVec_diagonal, Complex.normSq_apply]
    ring
  rw [e]
  have := Complex.normSq_nonneg (E 0)
  have := Complex.normSq_nonneg (E 1)
  have := Complex.normSq_nonneg (E 2)
  positivity

/-- An isotropic coating. -/
def coating (p : (ℝ → ℂ) × ℝ) : SingleMaterial × ℝ := (isotropicMaterial p.1, p.2)

/-- The tensor of a coating. -/
def coatingLayer (lbda : ℝ) (p : (ℝ → ℂ) × ℝ) : ℝ × Tensor := (p.2, isoTensor (p.1 lbda))

lemma isoTensor_diag (e : ℂ) : Matrix.diagonal ![e, e, e] = isoTensor e := by
  ext i j
  fin_cases i <;> fin_cases j <;> simp [isoTensor]

lemma plateStack_coatings (front back : ℝ → ℂ) (ls : List ((ℝ → ℂ) × ℝ)) (lbda : ℝ) :
    plateStack front back (ls.map coating) lbda = ⟨isoTensor (front lbda), ls.map (coatingLayer lbda), isoTensor (back lbda), true⟩ := by
  simp only [plateStack, List.map_map]
  congr 1
  refine List.map_congr_left fun p _ => ?_
  simp [coating, coatingLayer, isotropicMaterial, isoTensor_diag]

lemma coatings_moved (front back : ℝ → ℂ) (ls : List ((ℝ → ℂ) × ℝ)) (lbda phi : ℝ) :
    moved (Spec.Rz phi) (plateStack front back (ls.map coating) lbda) = plateStack front back (ls.map coating) lbda := by
  rw [plateStack_coatings]
  simp only [moved, List.map_map]
  congr 1
  refine List.map_congr_left fun p _ => ?_
  have hcs : (Real.cos phi : ℂ) ^ 2 + (Real.sin phi : ℂ) ^ 2 = 1 := by exact_mod_cast Real.cos_sq_add_sin_sq phi
  simp only [Function.comp_def, coatingLayer, conj_Rz]
  congr 1
  generalize p.1 lbda = e
  generalize (Real.cos phi : ℂ) = c at *
  generalize (Real.sin phi : ℂ) = s at *
  ext i j
  fin_cases i <;> fin_cases j <;> simp [isoTensor, Matrix.mul_apply, Fin.sum_univ_three, Matrix.vecMul, dotProduct]
  · linear_combination e * hcs
  · ring
  · ring
  · linear_combination e * hcs

/-- Isotropic coatings at normal incidence: one amplitude for both polarisations, with opposite signs in reflection. -/
lemma coatings_normal (front back : ℝ → ℂ) (ls : List ((ℝ → ℂ) × ℝ)) (lbda : ℝ) (hf : front lbda ≠ 0) (ee) :
    let out := calculate4x4 propExpm (plateStack front back (ls.map coating) lbda) 0 lbda ee
    out.jt 1 1 = out.jt 0 0 ∧ out.jr 1 1 = -out.jr 0 0 := by
  intro out
  obtain ⟨ht, hr⟩ := C80_azimuth (plateStack front back (ls.map coating) lbda) rfl (nOf_ne hf) (Real.pi / 2) lbda ee ee
  rw [coatings_moved] at ht hr
  change out.jt = turn2 _ * out.jt * turn2 _ at ht
  change out.jr = turn2 _ * out.jr * turn2 _ at hr
  clear_value out
  have h1 := congrFun (congrFun ht 1) 1
  have h2 := congrFun (congrFun hr 1) 1
  simp [turn2, Matrix.mul_apply, Fin.sum_univ_two, Matrix.vecMul, dotProduct] at h1 h2
  exact ⟨h1, h2⟩

/-- C130, plates that hold a whole number of half waves for each axis, anywhere between isotropic coatings: nothing changes in reflection; if the numbers
differ by an even number nothing changes in transmission but the sign, and if they differ by an odd number the transmitted light is mirrored at the axis of
the plate: linear light at the angle `alpha` leaves at `2 phi - alpha`. `d` is the thickness of the plate, `m`, `m'` the orders. -/
theorem C130_half_wave (front back : ℝ → ℂ) (l₁ l₂ : List ((ℝ → ℂ) × ℝ)) (p : SingleMaterial) (hp : p.rotation = none) (n0 d phi lbda : ℝ) (m m' : ℕ) (ee ee')
    (hn0 : 0 < n0) (hf : front lbda = ((n0 ^ 2 : ℝ) : ℂ)) (hl : 0 < lbda) (hb : back lbda ≠ 0 ∧ 0 ≤ (back lbda).im)
    (hc : ∀ q ∈ l₁ ++ l₂, 0 ≤ q.2 ∧ q.1 lbda ≠ 0 ∧ 0 ≤ (q.1 lbda).im) (hd : 0 ≤ d)
    (hx : p.dispersionX lbda ≠ 0 ∧ 0 ≤ (p.dispersionX lbda).im) (hy : p.dispersionY lbda ≠ 0 ∧ 0 ≤ (p.dispersionY lbda).im)
    (hz : p.dispersionZ lbda ≠ 0 ∧ 0 ≤ (p.dispersionZ lbda).im)
    (hm : 2 * Complex.sqrt (p.dispersionX lbda) * d = m * lbda) (hm' : 2 * Complex.sqrt (p.dispersionY lbda) * d = m' * lbda) :
    ∃ s s', (plainPlates front back ((l₁ ++ l₂).map coating)).stack lbda = some s ∧
      (turnedPlates front back (l₁.map coating ++ (p, d) :: l₂.map coating) phi).stack lbda = some s' ∧
      let out := calculate4x4 propExpm s 0 lbda ee
      let out' := calculate4x4 propExpm s' 0 lbda ee'
      let x := phi * Real.pi / 180
      (Even (m + m') → out'.jt = ((-1) ^ m : ℂ) • out.jt) ∧ out'.jr = out.jr ∧
      (Odd (m + m') → ∀ alpha : ℝ, out'.jt *ᵥ ![(Real.cos alpha : ℂ), (Real.sin alpha : ℂ)] =
        ((-1) ^ m * out.jt 0 0) • ![(Real.cos (2 * x - alpha) : ℂ), (Real.sin (2 * x - alpha) : ℂ)]) := by
  have hf0 : front lbda ≠ 0 := by
    rw [hf]
    exact_mod_cast (pow_pos hn0 2).ne'
  have hrot : ∀ q ∈ l₁.map coating ++ (p, d) :: l₂.map coating, q.1.rotation = none := by
    intro q hq
    simp only [List.mem_append, List.mem_cons, List.mem_map] at hq
    rcases hq with ⟨r, -, rfl⟩ | rfl | ⟨r, -, rfl⟩
    · rfl
    · exact hp
    · rfl
  have hrot0 : ∀ q ∈ (l₁ ++ l₂).map coating, q.1.rotation = none := by
    intro q hq
    obtain ⟨r, -, rfl⟩ := List.mem_map.1 hq
    rfl
  obtain ⟨s1, s', g1, g2, -, e2, -, e4, e5⟩ := C130_azimuth front back _ hrot phi lbda hf0 ee ee'
  rw [plain_stack front back _ hrot] at g1
  obtain rfl := Option.some.inj g1
  refine ⟨_, s', plain_stack front back _ hrot0 lbda, g2, ?_⟩
  have hcl : coatingLayer lbda = fun q => (q.2, isoTensor (q.1 lbda)) := rfl
  set S := plateStack front back (l₁.map coating ++ (p, d) :: l₂.map coating) lbda with hS
  set S0 := plateStack front back ((l₁ ++ l₂).map coating) lbda with hS0
  have hSl : S.layers = l₁.map (coatingLayer lbda) ++ (d, Matrix.diagonal ![p.dispersionX lbda, p.dispersionY lbda, p.dispersionZ lbda]) ::
      l₂.map (coatingLayer lbda) := by
    simp [hS, plateStack, coating, hcl, isotropicMaterial, isoTensor_diag, Function.comp_def]
  have hP : PassiveStack S 0 lbda :=
    { front := ⟨n0, hn0, by simp [hS, plateStack, isoTensor, hf]⟩
      angle := by simp
      lbda_pos := hl
      layers := by
        intro l hlm
        rw [hSl] at hlm
        simp only [List.mem_append, List.mem_cons, List.mem_map] at hlm
        rcases hlm with ⟨q, hq, rfl⟩ | rfl | ⟨q, hq, rfl⟩
        · obtain ⟨a1, a2, a3⟩ := hc q (by simp [hq])
          exact ⟨a1, by simpa [coatingLayer, isoTensor] using a2, passive_isoTensor a3⟩
        · exact ⟨hd, by simpa using hz.1, passive_diag hx.2 hy.2 hz.2⟩
        · obtain ⟨a1, a2, a3⟩ := hc q (by simp [hq])
          exact ⟨a1, by simpa [coatingLayer, isoTensor] using a2, passive_isoTensor a3⟩
      back_ne := by simpa [hS, plateStack, isoTensor] using hb.1
      back_passive := by simpa [hS, plateStack, isoTensor] using hb.2
      iso := rfl }
  have hI := plate_inPlane front back (l₁.map coating ++ (p, d) :: l₂.map coating) lbda
  have hnx : ∀ e : ℂ, nOf (isoTensor e) = Complex.sqrt e := fun e => by simp [nOf, isoTensor]
  have hw : ∀ (e : ℂ) (k : ℕ), e ≠ 0 → 2 * Complex.sqrt e * d = k * lbda →
      (calculate4x4 propExpm (S0.withLayers (l₁.map (coatingLayer lbda) ++ (d, isoTensor e) :: l₂.map (coatingLayer lbda))) 0 lbda ee).jr =
        (calculate4x4 propExpm S0 0 lbda ee).jr ∧
      (calculate4x4 propExpm (S0.withLayers (l₁.map (coatingLayer lbda) ++ (d, isoTensor e) :: l₂.map (coatingLayer lbda))) 0 lbda ee).jt =
        ((-1) ^ k : ℂ) • (calculate4x4 propExpm S0 0 lbda ee).jt := by
    intro e k he hk
    have h0 : S0.withLayers (l₁.map (coatingLayer lbda) ++ l₂.map (coatingLayer lbda)) = S0 := by
      simp [hS0, Stack.withLayers, plateStack, coating, hcl, isotropicMaterial, isoTensor_diag, Function.comp_def]
    have := C43_half_wave S0 (l₁.map (coatingLayer lbda)) (l₂.map (coatingLayer lbda)) e d 0 lbda k ee hl.ne' he
      (by rw [kxOf_zero, cosPhi_zero]; exact one_ne_zero) (by rw [kxOf_zero, cosPhi_zero, hnx, mul_one, hk])
    rwa [h0] at this
  have hiso : ∀ (f : Tensor → ℂ), (∀ e, f (isoTensor e) = e) → ∀ e, f (Matrix.diagonal ![p.dispersionX lbda, p.dispersionY lbda, p.dispersionZ lbda]) = e →
      isotropised f S = S0.withLayers (l₁.map (coatingLayer lbda) ++ (d, isoTensor e) :: l₂.map (coatingLayer lbda)) := by
    intro f h1 e h2
    simp only [isotropised, hSl, Stack.withLayers]
    simp [hS, hS0, plateStack, hcl, h1, h2, Function.comp_def]
  have hp0 := C122_p_normal S lbda ee ee hP hI (by
    intro l hlm
    rw [hSl] at hlm
    simp only [List.mem_append, List.mem_cons, List.mem_map] at hlm
    rcases hlm with ⟨q, hq, rfl⟩ | rfl | ⟨q, hq, rfl⟩
    · simpa [coatingLayer, isoTensor] using (hc q (by simp [hq])).2.1
    · simpa using hx.1
    · simpa [coatingLayer, isoTensor] using (hc q (by simp [hq])).2.1)
  have hs0 := C122_s_light S 0 lbda ee ee hP hI (by
    intro l hlm
    rw [hSl] at hlm
    simp only [List.mem_append, List.mem_cons, List.mem_map] at hlm
    rcases hlm with ⟨q, hq, rfl⟩ | rfl | ⟨q, hq, rfl⟩
    · simpa [coatingLayer, isoTensor] using (hc q (by simp [hq])).2.1
    · simpa using hy.1
    · simpa [coatingLayer, isoTensor] using (hc q (by simp [hq])).2.1)
  rw [hiso (fun e => e 0 0 - e 0 2 * e 2 0 / e 2 2) (by simp [isoTensor]) (p.dispersionX lbda) (by simp), (hw _ m hx.1 hm).1, (hw _ m hx.1 hm).2] at hp0
  rw [hiso (fun e => e 1 1) (by simp [isoTensor]) (p.dispersionY lbda) (by simp), (hw _ m' hy.1 hm').1, (hw _ m' hy.1 hm').2] at hs0
  obtain ⟨n1, n2⟩ := coatings_normal front back (l₁ ++ l₂) lbda hf0 ee
  have hx0 := fun i j (hij : i ≠ j) => C79_no_cross_polarisation S0 rfl (plate_inPlane front back ((l₁ ++ l₂).map coating) lbda) 0 lbda ee i j hij
  have x01 := hx0 0 1 (by decide)
  have x10 := hx0 1 0 (by decide)
  rw [← hS0] at n1 n2
  clear hx0 hiso hw hI hP hSl
  clear_value S S0
  generalize calculate4x4 propExpm S 0 lbda ee = o at *
  generalize calculate4x4 propExpm S0 0 lbda ee = out at *
  generalize calculate4x4 propExpm s' 0 lbda ee' = out' at *
  intro _ _ x
  have hxx : phi * Real.pi / 180 = x := rfl
  have hcs : (Real.sin x : ℂ) ^ 2 + (Real.cos x : ℂ) ^ 2 = 1 := by exact_mod_cast Real.sin_sq_add_cos_sq x
  obtain ⟨hp1, hp2⟩ := hp0
  obtain ⟨hs1, hs2⟩ := hs0
  rw [Matrix.smul_apply, smul_eq_mul] at hp2 hs2
  rw [n1] at hs2
  rw [n2] at hs1
  rw [hxx, hp2, hs2] at e4
  rw [hxx, hp1, hs1] at e5
  have ej : out.jt = !![out.jt 0 0, 0; 0, out.jt 0 0] := by
    ext i j
    fin_cases i <;> fin_cases j <;> simp [x01.2, x10.2, n1]
  have er : out.jr = !![out.jr 0 0, 0; 0, -out.jr 0 0] := by
    ext i j
    fin_cases i <;> fin_cases j <;> simp [x01.1, x10.1, n2]
  have hcs2 : ∀ alpha : ℝ, ((Real.cos (2 * x - alpha) : ℝ) : ℂ) =
      ((Real.cos x : ℂ) ^ 2 - (Real.sin x : ℂ) ^ 2) * (Real.cos alpha : ℂ) + 2 * (Real.sin x : ℂ) * (Real.cos x : ℂ) * (Real.sin alpha : ℂ) := by
    intro alpha
    rw [Real.cos_sub, Real.cos_two_mul', Real.sin_two_mul]
    push_cast
    ring
  have hsn2 : ∀ alpha : ℝ, ((Real.sin (2 * x - alpha) : ℝ) : ℂ) =
      2 * (Real.sin x : ℂ) * (Real.cos x : ℂ) * (Real.cos alpha : ℂ) - ((Real.cos x : ℂ) ^ 2 - (Real.sin x : ℂ) ^ 2) * (Real.sin alpha : ℂ) := by
    intro alpha
    rw [Real.sin_sub, Real.cos_two_mul', Real.sin_two_mul]
    push_cast
    ring
  simp only [hcs2, hsn2]
  refine ⟨fun hev => ?_, ?_, fun hodd alpha => ?_⟩
  · have hsg : ((-1) ^ m' : ℂ) = (-1) ^ m := by
      have := hev.neg_one_pow (α := ℂ)
      rw [pow_add] at this
      rcases neg_one_pow_eq_or ℂ m with h | h <;> rcases neg_one_pow_eq_or ℂ m' with h' | h' <;> rw [h, h'] at this ⊢ <;> norm_num at this
    rw [e4, hsg, ej]
    generalize (Real.sin x : ℂ) = si at *
    generalize (Real.cos x : ℂ) = co at *
    generalize ((-1) ^ m : ℂ) = sg
    generalize out.jt 0 0 = t
    ext i j
    fin_cases i <;> fin_cases j <;> simp <;> linear_combination sg * t * hcs
  · rw [e5, er]
    generalize (Real.sin x : ℂ) = si at *
    generalize (Real.cos x : ℂ) = co at *
    generalize out.jr 0 0 = t
    ext i j
    fin_cases i <;> fin_cases j <;> simp
    · linear_combination t * hcs
    · linear_combination -t * hcs
  · have hsg : ((-1) ^ m' : ℂ) = -(-1) ^ m := by
      have := hodd.neg_one_pow (α := ℂ)
      rw [pow_add] at this
      rcases neg_one_pow_eq_or ℂ m with h | h <;> rcases neg_one_pow_eq_or ℂ m' with h' | h' <;> rw [h, h'] at this ⊢ <;> first | (norm_num at this; done) | norm_num
    rw [e4, hsg]
    generalize (Real.sin x : ℂ) = si at *
    generalize (Real.cos x : ℂ) = co at *
    generalize ((-1) ^ m : ℂ) = sg
    generalize out.jt 0 0 = t
    generalize (Real.sin alpha : ℂ) = sa
    generalize (Real.cos alpha : ℂ) = ca
    ext i
    fin_cases i <;> simp [Matrix.mulVec, dotProduct] <;> ring

/-! ## A plate in vacuum

Permittivities 4, 1, 1, thickness 150 nm, light of 600 nm: one half wave along x and a quarter wave along y. At twice the thickness the orders are 2 and 1. -/

/-- The crystal of the examples. -/
noncomputable def demoCrystal : SingleMaterial := biaxialMaterial (fun _ => 4) (fun _ => 1) (fun _ => 1)

lemma csqrt_four : Complex.sqrt 4 = 2 := by
  have := csqrt_ofReal (x := 4) (by norm_num)
  rw [show (4 : ℝ) = 2 ^ 2 by norm_num, Real.sqrt_sq (by norm_num)] at this
  norm_num at this
  exact this

/-- The empty structure transmits everything. -/
lemma vacuum_jt (ee) : (calculate4x4 propExpm (plateStack (fun _ => 1) (fun _ => 1) [] 600) 0 600 ee).jt 0 0 = 1 ∧
    (calculate4x4 propExpm (plateStack (fun _ => 1) (fun _ => 1) [] 600) 0 600 ee).jt 1 1 = 1 := by
  have hn : nOf (isoTensor 1) = 1 := by simp [nOf, isoTensor]
  have h := C32_fresnel_4x4 (plateStack (fun _ => 1) (fun _ => 1) [] 600) 0 600 ee rfl rfl (nOf_ne one_ne_zero)
    (by rw [kxOf_zero, cosPhi_zero]; exact one_ne_zero) (by simp only [kxOf_zero, cosPhi_zero, plateStack, hn]; norm_num)
    (by simp only [kxOf_zero, cosPhi_zero, plateStack, hn]; norm_num)
  simp only [kxOf_zero, cosPhi_zero, plateStack, hn] at h ⊢
  generalize calculate4x4 propExpm _ 0 600 ee = out at *
  obtain ⟨⟨h1, h2⟩, ⟨h3, h4⟩⟩ := h
  constructor
  · linear_combination (-1 / 2) * (h3 + h4)
  · linear_combination (-1 / 2) * (h1 + h2)

/-- The amplitudes of the two axes of the quarter-wave plate. -/
lemma demo_amplitudes (ee) :
    (calculate4x4 propExpm (plateStack (fun _ => 1) (fun _ => 1) [(demoCrystal, 150)] 600) 0 600 ee).jt 0 0 = -1 ∧
    (calculate4x4 propExpm (plateStack (fun _ => 1) (fun _ => 1) [(demoCrystal, 150)] 600) 0 600 ee).jt 1 1 = I := by
  set S := plateStack (fun _ => 1) (fun _ => 1) [(demoCrystal, 150)] 600 with hS
  set S0 := plateStack (fun _ => 1) (fun _ => 1) [] 600 with hS0
  have hn1 : nOf (isoTensor 1) = 1 := by simp [nOf, isoTensor]
  have hn4 : nOf (isoTensor 4) = 2 := by simp [nOf, isoTensor, csqrt_four]
  have hP : PassiveStack S 0 600 :=
    { front := ⟨1, one_pos, by simp [hS, plateStack, isoTensor]⟩
      angle := by simp
      lbda_pos := by norm_num
      layers := by
        intro l hl
        simp only [hS, plateStack, List.map_cons, List.map_nil, List.mem_singleton] at hl
        subst hl
        exact ⟨by norm_num, by simp [demoCrystal, biaxialMaterial], passive_diag (by simp [demoCrystal, biaxialMaterial])
          (by simp [demoCrystal, biaxialMaterial]) (by simp [demoCrystal, biaxialMaterial])⟩
      back_ne := by simp [hS, plateStack, isoTensor]
      back_passive := by simp [hS, plateStack, isoTensor]
      iso := rfl }
  have hI := plate_inPlane (fun _ => 1) (fun _ => 1) [(demoCrystal, 150)] 600
  have h1 := (C122_p_normal S 600 ee ee hP hI (by simp [hS, plateStack, demoCrystal, biaxialMaterial])).2
  have h2 := (C122_s_light S 0 600 ee ee hP hI (by simp [hS, plateStack, demoCrystal, biaxialMaterial])).2
  obtain ⟨v1, v2⟩ := vacuum_jt ee
  have e1 : isotropised (fun e => e 0 0 - e 0 2 * e 2 0 / e 2 2) S = S0.withLayers ([] ++ (150, isoTensor 4) :: []) := by
    simp [isotropised, hS, hS0, plateStack, Stack.withLayers, demoCrystal, biaxialMaterial]
  have e2 : isotropised (fun e => e 1 1) S = { S0 with layers := S0.layers ++ [(150, isoTensor (S0.back 0 0))] } := by
    simp [isotropised, hS, hS0, plateStack, demoCrystal, biaxialMaterial, isoTensor]
  have g1 := (C43_half_wave S0 [] [] 4 150 0 600 1 ee (by norm_num) (by norm_num) (by rw [kxOf_zero, cosPhi_zero]; exact one_ne_zero)
    (by rw [kxOf_zero, cosPhi_zero, hn4]; norm_num)).2
  have g2 := (C82_exit_side S0 150 0 600 ee ee rfl (nOf_ne one_ne_zero) (by rw [kxOf_zero, cosPhi_zero]; exact one_ne_zero)).2.1
  have hph : Complex.exp (I * slabPhase (kxOf S0 0) S0.back 150 600) = I := by
    have : I * slabPhase (kxOf S0 0) S0.back 150 600 = Real.pi / 2 * I := by
      rw [slabPhase, kxOf_zero, cosPhi_zero, show nOf S0.back = 1 from hn1]
      push_cast
      ring
    rw [this, Complex.exp_pi_div_two_mul_I]
  rw [h1, h2, e1, e2, g1, g2, hph]
  have h0 : S0.withLayers ([] ++ []) = S0 := rfl
  rw [h0, Matrix.smul_apply, Matrix.smul_apply, v1, v2]
  simp

/-- The hypotheses of `C130_azimuth`, `C130_polarisers`, `C130_circular` and `C130_quarter_wave` hold for the plate, the two amplitudes differ by the factor
`-i`, and between crossed polarisers at 45° it transmits half of the light. -/
example (ee ee') (jones : Fin 2 → ℂ) : (∀ p ∈ [(demoCrystal, (150 : ℝ))], p.1.rotation = none) ∧
    ∃ s s', (plainPlates (fun _ => 1) (fun _ => 1) [(demoCrystal, 150)]).stack 600 = some s ∧
      (turnedPlates (fun _ => 1) (fun _ => 1) [(demoCrystal, 150)] 45).stack 600 = some s' ∧
      (calculate4x4 propExpm s 0 600 ee).jt 1 1 = -I * (calculate4x4 propExpm s 0 600 ee).jt 0 0 ∧
      (Result.mk' (calculate4x4 propExpm s' 0 600 ee').jr (calculate4x4 propExpm s' 0 600 ee').jt (some 1) jones).TMatrix 0 1 = 1 / 2 := by
  have h : ∀ p ∈ [(demoCrystal, (150 : ℝ))], p.1.rotation = none := by simp [demoCrystal, biaxialMaterial]
  obtain ⟨a1, a2⟩ := demo_amplitudes ee
  obtain ⟨s, s', h1, h2, -, -, -, h6, -⟩ := C130_azimuth (fun _ => 1) (fun _ => 1) _ h 45 600 one_ne_zero ee ee'
  rw [plain_stack _ _ _ h] at h1
  obtain rfl := Option.some.inj h1
  refine ⟨h, _, s', plain_stack _ _ _ h _, h2, by rw [a1, a2]; ring, ?_⟩
  rw [a1, a2] at h6
  have hx : (45 : ℝ) * Real.pi / 180 = Real.pi / 4 := by ring
  rw [hx] at h6
  have m := (malus _ _ _ 1 _ h6).1
  rw [show 2 * (Real.pi / 4) = Real.pi / 2 by ring, Real.sin_pi_div_two] at m
  have hn : ‖(-1 : ℂ) - I‖ ^ 2 = 2 := by
    rw [← Complex.normSq_eq_norm_sq, Complex.normSq_apply]
    norm_num
  rw [hn] at m
  show ‖(calculate4x4 propExpm s' 0 600 ee').jt 0 1‖ ^ 2 * 1 = _
  rw [m]
  norm_num

/-- `C130_half_wave` applies to the plate of 300 nm with a coating of index 2, and turns light at 0° by 45° when its axis is at 22.5°. -/
example : demoCrystal.rotation = none ∧ (1 : ℂ) = ((1 ^ 2 : ℝ) : ℂ) ∧ ((9 / 4 : ℂ) ≠ 0 ∧ 0 ≤ (9 / 4 : ℂ).im) ∧
    (∀ q ∈ ([((fun _ => 4 : ℝ → ℂ), (100 : ℝ))] ++ [] : List ((ℝ → ℂ) × ℝ)), 0 ≤ q.2 ∧ q.1 600 ≠ 0 ∧ 0 ≤ (q.1 600).im) ∧
    (demoCrystal.dispersionX 600 ≠ 0 ∧ 0 ≤ (demoCrystal.dispersionX 600).im) ∧ (demoCrystal.dispersionY 600 ≠ 0 ∧ 0 ≤ (demoCrystal.dispersionY 600).im) ∧
    2 * Complex.sqrt (demoCrystal.dispersionX 600) * ((300 : ℝ) : ℂ) = ((2 : ℕ) : ℂ) * ((600 : ℝ) : ℂ) ∧
    2 * Complex.sqrt (demoCrystal.dispersionY 600) * ((300 : ℝ) : ℂ) = ((1 : ℕ) : ℂ) * ((600 : ℝ) : ℂ) ∧ Odd (2 + 1) := by
  refine ⟨rfl, by simp, by norm_num, by simp, by simp [demoCrystal, biaxialMaterial], by simp [demoCrystal, biaxialMaterial], ?_, ?_, by decide⟩
  · simp only [demoCrystal, biaxialMaterial, csqrt_four]
    norm_num
  · simp only [demoCrystal, biaxialMaterial]
    norm_num

end PyElli
