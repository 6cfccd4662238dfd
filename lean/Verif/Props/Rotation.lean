import Verif.Lemmas.Rotation
import Verif.Model.Materials
import Mathlib.Tactic

/-! # Rotations and rotated tensors (C15 - C18) -/

namespace PyElli

open Matrix Spec

/-! ## C17 -/

/-- C17: the Euler matrix is `Rz(p) Rx(n) Rz(r)`. -/
theorem C17_euler_product (p n r : ℝ) :
    rotationEuler p n r =
      Rz (p * Real.pi / 180) * Rx (n * Real.pi / 180) * Rz (r * Real.pi / 180) := by
  unfold rotationEuler deg2rad Rz Rx
  ext i j
  fin_cases i <;> fin_cases j <;>
    simp [Matrix.mul_apply, Fin.sum_univ_three] <;> ring

lemma Rz_inv (a : ℝ) : Rz a * Rz (-a) = 1 := by
  have := Real.sin_sq_add_cos_sq a
  unfold Rz
  ext i j
  fin_cases i <;> fin_cases j <;>
    simp [Matrix.mul_apply, Fin.sum_univ_three] <;> nlinarith

lemma Rx_inv (a : ℝ) : Rx a * Rx (-a) = 1 := by
  have := Real.sin_sq_add_cos_sq a
  unfold Rx
  ext i j
  fin_cases i <;> fin_cases j <;>
    simp [Matrix.mul_apply, Fin.sum_univ_three] <;> nlinarith

lemma Rz_transpose (a : ℝ) : (Rz a)ᵀ = Rz (-a) := by
  unfold Rz
  ext i j
  fin_cases i <;> fin_cases j <;> simp

lemma Rx_transpose (a : ℝ) : (Rx a)ᵀ = Rx (-a) := by
  unfold Rx
  ext i j
  fin_cases i <;> fin_cases j <;> simp

/-- C17: the reversed, negated angles undo the rotation, on both sides. -/
theorem C17_euler_inverse (p n r : ℝ) :
    rotationEuler p n r * rotationEuler (-r) (-n) (-p) = 1 ∧
      rotationEuler (-r) (-n) (-p) * rotationEuler p n r = 1 := by
  have key : ∀ p n r : ℝ, rotationEuler p n r * rotationEuler (-r) (-n) (-p) = 1 := by
    intro p n r
    rw [C17_euler_product, C17_euler_product]
    have e1 : -r * Real.pi / 180 = -(r * Real.pi / 180) := by ring
    have e2 : -n * Real.pi / 180 = -(n * Real.pi / 180) := by ring
    have e3 : -p * Real.pi / 180 = -(p * Real.pi / 180) := by ring
    rw [e1, e2, e3]
    set A := Rz (p * Real.pi / 180)
    set B := Rx (n * Real.pi / 180)
    set C := Rz (r * Real.pi / 180)
    calc A * B * C * (Rz (-(r * Real.pi / 180)) * Rx (-(n * Real.pi / 180)) * Rz (-(p * Real.pi / 180)))
        = A * B * (C * Rz (-(r * Real.pi / 180))) * Rx (-(n * Real.pi / 180)) * Rz (-(p * Real.pi / 180)) := by
          simp only [Matrix.mul_assoc]
      _ = A * (B * Rx (-(n * Real.pi / 180))) * Rz (-(p * Real.pi / 180)) := by
          rw [Rz_inv, Matrix.mul_one]
          simp only [Matrix.mul_assoc]
      _ = 1 := by rw [Rx_inv, Matrix.mul_one, Rz_inv]
  refine ⟨key p n r, ?_⟩
  have := key (-r) (-n) (-p)
  simpa using this

/-- C17: `rotation_euler` is a proper rotation. -/
theorem C17_euler_proper (p n r : ℝ) : IsProperRotation (rotationEuler p n r) := by
  have ht : (rotationEuler p n r)ᵀ = rotationEuler (-r) (-n) (-p) := by
    rw [C17_euler_product, C17_euler_product, Matrix.transpose_mul, Matrix.transpose_mul,
      Rz_transpose, Rz_transpose, Rx_transpose, ← Matrix.mul_assoc]
    congr 1
    · congr 1
      · congr 1; ring
      · congr 1; ring
    · congr 1; ring
  refine ⟨?_, ?_, ?_⟩
  · rw [ht]; exact (C17_euler_inverse p n r).1
  · rw [ht]; exact (C17_euler_inverse p n r).2
  · have dz : ∀ a, (Rz a).det = 1 := by
      intro a
      have := Real.sin_sq_add_cos_sq a
      unfold Rz
      rw [Matrix.det_fin_three]
      simp
      nlinarith
    have dx : ∀ a, (Rx a).det = 1 := by
      intro a
      have := Real.sin_sq_add_cos_sq a
      unfold Rx
      rw [Matrix.det_fin_three]
      simp
      nlinarith
    rw [C17_euler_product, Matrix.det_mul, Matrix.det_mul, dz, dx, dz]
    norm_num

/-! ## C18 -/

/-- C18: `rotation_v_theta` for a unit axis is a proper rotation. -/
theorem C18_axis_proper (v : Fin 3 → ℝ) (h : IsUnitAxis v) (theta : ℝ) :
    IsProperRotation (rotationVTheta v theta) := by
  have ho := exp_mW_orth (fun i => deg2rad theta * v i)
  rw [mW_smul, ← rotationVTheta_eq_exp v h] at ho
  exact ⟨ho.1, ho.2, det_rodrigues v h _⟩

/-- C18: it fixes its axis. -/
theorem C18_axis_fixed (v : Fin 3 → ℝ) (theta : ℝ) :
    (rotationVTheta v theta).mulVec v = v := by
  have hw : (mW v).mulVec v = 0 := by
    unfold mW
    ext i
    fin_cases i <;> simp [Matrix.mulVec, dotProduct, Fin.sum_univ_three] <;> ring
  unfold rotationVTheta
  rw [Matrix.add_mulVec, Matrix.add_mulVec, Matrix.one_mulVec, Matrix.smul_mulVec,
    Matrix.smul_mulVec, pow_two, ← Matrix.mulVec_mulVec, hw]
  simp

/-- C18: the rotation angle is `theta` in the right-handed sense: a vector orthogonal to the axis turns
towards `v × x` by `theta` degrees. -/
theorem C18_axis_angle (v x : Fin 3 → ℝ) (h : IsUnitAxis v)
    (hx : v 0 * x 0 + v 1 * x 1 + v 2 * x 2 = 0) (theta : ℝ) :
    (rotationVTheta v theta).mulVec x =
      Real.cos (theta * Real.pi / 180) • x + Real.sin (theta * Real.pi / 180) • (cross v).mulVec x := by
  have hw : (mW v ^ 2).mulVec x = -x := by
    unfold IsUnitAxis at h
    rw [mW_sq]
    ext i
    fin_cases i <;> simp [Matrix.mulVec, dotProduct, Fin.sum_univ_three]
    · linear_combination (v 0) * hx - (x 0) * h
    · linear_combination (v 1) * hx - (x 1) * h
    · linear_combination (v 2) * hx - (x 2) * h
  unfold rotationVTheta deg2rad
  rw [Matrix.add_mulVec, Matrix.add_mulVec, Matrix.one_mulVec, Matrix.smul_mulVec,
    Matrix.smul_mulVec, hw, mW_eq_cross]
  ext i
  simp
  ring

/-- C18: rotations about one axis add their angles. -/
theorem C18_axis_add (v : Fin 3 → ℝ) (h : IsUnitAxis v) (a b : ℝ) :
    rotationVTheta v a * rotationVTheta v b = rotationVTheta v (a + b) := by
  rw [rotationVTheta_eq_exp v h, rotationVTheta_eq_exp v h, rotationVTheta_eq_exp v h,
    ← Matrix.exp_add_of_commute, ← add_smul]
  · congr 2
    unfold deg2rad
    ring
  · exact ((Commute.refl (mW v)).smul_left _).smul_right _

/-- C18: the inverse rotation is `(v, -theta)`. -/
theorem C18_axis_inverse (v : Fin 3 → ℝ) (h : IsUnitAxis v) (theta : ℝ) :
    rotationVTheta v theta * rotationVTheta v (-theta) = 1 := by
  rw [C18_axis_add v h, add_neg_cancel]
  simp [rotationVTheta, deg2rad]

/-- C18: `rotation_v_theta(v, theta) = rotation_v(v * theta in radians)`. -/
theorem C18_axis_vector_agree (v : Fin 3 → ℝ) (h : IsUnitAxis v) (theta : ℝ) :
    rotationV (fun i => theta * Real.pi / 180 * v i) = rotationVTheta v theta := by
  rw [rotationVTheta_eq_exp v h, rotationV, mW_smul]
  congr 2
  unfold deg2rad
  ring

/-- C18: `rotation_v` is a proper rotation for every vector. -/
theorem C18_vector_proper (v : Fin 3 → ℝ) : IsProperRotation (rotationV v) := by
  obtain ⟨t, u, hu, rfl⟩ := axis_decomp v
  have e : (fun i => t * u i) = (fun i => (t * 180 / Real.pi) * Real.pi / 180 * u i) := by
    ext i
    have := Real.pi_ne_zero
    field_simp
  rw [e, C18_axis_vector_agree u hu]
  exact C18_axis_proper u hu _

/-- C18: `rotation_v(-v)` undoes `rotation_v(v)`. -/
theorem C18_vector_inverse (v : Fin 3 → ℝ) :
    rotationV v * rotationV (fun i => -v i) = 1 ∧ rotationV (fun i => -v i) * rotationV v = 1 := by
  have e : rotationV (fun i => -v i) = (rotationV v)ᵀ := by
    unfold rotationV
    rw [← Matrix.exp_transpose, mW_transpose]
    congr 1
    have := mW_smul (-1) v
    simpa using this
  rw [e]
  exact ⟨(C18_vector_proper v).1, (C18_vector_proper v).2.1⟩

example : IsUnitAxis ![1 / 3, 2 / 3, 2 / 3] := by
  simp [IsUnitAxis]; norm_num

example : IsUnitAxis ![0, 0, 1] ∧
    (![0, 0, 1] : Fin 3 → ℝ) 0 * (![1, 2, 0] : Fin 3 → ℝ) 0 + (![0, 0, 1] : Fin 3 → ℝ) 1 * (![1, 2, 0] : Fin 3 → ℝ) 1
      + (![0, 0, 1] : Fin 3 → ℝ) 2 * (![1, 2, 0] : Fin 3 → ℝ) 2 = 0 := by
  simp [IsUnitAxis]

/-! ## C15, C16 -/

/-- The rotations a user can build with the package. -/
inductive BuiltRotation : Mat3 → Prop
  | euler (p n r : ℝ) : BuiltRotation (rotationEuler p n r)
  | vector (v : Fin 3 → ℝ) : BuiltRotation (rotationV v)
  | axis (v : Fin 3 → ℝ) (h : IsUnitAxis v) (theta : ℝ) : BuiltRotation (rotationVTheta v theta)

lemma BuiltRotation.proper {R : Mat3} (h : BuiltRotation R) : IsProperRotation R := by
  cases h with
  | euler p n r => exact C17_euler_proper p n r
  | vector v => exact C18_vector_proper v
  | axis v h t => exact C18_axis_proper v h t

lemma proper_complex {R : Mat3} (h : IsProperRotation R) :
    (R.map Complex.ofReal)ᵀ * R.map Complex.ofReal = 1 ∧
    R.map Complex.ofReal * (R.map Complex.ofReal)ᵀ = 1 ∧ (R.map Complex.ofReal).det = 1 := by
  obtain ⟨h1, h2, h3⟩ := h
  have m : ∀ A B : Mat3, (A * B).map Complex.ofReal = A.map Complex.ofReal * B.map Complex.ofReal :=
    fun A B => Matrix.map_mul (f := Complex.ofRealHom)
  refine ⟨?_, ?_, ?_⟩
  · rw [← Matrix.transpose_map, ← m, h2]
    ext i j
    by_cases hij : i = j <;> simp [Matrix.one_apply, hij]
  · rw [← Matrix.transpose_map, ← m, h1]
    ext i j
    by_cases hij : i = j <;> simp [Matrix.one_apply, hij]
  · have := RingHom.map_det Complex.ofRealHom R
    rw [h3] at this
    exact this.symm.trans (by simp)

/-- C15: for every rotation the package produces, the tensor stays symmetric and keeps trace and determinant;
the principal values are kept: `det (eps - x)` is the same polynomial in `x`. -/
theorem C15_rotated_tensor (m : SingleMaterial) (R : Mat3) (hR : BuiltRotation R) (lbda : ℝ) :
    let e := (m.setRotation R).getTensor lbda
    eᵀ = e ∧ e.trace = m.dispersionX lbda + m.dispersionY lbda + m.dispersionZ lbda ∧
      e.det = m.dispersionX lbda * m.dispersionY lbda * m.dispersionZ lbda ∧
      ∀ x : ℂ, (e - x • (1 : Tensor)).det =
        (m.dispersionX lbda - x) * (m.dispersionY lbda - x) * (m.dispersionZ lbda - x) := by
  intro e
  obtain ⟨h1, h2, h3⟩ := proper_complex hR.proper
  set Rc := R.map Complex.ofReal with hRc
  set D : Tensor := Matrix.diagonal ![m.dispersionX lbda, m.dispersionY lbda, m.dispersionZ lbda] with hD
  have he : e = Rc * D * Rcᵀ := rfl
  refine ⟨?_, ?_, ?_, ?_⟩
  · rw [he, Matrix.transpose_mul, Matrix.transpose_mul, Matrix.transpose_transpose, hD,
      Matrix.diagonal_transpose, Matrix.mul_assoc]
  · rw [he, Matrix.mul_assoc, Matrix.trace_mul_comm, Matrix.mul_assoc, h1, Matrix.mul_one, hD]
    simp [Matrix.trace, Fin.sum_univ_three]
  · rw [he, Matrix.det_mul, Matrix.det_mul, Matrix.det_transpose, h3, hD, Matrix.det_diagonal]
    simp [Fin.prod_univ_three]
  · intro x
    have : e - x • (1 : Tensor) = Rc * (D - x • (1 : Tensor)) * Rcᵀ := by
      rw [he, Matrix.mul_sub, Matrix.sub_mul, Matrix.mul_smul, Matrix.mul_one, Matrix.smul_mul, h2]
    rw [this, Matrix.det_mul, Matrix.det_mul, Matrix.det_transpose, h3]
    have e2 : D - x • (1 : Tensor) = Matrix.diagonal ![m.dispersionX lbda - x, m.dispersionY lbda - x,
        m.dispersionZ lbda - x] := by
      rw [hD]
      ext i j
      fin_cases i <;> fin_cases j <;> simp
    rw [e2, Matrix.det_diagonal]
    simp [Fin.prod_univ_three]

/-- The principal axis `i` of the unrotated material, carried along by the rotation `R`. -/
private def carried (R : Mat3) (i : Fin 3) : Fin 3 → ℂ := fun j => (R j i : ℂ)

lemma rotated_axis (m : SingleMaterial) (R : Mat3) (hR : BuiltRotation R) (lbda : ℝ) (i : Fin 3) :
    (m.setRotation R).getTensor lbda *ᵥ carried R i =
      (![m.dispersionX lbda, m.dispersionY lbda, m.dispersionZ lbda] i) • carried R i := by
  obtain ⟨h1, -, -⟩ := proper_complex hR.proper
  have hc : carried R i = R.map Complex.ofReal *ᵥ Pi.single i 1 := by
    ext j
    simp [carried, Matrix.mulVec_single]
  show (R.map Complex.ofReal * Matrix.diagonal ![m.dispersionX lbda, m.dispersionY lbda, m.dispersionZ lbda] *
    (R.map Complex.ofReal)ᵀ) *ᵥ carried R i = _
  rw [hc, Matrix.mulVec_mulVec, Matrix.mul_assoc, h1, Matrix.mul_one, ← Matrix.mulVec_mulVec, ← Matrix.mulVec_smul]
  congr 1
  ext j
  rw [Matrix.mulVec_diagonal]
  by_cases hij : j = i
  · subst hij; simp
  · simp [hij]

/-- C15, meaning of the constructors: in a uniaxial material the extraordinary permittivity acts along z, the ordinary one along x and y; in a biaxial
material the three permittivities act along x, y and z; after `set_rotation R` they act along the images of these axes, `R j i` being component `j` of the image of
axis `i`. -/
theorem C15_principal_axes (o e x y z : ℝ → ℂ) (R : Mat3) (hR : BuiltRotation R) (lbda : ℝ) :
    (uniaxialMaterial o e).getTensor lbda = !![o lbda, 0, 0; 0, o lbda, 0; 0, 0, e lbda] ∧
    (biaxialMaterial x y z).getTensor lbda = !![x lbda, 0, 0; 0, y lbda, 0; 0, 0, z lbda] ∧
    (∀ j, (((uniaxialMaterial o e).setRotation R).getTensor lbda *ᵥ fun k => (R k 2 : ℂ)) j = e lbda * R j 2) ∧
    (∀ i : Fin 3, i ≠ 2 → ∀ j, (((uniaxialMaterial o e).setRotation R).getTensor lbda *ᵥ fun k => (R k i : ℂ)) j = o lbda * R j i) ∧
    (∀ j, (((biaxialMaterial x y z).setRotation R).getTensor lbda *ᵥ fun k => (R k 0 : ℂ)) j = x lbda * R j 0) ∧
    (∀ j, (((biaxialMaterial x y z).setRotation R).getTensor lbda *ᵥ fun k => (R k 1 : ℂ)) j = y lbda * R j 1) ∧
    (∀ j, (((biaxialMaterial x y z).setRotation R).getTensor lbda *ᵥ fun k => (R k 2 : ℂ)) j = z lbda * R j 2) := by
  have key : ∀ (m : SingleMaterial) (i j : Fin 3), ((m.setRotation R).getTensor lbda *ᵥ fun k => (R k i : ℂ)) j =
      ![m.dispersionX lbda, m.dispersionY lbda, m.dispersionZ lbda] i * R j i := fun m i j => by
    have := congrFun (rotated_axis m R hR lbda i) j
    exact this
  refine ⟨?_, ?_, fun j => key (uniaxialMaterial o e) 2 j, fun i hi j => ?_, fun j => key (biaxialMaterial x y z) 0 j,
    fun j => key (biaxialMaterial x y z) 1 j, fun j => key (biaxialMaterial x y z) 2 j⟩
  · ext i j
    fin_cases i <;> fin_cases j <;> simp [SingleMaterial.getTensor, uniaxialMaterial]
  · ext i j
    fin_cases i <;> fin_cases j <;> simp [SingleMaterial.getTensor, biaxialMaterial]
  · have := key (uniaxialMaterial o e) i j
    fin_cases i
    · simpa [uniaxialMaterial] using this
    · simpa [uniaxialMaterial] using this
    · exact absurd rfl hi

/-- C16: an isotropic material ignores every rotation built with the package. -/
theorem C16_isotropic_ignores_rotation (d : ℝ → ℂ) (R : Mat3) (hR : BuiltRotation R) (lbda : ℝ) :
    ((isotropicMaterial d).setRotation R).getTensor lbda = (isotropicMaterial d).getTensor lbda := by
  obtain ⟨h1, h2, h3⟩ := proper_complex hR.proper
  simp only [SingleMaterial.setRotation, isotropicMaterial, SingleMaterial.getTensor]
  have e : Matrix.diagonal ![d lbda, d lbda, d lbda] = d lbda • (1 : Tensor) := by
    ext i j
    fin_cases i <;> fin_cases j <;> simp
  rw [e, Matrix.mul_smul, Matrix.mul_one, Matrix.smul_mul, h2]

/-- C16: after any non-empty sequence of `set_rotation` calls the tensor is that of the last rotation alone. -/
theorem C16_last_rotation_wins (m : SingleMaterial) (Rs : List Mat3) (R : Mat3) (lbda : ℝ) :
    (((Rs ++ [R]).foldl SingleMaterial.setRotation m).getTensor lbda) =
      (m.setRotation R).getTensor lbda := by
  have key : ∀ (Rs : List Mat3) (m : SingleMaterial),
      (Rs.foldl SingleMaterial.setRotation m).setRotation R = m.setRotation R := by
    intro Rs
    induction Rs with
    | nil => intro m; rfl
    | cons a t ih => intro m; rw [List.foldl_cons, ih]; rfl
  rw [List.foldl_append]
  simp only [List.foldl_cons, List.foldl_nil]
  rw [key]

lemma euler90 : rotationEuler 90 0 0 = !![0, -1, 0; 1, 0, 0; 0, 0, 1] := by
  have e : (90 : ℝ) * (Real.pi / 180) = Real.pi / 2 := by ring
  unfold rotationEuler deg2rad
  ext i j
  fin_cases i <;> fin_cases j <;> simp [e]

/-- C16: rotations do not accumulate: rotating twice by 90 degrees about z is not a rotation by 180 degrees. -/
theorem C16_rotations_do_not_compose :
    ∃ (m : SingleMaterial) (R : Mat3), BuiltRotation R ∧ 
      ((m.setRotation R).setRotation R).getTensor 0 ≠ (m.setRotation (R * R)).getTensor 0 := by
  refine ⟨biaxialMaterial (fun _ => 1) (fun _ => 2) (fun _ => 3), rotationEuler 90 0 0, .euler _ _ _, ?_⟩
  rw [euler90]
  intro h
  have h1 := congrFun (congrFun h 0) 0
  simp [SingleMaterial.setRotation, SingleMaterial.getTensor, biaxialMaterial,
    Matrix.mul_apply, Fin.sum_univ_three, Matrix.diagonal, Matrix.map_apply] at h1

example : BuiltRotation (rotationEuler 10 20 30) := .euler _ _ _

end PyElli
