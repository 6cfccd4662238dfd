import Verif.Lemmas.Symmetry
import Verif.Spec.Symmetry
import Verif.Props.Energy
import Verif.Props.SolverLaws
import Verif.Props.Structure

/-! # Symmetries of `Solver4x4` (C78-C82) -/

namespace PyElli

open Matrix Complex Spec

/-! ## Turned and mirrored tensors -/

lemma conj_sign (R : Mat3) (a b c : ℝ) (hR : R = !![a, 0, 0; 0, b, 0; 0, 0, c]) (e : Tensor) (i j : Fin 3) :
    (R.map Complex.ofReal * e * (R.map Complex.ofReal)ᵀ) i j = (![a, b, c] i : ℂ) * (![a, b, c] j : ℂ) * e i j := by
  subst hR
  fin_cases i <;> fin_cases j <;>
    simp [Matrix.mul_apply, Matrix.map_apply, Matrix.transpose_apply, Fin.sum_univ_three] <;> ring

lemma Rz_pi : Rz Real.pi = !![-1, 0, 0; 0, -1, 0; 0, 0, 1] := by
  simp [Spec.Rz]

lemma buildDelta_halfTurn (kx : ℂ) (e : Tensor) :
    buildDelta kx ((Rz Real.pi).map Complex.ofReal * e * ((Rz Real.pi).map Complex.ofReal)ᵀ) = buildDelta (-kx) e := by
  have h := conj_sign _ (-1) (-1) 1 Rz_pi e
  generalize (Rz Real.pi).map Complex.ofReal * e * ((Rz Real.pi).map Complex.ofReal)ᵀ = e' at *
  unfold buildDelta
  simp only [h]
  ext i j
  fin_cases i <;> fin_cases j <;> simp <;> ring

/-- C79: turning the sample by half a turn about the surface normal is the same as changing the sign of the angle of incidence, for every
propagator. -/
theorem C79_half_turn (prop : Propagator) (s : Stack) (hb : s.backIsotropic = true) (theta lbda : ℝ) (ee ee') :
    calculate4x4 prop (moved (Rz Real.pi) s) theta lbda ee = calculate4x4 prop s (-theta) lbda ee' := by
  have hk : kxOf (moved (Rz Real.pi) s) theta = kxOf s theta := rfl
  have ht : transfer4x4 prop (moved (Rz Real.pi) s) theta lbda ee = transfer4x4 prop s (-theta) lbda ee' := by
    have hf : (moved (Rz Real.pi) s).front = s.front := rfl
    have hbk : (moved (Rz Real.pi) s).back = s.back := rfl
    have hbi : (moved (Rz Real.pi) s).backIsotropic = true := hb
    have hl : (moved (Rz Real.pi) s).layers.map (fun l => prop (buildDelta (kxOf s theta) l.2) (-l.1) lbda) =
        s.layers.map fun l => prop (buildDelta (-kxOf s theta) l.2) (-l.1) lbda := by
      simp only [moved, List.map_map]
      refine List.map_congr_left fun l _ => ?_
      simp only [Function.comp, buildDelta_halfTurn]
    simp only [transfer4x4, loop4x4_eq, hk, kxOf_neg, exitMatrix, hf, hbk, hbi, hb, if_true, isoHalf_neg, isoHalfInv_neg, hl]
  simp only [calculate4x4, ht, hk, kxOf_neg, getKz_neg]
  rfl

/-! ## C78: reciprocity of reflection -/

lemma passive_neg {s : Stack} {theta lbda : ℝ} (h : PassiveStack s theta lbda) : PassiveStack s (-theta) lbda :=
  { h with angle := by rw [abs_neg]; exact h.angle }

/-- C78: for non-gyrotropic samples on an isotropic exit medium, changing the sign of the angle of incidence transposes the reflection matrix and
flips the sign of the cross terms. -/
theorem C78_reciprocity (s : Stack) (theta lbda : ℝ) (h : PassiveStack s theta lbda) (hs : Symmetric s) (ee ee') :
    let r := (calculate4x4 propExpm s theta lbda ee).jr
    let r' := (calculate4x4 propExpm s (-theta) lbda ee').jr
    r' 0 0 = r 0 0 ∧ r' 1 1 = r 1 1 ∧ r' 0 1 = -r 1 0 ∧ r' 1 0 = -r 0 1 := by
  obtain ⟨n0, c0, hn0, hc0, hn, hc, -, -⟩ := two_norms s theta lbda h ee
  have hn' : nOf s.front ≠ 0 := by rw [hn]; exact_mod_cast hn0.ne'
  have hc' : cosPhi (kxOf s theta) s.front ≠ 0 := by rw [hc]; exact_mod_cast hc0.ne'
  have hd := tIt_det_ne_zero s theta lbda h ee
  have hd' := tIt_det_ne_zero s (-theta) lbda (passive_neg h) ee'
  have hT := transfer_reciprocal s theta lbda ee ee' h.iso hn' hc' hs
  simp only [calculate4x4]
  generalize transfer4x4 propExpm s theta lbda ee = m at *
  generalize transfer4x4 propExpm s (-theta) lbda ee' = m' at *
  have hz : (2 * (nOf s.front * cosPhi (kxOf s theta) s.front)) ≠ 0 := by simp [hn', hc']
  have hm : m'ᵀ * ampForm * m =
      ((2 * (nOf s.front * cosPhi (kxOf s theta) s.front))⁻¹ * (2 * (nOf s.back * cosPhi (kxOf s theta) s.back))) • ampForm := by
    rw [mul_smul, ← hT, smul_smul, inv_mul_cancel₀ hz, one_smul]
  have hp := ampForm_parts m m' _ hm
  have hA : IsUnit (tIt m).det := isUnit_iff_ne_zero.2 hd
  have hA' : IsUnit (tIt m').det := isUnit_iff_ne_zero.2 hd'
  have key : (tRt m' * (tIt m')⁻¹)ᵀ * !![1, 0; 0, -1] = !![1, 0; 0, -1] * (tRt m * (tIt m)⁻¹) := by
    rw [Matrix.transpose_mul, Matrix.transpose_nonsing_inv]
    have hA'' : IsUnit ((tIt m')ᵀ).det := by rwa [Matrix.det_transpose]
    calc ((tIt m')ᵀ)⁻¹ * (tRt m')ᵀ * !![1, 0; 0, -1]
        = ((tIt m')ᵀ)⁻¹ * ((tRt m')ᵀ * !![1, 0; 0, -1] * tIt m) * (tIt m)⁻¹ := by
          simp only [Matrix.mul_assoc, Matrix.mul_nonsing_inv _ hA, Matrix.mul_one]
      _ = (((tIt m')ᵀ)⁻¹ * (tIt m')ᵀ) * !![1, 0; 0, -1] * tRt m * (tIt m)⁻¹ := by
          rw [hp]; simp only [Matrix.mul_assoc]
      _ = _ := by rw [Matrix.nonsing_inv_mul _ hA'']; simp only [Matrix.one_mul, Matrix.mul_assoc]
  generalize tRt m * (tIt m)⁻¹ = r at *
  generalize tRt m' * (tIt m')⁻¹ = r' at *
  have e := fun i j => congrFun (congrFun key i) j
  have e00 := e 0 0
  have e01 := e 0 1
  have e10 := e 1 0
  have e11 := e 1 1
  simp [Matrix.mul_apply, Fin.sum_univ_two] at e00 e01 e10 e11
  refine ⟨e00, e11, ?_, ?_⟩
  · exact e10
  · linear_combination -e01

/-- C78 as seen in the laboratory: after turning a non-gyrotropic sample by half a turn about its normal, the two co-polarised reflection
coefficients are unchanged and the cross-polarised ones are exchanged with opposite sign. -/
theorem C78_half_turn (s : Stack) (theta lbda : ℝ) (h : PassiveStack s theta lbda) (hs : Symmetric s) (ee ee') :
    let r := (calculate4x4 propExpm s theta lbda ee).jr
    let r' := (calculate4x4 propExpm (moved (Rz Real.pi) s) theta lbda ee').jr
    r' 0 0 = r 0 0 ∧ r' 1 1 = r 1 1 ∧ r' 0 1 = -r 1 0 ∧ r' 1 0 = -r 0 1 := by
  have := C78_reciprocity s theta lbda h hs ee ee'
  rwa [← C79_half_turn propExpm s h.iso theta lbda ee' ee'] at this

/-! Every sample that can be built from the material classes is non-gyrotropic. -/

lemma single_symm (m : SingleMaterial) (lbda : ℝ) (i j : Fin 3) : m.getTensor lbda i j = m.getTensor lbda j i := by
  obtain ⟨R, hR⟩ := getTensor_rot m lbda
  have : (m.getTensor lbda)ᵀ = m.getTensor lbda := by
    rw [hR]
    simp [Matrix.transpose_mul, Matrix.mul_assoc]
  exact congrFun (congrFun this j) i

lemma material_symm (m : Material) (lbda : ℝ) (i j : Fin 3) : m.getTensor lbda i j = m.getTensor lbda j i := by
  induction m generalizing i j with
  | single c m => simp only [Material.getTensor, single_symm m lbda i j]
  | mixture k h g f ih1 ih2 => simp only [Material.getTensor, EmaKind.numTensor, ih1 i j, ih2 i j]

lemma rotateNum_symm (R : Mat3) (e : NumTensor) (he : ∀ i j, e i j = e j i) (i j : Fin 3) : rotateNum R e i j = rotateNum R e j i := by
  by_cases h : ∀ i j, (e i j).isSome = true
  · obtain ⟨T, rfl⟩ : ∃ T : Tensor, e = fun i j => some (T i j) :=
      ⟨fun i j => (e i j).get (h i j), by funext i j; simp⟩
    have hsym : Tᵀ = T := by
      ext a b
      exact Option.some.inj (he b a)
    rw [rotateNum_some]
    have : (R.map Complex.ofReal * T * (R.map Complex.ofReal)ᵀ)ᵀ = R.map Complex.ofReal * T * (R.map Complex.ofReal)ᵀ := by
      rw [Matrix.transpose_mul, Matrix.transpose_mul, Matrix.transpose_transpose, hsym, Matrix.mul_assoc]
    exact congrArg some (congrFun (congrFun this j) i)
  · have hr : rotateNum R e = fun _ _ => none := dif_neg h
    rw [hr]

mutual
lemma profile_symm (l : LayerObj) (lbda : ℝ) : ∀ sl ∈ l.profile lbda, ∀ i j, sl.eps i j = sl.eps j i := by
  cases l with
  | layer m t =>
    intro sl hsl i j
    simp only [LayerObj.profile, List.mem_singleton] at hsl
    subst hsl
    exact material_symm m lbda i j
  | twisted m t div angle =>
    intro sl hsl i j
    simp only [LayerObj.profile, inhomogeneousProfile_eq, List.mem_map] at hsl
    obtain ⟨n, -, rfl⟩ := hsl
    simp only [twistedTensor]
    cases floatDiv (angle * (((n : ℝ) + 1 / 2) * (t / div))) t with
    | none => rfl
    | some a => exact rotateNum_symm _ _ (material_symm m lbda) i j
  | varying k hm g t div md =>
    intro sl hsl i j
    simp only [LayerObj.profile, inhomogeneousProfile_eq, List.mem_map] at hsl
    obtain ⟨n, -, rfl⟩ := hsl
    simp only [varyingTensor, EmaKind.numTensor, material_symm hm lbda i j, material_symm g lbda i j]
  | repeated ls n b a =>
    intro sl hsl
    have ih := profileList_symm ls lbda
    apply ih
    simp only [LayerObj.profile, repeatedSlices, List.mem_append, List.mem_flatten, List.mem_replicate] at hsl
    rcases hsl with (hsl | ⟨x, ⟨-, rfl⟩, hx⟩) | hsl
    · split_ifs at hsl with hb
      · exact List.mem_of_mem_drop hsl
      · cases hsl
    · exact hx
    · exact List.mem_of_mem_take hsl
lemma profileList_symm (ls : List LayerObj) (lbda : ℝ) : ∀ sl ∈ profileList ls lbda, ∀ i j, sl.eps i j = sl.eps j i := by
  cases ls with
  | nil => intro sl hsl; simp [profileList] at hsl
  | cons l ls =>
    intro sl hsl
    simp only [profileList, List.mem_append] at hsl
    rcases hsl with hsl | hsl
    · exact profile_symm l lbda sl hsl
    · exact profileList_symm ls lbda sl hsl
end

lemma finite_symm (t : NumTensor) (e : Tensor) (h : t.finite? = some e) (ht : ∀ i j, t i j = t j i) (i j : Fin 3) : e i j = e j i := by
  unfold NumTensor.finite? at h
  split_ifs at h with hf
  cases h
  have := ht i j
  simp only [this]

lemma finiteSlices_symm (ls : List Slice) (r : List (ℝ × Tensor)) (h : finiteSlices ls = some r)
    (hs : ∀ sl ∈ ls, ∀ i j, sl.eps i j = sl.eps j i) : ∀ l ∈ r, ∀ i j, l.2 i j = l.2 j i := by
  induction ls generalizing r with
  | nil => simp only [finiteSlices] at h; cases h; simp
  | cons a ls ih =>
    simp only [finiteSlices, Option.bind_eq_some_iff, Option.map_eq_some_iff] at h
    obtain ⟨e, he, r', hr', rfl⟩ := h
    intro l hl
    rcases List.mem_cons.1 hl with rfl | hl
    · exact finite_symm _ _ he (hs a List.mem_cons_self)
    · exact ih r' hr' (fun x hx => hs x (List.mem_cons_of_mem _ hx)) l hl

/-- C78: the hypothesis of reciprocity holds for every structure that can be built: materials of all classes in any orientation, nested mixtures of
all kinds, twisted, varying and repeated layers. -/
theorem C78_every_structure (s : Struct) (lbda : ℝ) (st : Stack) (h : s.stack lbda = some st) : Symmetric st := by
  simp only [Struct.stack, Option.bind_eq_some_iff, Option.map_eq_some_iff] at h
  obtain ⟨f, -, ls, hls, b, -, rfl⟩ := h
  exact finiteSlices_symm _ _ hls (profileList_symm _ _)

/-! ## C79: mirror symmetry -/

/-- Change of sign of the s amplitudes. -/
def flipAmp : Mat4 := !![-1, 0, 0, 0; 0, -1, 0, 0; 0, 0, 1, 0; 0, 0, 0, 1]
/-- Change of sign of the fields of s waves. -/
def flipField : Mat4 := !![1, 0, 0, 0; 0, -1, 0, 0; 0, 0, -1, 0; 0, 0, 0, 1]

lemma flipField_sq : flipField * flipField = 1 := by
  ext i j
  fin_cases i <;> fin_cases j <;> simp [flipField, Matrix.mul_apply, Fin.sum_univ_four]

lemma flipAmp_sq : flipAmp * flipAmp = 1 := by
  ext i j
  fin_cases i <;> fin_cases j <;> simp [flipAmp, Matrix.mul_apply, Fin.sum_univ_four]

lemma flip_isoHalf (kx : ℂ) (e : Tensor) : flipField * isoHalf kx e = isoHalf kx e * flipAmp := by
  ext i j
  fin_cases i <;> fin_cases j <;> simp [flipField, flipAmp, isoHalf, Matrix.mul_apply, Fin.sum_univ_four]

lemma flip_isoHalfInv (kx : ℂ) (e : Tensor) : isoHalfInv kx e * flipField = flipAmp * isoHalfInv kx e := by
  ext i j
  fin_cases i <;> fin_cases j <;> simp [flipField, flipAmp, isoHalfInv, Matrix.mul_apply, Fin.sum_univ_four]

lemma flip_delta (kx : ℂ) (e : Tensor) :
    flipField * buildDelta kx e = buildDelta kx (mirrorY.map Complex.ofReal * e * (mirrorY.map Complex.ofReal)ᵀ) * flipField := by
  have h := conj_sign mirrorY 1 (-1) 1 rfl e
  generalize mirrorY.map Complex.ofReal * e * (mirrorY.map Complex.ofReal)ᵀ = e' at *
  unfold buildDelta
  simp only [h]
  ext i j
  fin_cases i <;> fin_cases j <;> simp [flipField, Matrix.mul_apply, Fin.sum_univ_four] <;> ring

/-- Intertwining of all layers carries over to the product. -/
lemma slabs_intertwine (S : Mat4) (hS : IsUnit S) (kx kx' : ℂ) (lbda : ℝ) (f : Tensor → Tensor)
    (layers : List (ℝ × Tensor)) (h : ∀ l ∈ layers, S * buildDelta kx l.2 = buildDelta kx' (f l.2) * S) :
    S * slabs kx lbda layers = slabs kx' lbda (layers.map fun l => (l.1, f l.2)) * S := by
  induction layers with
  | nil => simp [slabs]
  | cons l ls ih =>
    have ih' := ih fun x hx => h x (List.mem_cons_of_mem _ hx)
    simp only [slabs, List.map_cons, List.prod_cons] at ih' ⊢
    rw [← Matrix.mul_assoc, prop_intertwine hS (h l List.mem_cons_self), Matrix.mul_assoc, ih', Matrix.mul_assoc]

lemma transfer_mirror (s : Stack) (hb : s.backIsotropic = true) (theta lbda : ℝ) (ee ee') :
    transfer4x4 propExpm (moved mirrorY s) theta lbda ee' = flipAmp * transfer4x4 propExpm s theta lbda ee * flipAmp := by
  rw [transfer_slabs, transfer_slabs]
  have hk : kxOf (moved mirrorY s) theta = kxOf s theta := rfl
  have hu : IsUnit flipField := IsUnit.of_mul_eq_one _ flipField_sq
  have h1 := slabs_intertwine flipField hu (kxOf s theta) (kxOf s theta) lbda
    (fun e => mirrorY.map Complex.ofReal * e * (mirrorY.map Complex.ofReal)ᵀ) s.layers fun l _ => flip_delta _ _
  have h2 : slabs (kxOf s theta) lbda (moved mirrorY s).layers = flipField * slabs (kxOf s theta) lbda s.layers * flipField := by
    rw [h1, Matrix.mul_assoc, flipField_sq, Matrix.mul_one]
    rfl
  rw [hk, h2]
  simp only [exitMatrix, moved, hb, if_true]
  calc isoHalfInv (kxOf s theta) s.front *
        (flipField * slabs (kxOf s theta) lbda s.layers * flipField * isoHalf (kxOf s theta) s.back)
      = (isoHalfInv (kxOf s theta) s.front * flipField) * slabs (kxOf s theta) lbda s.layers *
          (flipField * isoHalf (kxOf s theta) s.back) := by simp only [Matrix.mul_assoc]
    _ = _ := by rw [flip_isoHalf, flip_isoHalfInv]; simp only [Matrix.mul_assoc]

lemma tIt_flip (m : Mat4) : tIt (flipAmp * m * flipAmp) = !![1, 0; 0, -1] * tIt m * !![1, 0; 0, -1] := by
  ext i j
  fin_cases i <;> fin_cases j <;> simp [tIt, flipAmp, Matrix.mul_apply, Matrix.vecMul, dotProduct, Fin.sum_univ_four, Fin.sum_univ_two]

lemma tRt_flip (m : Mat4) : tRt (flipAmp * m * flipAmp) = !![1, 0; 0, -1] * tRt m * !![1, 0; 0, -1] := by
  ext i j
  fin_cases i <;> fin_cases j <;> simp [tRt, flipAmp, Matrix.mul_apply, Matrix.vecMul, dotProduct, Fin.sum_univ_four, Fin.sum_univ_two]

lemma sgn_sq : (!![1, 0; 0, -1] : Mat2) * !![1, 0; 0, -1] = 1 := by
  rw [Matrix.mul_fin_two, Matrix.one_fin_two]
  simp

lemma sgn_inv : (!![1, 0; 0, -1] : Mat2)⁻¹ = !![1, 0; 0, -1] := Matrix.inv_eq_right_inv sgn_sq

/-- C79: the mirror image of a sample at the plane of incidence has the same co-polarised reflection and transmission coefficients and
cross-polarised ones of opposite sign. -/
theorem C79_mirror (s : Stack) (hb : s.backIsotropic = true) (theta lbda : ℝ) (ee ee') (i j : Fin 2) :
    (calculate4x4 propExpm (moved mirrorY s) theta lbda ee').jr i j =
      (if i = j then 1 else -1) * (calculate4x4 propExpm s theta lbda ee).jr i j ∧
    (calculate4x4 propExpm (moved mirrorY s) theta lbda ee').jt i j =
      (if i = j then 1 else -1) * (calculate4x4 propExpm s theta lbda ee).jt i j := by
  simp only [calculate4x4, transfer_mirror s hb theta lbda ee ee', tIt_flip, tRt_flip]
  generalize transfer4x4 propExpm s theta lbda ee = m
  have h1 : (!![1, 0; 0, -1] * tIt m * !![1, 0; 0, -1] : Mat2)⁻¹ = !![1, 0; 0, -1] * (tIt m)⁻¹ * !![1, 0; 0, -1] := by
    rw [Matrix.mul_inv_rev, Matrix.mul_inv_rev, sgn_inv, Matrix.mul_assoc]
  have h2 : (!![1, 0; 0, -1] * tRt m * !![1, 0; 0, -1] : Mat2) * (!![1, 0; 0, -1] * (tIt m)⁻¹ * !![1, 0; 0, -1]) =
      !![1, 0; 0, -1] * (tRt m * (tIt m)⁻¹) * !![1, 0; 0, -1] := by
    calc _ = !![1, 0; 0, -1] * tRt m * (!![1, 0; 0, -1] * !![1, 0; 0, -1]) * (tIt m)⁻¹ * !![1, 0; 0, -1] := by
          simp only [Matrix.mul_assoc]
      _ = _ := by rw [sgn_sq]; simp only [Matrix.mul_one, Matrix.mul_assoc]
  rw [h1, h2]
  generalize tRt m * (tIt m)⁻¹ = r
  generalize (tIt m)⁻¹ = t
  fin_cases i <;> fin_cases j <;> simp [Matrix.mul_apply, Matrix.vecMul, dotProduct, Fin.sum_univ_two]

/-- C79: samples that are their own mirror image (for example biaxial layers with one principal axis perpendicular to the plane of incidence) do not
couple p and s waves. -/
theorem C79_no_cross_polarisation (s : Stack) (hb : s.backIsotropic = true)
    (hm : ∀ l ∈ s.layers, l.2 0 1 = 0 ∧ l.2 1 0 = 0 ∧ l.2 1 2 = 0 ∧ l.2 2 1 = 0) (theta lbda : ℝ) (ee) (i j : Fin 2) (hij : i ≠ j) :
    (calculate4x4 propExpm s theta lbda ee).jr i j = 0 ∧ (calculate4x4 propExpm s theta lbda ee).jt i j = 0 := by
  have hs : moved mirrorY s = s := by
    cases s with
    | mk f ls b bi =>
      simp only [moved, Stack.mk.injEq, true_and, and_true]
      refine (List.map_congr_left fun l hl => ?_).trans (List.map_id _)
      obtain ⟨h1, h2, h3, h4⟩ := hm l hl
      simp only [id]
      refine Prod.ext rfl ?_
      ext a b
      simp only
      rw [conj_sign mirrorY 1 (-1) 1 rfl]
      fin_cases a <;> fin_cases b <;> simp [h1, h2, h3, h4]
  have := C79_mirror s hb theta lbda ee ee i j
  rw [hs, if_neg hij] at this
  exact ⟨by linear_combination this.1 / 2, by linear_combination this.2 / 2⟩

/-! ## C80: azimuth at normal incidence -/

/-- Rotation of the tangential fields about z. -/
noncomputable def turnField (c s : ℂ) : Mat4 := !![c, -s, 0, 0; s, c, 0, 0; 0, 0, c, -s; 0, 0, s, c]
/-- The same for the amplitudes (s+, s-, p+, p-) at normal incidence. -/
noncomputable def turnAmp (c s : ℂ) : Mat4 := !![c, 0, s, 0; 0, c, 0, -s; -s, 0, c, 0; 0, s, 0, c]

lemma turnField_inv {c s : ℂ} (h : c ^ 2 + s ^ 2 = 1) : turnField c s * turnField c (-s) = 1 := by
  ext i j
  fin_cases i <;> fin_cases j <;> simp [turnField, Matrix.mul_apply, Fin.sum_univ_four] <;> first | ring1 | linear_combination h

lemma turnAmp_inv {c s : ℂ} (h : c ^ 2 + s ^ 2 = 1) : turnAmp c s * turnAmp c (-s) = 1 := by
  ext i j
  fin_cases i <;> fin_cases j <;> simp [turnAmp, Matrix.mul_apply, Fin.sum_univ_four] <;> first | ring1 | linear_combination h

lemma cosPhi_zero (e : Tensor) : cosPhi 0 e = 1 := by
  simp [cosPhi]

lemma turn_isoHalf (c s : ℂ) (e : Tensor) : turnField c s * isoHalf 0 e = isoHalf 0 e * turnAmp c s := by
  ext i j
  fin_cases i <;> fin_cases j <;> simp [turnField, turnAmp, isoHalf, cosPhi_zero, Matrix.mul_apply, Fin.sum_univ_four] <;> ring

lemma turn_isoHalfInv (c s : ℂ) (e : Tensor) (hn : nOf e ≠ 0) : isoHalfInv 0 e * turnField c s = turnAmp c s * isoHalfInv 0 e := by
  have h1 := isoHalf_mul_inv 0 e hn (by rw [cosPhi_zero]; exact one_ne_zero)
  have h2 := isoHalfInv_mul 0 e hn (by rw [cosPhi_zero]; exact one_ne_zero)
  calc isoHalfInv 0 e * turnField c s = isoHalfInv 0 e * (turnField c s * isoHalf 0 e) * isoHalfInv 0 e := by
        rw [Matrix.mul_assoc, Matrix.mul_assoc, h1, Matrix.mul_one]
    _ = (isoHalfInv 0 e * isoHalf 0 e) * turnAmp c s * isoHalfInv 0 e := by rw [turn_isoHalf]; simp only [Matrix.mul_assoc]
    _ = _ := by rw [h2, Matrix.one_mul]

lemma conj_Rz (phi : ℝ) (e : Tensor) : (Spec.Rz phi).map Complex.ofReal * e * ((Spec.Rz phi).map Complex.ofReal)ᵀ =
    !![(Real.cos phi : ℂ), -(Real.sin phi : ℂ), 0; (Real.sin phi : ℂ), (Real.cos phi : ℂ), 0; 0, 0, 1] * e *
      !![(Real.cos phi : ℂ), (Real.sin phi : ℂ), 0; -(Real.sin phi : ℂ), (Real.cos phi : ℂ), 0; 0, 0, 1] := by
  have h1 : (Spec.Rz phi).map Complex.ofReal =
      !![(Real.cos phi : ℂ), -(Real.sin phi : ℂ), 0; (Real.sin phi : ℂ), (Real.cos phi : ℂ), 0; 0, 0, 1] := by
    ext i j
    fin_cases i <;> fin_cases j <;> simp [Spec.Rz]
  rw [h1]
  congr 1
  ext i j
  fin_cases i <;> fin_cases j <;> simp

lemma turn_delta (phi : ℝ) (e : Tensor) :
    turnField (Real.cos phi) (Real.sin phi) * buildDelta 0 e =
      buildDelta 0 ((Spec.Rz phi).map Complex.ofReal * e * ((Spec.Rz phi).map Complex.ofReal)ᵀ) *
        turnField (Real.cos phi) (Real.sin phi) := by
  rw [conj_Rz]
  have h : (Real.cos phi : ℂ) ^ 2 + (Real.sin phi : ℂ) ^ 2 = 1 := by
    exact_mod_cast Real.cos_sq_add_sin_sq phi
  generalize (Real.cos phi : ℂ) = c at *
  generalize (Real.sin phi : ℂ) = s at *
  set e' : Tensor := !![c, -s, 0; s, c, 0; 0, 0, 1] * e * !![c, s, 0; -s, c, 0; 0, 0, 1] with he'
  have e00 : e' 0 0 = c * (c * e 0 0 - s * e 1 0) - s * (c * e 0 1 - s * e 1 1) := by
    simp [he', Matrix.mul_apply, Matrix.vecMul, dotProduct, Fin.sum_univ_three]; ring
  have e01 : e' 0 1 = s * (c * e 0 0 - s * e 1 0) + c * (c * e 0 1 - s * e 1 1) := by
    simp [he', Matrix.mul_apply, Matrix.vecMul, dotProduct, Fin.sum_univ_three]; ring
  have e02 : e' 0 2 = c * e 0 2 - s * e 1 2 := by
    simp [he', Matrix.mul_apply, Matrix.vecMul, dotProduct, Fin.sum_univ_three]; ring
  have e10 : e' 1 0 = c * (s * e 0 0 + c * e 1 0) - s * (s * e 0 1 + c * e 1 1) := by
    simp [he', Matrix.mul_apply, Matrix.vecMul, dotProduct, Fin.sum_univ_three]; ring
  have e11 : e' 1 1 = s * (s * e 0 0 + c * e 1 0) + c * (s * e 0 1 + c * e 1 1) := by
    simp [he', Matrix.mul_apply, Matrix.vecMul, dotProduct, Fin.sum_univ_three]; ring
  have e12 : e' 1 2 = s * e 0 2 + c * e 1 2 := by
    simp [he', Matrix.mul_apply, Matrix.vecMul, dotProduct, Fin.sum_univ_three]
  have e20 : e' 2 0 = c * e 2 0 - s * e 2 1 := by
    simp [he', Matrix.mul_apply, Matrix.vecMul, dotProduct, Fin.sum_univ_three]; ring
  have e21 : e' 2 1 = s * e 2 0 + c * e 2 1 := by
    simp [he', Matrix.mul_apply, Matrix.vecMul, dotProduct, Fin.sum_univ_three]; ring
  have e22 : e' 2 2 = e 2 2 := by
    simp [he', Matrix.mul_apply, Matrix.vecMul, dotProduct, Fin.sum_univ_three]
  clear_value e'
  unfold buildDelta turnField
  rw [e00, e01, e02, e10, e11, e12, e20, e21, e22]
  have hc : c ^ 2 = 1 - s ^ 2 := by linear_combination h
  ext i j
  fin_cases i <;> fin_cases j <;> simp [Matrix.mul_apply, Fin.sum_univ_four, div_eq_mul_inv]
  all_goals try ring1
  · linear_combination -(c * (e 1 2 * e 2 0 * (e 2 2)⁻¹ - e 1 0) - s * (e 0 0 - e 0 2 * e 2 0 * (e 2 2)⁻¹)) * h
  · linear_combination -(c * (e 1 2 * e 2 1 * (e 2 2)⁻¹ - e 1 1) - s * (e 0 1 - e 0 2 * e 2 1 * (e 2 2)⁻¹)) * h
  · linear_combination -(s * (e 1 2 * e 2 0 * (e 2 2)⁻¹ - e 1 0) + c * (e 0 0 - e 0 2 * e 2 0 * (e 2 2)⁻¹)) * h
  · linear_combination -(s * (e 1 2 * e 2 1 * (e 2 2)⁻¹ - e 1 1) + c * (e 0 1 - e 0 2 * e 2 1 * (e 2 2)⁻¹)) * h

lemma kxOf_zero (s : Stack) : kxOf s 0 = 0 := by simp [kxOf, deg2rad]

lemma transfer_turn (s : Stack) (hb : s.backIsotropic = true) (hn : nOf s.front ≠ 0) (phi lbda : ℝ) (ee ee') :
    transfer4x4 propExpm (moved (Spec.Rz phi) s) 0 lbda ee' * turnAmp (Real.cos phi) (Real.sin phi) =
      turnAmp (Real.cos phi) (Real.sin phi) * transfer4x4 propExpm s 0 lbda ee := by
  rw [transfer_slabs, transfer_slabs]
  have hk : kxOf (moved (Spec.Rz phi) s) 0 = 0 := kxOf_zero _
  have h : (Real.cos phi : ℂ) ^ 2 + (Real.sin phi : ℂ) ^ 2 = 1 := by
    exact_mod_cast Real.cos_sq_add_sin_sq phi
  have hu : IsUnit (turnField (Real.cos phi) (Real.sin phi)) := IsUnit.of_mul_eq_one _ (turnField_inv h)
  have h1 := slabs_intertwine _ hu 0 0 lbda
    (fun e => (Spec.Rz phi).map Complex.ofReal * e * ((Spec.Rz phi).map Complex.ofReal)ᵀ) s.layers fun l _ => turn_delta phi l.2
  have h2 : slabs 0 lbda (moved (Spec.Rz phi) s).layers * turnField (Real.cos phi) (Real.sin phi) =
      turnField (Real.cos phi) (Real.sin phi) * slabs 0 lbda s.layers := h1.symm
  rw [hk, kxOf_zero]
  have hbi : (moved (Spec.Rz phi) s).backIsotropic = true := hb
  have hf : (moved (Spec.Rz phi) s).front = s.front := rfl
  have hbk : (moved (Spec.Rz phi) s).back = s.back := rfl
  simp only [exitMatrix, hb, hbi, hf, hbk, if_true]
  generalize slabs 0 lbda (moved (Spec.Rz phi) s).layers = L' at *
  generalize slabs 0 lbda s.layers = L at *
  have h3 := turn_isoHalf (Real.cos phi) (Real.sin phi) s.back
  have h4 := turn_isoHalfInv (Real.cos phi) (Real.sin phi) s.front hn
  generalize turnField (Real.cos phi) (Real.sin phi) = U at *
  generalize turnAmp (Real.cos phi) (Real.sin phi) = A at *
  calc isoHalfInv 0 s.front * (L' * isoHalf 0 s.back) * A = isoHalfInv 0 s.front * (L' * U) * isoHalf 0 s.back := by
        simp only [Matrix.mul_assoc, h3]
    _ = (isoHalfInv 0 s.front * U) * L * isoHalf 0 s.back := by rw [h2]; simp only [Matrix.mul_assoc]
    _ = _ := by rw [h4]; simp only [Matrix.mul_assoc]

lemma tIt_turn_right (m : Mat4) (c s : ℂ) : tIt (m * turnAmp c s) = tIt m * !![c, -s; s, c] := by
  ext i j
  fin_cases i <;> fin_cases j <;>
    simp [tIt, turnAmp, Matrix.mul_apply, Matrix.vecMul, dotProduct, Fin.sum_univ_four, Fin.sum_univ_two] <;> ring

lemma tRt_turn_right (m : Mat4) (c s : ℂ) : tRt (m * turnAmp c s) = tRt m * !![c, -s; s, c] := by
  ext i j
  fin_cases i <;> fin_cases j <;>
    simp [tRt, turnAmp, Matrix.mul_apply, Matrix.vecMul, dotProduct, Fin.sum_univ_four, Fin.sum_univ_two] <;> ring

lemma tIt_turn_left (m : Mat4) (c s : ℂ) : tIt (turnAmp c s * m) = !![c, -s; s, c] * tIt m := by
  ext i j
  fin_cases i <;> fin_cases j <;>
    simp [tIt, turnAmp, Matrix.mul_apply, Matrix.vecMul, dotProduct, Fin.sum_univ_four, Fin.sum_univ_two] <;> ring

lemma tRt_turn_left (m : Mat4) (c s : ℂ) : tRt (turnAmp c s * m) = !![c, s; -s, c] * tRt m := by
  ext i j
  fin_cases i <;> fin_cases j <;>
    simp [tRt, turnAmp, Matrix.mul_apply, Matrix.vecMul, dotProduct, Fin.sum_univ_four, Fin.sum_univ_two] <;> ring

/-- C80: at normal incidence turning the sample about its normal turns the Jones matrices: transmission becomes `R t R⁻¹`, reflection `R⁻¹ r R⁻¹` (the
p direction of the reflected wave is opposite to that of the incident one). -/
theorem C80_azimuth (s : Stack) (hb : s.backIsotropic = true) (hn : nOf s.front ≠ 0) (phi lbda : ℝ) (ee ee') :
    (calculate4x4 propExpm (moved (Spec.Rz phi) s) 0 lbda ee').jt =
      turn2 phi * (calculate4x4 propExpm s 0 lbda ee).jt * turn2 (-phi) ∧
    (calculate4x4 propExpm (moved (Spec.Rz phi) s) 0 lbda ee').jr =
      turn2 (-phi) * (calculate4x4 propExpm s 0 lbda ee).jr * turn2 (-phi) := by
  have hT := transfer_turn s hb hn phi lbda ee ee'
  simp only [calculate4x4]
  generalize transfer4x4 propExpm (moved (Spec.Rz phi) s) 0 lbda ee' = m' at *
  generalize transfer4x4 propExpm s 0 lbda ee = m at *
  have h : (Real.cos phi : ℂ) ^ 2 + (Real.sin phi : ℂ) ^ 2 = 1 := by
    exact_mod_cast Real.cos_sq_add_sin_sq phi
  have t1 : turn2 phi = !![(Real.cos phi : ℂ), -(Real.sin phi : ℂ); (Real.sin phi : ℂ), (Real.cos phi : ℂ)] := rfl
  have t2 : turn2 (-phi) = !![(Real.cos phi : ℂ), (Real.sin phi : ℂ); -(Real.sin phi : ℂ), (Real.cos phi : ℂ)] := by
    simp [turn2, Real.cos_neg, Real.sin_neg]
  have u1 : turn2 phi * turn2 (-phi) = 1 := by
    rw [t1, t2, Matrix.mul_fin_two, Matrix.one_fin_two]
    generalize (Real.cos phi : ℂ) = c at *
    generalize (Real.sin phi : ℂ) = s at *
    congr 1
    ext i j
    fin_cases i <;> fin_cases j <;> simp <;> first | ring1 | linear_combination h
  have u2 : turn2 (-phi) * turn2 phi = 1 := mul_eq_one_comm.1 u1
  have hI : tIt m' * turn2 phi = turn2 phi * tIt m := by
    rw [t1, ← tIt_turn_right, hT, tIt_turn_left]
  have hR : tRt m' * turn2 phi = turn2 (-phi) * tRt m := by
    rw [t2, t1, ← tRt_turn_right, hT, tRt_turn_left]
  have eI : tIt m' = turn2 phi * tIt m * turn2 (-phi) := by
    rw [← hI, Matrix.mul_assoc, u1, Matrix.mul_one]
  have eR : tRt m' = turn2 (-phi) * tRt m * turn2 (-phi) := by
    rw [← hR, Matrix.mul_assoc, u1, Matrix.mul_one]
  have i1 : (turn2 phi)⁻¹ = turn2 (-phi) := Matrix.inv_eq_right_inv u1
  have i2 : (turn2 (-phi))⁻¹ = turn2 phi := Matrix.inv_eq_right_inv u2
  have eInv : (tIt m')⁻¹ = turn2 phi * (tIt m)⁻¹ * turn2 (-phi) := by
    rw [eI, Matrix.mul_inv_rev, Matrix.mul_inv_rev, i1, i2, Matrix.mul_assoc]
  refine ⟨eInv, ?_⟩
  rw [eInv, eR]
  calc turn2 (-phi) * tRt m * turn2 (-phi) * (turn2 phi * (tIt m)⁻¹ * turn2 (-phi))
      = turn2 (-phi) * tRt m * (turn2 (-phi) * turn2 phi) * (tIt m)⁻¹ * turn2 (-phi) := by simp only [Matrix.mul_assoc]
    _ = _ := by rw [u2]; simp only [Matrix.mul_one, Matrix.mul_assoc]

/-! ## C81: transmission from both sides -/

/-- Fields of the sample turned upside down. -/
def upField : Mat4 := !![-1, 0, 0, 0; 0, 1, 0, 0; 0, 0, -1, 0; 0, 0, 0, 1]
def signAmp : Mat4 := !![1, 0, 0, 0; 0, -1, 0, 0; 0, 0, -1, 0; 0, 0, 0, 1]

lemma upField_sq : upField * upField = 1 := by
  ext i j
  fin_cases i <;> fin_cases j <;> simp [upField, Matrix.mul_apply, Fin.sum_univ_four]

lemma signAmp_sq : signAmp * signAmp = 1 := by
  ext i j
  fin_cases i <;> fin_cases j <;> simp [signAmp, Matrix.mul_apply, Fin.sum_univ_four]

lemma up_delta (kx : ℂ) (e : Tensor) :
    upField * buildDelta (-kx) e = -(buildDelta kx (flipY.map Complex.ofReal * e * (flipY.map Complex.ofReal)ᵀ) * upField) := by
  have h := conj_sign flipY (-1) 1 (-1) rfl e
  generalize flipY.map Complex.ofReal * e * (flipY.map Complex.ofReal)ᵀ = e' at *
  unfold buildDelta
  simp only [h]
  ext i j
  fin_cases i <;> fin_cases j <;> simp [upField, Matrix.mul_apply, Fin.sum_univ_four] <;> ring

lemma slabs_up (kx : ℂ) (lbda : ℝ) (layers : List (ℝ × Tensor)) :
    slabs kx lbda (layers.map fun l => (l.1, flipY.map Complex.ofReal * l.2 * (flipY.map Complex.ofReal)ᵀ)).reverse *
      (upField * slabs (-kx) lbda layers * upField) = 1 := by
  induction layers with
  | nil => simp [slabs, upField_sq]
  | cons l ls ih =>
    have hu : IsUnit upField := IsUnit.of_mul_eq_one _ upField_sq
    have h1 := prop_intertwine_neg hu (up_delta kx l.2) (-l.1) lbda
    rw [neg_neg] at h1
    have h2 := prop_inv (buildDelta kx (flipY.map Complex.ofReal * l.2 * (flipY.map Complex.ofReal)ᵀ)) (-l.1) lbda
    rw [neg_neg] at h2
    simp only [slabs, List.map_cons, List.reverse_cons, List.map_append, List.prod_append, List.map_nil, List.prod_cons, List.prod_nil,
      Matrix.mul_one] at ih ⊢
    generalize (List.map (fun l => propExpm (buildDelta (-kx) l.2) (-l.1) lbda) ls).prod = Q at *
    generalize (List.map (fun l => propExpm (buildDelta kx l.2) (-l.1) lbda)
      (List.map (fun l => (l.1, flipY.map Complex.ofReal * l.2 * (flipY.map Complex.ofReal)ᵀ)) ls).reverse).prod = V at *
    generalize propExpm (buildDelta kx (flipY.map Complex.ofReal * l.2 * (flipY.map Complex.ofReal)ᵀ)) (-l.1) lbda = P' at *
    generalize propExpm (buildDelta kx (flipY.map Complex.ofReal * l.2 * (flipY.map Complex.ofReal)ᵀ)) l.1 lbda = P'' at *
    generalize propExpm (buildDelta (-kx) l.2) (-l.1) lbda = P at *
    calc V * P' * (upField * (P * Q) * upField) = V * (P' * (upField * P)) * Q * upField := by simp only [Matrix.mul_assoc]
      _ = V * ((P' * P'') * upField * Q * upField) := by rw [h1]; simp only [Matrix.mul_assoc]
      _ = 1 := by rw [h2, Matrix.one_mul, ih]

lemma lorentz_up : upField * lorentz = -(lorentz * upField) := by
  ext i j
  fin_cases i <;> fin_cases j <;> simp [upField, lorentz, Matrix.mul_apply, Fin.sum_univ_four]

lemma lorentz_up_isoHalf (kx : ℂ) (e : Tensor) :
    (isoHalf kx e)ᵀ * lorentz * (upField * isoHalf kx e) = (2 * (nOf e * cosPhi kx e)) • signAmp := by
  unfold isoHalf lorentz upField signAmp
  generalize nOf e = n
  generalize cosPhi kx e = c
  ext i j
  fin_cases i <;> fin_cases j <;> simp [Matrix.mul_apply, Fin.sum_univ_four] <;> ring

lemma slabs_upside_down (kx : ℂ) (lbda : ℝ) (layers : List (ℝ × Tensor)) (hs : ∀ l ∈ layers, ∀ i j, l.2 i j = l.2 j i) :
    slabs kx lbda (layers.map fun l => (l.1, flipY.map Complex.ofReal * l.2 * (flipY.map Complex.ofReal)ᵀ)).reverse =
      -(upField * lorentz * (slabs kx lbda layers)ᵀ * lorentz * upField) := by
  have h1 := slabs_up kx lbda layers
  have h2 := lorentz_slabs kx lbda layers hs
  generalize slabs kx lbda (layers.map fun l => (l.1, flipY.map Complex.ofReal * l.2 * (flipY.map Complex.ofReal)ᵀ)).reverse = V at *
  generalize slabs kx lbda layers = L at *
  generalize slabs (-kx) lbda layers = L' at *
  -- a right inverse of the second factor
  have h3 : Lᵀ * lorentz * L' = lorentz := by
    have := congrArg Matrix.transpose h2
    simp only [Matrix.transpose_mul, Matrix.transpose_transpose, lorentz_transpose] at this
    have h4 : -(Lᵀ * lorentz * L') = -lorentz := by
      rw [← this]; simp only [Matrix.neg_mul, Matrix.mul_neg, Matrix.mul_assoc]
    exact neg_injective h4
  have h5 : (upField * L' * upField) * V = 1 := mul_eq_one_comm.1 h1
  have h6 : -(upField * lorentz * Lᵀ * lorentz * upField) * (upField * L' * upField) = 1 := by
    calc -(upField * lorentz * Lᵀ * lorentz * upField) * (upField * L' * upField)
        = -(upField * lorentz * (Lᵀ * lorentz * (upField * upField) * L') * upField) := by
          simp only [Matrix.neg_mul, Matrix.mul_assoc]
      _ = -(upField * (lorentz * lorentz) * upField) := by
          rw [upField_sq, Matrix.mul_one, h3]; simp only [Matrix.mul_assoc]
      _ = 1 := by rw [lorentz_sq]; simp [upField_sq]
  calc V = (-(upField * lorentz * Lᵀ * lorentz * upField) * (upField * L' * upField)) * V := by rw [h6, Matrix.one_mul]
    _ = -(upField * lorentz * Lᵀ * lorentz * upField) := by rw [Matrix.mul_assoc, h5, Matrix.mul_one]

/-- The transfer matrix of the sample turned upside down. -/
lemma transfer_upside_down (s : Stack) (theta theta' lbda : ℝ) (ee ee') (hb : s.backIsotropic = true) (hs : Symmetric s)
    (hk : kxOf (upsideDown s) theta' = kxOf s theta) (hn : nOf s.front ≠ 0) (hc : cosPhi (kxOf s theta) s.front ≠ 0)
    (hn' : nOf s.back ≠ 0) (hc' : cosPhi (kxOf s theta) s.back ≠ 0) :
    transfer4x4 propExpm (upsideDown s) theta' lbda ee' =
      ((nOf s.front * cosPhi (kxOf s theta) s.front) / (nOf s.back * cosPhi (kxOf s theta) s.back)) •
        (signAmp * (transfer4x4 propExpm s theta lbda ee)ᵀ * signAmp) := by
  rw [transfer_slabs, transfer_slabs, hk]
  have hl : slabs (kxOf s theta) lbda (upsideDown s).layers = _ := slabs_upside_down (kxOf s theta) lbda s.layers hs
  have hf : (upsideDown s).front = s.back := rfl
  have hbk : (upsideDown s).back = s.front := rfl
  have hbi : (upsideDown s).backIsotropic = true := rfl
  simp only [exitMatrix, hb, hbi, hf, hbk, if_true, hl]
  have b1 := lorentz_up_isoHalf (kxOf s theta) s.back
  have f1 := lorentz_up_isoHalf (kxOf s theta) s.front
  have b2 := isoHalf_mul_inv (kxOf s theta) s.back hn' hc'
  have b3 := isoHalfInv_mul (kxOf s theta) s.back hn' hc'
  have f2 := isoHalf_mul_inv (kxOf s theta) s.front hn hc
  have hz : nOf s.back * cosPhi (kxOf s theta) s.back ≠ 0 := mul_ne_zero hn' hc'
  generalize nOf s.back * cosPhi (kxOf s theta) s.back = b at *
  generalize nOf s.front * cosPhi (kxOf s theta) s.front = f at *
  generalize isoHalf (kxOf s theta) s.back = B at *
  generalize isoHalfInv (kxOf s theta) s.back = B' at *
  generalize isoHalf (kxOf s theta) s.front = F at *
  generalize isoHalfInv (kxOf s theta) s.front = F' at *
  generalize slabs (kxOf s theta) lbda s.layers = L at *
  have b4 : B'ᵀ * Bᵀ = 1 := by rw [← Matrix.transpose_mul, b2, Matrix.transpose_one]
  have f4 : F'ᵀ * Fᵀ = 1 := by rw [← Matrix.transpose_mul, f2, Matrix.transpose_one]
  have b5 : Bᵀ * B'ᵀ = 1 := mul_eq_one_comm.1 b4
  have y1 : (B' * upField * lorentz * B'ᵀ) * ((2 * b) • signAmp) = -1 := by
    rw [← b1]
    calc B' * upField * lorentz * B'ᵀ * (Bᵀ * lorentz * (upField * B))
        = B' * upField * lorentz * (B'ᵀ * Bᵀ) * lorentz * (upField * B) := by simp only [Matrix.mul_assoc]
      _ = B' * upField * (lorentz * lorentz) * (upField * B) := by rw [b4]; simp only [Matrix.mul_one, Matrix.mul_assoc]
      _ = -(B' * (upField * upField) * B) := by
          rw [lorentz_sq]; simp only [Matrix.mul_neg, Matrix.mul_one, Matrix.neg_mul, Matrix.mul_assoc]
      _ = -1 := by rw [upField_sq, Matrix.mul_one, b3]
  have y2 : B' * upField * lorentz * B'ᵀ = -((2 * b)⁻¹ • signAmp) := by
    have h2b : (2 * b) ≠ 0 := mul_ne_zero two_ne_zero hz
    calc B' * upField * lorentz * B'ᵀ = (B' * upField * lorentz * B'ᵀ) * ((2 * b) • signAmp) * ((2 * b)⁻¹ • signAmp) := by
          have e : ((2 * b) • signAmp : Mat4) * ((2 * b)⁻¹ • signAmp) = 1 := by
            rw [Matrix.mul_smul, Matrix.smul_mul, smul_smul, inv_mul_cancel₀ h2b, one_smul, signAmp_sq]
          rw [Matrix.mul_assoc _ ((2 * b) • signAmp), e, Matrix.mul_one]
      _ = _ := by rw [y1, Matrix.neg_mul, Matrix.one_mul]
  have hM : (F' * (L * B))ᵀ = Bᵀ * Lᵀ * F'ᵀ := by simp only [Matrix.transpose_mul]
  have hX : Lᵀ = B'ᵀ * (Bᵀ * Lᵀ * F'ᵀ) * Fᵀ := by
    calc Lᵀ = (B'ᵀ * Bᵀ) * Lᵀ * (F'ᵀ * Fᵀ) := by rw [b4, f4, Matrix.one_mul, Matrix.mul_one]
      _ = _ := by simp only [Matrix.mul_assoc]
  rw [hM]
  generalize Bᵀ * Lᵀ * F'ᵀ = M at *
  clear hl hM
  generalize Lᵀ = X at *
  subst hX
  calc B' * (-(upField * lorentz * (B'ᵀ * M * Fᵀ) * lorentz * upField) * F)
      = -((B' * upField * lorentz * B'ᵀ) * M * (Fᵀ * lorentz * (upField * F))) := by
        simp only [Matrix.neg_mul, Matrix.mul_neg, Matrix.mul_assoc]
    _ = (f / b) • (signAmp * M * signAmp) := by
        rw [y2, f1, Matrix.neg_mul, Matrix.neg_mul, neg_neg, Matrix.smul_mul, Matrix.smul_mul, Matrix.mul_smul, smul_smul]
        congr 1
        field_simp

lemma inv_smul_any {z : ℂ} (hz : z ≠ 0) (A : Mat2) : (z • A)⁻¹ = z⁻¹ • A⁻¹ := by
  have h : (z • (1 : Mat2))⁻¹ = z⁻¹ • (1 : Mat2) := Matrix.inv_eq_right_inv (by
    rw [Matrix.smul_mul, Matrix.mul_smul, smul_smul, mul_inv_cancel₀ hz, one_smul, Matrix.one_mul])
  calc (z • A)⁻¹ = ((z • (1 : Mat2)) * A)⁻¹ := by rw [Matrix.smul_mul, Matrix.one_mul]
    _ = z⁻¹ • A⁻¹ := by rw [Matrix.mul_inv_rev, h, Matrix.mul_smul, Matrix.mul_one]

lemma tIt_sign (m : Mat4) (z : ℂ) : tIt (z • (signAmp * mᵀ * signAmp)) = z • (!![1, 0; 0, -1] * (tIt m)ᵀ * !![1, 0; 0, -1]) := by
  ext i j
  fin_cases i <;> fin_cases j <;>
    simp [tIt, signAmp, Matrix.mul_apply, Matrix.vecMul, dotProduct, Fin.sum_univ_four, Fin.sum_univ_two]

/-- C81: the transmission amplitudes of a non-gyrotropic sample for light that comes from the other side (at the same tangential wave number) are
the transposed ones, scaled with the ratio of the normal wave numbers; cross terms change sign with the direction of the p axis. -/
theorem C81_amplitudes (s : Stack) (theta theta' lbda : ℝ) (ee ee') (hb : s.backIsotropic = true) (hs : Symmetric s)
    (hk : kxOf (upsideDown s) theta' = kxOf s theta) (hn : nOf s.front ≠ 0) (hc : cosPhi (kxOf s theta) s.front ≠ 0)
    (hn' : nOf s.back ≠ 0) (hc' : cosPhi (kxOf s theta) s.back ≠ 0) (i j : Fin 2) :
    (calculate4x4 propExpm (upsideDown s) theta' lbda ee').jt i j =
      (if i = j then 1 else -1) * ((nOf s.back * cosPhi (kxOf s theta) s.back) / (nOf s.front * cosPhi (kxOf s theta) s.front)) *
        (calculate4x4 propExpm s theta lbda ee).jt j i := by
  simp only [calculate4x4]
  rw [transfer_upside_down s theta theta' lbda ee ee' hb hs hk hn hc hn' hc', tIt_sign]
  generalize transfer4x4 propExpm s theta lbda ee = m
  have hf : nOf s.front * cosPhi (kxOf s theta) s.front ≠ 0 := mul_ne_zero hn hc
  have hbz : nOf s.back * cosPhi (kxOf s theta) s.back ≠ 0 := mul_ne_zero hn' hc'
  rw [inv_smul_any (div_ne_zero hf hbz), inv_div, Matrix.mul_inv_rev, Matrix.mul_inv_rev, sgn_inv, ← Matrix.transpose_nonsing_inv]
  generalize (tIt m)⁻¹ = t
  generalize nOf s.back * cosPhi (kxOf s theta) s.back = b at *
  generalize nOf s.front * cosPhi (kxOf s theta) s.front = f at *
  fin_cases i <;> fin_cases j <;>
    simp [Matrix.mul_apply, Matrix.vecMul, dotProduct, Fin.sum_univ_two]

lemma cosPhi_snell {e : Tensor} {n th : ℝ} (h0 : 0 < n) (he : e 0 0 = ((n ^ 2 : ℝ) : ℂ)) (hth : |th| < 90) :
    nOf e = (n : ℂ) ∧ cosPhi ((n * Real.sin (deg2rad th) : ℝ) : ℂ) e = (Real.cos (deg2rad th) : ℂ) ∧
      getKz e ((n * Real.sin (deg2rad th) : ℝ) : ℂ) = ((n * Real.cos (deg2rad th) : ℝ) : ℂ) := by
  have hn : nOf e = (n : ℂ) := by
    unfold nOf
    rw [he, csqrt_ofReal (by positivity), Real.sqrt_sq h0.le]
  have hc := cos_pos_of_angle hth
  have hs := Real.sin_sq_add_cos_sq (deg2rad th)
  refine ⟨hn, ?_, ?_⟩
  · unfold cosPhi
    rw [hn]
    have : (1 : ℂ) - (((n * Real.sin (deg2rad th) : ℝ) : ℂ) / (n : ℂ)) ^ 2 = ((Real.cos (deg2rad th) ^ 2 : ℝ) : ℂ) := by
      have e1 : ((n * Real.sin (deg2rad th) : ℝ) : ℂ) / (n : ℂ) = ((Real.sin (deg2rad th) : ℝ) : ℂ) := by
        rw [Complex.ofReal_mul, mul_div_cancel_left₀ _ (by exact_mod_cast h0.ne')]
      rw [e1, ← Complex.ofReal_one, ← Complex.ofReal_pow, ← Complex.ofReal_sub]
      congr 1
      linarith
    rw [this, csqrt_ofReal (by positivity), Real.sqrt_sq hc.le]
  · unfold getKz
    rw [hn]
    have : (n : ℂ) ^ 2 - ((n * Real.sin (deg2rad th) : ℝ) : ℂ) ^ 2 = (((n * Real.cos (deg2rad th)) ^ 2 : ℝ) : ℂ) := by
      rw [← Complex.ofReal_pow, ← Complex.ofReal_pow, ← Complex.ofReal_sub]
      congr 1
      linear_combination -n ^ 2 * hs
    rw [this, csqrt_ofReal (by positivity), Real.sqrt_sq (by positivity)]

/-- C81: between transparent half spaces the transmittances of a non-gyrotropic sample (absorbing or not) are the same from both sides, with the two
polarisations exchanged for the cross terms; the angles belong together by Snell's law. -/
theorem C81_transmittance (s : Stack) (n0 nb theta theta' lbda : ℝ) (ee ee') (hn0 : 0 < n0) (hnb : 0 < nb)
    (hf : s.front 0 0 = ((n0 ^ 2 : ℝ) : ℂ)) (hbk : s.back 0 0 = ((nb ^ 2 : ℝ) : ℂ)) (hth : |theta| < 90) (hth' : |theta'| < 90)
    (hsnell : nb * Real.sin (deg2rad theta') = n0 * Real.sin (deg2rad theta)) (hb : s.backIsotropic = true) (hs : Symmetric s)
    (jones : Fin 2 → ℂ) (i j : Fin 2) :
    let a := calculate4x4 propExpm s theta lbda ee
    let b := calculate4x4 propExpm (upsideDown s) theta' lbda ee'
    (Result.mk' b.jr b.jt b.power jones).TMatrix i j = (Result.mk' a.jr a.jt a.power jones).TMatrix j i ∧
      (Result.mk' b.jr b.jt b.power jones).T = (Result.mk' a.jr a.jt a.power jones).T := by
  obtain ⟨f1, f2, f3⟩ := cosPhi_snell hn0 hf hth
  obtain ⟨b1, b2, b3⟩ := cosPhi_snell hnb hbk hth'
  have hk : kxOf s theta = ((n0 * Real.sin (deg2rad theta) : ℝ) : ℂ) := kxOf_real hn0 hf theta
  have hk' : kxOf (upsideDown s) theta' = kxOf s theta := by
    rw [hk, ← hsnell]
    exact kxOf_real (s := upsideDown s) hnb hbk theta'
  rw [hsnell] at b2 b3
  have c1 := cos_pos_of_angle hth
  have c2 := cos_pos_of_angle hth'
  have hA := C81_amplitudes s theta theta' lbda ee ee' hb hs hk' (by rw [f1]; exact_mod_cast hn0.ne')
    (by rw [hk, f2]; exact_mod_cast c1.ne') (by rw [b1]; exact_mod_cast hnb.ne') (by rw [hk, b2]; exact_mod_cast c2.ne')
  rw [hk, f1, f2, b1, b2] at hA
  have p1 : (calculate4x4 propExpm s theta lbda ee).power =
      some ((nb * Real.cos (deg2rad theta')) / (n0 * Real.cos (deg2rad theta))) := by
    simp only [calculate4x4, hb, if_true, hk, f3, b3, Complex.ofReal_re]
  have p2 : (calculate4x4 propExpm (upsideDown s) theta' lbda ee').power =
      some ((n0 * Real.cos (deg2rad theta)) / (nb * Real.cos (deg2rad theta'))) := by
    have e1 : (upsideDown s).backIsotropic = true := rfl
    have e2 : (upsideDown s).front = s.back := rfl
    have e3 : (upsideDown s).back = s.front := rfl
    simp only [calculate4x4, e1, e2, e3, if_true, hk', hk, f3, b3, Complex.ofReal_re]
  have key : ∀ i j : Fin 2, ‖(calculate4x4 propExpm (upsideDown s) theta' lbda ee').jt i j‖ ^ 2 *
      ((n0 * Real.cos (deg2rad theta)) / (nb * Real.cos (deg2rad theta'))) =
      ‖(calculate4x4 propExpm s theta lbda ee).jt j i‖ ^ 2 * ((nb * Real.cos (deg2rad theta')) / (n0 * Real.cos (deg2rad theta))) := by
    intro i j
    rw [hA i j, norm_mul, norm_mul]
    have e1 : ‖(if i = j then (1 : ℂ) else -1)‖ = 1 := by split_ifs <;> simp
    have e2 : ‖((nb : ℂ) * (Real.cos (deg2rad theta') : ℂ)) / ((n0 : ℂ) * (Real.cos (deg2rad theta) : ℂ))‖ =
        (nb * Real.cos (deg2rad theta')) / (n0 * Real.cos (deg2rad theta)) := by
      rw [← Complex.ofReal_mul, ← Complex.ofReal_mul, ← Complex.ofReal_div, Complex.norm_real, Real.norm_of_nonneg (by positivity)]
    rw [e1, e2]
    field_simp
  constructor
  · simp only [Result.mk', Result.TMatrix, p1, p2, Option.getD_some]
    exact key i j
  · simp only [Result.T, Result.mk', Result.TMatrix, p1, p2, Option.getD_some]
    rw [key 0 0, key 1 1]

/-! ## C82: index-matched layers -/

/-- Phase (complex in absorbing media) that a plane wave collects in a slab of the medium `e`. -/
noncomputable def slabPhase (kx : ℂ) (e : Tensor) (d lbda : ℝ) : ℂ := 2 * Real.pi * nOf e * cosPhi kx e / lbda * d

lemma matched_layer (kx : ℂ) (e : Tensor) (d lbda : ℝ) (hn : nOf e ≠ 0) (hc : cosPhi kx e ≠ 0) :
    propExpm (buildDelta kx (isoTensor (e 0 0))) (-d) lbda * isoHalf kx e =
      isoHalf kx e * blkD !![Complex.exp (-I * slabPhase kx e d lbda), 0; 0, Complex.exp (I * slabPhase kx e d lbda)]
        !![Complex.exp (-I * slabPhase kx e d lbda), 0; 0, Complex.exp (I * slabPhase kx e d lbda)] := by
  have hc2 : cosPhi kx e ^ 2 = 1 - (kx / nOf e) ^ 2 := csqrt_sq _
  have h1 := charS_mul (kx := kx) (eps := e 0 0) hn hc (nOf_sq e) hc2 lbda d
  have h2 := charP_mul (kx := kx) (eps := e 0 0) hn hc (nOf_sq e) hc2 lbda d
  rw [propExpm_iso, isoHalf_eq, blk_mul_blkC, h1, h2]
  unfold slabPhase
  generalize (!![Complex.exp (-I * (2 * Real.pi * nOf e * cosPhi kx e / lbda * d)), 0; 0,
    Complex.exp (I * (2 * Real.pi * nOf e * cosPhi kx e / lbda * d))] : Mat2) = M
  unfold blkC blkD
  ext i j
  fin_cases i <;> fin_cases j <;> simp [Matrix.mul_apply, Fin.sum_univ_two, Fin.sum_univ_four]

/-- C82: a layer of the exit material in front of the exit half space changes neither reflection nor anything but the phase (and, in an absorbing medium,
Beer-Lambert attenuation) of transmission, whatever lies above. -/
theorem C82_exit_side (s : Stack) (d theta lbda : ℝ) (ee ee') (hb : s.backIsotropic = true) (hn : nOf s.back ≠ 0)
    (hc : cosPhi (kxOf s theta) s.back ≠ 0) :
    let s' : Stack := { s with layers := s.layers ++ [(d, isoTensor (s.back 0 0))] }
    (calculate4x4 propExpm s' theta lbda ee').jr = (calculate4x4 propExpm s theta lbda ee).jr ∧
    (calculate4x4 propExpm s' theta lbda ee').jt =
      Complex.exp (I * slabPhase (kxOf s theta) s.back d lbda) • (calculate4x4 propExpm s theta lbda ee).jt ∧
    (calculate4x4 propExpm s' theta lbda ee').power = (calculate4x4 propExpm s theta lbda ee).power := by
  intro s'
  have hk : kxOf s' theta = kxOf s theta := rfl
  have hT : transfer4x4 propExpm s' theta lbda ee' = transfer4x4 propExpm s theta lbda ee *
      blkD !![Complex.exp (-I * slabPhase (kxOf s theta) s.back d lbda), 0; 0, Complex.exp (I * slabPhase (kxOf s theta) s.back d lbda)]
        !![Complex.exp (-I * slabPhase (kxOf s theta) s.back d lbda), 0; 0, Complex.exp (I * slabPhase (kxOf s theta) s.back d lbda)] := by
    rw [transfer_slabs, transfer_slabs, hk]
    have e1 : s'.front = s.front := rfl
    have e2 : s'.back = s.back := rfl
    have e3 : s'.backIsotropic = true := hb
    have e4 : slabs (kxOf s theta) lbda s'.layers = slabs (kxOf s theta) lbda s.layers *
        propExpm (buildDelta (kxOf s theta) (isoTensor (s.back 0 0))) (-d) lbda := by
      simp only [slabs, s', List.map_append, List.prod_append, List.map_cons, List.map_nil, List.prod_cons, List.prod_nil, Matrix.mul_one]
    simp only [exitMatrix, e1, e2, e3, e4, hb, if_true]
    rw [Matrix.mul_assoc (slabs _ _ _), matched_layer _ _ _ _ hn hc]
    simp only [Matrix.mul_assoc]
  simp only [calculate4x4, hT]
  have hz : Complex.exp (-I * slabPhase (kxOf s theta) s.back d lbda) ≠ 0 := Complex.exp_ne_zero _
  have hi : (Complex.exp (-I * slabPhase (kxOf s theta) s.back d lbda))⁻¹ = Complex.exp (I * slabPhase (kxOf s theta) s.back d lbda) := by
    rw [← Complex.exp_neg]; congr 1; ring
  generalize transfer4x4 propExpm s theta lbda ee = m at *
  rw [← hi]
  generalize Complex.exp (-I * slabPhase (kxOf s theta) s.back d lbda) = z at *
  have h1 : tIt (m * blkD !![z, 0; 0, z⁻¹] !![z, 0; 0, z⁻¹]) = z • tIt m := by
    ext i j
    fin_cases i <;> fin_cases j <;> simp [tIt, blkD, Matrix.mul_apply, Fin.sum_univ_four, mul_comm]
  have h2 : tRt (m * blkD !![z, 0; 0, z⁻¹] !![z, 0; 0, z⁻¹]) = z • tRt m := by
    ext i j
    fin_cases i <;> fin_cases j <;> simp [tRt, blkD, Matrix.mul_apply, Fin.sum_univ_four, mul_comm]
  rw [h1, h2, inv_smul_any hz]
  refine ⟨?_, rfl, rfl⟩
  rw [Matrix.smul_mul, Matrix.mul_smul, smul_smul, mul_inv_cancel₀ hz, one_smul]

/-- C82: a layer of the front material on top of the sample only adds the phase of the way down (and up again for reflection). -/
theorem C82_front_side (s : Stack) (d theta lbda : ℝ) (ee ee') (hb : s.backIsotropic = true) (hn : nOf s.front ≠ 0)
    (hc : cosPhi (kxOf s theta) s.front ≠ 0) :
    let s' : Stack := { s with layers := (d, isoTensor (s.front 0 0)) :: s.layers }
    (calculate4x4 propExpm s' theta lbda ee').jr =
      Complex.exp (2 * I * slabPhase (kxOf s theta) s.front d lbda) • (calculate4x4 propExpm s theta lbda ee).jr ∧
    (calculate4x4 propExpm s' theta lbda ee').jt =
      Complex.exp (I * slabPhase (kxOf s theta) s.front d lbda) • (calculate4x4 propExpm s theta lbda ee).jt := by
  intro s'
  have hk : kxOf s' theta = kxOf s theta := rfl
  have hT : transfer4x4 propExpm s' theta lbda ee' =
      blkD !![Complex.exp (-I * slabPhase (kxOf s theta) s.front d lbda), 0; 0, Complex.exp (I * slabPhase (kxOf s theta) s.front d lbda)]
        !![Complex.exp (-I * slabPhase (kxOf s theta) s.front d lbda), 0; 0, Complex.exp (I * slabPhase (kxOf s theta) s.front d lbda)] *
      transfer4x4 propExpm s theta lbda ee := by
    rw [transfer_slabs, transfer_slabs, hk]
    have e1 : s'.front = s.front := rfl
    have e2 : s'.back = s.back := rfl
    have e3 : s'.backIsotropic = true := hb
    have e4 : slabs (kxOf s theta) lbda s'.layers = propExpm (buildDelta (kxOf s theta) (isoTensor (s.front 0 0))) (-d) lbda *
        slabs (kxOf s theta) lbda s.layers := by
      simp only [slabs, s', List.map_cons, List.prod_cons]
    simp only [exitMatrix, e1, e2, e3, e4, hb, if_true]
    have h1 := matched_layer (kxOf s theta) s.front d lbda hn hc
    have h2 := isoHalf_mul_inv (kxOf s theta) s.front hn hc
    have h3 := isoHalfInv_mul (kxOf s theta) s.front hn hc
    generalize propExpm (buildDelta (kxOf s theta) (isoTensor (s.front 0 0))) (-d) lbda = P at *
    generalize isoHalf (kxOf s theta) s.front = F at *
    generalize isoHalfInv (kxOf s theta) s.front = F' at *
    generalize (blkD _ _ : Mat4) = D at *
    have h4 : F' * P = D * F' := by
      calc F' * P = F' * (P * (F * F')) := by rw [h2, Matrix.mul_one]
        _ = F' * (P * F) * F' := by simp only [Matrix.mul_assoc]
        _ = (F' * F) * D * F' := by rw [h1]; simp only [Matrix.mul_assoc]
        _ = D * F' := by rw [h3, Matrix.one_mul]
    simp only [← Matrix.mul_assoc]
    rw [h4]
  simp only [calculate4x4, hT]
  have hz : Complex.exp (-I * slabPhase (kxOf s theta) s.front d lbda) ≠ 0 := Complex.exp_ne_zero _
  have hi : (Complex.exp (-I * slabPhase (kxOf s theta) s.front d lbda))⁻¹ = Complex.exp (I * slabPhase (kxOf s theta) s.front d lbda) := by
    rw [← Complex.exp_neg]; congr 1; ring
  have h2 : Complex.exp (2 * I * slabPhase (kxOf s theta) s.front d lbda) =
      (Complex.exp (-I * slabPhase (kxOf s theta) s.front d lbda))⁻¹ * (Complex.exp (-I * slabPhase (kxOf s theta) s.front d lbda))⁻¹ := by
    rw [hi, ← Complex.exp_add]; congr 1; ring
  rw [h2]
  generalize transfer4x4 propExpm s theta lbda ee = m at *
  rw [← hi]
  generalize Complex.exp (-I * slabPhase (kxOf s theta) s.front d lbda) = z at *
  have h1 : tIt (blkD !![z, 0; 0, z⁻¹] !![z, 0; 0, z⁻¹] * m) = z • tIt m := by
    ext i j
    fin_cases i <;> fin_cases j <;> simp [tIt, blkD, Matrix.mul_apply, Matrix.vecMul, dotProduct, Fin.sum_univ_four]
  have h2 : tRt (blkD !![z, 0; 0, z⁻¹] !![z, 0; 0, z⁻¹] * m) = z⁻¹ • tRt m := by
    ext i j
    fin_cases i <;> fin_cases j <;> simp [tRt, blkD, Matrix.mul_apply, Matrix.vecMul, dotProduct, Fin.sum_univ_four]
  rw [h1, h2, inv_smul_any hz]
  refine ⟨?_, rfl⟩
  rw [Matrix.smul_mul, Matrix.mul_smul, smul_smul]

/-- C82, Beer-Lambert: at normal incidence a layer of thickness `d` of an absorbing exit material with index `n + i k` attenuates the transmitted power by
`exp (-4 π k d / λ)` and leaves the reflectances unchanged. -/
theorem C82_beer_lambert (s : Stack) (d lbda : ℝ) (ee ee') (hb : s.backIsotropic = true) (n : ℂ) (hnn : nOf s.back = n) (hn : n ≠ 0)
    (jones : Fin 2 → ℂ) (i j : Fin 2) :
    let s' : Stack := { s with layers := s.layers ++ [(d, isoTensor (s.back 0 0))] }
    let a := calculate4x4 propExpm s 0 lbda ee
    let b := calculate4x4 propExpm s' 0 lbda ee'
    (Result.mk' b.jr b.jt b.power jones).RMatrix i j = (Result.mk' a.jr a.jt a.power jones).RMatrix i j ∧
    (Result.mk' b.jr b.jt b.power jones).TMatrix i j =
      Real.exp (-(4 * Real.pi * n.im * d / lbda)) * (Result.mk' a.jr a.jt a.power jones).TMatrix i j := by
  intro s' a b
  have hc : cosPhi (kxOf s 0) s.back = 1 := by rw [kxOf_zero, cosPhi_zero]
  obtain ⟨h1, h2, h3⟩ := C82_exit_side s d 0 lbda ee ee' hb (by rw [hnn]; exact hn) (by rw [hc]; exact one_ne_zero)
  have e1 : b.jr = a.jr := h1
  have e2 : b.jt = Complex.exp (I * slabPhase (kxOf s 0) s.back d lbda) • a.jt := h2
  have e3 : b.power = a.power := h3
  refine ⟨by simp only [Result.RMatrix, Result.mk', e1], ?_⟩
  simp only [Result.TMatrix, Result.mk', e2, e3, Matrix.smul_apply, smul_eq_mul, norm_mul, mul_pow]
  have : ‖Complex.exp (I * slabPhase (kxOf s 0) s.back d lbda)‖ ^ 2 = Real.exp (-(4 * Real.pi * n.im * d / lbda)) := by
    rw [Complex.norm_exp, ← Real.exp_nat_mul]
    congr 1
    unfold slabPhase
    rw [hc, hnn]
    have : I * (2 * (Real.pi : ℂ) * n * 1 / (lbda : ℂ) * (d : ℂ)) = ((2 * Real.pi / lbda * d : ℝ) : ℂ) * (I * n) := by
      push_cast; ring
    rw [this, Complex.re_ofReal_mul, Complex.I_mul_re]
    push_cast
    ring
  rw [this, mul_assoc]

/-! ## A sample that couples p and s waves meets the hypotheses -/

/-- A tensor with all entries different from zero. -/
noncomputable def tilted : Tensor := !![2, 1 / 4, 1 / 8; 1 / 4, 3, 1 / 8; 1 / 8, 1 / 8, 2]

/-- Air, 100 nm of the tilted material, exit medium of permittivity `eb`. -/
noncomputable def tiltedStack (eb : ℂ) : Stack := ⟨isoTensor 1, [(100, tilted)], isoTensor eb, true⟩

lemma tilted_symm (eb : ℂ) : Symmetric (tiltedStack eb) := by
  intro l hl i j
  simp only [tiltedStack, List.mem_singleton] at hl
  subst hl
  fin_cases i <;> fin_cases j <;> simp [tilted]

lemma tilted_lossless : Lossless tilted := by
  unfold Lossless Matrix.IsHermitian
  ext i j
  fin_cases i <;> fin_cases j <;> simp [tilted, Matrix.conjTranspose_apply]

example : PassiveStack (tiltedStack (4 + I)) 30 500 ∧ Symmetric (tiltedStack (4 + I)) ∧ (tiltedStack (4 + I)).layers ≠ [] := by
  refine ⟨⟨⟨1, one_pos, by simp [tiltedStack, isoTensor]⟩, by norm_num, by norm_num, ?_, ?_, ?_, rfl⟩, tilted_symm _, by simp [tiltedStack]⟩
  · intro l hl
    simp only [tiltedStack, List.mem_singleton] at hl
    subst hl
    exact ⟨by norm_num, by simp [tilted], lossless_passive tilted_lossless⟩
  · intro h
    have := congrArg Complex.im h
    simp [tiltedStack, isoTensor] at this
  · simp [tiltedStack, isoTensor]

example : ∃ theta' : ℝ, |theta'| < 90 ∧ (2 : ℝ) * Real.sin (deg2rad theta') = 1 * Real.sin (deg2rad 0) := ⟨0, by norm_num, by simp [deg2rad]⟩

/-- The angles of `C81_transmittance` exist whenever there is no total reflection. -/
example (n0 nb theta : ℝ) (hb : 0 < nb) (h : |n0 * Real.sin (deg2rad theta)| < nb) :
    ∃ theta' : ℝ, |theta'| < 90 ∧ nb * Real.sin (deg2rad theta') = n0 * Real.sin (deg2rad theta) := by
  obtain ⟨h1, h2⟩ := abs_lt.1 h
  refine ⟨Real.arcsin (n0 * Real.sin (deg2rad theta) / nb) * 180 / Real.pi, ?_, ?_⟩
  · have a1 : -(Real.pi / 2) < Real.arcsin (n0 * Real.sin (deg2rad theta) / nb) := by
      rw [Real.neg_pi_div_two_lt_arcsin, lt_div_iff₀ hb]; linarith
    have a2 : Real.arcsin (n0 * Real.sin (deg2rad theta) / nb) < Real.pi / 2 := by
      rw [Real.arcsin_lt_pi_div_two, div_lt_iff₀ hb]; linarith
    have hp := Real.pi_pos
    rw [abs_lt]
    constructor
    · rw [lt_div_iff₀ hp]; linarith
    · rw [div_lt_iff₀ hp]; linarith
  · have : deg2rad (Real.arcsin (n0 * Real.sin (deg2rad theta) / nb) * 180 / Real.pi) = Real.arcsin (n0 * Real.sin (deg2rad theta) / nb) := by
      unfold deg2rad
      field_simp
    rw [this, Real.sin_arcsin]
    · field_simp
    · rw [le_div_iff₀ hb]; linarith
    · rw [div_le_iff₀ hb]; linarith

/-- `C79_no_cross_polarisation` covers layers that are not isotropic. -/
example : ∀ l ∈ ([(50, !![2, 0, 1 / 2; 0, 3, 0; 1 / 2, 0, 4])] : List (ℝ × Tensor)), l.2 0 1 = 0 ∧ l.2 1 0 = 0 ∧ l.2 1 2 = 0 ∧ l.2 2 1 = 0 := by
  intro l hl
  simp only [List.mem_singleton] at hl
  subst hl
  simp

end PyElli
