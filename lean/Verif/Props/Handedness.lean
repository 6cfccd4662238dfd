import Verif.Props.Symmetry
import Verif.Props.Circular
import Verif.Props.Structure
import Verif.Props.Slicing

/-! # Left and right handed twists (C128) -/

namespace PyElli

open Matrix Complex Spec

/-- The structure with every twist reversed. -/
def reverseTwist : LayerObj → LayerObj
  | .layer m t => .layer m t
  | .twisted m t div angle => .twisted m t div (-angle)
  | .varying k h g t div md => .varying k h g t div md
  | .repeated ls n b a => .repeated (ls.map reverseTwist) n b a

/-- A permittivity that the mirror `y → -y` leaves unchanged: an axis along y. -/
def MirrorSame (e : NumTensor) : Prop := e 0 1 = some 0 ∧ e 1 0 = some 0 ∧ e 1 2 = some 0 ∧ e 2 1 = some 0

/-- Materials of the layers have an axis along y (twisted layers: before they are twisted). -/
inductive Untilted (lbda : ℝ) : LayerObj → Prop
  | layer (m : Material) (t : ℝ) (h : MirrorSame (m.getTensor lbda)) : Untilted lbda (.layer m t)
  | twisted (m : Material) (t : ℝ) (div : ℕ) (angle : ℝ) (h : MirrorSame (m.getTensor lbda)) : Untilted lbda (.twisted m t div angle)
  | varying (k : EmaKind) (hst gst : Material) (t : ℝ) (div : ℕ) (md : Option ℝ → Option ℝ)
      (h : ∀ sl ∈ (LayerObj.varying k hst gst t div md).profile lbda, MirrorSame sl.eps) : Untilted lbda (.varying k hst gst t div md)
  | repeated (ls : List LayerObj) (n b a : ℕ) (h : ∀ l ∈ ls, Untilted lbda l) : Untilted lbda (.repeated ls n b a)

/-- Mirror image of a tensor that may contain NaN. -/
noncomputable def mirrorNum (e : NumTensor) : NumTensor := fun i j => (e i j).map fun z => (if (i = 1) = (j = 1) then 1 else -1) * z

noncomputable def mirrorSlice (sl : Slice) : Slice := ⟨sl.d, mirrorNum sl.eps⟩

lemma mirrorNum_same {e : NumTensor} (h : MirrorSame e) : mirrorNum e = e := by
  obtain ⟨h1, h2, h3, h4⟩ := h
  funext i j
  unfold mirrorNum
  fin_cases i <;> fin_cases j <;> simp [h1, h2, h3, h4]

lemma mirrorSlice_same {sl : Slice} (h : MirrorSame sl.eps) : mirrorSlice sl = sl := by
  unfold mirrorSlice
  rw [mirrorNum_same h]

lemma mirrorNum_some (T : Tensor) : mirrorNum (fun i j => some (T i j)) = fun i j => some ((mirrorY.map Complex.ofReal * T * (mirrorY.map Complex.ofReal)ᵀ) i j) := by
  funext i j
  rw [conj_sign mirrorY 1 (-1) 1 rfl]
  unfold mirrorNum
  fin_cases i <;> fin_cases j <;> simp

lemma reverse_tensor (m : Material) (t angle lbda z : ℝ) (h : MirrorSame (m.getTensor lbda)) :
    twistedTensor m t (-angle) lbda z = mirrorNum (twistedTensor m t angle lbda z) := by
  unfold twistedTensor floatDiv
  by_cases ht : t = 0
  · simp only [ht, if_true]
    rfl
  · simp only [ht, if_false]
    by_cases hf : ∀ i j, (m.getTensor lbda i j).isSome = true
    · obtain ⟨T, hT⟩ : ∃ T : Tensor, m.getTensor lbda = fun i j => some (T i j) :=
        ⟨fun i j => (m.getTensor lbda i j).get (hf i j), by funext i j; simp⟩
      have hs := mirrorNum_same h
      rw [hT, mirrorNum_some] at hs
      have hs' : mirrorY.map Complex.ofReal * T * (mirrorY.map Complex.ofReal)ᵀ = T := by
        ext i j
        exact Option.some.inj (congrFun (congrFun hs i) j)
      rw [hT, rotateNum_some, rotateNum_some, mirrorNum_some, rotationVTheta_eZ, rotationVTheta_eZ]
      have e1 : ∀ x : ℝ, (Rz (-x)).map Complex.ofReal = mirrorY.map Complex.ofReal * (Rz x).map Complex.ofReal * (mirrorY.map Complex.ofReal)ᵀ := by
        intro x
        ext i j
        fin_cases i <;> fin_cases j <;> simp [Rz, mirrorY, Matrix.mul_apply, Fin.sum_univ_three]
      have e2 : (mirrorY.map Complex.ofReal : Tensor)ᵀ * mirrorY.map Complex.ofReal = 1 := by
        ext i j
        fin_cases i <;> fin_cases j <;> simp [mirrorY, Matrix.mul_apply, Fin.sum_univ_three]
      have e3 : -angle * z / t * Real.pi / 180 = -(angle * z / t * Real.pi / 180) := by ring
      rw [e3, e1]
      generalize (Rz (angle * z / t * Real.pi / 180)).map Complex.ofReal = R at *
      have e2' : (mirrorY.map Complex.ofReal : Tensor)ᵀ = mirrorY.map Complex.ofReal := by
        ext i j
        fin_cases i <;> fin_cases j <;> simp [mirrorY]
      generalize (mirrorY.map Complex.ofReal : Tensor) = Y at *
      have e4 : Y * R * Yᵀ * T * (Y * R * Yᵀ)ᵀ = Y * (R * T * Rᵀ) * Yᵀ := by
        calc Y * R * Yᵀ * T * (Y * R * Yᵀ)ᵀ = Y * R * (Yᵀ * T * Y) * Rᵀ * Yᵀ := by
              simp only [Matrix.transpose_mul, Matrix.transpose_transpose, Matrix.mul_assoc]
          _ = Y * (R * T * Rᵀ) * Yᵀ := by
              rw [e2'] at hs' ⊢
              rw [hs']
              simp only [Matrix.mul_assoc]
      rw [e4]
    · have hr : ∀ R, rotateNum R (m.getTensor lbda) = fun _ _ => none := fun R => dif_neg hf
      rw [hr, hr]
      rfl

lemma repeated_map {α β : Type*} (f : α → β) (l : List α) (n b a : ℕ) : repeatedSlices (l.map f) n b a = (repeatedSlices l n b a).map f := by
  unfold repeatedSlices
  simp only [List.length_map, List.map_append, List.map_flatten, List.map_replicate, List.map_take]
  split_ifs <;> simp

mutual
lemma reverse_profile {lbda : ℝ} (l : LayerObj) (h : Untilted lbda l) : (reverseTwist l).profile lbda = (l.profile lbda).map mirrorSlice := by
  cases h with
  | layer m t h =>
    simp only [reverseTwist, LayerObj.profile, List.map_cons, List.map_nil]
    rw [mirrorSlice_same h]
  | twisted m t div angle h =>
    simp only [reverseTwist, LayerObj.profile, inhomogeneousProfile_eq, List.map_map]
    refine List.map_congr_left fun k _ => ?_
    simp only [Function.comp_apply, mirrorSlice]
    rw [reverse_tensor m t angle lbda _ h]
  | varying k hst gst t div md h =>
    simp only [reverseTwist]
    exact ((List.map_congr_left fun sl hsl => mirrorSlice_same (h sl hsl)).trans (List.map_id _)).symm
  | repeated ls n b a h =>
    simp only [reverseTwist, LayerObj.profile]
    rw [reverse_profileList ls h, repeated_map]
lemma reverse_profileList {lbda : ℝ} (ls : List LayerObj) (h : ∀ l ∈ ls, Untilted lbda l) :
    profileList (ls.map reverseTwist) lbda = (profileList ls lbda).map mirrorSlice := by
  cases ls with
  | nil => rfl
  | cons l ls =>
    simp only [List.map_cons, profileList, List.map_append]
    rw [reverse_profile l (h l List.mem_cons_self), reverse_profileList ls fun x hx => h x (List.mem_cons_of_mem _ hx)]
end

lemma finite_mirror (sl : Slice) (e : Tensor) (h : sl.eps.finite? = some e) :
    (mirrorSlice sl).eps.finite? = some (mirrorY.map Complex.ofReal * e * (mirrorY.map Complex.ofReal)ᵀ) := by
  have he : sl.eps = fun i j => some (e i j) := by
    unfold NumTensor.finite? at h
    split_ifs at h with hf
    cases h
    funext i j
    simp
  unfold mirrorSlice
  simp only
  rw [he, mirrorNum_some, finite_some]

lemma finiteSlices_mirror (ls : List Slice) (r : List (ℝ × Tensor)) (h : finiteSlices ls = some r) :
    finiteSlices (ls.map mirrorSlice) = some (r.map fun l => (l.1, mirrorY.map Complex.ofReal * l.2 * (mirrorY.map Complex.ofReal)ᵀ)) := by
  induction ls generalizing r with
  | nil => simp only [finiteSlices] at h; cases h; rfl
  | cons a ls ih =>
    simp only [finiteSlices, Option.bind_eq_some_iff, Option.map_eq_some_iff] at h
    obtain ⟨e, he, r', hr', rfl⟩ := h
    simp only [List.map_cons, finiteSlices]
    rw [finite_mirror a e he, ih r' hr']
    rfl

lemma circ_mirror (J K : Mat2) (h : ∀ i j, K i j = (if i = j then 1 else -1) * J i j) (i j : Fin 2) : jonesTc K i j = jonesTc J (Fin.rev i) (Fin.rev j) := by
  have h00 := h 0 0
  have h01 := h 0 1
  have h10 := h 1 0
  have h11 := h 1 1
  simp only [jonesTc_explicit]
  fin_cases i <;> fin_cases j <;> simp [h00, h01, h10, h11] <;> ring

lemma power_moved (R : Mat3) (s : Stack) (theta lbda : ℝ) (ee ee') :
    (calculate4x4 propExpm (moved R s) theta lbda ee').power = (calculate4x4 propExpm s theta lbda ee).power := by
  obtain ⟨f, ls, b, bi⟩ := s
  unfold calculate4x4 moved kxOf
  rfl

lemma circ_mirror_R (res rev : Result) (hjr : ∀ i j, rev.jr i j = (if i = j then 1 else -1) * res.jr i j) (i j : Fin 2) :
    rev.RcMatrix i j = res.RcMatrix (Fin.rev i) (Fin.rev j) ∧ rev.RMatrix i j = res.RMatrix i j := by
  constructor
  · unfold Result.RcMatrix
    rw [jonesRc_explicit, jonesRc_explicit, Matrix.neg_apply, Matrix.neg_apply, norm_neg, norm_neg, circ_mirror _ _ hjr]
  · unfold Result.RMatrix
    rw [hjr]
    split_ifs <;> simp

lemma circ_mirror_T (res rev : Result) (hpow : rev.power = res.power) (hjt : ∀ i j, rev.jt i j = (if i = j then 1 else -1) * res.jt i j) (i j : Fin 2) :
    rev.TcMatrix i j = res.TcMatrix (Fin.rev i) (Fin.rev j) ∧ rev.TMatrix i j = res.TMatrix i j := by
  constructor
  · unfold Result.TcMatrix
    rw [hpow, circ_mirror _ _ hjt]
  · unfold Result.TMatrix
    rw [hpow, hjt]
    split_ifs <;> simp

lemma mirror_result (o o' : SolverOut) (hp : o'.power = o.power)
    (hm : ∀ i j, o'.jr i j = (if i = j then 1 else -1) * o.jr i j ∧ o'.jt i j = (if i = j then 1 else -1) * o.jt i j) (jones : Fin 2 → ℂ) :
    let res := Result.mk' o.jr o.jt o.power jones
    let rev := Result.mk' o'.jr o'.jt o'.power jones
    (∀ i j, rev.RcMatrix i j = res.RcMatrix (Fin.rev i) (Fin.rev j) ∧ rev.TcMatrix i j = res.TcMatrix (Fin.rev i) (Fin.rev j)) ∧
      ∀ i j, rev.RMatrix i j = res.RMatrix i j ∧ rev.TMatrix i j = res.TMatrix i j := by
  intro res rev
  have hpow : rev.power = res.power := by
    change (Result.mk' o'.jr o'.jt o'.power jones).power = (Result.mk' o.jr o.jt o.power jones).power
    rw [hp]
    rfl
  have hR := circ_mirror_R res rev fun i j => (hm i j).1
  have hT := circ_mirror_T res rev hpow fun i j => (hm i j).2
  exact ⟨fun i j => ⟨(hR i j).1, (hT i j).1⟩, fun i j => ⟨(hR i j).2, (hT i j).2⟩⟩

/-- C128: a structure whose materials have an axis along y, and the one with every twist reversed (also inside repeated layers), are mirror images: at every
angle and wavelength they give the same matrices for circular light with left and right exchanged, and the same p and s powers. -/
theorem C128_handedness (s : Struct) (lbda : ℝ) (st : Stack) (hst : s.stack lbda = some st) (hb : s.back.isIsotropicClass = true)
    (hL : ∀ l ∈ s.layers, Untilted lbda l) :
    ∃ st' : Stack, Struct.stack { s with layers := s.layers.map reverseTwist } lbda = some st' ∧
      ∀ theta ee ee' jones, let out := calculate4x4 propExpm st theta lbda ee
        let out' := calculate4x4 propExpm st' theta lbda ee'
        let res := Result.mk' out.jr out.jt out.power jones
        let rev := Result.mk' out'.jr out'.jt out'.power jones
        (∀ i j, rev.RcMatrix i j = res.RcMatrix (Fin.rev i) (Fin.rev j) ∧ rev.TcMatrix i j = res.TcMatrix (Fin.rev i) (Fin.rev j)) ∧
        ∀ i j, rev.RMatrix i j = res.RMatrix i j ∧ rev.TMatrix i j = res.TMatrix i j := by
  simp only [Struct.stack, Option.bind_eq_some_iff, Option.map_eq_some_iff] at hst
  obtain ⟨f, hf, ls, hls, b, hb', rfl⟩ := hst
  refine ⟨moved mirrorY ⟨f, ls, b, s.back.isIsotropicClass⟩, ?_, ?_⟩
  · simp only [Struct.stack, hf, hb', reverse_profileList s.layers hL, finiteSlices_mirror _ _ hls, Option.bind_some, Option.map_some, moved]
  · intro theta ee ee' jones
    exact mirror_result _ _ (power_moved _ _ _ _ _ _) (C79_mirror _ hb theta lbda ee ee') jones

/-- Hypotheses: a twisted nematic of a biaxial material in a repeated cell, with a plain film on top. -/
example : let m : Material := .single .biaxial (biaxialMaterial (fun _ => 3) (fun _ => 2) (fun _ => 2))
    ∀ l ∈ [LayerObj.layer m 50, .repeated [.twisted m 300 20 90, .layer m 10] 3 1 0], Untilted 500 l := by
  intro m l hl
  have hm : MirrorSame (m.getTensor 500) := by
    simp [m, MirrorSame, Material.getTensor, biaxialMaterial, SingleMaterial.getTensor]
  simp only [List.mem_cons, List.not_mem_nil, or_false] at hl
  rcases hl with rfl | rfl
  · exact .layer _ _ hm
  · refine .repeated _ _ _ _ fun x hx => ?_
    simp only [List.mem_cons, List.not_mem_nil, or_false] at hx
    rcases hx with rfl | rfl
    · exact .twisted _ _ _ _ hm
    · exact .layer _ _ hm

end PyElli
