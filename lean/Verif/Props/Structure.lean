import Verif.Lemmas.Structure
import Verif.Props.Rotation
import Mathlib.Tactic

/-! # Layers and structures (C25 - C31) -/

namespace PyElli

open Matrix

/-! ## C25 -/

lemma flatten_replicate_get {α : Type*} (l : List α) (n i : ℕ) (h : i < n * l.length) :
    (List.replicate n l).flatten[i]? = l[i % l.length]? := by
  induction n generalizing i with
  | zero => simp at h
  | succ n ih =>
    rw [List.replicate_succ, List.flatten_cons]
    by_cases hi : i < l.length
    · rw [List.getElem?_append_left hi, Nat.mod_eq_of_lt hi]
    · push Not at hi
      rw [List.getElem?_append_right hi, ih (i - l.length) (by rw [Nat.succ_mul] at h; omega),
        Nat.mod_eq_sub_mod hi]

/-- C25: the slice list of `RepeatedLayers` is a suffix of one period with `min before L` slices, `repetitions` periods and a
prefix of one period with `min after L` slices. -/
theorem C25_decomposition {α : Type*} (l : List α) (n before after : ℕ) :
    ∃ pre post : List α, repeatedSlices l n before after = pre ++ (List.replicate n l).flatten ++ post ∧
      pre <:+ l ∧ pre.length = min before l.length ∧ post <+: l ∧ post.length = min after l.length := by
  refine ⟨if before > 0 then l.drop (l.length - before) else [], l.take after, rfl, ?_, ?_, ?_, ?_⟩
  · split_ifs
    · exact List.drop_suffix _ _
    · exact List.nil_suffix
  · split_ifs with h
    · rw [List.length_drop]
      omega
    · simp
      omega
  · exact List.take_prefix _ _
  · rw [List.length_take]

/-- C25: as long as `before` and `after` do not exceed one period, slice `i` of the result is slice
`(i - before) mod L` of the period: the structure is the infinite periodic stack cut at the right places. -/
theorem C25_periodic {α : Type*} (l : List α) (n before after i : ℕ) (hb : before ≤ l.length)
    (ha : after ≤ l.length) (hi : i < before + n * l.length + after) :
    (repeatedSlices l n before after)[i]? = l[(i + (l.length - before)) % l.length]? := by
  unfold repeatedSlices
  simp only
  have e : (if before > 0 then l.drop (l.length - before) else []) = l.drop (l.length - before) := by
    split_ifs with h
    · rfl
    · have : before = 0 := by omega
      subst this
      simp
  rw [e]
  have h1 : (l.drop (l.length - before)).length = before := by rw [List.length_drop]; omega
  have h2 : (List.replicate n l).flatten.length = n * l.length := by simp
  by_cases c1 : i < before
  · rw [List.append_assoc, List.getElem?_append_left (by omega), List.getElem?_drop,
      Nat.mod_eq_of_lt (by omega)]
    congr 1
    omega
  · push Not at c1
    by_cases c2 : i < before + n * l.length
    · rw [List.getElem?_append_left (by rw [List.length_append, h1, h2]; exact c2),
        List.getElem?_append_right (by omega), h1, flatten_replicate_get l n _ (by omega)]
      congr 1
      have : i + (l.length - before) = (i - before) + l.length := by omega
      rw [this, Nat.add_mod_right]
    · push Not at c2
      rw [List.getElem?_append_right (by rw [List.length_append, h1, h2]; exact c2), List.length_append, h1, h2,
        List.getElem?_take, if_pos (by omega)]
      congr 1
      have : i + (l.length - before) = (i - (before + n * l.length)) + (n + 1) * l.length := by
        rw [Nat.succ_mul]; omega
      rw [this, Nat.add_mul_mod_self_right, Nat.mod_eq_of_lt (by omega)]

/-- C25: number of slices. -/
theorem C25_count {α : Type*} (l : List α) (n before after : ℕ) :
    (repeatedSlices l n before after).length =
      min before l.length + n * l.length + min after l.length := by
  obtain ⟨pre, post, h, -, h1, -, h2⟩ := C25_decomposition l n before after
  rw [h]
  simp [h1, h2]
  omega

/-- C25, documentation ("number of additional layers before the first period"): whenever more extra slices than one period has are asked
for, the number asked for is never reached: they are silently cut to one period. -/
theorem C25_before_capped_refuted {α : Type*} (l : List α) (n before : ℕ) (h : l.length < before) :
    repeatedSlices l n before 0 = repeatedSlices l n l.length 0 ∧
      (repeatedSlices l n before 0).length < before + n * l.length := by
  refine ⟨?_, ?_⟩
  · rcases Nat.eq_zero_or_pos l.length with h0 | h0
    · have : l = [] := List.eq_nil_of_length_eq_zero h0
      subst this
      simp [repeatedSlices]
    · have hb : 0 < before := by omega
      simp [repeatedSlices, hb, h0, Nat.sub_eq_zero_of_le h.le]
  · rw [C25_count]
    have : min before l.length = l.length := min_eq_right h.le
    simp [this]
    omega

example : ([1, 2, 3] : List ℕ).length < 5 ∧ repeatedSlices [1, 2, 3] 2 5 0 = [1, 2, 3, 1, 2, 3, 1, 2, 3] := ⟨by decide, rfl⟩

/-- C25: the docstring example, layers [1,2,3], n = 2, before = 1, after = 0 gives 3123123. -/
example : repeatedSlices [1, 2, 3] 2 1 0 = [3, 1, 2, 3, 1, 2, 3] := rfl

example : (1 : ℕ) ≤ [1, 2, 3].length ∧ (2 : ℕ) ≤ [1, 2, 3].length ∧ (5 : ℕ) < 1 + 2 * [1, 2, 3].length + 2 := by
  decide

/-- C25 for layer objects: the period is the concatenation of the slices of all repeated layers. -/
theorem C25_repeated_profile (ls : List LayerObj) (n before after : ℕ) (lbda : ℝ) :
    (LayerObj.repeated ls n before after).profile lbda =
      repeatedSlices (ls.flatMap fun l => l.profile lbda) n before after := by
  simp only [LayerObj.profile, profileList_eq]

/-- C25: `before`/`after` count slices, not layers: with one twisted layer of two slices as the period, `before = 1` prepends only half
of that layer. -/
theorem C25_before_counts_slices (m : Material) (t angle lbda : ℝ) :
    (((LayerObj.repeated [.twisted m t 2 angle] 1 1 0).profile lbda).map Slice.d).sum = t + t / 2 := by
  rw [C25_repeated_profile]
  simp [LayerObj.profile, inhomogeneousProfile_eq, List.range_succ, repeatedSlices]
  ring

/-- C25: total thickness. -/
theorem C25_thickness (ls : List LayerObj) (n : ℕ) (lbda : ℝ) :
    (((LayerObj.repeated ls n 0 0).profile lbda).map Slice.d).sum =
      n * ((ls.flatMap fun l => l.profile lbda).map Slice.d).sum := by
  rw [C25_repeated_profile]
  simp [repeatedSlices, List.sum_flatten]

/-! ## C26 -/

/-- C26: the profile is front, all slices in order, back; the two half spaces are the only infinite entries. -/
theorem C26_profile_order (s : Struct) (lbda : ℝ) :
    (s.profile lbda).head? = some (⊤, s.front.getTensor lbda) ∧
    (s.profile lbda).getLast? = some (⊤, s.back.getTensor lbda) ∧
    (s.profile lbda).tail.dropLast =
      (s.layers.flatMap fun l => l.profile lbda).map (fun sl => ((sl.d : WithTop ℝ), sl.eps)) ∧
    (∀ p ∈ (s.profile lbda).tail.dropLast, p.1 ≠ ⊤) := by
  have h : s.profile lbda = (⊤, s.front.getTensor lbda) ::
      ((s.layers.flatMap fun l => l.profile lbda).map (fun sl => ((sl.d : WithTop ℝ), sl.eps)) ++
        [(⊤, s.back.getTensor lbda)]) := by
    simp [Struct.profile, profileList_eq]
  have h3 : (s.profile lbda).tail.dropLast =
      (s.layers.flatMap fun l => l.profile lbda).map (fun sl => ((sl.d : WithTop ℝ), sl.eps)) := by
    rw [h, List.tail_cons, List.dropLast_concat]
  refine ⟨by rw [h]; rfl, ?_, h3, ?_⟩
  · rw [h, ← List.cons_append, List.getLast?_concat]
  · rw [h3]
    intro p hp
    obtain ⟨a, -, rfl⟩ := List.mem_map.1 hp
    simp

/-- Layers in sequence: structures compose by concatenation of their layer lists. -/
theorem C26_concat (front back : Material) (l₁ l₂ : List LayerObj) (lbda : ℝ) :
    (Struct.profile ⟨front, l₁ ++ l₂, back⟩ lbda).tail.dropLast =
      (Struct.profile ⟨front, l₁, back⟩ lbda).tail.dropLast ++
        (Struct.profile ⟨front, l₂, back⟩ lbda).tail.dropLast := by
  rw [(C26_profile_order _ lbda).2.2.1, (C26_profile_order _ lbda).2.2.1, (C26_profile_order _ lbda).2.2.1]
  simp

mutual
/-- Specification: the geometric thickness of a layer built without extra partial periods. -/
def LayerObj.geomThickness : LayerObj → ℝ
  | .layer _ t => t
  | .twisted _ t _ _ => t
  | .varying _ _ _ t _ _ => t
  | .repeated ls n _ _ => n * geomThicknessList ls
/-- Sum over a list of layers. -/
def geomThicknessList : List LayerObj → ℝ
  | [] => 0
  | l :: ls => l.geomThickness + geomThicknessList ls
end

mutual
/-- Accepted divisions, and no partial periods anywhere. -/
def LayerObj.Plain : LayerObj → Prop
  | .layer _ _ => True
  | .twisted _ _ div _ => 1 ≤ div
  | .varying _ _ _ _ div _ => 1 ≤ div
  | .repeated ls _ b a => b = 0 ∧ a = 0 ∧ PlainList ls
/-- All layers of a list are plain. -/
def PlainList : List LayerObj → Prop
  | [] => True
  | l :: ls => l.Plain ∧ PlainList ls
end

lemma inhom_sum (t : ℝ) (div : ℕ) (h : 1 ≤ div) (tensor : ℝ → NumTensor) :
    ((inhomogeneousProfile t div tensor).map Slice.d).sum = t := by
  rw [inhomogeneousProfile_eq, List.map_map]
  have : (Slice.d ∘ fun (k : ℕ) => (⟨t / div, tensor (((k : ℝ) + 1 / 2) * (t / div))⟩ : Slice)) =
      fun _ => t / div := rfl
  rw [this]
  have h0 : (div : ℝ) ≠ 0 := by positivity
  simp
  field_simp

mutual
lemma geom_aux (l : LayerObj) (lbda : ℝ) (h : l.Plain) :
    ((l.profile lbda).map Slice.d).sum = l.geomThickness := by
  cases l with
  | layer m t => simp [LayerObj.profile, LayerObj.geomThickness]
  | twisted m t div angle =>
    simp only [LayerObj.profile, LayerObj.geomThickness]
    exact inhom_sum _ _ h _
  | varying k hm g t div md =>
    simp only [LayerObj.profile, LayerObj.geomThickness]
    exact inhom_sum _ _ h _
  | repeated ls n b a =>
    obtain ⟨rfl, rfl, hp⟩ := h
    have := geomList_aux ls lbda hp
    rw [C25_thickness, ← profileList_eq, this]
    simp [LayerObj.geomThickness]
lemma geomList_aux (ls : List LayerObj) (lbda : ℝ) (h : PlainList ls) :
    ((profileList ls lbda).map Slice.d).sum = geomThicknessList ls := by
  cases ls with
  | nil => simp [profileList, geomThicknessList]
  | cons a t =>
    obtain ⟨h1, h2⟩ := h
    simp only [profileList, geomThicknessList, List.map_append, List.sum_append]
    rw [geom_aux a lbda h1, geomList_aux t lbda h2]
end

/-- C26: the total finite thickness is the sum of the layer thicknesses, for arbitrarily nested repeated, twisted and varying
layers (without partial periods). -/
theorem C26_total_thickness (s : Struct) (lbda : ℝ) (h : PlainList s.layers) :
    ((s.layers.flatMap fun l => l.profile lbda).map Slice.d).sum = geomThicknessList s.layers := by
  rw [← profileList_eq]
  exact geomList_aux _ _ h

example (m : Material) : PlainList [.layer m 3, .repeated [.layer m 1, .repeated [.twisted m 2 4 90] 2 0 0] 5 0 0] := by
  simp [PlainList, LayerObj.Plain]

example (m : Material) :
    geomThicknessList [.layer m 3, .repeated [.layer m 1, .repeated [.twisted m 2 4 90] 2 0 0] 5 0 0] = 28 := by
  simp [geomThicknessList, LayerObj.geomThickness]; norm_num

/-! ## C27 -/

/-- C27: an inhomogeneous layer of thickness `t` cut into `div ≥ 1` slices: `div` slices, each `t/div` thick, slice `k` evaluated at the
mid-point `(k + 1/2) t / div`; the thicknesses add up to `t`. -/
theorem C27_slicing (t : ℝ) (div : ℕ) (hdiv : 1 ≤ div) (tensor : ℝ → NumTensor) :
    (inhomogeneousProfile t div tensor).length = div ∧
    (∀ k (hk : k < (inhomogeneousProfile t div tensor).length),
      ((inhomogeneousProfile t div tensor)[k]).d = t / div ∧
      ((inhomogeneousProfile t div tensor)[k]).eps = tensor (t * (k + 1 / 2) / div)) ∧
    ((inhomogeneousProfile t div tensor).map Slice.d).sum = t := by
  refine ⟨by rw [inhomogeneousProfile_eq]; simp, ?_, inhom_sum t div hdiv tensor⟩
  intro k hk
  have h0 : (div : ℝ) ≠ 0 := by positivity
  simp only [inhomogeneousProfile_eq, List.getElem_map, List.getElem_range]
  refine ⟨trivial, ?_⟩
  congr 1
  field_simp

/-- C27: `set_divisions` refuses exactly the numbers below one, and keeps the old value then. -/
theorem C27_divisions_guard (s : ObjState) (x : ℝ) :
    s.call (.divisions (.num (some x))) =
      if x < 1 then (s, .error .valueError) else ({ s with div := some (.num (some x)) }, .ok ()) := by
  by_cases h : x < 1 <;> simp [ObjState.call, PyArg.lt, h]

example : (1 : ℕ) ≤ 7 := by norm_num

/-! ## C28 -/

lemma rotateNum_some (R : Mat3) (T : Tensor) :
    rotateNum R (fun i j => some (T i j)) =
      fun i j => some ((R.map Complex.ofReal * T * (R.map Complex.ofReal)ᵀ) i j) := by
  have h : ∀ i j : Fin 3, ((fun i j => some (T i j) : NumTensor) i j).isSome := fun i j => rfl
  exact dif_pos h

lemma rotationVTheta_eZ (a : ℝ) : rotationVTheta eZ a = Spec.Rz (a * Real.pi / 180) := by
  unfold rotationVTheta Spec.Rz
  rw [mW_sq]
  have e : deg2rad a = a * Real.pi / 180 := by unfold deg2rad; ring
  rw [e]
  unfold mW eZ
  ext i j
  fin_cases i <;> fin_cases j <;> simp

/-- C28: slice `k` of a twisted layer of non-zero thickness has the material's tensor rotated about z by
`angle (k + 1/2) / div` degrees, on top of the rotation the material already has. Missing: thickness 0 (see
`C28_zero_thickness_refuted`). -/
theorem C28_twisted_slice_partial (cls : SingleClass) (m : SingleMaterial) (t : ℝ) (ht : t ≠ 0) (div : ℕ)
    (angle lbda : ℝ) (k : ℕ)
    (hk : k < ((LayerObj.twisted (.single cls m) t div angle).profile lbda).length) :
    (((LayerObj.twisted (.single cls m) t div angle).profile lbda)[k]).eps = fun i j => some
      (((Spec.Rz (angle * (k + 1 / 2) / div * Real.pi / 180)).map Complex.ofReal * m.getTensor lbda *
        ((Spec.Rz (angle * (k + 1 / 2) / div * Real.pi / 180)).map Complex.ofReal)ᵀ) i j) := by
  simp only [LayerObj.profile, inhomogeneousProfile_eq, List.getElem_map, List.getElem_range]
  have hdiv : (div : ℝ) ≠ 0 := by
    simp only [LayerObj.profile, inhomogeneousProfile_eq, List.length_map, List.length_range] at hk
    have : 0 < div := by omega
    positivity
  have ha : floatDiv (angle * (((k : ℝ) + 1 / 2) * (t / div))) t = some (angle * (k + 1 / 2) / div) := by
    unfold floatDiv
    rw [if_neg ht]
    congr 1
    field_simp
  unfold twistedTensor
  rw [ha]
  simp only [rotationVTheta_eZ]
  exact rotateNum_some _ _

/-- C28: zero twist gives the plain material in every slice, for every material with a finite tensor. -/
theorem C28_zero_twist (m : Material) (t : ℝ) (ht : t ≠ 0) (div : ℕ) (lbda : ℝ)
    (hfin : ∀ i j, (m.getTensor lbda i j).isSome) :
    ∀ sl ∈ (LayerObj.twisted m t div 0).profile lbda, sl.eps = m.getTensor lbda := by
  intro sl hsl
  simp only [LayerObj.profile, inhomogeneousProfile_eq, List.mem_map] at hsl
  obtain ⟨k, -, rfl⟩ := hsl
  simp only [twistedTensor, floatDiv, ht, if_false, zero_mul, zero_div, rotationVTheta_eZ]
  have hRz : Spec.Rz 0 = 1 := by
    unfold Spec.Rz
    ext i j
    fin_cases i <;> fin_cases j <;> simp
  rw [hRz]
  obtain ⟨T, hT⟩ : ∃ T : Tensor, m.getTensor lbda = fun i j => some (T i j) :=
    ⟨fun i j => (m.getTensor lbda i j).get (hfin i j), by funext i j; simp⟩
  rw [hT, rotateNum_some]
  have h1 : (1 : Mat3).map Complex.ofReal = (1 : Tensor) := by
    ext i j
    by_cases hij : i = j <;> simp [Matrix.one_apply, hij]
  funext i j
  simp [h1]

/-- C28: a twist does not touch an isotropic material, at any angle. -/
theorem C28_twist_isotropic (d : ℝ → ℂ) (t : ℝ) (ht : t ≠ 0) (div : ℕ) (angle lbda : ℝ) :
    ∀ sl ∈ (LayerObj.twisted (.single .isotropic (isotropicMaterial d)) t div angle).profile lbda,
      sl.eps = fun i j => some (if i = j then d lbda else 0) := by
  intro sl hsl
  obtain ⟨k, hk, rfl⟩ := List.getElem_of_mem hsl
  rw [C28_twisted_slice_partial .isotropic (isotropicMaterial d) t ht div angle lbda k hk]
  have hb := BuiltRotation.axis eZ (by simp [eZ, Spec.IsUnitAxis]) (angle * (k + 1 / 2) / div)
  rw [rotationVTheta_eZ] at hb
  have := C16_isotropic_ignores_rotation d _ hb lbda
  simp only [SingleMaterial.setRotation, isotropicMaterial, SingleMaterial.getTensor] at this ⊢
  rw [this]
  funext i j
  fin_cases i <;> fin_cases j <;> simp

/-- C28 fails for the accepted thickness 0: every slice of a twisted layer is NaN, so the whole structure evaluates to NaN instead of
ignoring the layer. -/
theorem C28_zero_thickness_refuted (m : Material) (div : ℕ) (hdiv : 1 ≤ div) (angle lbda : ℝ) :
    (∀ s : ObjState, (s.call (.thickness (.num (some 0)))).2 = .ok ()) ∧
    (LayerObj.twisted m 0 div angle).profile lbda ≠ [] ∧
    ∀ sl ∈ (LayerObj.twisted m 0 div angle).profile lbda, sl.d = 0 ∧ ∀ i j, sl.eps i j = none := by
  refine ⟨?_, ?_, ?_⟩
  · intro s
    simp [ObjState.call, PyArg.lt]
  · simp only [LayerObj.profile, inhomogeneousProfile_eq]
    intro h
    have := congrArg List.length h
    simp at this
    omega
  · intro sl hsl
    simp only [LayerObj.profile, inhomogeneousProfile_eq, List.mem_map] at hsl
    obtain ⟨k, -, rfl⟩ := hsl
    simp [twistedTensor, floatDiv]

example : (5 : ℝ) ≠ 0 ∧ (1 : ℕ) ≤ 3 := by norm_num

/-! ## C29 -/

/-- C29: slice `k` of a varying mixture layer of non-zero thickness has the mixture tensor at fraction
`modulation ((k + 1/2) / div)`. Missing: thickness 0. -/
theorem C29_varying_slice_partial (k : EmaKind) (h g : Material) (t : ℝ) (ht : t ≠ 0) (div : ℕ)
    (md : Option ℝ → Option ℝ) (lbda : ℝ) (n : ℕ)
    (hn : n < ((LayerObj.varying k h g t div md).profile lbda).length) :
    (((LayerObj.varying k h g t div md).profile lbda)[n]).eps =
      k.numTensor (h.getTensor lbda) (g.getTensor lbda) (md (some ((n + 1 / 2) / div))) := by
  simp only [LayerObj.profile, inhomogeneousProfile_eq, List.getElem_map, List.getElem_range]
  have hdiv : (div : ℝ) ≠ 0 := by
    simp only [LayerObj.profile, inhomogeneousProfile_eq, List.length_map, List.length_range] at hn
    have : 0 < div := by omega
    positivity
  have ha : floatDiv (((n : ℝ) + 1 / 2) * (t / div)) t = some (((n : ℝ) + 1 / 2) / div) := by
    unfold floatDiv
    rw [if_neg ht]
    congr 1
    field_simp
  unfold varyingTensor
  rw [ha]

/-- C29: with a modulation that returns a constant fraction the layer is a plain mixture layer: every slice has the
tensor of the mixture with that fraction. -/
theorem C29_constant_modulation (k : EmaKind) (h g : Material) (t c : ℝ) (div : ℕ) (lbda : ℝ) :
    ∀ sl ∈ (LayerObj.varying k h g t div (fun _ => some c)).profile lbda,
      sl.eps = (Material.mixture k h g c).getTensor lbda := by
  intro sl hsl
  simp only [LayerObj.profile, inhomogeneousProfile_eq, List.mem_map] at hsl
  obtain ⟨n, -, rfl⟩ := hsl
  simp [varyingTensor, Material.getTensor]

/-- C29: with the default linear modulation (and a non-zero thickness) every slice is a proper mixture: its tensor is that of the mixture
with a fraction strictly between 0 and 1, never of a pure constituent, whatever the number of divisions. -/
theorem C29_linear_profile_range (k : EmaKind) (h g : Material) (t : ℝ) (ht : t ≠ 0) (div : ℕ) (lbda : ℝ) :
    ∀ sl ∈ (LayerObj.varying k h g t div id).profile lbda,
      ∃ f : ℝ, 0 < f ∧ f < 1 ∧ sl.eps = (Material.mixture k h g f).getTensor lbda := by
  intro sl hsl
  simp only [LayerObj.profile, inhomogeneousProfile_eq, List.mem_map, List.mem_range] at hsl
  obtain ⟨n, hn, rfl⟩ := hsl
  have hd : (0 : ℝ) < div := by
    have : 0 < div := by omega
    positivity
  refine ⟨((n : ℝ) + 1 / 2) / div, by positivity, ?_, ?_⟩
  · rw [div_lt_one hd]
    have : (n : ℝ) + 1 ≤ div := by exact_mod_cast hn
    linarith
  · have : ((n : ℝ) + 1 / 2) * (t / div) / t = ((n : ℝ) + 1 / 2) / div := by field_simp
    simp only [varyingTensor, Material.getTensor, floatDiv, ht, if_false, this, id]

/-- C29 fails for the accepted thickness 0: with the default linear profile and two different constituents the slices contain NaN. -/
theorem C29_zero_thickness_refuted :
    ∃ h g : Material, ∀ (div : ℕ) (lbda : ℝ), 1 ≤ div →
      ∃ sl ∈ (LayerObj.varying .vca h g 0 div id).profile lbda, sl.eps 0 0 = none := by
  refine ⟨.single .isotropic (isotropicMaterial fun _ => 2), .single .isotropic (isotropicMaterial fun _ => 3), ?_⟩
  intro div lbda hdiv
  refine ⟨⟨0 / div, varyingTensor .vca (.single .isotropic (isotropicMaterial fun _ => 2))
    (.single .isotropic (isotropicMaterial fun _ => 3)) 0 id lbda (((0 : ℕ) + 1 / 2) * (0 / div))⟩, ?_, ?_⟩
  · simp only [LayerObj.profile, inhomogeneousProfile_eq, List.mem_map, List.mem_range]
    exact ⟨0, by omega, rfl⟩
  · simp [varyingTensor, floatDiv, EmaKind.numTensor, EmaKind.entryNum, Material.getTensor]

/-! ## C30 -/

/-- The limits promised by the setters. Numbers that are NaN are exempt. -/
def PyArg.AtLeast (b : ℝ) (x : PyArg) : Prop :=
  ∃ v : Option ℝ, x = .num v ∧ ∀ y, v = some y → b ≤ y

/-- What every object of `structure.py` guarantees about its fields. -/
def ObjState.Valid (s : ObjState) : Prop :=
  (∀ x, s.thickness = some x → x.AtLeast 0) ∧ (∀ x, s.div = some x → x.AtLeast 1) ∧
  (∀ x, s.repetitions = some x → x.AtLeast 1) ∧ (∀ x, s.before = some x → x.AtLeast 0) ∧
  (∀ x, s.after = some x → x.AtLeast 0)

lemma lt_false {x : PyArg} {b : ℝ} (h : x.lt b = .ok false) : x.AtLeast b := by
  cases x with
  | num v =>
    refine ⟨v, rfl, ?_⟩
    rintro y rfl
    simp [PyArg.lt] at h
    exact h
  | material m => simp [PyArg.lt] at h
  | layerObj l => simp [PyArg.lt] at h
  | list l => simp [PyArg.lt] at h
  | other => simp [PyArg.lt] at h

lemma call_valid (s : ObjState) (c : SetCall) (h : s.Valid) : (s.call c).1.Valid := by
  obtain ⟨h1, h2, h3, h4, h5⟩ := h
  cases c with
  | thickness x =>
    simp only [ObjState.call]
    split
    · exact ⟨h1, h2, h3, h4, h5⟩
    · exact ⟨h1, h2, h3, h4, h5⟩
    · rename_i hx
      refine ⟨?_, h2, h3, h4, h5⟩
      rintro y ⟨⟩
      exact lt_false hx
  | material x => cases x <;> exact ⟨h1, h2, h3, h4, h5⟩
  | mixtureMaterial x =>
    simp only [ObjState.call]
    split <;> exact ⟨h1, h2, h3, h4, h5⟩
  | divisions x =>
    simp only [ObjState.call]
    split
    · exact ⟨h1, h2, h3, h4, h5⟩
    · exact ⟨h1, h2, h3, h4, h5⟩
    · rename_i hx
      refine ⟨h1, ?_, h3, h4, h5⟩
      rintro y ⟨⟩
      exact lt_false hx
  | repetitions r b a =>
    simp only [ObjState.call]
    split
    · exact ⟨h1, h2, h3, h4, h5⟩
    · exact ⟨h1, h2, h3, h4, h5⟩
    · rename_i hr
      split
      · exact ⟨h1, h2, h3, h4, h5⟩
      · exact ⟨h1, h2, h3, h4, h5⟩
      · rename_i hb
        split
        · exact ⟨h1, h2, h3, h4, h5⟩
        · exact ⟨h1, h2, h3, h4, h5⟩
        · rename_i ha
          refine ⟨h1, h2, ?_, ?_, ?_⟩
          · rintro y ⟨⟩; exact lt_false hr
          · rintro y ⟨⟩; exact lt_false hb
          · rintro y ⟨⟩; exact lt_false ha
  | layers x =>
    simp only [ObjState.call]
    split
    · split <;> exact ⟨h1, h2, h3, h4, h5⟩
    · exact ⟨h1, h2, h3, h4, h5⟩
  | front x => cases x <;> exact ⟨h1, h2, h3, h4, h5⟩
  | back x => cases x <;> exact ⟨h1, h2, h3, h4, h5⟩

/-- C30: after any sequence of accepted and refused setter calls, starting from a fresh object, the limits hold. -/
theorem C30_invariant (calls : List SetCall) :
    (calls.foldl (fun s c => (s.call c).1) ({} : ObjState)).Valid := by
  have key : ∀ (calls : List SetCall) (s : ObjState), s.Valid →
      (calls.foldl (fun s c => (s.call c).1) s).Valid := by
    intro calls
    induction calls with
    | nil => intro s h; exact h
    | cons c t ih => intro s h; exact ih _ (call_valid s c h)
  apply key
  simp [ObjState.Valid]

/-- C30: a refused call changes nothing. -/
theorem C30_refused_keeps_state (s : ObjState) (c : SetCall) (e : PyErr) (h : (s.call c).2 = .error e) :
    (s.call c).1 = s := by
  cases c with
  | thickness x =>
    simp only [ObjState.call] at h ⊢
    split <;> simp_all
  | material x => cases x <;> simp_all [ObjState.call]
  | mixtureMaterial x =>
    simp only [ObjState.call] at h ⊢
    split <;> simp_all
  | divisions x =>
    simp only [ObjState.call] at h ⊢
    split <;> simp_all
  | repetitions r b a =>
    simp only [ObjState.call] at h ⊢
    split
    · rfl
    · rfl
    · split
      · rfl
      · rfl
      · split
        · rfl
        · rfl
        · simp_all
  | layers x =>
    simp only [ObjState.call] at h ⊢
    split
    · split <;> simp_all
    · rfl
  | front x => cases x <;> simp_all [ObjState.call]
  | back x => cases x <;> simp_all [ObjState.call]

/-- C30: which values are refused, and with which exception. -/
theorem C30_refusals (s : ObjState) :
    (∀ x : ℝ, (s.call (.thickness (.num (some x)))).2 = .error .valueError ↔ x < 0) ∧
    (∀ x : ℝ, (s.call (.divisions (.num (some x)))).2 = .error .valueError ↔ x < 1) ∧
    (∀ r b a : ℝ, (s.call (.repetitions (.num (some r)) (.num (some b)) (.num (some a)))).2 =
      .error .valueError ↔ r < 1 ∨ b < 0 ∨ a < 0) ∧
    (∀ x : PyArg, (s.call (.material x)).2 = .error .typeError ↔ ¬ ∃ m, x = .material m) ∧
    (∀ x : PyArg, (s.call (.mixtureMaterial x)).2 = .error .typeError ↔
      ¬ ∃ k h g f, x = .material (.mixture k h g f)) ∧
    (∀ xs : List PyArg, (s.call (.layers (.list xs))).2 = .error .typeError ↔
      ¬ ∀ x ∈ xs, ∃ l, x = .layerObj l) ∧
    (∀ x : PyArg, (∀ xs, x ≠ .list xs) → (s.call (.layers x)).2 = .error .typeError) := by
  refine ⟨?_, ?_, ?_, ?_, ?_, ?_, ?_⟩
  · intro x
    by_cases h : x < 0 <;> simp [ObjState.call, PyArg.lt, h]
  · intro x
    by_cases h : x < 1 <;> simp [ObjState.call, PyArg.lt, h]
  · intro r b a
    by_cases h1 : r < 1 <;> by_cases h2 : b < 0 <;> by_cases h3 : a < 0 <;>
      simp [ObjState.call, PyArg.lt, h1, h2, h3]
  · intro x
    cases x <;> simp [ObjState.call]
  · intro x
    cases x with
    | material m => cases m <;> simp [ObjState.call]
    | num => simp [ObjState.call]
    | layerObj => simp [ObjState.call]
    | list => simp [ObjState.call]
    | other => simp [ObjState.call]
  · intro xs
    have key : ∀ xs : List PyArg, allLayers xs = none ↔ ¬ ∀ x ∈ xs, ∃ l, x = .layerObj l := by
      intro xs
      induction xs with
      | nil => simp [allLayers]
      | cons a t ih =>
        cases a with
        | layerObj l =>
          simp only [allLayers, Option.map_eq_none_iff, ih, List.mem_cons]
          constructor
          · intro h h'
            exact h fun x hx => h' x (Or.inr hx)
          · intro h h'
            apply h
            rintro x (rfl | hx)
            · exact ⟨l, rfl⟩
            · exact h' x hx
        | num => simp [allLayers]
        | material => simp [allLayers]
        | list => simp [allLayers]
        | other => simp [allLayers]
    rw [← key]
    simp only [ObjState.call]
    cases h : allLayers xs <;> simp
  · intro x hx
    cases x with
    | list xs => exact absurd rfl (hx xs)
    | num => rfl
    | material => rfl
    | layerObj => rfl
    | other => rfl

/-- C30: NaN slips through the thickness check (the fraction check of mixtures refuses it, see C19). -/
theorem C30_nan_thickness_refuted (s : ObjState) :
    (s.call (.thickness (.num none))).2 = .ok () ∧
      (s.call (.thickness (.num none))).1.thickness = some (.num none) := by
  simp [ObjState.call, PyArg.lt]

/-! ## C31 -/

/-- C31 is false: `set_front_material` accepts every material, for example a uniaxial one, without an error. -/
theorem C31_front_isotropic_refuted :
    ∃ m : Material, m.isIsotropicClass = false ∧ m.getTensor 500 0 0 ≠ m.getTensor 500 2 2 ∧
      ∀ s : ObjState, (s.call (.front (.material m))).2 = .ok () ∧
        (s.call (.front (.material m))).1.front = some m := by
  refine ⟨.single .uniaxial (uniaxialMaterial (fun _ => 2) (fun _ => 3)), rfl, ?_, fun s => ⟨rfl, rfl⟩⟩
  simp [Material.getTensor, uniaxialMaterial, SingleMaterial.getTensor]

/-- C31, what holds: an object that is not a material is refused with `TypeError`. Missing: the isotropy check. -/
theorem C31_front_material_partial (s : ObjState) (x : PyArg) :
    (s.call (.front x)).2 = .error .typeError ↔ ¬ ∃ m, x = .material m := by
  cases x <;> simp [ObjState.call]

end PyElli
