import Verif.Lemmas.GradedScatter
import Verif.Lemmas.Linear
import Verif.Props.Structure
import Verif.Props.SolverLaws
import Verif.Props.Energy

/-!
# C85, C86: slicing inhomogeneous layers converges to the continuous medium

`Spec/Graded.lean` states the scattering problem of a sample whose permittivity varies with depth inside the layers; it knows no slices and no matrices of
the solver. The theorems say that this problem has exactly one solution for every incident wave and that the Jones matrices which `Solver4x4`
computes for the sliced sample converge to its amplitudes.
-/

namespace PyElli

open Matrix Complex Spec Set Filter Topology

lemma slices_ok {lbda : ℝ} (kx : ℝ) (hl : 0 < lbda) (L : List ((ℝ × (ℝ → Tensor)) × (ℕ → ℕ))) (hL : ∀ p ∈ L, GradedOk p.1) (k : ℕ) (v : Fin 4 → ℂ) :
    flux v ≤ flux (slabs kx lbda (slicesAt L k) *ᵥ v) := by
  refine flux_stack_ge kx hl _ (fun l hm => ?_) v
  obtain ⟨p, hp, hlp⟩ := List.mem_flatMap.1 hm
  obtain ⟨m, hmr, rfl⟩ := List.mem_map.1 hlp
  have hok := hL p hp
  have hmn : m + 1 ≤ p.2 k := List.mem_range.1 hmr
  have hmr : (m : ℝ) + 1 ≤ (p.2 k : ℕ) := by exact_mod_cast hmn
  have h0 : (0 : ℝ) < (p.2 k : ℕ) := by
    have : (0 : ℝ) ≤ m := Nat.cast_nonneg m
    linarith
  have ht := hok.thick
  have hmem : ((m : ℝ) + 1 / 2) * (p.1.1 / (p.2 k : ℕ)) ∈ Icc 0 p.1.1 := by
    refine ⟨by positivity, ?_⟩
    rw [← mul_div_assoc, div_le_iff₀ h0]
    nlinarith
  exact ⟨by positivity, hok.ne _ hmem, hok.passive _ hmem⟩

lemma graded_limit (n0 : ℝ) (hn : 0 < n0) (L : List ((ℝ × (ℝ → Tensor)) × (ℕ → ℕ))) (hL : ∀ p ∈ L, GradedOk p.1 ∧ Refined p)
    (eb : ℂ) (he : eb ≠ 0) (hi : 0 ≤ eb.im) (theta lbda : ℝ) (ht : |theta| < 90) (hl : 0 < lbda) :
    ∃ M : Mat4, (tIt (transferM n0 eb theta M)).det ≠ 0 ∧ Tendsto (fun k => slabs (kxOf (bare n0 eb) theta) lbda (slicesAt L k)) atTop (𝓝 M) ∧
      ∀ a r t, (∃ E H : Field, (Graded.mk n0 (L.map Prod.fst) eb).Scattering theta lbda a r t E H) ↔
        r = (tRt (transferM n0 eb theta M) * (tIt (transferM n0 eb theta M))⁻¹) *ᵥ a ∧ t = (tIt (transferM n0 eb theta M))⁻¹ *ᵥ a := by
  have h := bare_passive hn he hi ht hl
  obtain ⟨-, -, -, -, -, -, ⟨kx, hkx⟩, -⟩ := two_norms (bare n0 eb) theta lbda h (0, 0)
  obtain ⟨M, hM, hlim, hcar, hex⟩ := graded_carrier lbda (kxOf (bare n0 eb) theta) eb L hL
  have hflux : ∀ v, flux v ≤ flux (M *ᵥ v) := by
    intro v
    have hc : Continuous fun A : Mat4 => flux (A *ᵥ v) := by
      have h1 : Continuous fun A : Mat4 => A *ᵥ v := continuous_id.matrix_mulVec continuous_const
      have h2 : Continuous fun w : Fin 4 → ℂ => flux w := by
        unfold flux
        have hw : ∀ i, Continuous fun w : Fin 4 → ℂ => w i := continuous_apply
        exact Complex.continuous_re.comp (((hw 0).mul (Complex.continuous_conj.comp (hw 3))).sub ((hw 1).mul (Complex.continuous_conj.comp (hw 2))))
      exact h2.comp h1
    refine ge_of_tendsto' ((hc.tendsto M).comp hlim) fun k => ?_
    simp only [Function.comp_apply]
    rw [hkx]
    exact slices_ok kx hl L (fun p hp => (hL p hp).1) k v
  have hdet := tIt_transferM h hn hM hflux
  have hok : ∀ l ∈ (Graded.mk n0 (L.map Prod.fst) eb).layers, GradedOk l := by
    intro l hl
    obtain ⟨p, hp, rfl⟩ := List.mem_map.1 hl
    exact (hL p hp).1
  have hcarries : Carries (Graded.mk n0 (L.map Prod.fst) eb) lbda (kxOf (bare n0 eb) theta) M := by
    refine ⟨fun psi hc hd => ?_, hex⟩
    have := hcar psi hc 0 fun z hz h0 h1 => by
      rw [sub_zero]
      exact hd z hz h0 (by rwa [zero_add] at h1)
    rwa [zero_add] at this
  refine ⟨M, hdet, hlim, ?_⟩
  intro a r t
  rw [← amplitudesM h hn hdet]
  constructor
  · rintro ⟨E, H, hs⟩
    exact graded_fields (S := ⟨n0, L.map Prod.fst, eb⟩) hn he hi ht hl hok hcarries hs
  · intro hm
    exact fields_graded (S := ⟨n0, L.map Prod.fst, eb⟩) hn he hi ht hl hok hcarries hm


/-- C85: for every sample whose layers vary continuously with depth (differentiably inside, passive, any anisotropy) Maxwell's equations have, for every incident
wave, exactly one pair of reflected and transmitted amplitudes, and the Jones matrices of `Solver4x4` for the sliced sample converge to
them when the numbers of slices of all the varying layers grow. -/
theorem C85_slicing_converges (n0 : ℝ) (hn : 0 < n0) (L : List ((ℝ × (ℝ → Tensor)) × (ℕ → ℕ))) (hL : ∀ p ∈ L, GradedOk p.1 ∧ Refined p)
    (eb : ℂ) (he : eb ≠ 0) (hi : 0 ≤ eb.im) (theta lbda : ℝ) (ht : |theta| < 90) (hl : 0 < lbda) :
    ∃ jr jt : Mat2,
      (∀ a r t, (∃ E H : Field, (Graded.mk n0 (L.map Prod.fst) eb).Scattering theta lbda a r t E H) ↔ r = jr *ᵥ a ∧ t = jt *ᵥ a) ∧
      ∀ ee, Tendsto (fun k => (calculate4x4 propExpm (sampleStack ⟨n0, slicesAt L k, eb⟩) theta lbda ee).jr) atTop (𝓝 jr) ∧
        Tendsto (fun k => (calculate4x4 propExpm (sampleStack ⟨n0, slicesAt L k, eb⟩) theta lbda ee).jt) atTop (𝓝 jt) := by
  obtain ⟨M, hdet, hlim, hiff⟩ := graded_limit n0 hn L hL eb he hi theta lbda ht hl
  refine ⟨tRt (transferM n0 eb theta M) * (tIt (transferM n0 eb theta M))⁻¹, (tIt (transferM n0 eb theta M))⁻¹, hiff, fun ee => ?_⟩
  simp only [calculate4x4, calculate_transferM]
  exact jones_tendsto hlim hdet

lemma calculate_linear (n0 : ℝ) (eb : ℂ) (theta lbda : ℝ) (L : List (ℝ × Tensor)) (ee) :
    transfer4x4 propLinear (sampleStack ⟨n0, L, eb⟩) theta lbda ee = transferM n0 eb theta (slabsLin (kxOf (bare n0 eb) theta) lbda L) := by
  have hloop : ∀ (kx : ℂ) (L : List (ℝ × Tensor)) (E : Mat4), loop4x4 propLinear kx lbda L E = slabsLin kx lbda L * E := by
    intro kx L E
    induction L with
    | nil => simp [loop4x4, slabsLin]
    | cons l L ih =>
      simp only [loop4x4, slabsLin, List.reverse_cons, List.foldl_append, List.foldl_cons, List.foldl_nil, List.map_cons, List.prod_cons] at ih ⊢
      rw [ih, Matrix.mul_assoc]
  have hex : exitMatrix (sampleStack ⟨n0, L, eb⟩) (kxOf (sampleStack ⟨n0, L, eb⟩) theta) ee = isoHalf (kxOf (bare n0 eb) theta) (bare n0 eb).back := by
    simp [exitMatrix, sampleStack, bare, kxOf]
  unfold transfer4x4
  rw [hloop, hex]
  rfl

/-- C86: with the linear propagator the Jones matrices of a sample cut into thinner and thinner slices converge to the amplitudes of the Maxwell solution, the
same limit as with the exponential propagator; this is the sense in which `PropagatorLinear` is an approximation for thin layers. -/
theorem C86_linear_converges (n0 : ℝ) (hn : 0 < n0) (L : List ((ℝ × (ℝ → Tensor)) × (ℕ → ℕ))) (hL : ∀ p ∈ L, GradedOk p.1 ∧ Tendsto p.2 atTop atTop)
    (eb : ℂ) (he : eb ≠ 0) (hi : 0 ≤ eb.im) (theta lbda : ℝ) (ht : |theta| < 90) (hl : 0 < lbda) :
    ∃ jr jt : Mat2,
      (∀ a r t, (∃ E H : Field, (Graded.mk n0 (L.map Prod.fst) eb).Scattering theta lbda a r t E H) ↔ r = jr *ᵥ a ∧ t = jt *ᵥ a) ∧
      ∀ ee, Tendsto (fun k => (calculate4x4 propLinear (sampleStack ⟨n0, slicesAt L k, eb⟩) theta lbda ee).jr) atTop (𝓝 jr) ∧
        Tendsto (fun k => (calculate4x4 propLinear (sampleStack ⟨n0, slicesAt L k, eb⟩) theta lbda ee).jt) atTop (𝓝 jt) := by
  obtain ⟨M, hdet, hlim, hiff⟩ := graded_limit n0 hn L (fun p hp => ⟨(hL p hp).1, Or.inl (hL p hp).2⟩) eb he hi theta lbda ht hl
  refine ⟨tRt (transferM n0 eb theta M) * (tIt (transferM n0 eb theta M))⁻¹, (tIt (transferM n0 eb theta M))⁻¹, hiff, fun ee => ?_⟩
  simp only [calculate4x4, calculate_linear]
  exact jones_tendsto (slabsLin_tendsto lbda _ L hL M hlim) hdet

/-- A layered sample cut into `k` slices per layer. -/
noncomputable def cutLayers (layers : List (ℝ × Tensor)) (k : ℕ) : List (ℝ × Tensor) := layers.flatMap fun l => List.replicate k (l.1 / (k : ℝ), l.2)

/-- The layers as a refinement of a graded sample. -/
def uniformLayers (layers : List (ℝ × Tensor)) : List ((ℝ × (ℝ → Tensor)) × (ℕ → ℕ)) := layers.map fun l => ((l.1, fun _ => l.2), id)

lemma slicesAt_uniform (layers : List (ℝ × Tensor)) (k : ℕ) : slicesAt (uniformLayers layers) k = cutLayers layers k := by
  simp only [slicesAt, uniformLayers, cutLayers, List.flatMap_map, sliceLayer, id]
  congr 1
  funext l
  simp [List.map_const']

lemma slabs_uniform (kx : ℂ) (lbda : ℝ) (layers : List (ℝ × Tensor)) {k : ℕ} (hk : 1 ≤ k) :
    slabs kx lbda (slicesAt (uniformLayers layers) k) = slabs kx lbda layers := by
  induction layers with
  | nil => rfl
  | cons l layers ih =>
    simp only [slicesAt, uniformLayers, List.map_cons, List.flatMap_cons] at ih ⊢
    rw [slabs_append, ih, slabs_sliceLayer]
    simp only [id]
    rw [sliceProd_const _ hk, ← propExpm_slabX]
    simp [slabs]

/-- C86 for one uniform stack: cutting every layer of any passive sample into `k` equal slices, the linear propagator approaches what the exponential one
gives for the uncut sample. -/
theorem C86_linear_to_expm (S : Sample) (hn : 0 < S.n0) (he : S.eb ≠ 0) (hi : 0 ≤ S.eb.im) (theta lbda : ℝ) (ht : |theta| < 90) (hl : 0 < lbda)
    (hL : ∀ l ∈ S.layers, 0 ≤ l.1 ∧ l.2 2 2 ≠ 0 ∧ Passive l.2) (ee) :
    Tendsto (fun k : ℕ => (calculate4x4 propLinear (sampleStack ⟨S.n0, cutLayers S.layers k, S.eb⟩) theta lbda ee).jr) atTop
      (𝓝 (calculate4x4 propExpm (sampleStack S) theta lbda ee).jr) ∧
    Tendsto (fun k : ℕ => (calculate4x4 propLinear (sampleStack ⟨S.n0, cutLayers S.layers k, S.eb⟩) theta lbda ee).jt) atTop
      (𝓝 (calculate4x4 propExpm (sampleStack S) theta lbda ee).jt) := by
  obtain ⟨n0, layers, eb⟩ := S
  simp only at hn he hi hL ⊢
  have hok : ∀ p ∈ uniformLayers layers, GradedOk p.1 ∧ Tendsto p.2 atTop atTop := by
    intro p hp
    obtain ⟨l, hm, rfl⟩ := List.mem_map.1 hp
    obtain ⟨h1, h2, h3⟩ := hL l hm
    exact ⟨⟨h1, fun _ _ => continuousOn_const, fun _ _ _ _ => differentiableAt_const _, fun _ _ => h2, fun _ _ => h3⟩, tendsto_id⟩
  obtain ⟨M, hdet, hlim, -⟩ := graded_limit n0 hn (uniformLayers layers) (fun p hp => ⟨(hok p hp).1, Or.inl (hok p hp).2⟩) eb he hi theta lbda ht hl
  have hM : M = slabs (kxOf (bare n0 eb) theta) lbda layers := by
    refine tendsto_nhds_unique hlim (tendsto_const_nhds.congr' ?_)
    filter_upwards [eventually_ge_atTop 1] with k hk
    rw [slabs_uniform _ _ _ hk]
  have hlin := jones_tendsto (slabsLin_tendsto lbda _ _ hok M hlim) hdet
  simp only [calculate4x4, calculate_linear, ← slicesAt_uniform, calculate_transferM]
  rw [← hM]
  exact hlin

/-- The hypotheses of C86: a birefringent film. -/
example : ∃ S : Sample, S.layers.length = 1 ∧ 0 < S.n0 ∧ S.eb ≠ 0 ∧ 0 ≤ S.eb.im ∧ ∀ l ∈ S.layers, 0 ≤ l.1 ∧ l.2 2 2 ≠ 0 ∧ Passive l.2 := by
  let m : SingleMaterial := ⟨fun _ => 3, fun _ => 2, fun _ => 2, none⟩
  have hp : Passive (m.getTensor 500) := C36_material_passive m 500 (by simp [m]) (by simp [m]) (by simp [m])
  refine ⟨⟨1, [(100, m.getTensor 500)], 4⟩, rfl, one_pos, by norm_num, by norm_num, fun l hl => ?_⟩
  rw [List.mem_singleton] at hl
  subst hl
  exact ⟨by norm_num, by simp [m, SingleMaterial.getTensor], hp⟩

/-! ## Structures -/

/-- `layer.set_divisions(n)` on the inhomogeneous layers (`structure.py:236-245`); plain layers have no divisions. -/
def LayerObj.withDivisions (n : ℕ) : LayerObj → LayerObj
  | .twisted m t _ angle => .twisted m t n angle
  | .varying k h g t _ md => .varying k h g t n md
  | l => l

/-- What a layer object stands for: thickness and permittivity as a function of depth. A plain layer is uniform; a twisted layer of thickness `t` turns
its material about z by `angle * z / t` degrees; a varying mixture has the fraction `modulation (z / t)`. -/
inductive Describes (lbda : ℝ) : LayerObj → ℝ × (ℝ → Tensor) → Prop
  | layer (m : Material) (t : ℝ) (e : Tensor) (h : m.getTensor lbda = fun i j => some (e i j)) : Describes lbda (.layer m t) (t, fun _ => e)
  | twisted (m : Material) (t : ℝ) (div : ℕ) (angle : ℝ) (e : Tensor) (ht : 0 < t) (h : m.getTensor lbda = fun i j => some (e i j)) :
      Describes lbda (.twisted m t div angle) (t, fun z => (Rz (angle * z / t * Real.pi / 180)).map Complex.ofReal * e *
        ((Rz (angle * z / t * Real.pi / 180)).map Complex.ofReal)ᵀ)
  | varying (k : EmaKind) (hst gst : Material) (t : ℝ) (div : ℕ) (md : Option ℝ → Option ℝ) (e : ℝ → Tensor) (ht : 0 < t)
      (h : ∀ z ∈ Icc 0 t, k.numTensor (hst.getTensor lbda) (gst.getTensor lbda) (md (some (z / t))) = fun i j => some (e z i j)) :
      Describes lbda (.varying k hst gst t div md) (t, e)

lemma finite_some (T : Tensor) : NumTensor.finite? (fun i j => some (T i j)) = some T := by
  unfold NumTensor.finite?
  exact dif_pos fun _ _ => rfl

lemma finiteSlices_map {α : Type*} (l : List α) (d : α → ℝ) (t : α → NumTensor) (e : α → Tensor) (h : ∀ x ∈ l, t x = fun i j => some (e x i j)) :
    finiteSlices (l.map fun x => ⟨d x, t x⟩) = some (l.map fun x => (d x, e x)) := by
  induction l with
  | nil => rfl
  | cons x xs ih =>
    simp only [List.map_cons, finiteSlices]
    rw [h x List.mem_cons_self, finite_some, ih fun y hy => h y (List.mem_cons_of_mem _ hy)]
    rfl

/-- Number of slices of a layer at a step of the refinement. -/
def sliceCount : LayerObj → (ℕ → ℕ) → ℕ → ℕ
  | .layer _ _, _ => fun _ => 1
  | _, nu => nu

lemma describes_slices {lbda : ℝ} {l : LayerObj} {g : ℝ × (ℝ → Tensor)} (h : Describes lbda l g) (nu : ℕ → ℕ) (k : ℕ) :
    finiteSlices ((l.withDivisions (nu k)).profile lbda) = some (sliceLayer (sliceCount l nu k) g) := by
  cases h with
  | layer m t e h =>
    simp only [LayerObj.withDivisions, LayerObj.profile, sliceCount, sliceLayer, finiteSlices]
    rw [h, finite_some]
    simp
  | twisted m t div angle e ht h =>
    simp only [LayerObj.withDivisions, LayerObj.profile, sliceCount, sliceLayer, inhomogeneousProfile_eq]
    refine finiteSlices_map (List.range (nu k)) (fun _ => t / (nu k : ℕ)) _ _ fun x _ => ?_
    simp only [twistedTensor, floatDiv, ht.ne', if_false, h, rotateNum_some, rotationVTheta_eZ]
    rfl
  | varying kk hst gst t div md e ht h =>
    simp only [LayerObj.withDivisions, LayerObj.profile, sliceCount, sliceLayer, inhomogeneousProfile_eq]
    refine finiteSlices_map (List.range (nu k)) (fun _ => t / (nu k : ℕ)) _ _ fun x hx => ?_
    have hx1 : x + 1 ≤ nu k := List.mem_range.1 hx
    have hxr : (x : ℝ) + 1 ≤ (nu k : ℕ) := by exact_mod_cast hx1
    have h0 : (0 : ℝ) < (nu k : ℕ) := by
      have : (0 : ℝ) ≤ x := Nat.cast_nonneg x
      linarith
    have hmem : ((x : ℝ) + 1 / 2) * (t / (nu k : ℕ)) ∈ Icc 0 t := by
      refine ⟨by positivity, ?_⟩
      rw [← mul_div_assoc, div_le_iff₀ h0]
      nlinarith
    simp only [varyingTensor, floatDiv, ht.ne', if_false, h _ hmem]
    rfl

lemma iso_numTensor (d : ℝ → ℂ) (lbda : ℝ) :
    (Material.single .isotropic (isotropicMaterial d)).getTensor lbda = fun i j => some (isoTensor (d lbda) i j) := by
  funext i j
  simp only [Material.getTensor, isotropicMaterial, SingleMaterial.getTensor, isoTensor]
  fin_cases i <;> fin_cases j <;> simp

/-- The sample, with slice numbers, that a list of layer objects stands for. -/
def described (Ls : List (LayerObj × (ℝ × (ℝ → Tensor)) × (ℕ → ℕ))) : List ((ℝ × (ℝ → Tensor)) × (ℕ → ℕ)) := Ls.map fun p => (p.2.1, sliceCount p.1 p.2.2)

lemma described_slices {lbda : ℝ} (k : ℕ) (Ls : List (LayerObj × (ℝ × (ℝ → Tensor)) × (ℕ → ℕ))) (hL : ∀ p ∈ Ls, Describes lbda p.1 p.2.1) :
    finiteSlices (profileList (Ls.map fun p => p.1.withDivisions (p.2.2 k)) lbda) = some (slicesAt (described Ls) k) := by
  induction Ls with
  | nil => rfl
  | cons p ps ih =>
    have h1 := describes_slices (hL p List.mem_cons_self) p.2.2 k
    have h2 := ih fun q hq => hL q (List.mem_cons_of_mem _ hq)
    simp only [List.map_cons, profileList, slicesAt, List.flatMap_cons, described] at h2 ⊢
    rw [finiteSlices_append, h1, h2]
    rfl

lemma described_stack {df db : ℝ → ℂ} {lbda n0 : ℝ} (hdf : df lbda = ((n0 ^ 2 : ℝ) : ℂ)) (k : ℕ) (Ls : List (LayerObj × (ℝ × (ℝ → Tensor)) × (ℕ → ℕ)))
    (hL : ∀ p ∈ Ls, Describes lbda p.1 p.2.1) :
    Struct.stack ⟨.single .isotropic (isotropicMaterial df), Ls.map fun p => p.1.withDivisions (p.2.2 k), .single .isotropic (isotropicMaterial db)⟩ lbda =
      some (sampleStack ⟨n0, slicesAt (described Ls) k, db lbda⟩) := by
  simp only [Struct.stack, iso_numTensor, finite_some, described_slices k Ls hL, hdf]
  rfl

lemma described_refined {lbda : ℝ} (Ls : List (LayerObj × (ℝ × (ℝ → Tensor)) × (ℕ → ℕ)))
    (hL : ∀ p ∈ Ls, Describes lbda p.1 p.2.1 ∧ GradedOk p.2.1 ∧ Tendsto p.2.2 atTop atTop) : ∀ p ∈ described Ls, GradedOk p.1 ∧ Refined p := by
  intro p hp
  obtain ⟨q, hq, rfl⟩ := List.mem_map.1 hp
  obtain ⟨h1, h2, h3⟩ := hL q hq
  refine ⟨h2, ?_⟩
  obtain ⟨l, g, nu⟩ := q
  cases h1 with
  | layer m t e h => exact Or.inr ⟨⟨e, fun _ => rfl⟩, fun _ => le_rfl⟩
  | twisted => exact Or.inl h3
  | varying => exact Or.inl h3

/-- C85 for structures: plain layers, twisted layers and varying mixtures between an isotropic transparent front material and an isotropic back material. The solver
sees `div` slices per inhomogeneous layer; when the divisions of all of them grow, its Jones matrices converge to the amplitudes of the
Maxwell solution of the continuously varying sample. -/
theorem C85_structures_converge (df db : ℝ → ℂ) (lbda n0 : ℝ) (hn : 0 < n0) (hdf : df lbda = ((n0 ^ 2 : ℝ) : ℂ)) (he : db lbda ≠ 0) (hi : 0 ≤ (db lbda).im)
    (hl : 0 < lbda) (theta : ℝ) (ht : |theta| < 90) (Ls : List (LayerObj × (ℝ × (ℝ → Tensor)) × (ℕ → ℕ)))
    (hL : ∀ p ∈ Ls, Describes lbda p.1 p.2.1 ∧ GradedOk p.2.1 ∧ Tendsto p.2.2 atTop atTop) :
    ∃ jr jt : Mat2,
      (∀ a r t, (∃ E H : Field, (Graded.mk n0 (Ls.map fun p => p.2.1) (db lbda)).Scattering theta lbda a r t E H) ↔ r = jr *ᵥ a ∧ t = jt *ᵥ a) ∧
      ∃ st : ℕ → Stack,
        (∀ k, Struct.stack ⟨.single .isotropic (isotropicMaterial df), Ls.map fun p => p.1.withDivisions (p.2.2 k),
          .single .isotropic (isotropicMaterial db)⟩ lbda = some (st k)) ∧
        ∀ ee, Tendsto (fun k => (calculate4x4 propExpm (st k) theta lbda ee).jr) atTop (𝓝 jr) ∧
          Tendsto (fun k => (calculate4x4 propExpm (st k) theta lbda ee).jt) atTop (𝓝 jt) := by
  obtain ⟨jr, jt, h1, h2⟩ := C85_slicing_converges n0 hn (described Ls) (described_refined Ls hL) (db lbda) he hi theta lbda ht hl
  have hmap : (described Ls).map Prod.fst = Ls.map fun p => p.2.1 := by
    rw [described, List.map_map]
    rfl
  rw [hmap] at h1
  exact ⟨jr, jt, h1, fun k => sampleStack ⟨n0, slicesAt (described Ls) k, db lbda⟩, fun k => described_stack hdf k Ls fun p hp => (hL p hp).1, h2⟩

/-! ## Which layers meet the hypotheses -/

lemma rz_tensor22 (a : ℝ) (e : Tensor) : ((Rz a).map Complex.ofReal * e * ((Rz a).map Complex.ofReal)ᵀ) 2 2 = e 2 2 := by
  simp [Rz, Matrix.mul_apply, Fin.sum_univ_three]

lemma passive_rotated {e : Tensor} (h : Passive e) (r : Mat3) : Passive (r.map Complex.ofReal * e * (r.map Complex.ofReal)ᵀ) := by
  intro E
  set R := r.map Complex.ofReal with hR
  have hstar : star (Rᵀ *ᵥ E) = star E ᵥ* R := by
    rw [Matrix.star_mulVec]
    congr 1
    ext i j
    simp [hR, Matrix.conjTranspose]
  have key : star E ⬝ᵥ (R * e * Rᵀ) *ᵥ E = star (Rᵀ *ᵥ E) ⬝ᵥ e *ᵥ (Rᵀ *ᵥ E) := by
    rw [hstar, ← Matrix.mulVec_mulVec, ← Matrix.mulVec_mulVec, Matrix.dotProduct_mulVec]
  rw [key]
  exact h _

/-- C85: a uniform layer of a passive material meets the conditions. -/
theorem C85_plain_ok (t : ℝ) (ht : 0 ≤ t) (e : Tensor) (h22 : e 2 2 ≠ 0) (hp : Passive e) : GradedOk (t, fun _ => e) :=
  ⟨ht, fun _ _ => continuousOn_const, fun _ _ _ _ => differentiableAt_const _, fun _ _ => h22, fun _ _ => hp⟩

/-- C85: every twisted layer of a passive material meets the conditions, for any twist angle and any thickness. -/
theorem C85_twisted_ok (t : ℝ) (ht : 0 ≤ t) (angle : ℝ) (e : Tensor) (h22 : e 2 2 ≠ 0) (hp : Passive e) :
    GradedOk (t, fun z => (Rz (angle * z / t * Real.pi / 180)).map Complex.ofReal * e * ((Rz (angle * z / t * Real.pi / 180)).map Complex.ofReal)ᵀ) := by
  have hd : ∀ i j, Differentiable ℝ fun z : ℝ => ((Rz (angle * z / t * Real.pi / 180)).map Complex.ofReal * e *
      ((Rz (angle * z / t * Real.pi / 180)).map Complex.ofReal)ᵀ) i j := by
    have hR : ∀ i j, Differentiable ℝ fun z : ℝ => ((Rz (angle * z / t * Real.pi / 180) i j : ℝ) : ℂ) := by
      have ha : Differentiable ℝ fun z : ℝ => angle * z / t * Real.pi / 180 := by fun_prop
      have h1 : Differentiable ℝ fun z : ℝ => ((Real.cos (angle * z / t * Real.pi / 180) : ℝ) : ℂ) := Complex.ofRealCLM.differentiable.comp ha.cos
      have h2 : Differentiable ℝ fun z : ℝ => ((Real.sin (angle * z / t * Real.pi / 180) : ℝ) : ℂ) := Complex.ofRealCLM.differentiable.comp ha.sin
      intro i j
      fin_cases i <;> fin_cases j <;> simp only [Rz] <;> simp
      · simpa using h1
      · simpa using h2
      · simpa using h2
      · simpa using h1
    intro i j
    simp only [Matrix.mul_apply, Matrix.map_apply, Matrix.transpose_apply, Fin.sum_univ_three]
    have := hR i 0
    have := hR i 1
    have := hR i 2
    have := hR j 0
    have := hR j 1
    have := hR j 2
    fun_prop
  exact ⟨ht, fun i j => (hd i j).continuous.continuousOn, fun z _ i j => hd i j z, fun z _ => by simp only; rw [rz_tensor22]; exact h22,
    fun z _ => passive_rotated hp _⟩

lemma passive_mix {h g : Tensor} (hh : Passive h) (hg : Passive g) {f : ℝ} (h0 : 0 ≤ f) (h1 : f ≤ 1) :
    Passive fun i j => vcaEntry (h i j) (g i j) f := by
  intro E
  have e : (fun i j => vcaEntry (h i j) (g i j) f : Tensor) = ((1 - f : ℝ) : ℂ) • h + ((f : ℝ) : ℂ) • g := by
    ext i j
    simp [vcaEntry]
    ring
  rw [e, Matrix.add_mulVec, Matrix.smul_mulVec, Matrix.smul_mulVec, dotProduct_add, dotProduct_smul, dotProduct_smul, Complex.add_im, smul_eq_mul, smul_eq_mul,
    Complex.im_ofReal_mul, Complex.im_ofReal_mul]
  have := hh E
  have := hg E
  have : 0 ≤ 1 - f := by linarith
  positivity

/-- C85: a layer whose composition varies linearly or by any differentiable modulation between two passive materials (`VCAMaterial`) meets the conditions, if
the zz component does not vanish on the way. -/
theorem C85_vca_ok (t : ℝ) (ht : 0 < t) (md : Option ℝ → Option ℝ) (f : ℝ → ℝ) (hmd : ∀ x ∈ Icc (0 : ℝ) 1, md (some x) = some (f x)) (hf : Differentiable ℝ f)
    (hf01 : ∀ x ∈ Icc (0 : ℝ) 1, f x ∈ Icc (0 : ℝ) 1) (hst gst : Material) (lbda : ℝ) (h g : Tensor) (div : ℕ)
    (hh : hst.getTensor lbda = fun i j => some (h i j)) (hg : gst.getTensor lbda = fun i j => some (g i j)) (ph : Passive h) (pg : Passive g)
    (h22 : ∀ x ∈ Icc (0 : ℝ) 1, (1 - f x : ℝ) * h 2 2 + (f x : ℝ) * g 2 2 ≠ 0) :
    Describes lbda (.varying .vca hst gst t div md) (t, fun z i j => vcaEntry (h i j) (g i j) (f (z / t))) ∧
      GradedOk (t, fun z i j => vcaEntry (h i j) (g i j) (f (z / t))) := by
  have hz : ∀ z ∈ Icc 0 t, z / t ∈ Icc (0 : ℝ) 1 := fun z hz => ⟨div_nonneg hz.1 ht.le, (div_le_one ht).2 hz.2⟩
  have hd : ∀ i j, Differentiable ℝ fun z : ℝ => vcaEntry (h i j) (g i j) (f (z / t)) := by
    intro i j
    have h1 : Differentiable ℝ fun z : ℝ => ((f (z / t) : ℝ) : ℂ) :=
      Complex.ofRealCLM.differentiable.comp (hf.comp (differentiable_id.div_const t))
    unfold vcaEntry
    exact ((h1.const_sub 1).const_mul _).add (h1.const_mul _)
  refine ⟨.varying _ _ _ _ _ _ _ ht fun z hm => ?_, ht.le, fun i j => (hd i j).continuous.continuousOn, fun z _ i j => hd i j z, fun z hm => ?_, fun z hm => ?_⟩
  · rw [hmd _ (hz z hm)]
    funext i j
    simp [EmaKind.numTensor, EmaKind.entryNum, hh, hg, EmaKind.entry]
  · have := h22 _ (hz z hm)
    simp only [vcaEntry]
    intro h0
    apply this
    rw [← h0]
    push_cast
    ring
  · exact passive_mix ph pg (hf01 _ (hz z hm)).1 (hf01 _ (hz z hm)).2

/-- A cholesteric film: one full turn of a uniaxial material over 1000 nm, and a plain coating. -/
example : ∃ Ls : List (LayerObj × (ℝ × (ℝ → Tensor)) × (ℕ → ℕ)), Ls.length = 2 ∧
    ∀ p ∈ Ls, Describes 500 p.1 p.2.1 ∧ GradedOk p.2.1 ∧ Tendsto p.2.2 atTop atTop := by
  let m : SingleMaterial := ⟨fun _ => 3, fun _ => 2, fun _ => 2, none⟩
  have hp : Passive (m.getTensor 500) := C36_material_passive m 500 (by simp [m]) (by simp [m]) (by simp [m])
  have h22 : m.getTensor 500 2 2 ≠ 0 := by simp [m, SingleMaterial.getTensor]
  refine ⟨[(.twisted (.single .biaxial m) 1000 5 360, (1000, fun z => (Rz (360 * z / 1000 * Real.pi / 180)).map Complex.ofReal * m.getTensor 500 *
      ((Rz (360 * z / 1000 * Real.pi / 180)).map Complex.ofReal)ᵀ), id), (.layer (.single .biaxial m) 100, (100, fun _ => m.getTensor 500), id)], rfl, ?_⟩
  intro p hp'
  simp only [List.mem_cons, List.not_mem_nil, or_false] at hp'
  rcases hp' with rfl | rfl
  · exact ⟨.twisted _ _ _ _ (m.getTensor 500) (by norm_num) rfl, C85_twisted_ok 1000 (by norm_num) 360 _ h22 hp, tendsto_id⟩
  · exact ⟨.layer _ _ (m.getTensor 500) rfl, C85_plain_ok 100 (by norm_num) _ h22 hp, tendsto_id⟩

/-- A linear gradient from glass to a high-index material. -/
example : GradedOk (200, fun z i j => vcaEntry (isoTensor (9 / 4) i j) (isoTensor 4 i j) (z / 200)) := by
  have := (C85_vca_ok 200 (by norm_num) id id (fun _ _ => rfl) differentiable_id (fun _ h => h) (.single .isotropic (isotropicMaterial fun _ => 9 / 4))
    (.single .isotropic (isotropicMaterial fun _ => 4)) 500 (isoTensor (9 / 4)) (isoTensor 4) 10 (by
      funext i j
      simp only [Material.getTensor, isotropicMaterial, SingleMaterial.getTensor, isoTensor]
      fin_cases i <;> fin_cases j <;> simp) (by
      funext i j
      simp only [Material.getTensor, isotropicMaterial, SingleMaterial.getTensor, isoTensor]
      fin_cases i <;> fin_cases j <;> simp) (passive_isoTensor (by norm_num)) (passive_isoTensor (by norm_num)) (by
      intro x hx h0
      have := congrArg Complex.re h0
      simp [isoTensor] at this
      nlinarith [hx.1, hx.2])).2
  exact this

end PyElli
