import Verif.Props.Slicing
import Verif.Props.Symmetry
import Verif.Props.Overflow
import Mathlib.LinearAlgebra.Eigenspace.Triangularizable
import Mathlib.Analysis.Complex.Polynomial.Basic
import Verif.Lemmas.Trotter
import Verif.Spec.Helix

/-! # Helical structures along their axis (C128) -/

namespace PyElli

open Matrix Complex Spec Set Filter Topology
open scoped Matrix.Norms.Operator

lemma turnFields_eq (phi : ℝ) : turnFields phi = turnField (Real.cos phi) (Real.sin phi) := rfl

lemma turnFields_add (a b : ℝ) : turnFields a * turnFields b = turnFields (a + b) := by
  unfold turnFields
  rw [Real.cos_add, Real.sin_add]
  generalize Real.cos a = ca
  generalize Real.sin a = sa
  generalize Real.cos b = cb
  generalize Real.sin b = sb
  ext i j
  fin_cases i <;> fin_cases j <;> simp [Matrix.mul_apply, Fin.sum_univ_four] <;> ring

lemma turnFields_zero : turnFields 0 = 1 := by
  unfold turnFields
  ext i j
  fin_cases i <;> fin_cases j <;> simp

lemma turnFields_neg (a : ℝ) : turnFields a * turnFields (-a) = 1 := by
  rw [turnFields_add, add_neg_cancel, turnFields_zero]

lemma turnFields_unit (a : ℝ) : IsUnit (turnFields a) := IsUnit.of_mul_eq_one _ (turnFields_neg a)

lemma normalDelta_eq (e : Tensor) : buildDelta 0 e = normalDelta e := by
  unfold buildDelta normalDelta planeEps
  ext i j
  fin_cases i <;> fin_cases j <;> simp <;> ring

/-- The medium of a helix after a turn by `a`. -/
noncomputable def turned (a : ℝ) (e : Tensor) : Tensor := (Rz a).map Complex.ofReal * e * ((Rz a).map Complex.ofReal)ᵀ

/-- A slab of the turned medium is the turned slab. -/
lemma turned_slab (a : ℝ) (e : Tensor) (d lbda : ℝ) :
    propExpm (buildDelta 0 (turned a e)) d lbda = turnFields a * propExpm (buildDelta 0 e) d lbda * turnFields (-a) := by
  have h := prop_intertwine (turnFields_unit a) (turn_delta a e) (d := d) (lbda := lbda)
  have h' : turnFields a * propExpm (buildDelta 0 e) d lbda = propExpm (buildDelta 0 (turned a e)) d lbda * turnFields a := h
  rw [h', Matrix.mul_assoc, turnFields_neg, Matrix.mul_one]

/-- `n` slabs, each turned by `b` against the one before. -/
lemma spiral_product (P : Mat4) (a b : ℝ) : ∀ n : ℕ,
    ((List.range n).map fun k : ℕ => turnFields (a + k * b) * P * turnFields (-(a + k * b))).prod =
      turnFields a * (P * turnFields b) ^ n * turnFields (-(a + n * b)) := by
  intro n
  induction n with
  | zero => simp [turnFields_neg]
  | succ n ih =>
    rw [List.range_succ, List.map_append, List.prod_append, ih, List.map_singleton, List.prod_singleton]
    have e1 : turnFields (-(a + n * b)) * turnFields (a + n * b) = 1 := by rw [turnFields_add, neg_add_cancel, turnFields_zero]
    have e2 : turnFields (-(a + n * b)) = turnFields b * turnFields (-(a + ((n + 1 : ℕ) : ℝ) * b)) := by
      rw [turnFields_add]
      congr 1
      push_cast
      ring
    calc turnFields a * (P * turnFields b) ^ n * turnFields (-(a + n * b)) * (turnFields (a + n * b) * P * turnFields (-(a + n * b)))
        = turnFields a * (P * turnFields b) ^ n * (turnFields (-(a + n * b)) * turnFields (a + n * b)) * P * turnFields (-(a + n * b)) := by
          simp only [Matrix.mul_assoc]
      _ = turnFields a * (P * turnFields b) ^ n * P * turnFields (-(a + n * b)) := by rw [e1, Matrix.mul_one]
      _ = turnFields a * (P * turnFields b) ^ n * P * (turnFields b * turnFields (-(a + ((n + 1 : ℕ) : ℝ) * b))) := by rw [← e2]
      _ = _ := by rw [pow_succ]; simp only [Matrix.mul_assoc]

lemma strang_pow (U P : Mat4) (n : ℕ) : U * (P * (U * U)) ^ n = (U * P * U) ^ n * U := by
  induction n with
  | zero => simp
  | succ n ih =>
    rw [pow_succ, ← Matrix.mul_assoc, ih, pow_succ]
    simp only [Matrix.mul_assoc]

lemma turnFields_gen (a : ℝ) : turnFields a = (Real.cos a) • (1 : Mat4) + (Real.sin a) • turnGen := by
  unfold turnFields turnGen
  ext i j
  fin_cases i <;> fin_cases j <;> simp

/-- The slices of a twisted layer at normal incidence. -/
lemma spiral_slices (e : Tensor) {t : ℝ} (ht : t ≠ 0) (angle lbda : ℝ) {n : ℕ} (hn : 1 ≤ n) :
    slabs 0 lbda (sliceLayer n (t, fun z => turned (angle * z / t * Real.pi / 180) e)) =
      (turnFields (angle * Real.pi / 180 / n / 2) * propExpm (buildDelta 0 e) (-(t / n)) lbda * turnFields (angle * Real.pi / 180 / n / 2)) ^ n *
        turnFields (-(angle * Real.pi / 180)) := by
  have hn0 : (n : ℝ) ≠ 0 := by
    have : (0 : ℝ) < n := by exact_mod_cast hn
    exact this.ne'
  set a := angle * Real.pi / 180 / n / 2 with ha
  unfold slabs sliceLayer
  rw [List.map_map]
  have h1 : ((List.range n).map ((fun l : ℝ × Tensor => propExpm (buildDelta 0 l.2) (-l.1) lbda) ∘
      fun k : ℕ => (t / n, turned (angle * (((k : ℝ) + 1 / 2) * (t / n)) / t * Real.pi / 180) e))) =
      (List.range n).map fun k : ℕ => turnFields (a + k * (a + a)) * propExpm (buildDelta 0 e) (-(t / n)) lbda * turnFields (-(a + k * (a + a))) := by
    refine List.map_congr_left fun k _ => ?_
    simp only [Function.comp_apply]
    have h2 : angle * (((k : ℝ) + 1 / 2) * (t / n)) / t * Real.pi / 180 = a + k * (a + a) := by
      rw [ha]
      field_simp
      ring
    rw [h2, turned_slab]
  have h3 : (n : ℝ) * (a + a) = angle * Real.pi / 180 := by
    rw [ha]
    field_simp
    ring
  have h4 := spiral_product (propExpm (buildDelta 0 e) (-(t / n)) lbda) a (a + a) n
  rw [h3] at h4
  refine (congrArg List.prod h1).trans (h4.trans ?_)
  rw [← turnFields_add a a, strang_pow, Matrix.mul_assoc, turnFields_add]
  congr 2
  ring

lemma spiral_deriv (A : ℝ) (X : Mat4) :
    HasDerivAt (fun x : ℝ => turnFields (A * x / 2) * NormedSpace.exp (x • X) * turnFields (A * x / 2)) (X + A • turnGen) 0 := by
  have hl : HasDerivAt (fun x : ℝ => A * x / 2) (A / 2) 0 := by
    have := ((hasDerivAt_id (0 : ℝ)).const_mul A).div_const 2
    simpa using this
  have hU : HasDerivAt (fun x : ℝ => turnFields (A * x / 2)) ((A / 2) • turnGen) 0 := by
    have e : (fun x : ℝ => turnFields (A * x / 2)) =
        fun x : ℝ => (Real.cos (A * x / 2)) • (1 : Mat4) + (Real.sin (A * x / 2)) • turnGen := by
      funext x
      exact turnFields_gen _
    rw [e]
    have hc := (hl.cos).smul_const (1 : Mat4)
    have hs := (hl.sin).smul_const turnGen
    refine (hc.fun_add hs).congr_deriv ?_
    simp
  have hE : HasDerivAt (fun x : ℝ => (NormedSpace.exp (x • X) : Mat4)) X 0 := by
    have := hasDerivAt_exp_smul_const (𝕂 := ℝ) X (0 : ℝ)
    rw [zero_smul, NormedSpace.exp_zero, one_mul] at this
    exact this
  refine ((hU.fun_mul hE).fun_mul hU).congr_deriv ?_
  simp only [mul_zero, zero_div, turnFields_zero, zero_smul, NormedSpace.exp_zero, mul_one, one_mul]
  have : ((A / 2) • turnGen + X) + (A / 2) • turnGen = X + ((A / 2) + (A / 2)) • turnGen := by
    rw [add_smul]
    abel
  rw [this]
  congr 2
  ring

/-- The slices of a twisted layer approach the helix. -/
lemma spiral_limit (e : Tensor) {t : ℝ} (ht : t ≠ 0) (angle lbda : ℝ) (nu : ℕ → ℕ) (hnu : Tendsto nu atTop atTop) :
    Tendsto (fun k => slabs 0 lbda (sliceLayer (nu k) (t, fun z => turned (angle * z / t * Real.pi / 180) e))) atTop
      (𝓝 (helixSlab (2 * Real.pi / lbda) (angle * Real.pi / 180 / t) t e)) := by
  set A := angle * Real.pi / 180 with hA
  have hf := power_tendsto (f := fun x : ℝ => turnFields (A * x / 2) * NormedSpace.exp (x • ((-t) • slabX lbda 0 e)) * turnFields (A * x / 2))
    (by simp [turnFields_zero]) (spiral_deriv A ((-t) • slabX lbda 0 e))
  have hg := (hf.comp hnu).mul_const (turnFields (-A))
  have hE : NormedSpace.exp ((-t) • slabX lbda 0 e + A • turnGen) * turnFields (-A) =
      helixSlab (2 * Real.pi / lbda) (A / t) t e := by
    unfold helixSlab helixGenerator slabX
    rw [div_mul_cancel₀ _ ht, normalDelta_eq]
    congr 2
    ext i j
    simp only [Matrix.add_apply, Matrix.smul_apply, Matrix.sub_apply, Complex.real_smul, smul_eq_mul]
    have ht' : (t : ℂ) ≠ 0 := by exact_mod_cast ht
    push_cast
    field_simp
    ring
  rw [← hE]
  refine Tendsto.congr' ?_ hg
  filter_upwards [hnu.eventually_ge_atTop 1] with k hk
  rw [spiral_slices e ht angle lbda hk]
  simp only [Function.comp_apply]
  rw [propExpm_slabX, smul_smul]
  have e1 : A * (1 / (nu k : ℝ)) / 2 = angle * Real.pi / 180 / (nu k : ℝ) / 2 := by rw [hA]; ring
  have e2 : (1 / (nu k : ℝ)) * -t = -(t / (nu k : ℝ)) := by ring
  rw [e1, e2]

/-! ## Structures of plain and twisted layers -/

/-- A plain layer (`turn = none`) or a twisted one, whose material has the permittivity `e`, with the divisions of a refinement. -/
structure AxisLayer where
  material : Material
  thickness : ℝ
  turn : Option ℝ
  eps : Tensor
  divs : ℕ → ℕ

/-- The object a user writes. -/
def AxisLayer.obj (l : AxisLayer) (k : ℕ) : LayerObj :=
  match l.turn with
  | none => .layer l.material l.thickness
  | some angle => .twisted l.material l.thickness (l.divs k) angle

/-- The helix it stands for; a plain layer does not turn. -/
noncomputable def AxisLayer.slab (lbda : ℝ) (l : AxisLayer) : Mat4 :=
  helixSlab (2 * Real.pi / lbda) (l.turn.getD 0 * Real.pi / 180 / l.thickness) l.thickness l.eps

/-- A passive material with a finite permittivity in a layer of positive thickness. -/
structure AxisLayer.Ok (lbda : ℝ) (l : AxisLayer) : Prop where
  tensor : l.material.getTensor lbda = fun i j => some (l.eps i j)
  thick : 0 < l.thickness
  ne : l.eps 2 2 ≠ 0
  passive : Passive l.eps
  divs : Tendsto l.divs atTop atTop

/-- Permittivity as a function of depth. -/
noncomputable def AxisLayer.depth (l : AxisLayer) : ℝ × (ℝ → Tensor) :=
  match l.turn with
  | none => (l.thickness, fun _ => l.eps)
  | some angle => (l.thickness, fun z => turned (angle * z / l.thickness * Real.pi / 180) l.eps)

noncomputable def AxisLayer.item (l : AxisLayer) : LayerObj × (ℝ × (ℝ → Tensor)) × (ℕ → ℕ) := (l.obj 0, l.depth, l.divs)

lemma AxisLayer.obj_item (l : AxisLayer) (k : ℕ) : (l.item).1.withDivisions ((l.item).2.2 k) = l.obj k := by
  obtain ⟨m, t, turn, e, nu⟩ := l
  cases turn <;> rfl

lemma AxisLayer.ok_item {lbda : ℝ} {l : AxisLayer} (h : l.Ok lbda) :
    Describes lbda l.item.1 l.item.2.1 ∧ GradedOk l.item.2.1 ∧ Tendsto l.item.2.2 atTop atTop := by
  obtain ⟨h1, h2, h3, h4, h5⟩ := h
  obtain ⟨m, t, turn, e, nu⟩ := l
  cases turn with
  | none => exact ⟨.layer _ _ _ h1, C85_plain_ok _ h2.le _ h3 h4, h5⟩
  | some a => exact ⟨.twisted _ _ _ _ _ h2 h1, C85_twisted_ok _ h2.le _ _ h3 h4, h5⟩

lemma still_slab (e : Tensor) (t lbda : ℝ) : propExpm (buildDelta 0 e) (-t) lbda = helixSlab (2 * Real.pi / lbda) 0 t e := by
  unfold helixSlab helixGenerator
  rw [propExpm_slabX, zero_mul, neg_zero, turnFields_zero, Matrix.mul_one]
  unfold slabX
  rw [normalDelta_eq]
  congr 1
  ext i j
  simp only [Matrix.smul_apply, Matrix.sub_apply, Complex.real_smul, smul_eq_mul]
  push_cast
  ring

lemma axis_limit {lbda : ℝ} (Ls : List AxisLayer) (hL : ∀ l ∈ Ls, l.Ok lbda) :
    Tendsto (fun k => slabs 0 lbda (slicesAt (described (Ls.map AxisLayer.item)) k)) atTop (𝓝 (Ls.map (AxisLayer.slab lbda)).prod) := by
  induction Ls with
  | nil => simpa [slicesAt, described, slabs] using tendsto_const_nhds
  | cons l Ls ih =>
    have h2 := ih fun q hq => hL q (List.mem_cons_of_mem _ hq)
    have hl := hL l List.mem_cons_self
    have h1 : Tendsto (fun k => slabs 0 lbda (sliceLayer (sliceCount l.item.1 l.item.2.2 k) l.item.2.1)) atTop (𝓝 (l.slab lbda)) := by
      obtain ⟨m, t, turn, e, nu⟩ := l
      cases turn with
      | none =>
        refine tendsto_const_nhds.congr fun k => ?_
        simp only [AxisLayer.item, AxisLayer.obj, AxisLayer.depth, AxisLayer.slab, sliceCount, sliceLayer, slabs, Option.getD_none, zero_mul, zero_div]
        rw [← still_slab]
        simp
      | some a => exact spiral_limit e hl.thick.ne' a lbda nu hl.divs
    rw [List.map_cons, List.map_cons, List.prod_cons]
    refine (h1.mul h2).congr fun k => ?_
    simp only [slicesAt, described, List.map_cons, List.flatMap_cons]
    rw [slabs_append]

lemma normal_kx (s : Stack) : kxOf s 0 = 0 := by simp [kxOf, deg2rad]

lemma normal_half (e : ℂ) (a r : Fin 2 → ℂ) : isoHalf 0 (isoTensor e) *ᵥ ![a 1, r 1, a 0, r 0] = normalFields e.sqrt a r := by
  have h1 : cosPhi 0 (isoTensor e) = 1 := by simp [cosPhi]
  have h2 : nOf (isoTensor e) = e.sqrt := by simp [nOf, isoTensor]
  unfold isoHalf
  rw [h1, h2]
  funext i
  fin_cases i <;> simp [normalFields, Matrix.mulVec, dotProduct, Fin.sum_univ_four] <;> ring

/-- C128: at normal incidence, with growing divisions, a structure of plain and twisted layers approaches the product of the exact solutions of its
helices: reflected and transmitted amplitudes are those for which the tangential fields in front are this product times the fields behind, and these are
the amplitudes of the solution of Maxwell's equations in the continuously turning media. -/
theorem C128_helix (df db : ℝ → ℂ) (lbda n0 : ℝ) (nb : ℂ) (hn : 0 < n0) (hdf : df lbda = ((n0 ^ 2 : ℝ) : ℂ)) (he : db lbda ≠ 0) (hi : 0 ≤ (db lbda).im)
    (hnb : IsIndex nb (db lbda)) (hl : 0 < lbda) (Ls : List AxisLayer) (hL : ∀ l ∈ Ls, l.Ok lbda) :
    ∃ jr jt : Mat2,
      (∀ a r t, normalFields n0 a r = (Ls.map (AxisLayer.slab lbda)).prod *ᵥ normalFields nb t 0 ↔ r = jr *ᵥ a ∧ t = jt *ᵥ a) ∧
      (∀ a r t, (∃ E H : Field, (Graded.mk n0 (Ls.map AxisLayer.depth) (db lbda)).Scattering 0 lbda a r t E H) ↔ r = jr *ᵥ a ∧ t = jt *ᵥ a) ∧
      ∃ st : ℕ → Stack,
        (∀ k, Struct.stack ⟨.single .isotropic (isotropicMaterial df), Ls.map fun l => l.obj k, .single .isotropic (isotropicMaterial db)⟩ lbda =
          some (st k)) ∧
        ∀ ee, Tendsto (fun k => (calculate4x4 propExpm (st k) 0 lbda ee).jr) atTop (𝓝 jr) ∧
          Tendsto (fun k => (calculate4x4 propExpm (st k) 0 lbda ee).jt) atTop (𝓝 jt) := by
  have hdes : ∀ p ∈ Ls.map AxisLayer.item, Describes lbda p.1 p.2.1 ∧ GradedOk p.2.1 ∧ Tendsto p.2.2 atTop atTop := by
    intro p hp
    obtain ⟨l, hm, rfl⟩ := List.mem_map.1 hp
    exact AxisLayer.ok_item (hL l hm)
  obtain ⟨M, hdet, hlim, hiff⟩ := graded_limit n0 hn (described (Ls.map AxisLayer.item)) (described_refined _ hdes) (db lbda) he hi 0 lbda (by norm_num) hl
  have hM : M = (Ls.map (AxisLayer.slab lbda)).prod := by
    rw [normal_kx] at hlim
    exact tendsto_nhds_unique hlim (axis_limit Ls hL)
  have hfst : (described (Ls.map AxisLayer.item)).map Prod.fst = Ls.map AxisLayer.depth := by
    rw [described, List.map_map, List.map_map]
    rfl
  rw [hfst] at hiff
  refine ⟨_, _, ?_, hiff, fun k => sampleStack ⟨n0, slicesAt (described (Ls.map AxisLayer.item)) k, db lbda⟩, ?_, ?_⟩
  · intro a r t
    rw [← amplitudesM (bare_passive hn he hi (by norm_num : |(0 : ℝ)| < 90) hl) hn hdet, normal_kx, hM]
    have e1 : (bare n0 (db lbda)).front = isoTensor (((n0 ^ 2 : ℝ) : ℂ)) := rfl
    have e2 : (bare n0 (db lbda)).back = isoTensor (db lbda) := rfl
    have hps := bare_passive (theta := 0) hn he hi (by norm_num) hl
    have e3 : ((n0 ^ 2 : ℝ) : ℂ).sqrt = n0 := by
      have := (sample_front (S := ⟨n0, [], db lbda⟩) hps hn).1
      rwa [show (sampleStack ⟨n0, [], db lbda⟩).front = isoTensor (((n0 ^ 2 : ℝ) : ℂ)) from rfl, show nOf (isoTensor (((n0 ^ 2 : ℝ) : ℂ))) =
        ((n0 ^ 2 : ℝ) : ℂ).sqrt by simp [nOf, isoTensor]] at this
    have e4 : (db lbda).sqrt = nb := by
      have := (sample_back (S := ⟨n0, [], db lbda⟩) hps hn).1
      rw [show (sampleStack ⟨n0, [], db lbda⟩).back = isoTensor (db lbda) from rfl, show nOf (isoTensor (db lbda)) =
        (db lbda).sqrt by simp [nOf, isoTensor]] at this
      exact root_unique this.1 hnb.1 this.2.2 hnb.2.2 (fun _ => this.2.1) (fun _ => hnb.2.1)
    have hz : (![t 1, 0, t 0, 0] : Fin 4 → ℂ) = ![t 1, (0 : Fin 2 → ℂ) 1, t 0, (0 : Fin 2 → ℂ) 0] := rfl
    rw [e1, e2, hz, normal_half, normal_half, e3, e4]
  · intro k
    have := described_stack (db := db) hdf k (Ls.map AxisLayer.item) fun p hp => (hdes p hp).1
    rw [List.map_map] at this
    have e1 : ((fun p : LayerObj × (ℝ × (ℝ → Tensor)) × (ℕ → ℕ) => p.1.withDivisions (p.2.2 k)) ∘ AxisLayer.item) = fun l => l.obj k := by
      funext l
      exact AxisLayer.obj_item l k
    rw [e1] at this
    exact this
  · intro ee
    simp only [calculate4x4, calculate_transferM]
    exact jones_tendsto hlim hdet

/-! ## Modes of a helix -/

/-- C128: the waves `exp(i k m z)` in the frame that turns with the helix (de Vries): the values of `m` are the roots of
`m⁴ - (a + b + 2 p²) m² + (a - p²)(b - p²)` with `p = q / k`, the vacuum wavelength over the pitch. -/
theorem C128_modes (k q : ℝ) (hk : k ≠ 0) (a b c m : ℂ) :
    (∃ v : Fin 4 → ℂ, v ≠ 0 ∧ helixGenerator k q (Matrix.diagonal ![a, b, c]) *ᵥ v = (I * k * m) • v) ↔
      m ^ 4 - (a + b + 2 * ((q / k : ℝ) : ℂ) ^ 2) * m ^ 2 + (a - ((q / k : ℝ) : ℂ) ^ 2) * (b - ((q / k : ℝ) : ℂ) ^ 2) = 0 := by
  have hk' : (k : ℂ) ≠ 0 := by exact_mod_cast hk
  set p : ℂ := ((q / k : ℝ) : ℂ) with hp
  have hq : (q : ℂ) = k * p := by
    rw [hp]
    push_cast
    field_simp
  have hG : helixGenerator k q (Matrix.diagonal ![a, b, c]) = !![0, k * p, 0, I * k; -(k * p), 0, -(I * k), 0; 0, -(I * k * b), 0, k * p; I * k * a, 0, -(k * p), 0] := by
    unfold helixGenerator normalDelta planeEps turnGen
    rw [hq]
    ext i j
    fin_cases i <;> fin_cases j <;> simp
  have hx : (∃ v : Fin 4 → ℂ, v ≠ 0 ∧ helixGenerator k q (Matrix.diagonal ![a, b, c]) *ᵥ v = (I * k * m) • v) ↔
      ∃ v : Fin 4 → ℂ, v ≠ 0 ∧ (helixGenerator k q (Matrix.diagonal ![a, b, c]) - (I * k * m) • (1 : Mat4)) *ᵥ v = 0 := by
    refine exists_congr fun v => and_congr_right fun _ => ?_
    rw [Matrix.sub_mulVec, Matrix.smul_mulVec, Matrix.one_mulVec, sub_eq_zero]
  rw [hx, Matrix.exists_mulVec_eq_zero_iff, hG]
  have hd : (!![0, k * p, 0, I * k; -(k * p), 0, -(I * k), 0; 0, -(I * k * b), 0, k * p; I * k * a, 0, -(k * p), 0] - (I * k * m) • (1 : Mat4)).det =
      (k : ℂ) ^ 4 * (m ^ 4 - (a + b + 2 * p ^ 2) * m ^ 2 + (a - p ^ 2) * (b - p ^ 2)) := by
    have e4 : (I : ℂ) ^ 4 = 1 := by rw [show 4 = 2 * 2 by norm_num, pow_mul, I_sq]; norm_num
    simp only [Matrix.det_succ_row_zero, Fin.sum_univ_succ]
    simp [Matrix.one_apply, Fin.succAbove]
    ring_nf
    simp only [e4, I_sq]
    ring
  rw [hd, mul_eq_zero, or_iff_right (pow_ne_zero 4 hk')]

/-- Eigenvalues of an exponential. -/
lemma exp_eigenvalues (A : Mat4) (mu : ℂ) : (∃ v : Fin 4 → ℂ, v ≠ 0 ∧ NormedSpace.exp A *ᵥ v = mu • v) ↔
    ∃ x : ℂ, mu = Complex.exp x ∧ ∃ v : Fin 4 → ℂ, v ≠ 0 ∧ A *ᵥ v = x • v := by
  constructor
  · rintro ⟨w, hw, he⟩
    let E : Submodule ℂ (Fin 4 → ℂ) := LinearMap.ker (Matrix.mulVecLin (NormedSpace.exp A) - mu • LinearMap.id)
    have hE : ∀ v, v ∈ E ↔ NormedSpace.exp A *ᵥ v = mu • v := by
      intro v
      simp only [E, LinearMap.mem_ker, LinearMap.sub_apply, LinearMap.smul_apply, Matrix.mulVecLin_apply, LinearMap.id_apply, sub_eq_zero]
    have hcomm : NormedSpace.exp A * A = A * NormedSpace.exp A := ((Commute.refl A).exp_left).eq
    have hA : ∀ v ∈ E, Matrix.mulVecLin A v ∈ E := by
      intro v hv
      rw [hE] at hv ⊢
      rw [Matrix.mulVecLin_apply, Matrix.mulVec_mulVec, hcomm, ← Matrix.mulVec_mulVec, hv, Matrix.mulVec_smul]
    have : Nontrivial E := ⟨⟨⟨w, (hE w).2 he⟩, 0, fun h => hw (congrArg Subtype.val h)⟩⟩
    obtain ⟨x, hx⟩ := Module.End.exists_eigenvalue ((Matrix.mulVecLin A).restrict hA)
    obtain ⟨v, hv⟩ := hx.exists_hasEigenvector
    have hv0 : (v : Fin 4 → ℂ) ≠ 0 := fun h => hv.2 (Subtype.ext h)
    have hv1 : A *ᵥ (v : Fin 4 → ℂ) = x • (v : Fin 4 → ℂ) := by
      have := congrArg Subtype.val hv.apply_eq_smul
      exact this
    refine ⟨x, ?_, v, hv0, hv1⟩
    have h1 := exp_mulVec_eigen hv1
    rw [(hE v).1 v.2] at h1
    have h2 : (mu - Complex.exp x) • (v : Fin 4 → ℂ) = 0 := by rw [sub_smul, h1, sub_self]
    rcases smul_eq_zero.1 h2 with h3 | h3
    · exact sub_eq_zero.1 h3
    · exact absurd h3 hv0
  · rintro ⟨x, rfl, v, hv, h⟩
    exact ⟨v, hv, exp_mulVec_eigen h⟩

/-- The roots of the quartic are real unless `p²` lies between `a` and `b`. -/
lemma quartic_real {a b P : ℝ} (ha : 0 < a) (hb : 0 < b) (hP : 0 ≤ P) :
    (∃ m : ℂ, m ^ 4 - (a + b + 2 * (P : ℂ)) * m ^ 2 + (a - (P : ℂ)) * (b - (P : ℂ)) = 0 ∧ m.im ≠ 0) ↔ (a - P) * (b - P) < 0 := by
  set S := a + b + 2 * P with hS
  set Q := (a - P) * (b - P) with hQ
  have hD : 0 ≤ S ^ 2 - 4 * Q := by
    have : S ^ 2 - 4 * Q = (a - b) ^ 2 + 8 * P * (a + b) := by rw [hS, hQ]; ring
    rw [this]
    positivity
  have hS0 : 0 < S := by positivity
  set r := Real.sqrt (S ^ 2 - 4 * Q) with hr
  have hr2 : r ^ 2 = S ^ 2 - 4 * Q := Real.sq_sqrt hD
  have hr0 : 0 ≤ r := Real.sqrt_nonneg _
  have key : ∀ m : ℂ, m ^ 4 - (a + b + 2 * (P : ℂ)) * m ^ 2 + (a - (P : ℂ)) * (b - (P : ℂ)) =
      (m ^ 2 - (((S + r) / 2 : ℝ) : ℂ)) * (m ^ 2 - (((S - r) / 2 : ℝ) : ℂ)) := by
    intro m
    have h1 : ((S : ℝ) : ℂ) = a + b + 2 * (P : ℂ) := by rw [hS]; push_cast; ring
    have h2 : ((Q : ℝ) : ℂ) = (a - (P : ℂ)) * (b - (P : ℂ)) := by rw [hQ]; push_cast; ring
    have h3 : ((r : ℝ) : ℂ) ^ 2 = (S : ℂ) ^ 2 - 4 * (Q : ℂ) := by exact_mod_cast congrArg Complex.ofReal hr2
    rw [← h1, ← h2]
    push_cast
    linear_combination (1 / 4 : ℂ) * h3
  have real_of_sq : ∀ (m : ℂ) (x : ℝ), 0 ≤ x → m ^ 2 = (x : ℂ) → m.im = 0 := by
    intro m x hx h
    have h1 := congrArg Complex.re h
    have h2 := congrArg Complex.im h
    simp [pow_two] at h1 h2
    by_contra hne
    have h3 : m.re = 0 := by
      have : m.re * m.im = 0 := by linarith
      exact (mul_eq_zero.1 this).resolve_right hne
    rw [h3] at h1
    have := mul_self_pos.2 hne
    linarith
  constructor
  · rintro ⟨m, hm, him⟩
    by_contra hQ0
    push Not at hQ0
    have hrS : r ≤ S := by
      rw [← abs_of_nonneg hr0, ← abs_of_pos hS0]
      exact sq_le_sq.1 (by rw [hr2]; linarith)
    rw [key] at hm
    rcases mul_eq_zero.1 hm with h | h
    · exact him (real_of_sq m _ (by positivity) (sub_eq_zero.1 h))
    · exact him (real_of_sq m _ (by linarith) (sub_eq_zero.1 h))
  · intro hQ0
    have hrS : S < r := by
      rw [← abs_of_nonneg hr0, ← abs_of_pos hS0]
      exact sq_lt_sq.1 (by rw [hr2]; linarith)
    refine ⟨I * (Real.sqrt ((r - S) / 2) : ℝ), ?_, ?_⟩
    · rw [key]
      apply mul_eq_zero.2
      right
      have : ((Real.sqrt ((r - S) / 2) : ℝ) : ℂ) ^ 2 = (((r - S) / 2 : ℝ) : ℂ) := by
        rw [← Complex.ofReal_pow, Real.sq_sqrt (by linarith)]
      rw [mul_pow, I_sq, this]
      push_cast
      ring
    · simp only [Complex.mul_im, Complex.I_re, Complex.I_im, Complex.ofReal_re, Complex.ofReal_im]
      have := Real.sqrt_pos.2 (by linarith : 0 < (r - S) / 2)
      rw [zero_mul, one_mul, zero_add]
      exact this.ne'

/-- C128: selective reflection. Over half a turn of a helix, right or left handed, of a transparent medium with the indices `√a`, `√b` in the plane of the layers,
some wave grows or decays exactly when the wavelength lies between the two indices times the pitch. -/
theorem C128_band (lbda t a b angle : ℝ) (c : ℂ) (hl : 0 < lbda) (ht : 0 < t) (ha : 0 < a) (hb : 0 < b) (hs : angle = 180 ∨ angle = -180) :
    (∃ (mu : ℂ) (v : Fin 4 → ℂ), v ≠ 0 ∧
        helixSlab (2 * Real.pi / lbda) (angle * Real.pi / 180 / t) t (Matrix.diagonal ![(a : ℂ), b, c]) *ᵥ v = mu • v ∧ ‖mu‖ ≠ 1) ↔
      Real.sqrt (min a b) * (2 * t) < lbda ∧ lbda < Real.sqrt (max a b) * (2 * t) := by
  set k := 2 * Real.pi / lbda with hk
  set q := angle * Real.pi / 180 / t with hq
  set e : Tensor := Matrix.diagonal ![(a : ℂ), b, c] with he
  have hpi := Real.pi_pos
  have hk0 : 0 < k := by positivity
  have hp2 : (q / k) ^ 2 = (lbda / (2 * t)) ^ 2 := by
    rw [hq, hk]
    rcases hs with rfl | rfl <;> field_simp <;> norm_num
  have hturn : turnFields (-(q * t)) = -1 := by
    have h1 : q * t = Real.pi ∨ q * t = -Real.pi := by
      rw [hq, div_mul_cancel₀ _ ht.ne']
      rcases hs with rfl | rfl
      · left; ring
      · right; ring
    rw [turnFields_gen]
    rcases h1 with h1 | h1 <;> rw [h1] <;> simp
  have hslab : helixSlab k q t e = -NormedSpace.exp (-(t : ℂ) • helixGenerator k q e) := by
    unfold helixSlab
    rw [hturn, Matrix.mul_neg, Matrix.mul_one]
  have hmodes : (∃ (mu : ℂ) (v : Fin 4 → ℂ), v ≠ 0 ∧ helixSlab k q t e *ᵥ v = mu • v ∧ ‖mu‖ ≠ 1) ↔
      ∃ m : ℂ, m ^ 4 - (a + b + 2 * (((lbda / (2 * t)) ^ 2 : ℝ) : ℂ)) * m ^ 2 + (a - (((lbda / (2 * t)) ^ 2 : ℝ) : ℂ)) * (b - (((lbda / (2 * t)) ^ 2 : ℝ) : ℂ)) = 0 ∧
        m.im ≠ 0 := by
    have hnorm : ∀ m : ℂ, ‖Complex.exp (-(t : ℂ) * (I * k * m))‖ = Real.exp (t * k * m.im) := by
      intro m
      rw [Complex.norm_exp]
      congr 1
      simp
      ring
    have hmm : ∀ m : ℂ, (∃ v : Fin 4 → ℂ, v ≠ 0 ∧ helixGenerator k q e *ᵥ v = (I * k * m) • v) ↔ m ^ 4 - (a + b + 2 * (((lbda / (2 * t)) ^ 2 : ℝ) : ℂ)) * m ^ 2 + (a - (((lbda / (2 * t)) ^ 2 : ℝ) : ℂ)) * (b - (((lbda / (2 * t)) ^ 2 : ℝ) : ℂ)) = 0 := by
      intro m
      rw [he, C128_modes k q hk0.ne', ← Complex.ofReal_pow, hp2]
    have hk' : (k : ℂ) ≠ 0 := by exact_mod_cast hk0.ne'
    have ht' : (t : ℂ) ≠ 0 := by exact_mod_cast ht.ne'
    constructor
    · rintro ⟨mu, v, hv, h, hmu⟩
      rw [hslab, Matrix.neg_mulVec] at h
      obtain ⟨x, hx, w, hw, hwx⟩ := (exp_eigenvalues _ (-mu)).1 ⟨v, hv, by rw [neg_smul, ← h, neg_neg]⟩
      rw [Matrix.smul_mulVec] at hwx
      set m := x / (-(t : ℂ) * (I * k)) with hm
      have hxm : x = -(t : ℂ) * (I * k * m) := by
        rw [hm]
        field_simp
      refine ⟨m, (hmm m).1 ⟨w, hw, ?_⟩, ?_⟩
      · rw [hxm, mul_smul] at hwx
        exact smul_right_injective _ (neg_ne_zero.2 ht') hwx
      · intro h0
        apply hmu
        rw [← norm_neg, hx, hxm, hnorm, h0, mul_zero, Real.exp_zero]
    · rintro ⟨m, hm, him⟩
      obtain ⟨w, hw, h⟩ := (hmm m).2 hm
      refine ⟨-Complex.exp (-(t : ℂ) * (I * k * m)), w, hw, ?_, ?_⟩
      · have h2 : (-(t : ℂ) • helixGenerator k q e) *ᵥ w = (-(t : ℂ) * (I * k * m)) • w := by rw [Matrix.smul_mulVec, h, smul_smul]
        rw [hslab, Matrix.neg_mulVec, exp_mulVec_eigen h2, neg_smul]
      · rw [norm_neg, hnorm]
        intro h1
        rw [Real.exp_eq_one_iff] at h1
        rcases mul_eq_zero.1 h1 with h2 | h2
        · exact (mul_pos ht hk0).ne' h2
        · exact him h2
  rw [hmodes, quartic_real ha hb (sq_nonneg _)]
  set P := lbda / (2 * t) with hP
  have hP0 : 0 < P := by positivity
  have hlP : lbda = P * (2 * t) := by rw [hP]; field_simp
  have h2t : 0 < 2 * t := by positivity
  rw [hlP, mul_lt_mul_iff_left₀ h2t, mul_lt_mul_iff_left₀ h2t, Real.sqrt_lt' hP0, Real.lt_sqrt hP0.le]
  rcases le_total a b with hab | hab
  · rw [min_eq_left hab, max_eq_right hab]
    constructor
    · intro h
      rcases mul_neg_iff.1 h with h | h <;> constructor <;> linarith
    · rintro ⟨h1, h2⟩
      exact mul_neg_of_neg_of_pos (by linarith) (by linarith)
  · rw [min_eq_right hab, max_eq_left hab]
    constructor
    · intro h
      rcases mul_neg_iff.1 h with h | h <;> constructor <;> linarith
    · rintro ⟨h1, h2⟩
      exact mul_neg_of_pos_of_neg (by linarith) (by linarith)

/-! ## Cases -/

/-- Hypotheses of C128: a cholesteric between plain films. -/
example : ∃ Ls : List AxisLayer, Ls.map AxisLayer.turn = [none, some 360, none] ∧ ∀ l ∈ Ls, l.Ok 500 := by
  let m : SingleMaterial := ⟨fun _ => 3, fun _ => 2, fun _ => 2, none⟩
  have hp : Passive (m.getTensor 500) := C36_material_passive m 500 (by simp [m]) (by simp [m]) (by simp [m])
  have h22 : m.getTensor 500 2 2 ≠ 0 := by simp [m, SingleMaterial.getTensor]
  have hok : ∀ (t : ℝ) (o : Option ℝ), 0 < t → (⟨.single .biaxial m, t, o, m.getTensor 500, id⟩ : AxisLayer).Ok 500 :=
    fun t o ht => ⟨rfl, ht, h22, hp, tendsto_id⟩
  refine ⟨[⟨.single .biaxial m, 100, none, m.getTensor 500, id⟩, ⟨.single .biaxial m, 400, some 360, m.getTensor 500, id⟩,
    ⟨.single .biaxial m, 50, none, m.getTensor 500, id⟩], rfl, ?_⟩
  intro l hl
  simp only [List.mem_cons, List.not_mem_nil, or_false] at hl
  rcases hl with rfl | rfl | rfl
  · exact hok _ _ (by norm_num)
  · exact hok _ _ (by norm_num)
  · exact hok _ _ (by norm_num)

/-- Indices 1.5 and 1.7 with a pitch of 300 nm: 480 nm lies in the band, 600 nm does not. -/
example (c : ℂ) : (∃ (mu : ℂ) (v : Fin 4 → ℂ), v ≠ 0 ∧
        helixSlab (2 * Real.pi / 480) (180 * Real.pi / 180 / 150) 150 (Matrix.diagonal ![((2.25 : ℝ) : ℂ), (2.89 : ℝ), c]) *ᵥ v = mu • v ∧ ‖mu‖ ≠ 1) ∧
    ¬ ∃ (mu : ℂ) (v : Fin 4 → ℂ), v ≠ 0 ∧
        helixSlab (2 * Real.pi / 600) (180 * Real.pi / 180 / 150) 150 (Matrix.diagonal ![((2.25 : ℝ) : ℂ), (2.89 : ℝ), c]) *ᵥ v = mu • v ∧ ‖mu‖ ≠ 1 := by
  have h1 : Real.sqrt (min 2.25 2.89) = 1.5 := by
    rw [min_eq_left (by norm_num), show (2.25 : ℝ) = 1.5 ^ 2 by norm_num, Real.sqrt_sq (by norm_num)]
  have h2 : Real.sqrt (max 2.25 2.89) = 1.7 := by
    rw [max_eq_right (by norm_num), show (2.89 : ℝ) = 1.7 ^ 2 by norm_num, Real.sqrt_sq (by norm_num)]
  constructor
  · rw [C128_band 480 150 2.25 2.89 180 c (by norm_num) (by norm_num) (by norm_num) (by norm_num) (Or.inl rfl), h1, h2]
    norm_num
  · rw [C128_band 600 150 2.25 2.89 180 c (by norm_num) (by norm_num) (by norm_num) (by norm_num) (Or.inl rfl), h1, h2]
    norm_num

end PyElli
