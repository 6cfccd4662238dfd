import Verif.Lemmas.Ode
import Verif.Lemmas.Scatter
import Verif.Lemmas.Balance
import Verif.Spec.Graded

/-! # Layers that vary with depth: solutions, and slices -/

namespace PyElli

open Matrix Complex Spec Set Filter Topology
open scoped Matrix.Norms.Operator

/-- A layer with a permittivity that is continuous in the layer, differentiable inside it, and passive. -/
structure GradedOk (l : ℝ × (ℝ → Tensor)) : Prop where
  thick : 0 ≤ l.1
  cont : ∀ i j, ContinuousOn (fun z => l.2 z i j) (Icc 0 l.1)
  diff : ∀ z ∈ Ioo 0 l.1, ∀ i j, DifferentiableAt ℝ (fun s => l.2 s i j) z
  ne : ∀ z ∈ Icc 0 l.1, l.2 z 2 2 ≠ 0
  passive : ∀ z ∈ Icc 0 l.1, Passive (l.2 z)

lemma GradedOk.delta {l : ℝ × (ℝ → Tensor)} (h : GradedOk l) (lbda : ℝ) (kx : ℂ) :
    ContinuousOn (fun z => slabX lbda kx (l.2 z)) (Icc 0 l.1) := by
  have hc := h.cont
  have hn := h.ne
  refine continuousOn_pi.2 fun i => continuousOn_pi.2 fun j => ?_
  unfold slabX
  simp only [Matrix.smul_apply, smul_eq_mul]
  refine continuousOn_const.mul (continuousOn_const.mul ?_)
  have hd : ∀ i j, ContinuousOn (fun z => l.2 z i j / l.2 z 2 2) (Icc 0 l.1) := fun i j => (hc i j).div (hc 2 2) hn
  have hm : ∀ i j i' j', ContinuousOn (fun z => l.2 z i j * l.2 z i' j' / l.2 z 2 2) (Icc 0 l.1) := fun i j i' j' =>
    ((hc i j).mul (hc i' j')).div (hc 2 2) hn
  have hk : ∀ (c : ℂ) i j, ContinuousOn (fun z => c * l.2 z i j / l.2 z 2 2) (Icc 0 l.1) := fun c i j =>
    (continuousOn_const.mul (hc i j)).div (hc 2 2) hn
  have h1 : ContinuousOn (fun z => kx ^ 2 / l.2 z 2 2) (Icc 0 l.1) := continuousOn_const.div (hc 2 2) hn
  fin_cases i <;> fin_cases j <;> simp only [buildDelta] <;> simp
  · simpa using hk (-kx) 2 0
  · simpa using hk (-kx) 2 1
  · exact continuousOn_const
  · exact continuousOn_const.sub h1
  · exact continuousOn_const
  · exact continuousOn_const
  · exact continuousOn_const
  · exact continuousOn_const
  · exact (hm 1 2 2 0).sub (hc 1 0)
  · exact (continuousOn_const.sub (hc 1 1)).add (hm 1 2 2 1)
  · exact continuousOn_const
  · exact hk kx 1 2
  · exact (hc 0 0).sub (hm 0 2 2 0)
  · exact (hc 0 1).sub (hm 0 2 2 1)
  · exact continuousOn_const
  · simpa using hk (-kx) 0 2

/-- The slices of one layer: constant permittivity, taken at the middle of the slice. -/
noncomputable def sliceLayer (n : ℕ) (l : ℝ × (ℝ → Tensor)) : List (ℝ × Tensor) :=
  (List.range n).map fun k : ℕ => (l.1 / n, l.2 (((k : ℝ) + 1 / 2) * (l.1 / n)))

lemma slabs_sliceLayer (kx : ℂ) (lbda : ℝ) (n : ℕ) (l : ℝ × (ℝ → Tensor)) :
    slabs kx lbda (sliceLayer n l) = sliceProd (fun z => slabX lbda kx (l.2 z)) (l.1 / n) n := by
  unfold slabs sliceLayer sliceProd
  rw [List.map_map]
  congr 1
  refine List.map_congr_left fun k _ => ?_
  simp only [Function.comp_apply]
  rw [propExpm_slabX]

lemma slabs_append (kx : ℂ) (lbda : ℝ) (L L' : List (ℝ × Tensor)) : slabs kx lbda (L ++ L') = slabs kx lbda L * slabs kx lbda L' := by
  simp [slabs]

/-- The slices of all layers at one step of a refinement; every layer has its own numbers of slices. -/
noncomputable def slicesAt (L : List ((ℝ × (ℝ → Tensor)) × (ℕ → ℕ))) (k : ℕ) : List (ℝ × Tensor) :=
  L.flatMap fun p => sliceLayer (p.2 k) p.1

/-- The number of slices grows without bound, or the layer is uniform and has at least one slice. -/
def Refined (p : (ℝ × (ℝ → Tensor)) × (ℕ → ℕ)) : Prop :=
  Tendsto p.2 atTop atTop ∨ ((∃ e, ∀ z, p.1.2 z = e) ∧ ∀ k, 1 ≤ p.2 k)

lemma sliceProd_const (X : Mat4) {d : ℝ} {n : ℕ} (hn : 1 ≤ n) : sliceProd (fun _ => X) (d / n) n = NormedSpace.exp ((-d) • X) := by
  have h : ∀ (h : ℝ) (m : ℕ), sliceProd (fun _ => X) h m = NormedSpace.exp ((-(m * h)) • X) := by
    intro h m
    induction m with
    | zero => simp [sliceProd]
    | succ m ih =>
      rw [sliceProd_succ, ih, exp_real_smul_mul]
      congr 2
      push_cast
      ring
  rw [h]
  have : (n : ℝ) ≠ 0 := by positivity
  congr 3
  field_simp

lemma solves_continuous {psi : ℝ → Fin 4 → ℂ} {d : ℝ} (hd : 0 ≤ d) (hc : ContinuousOn psi (Icc 0 d)) :
    Continuous fun z => psi (max 0 (min d z)) := by
  refine hc.comp_continuous (by fun_prop) fun z => ⟨le_max_left _ _, max_le hd (min_le_left _ _)⟩

/-- Carrying fields through all the layers. -/
lemma graded_carrier (lbda : ℝ) (kx eb : ℂ) : ∀ (L : List ((ℝ × (ℝ → Tensor)) × (ℕ → ℕ))), (∀ p ∈ L, GradedOk p.1 ∧ Refined p) →
    ∃ G : Mat4, IsUnit G ∧ Tendsto (fun k => slabs kx lbda (slicesAt L k)) atTop (𝓝 G) ∧
      (∀ psi : ℝ → Fin 4 → ℂ, Continuous psi → ∀ z0 : ℝ,
        (∀ z, z ∉ interfacesFrom z0 (L.map Prod.fst) → z0 < z → z < z0 + ((L.map Prod.fst).map Prod.fst).sum →
          HasDerivAt psi (slabX lbda kx (gradedBelow eb (L.map Prod.fst) (z - z0)) *ᵥ psi z) z) →
        psi z0 = G *ᵥ psi (z0 + ((L.map Prod.fst).map Prod.fst).sum)) ∧
      (∀ w : Fin 4 → ℂ, ∃ psi : ℝ → Fin 4 → ℂ, Continuous psi ∧ psi 0 = G *ᵥ w ∧
        (∀ s, 0 ≤ s → psi (((L.map Prod.fst).map Prod.fst).sum + s) = (NormedSpace.exp (s • slabX lbda kx (eb • 1)) : Mat4) *ᵥ w) ∧
        ∀ z, 0 < z → z ∉ interfacesFrom 0 (L.map Prod.fst) →
          (∀ i j, DifferentiableAt ℝ (fun s => gradedBelow eb (L.map Prod.fst) s i j) z) ∧
          HasDerivAt psi (slabX lbda kx (gradedBelow eb (L.map Prod.fst) z) *ᵥ psi z) z)
  | [], _ => by
    refine ⟨1, isUnit_one, ?_, ?_, ?_⟩
    · simp [slabs, slicesAt]
    · intro psi _ z0 _
      simp
    · intro w
      have hs := fun z => (exp_solves (slabX lbda kx (eb • 1)) w (z - 1) (z + 1)).deriv z ⟨by linarith, by linarith⟩
      refine ⟨fun z => (NormedSpace.exp (z • slabX lbda kx (eb • 1)) : Mat4) *ᵥ w, continuous_iff_continuousAt.2 fun z => (hs z).continuousAt, by simp,
        fun s _ => by simp, fun z _ _ => ⟨fun i j => ?_, hs z⟩⟩
      simp only [List.map_nil, gradedBelow]
      exact differentiableAt_const _
  | ((d, e), nu) :: L, hL => by
    obtain ⟨hok, href⟩ := hL _ List.mem_cons_self
    have hL' : ∀ p ∈ L, GradedOk p.1 ∧ Refined p := fun p hp => hL p (List.mem_cons_of_mem _ hp)
    have hd : 0 ≤ d := hok.thick
    have hX := hok.delta lbda kx
    simp only at hX
    obtain ⟨G1, hG1, hcar1, hlim1⟩ := carrier_exists hd hX
    obtain ⟨G2, hG2, hlim2, hcar2, hex2⟩ := graded_carrier lbda kx eb L hL'
    have hth : ∀ l ∈ L.map Prod.fst, 0 ≤ l.1 := by
      intro l hl
      obtain ⟨p, hp, rfl⟩ := List.mem_map.1 hl
      exact (hL' p hp).1.thick
    have hsum := depth_nonneg (L.map Prod.fst) hth
    refine ⟨G1 * G2, hG1.mul hG2, ?_, ?_, ?_⟩
    · have hsl : ∀ k, slabs kx lbda (slicesAt (((d, e), nu) :: L) k) =
          sliceProd (fun z => slabX lbda kx (e z)) (d / (nu k : ℕ)) (nu k) * slabs kx lbda (slicesAt L k) := by
        intro k
        simp only [slicesAt, List.flatMap_cons, slabs_append, slabs_sliceLayer]
      simp only [hsl]
      refine Tendsto.mul ?_ hlim2
      rcases href with h | ⟨⟨e0, he0⟩, h1⟩
      · exact hlim1.comp h
      · simp only at he0
        have hG : G1 = NormedSpace.exp ((-d) • slabX lbda kx e0) := by
          refine tendsto_nhds_unique hlim1 (tendsto_const_nhds.congr' ?_)
          filter_upwards [eventually_ge_atTop 1] with n hn
          simp only [he0]
          exact (sliceProd_const _ hn).symm
        refine tendsto_const_nhds.congr fun k => ?_
        simp only [he0]
        rw [hG, sliceProd_const _ (h1 k)]
    · intro psi hc z0 h
      simp only [List.map_cons, List.sum_cons] at h ⊢
      have s1 : psi z0 = G1 *ᵥ psi (z0 + d) := by
        have := hcar1 (fun s => psi (z0 + s)) ⟨by fun_prop, fun z hz => by
          have hz' : z0 + z ∉ interfacesFrom z0 ((d, e) :: L.map Prod.fst) := by
            simp only [interfacesFrom, List.mem_cons, not_or]
            exact ⟨by linarith [hz.1], fun hm => absurd (interfaces_ge _ (z0 + d) (z0 + z) hth hm) (by linarith [hz.2])⟩
          have := h (z0 + z) hz' (by linarith [hz.1]) (by linarith [hz.2])
          have hm : gradedBelow eb ((d, e) :: L.map Prod.fst) (z0 + z - z0) = e z := by
            simp only [gradedBelow, add_sub_cancel_left]
            rw [if_pos hz.2]
          rw [hm] at this
          exact this.comp_const_add z0 z⟩
        simpa using this
      have s2 := hcar2 psi hc (z0 + d) fun z hz hz0 hz1 => by
        have hz' : z ∉ interfacesFrom z0 ((d, e) :: L.map Prod.fst) := by
          simp only [interfacesFrom, List.mem_cons, not_or]
          exact ⟨by linarith, hz⟩
        have := h z hz' (by linarith) (by linarith)
        have hm : gradedBelow eb ((d, e) :: L.map Prod.fst) (z - z0) = gradedBelow eb (L.map Prod.fst) (z - (z0 + d)) := by
          simp only [gradedBelow]
          rw [if_neg (by linarith), sub_sub]
        rwa [hm] at this
      rw [s1, s2, Matrix.mulVec_mulVec, add_assoc]
    · intro w
      obtain ⟨psi2, c2, p2, e2, o2⟩ := hex2 w
      obtain ⟨al, hal, hald⟩ := solves_exists (fun z => slabX lbda kx (e z)) hd hX (psi2 0)
      have hal0 : al 0 = G1 *ᵥ psi2 0 := by rw [hcar1 al hal, hald]
      have hcl : ∀ z, z ∈ Icc 0 d → max 0 (min d z) = z := fun z hz => by rw [min_eq_right hz.2, max_eq_right hz.1]
      refine ⟨fun z => if z < d then al (max 0 (min d z)) else psi2 (z - d), ?_, ?_, ?_, ?_⟩
      · refine continuous_pi fun i => ?_
        have hfun : (fun z => (if z < d then al (max 0 (min d z)) else psi2 (z - d)) i) =
            fun z => if z < d then al (max 0 (min d z)) i else psi2 (z - d) i := by
          funext z
          split <;> rfl
        rw [hfun]
        refine glue_continuous d ?_ ?_ ?_
        · exact (continuous_apply i).comp (solves_continuous hd hal.cont)
        · exact (continuous_apply i).comp (c2.comp (continuous_id.sub continuous_const))
        · rw [hcl d ⟨hd, le_rfl⟩, hald, sub_self]
      · rcases hd.eq_or_lt with rfl | hpos
        · simp only [lt_irrefl, if_false, sub_zero]
          rw [p2, ← Matrix.mulVec_mulVec, ← p2, ← hal0, hald]
        · simp only [if_pos hpos]
          rw [hcl 0 ⟨le_rfl, hd⟩, hal0, p2, Matrix.mulVec_mulVec]
      · intro s hs
        simp only [List.map_cons, List.sum_cons]
        rw [if_neg (by linarith), show d + ((L.map Prod.fst).map Prod.fst).sum + s - d = ((L.map Prod.fst).map Prod.fst).sum + s by ring]
        exact e2 s hs
      · intro z hz hi
        simp only [List.map_cons, interfacesFrom, List.mem_cons, not_or] at hi
        obtain ⟨-, hi⟩ := hi
        have hne : z ≠ d := by
          rintro rfl
          apply hi
          rw [zero_add]
          exact head_mem _ _
        simp only [List.map_cons]
        rcases lt_or_gt_of_ne hne with hlt | hgt
        · refine ⟨fun i j => ?_, ?_⟩
          · refine (hok.diff z ⟨hz, hlt⟩ i j).congr_of_eventuallyEq ?_
            filter_upwards [Iio_mem_nhds hlt] with s hs
            simp only [gradedBelow, if_pos (show s < d from hs)]
          · simp only [gradedBelow, if_pos hlt, hcl z ⟨hz.le, hlt.le⟩]
            refine (hal.deriv z ⟨hz, hlt⟩).congr_of_eventuallyEq ?_
            filter_upwards [Ioo_mem_nhds hz hlt] with s hs
            simp only [if_pos hs.2, hcl s ⟨hs.1.le, hs.2.le⟩]
        · rw [interfaces_shift] at hi
          obtain ⟨i1, i2⟩ := o2 (z - d) (by linarith) hi
          have hng : ¬ z < d := not_lt.2 hgt.le
          refine ⟨fun i j => ?_, ?_⟩
          · have h1 : DifferentiableAt ℝ (fun s => gradedBelow eb (L.map Prod.fst) (s - d) i j) z :=
              (i1 i j).comp z ((differentiableAt_id).sub_const d)
            refine h1.congr_of_eventuallyEq ?_
            filter_upwards [Ioi_mem_nhds hgt] with s hs
            simp only [gradedBelow, if_neg (not_lt.2 (le_of_lt (show d < s from hs)))]
          · have h2 := HasDerivAt.comp_sub_const z d i2
            simp only [gradedBelow, if_neg hng]
            refine h2.congr_of_eventuallyEq ?_
            filter_upwards [Ioi_mem_nhds hgt] with s hs
            simp only [if_neg (not_lt.2 (le_of_lt (show d < s from hs)))]

end PyElli
