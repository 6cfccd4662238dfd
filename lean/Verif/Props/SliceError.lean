import Verif.Lemmas.SliceRate
import Verif.Lemmas.LinearRate
import Verif.Props.Slicing
import Verif.Props.Symmetry
import Mathlib.Analysis.SpecialFunctions.Complex.LogDeriv

/-!
# C132: the error of slicing

C85 says that the sliced sample converges to the continuous one. Here is how fast: with `n` slices per layer the error of the Jones matrices is of the order
`1/n²` with the exponential propagators and of the order `1/n` with `PropagatorLinear`, and the latter order cannot be improved.
-/

namespace PyElli

open Matrix Complex Spec Set Filter Topology Asymptotics

/-- The permittivity is twice continuously differentiable in the layer. -/
def SmoothIn (l : ℝ × (ℝ → Tensor)) : Prop := ∀ z ∈ Icc 0 l.1, ∀ i j, ContDiffAt ℝ 2 (fun s => l.2 s i j) z

lemma slabX_smooth {l : ℝ × (ℝ → Tensor)} (h : GradedOk l) (hs : SmoothIn l) (lbda : ℝ) (kx : ℂ) :
    ∀ z ∈ Icc 0 l.1, ∀ i j, ContDiffAt ℝ 2 (fun s => slabX lbda kx (l.2 s) i j) z := by
  intro z hz i j
  have hc := hs z hz
  have hn := h.ne z hz
  unfold slabX
  simp only [Matrix.smul_apply, smul_eq_mul]
  refine contDiffAt_const.mul (contDiffAt_const.mul ?_)
  have hm : ∀ i j i' j', ContDiffAt ℝ 2 (fun z => l.2 z i j * l.2 z i' j' / l.2 z 2 2) z := fun i j i' j' =>
    by
    simp only [div_eq_mul_inv]
    exact ((hc i j).mul (hc i' j')).mul ((hc 2 2).inv hn)
  have hk : ∀ (c : ℂ) i j, ContDiffAt ℝ 2 (fun z => c * l.2 z i j / l.2 z 2 2) z := fun c i j =>
    by
    simp only [div_eq_mul_inv]
    exact (contDiffAt_const.mul (hc i j)).mul ((hc 2 2).inv hn)
  have h1 : ContDiffAt ℝ 2 (fun z => kx ^ 2 / l.2 z 2 2) z := by
    simp only [div_eq_mul_inv]
    exact contDiffAt_const.mul ((hc 2 2).inv hn)
  fin_cases i <;> fin_cases j <;> simp only [buildDelta] <;> simp
  · simpa using hk (-kx) 2 0
  · simpa using hk (-kx) 2 1
  · exact contDiffAt_const
  · exact contDiffAt_const.sub h1
  · exact contDiffAt_const
  · exact contDiffAt_const
  · exact contDiffAt_const
  · exact contDiffAt_const
  · exact (hm 1 2 2 0).sub (hc 1 0)
  · exact (contDiffAt_const.sub (hc 1 1)).add (hm 1 2 2 1)
  · exact contDiffAt_const
  · exact hk kx 1 2
  · exact (hc 0 0).sub (hm 0 2 2 0)
  · exact (hc 0 1).sub (hm 0 2 2 1)
  · exact contDiffAt_const
  · simpa using hk (-kx) 0 2

/-! ## Orders of convergence -/

/-- `F` tends to `c` with the order `g`. -/
def Rate (g : ℕ → ℝ) (F : ℕ → ℂ) (c : ℂ) : Prop := Tendsto F atTop (𝓝 c) ∧ (fun k => F k - c) =O[atTop] g

lemma Rate.const {g : ℕ → ℝ} (c : ℂ) : Rate g (fun _ => c) c := ⟨tendsto_const_nhds, by simpa using isBigO_zero g atTop⟩

lemma Rate.mono {g g' : ℕ → ℝ} {F : ℕ → ℂ} {c : ℂ} (h : Rate g F c) (hg : g =O[atTop] g') : Rate g' F c := ⟨h.1, h.2.trans hg⟩

lemma Rate.add {g : ℕ → ℝ} {F F' : ℕ → ℂ} {c c' : ℂ} (h : Rate g F c) (h' : Rate g F' c') : Rate g (fun k => F k + F' k) (c + c') :=
  ⟨h.1.add h'.1, (h.2.add h'.2).congr_left fun k => by ring⟩

lemma Rate.neg {g : ℕ → ℝ} {F : ℕ → ℂ} {c : ℂ} (h : Rate g F c) : Rate g (fun k => -F k) (-c) := ⟨h.1.neg, h.2.neg_left.congr_left fun k => by ring⟩

lemma Rate.sub {g : ℕ → ℝ} {F F' : ℕ → ℂ} {c c' : ℂ} (h : Rate g F c) (h' : Rate g F' c') : Rate g (fun k => F k - F' k) (c - c') := by
  simpa only [sub_eq_add_neg] using h.add h'.neg

lemma Rate.mul {g : ℕ → ℝ} {F F' : ℕ → ℂ} {c c' : ℂ} (h : Rate g F c) (h' : Rate g F' c') : Rate g (fun k => F k * F' k) (c * c') := by
  refine ⟨h.1.mul h'.1, ?_⟩
  have h1 : (fun k => (F k - c) * F' k) =O[atTop] g := by
    have := h.2.mul (h'.1.isBigO_one ℝ)
    simpa using this
  have h2 : (fun k => c * (F' k - c')) =O[atTop] g := h'.2.const_mul_left c
  exact (h1.add h2).congr_left fun k => by ring

lemma Rate.inv {g : ℕ → ℝ} {F : ℕ → ℂ} {c : ℂ} (h : Rate g F c) (hc : c ≠ 0) : Rate g (fun k => (F k)⁻¹) c⁻¹ := by
  have ht := h.1.inv₀ hc
  refine ⟨ht, ?_⟩
  have h1 : (fun k => -((F k - c) * ((F k)⁻¹ * c⁻¹))) =O[atTop] g := by
    have := (h.2.mul ((ht.mul_const c⁻¹).isBigO_one ℝ)).neg_left
    simpa using this
  refine h1.congr' ?_ EventuallyEq.rfl
  filter_upwards [h.1.eventually_ne hc] with k hk
  field_simp
  ring

lemma Rate.sum {ι : Type*} (s : Finset ι) {g : ℕ → ℝ} {F : ι → ℕ → ℂ} {c : ι → ℂ} (h : ∀ i ∈ s, Rate g (F i) (c i)) :
    Rate g (fun k => ∑ i ∈ s, F i k) (∑ i ∈ s, c i) := by
  refine ⟨tendsto_finset_sum _ fun i hi => (h i hi).1, ?_⟩
  have := IsBigO.sum fun i hi => (h i hi).2
  refine this.congr_left fun k => ?_
  simp [Finset.sum_sub_distrib]

/-- Entry by entry. -/
def MatRate {m : ℕ} (g : ℕ → ℝ) (F : ℕ → Matrix (Fin m) (Fin m) ℂ) (M : Matrix (Fin m) (Fin m) ℂ) : Prop := ∀ i j, Rate g (fun k => F k i j) (M i j)

lemma MatRate.const {m : ℕ} {g : ℕ → ℝ} (M : Matrix (Fin m) (Fin m) ℂ) : MatRate g (fun _ => M) M := fun i j => .const _

lemma MatRate.mul {m : ℕ} {g : ℕ → ℝ} {F F' : ℕ → Matrix (Fin m) (Fin m) ℂ} {M M' : Matrix (Fin m) (Fin m) ℂ} (h : MatRate g F M) (h' : MatRate g F' M') :
    MatRate g (fun k => F k * F' k) (M * M') := by
  intro i j
  simp only [Matrix.mul_apply]
  exact Rate.sum _ fun l _ => (h i l).mul (h' l j)

lemma MatRate.inv {g : ℕ → ℝ} {F : ℕ → Mat2} {M : Mat2} (h : MatRate g F M) (hd : M.det ≠ 0) : MatRate g (fun k => (F k)⁻¹) M⁻¹ := by
  have hdet : Rate g (fun k => (F k).det) M.det := by
    simp only [Matrix.det_fin_two]
    exact ((h 0 0).mul (h 1 1)).sub ((h 0 1).mul (h 1 0))
  have hi := hdet.inv hd
  intro i j
  simp only [Matrix.inv_def, Ring.inverse_eq_inv', Matrix.adjugate_fin_two, Matrix.smul_apply, smul_eq_mul]
  refine hi.mul ?_
  fin_cases i <;> fin_cases j <;> simp
  · exact h 1 1
  · exact (h 0 1).neg
  · exact (h 1 0).neg
  · exact h 0 0

lemma jones_rate {n0 : ℝ} {eb : ℂ} {theta : ℝ} {g : ℕ → ℝ} {Mk : ℕ → Mat4} {M : Mat4} (hM : MatRate g Mk M) (hdet : (tIt (transferM n0 eb theta M)).det ≠ 0) :
    MatRate g (fun k => tRt (transferM n0 eb theta (Mk k)) * (tIt (transferM n0 eb theta (Mk k)))⁻¹) (tRt (transferM n0 eb theta M) * (tIt (transferM n0 eb theta M))⁻¹) ∧
    MatRate g (fun k => (tIt (transferM n0 eb theta (Mk k)))⁻¹) (tIt (transferM n0 eb theta M))⁻¹ := by
  have ht : MatRate g (fun k => transferM n0 eb theta (Mk k)) (transferM n0 eb theta M) := (MatRate.const _).mul (hM.mul (.const _))
  have h1 : MatRate g (fun k => tIt (transferM n0 eb theta (Mk k))) (tIt (transferM n0 eb theta M)) := by
    intro i j
    fin_cases i <;> fin_cases j <;> simp [tIt] <;> exact ht _ _
  have h2 : MatRate g (fun k => tRt (transferM n0 eb theta (Mk k))) (tRt (transferM n0 eb theta M)) := by
    intro i j
    fin_cases i <;> fin_cases j <;> simp [tRt] <;> exact ht _ _
  exact ⟨h2.mul (h1.inv hdet), h1.inv hdet⟩

/-! ## The sliced sample -/

/-- A layer at a step of the refinement: its number of slices grows, with inverse square at most of the order `g`, and the permittivity is smooth; or it is
uniform and has at least one slice. -/
def SmoothRefined (g : ℕ → ℝ) (p : (ℝ × (ℝ → Tensor)) × (ℕ → ℕ)) : Prop :=
  (Tendsto p.2 atTop atTop ∧ SmoothIn p.1 ∧ (fun k => (1 / (p.2 k : ℝ)) ^ 2) =O[atTop] g) ∨ ((∃ e, ∀ z, p.1.2 z = e) ∧ ∀ k, 1 ≤ p.2 k)

lemma SmoothRefined.refined {g : ℕ → ℝ} {p : (ℝ × (ℝ → Tensor)) × (ℕ → ℕ)} (h : SmoothRefined g p) : Refined p := h.imp And.left id

lemma slabs_rate (lbda : ℝ) (kx : ℂ) (g : ℕ → ℝ) : ∀ L : List ((ℝ × (ℝ → Tensor)) × (ℕ → ℕ)), (∀ p ∈ L, GradedOk p.1 ∧ SmoothRefined g p) →
    ∃ G : Mat4, MatRate g (fun k => slabs kx lbda (slicesAt L k)) G
  | [], _ => ⟨1, by
    have : (fun k => slabs kx lbda (slicesAt [] k)) = fun _ => 1 := by funext k; simp [slabs, slicesAt]
    rw [this]
    exact .const 1⟩
  | ((d, e), nu) :: L, hL => by
    obtain ⟨hok, href⟩ := hL _ List.mem_cons_self
    obtain ⟨G2, h2⟩ := slabs_rate lbda kx g L fun p hp => hL p (List.mem_cons_of_mem _ hp)
    obtain ⟨G1, -, hcar, hlim⟩ := carrier_exists hok.thick (hok.delta lbda kx)
    have hsl : (fun k => slabs kx lbda (slicesAt (((d, e), nu) :: L) k)) = fun k =>
        sliceProd (fun z => slabX lbda kx (e z)) (d / (nu k : ℕ)) (nu k) * slabs kx lbda (slicesAt L k) := by
      funext k
      simp only [slicesAt, List.flatMap_cons, slabs_append, slabs_sliceLayer]
    have hg1 : ∀ k, 0 ≤ (1 / (nu k : ℝ)) ^ 2 := fun k => sq_nonneg _
    refine ⟨G1 * G2, ?_⟩
    rw [hsl]
    refine MatRate.mul (fun i j => ?_) h2
    rcases href with ⟨h, hsm, ho1⟩ | ⟨⟨e0, he0⟩, h1⟩
    · refine ⟨(((tendsto_pi_nhds.1 ((tendsto_pi_nhds.1 hlim) i)) j)).comp h, ?_⟩
      obtain ⟨D, hD⟩ := carrier_rate hok.thick (hok.delta lbda kx) (taylor_of_smooth (slabX_smooth hok hsm lbda kx)) hcar i j
      refine IsBigO.trans (IsBigO.of_bound D ?_) ho1
      filter_upwards [h.eventually_ge_atTop 1] with k hk
      rw [Real.norm_of_nonneg (hg1 k)]
      exact hD (nu k) hk
    · simp only at he0
      have hG : G1 = NormedSpace.exp ((-d) • slabX lbda kx e0) := by
        refine tendsto_nhds_unique hlim (tendsto_const_nhds.congr' ?_)
        filter_upwards [eventually_ge_atTop 1] with n hn
        simp only [he0]
        exact (sliceProd_const _ hn).symm
      have hc : (fun k => sliceProd (fun z => slabX lbda kx (e z)) (d / (nu k : ℕ)) (nu k) i j) = fun _ => G1 i j := by
        funext k
        simp only [he0]
        rw [hG, sliceProd_const _ (h1 k)]
      rw [hc]
      exact .const _

/-- C132: the error of slicing is of second order in the slice thickness. -/
theorem C132_second_order (n0 : ℝ) (hn : 0 < n0) (g : ℕ → ℝ) (L : List ((ℝ × (ℝ → Tensor)) × (ℕ → ℕ))) (hL : ∀ p ∈ L, GradedOk p.1 ∧ SmoothRefined g p)
    (eb : ℂ) (he : eb ≠ 0) (hi : 0 ≤ eb.im) (theta lbda : ℝ) (ht : |theta| < 90) (hl : 0 < lbda) :
    ∃ jr jt : Mat2,
      (∀ a r t, (∃ E H : Field, (Graded.mk n0 (L.map Prod.fst) eb).Scattering theta lbda a r t E H) ↔ r = jr *ᵥ a ∧ t = jt *ᵥ a) ∧
      ∀ ee i j, ((fun k => (calculate4x4 propExpm (sampleStack ⟨n0, slicesAt L k, eb⟩) theta lbda ee).jr i j - jr i j) =O[atTop] g) ∧
        (fun k => (calculate4x4 propExpm (sampleStack ⟨n0, slicesAt L k, eb⟩) theta lbda ee).jt i j - jt i j) =O[atTop] g := by
  obtain ⟨M, hdet, hlim, hiff⟩ := graded_limit n0 hn L (fun p hp => ⟨(hL p hp).1, (hL p hp).2.refined⟩) eb he hi theta lbda ht hl
  obtain ⟨G, hG⟩ := slabs_rate lbda (kxOf (bare n0 eb) theta) g L hL
  have hGM : G = M := by
    refine tendsto_nhds_unique ?_ hlim
    exact tendsto_pi_nhds.2 fun i => tendsto_pi_nhds.2 fun j => (hG i j).1
  subst hGM
  refine ⟨_, _, hiff, fun ee i j => ?_⟩
  obtain ⟨r1, r2⟩ := jones_rate hG hdet
  simp only [calculate4x4, calculate_transferM]
  exact ⟨(r1 i j).2, (r2 i j).2⟩

/-- C132 for structures: `n` divisions in every twisted layer and varying mixture of a structure, any plain layers. The Jones matrices differ from those of
the continuous sample by at most a constant times `1/n²`. -/
theorem C132_structures (df db : ℝ → ℂ) (lbda n0 : ℝ) (hn : 0 < n0) (hdf : df lbda = ((n0 ^ 2 : ℝ) : ℂ)) (he : db lbda ≠ 0) (hi : 0 ≤ (db lbda).im)
    (hl : 0 < lbda) (theta : ℝ) (ht : |theta| < 90) (Ls : List (LayerObj × (ℝ × (ℝ → Tensor))))
    (hL : ∀ p ∈ Ls, Describes lbda p.1 p.2 ∧ GradedOk p.2 ∧ SmoothIn p.2) :
    ∃ jr jt : Mat2,
      (∀ a r t, (∃ E H : Field, (Graded.mk n0 (Ls.map Prod.snd) (db lbda)).Scattering theta lbda a r t E H) ↔ r = jr *ᵥ a ∧ t = jt *ᵥ a) ∧
      ∃ st : ℕ → Stack,
        (∀ n, Struct.stack ⟨.single .isotropic (isotropicMaterial df), Ls.map fun p => p.1.withDivisions n, .single .isotropic (isotropicMaterial db)⟩ lbda =
          some (st n)) ∧
        ∀ ee i j, ((fun n => (calculate4x4 propExpm (st n) theta lbda ee).jr i j - jr i j) =O[atTop] fun n : ℕ => (1 / (n : ℝ)) ^ 2) ∧
          (fun n => (calculate4x4 propExpm (st n) theta lbda ee).jt i j - jt i j) =O[atTop] fun n : ℕ => (1 / (n : ℝ)) ^ 2 := by
  let L3 : List (LayerObj × (ℝ × (ℝ → Tensor)) × (ℕ → ℕ)) := Ls.map fun p => (p.1, p.2, id)
  have hd : ∀ p ∈ L3, Describes lbda p.1 p.2.1 := by
    intro p hp
    obtain ⟨q, hq, rfl⟩ := List.mem_map.1 hp
    exact (hL q hq).1
  have hsm : ∀ p ∈ described L3, GradedOk p.1 ∧ SmoothRefined (fun n : ℕ => (1 / (n : ℝ)) ^ 2) p := by
    intro p hp
    obtain ⟨q, hq, rfl⟩ := List.mem_map.1 hp
    obtain ⟨q', hq', rfl⟩ := List.mem_map.1 hq
    obtain ⟨h1, h2, h3⟩ := hL q' hq'
    refine ⟨h2, ?_⟩
    obtain ⟨l, g⟩ := q'
    cases h1 with
    | layer m t e h => exact Or.inr ⟨⟨e, fun _ => rfl⟩, fun _ => le_rfl⟩
    | twisted => exact Or.inl ⟨tendsto_id, h3, isBigO_refl _ _⟩
    | varying => exact Or.inl ⟨tendsto_id, h3, isBigO_refl _ _⟩
  obtain ⟨jr, jt, h1, h2⟩ := C132_second_order n0 hn _ (described L3) hsm (db lbda) he hi theta lbda ht hl
  have hmap : (described L3).map Prod.fst = Ls.map Prod.snd := by
    simp only [described, L3, List.map_map]
    rfl
  rw [hmap] at h1
  refine ⟨jr, jt, h1, fun n => sampleStack ⟨n0, slicesAt (described L3) n, db lbda⟩, fun n => ?_, h2⟩
  have := described_stack (db := db) hdf n L3 hd
  simp only [L3, List.map_map] at this
  exact this

/-! ## Which layers are smooth -/

/-- C132: plain layers, twisted layers of any material, and mixtures with a twice continuously differentiable modulation are smooth. -/
theorem C132_smooth (t : ℝ) (e h g : Tensor) (angle : ℝ) (f : ℝ → ℝ) (hf : ContDiff ℝ 2 f) :
    SmoothIn (t, fun _ => e) ∧
    SmoothIn (t, fun z => (Rz (angle * z / t * Real.pi / 180)).map Complex.ofReal * e * ((Rz (angle * z / t * Real.pi / 180)).map Complex.ofReal)ᵀ) ∧
    SmoothIn (t, fun z i j => vcaEntry (h i j) (g i j) (f (z / t))) := by
  refine ⟨fun z _ i j => contDiffAt_const, fun z _ i j => ?_, fun z _ i j => ?_⟩
  · have hR : ∀ i j, ContDiff ℝ 2 fun z : ℝ => ((Rz (angle * z / t * Real.pi / 180) i j : ℝ) : ℂ) := by
      have ha : ContDiff ℝ 2 fun z : ℝ => angle * z / t * Real.pi / 180 := by fun_prop
      have h1 : ContDiff ℝ 2 fun z : ℝ => ((Real.cos (angle * z / t * Real.pi / 180) : ℝ) : ℂ) := Complex.ofRealCLM.contDiff.comp ha.cos
      have h2 : ContDiff ℝ 2 fun z : ℝ => ((Real.sin (angle * z / t * Real.pi / 180) : ℝ) : ℂ) := Complex.ofRealCLM.contDiff.comp ha.sin
      intro i j
      fin_cases i <;> fin_cases j <;> simp only [Rz] <;> simp
      · simpa using h1
      · simpa using h2.neg
      · exact contDiff_const
      · simpa using h2
      · simpa using h1
      all_goals exact contDiff_const
    refine ContDiff.contDiffAt ?_
    simp only [Matrix.mul_apply, Matrix.map_apply, Matrix.transpose_apply]
    exact ContDiff.sum fun k _ => (ContDiff.sum fun l _ => (hR i l).mul contDiff_const).mul (hR j k)
  · have h1 : ContDiff ℝ 2 fun z : ℝ => ((f (z / t) : ℝ) : ℂ) := Complex.ofRealCLM.contDiff.comp (hf.comp (contDiff_id.div_const t))
    unfold vcaEntry
    exact ((contDiff_const.mul (contDiff_const.sub h1)).add (contDiff_const.mul h1)).contDiffAt

/-! ## The linear propagator -/

lemma slabsLin_append (kx : ℂ) (lbda : ℝ) (A B : List (ℝ × Tensor)) : slabsLin kx lbda (A ++ B) = slabsLin kx lbda A * slabsLin kx lbda B := by simp [slabsLin]

lemma slabsLin_rate (lbda : ℝ) (kx : ℂ) (g : ℕ → ℝ) : ∀ L : List ((ℝ × (ℝ → Tensor)) × (ℕ → ℕ)),
    (∀ p ∈ L, GradedOk p.1 ∧ SmoothIn p.1 ∧ Tendsto p.2 atTop atTop ∧ (fun k => 1 / (p.2 k : ℝ)) =O[atTop] g) →
    ∃ G : Mat4, MatRate g (fun k => slabsLin kx lbda (slicesAt L k)) G
  | [], _ => ⟨1, by
    have : (fun k => slabsLin kx lbda (slicesAt [] k)) = fun _ => 1 := by funext k; simp [slabsLin, slicesAt]
    rw [this]
    exact .const 1⟩
  | ((d, e), nu) :: L, hL => by
    obtain ⟨hok, hsm, hnu, ho⟩ := hL _ List.mem_cons_self
    obtain ⟨G2, h2⟩ := slabsLin_rate lbda kx g L fun p hp => hL p (List.mem_cons_of_mem _ hp)
    obtain ⟨G1, -, hcar, hlim⟩ := carrier_exists hok.thick (hok.delta lbda kx)
    have hlin := linProd_tendsto hok.thick (hok.delta lbda kx) hlim
    have hsl : (fun k => slabsLin kx lbda (slicesAt (((d, e), nu) :: L) k)) = fun k =>
        linProd (fun z => slabX lbda kx (e z)) (d / (nu k : ℕ)) (nu k) * slabsLin kx lbda (slicesAt L k) := by
      funext k
      simp only [slicesAt, List.flatMap_cons, slabsLin_append, slabsLin_sliceLayer]
    refine ⟨G1 * G2, ?_⟩
    rw [hsl]
    refine MatRate.mul (fun i j => ⟨(((tendsto_pi_nhds.1 ((tendsto_pi_nhds.1 hlin) i)) j)).comp hnu, ?_⟩) h2
    obtain ⟨D, hD⟩ := carrier_rate hok.thick (hok.delta lbda kx) (taylor_of_smooth (slabX_smooth hok hsm lbda kx)) hcar i j
    obtain ⟨D', hD'⟩ := linProd_rate hok.thick (hok.delta lbda kx) i j
    refine IsBigO.trans (IsBigO.of_bound (|D| + D') ?_) ho
    filter_upwards [hnu.eventually_ge_atTop 1] with k hk
    have hk1 : (1 : ℝ) ≤ nu k := by exact_mod_cast hk
    have h1 := hD (nu k) hk
    have h2 := hD' (nu k) hk
    have hx0 : 0 ≤ 1 / (nu k : ℝ) := by positivity
    have hx1 : 1 / (nu k : ℝ) ≤ 1 := by rw [div_le_one (by linarith)]; exact hk1
    rw [Real.norm_of_nonneg hx0]
    have h3 : D * (1 / (nu k : ℝ)) ^ 2 ≤ |D| * (1 / (nu k : ℝ)) := by
      have : D * (1 / (nu k : ℝ)) ^ 2 ≤ |D| * (1 / (nu k : ℝ)) ^ 2 := mul_le_mul_of_nonneg_right (le_abs_self D) (sq_nonneg _)
      have h4 : (1 / (nu k : ℝ)) ^ 2 ≤ 1 / (nu k : ℝ) := by nlinarith
      exact this.trans (mul_le_mul_of_nonneg_left h4 (abs_nonneg D))
    have e1 : linProd (fun z => slabX lbda kx (e z)) (d / (nu k : ℕ)) (nu k) i j - G1 i j =
        (linProd (fun z => slabX lbda kx (e z)) (d / (nu k : ℕ)) (nu k) i j - sliceProd (fun z => slabX lbda kx (e z)) (d / (nu k : ℕ)) (nu k) i j) +
        (sliceProd (fun z => slabX lbda kx (e z)) (d / (nu k : ℕ)) (nu k) i j - G1 i j) := by ring
    rw [e1]
    refine (norm_add_le _ _).trans ?_
    calc _ ≤ D' * (1 / (nu k : ℝ)) + D * (1 / (nu k : ℝ)) ^ 2 := add_le_add h2 h1
      _ ≤ D' * (1 / (nu k : ℝ)) + |D| * (1 / (nu k : ℝ)) := add_le_add le_rfl h3
      _ = _ := by ring

/-- C132: with `PropagatorLinear` the error is of first order. -/
theorem C132_linear_first_order (n0 : ℝ) (hn : 0 < n0) (g : ℕ → ℝ) (L : List ((ℝ × (ℝ → Tensor)) × (ℕ → ℕ)))
    (hL : ∀ p ∈ L, GradedOk p.1 ∧ SmoothIn p.1 ∧ Tendsto p.2 atTop atTop ∧ (fun k => 1 / (p.2 k : ℝ)) =O[atTop] g)
    (eb : ℂ) (he : eb ≠ 0) (hi : 0 ≤ eb.im) (theta lbda : ℝ) (ht : |theta| < 90) (hl : 0 < lbda) :
    ∃ jr jt : Mat2,
      (∀ a r t, (∃ E H : Field, (Graded.mk n0 (L.map Prod.fst) eb).Scattering theta lbda a r t E H) ↔ r = jr *ᵥ a ∧ t = jt *ᵥ a) ∧
      ∀ ee i j, ((fun k => (calculate4x4 propLinear (sampleStack ⟨n0, slicesAt L k, eb⟩) theta lbda ee).jr i j - jr i j) =O[atTop] g) ∧
        (fun k => (calculate4x4 propLinear (sampleStack ⟨n0, slicesAt L k, eb⟩) theta lbda ee).jt i j - jt i j) =O[atTop] g := by
  obtain ⟨M, hdet, hlim, hiff⟩ := graded_limit n0 hn L (fun p hp => ⟨(hL p hp).1, Or.inl (hL p hp).2.2.1⟩) eb he hi theta lbda ht hl
  obtain ⟨G, hG⟩ := slabsLin_rate lbda (kxOf (bare n0 eb) theta) g L hL
  have hGM : G = M := by
    refine tendsto_nhds_unique ?_ (slabsLin_tendsto lbda _ L (fun p hp => ⟨(hL p hp).1, (hL p hp).2.2.1⟩) M hlim)
    exact tendsto_pi_nhds.2 fun i => tendsto_pi_nhds.2 fun j => (hG i j).1
  subst hGM
  refine ⟨_, _, hiff, fun ee i j => ?_⟩
  obtain ⟨r1, r2⟩ := jones_rate hG hdet
  simp only [calculate4x4, calculate_linear]
  exact ⟨(r1 i j).2, (r2 i j).2⟩

lemma linear_matched (kx : ℂ) (e : Tensor) (d lbda : ℝ) (hn : nOf e ≠ 0) :
    propLinear (buildDelta kx (isoTensor (e 0 0))) (-d) lbda * isoHalf kx e =
      isoHalf kx e * Matrix.diagonal ![1 - I * slabPhase kx e d lbda, 1 + I * slabPhase kx e d lbda, 1 - I * slabPhase kx e d lbda, 1 + I * slabPhase kx e d lbda] := by
  have hc2 : cosPhi kx e ^ 2 = 1 - (kx / nOf e) ^ 2 := csqrt_sq _
  have hn2 := nOf_sq e
  have hk : kx ^ 2 = nOf e ^ 2 * (1 - cosPhi kx e ^ 2) := by
    rw [hc2]; field_simp; ring
  have he : e 0 0 ≠ 0 := by rw [← hn2]; exact pow_ne_zero 2 hn
  rw [propLinear_slabX]
  unfold slabX slabPhase isoHalf
  rw [← hn2]
  generalize nOf e = n at *
  generalize cosPhi kx e = c at *
  ext i j
  fin_cases i <;> fin_cases j <;>
    simp [Matrix.mul_apply, Fin.sum_univ_four, buildDelta, isoTensor, Matrix.diagonal, Matrix.one_apply, hk] <;> field_simp <;> ring

lemma linear_matched_prod (kx : ℂ) (e : Tensor) (d lbda : ℝ) (hn : nOf e ≠ 0) (n : ℕ) :
    slabsLin kx lbda (List.replicate n (d, isoTensor (e 0 0))) * isoHalf kx e =
      isoHalf kx e * Matrix.diagonal ![(1 - I * slabPhase kx e d lbda) ^ n, (1 + I * slabPhase kx e d lbda) ^ n, (1 - I * slabPhase kx e d lbda) ^ n,
        (1 + I * slabPhase kx e d lbda) ^ n] := by
  induction n with
  | zero =>
    have : (Matrix.diagonal ![1, 1, 1, 1] : Mat4) = 1 := by
      ext i j
      fin_cases i <;> fin_cases j <;> simp
    simp [slabsLin, this]
  | succ n ih =>
    rw [List.replicate_succ', slabsLin_append, Matrix.mul_assoc]
    have h1 : slabsLin kx lbda [(d, isoTensor (e 0 0))] = propLinear (buildDelta kx (isoTensor (e 0 0))) (-d) lbda := by simp [slabsLin]
    rw [h1, linear_matched kx e d lbda hn, ← Matrix.mul_assoc, ih, Matrix.mul_assoc, Matrix.diagonal_mul_diagonal]
    congr 2
    funext i
    fin_cases i <;> simp [pow_succ]

lemma missing_power (x : ℝ) (hx : 0 ≤ x) (phi : ℝ) (hp : phi ^ 2 = x) :
    Tendsto (fun n : ℕ => (n : ℝ) * (1 - ((1 + (phi / n) ^ 2) ^ n)⁻¹)) atTop (𝓝 x) := by
  have hlow : Tendsto (fun n : ℕ => x / (1 + x / (n : ℝ))) atTop (𝓝 x) := by
    have h1 : Tendsto (fun n : ℕ => 1 + x / (n : ℝ)) atTop (𝓝 (1 + 0)) := tendsto_const_nhds.add (tendsto_const_div_atTop_nhds_zero_nat x)
    have h2 : Tendsto (fun n : ℕ => x / (1 + x / (n : ℝ))) atTop (𝓝 (x / (1 + 0))) := (tendsto_const_nhds (x := x)).div h1 (by norm_num)
    rwa [add_zero, div_one] at h2
  refine tendsto_of_tendsto_of_tendsto_of_le_of_le' hlow tendsto_const_nhds ?_ ?_
  all_goals
    filter_upwards [eventually_ge_atTop 1] with n hn
    have hn0 : (0 : ℝ) < n := by exact_mod_cast hn
    have e : (phi / n) ^ 2 = x / n / n := by rw [div_pow, hp]; field_simp
    rw [e]
    have hy : 0 ≤ x / n := by positivity
  · have hb : 1 + x / n ≤ (1 + x / n / n) ^ n := by
      have := one_add_mul_le_pow (a := x / n / n) (by have : 0 ≤ x / n / n := by positivity
                                                      linarith) n
      refine le_trans (le_of_eq ?_) this
      field_simp
    have hi := inv_anti₀ (by positivity) hb
    have e2 : x / (1 + x / n) = n * (1 - (1 + x / n)⁻¹) := by field_simp; ring
    rw [e2]
    exact mul_le_mul_of_nonneg_left (by linarith) hn0.le
  · have hb : (1 + x / n / n) ^ n ≤ Real.exp (x / n) := by
      have h1 : 1 + x / n / n ≤ Real.exp (x / n / n) := by
        have := Real.add_one_le_exp (x / n / n)
        linarith
      refine (pow_le_pow_left₀ (by positivity) h1 n).trans (le_of_eq ?_)
      rw [← Real.exp_nat_mul]
      congr 1
      field_simp
    have hi := inv_anti₀ (by positivity) hb
    rw [← Real.exp_neg] at hi
    have h2 := Real.add_one_le_exp (-(x / n))
    have h3 : 1 - ((1 + x / n / n) ^ n)⁻¹ ≤ x / n := by linarith
    calc _ ≤ (n : ℝ) * (x / n) := mul_le_mul_of_nonneg_left h3 hn0.le
      _ = x := by field_simp

/-- C132: the first order of the linear propagator cannot be improved, not even for a layer of the surrounding medium, through which light simply passes:
cut into `n` slices it transmits the fraction `(1 + φ²/n²)⁻ⁿ` where `φ` is the phase of the layer, so `n` times the missing power tends to `φ²`. -/
theorem C132_linear_sharp (n0 d theta lbda : ℝ) (hn : 0 < n0) (ht : |theta| < 90) (hl : 0 < lbda) (ee) :
    let phi : ℝ := 2 * Real.pi * (n0 * Real.cos (theta * Real.pi / 180)) / lbda * d
    let out := fun n : ℕ => calculate4x4 propLinear (sampleStack ⟨n0, List.replicate n (d / n, isoTensor ((n0 ^ 2 : ℝ) : ℂ)), ((n0 ^ 2 : ℝ) : ℂ)⟩) theta lbda ee
    (∀ n, (out n).jr = 0 ∧ (out n).jt = ((1 - I * (phi / n : ℝ)) ^ n)⁻¹ • (1 : Mat2)) ∧
    (∀ n i, ‖(out n).jt i i‖ ^ 2 = ((1 + (phi / n) ^ 2) ^ n)⁻¹) ∧
    ∀ i, Tendsto (fun n : ℕ => n * (1 - ‖(out n).jt i i‖ ^ 2)) atTop (𝓝 (phi ^ 2)) := by
  intro phi out
  have he : ((n0 ^ 2 : ℝ) : ℂ) ≠ 0 := by exact_mod_cast (pow_pos hn 2).ne'
  have hp := bare_passive (eb := ((n0 ^ 2 : ℝ) : ℂ)) hn he (by simp [← Complex.ofReal_pow]) ht hl
  obtain ⟨hf1, hf2⟩ := sample_front (S := ⟨n0, [], ((n0 ^ 2 : ℝ) : ℂ)⟩) hp hn
  have hnf : nOf (bare n0 ((n0 ^ 2 : ℝ) : ℂ)).front ≠ 0 := by
    change nOf (sampleStack ⟨n0, [], ((n0 ^ 2 : ℝ) : ℂ)⟩).front ≠ 0
    rw [hf1]
    exact_mod_cast hn.ne'
  obtain ⟨hI, -⟩ := front_inv hp hn
  have hT : ∀ n : ℕ, transferM n0 ((n0 ^ 2 : ℝ) : ℂ) theta (slabsLin (kxOf (bare n0 ((n0 ^ 2 : ℝ) : ℂ)) theta) lbda
      (List.replicate n (d / n, isoTensor ((n0 ^ 2 : ℝ) : ℂ)))) =
      Matrix.diagonal ![(1 - I * (phi / n : ℝ)) ^ n, (1 + I * (phi / n : ℝ)) ^ n, (1 - I * (phi / n : ℝ)) ^ n, (1 + I * (phi / n : ℝ)) ^ n] := by
    intro n
    have h00 : (bare n0 ((n0 ^ 2 : ℝ) : ℂ)).front 0 0 = ((n0 ^ 2 : ℝ) : ℂ) := by simp [bare, sampleStack, isoTensor]
    have hbf : (bare n0 ((n0 ^ 2 : ℝ) : ℂ)).back = (bare n0 ((n0 ^ 2 : ℝ) : ℂ)).front := rfl
    have h1 := linear_matched_prod (kxOf (bare n0 ((n0 ^ 2 : ℝ) : ℂ)) theta) (bare n0 ((n0 ^ 2 : ℝ) : ℂ)).front (d / n) lbda hnf n
    have hph : slabPhase (kxOf (bare n0 ((n0 ^ 2 : ℝ) : ℂ)) theta) (bare n0 ((n0 ^ 2 : ℝ) : ℂ)).front (d / n) lbda = ((phi / n : ℝ) : ℂ) := by
      have h2 : nOf (bare n0 ((n0 ^ 2 : ℝ) : ℂ)).front * cosPhi (kxOf (bare n0 ((n0 ^ 2 : ℝ) : ℂ)) theta) (bare n0 ((n0 ^ 2 : ℝ) : ℂ)).front = _ := hf2
      unfold slabPhase
      rw [show (2 * Real.pi * nOf (bare n0 ((n0 ^ 2 : ℝ) : ℂ)).front * cosPhi (kxOf (bare n0 ((n0 ^ 2 : ℝ) : ℂ)) theta) (bare n0 ((n0 ^ 2 : ℝ) : ℂ)).front : ℂ) =
        2 * Real.pi * (nOf (bare n0 ((n0 ^ 2 : ℝ) : ℂ)).front * cosPhi (kxOf (bare n0 ((n0 ^ 2 : ℝ) : ℂ)) theta) (bare n0 ((n0 ^ 2 : ℝ) : ℂ)).front) by ring, h2]
      simp only [phi]
      push_cast
      ring
    rw [hph, h00] at h1
    unfold transferM
    rw [hbf, h1, ← Matrix.mul_assoc, hI, Matrix.one_mul]
  have hjr : ∀ n, (out n).jr = 0 ∧ (out n).jt = ((1 - I * (phi / n : ℝ)) ^ n)⁻¹ • (1 : Mat2) := by
    intro n
    have h1 : tIt (Matrix.diagonal ![(1 - I * (phi / n : ℝ)) ^ n, (1 + I * (phi / n : ℝ)) ^ n, (1 - I * (phi / n : ℝ)) ^ n, (1 + I * (phi / n : ℝ)) ^ n]) =
        (1 - I * (phi / n : ℝ)) ^ n • (1 : Mat2) := by
      ext i j
      fin_cases i <;> fin_cases j <;> simp [tIt]
    have h2 : tRt (Matrix.diagonal ![(1 - I * (phi / n : ℝ)) ^ n, (1 + I * (phi / n : ℝ)) ^ n, (1 - I * (phi / n : ℝ)) ^ n, (1 + I * (phi / n : ℝ)) ^ n]) = 0 := by
      ext i j
      fin_cases i <;> fin_cases j <;> simp [tRt]
    have hne : (1 - I * (phi / n : ℝ)) ^ n ≠ 0 := by
      refine pow_ne_zero _ fun h => ?_
      have := congrArg Complex.re h
      simp at this
    simp only [out, calculate4x4, calculate_linear, hT]
    rw [h1, h2, inv_smul_any hne]
    simp
  have hnorm : ∀ n i, ‖(out n).jt i i‖ ^ 2 = ((1 + (phi / n) ^ 2) ^ n)⁻¹ := by
    intro n i
    rw [(hjr n).2]
    simp only [Matrix.smul_apply, Matrix.one_apply_eq, smul_eq_mul, mul_one]
    rw [norm_inv, norm_pow, inv_pow, ← pow_mul, mul_comm n 2, pow_mul, Complex.sq_norm]
    congr 2
    simp [Complex.normSq_apply]
    ring
  refine ⟨hjr, hnorm, fun i => ?_⟩
  simp only [hnorm]
  exact missing_power (phi ^ 2) (sq_nonneg _) phi rfl

/-! ## Examples -/

/-- One full turn of a uniaxial material over 1000 nm under a plain coating. -/
example : ∃ Ls : List (LayerObj × (ℝ × (ℝ → Tensor))), Ls.length = 2 ∧ ∀ p ∈ Ls, Describes 500 p.1 p.2 ∧ GradedOk p.2 ∧ SmoothIn p.2 := by
  let m : SingleMaterial := ⟨fun _ => 3, fun _ => 2, fun _ => 2, none⟩
  have hp : Passive (m.getTensor 500) := C36_material_passive m 500 (by simp [m]) (by simp [m]) (by simp [m])
  have h22 : m.getTensor 500 2 2 ≠ 0 := by simp [m, SingleMaterial.getTensor]
  have hs := C132_smooth 1000 (m.getTensor 500) 0 0 360 id contDiff_id
  refine ⟨[(.twisted (.single .biaxial m) 1000 5 360, (1000, fun z => (Rz (360 * z / 1000 * Real.pi / 180)).map Complex.ofReal * m.getTensor 500 *
      ((Rz (360 * z / 1000 * Real.pi / 180)).map Complex.ofReal)ᵀ)), (.layer (.single .biaxial m) 100, (100, fun _ => m.getTensor 500))], rfl, ?_⟩
  intro p hp'
  simp only [List.mem_cons, List.not_mem_nil, or_false] at hp'
  rcases hp' with rfl | rfl
  · exact ⟨.twisted _ _ _ _ (m.getTensor 500) (by norm_num) rfl, C85_twisted_ok 1000 (by norm_num) 360 _ h22 hp, hs.2.1⟩
  · exact ⟨.layer _ _ (m.getTensor 500) rfl, C85_plain_ok 100 (by norm_num) _ h22 hp, fun z _ i j => contDiffAt_const⟩

/-- The same turn with `k` slices, for both propagators. -/
example : ∃ p : (ℝ × (ℝ → Tensor)) × (ℕ → ℕ), GradedOk p.1 ∧ SmoothRefined (fun n : ℕ => (1 / (n : ℝ)) ^ 2) p ∧ SmoothIn p.1 ∧ Tendsto p.2 atTop atTop ∧
    (fun k => 1 / (p.2 k : ℝ)) =O[atTop] fun n : ℕ => 1 / (n : ℝ) := by
  let m : SingleMaterial := ⟨fun _ => 3, fun _ => 2, fun _ => 2, none⟩
  have hp : Passive (m.getTensor 500) := C36_material_passive m 500 (by simp [m]) (by simp [m]) (by simp [m])
  have h22 : m.getTensor 500 2 2 ≠ 0 := by simp [m, SingleMaterial.getTensor]
  have hs := C132_smooth 1000 (m.getTensor 500) 0 0 360 id contDiff_id
  exact ⟨((1000, _), id), C85_twisted_ok 1000 (by norm_num) 360 _ h22 hp, Or.inl ⟨tendsto_id, hs.2.1, isBigO_refl _ _⟩, hs.2.1, tendsto_id, isBigO_refl _ _⟩

end PyElli
