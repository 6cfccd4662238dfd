import Verif.Lemmas.Trotter
import Verif.Lemmas.GradedScatter
import Verif.Props.Slicing
import Verif.Props.ThickLayer
import Mathlib.Tactic

/-!
# C118: stacks of many thin layers are a crystal

A `RepeatedLayers` of `k` periods whose layers are `k` times thinner approaches a single layer of a homogeneous material. Its tensor is the one of
electrostatics: the tangential electric field and the normal displacement are the same in all layers, and the tensor connects the mean fields.
-/

namespace Spec

open Matrix

/-- Mean over the layers of a period, weighted by their thicknesses. -/
noncomputable def layerMean (L : List (ℝ × Matrix (Fin 3) (Fin 3) ℂ)) (f : Matrix (Fin 3) (Fin 3) ℂ → ℂ) : ℂ :=
  (L.map fun l => (l.1 : ℂ) * f l.2).sum / ((L.map Prod.fst).sum : ℝ)

/-- `eps` connects the mean displacement with the mean field whenever the tangential field (`Ex`, `Ey`) and the normal displacement `Dz` are
the same in all layers; `F` gives the field in a layer with a given tensor. -/
def Homogenised (L : List (ℝ × Matrix (Fin 3) (Fin 3) ℂ)) (eps : Matrix (Fin 3) (Fin 3) ℂ) : Prop :=
  ∀ (Ex Ey Dz : ℂ) (F : Matrix (Fin 3) (Fin 3) ℂ → Fin 3 → ℂ), (∀ l ∈ L, F l.2 0 = Ex ∧ F l.2 1 = Ey ∧ (l.2 *ᵥ F l.2) 2 = Dz) →
    (eps *ᵥ fun i => layerMean L fun e => F e i) = fun i => layerMean L fun e => (e *ᵥ F e) i

end Spec

namespace PyElli

open Matrix Complex Spec Set Filter Topology

section sums

/-- Sum over the layers, weighted by thickness. -/
noncomputable def lsum (L : List (ℝ × Tensor)) (f : Tensor → ℂ) : ℂ := (L.map fun l => (l.1 : ℂ) * f l.2).sum

lemma lsum_add (L : List (ℝ × Tensor)) (f g : Tensor → ℂ) : lsum L (fun e => f e + g e) = lsum L f + lsum L g := by
  unfold lsum
  induction L with
  | nil => simp
  | cons l L ih =>
    simp only [List.map_cons, List.sum_cons, ih]
    ring

lemma lsum_mul (L : List (ℝ × Tensor)) (c : ℂ) (f : Tensor → ℂ) : lsum L (fun e => c * f e) = c * lsum L f := by
  unfold lsum
  induction L with
  | nil => simp
  | cons l L ih =>
    simp only [List.map_cons, List.sum_cons, ih]
    ring

lemma lsum_const (L : List (ℝ × Tensor)) (c : ℂ) : lsum L (fun _ => c) = c * (((L.map Prod.fst).sum : ℝ) : ℂ) := by
  unfold lsum
  induction L with
  | nil => simp
  | cons l L ih =>
    simp only [List.map_cons, List.sum_cons, ih, Complex.ofReal_add]
    ring

lemma lsum_congr {L : List (ℝ × Tensor)} {f g : Tensor → ℂ} (h : ∀ l ∈ L, f l.2 = g l.2) : lsum L f = lsum L g := by
  unfold lsum
  congr 1
  exact List.map_congr_left fun l hl => by rw [h l hl]

lemma lsum_conj (L : List (ℝ × Tensor)) (f : Tensor → ℂ) : (starRingEnd ℂ) (lsum L f) = lsum L fun e => (starRingEnd ℂ) (f e) := by
  unfold lsum
  induction L with
  | nil => simp
  | cons l L ih =>
    simp only [List.map_cons, List.sum_cons, map_add, ih, map_mul, Complex.conj_ofReal]

lemma lsum_im {L : List (ℝ × Tensor)} {f : Tensor → ℂ} (h : ∀ l ∈ L, 0 ≤ l.1 ∧ 0 ≤ (f l.2).im) : 0 ≤ (lsum L f).im := by
  unfold lsum
  induction L with
  | nil => simp
  | cons l L ih =>
    simp only [List.map_cons, List.sum_cons, Complex.add_im, Complex.im_ofReal_mul]
    have := h l List.mem_cons_self
    exact add_nonneg (mul_nonneg this.1 this.2) (ih fun l hl => h l (List.mem_cons_of_mem _ hl))

end sums

/-- Total thickness of a period. -/
def period (L : List (ℝ × Tensor)) : ℝ := (L.map Prod.fst).sum

lemma layerMean_eq (L : List (ℝ × Tensor)) (f : Tensor → ℂ) : layerMean L f = lsum L f / (period L : ℂ) := rfl

lemma mean_add (L : List (ℝ × Tensor)) (f g : Tensor → ℂ) : layerMean L (fun e => f e + g e) = layerMean L f + layerMean L g := by
  rw [layerMean_eq, lsum_add, add_div]
  rfl

lemma mean_mul (L : List (ℝ × Tensor)) (c : ℂ) (f : Tensor → ℂ) : layerMean L (fun e => c * f e) = c * layerMean L f := by
  rw [layerMean_eq, lsum_mul, mul_div_assoc]
  rfl

lemma mean_const {L : List (ℝ × Tensor)} (h : 0 < period L) (c : ℂ) : layerMean L (fun _ => c) = c := by
  rw [layerMean_eq, lsum_const]
  exact mul_div_cancel_right₀ _ (Complex.ofReal_ne_zero.2 h.ne')

lemma mean_congr {L : List (ℝ × Tensor)} {f g : Tensor → ℂ} (h : ∀ l ∈ L, f l.2 = g l.2) : layerMean L f = layerMean L g := by
  rw [layerMean_eq, layerMean_eq, lsum_congr h]

lemma mean_conj (L : List (ℝ × Tensor)) (f : Tensor → ℂ) : (starRingEnd ℂ) (layerMean L f) = layerMean L fun e => (starRingEnd ℂ) (f e) := by
  rw [layerMean_eq, layerMean_eq, map_div₀, lsum_conj, Complex.conj_ofReal]

lemma mean_im {L : List (ℝ × Tensor)} (hp : 0 < period L) {f : Tensor → ℂ} (h : ∀ l ∈ L, 0 ≤ l.1 ∧ 0 ≤ (f l.2).im) : 0 ≤ (layerMean L f).im := by
  rw [layerMean_eq, Complex.div_ofReal_im]
  exact div_nonneg (lsum_im h) hp.le

/-- The tensor of the homogeneous material. -/
noncomputable def effective (L : List (ℝ × Tensor)) : Tensor := fun i j =>
  layerMean L (fun e => e i j - e i 2 * e 2 j / e 2 2) +
    layerMean L (fun e => e i 2 / e 2 2) * layerMean L (fun e => e 2 j / e 2 2) / layerMean L fun e => 1 / e 2 2

/-- Layers for which the homogeneous material exists. -/
structure Mixable (L : List (ℝ × Tensor)) : Prop where
  thick : 0 < period L
  zz : ∀ l ∈ L, l.2 2 2 ≠ 0
  mean : layerMean L (fun e => 1 / e 2 2) ≠ 0

lemma mean_zz {L : List (ℝ × Tensor)} (h : Mixable L) : layerMean L (fun e => e 2 2 / e 2 2) = 1 := by
  rw [mean_congr (g := fun _ => 1) fun l hl => div_self (h.zz l hl), mean_const h.thick]

lemma mean_zero {L : List (ℝ × Tensor)} {f : Tensor → ℂ} (h : ∀ l ∈ L, f l.2 = 0) : layerMean L f = 0 := by
  rw [mean_congr (g := fun _ => (0 : ℂ) * 0) fun l hl => by rw [h l hl, mul_zero], mean_mul, zero_mul]

lemma eff_zz {L : List (ℝ × Tensor)} (h : Mixable L) : effective L 2 2 = 1 / layerMean L fun e => 1 / e 2 2 := by
  simp only [effective]
  rw [mean_zz h, mean_zero fun l hl => by field_simp [h.zz l hl]; ring]
  ring

lemma eff_iz {L : List (ℝ × Tensor)} (h : Mixable L) (i : Fin 3) :
    effective L i 2 = layerMean L (fun e => e i 2 / e 2 2) / layerMean L fun e => 1 / e 2 2 := by
  simp only [effective]
  rw [mean_zz h, mean_zero fun l hl => by field_simp [h.zz l hl]; ring]
  ring

lemma eff_zj {L : List (ℝ × Tensor)} (h : Mixable L) (j : Fin 3) :
    effective L 2 j = layerMean L (fun e => e 2 j / e 2 2) / layerMean L fun e => 1 / e 2 2 := by
  simp only [effective]
  rw [mean_zz h, mean_zero fun l hl => by field_simp [h.zz l hl]; ring]
  ring

/-- The field of a layer with given tangential field and normal displacement. -/
noncomputable def layerField (Ex Ey Dz : ℂ) (e : Tensor) : Fin 3 → ℂ := ![Ex, Ey, (Dz - e 2 0 * Ex - e 2 1 * Ey) / e 2 2]

lemma layerField_mean {L : List (ℝ × Tensor)} (h : Mixable L) (Ex Ey Dz : ℂ) :
    (fun i => layerMean L fun e => layerField Ex Ey Dz e i) =
      ![Ex, Ey, Dz * layerMean L (fun e => 1 / e 2 2) - layerMean L (fun e => e 2 0 / e 2 2) * Ex - layerMean L (fun e => e 2 1 / e 2 2) * Ey] := by
  funext i
  fin_cases i
  · exact mean_const h.thick _
  · exact mean_const h.thick _
  · show layerMean L (fun e => (Dz - e 2 0 * Ex - e 2 1 * Ey) / e 2 2) = _
    rw [mean_congr (g := fun e => Dz * (1 / e 2 2) + ((-Ex) * (e 2 0 / e 2 2) + (-Ey) * (e 2 1 / e 2 2))) fun l _ => by ring,
      mean_add, mean_add, mean_mul, mean_mul, mean_mul]
    simp
    ring

lemma layerField_disp {L : List (ℝ × Tensor)} (h : Mixable L) (Ex Ey Dz : ℂ) (i : Fin 3) :
    (layerMean L fun e => (e *ᵥ layerField Ex Ey Dz e) i) =
      layerMean L (fun e => e i 0 - e i 2 * e 2 0 / e 2 2) * Ex + layerMean L (fun e => e i 1 - e i 2 * e 2 1 / e 2 2) * Ey +
        layerMean L (fun e => e i 2 / e 2 2) * Dz := by
  rw [mean_congr (g := fun e => Ex * (e i 0 - e i 2 * e 2 0 / e 2 2) + (Ey * (e i 1 - e i 2 * e 2 1 / e 2 2) + Dz * (e i 2 / e 2 2)))
      fun l hl => by
        simp only [layerField, Matrix.mulVec, dotProduct, Fin.sum_univ_three]
        simp
        ring, mean_add, mean_add, mean_mul, mean_mul, mean_mul]
  ring

/-- C118: the tensor is the one of the mean fields, and the only one. -/
theorem C118_homogenised {L : List (ℝ × Tensor)} (h : Mixable L) (eps : Tensor) : Homogenised L eps ↔ eps = effective L := by
  have hfield : ∀ (Ex Ey Dz : ℂ), (effective L *ᵥ fun i => layerMean L fun e => layerField Ex Ey Dz e i) =
      fun i => layerMean L fun e => (e *ᵥ layerField Ex Ey Dz e) i := by
    intro Ex Ey Dz
    funext i
    rw [layerField_disp h, layerField_mean h]
    simp only [Matrix.mulVec, dotProduct, Fin.sum_univ_three]
    rw [eff_iz h]
    simp only [effective]
    have ha := h.mean
    generalize layerMean L (fun e => 1 / e 2 2) = a at *
    simp
    field_simp
    ring
  constructor
  · intro hH
    have key : ∀ Ex Ey Dz : ℂ, (eps *ᵥ fun i => layerMean L fun e => layerField Ex Ey Dz e i) =
        effective L *ᵥ fun i => layerMean L fun e => layerField Ex Ey Dz e i := by
      intro Ex Ey Dz
      rw [hfield]
      refine hH Ex Ey Dz (layerField Ex Ey Dz) fun l hl => ⟨rfl, rfl, ?_⟩
      have := h.zz l hl
      simp [layerField, Matrix.mulVec, dotProduct, Fin.sum_univ_three]
      field_simp
      ring
    have hall : ∀ v, eps *ᵥ v = effective L *ᵥ v := by
      intro v
      have ha := h.mean
      have hv : v = fun i => layerMean L fun e => layerField (v 0) (v 1)
          ((v 2 + layerMean L (fun e => e 2 0 / e 2 2) * v 0 + layerMean L (fun e => e 2 1 / e 2 2) * v 1) / layerMean L fun e => 1 / e 2 2) e i := by
        rw [layerField_mean h]
        funext i
        fin_cases i
        · rfl
        · rfl
        · simp
          field_simp
          ring
      rw [hv]
      exact key _ _ _
    exact Matrix.ext_of_mulVec_single fun i => hall _
  · rintro rfl Ex Ey Dz F hF
    have hFl : ∀ l ∈ L, F l.2 = layerField Ex Ey Dz l.2 := by
      intro l hl
      obtain ⟨h0, h1, h2⟩ := hF l hl
      have hz := h.zz l hl
      simp only [Matrix.mulVec, dotProduct, Fin.sum_univ_three, h0, h1] at h2
      funext i
      fin_cases i
      · exact h0
      · exact h1
      · simp [layerField]
        rw [eq_div_iff hz]
        linear_combination h2
    have e1 : (fun i => layerMean L fun e => F e i) = fun i => layerMean L fun e => layerField Ex Ey Dz e i := by
      funext i
      exact mean_congr fun l hl => by rw [hFl l hl]
    have e2 : (fun i => layerMean L fun e => (e *ᵥ F e) i) = fun i => layerMean L fun e => (e *ᵥ layerField Ex Ey Dz e) i := by
      funext i
      exact mean_congr fun l hl => by rw [hFl l hl]
    rw [e1, e2, hfield]

/-- The energy of the mean field is the mean of the energies. -/
lemma effective_energy {L : List (ℝ × Tensor)} (h : Mixable L) (E : Fin 3 → ℂ) :
    ∃ F : Tensor → Fin 3 → ℂ, star E ⬝ᵥ effective L *ᵥ E = layerMean L fun e => star (F e) ⬝ᵥ e *ᵥ F e := by
  set D := (effective L *ᵥ E) 2 with hD
  have ha := h.mean
  have hE : E = fun i => layerMean L fun e => layerField (E 0) (E 1) D e i := by
    rw [layerField_mean h]
    have hDz : D * layerMean L (fun e => 1 / e 2 2) =
        layerMean L (fun e => e 2 0 / e 2 2) * E 0 + layerMean L (fun e => e 2 1 / e 2 2) * E 1 + E 2 := by
      rw [hD]
      simp only [Matrix.mulVec, dotProduct, Fin.sum_univ_three]
      rw [eff_zj h, eff_zj h, eff_zz h]
      field_simp
    funext i
    fin_cases i
    · rfl
    · rfl
    · simp only [hDz]
      simp
      ring
  have hdisp := fun i => congrFun ((C118_homogenised h _).2 rfl (E 0) (E 1) D (layerField (E 0) (E 1) D) fun l hl => ⟨rfl, rfl, by
    have := h.zz l hl
    simp [layerField, Matrix.mulVec, dotProduct, Fin.sum_univ_three]
    field_simp
    ring⟩) i
  rw [← hE] at hdisp
  refine ⟨layerField (E 0) (E 1) D, ?_⟩
  have hz : ∀ l ∈ L, (l.2 *ᵥ layerField (E 0) (E 1) D l.2) 2 = D := by
    intro l hl
    have := h.zz l hl
    simp [layerField, Matrix.mulVec, dotProduct, Fin.sum_univ_three]
    field_simp
    ring
  have e2 : (starRingEnd ℂ) (E 2) = layerMean L fun e => (starRingEnd ℂ) (layerField (E 0) (E 1) D e 2) := by
    rw [← mean_conj]
    exact congrArg _ (congrFun hE 2)
  have lhs : star E ⬝ᵥ effective L *ᵥ E = (starRingEnd ℂ) (E 0) * (effective L *ᵥ E) 0 + (starRingEnd ℂ) (E 1) * (effective L *ᵥ E) 1 +
      D * (starRingEnd ℂ) (E 2) := by
    rw [dotProduct, Fin.sum_univ_three, hD]
    simp only [Pi.star_apply, RCLike.star_def]
    ring
  rw [lhs, hdisp 0, hdisp 1, e2, ← mean_mul, ← mean_mul, ← mean_mul, ← mean_add, ← mean_add]
  refine mean_congr fun l hl => ?_
  conv_rhs => rw [dotProduct, Fin.sum_univ_three]
  rw [hz l hl]
  simp only [Pi.star_apply, RCLike.star_def]
  simp only [layerField, Matrix.cons_val_zero, Matrix.cons_val_one]
  ring

/-- C118: passive layers make a passive material. -/
theorem C118_passive {L : List (ℝ × Tensor)} (h : Mixable L) (hp : ∀ l ∈ L, 0 ≤ l.1 ∧ Passive l.2) : Passive (effective L) := by
  intro E
  obtain ⟨F, hF⟩ := effective_energy h E
  rw [hF]
  exact mean_im h.thick fun l hl => ⟨(hp l hl).1, (hp l hl).2 _⟩

/-- The delta matrix of the homogeneous material is the mean of those of the layers. -/
lemma effective_delta {L : List (ℝ × Tensor)} (h : Mixable L) (kx : ℂ) (i j : Fin 4) :
    buildDelta kx (effective L) i j = layerMean L fun e => buildDelta kx e i j := by
  have ha := h.mean
  have hc := mean_const h.thick
  have ez : effective L 2 2 ≠ 0 := by rw [eff_zz h]; exact one_div_ne_zero ha
  have q1 : ∀ j, effective L 2 j / effective L 2 2 = layerMean L fun e => e 2 j / e 2 2 := by
    intro j
    rw [eff_zj h, eff_zz h]
    field_simp
  have q2 : ∀ i, effective L i 2 / effective L 2 2 = layerMean L fun e => e i 2 / e 2 2 := by
    intro i
    rw [eff_iz h, eff_zz h]
    field_simp
  have q3 : ∀ i j, effective L i j - effective L i 2 * effective L 2 j / effective L 2 2 = layerMean L fun e => e i j - e i 2 * e 2 j / e 2 2 := by
    intro i j
    rw [eff_iz h, eff_zj h, eff_zz h]
    simp only [effective]
    field_simp
    ring
  have q4 : 1 / effective L 2 2 = layerMean L fun e => 1 / e 2 2 := by
    rw [eff_zz h, one_div_one_div]
  fin_cases i <;> fin_cases j <;> simp only [buildDelta, Fin.zero_eta, Fin.mk_one, Fin.reduceFinMk] <;> simp only [of_apply, cons_val', cons_val] <;>
    try exact (hc _).symm
  · rw [mean_congr (g := fun e => (-kx) * (e 2 0 / e 2 2)) fun l _ => by ring, mean_mul, ← q1]; ring
  · rw [mean_congr (g := fun e => (-kx) * (e 2 1 / e 2 2)) fun l _ => by ring, mean_mul, ← q1]; ring
  · rw [mean_congr (g := fun e => 1 + (-kx ^ 2) * (1 / e 2 2)) fun l _ => by ring, mean_add, mean_mul, hc, ← q4]; ring
  · rw [mean_congr (g := fun e => (-1) * (e 1 0 - e 1 2 * e 2 0 / e 2 2)) fun l _ => by ring, mean_mul, ← q3]; ring
  · rw [mean_congr (g := fun e => kx ^ 2 + (-1) * (e 1 1 - e 1 2 * e 2 1 / e 2 2)) fun l _ => by ring, mean_add, mean_mul, hc, ← q3]; ring
  · rw [mean_congr (g := fun e => kx * (e 1 2 / e 2 2)) fun l _ => by ring, mean_mul, ← q2]; ring
  · exact q3 0 0
  · exact q3 0 1
  · rw [mean_congr (g := fun e => (-kx) * (e 0 2 / e 2 2)) fun l _ => by ring, mean_mul, ← q2]; ring

/-- The layers of a period of the `k`-th stack. -/
noncomputable def thinned (L : List (ℝ × Tensor)) (k : ℕ) : List (ℝ × Tensor) := L.map fun l => (l.1 / (k : ℝ), l.2)

lemma slabs_repeated (kx : ℂ) (lbda : ℝ) (L : List (ℝ × Tensor)) (k : ℕ) :
    slabs kx lbda (repeatedSlices L k 0 0) = slabs kx lbda L ^ k := by
  simp only [repeatedSlices, List.take_zero, List.append_nil, gt_iff_lt, lt_irrefl, if_false, List.nil_append]
  induction k with
  | zero => simp [slabs]
  | succ k ih => rw [List.replicate_succ, List.flatten_cons, slabs_append, ih, pow_succ']

lemma sum_entry (L : List Mat4) (i j : Fin 4) : L.sum i j = (L.map fun A => A i j).sum := by
  induction L with
  | nil => simp
  | cons A L ih => simp [ih]

/-- C118: in the limit of thin layers the repeated period acts like one layer of the homogeneous material. -/
lemma slabs_thin {L : List (ℝ × Tensor)} (h : Mixable L) (kx : ℂ) (lbda : ℝ) :
    Tendsto (fun k : ℕ => slabs kx lbda (repeatedSlices (thinned L k) k 0 0)) atTop (𝓝 (slabs kx lbda [(period L, effective L)])) := by
  have h1 := lie_product (L.map fun l => (-l.1) • slabX lbda kx l.2)
  have e1 : ∀ k : ℕ, slabs kx lbda (repeatedSlices (thinned L k) k 0 0) =
      ((L.map fun l => (-l.1) • slabX lbda kx l.2).map fun A => (NormedSpace.exp ((1 / (k : ℝ)) • A) : Mat4)).prod ^ k := by
    intro k
    rw [slabs_repeated]
    congr 1
    simp only [slabs, thinned, List.map_map]
    congr 1
    refine List.map_congr_left fun l _ => ?_
    simp only [Function.comp_apply]
    rw [propExpm_slabX, smul_smul]
    congr 2
    ring
  have e2 : slabs kx lbda [(period L, effective L)] = NormedSpace.exp (L.map fun l => (-l.1) • slabX lbda kx l.2).sum := by
    simp only [slabs, List.map_cons, List.map_nil, List.prod_cons, List.prod_nil, mul_one]
    rw [propExpm_slabX]
    congr 1
    ext i j
    rw [sum_entry, List.map_map]
    simp only [slabX, Matrix.smul_apply, smul_eq_mul, Complex.real_smul]
    rw [effective_delta h, layerMean_eq]
    have hp : (period L : ℂ) ≠ 0 := Complex.ofReal_ne_zero.2 h.thick.ne'
    have e3 : (L.map ((fun A : Mat4 => A i j) ∘ fun l => (-l.1) • (((2 * Real.pi / lbda : ℝ) : ℂ) • (I • buildDelta kx l.2)))) =
        L.map fun l => (l.1 : ℂ) * (-(((2 * Real.pi / lbda : ℝ) : ℂ) * I) * buildDelta kx l.2 i j) := by
      refine List.map_congr_left fun l _ => ?_
      simp only [Function.comp_apply, Matrix.smul_apply, smul_eq_mul, Complex.real_smul]
      push_cast
      ring
    rw [e3]
    have e4 := lsum_mul L (-(((2 * Real.pi / lbda : ℝ) : ℂ) * I)) fun e => buildDelta kx e i j
    rw [lsum] at e4
    rw [e4]
    rw [Complex.ofReal_neg]
    field_simp
  rw [e2]
  exact h1.congr fun k => (e1 k).symm

/-- C118: the Jones matrices that `Solver4x4` computes for a `RepeatedLayers` of `k` periods with layers `k` times thinner (anywhere in a
passive sample) approach those for one layer of the homogeneous material. -/
theorem C118_effective_medium {n0 : ℝ} (hn : 0 < n0) (pre L post : List (ℝ × Tensor)) {eb : ℂ} (he : eb ≠ 0) (hi : 0 ≤ eb.im)
    {theta lbda : ℝ} (ht : |theta| < 90) (hl : 0 < lbda) (hL : ∀ l ∈ pre ++ L ++ post, 0 ≤ l.1 ∧ l.2 2 2 ≠ 0 ∧ Passive l.2)
    (hthick : 0 < (L.map Prod.fst).sum) (hmean : layerMean L (fun e => 1 / e 2 2) ≠ 0) (eps : Tensor) (heps : Homogenised L eps) (ee) :
    let stack := fun mid => sampleStack ⟨n0, pre ++ mid ++ post, eb⟩
    let one := calculate4x4 propExpm (stack [((L.map Prod.fst).sum, eps)]) theta lbda ee
    Tendsto (fun k : ℕ => (calculate4x4 propExpm (stack (repeatedSlices (L.map fun l => (l.1 / (k : ℝ), l.2)) k 0 0)) theta lbda ee).jr)
      atTop (𝓝 one.jr) ∧
    Tendsto (fun k : ℕ => (calculate4x4 propExpm (stack (repeatedSlices (L.map fun l => (l.1 / (k : ℝ), l.2)) k 0 0)) theta lbda ee).jt)
      atTop (𝓝 one.jt) := by
  intro stack one
  have hmix : Mixable L := ⟨hthick, fun l hl => (hL l (by simp [hl])).2.1, hmean⟩
  have hpass := C118_passive hmix fun l hl => ⟨(hL l (by simp [hl])).1, (hL l (by simp [hl])).2.2⟩
  have heq := (C118_homogenised hmix eps).1 heps
  subst heq
  have h := bare_passive hn he hi ht hl
  obtain ⟨-, -, -, -, -, -, ⟨kx, hkx⟩, -⟩ := two_norms (bare n0 eb) theta lbda h (0, 0)
  have hok : ∀ l ∈ pre ++ [(period L, effective L)] ++ post, 0 ≤ l.1 ∧ l.2 2 2 ≠ 0 ∧ Passive l.2 := by
    intro l hm
    simp only [List.mem_append, List.mem_singleton] at hm
    rcases hm with (hm | rfl) | hm
    · exact hL l (by simp [hm])
    · exact ⟨hthick.le, by show effective L 2 2 ≠ 0; rw [eff_zz hmix]; exact one_div_ne_zero hmean, hpass⟩
    · exact hL l (by simp [hm])
  have hlim : Tendsto (fun k : ℕ => slabs (kxOf (bare n0 eb) theta) lbda (pre ++ repeatedSlices (thinned L k) k 0 0 ++ post)) atTop
      (𝓝 (slabs (kxOf (bare n0 eb) theta) lbda (pre ++ [(period L, effective L)] ++ post))) := by
    simp only [slabs_append]
    exact (tendsto_const_nhds.mul (slabs_thin hmix _ lbda)).mul tendsto_const_nhds
  have hdet : (tIt (transferM n0 eb theta (slabs (kxOf (bare n0 eb) theta) lbda (pre ++ [(period L, effective L)] ++ post)))).det ≠ 0 := by
    refine tIt_transferM h hn ?_ ?_
    · exact prod_isUnit _ _ _
    · intro v
      rw [hkx]
      exact flux_stack_ge kx hl _ hok v
  have := jones_tendsto hlim hdet
  simp only [stack, one, calculate4x4, calculate_transferM]
  exact this

/-- C118 for isotropic layers: the material is uniaxial with its axis across the layers; the ordinary value is the mean of the permittivities,
the inverse of the extraordinary one the mean of their inverses. -/
theorem C118_form_birefringence (P : List (ℝ × ℂ)) (hthick : 0 < (P.map Prod.fst).sum) (h0 : ∀ p ∈ P, p.2 ≠ 0)
    (hmean : (P.map fun p => (p.1 : ℂ) / p.2).sum ≠ 0) (eps : Tensor) :
    let d : ℂ := ((P.map Prod.fst).sum : ℝ)
    let eo := (P.map fun p => (p.1 : ℂ) * p.2).sum / d
    let ee := d / (P.map fun p => (p.1 : ℂ) / p.2).sum
    Homogenised (P.map fun p => (p.1, isoTensor p.2)) eps ↔ eps = !![eo, 0, 0; 0, eo, 0; 0, 0, ee] := by
  intro d eo ee
  set L := P.map fun p => (p.1, isoTensor p.2) with hLdef
  have hper : period L = (P.map Prod.fst).sum := by
    simp only [period, hLdef, List.map_map]
    rfl
  have hmem : ∀ l ∈ L, ∃ e : ℂ, e ≠ 0 ∧ l.2 = isoTensor e := by
    intro l hl
    obtain ⟨p, hp, rfl⟩ := List.mem_map.1 hl
    exact ⟨p.2, h0 p hp, rfl⟩
  have hsum : ∀ f : Tensor → ℂ, lsum L f = (P.map fun p => (p.1 : ℂ) * f (isoTensor p.2)).sum := by
    intro f
    simp only [lsum, hLdef, List.map_map]
    rfl
  have hd : (d : ℂ) ≠ 0 := Complex.ofReal_ne_zero.2 hthick.ne'
  have ma : layerMean L (fun e => 1 / e 2 2) = (P.map fun p => (p.1 : ℂ) / p.2).sum / d := by
    rw [layerMean_eq, hsum, hper]
    simp [isoTensor, d, div_eq_mul_inv]
  have mo : layerMean L (fun e => e 0 0) = eo := by
    rw [layerMean_eq, hsum, hper]
    simp [isoTensor, d, eo]
  have hmix : Mixable L := by
    refine ⟨by rw [hper]; exact hthick, fun l hl => ?_, ?_⟩
    · obtain ⟨e, he, hle⟩ := hmem l hl
      rw [hle]
      simpa [isoTensor] using he
    · rw [ma]
      exact div_ne_zero hmean hd
  rw [C118_homogenised hmix]
  have key : effective L = !![eo, 0, 0; 0, eo, 0; 0, 0, ee] := by
    have zij : ∀ i j : Fin 3, i ≠ j → effective L i j = 0 := by
      intro i j hij
      simp only [effective]
      have z1 : layerMean L (fun e => e i j - e i 2 * e 2 j / e 2 2) = 0 := mean_zero fun l hl => by
        obtain ⟨e, -, hle⟩ := hmem l hl
        rw [hle]
        fin_cases i <;> fin_cases j <;> simp [isoTensor] at hij ⊢
      have z2 : layerMean L (fun e => e i 2 / e 2 2) * layerMean L (fun e => e 2 j / e 2 2) = 0 := by
        rw [mul_eq_zero]
        by_cases hi2 : i = 2
        · right
          refine mean_zero fun l hl => ?_
          obtain ⟨e, -, hle⟩ := hmem l hl
          rw [hle]
          subst hi2
          fin_cases j <;> simp [isoTensor] at hij ⊢
        · left
          refine mean_zero fun l hl => ?_
          obtain ⟨e, -, hle⟩ := hmem l hl
          rw [hle]
          fin_cases i <;> simp [isoTensor] at hi2 ⊢
      rw [z1, z2]
      simp
    have dii : ∀ i : Fin 3, i ≠ 2 → effective L i i = eo := by
      intro i hi
      simp only [effective]
      rw [← mo, mean_congr (f := fun e => e i i - e i 2 * e 2 i / e 2 2) (g := fun e => e 0 0) fun l hl => by
          obtain ⟨e, -, hle⟩ := hmem l hl
          rw [hle]
          fin_cases i <;> simp [isoTensor] at hi ⊢,
        mean_zero (f := fun e => e i 2 / e 2 2) fun l hl => by
          obtain ⟨e, -, hle⟩ := hmem l hl
          rw [hle]
          fin_cases i <;> simp [isoTensor] at hi ⊢]
      simp
    ext i j
    by_cases hij : i = j
    · subst hij
      by_cases hi : i = 2
      · subst hi
        rw [eff_zz hmix, ma, one_div_div]
        rfl
      · rw [dii i hi]
        fin_cases i <;> simp at hi ⊢
    · rw [zij i j hij]
      fin_cases i <;> fin_cases j <;> simp at hij ⊢
  rw [key]

/-- C118: transparent layers with positive permittivities always give a negative crystal: the extraordinary value is at most the ordinary one. -/
theorem C118_negative (P : List (ℝ × ℝ)) (hp : ∀ p ∈ P, 0 < p.1 ∧ 0 < p.2) (hne : P ≠ []) :
    (P.map Prod.fst).sum / (P.map fun p => p.1 / p.2).sum ≤ (P.map fun p => p.1 * p.2).sum / (P.map Prod.fst).sum := by
  have key : ∀ Q : List (ℝ × ℝ), (∀ p ∈ Q, 0 < p.1 ∧ 0 < p.2) → 0 ≤ (Q.map fun p => p.1 / p.2).sum ∧ 0 ≤ (Q.map fun p => p.1 * p.2).sum ∧
      0 ≤ (Q.map Prod.fst).sum ∧ (Q.map Prod.fst).sum ^ 2 ≤ (Q.map fun p => p.1 * p.2).sum * (Q.map fun p => p.1 / p.2).sum := by
    intro Q
    induction Q with
    | nil => simp
    | cons p Q ih =>
      intro h
      obtain ⟨i1, i2, i3, i4⟩ := ih fun q hq => h q (List.mem_cons_of_mem _ hq)
      obtain ⟨h1, h2⟩ := h p List.mem_cons_self
      simp only [List.map_cons, List.sum_cons]
      set A := (Q.map fun p => p.1 / p.2).sum
      set B := (Q.map fun p => p.1 * p.2).sum
      set S := (Q.map Prod.fst).sum
      have hq : 0 < p.1 / p.2 := by positivity
      have hq' : 0 < p.1 * p.2 := by positivity
      refine ⟨by linarith, by linarith, by linarith, ?_⟩
      have e1 : p.1 * p.2 * (p.1 / p.2) = p.1 ^ 2 := by field_simp
      have e2 : 2 * p.1 * S ≤ p.1 * p.2 * A + B * (p.1 / p.2) := by
        have hx : 0 ≤ p.1 * p.2 * A := by positivity
        have hy : 0 ≤ B * (p.1 / p.2) := by positivity
        have hxy : (p.1 * S) ^ 2 ≤ (p.1 * p.2 * A) * (B * (p.1 / p.2)) := by
          have : (p.1 * p.2 * A) * (B * (p.1 / p.2)) = p.1 ^ 2 * (B * A) := by field_simp
          rw [this, mul_pow]
          exact mul_le_mul_of_nonneg_left i4 (by positivity)
        have hS : 0 ≤ p.1 * S := by positivity
        nlinarith [sq_nonneg (p.1 * p.2 * A - B * (p.1 / p.2)), sq_nonneg (p.1 * p.2 * A + B * (p.1 / p.2) - 2 * (p.1 * S))]
      nlinarith
  obtain ⟨i1, i2, i3, i4⟩ := key P hp
  obtain ⟨p, Q, rfl⟩ := List.exists_cons_of_ne_nil hne
  obtain ⟨j1, j2, j3, -⟩ := key Q fun q hq => hp q (List.mem_cons_of_mem _ hq)
  obtain ⟨h1, h2⟩ := hp p List.mem_cons_self
  have pA : 0 < ((p :: Q).map fun p => p.1 / p.2).sum := by
    simp only [List.map_cons, List.sum_cons]
    have : 0 < p.1 / p.2 := by positivity
    linarith
  have pS : 0 < ((p :: Q).map Prod.fst).sum := by
    simp only [List.map_cons, List.sum_cons]
    linarith
  rw [div_le_div_iff₀ pA pS]
  nlinarith

/-- Two glasses of equal thickness: ordinary value 3, extraordinary value 8/3. -/
example : Homogenised ([((10 : ℝ), isoTensor 2), (10, isoTensor 4)]) !![3, 0, 0; 0, 3, 0; 0, 0, 8 / 3] := by
  have := (C118_form_birefringence [((10 : ℝ), (2 : ℂ)), (10, 4)] (by simp) (by simp) (by simp; norm_num)
    !![3, 0, 0; 0, 3, 0; 0, 0, 8 / 3]).2
  refine this ?_
  simp
  norm_num

/-- The hypotheses of `C118_effective_medium` are met by thin films of silver and glass between glass films. -/
example : ∃ pre L post : List (ℝ × Tensor), L.length = 2 ∧ pre ≠ [] ∧ (∀ l ∈ pre ++ L ++ post, 0 ≤ l.1 ∧ l.2 2 2 ≠ 0 ∧ Passive l.2) ∧
    0 < (L.map Prod.fst).sum ∧ layerMean L (fun e => 1 / e 2 2) ≠ 0 := by
  have iso_passive : ∀ e : ℂ, 0 ≤ e.im → Passive (isoTensor e) := by
    intro e he E
    rw [isoTensor_eq, Matrix.smul_mulVec, Matrix.one_mulVec, dotProduct_smul, smul_eq_mul, Complex.mul_im]
    have h1 : (star E ⬝ᵥ E).im = 0 := by
      simp [dotProduct, Fin.sum_univ_three, Complex.mul_im]
      ring
    have h2 : 0 ≤ (star E ⬝ᵥ E).re := by
      simp [dotProduct, Fin.sum_univ_three, Complex.mul_re]
      nlinarith [sq_nonneg (E 0).re, sq_nonneg (E 0).im, sq_nonneg (E 1).re, sq_nonneg (E 1).im, sq_nonneg (E 2).re, sq_nonneg (E 2).im]
    rw [h1, mul_zero, zero_add]
    exact mul_nonneg he h2
  refine ⟨[(50, isoTensor 2)], [(10, isoTensor (-15 + I)), (20, isoTensor 2)], [], rfl, by simp, ?_, by simp; norm_num, ?_⟩
  · intro l hl
    simp at hl
    rcases hl with rfl | rfl | rfl
    · exact ⟨by norm_num, by simp [isoTensor], iso_passive _ (by simp)⟩
    · refine ⟨by norm_num, ?_, iso_passive _ (by simp)⟩
      simp only [isoTensor]
      intro h
      have := congrArg Complex.im h
      simp at this
    · exact ⟨by norm_num, by simp [isoTensor], iso_passive _ (by simp)⟩
  · intro h
    have := congrArg Complex.im h
    simp [layerMean, isoTensor, Complex.inv_im, Complex.div_im] at this
    norm_num at this
    have := congrArg Complex.im this
    simp at this

end PyElli
