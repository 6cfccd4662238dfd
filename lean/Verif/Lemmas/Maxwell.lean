import Verif.Lemmas.Symmetry
import Verif.Spec.Maxwell
import Mathlib.Analysis.SpecialFunctions.ExpDeriv
import Mathlib.Analysis.Calculus.MeanValue

/-! # From Maxwell's equations to the delta matrix -/

namespace PyElli

open Matrix Complex Spec

/-- Maxwell's equations for fields `exp(i k kx x) e(z)`, with the z derivatives `e', h'`. -/
def Reduced (k kx : ℂ) (eps : Tensor) (e h e' h' : Fin 3 → ℂ) : Prop :=
  (-e' 1 = I * k * h 0 ∧ e' 0 - I * k * kx * e 2 = I * k * h 1 ∧ I * k * kx * e 1 = I * k * h 2) ∧
  (-h' 1 = -(I * k) * (eps *ᵥ e) 0 ∧ h' 0 - I * k * kx * h 2 = -(I * k) * (eps *ᵥ e) 1 ∧
    I * k * kx * h 1 = -(I * k) * (eps *ᵥ e) 2)

section lateral

variable {F : Field} {f : ℝ → Fin 3 → ℂ} {c : ℂ}

lemma lateral_x (hF : ∀ x y z, F x y z = Complex.exp (c * x) • f z) (y z : ℝ) (j : Fin 3) (x : ℝ) :
    HasDerivAt (fun s : ℝ => F s y z j) (c * (Complex.exp (c * x) * f z j)) x := by
  have h1 : HasDerivAt (fun s : ℝ => c * (s : ℂ)) (c * 1) x := (Complex.ofRealCLM.hasDerivAt (x := x)).const_mul c
  have h2 : HasDerivAt (fun s : ℝ => Complex.exp (c * s) * f z j) (Complex.exp (c * x) * (c * 1) * f z j) x :=
    (h1.cexp).mul_const _
  have e : (fun s : ℝ => F s y z j) = fun s : ℝ => Complex.exp (c * s) * f z j := by
    funext s
    rw [hF]
    rfl
  rw [e]
  convert h2 using 1
  ring

lemma lateral_y (hF : ∀ x y z, F x y z = Complex.exp (c * x) • f z) (x z : ℝ) (j : Fin 3) (y : ℝ) :
    HasDerivAt (fun s : ℝ => F x s z j) 0 y := by
  have e : (fun s : ℝ => F x s z j) = fun _ => Complex.exp (c * x) * f z j := by
    funext s
    rw [hF]
    rfl
  rw [e]
  exact hasDerivAt_const y _

lemma lateral_z (hF : ∀ x y z, F x y z = Complex.exp (c * x) • f z) (x y : ℝ) (j : Fin 3) :
    (fun s : ℝ => F x y s j) = fun s => Complex.exp (c * x) * f s j := by
  funext s
  rw [hF]
  rfl

lemma lateral_partials (hF : ∀ x y z, F x y z = Complex.exp (c * x) • f z) (x y z : ℝ) :
    HasPartials F x y z ↔ ∀ j, DifferentiableAt ℝ (fun s => f s j) z := by
  have hne := Complex.exp_ne_zero (c * x)
  constructor
  · intro h j
    have := (h j).2.2
    rw [lateral_z hF] at this
    have h2 := this.const_mul (Complex.exp (c * x))⁻¹
    simpa [← mul_assoc, inv_mul_cancel₀ hne] using h2
  · intro h j
    refine ⟨(lateral_x hF y z j x).differentiableAt, (lateral_y hF x z j y).differentiableAt, ?_⟩
    rw [lateral_z hF]
    exact (h j).const_mul _

lemma lateral_curl (hF : ∀ x y z, F x y z = Complex.exp (c * x) • f z) (x y z : ℝ) (hd : ∀ j, DifferentiableAt ℝ (fun s => f s j) z) :
    curl F x y z = Complex.exp (c * x) •
      ![-deriv (fun s => f s 1) z, deriv (fun s => f s 0) z - c * f z 2, c * f z 1] := by
  have hz : ∀ j, deriv (fun s : ℝ => F x y s j) z = Complex.exp (c * x) * deriv (fun s => f s j) z := fun j => by
    rw [lateral_z hF]
    exact deriv_const_mul _ (hd j)
  have hx : ∀ j, deriv (fun s : ℝ => F s y z j) x = c * (Complex.exp (c * x) * f z j) := fun j => (lateral_x hF y z j x).deriv
  have hy : ∀ j, deriv (fun s : ℝ => F x s z j) y = 0 := fun j => (lateral_y hF x z j y).deriv
  funext i
  fin_cases i <;> simp [curl, partialDeriv, hz, hx, hy] <;> ring

end lateral

/-- Maxwell's equations for fields that follow the incident wave along the surface. -/
lemma maxwell_lateral {E H : Field} {e h : ℝ → Fin 3 → ℂ} {kx : ℂ} {lbda : ℝ} (eps : Tensor)
    (hE : ∀ x y z, E x y z = Complex.exp (I * (2 * Real.pi / lbda : ℝ) * kx * x) • e z)
    (hH : ∀ x y z, H x y z = Complex.exp (I * (2 * Real.pi / lbda : ℝ) * kx * x) • h z) (x y z : ℝ) :
    MaxwellAt lbda eps E H x y z ↔ (∀ j, DifferentiableAt ℝ (fun s => e s j) z) ∧ (∀ j, DifferentiableAt ℝ (fun s => h s j) z) ∧
      Reduced (2 * Real.pi / lbda : ℝ) kx eps (e z) (h z) (fun j => deriv (fun s => e s j) z) (fun j => deriv (fun s => h s j) z) := by
  unfold MaxwellAt
  rw [lateral_partials hE, lateral_partials hH]
  refine and_congr_right fun d1 => and_congr_right fun d2 => ?_
  rw [lateral_curl hE x y z d1, lateral_curl hH x y z d2, hE, hH, Matrix.mulVec_smul]
  have hne := Complex.exp_ne_zero (I * (2 * Real.pi / lbda : ℝ) * kx * x)
  rw [smul_comm _ (Complex.exp _) (h z), smul_comm _ (Complex.exp _) (eps *ᵥ e z), (smul_right_injective _ hne).eq_iff,
    (smul_right_injective _ hne).eq_iff]
  unfold Reduced
  refine and_congr ?_ ?_
  · constructor
    · intro hh
      exact ⟨by simpa using congrFun hh 0, by simpa using congrFun hh 1, by simpa using congrFun hh 2⟩
    · rintro ⟨h0, h1, h2⟩
      funext i
      fin_cases i
      · simpa using h0
      · simpa using h1
      · simpa using h2
  · constructor
    · intro hh
      exact ⟨by simpa using congrFun hh 0, by simpa using congrFun hh 1, by simpa using congrFun hh 2⟩
    · rintro ⟨h0, h1, h2⟩
      funext i
      fin_cases i
      · simpa using h0
      · simpa using h1
      · simpa using h2

/-- Tangential components. -/
def tang (e h : Fin 3 → ℂ) : Fin 4 → ℂ := ![e 0, e 1, h 0, h 1]

/-- The reduced equations say that the tangential fields obey Berreman's equation and that the z components follow from them. -/
lemma reduced_iff {k kx : ℂ} (hk : k ≠ 0) {eps : Tensor} (hz : eps 2 2 ≠ 0) (e h e' h' : Fin 3 → ℂ) :
    Reduced k kx eps e h e' h' ↔ tang e' h' = (k • (I • buildDelta kx eps)) *ᵥ tang e h ∧
      e 2 = (fieldE kx eps (tang e h)) 2 ∧ h 2 = kx * e 1 := by
  have hI : I * k ≠ 0 := mul_ne_zero I_ne_zero hk
  have hEz : (e 2 = (fieldE kx eps (tang e h)) 2) ↔ eps 2 2 * e 2 = -(eps 2 0 * e 0 + eps 2 1 * e 1 + kx * h 1) := by
    simp only [fieldE, tang, Matrix.cons_val]
    rw [eq_div_iff hz, mul_comm]
  have hD2 : (I * k * kx * h 1 = -(I * k) * (eps *ᵥ e) 2) ↔ eps 2 2 * e 2 = -(eps 2 0 * e 0 + eps 2 1 * e 1 + kx * h 1) := by
    simp only [Matrix.mulVec, dotProduct, Fin.sum_univ_three]
    constructor
    · intro hh
      have : I * k * (eps 2 2 * e 2) = I * k * (-(eps 2 0 * e 0 + eps 2 1 * e 1 + kx * h 1)) := by linear_combination hh
      exact mul_left_cancel₀ hI this
    · intro hh
      linear_combination (I * k) * hh
  have hH2 : (I * k * kx * e 1 = I * k * h 2) ↔ h 2 = kx * e 1 := by
    rw [mul_assoc (I * k)]
    exact ⟨fun hh => (mul_left_cancel₀ hI hh).symm, fun hh => by rw [hh]⟩
  unfold Reduced
  rw [hD2, hH2, hEz]
  constructor
  · rintro ⟨⟨a1, a2, a3⟩, b1, b2, b3⟩
    refine ⟨?_, b3, a3⟩
    have hez : e 2 = -(eps 2 0 * e 0 + eps 2 1 * e 1 + kx * h 1) / eps 2 2 := by rw [← b3]; field_simp
    simp only [Matrix.mulVec, dotProduct, Fin.sum_univ_three] at b1 b2
    rw [a3] at b2
    funext i
    fin_cases i
    · simp [tang, buildDelta, Matrix.mulVec, dotProduct, Fin.sum_univ_four]
      rw [hez] at a2
      field_simp at a2 ⊢
      linear_combination a2
    · simp [tang, buildDelta, Matrix.mulVec, dotProduct, Fin.sum_univ_four]
      linear_combination -a1
    · simp [tang, buildDelta, Matrix.mulVec, dotProduct, Fin.sum_univ_four]
      rw [hez] at b2
      field_simp at b2 ⊢
      linear_combination b2
    · simp [tang, buildDelta, Matrix.mulVec, dotProduct, Fin.sum_univ_four]
      rw [hez] at b1
      field_simp at b1 ⊢
      linear_combination -b1
  · rintro ⟨ht, b3, a3⟩
    have hez : e 2 = -(eps 2 0 * e 0 + eps 2 1 * e 1 + kx * h 1) / eps 2 2 := by rw [← b3]; field_simp
    have t0 := congrFun ht 0
    have t1 := congrFun ht 1
    have t2 := congrFun ht 2
    have t3 := congrFun ht 3
    simp [tang, buildDelta, Matrix.mulVec, dotProduct, Fin.sum_univ_four] at t0 t1 t2 t3
    refine ⟨⟨?_, ?_, a3⟩, ?_, ?_, b3⟩
    · linear_combination -t1
    · rw [hez, t0]; field_simp; ring
    · simp only [Matrix.mulVec, dotProduct, Fin.sum_univ_three]
      rw [hez, t3]; field_simp; ring
    · simp only [Matrix.mulVec, dotProduct, Fin.sum_univ_three]
      rw [hez, a3, t2]; field_simp; ring

/-! ## Berreman's equation inside a slab -/

lemma exp_real_smul_mul (X : Mat4) (a b : ℝ) :
    (NormedSpace.exp (a • X) : Mat4) * NormedSpace.exp (b • X) = NormedSpace.exp ((a + b) • X) := by
  rw [add_smul, Matrix.exp_add_of_commute]
  exact ((Commute.refl X).smul_left a).smul_right b

lemma mulVec_hasDerivAt {M : ℝ → Mat4} {M' : Mat4} {v : ℝ → Fin 4 → ℂ} {v' : Fin 4 → ℂ} {z : ℝ}
    (hM : ∀ i j, HasDerivAt (fun s => M s i j) (M' i j) z) (hv : ∀ j, HasDerivAt (fun s => v s j) (v' j) z) (i : Fin 4) :
    HasDerivAt (fun s => (M s *ᵥ v s) i) ((M' *ᵥ v z) i + (M z *ᵥ v') i) z := by
  have h : HasDerivAt (fun s => ∑ j, M s i j * v s j) (∑ j, (M' i j * v z j + M z i j * v' j)) z :=
    HasDerivAt.fun_sum fun j _ => (hM i j).mul (hv j)
  rw [Finset.sum_add_distrib] at h
  exact h

lemma ode_unique (X : Mat4) (psi : ℝ → Fin 4 → ℂ) {a b : ℝ} (hab : a ≤ b) (hc : ∀ i, Continuous fun s => psi s i)
    (hd : ∀ z ∈ Set.Ioo a b, ∀ i, HasDerivAt (fun s => psi s i) ((X *ᵥ psi z) i) z) :
    psi a = (NormedSpace.exp ((a - b) • X) : Mat4) *ᵥ psi b := by
  rcases hab.eq_or_lt with rfl | hab
  · simp
  have hE : ∀ z i j, HasDerivAt (fun s : ℝ => (NormedSpace.exp (s • (-X)) : Mat4) i j)
      (((-X) * NormedSpace.exp (z • (-X)) : Mat4) i j) z := fun z i j => exp_entry_hasDerivAt (-X) i j z
  have hg : ∀ z ∈ Set.Ioo a b, ∀ i, HasDerivAt (fun s => ((NormedSpace.exp (s • (-X)) : Mat4) *ᵥ psi s) i) 0 z := by
    intro z hz i
    have := mulVec_hasDerivAt (hE z) (hd z hz) i
    convert this using 1
    have hcomm : (NormedSpace.exp (z • (-X)) : Mat4) * X = X * NormedSpace.exp (z • (-X)) := by
      refine (exp_commute ?_).symm
      simp
    rw [Matrix.mulVec_mulVec, hcomm, ← Pi.add_apply, ← Matrix.add_mulVec]
    simp
  have hgc : ∀ i, Continuous fun s => ((NormedSpace.exp (s • (-X)) : Mat4) *ᵥ psi s) i := by
    intro i
    simp only [Matrix.mulVec, dotProduct]
    refine continuous_finsetSum _ fun j _ => ?_
    have : Continuous fun s : ℝ => (NormedSpace.exp (s • (-X)) : Mat4) i j :=
      continuous_iff_continuousAt.2 fun z => (hE z i j).continuousAt
    exact this.mul (hc j)
  have key : (NormedSpace.exp (a • (-X)) : Mat4) *ᵥ psi a = (NormedSpace.exp (b • (-X)) : Mat4) *ᵥ psi b := by
    funext i
    have hconst : ∀ s ∈ Set.Ioo a b, ((NormedSpace.exp (s • (-X)) : Mat4) *ᵥ psi s) i = ((NormedSpace.exp (b • (-X)) : Mat4) *ᵥ psi b) i := by
      intro s hs
      have := constant_of_has_deriv_right_zero (f := fun s => ((NormedSpace.exp (s • (-X)) : Mat4) *ᵥ psi s) i) (a := s) (b := b)
        (hgc i).continuousOn (fun x hx => (hg x ⟨hs.1.trans_le hx.1, hx.2⟩ i).hasDerivWithinAt) b ⟨hs.2.le, le_rfl⟩
      exact this.symm
    have h1 : Filter.Tendsto (fun s => ((NormedSpace.exp (s • (-X)) : Mat4) *ᵥ psi s) i) (nhdsWithin a (Set.Ioi a))
        (nhds (((NormedSpace.exp (a • (-X)) : Mat4) *ᵥ psi a) i)) := ((hgc i).tendsto a).mono_left nhdsWithin_le_nhds
    have h2 : Filter.Tendsto (fun s => ((NormedSpace.exp (s • (-X)) : Mat4) *ᵥ psi s) i) (nhdsWithin a (Set.Ioi a))
        (nhds (((NormedSpace.exp (b • (-X)) : Mat4) *ᵥ psi b) i)) := by
      refine tendsto_const_nhds.congr' ?_
      filter_upwards [Ioo_mem_nhdsGT hab] with s hs
      exact (hconst s hs).symm
    exact tendsto_nhds_unique h1 h2
  have := congrArg (fun v => (NormedSpace.exp (a • X) : Mat4) *ᵥ v) key
  simp only [Matrix.mulVec_mulVec, smul_neg, ← neg_smul, exp_real_smul_mul] at this
  simpa [sub_eq_add_neg] using this

lemma exp_eigen (X : Mat4) (v : Fin 4 → ℂ) (mu : ℂ) (h : X *ᵥ v = mu • v) (z : ℝ) :
    (NormedSpace.exp (z • X) : Mat4) *ᵥ v = Complex.exp (mu * z) • v := by
  have hd : ∀ s : ℝ, ∀ i, HasDerivAt (fun s : ℝ => (Complex.exp (mu * s) • v) i) ((X *ᵥ (Complex.exp (mu * s) • v)) i) s := by
    intro s i
    have h1 : HasDerivAt (fun s : ℝ => mu * (s : ℂ)) (mu * 1) s := (Complex.ofRealCLM.hasDerivAt (x := s)).const_mul mu
    have h2 := (h1.cexp).mul_const (v i)
    rw [Matrix.mulVec_smul, h]
    refine h2.congr_deriv ?_
    simp
    ring
  have hc : ∀ i, Continuous fun s : ℝ => (Complex.exp (mu * s) • v) i := fun i =>
    continuous_iff_continuousAt.2 fun s => (hd s i).continuousAt
  rcases le_total z 0 with hz | hz
  · have := ode_unique X (fun s : ℝ => Complex.exp (mu * s) • v) hz hc fun s _ => hd s
    simpa using this.symm
  · have := ode_unique X (fun s : ℝ => Complex.exp (mu * s) • v) hz hc fun s _ => hd s
    have h2 := congrArg (fun w => (NormedSpace.exp (z • X) : Mat4) *ᵥ w) this
    simp only [Matrix.mulVec_mulVec, exp_real_smul_mul] at h2
    simpa using h2

/-- Exponent of the propagation matrices. -/
noncomputable def slabX (lbda : ℝ) (kx : ℂ) (eps : Tensor) : Mat4 := ((2 * Real.pi / lbda : ℝ) : ℂ) • (I • buildDelta kx eps)

lemma propExpm_slabX (lbda d : ℝ) (kx : ℂ) (eps : Tensor) :
    propExpm (buildDelta kx eps) d lbda = NormedSpace.exp (d • slabX lbda kx eps) := propExpm_eq _ _ _

lemma interfaces_ge {α : Type*} : ∀ (L : List (ℝ × α)) (z0 z : ℝ), (∀ l ∈ L, 0 ≤ l.1) → z ∈ interfacesFrom z0 L → z0 ≤ z
  | [], z0, z, _, h => by
    simp only [interfacesFrom, List.mem_singleton] at h
    exact h.ge
  | (d, e) :: ls, z0, z, hL, h => by
    simp only [interfacesFrom, List.mem_cons] at h
    rcases h with rfl | h
    · exact le_rfl
    · have h1 := interfaces_ge ls (z0 + d) z (fun l hl => hL l (List.mem_cons_of_mem _ hl)) h
      have h2 := hL (d, e) List.mem_cons_self
      simp only at h2
      linarith

lemma interfaces_le {α : Type*} : ∀ (L : List (ℝ × α)) (z0 z : ℝ), (∀ l ∈ L, 0 ≤ l.1) → z ∈ interfacesFrom z0 L → z ≤ z0 + (L.map Prod.fst).sum
  | [], z0, z, _, h => by
    simp only [interfacesFrom, List.mem_singleton] at h
    simp [h]
  | (d, e) :: ls, z0, z, hL, h => by
    simp only [interfacesFrom, List.mem_cons] at h
    have hs : 0 ≤ (ls.map Prod.fst).sum := List.sum_nonneg (by
      intro x hx
      obtain ⟨l, hl, rfl⟩ := List.mem_map.1 hx
      exact hL l (List.mem_cons_of_mem _ hl))
    have h2 := hL (d, e) List.mem_cons_self
    simp only [List.map_cons, List.sum_cons] at h2 ⊢
    rcases h with rfl | h
    · linarith
    · have h1 := interfaces_le ls (z0 + d) z (fun l hl => hL l (List.mem_cons_of_mem _ hl)) h
      linarith

lemma depth_nonneg {α : Type*} (L : List (ℝ × α)) (hL : ∀ l ∈ L, 0 ≤ l.1) : 0 ≤ (L.map Prod.fst).sum :=
  List.sum_nonneg (by
    intro x hx
    obtain ⟨l, hl, rfl⟩ := List.mem_map.1 hx
    exact hL l hl)

/-- Fields that obey Berreman's equation inside the layers are carried from the back to the front by the propagation matrices. -/
lemma carried_slabs (kx : ℂ) (lbda : ℝ) (eb : ℂ) (psi : ℝ → Fin 4 → ℂ) (hc : ∀ i, Continuous fun s => psi s i) :
    ∀ (L : List (ℝ × Tensor)) (z0 : ℝ), (∀ l ∈ L, 0 ≤ l.1) →
      (∀ z, z ∉ interfacesFrom z0 L → z0 < z → z < z0 + (L.map Prod.fst).sum →
        ∀ i, HasDerivAt (fun s => psi s i) ((slabX lbda kx (mediumBelow eb L (z - z0)) *ᵥ psi z) i) z) →
      psi z0 = slabs kx lbda L *ᵥ psi (z0 + (L.map Prod.fst).sum)
  | [], z0, _, _ => by simp [slabs]
  | (d, e) :: ls, z0, hL, h => by
    have hd : 0 ≤ d := hL (d, e) List.mem_cons_self
    have hL' : ∀ l ∈ ls, 0 ≤ l.1 := fun l hl => hL l (List.mem_cons_of_mem _ hl)
    have hs := depth_nonneg ls hL'
    have h1 : psi z0 = (NormedSpace.exp ((z0 - (z0 + d)) • slabX lbda kx e) : Mat4) *ᵥ psi (z0 + d) := by
      refine ode_unique _ psi (by linarith) hc fun z hz i => ?_
      have hz' : z ∉ interfacesFrom z0 ((d, e) :: ls) := by
        simp only [interfacesFrom, List.mem_cons, not_or]
        exact ⟨hz.1.ne', fun hm => absurd (interfaces_ge ls (z0 + d) z hL' hm) (not_le.2 hz.2)⟩
      have := h z hz' hz.1 (by simp only [List.map_cons, List.sum_cons]; linarith [hz.2]) i
      have hm : mediumBelow eb ((d, e) :: ls) (z - z0) = e := by
        simp only [mediumBelow]
        rw [if_pos (by linarith [hz.2])]
      rwa [hm] at this
    have h2 := carried_slabs kx lbda eb psi hc ls (z0 + d) hL' fun z hz hz0 hz1 i => by
      have hz' : z ∉ interfacesFrom z0 ((d, e) :: ls) := by
        simp only [interfacesFrom, List.mem_cons, not_or]
        exact ⟨by linarith, hz⟩
      have := h z hz' (by linarith) (by simp only [List.map_cons, List.sum_cons]; linarith) i
      have hm : mediumBelow eb ((d, e) :: ls) (z - z0) = mediumBelow eb ls (z - (z0 + d)) := by
        simp only [mediumBelow]
        rw [if_neg (by linarith), sub_sub]
      rwa [hm] at this
    have e1 : z0 - (z0 + d) = -d := by ring
    rw [h1, h2, e1, ← propExpm_slabX, Matrix.mulVec_mulVec]
    simp only [slabs, List.map_cons, List.prod_cons, List.sum_cons, ← add_assoc]

/-! ## Plane waves in the half spaces -/

/-- Tangential fields of two plane waves with z components `kz` and `-kz`. -/
noncomputable def waves (n kz : ℂ) (a r : Fin 2 → ℂ) (p m : ℂ) : Fin 4 → ℂ :=
  ![kz / n * (p * a 0 - m * r 0), p * a 1 + m * r 1, -kz * (p * a 1 - m * r 1), n * (p * a 0 + m * r 0)]

/-- Electric field of two plane waves with z components `kz` and `-kz`. -/
noncomputable def wavesE (n kx kz : ℂ) (a r : Fin 2 → ℂ) (p m : ℂ) : Fin 3 → ℂ :=
  ![kz / n * (p * a 0 - m * r 0), p * a 1 + m * r 1, -kx / n * (p * a 0 + m * r 0)]

lemma wavesE_hasDerivAt (n kx kz : ℂ) (a r : Fin 2 → ℂ) (c : ℂ) (z0 z : ℝ) (j : Fin 3) :
    HasDerivAt (fun s : ℝ => wavesE n kx kz a r (Complex.exp (c * (s - z0 : ℝ))) (Complex.exp (-(c * (s - z0 : ℝ)))) j)
      (c * wavesE n kx kz a (-r) (Complex.exp (c * (z - z0 : ℝ))) (Complex.exp (-(c * (z - z0 : ℝ)))) j) z := by
  have h1 : HasDerivAt (fun s : ℝ => c * ((s - z0 : ℝ) : ℂ)) (c * 1) z := by
    have h0 : HasDerivAt (fun s : ℝ => ((s - z0 : ℝ) : ℂ)) 1 z := by
      have := ((hasDerivAt_id z).sub_const z0).ofReal_comp
      simpa using this
    exact h0.const_mul c
  have hp := h1.cexp
  have hm := h1.neg.cexp
  fin_cases j
  · have := ((hp.mul_const (a 0)).sub (hm.mul_const (r 0))).const_mul (kz / n)
    refine this.congr_deriv ?_
    simp [wavesE]
    ring
  · have := (hp.mul_const (a 1)).add (hm.mul_const (r 1))
    refine this.congr_deriv ?_
    simp [wavesE]
    ring
  · have := ((hp.mul_const (a 0)).add (hm.mul_const (r 0))).const_mul (-kx / n)
    refine this.congr_deriv ?_
    simp [wavesE]
    ring

/-- In a half space the magnetic field follows from the electric field of the waves. -/
lemma waves_tang {e h : ℝ → Fin 3 → ℂ} {k kx kz n : ℂ} (hk : k ≠ 0) (hn : n ≠ 0) (hkz : kz ^ 2 = n ^ 2 - kx ^ 2) (a r : Fin 2 → ℂ) (z0 z : ℝ)
    (h' : Fin 3 → ℂ) (eps : Tensor)
    (he : ∀ᶠ s in nhds z, e s = wavesE n kx kz a r (Complex.exp (I * k * kz * (s - z0 : ℝ))) (Complex.exp (-(I * k * kz * (s - z0 : ℝ)))))
    (hr : Reduced k kx eps (e z) (h z) (fun j => deriv (fun s => e s j) z) h') :
    tang (e z) (h z) = waves n kz a r (Complex.exp (I * k * kz * (z - z0 : ℝ))) (Complex.exp (-(I * k * kz * (z - z0 : ℝ)))) := by
  have hI : I * k ≠ 0 := mul_ne_zero I_ne_zero hk
  have hd : ∀ j, deriv (fun s => e s j) z = I * k * kz *
      wavesE n kx kz a (-r) (Complex.exp (I * k * kz * (z - z0 : ℝ))) (Complex.exp (-(I * k * kz * (z - z0 : ℝ)))) j := fun j => by
    rw [Filter.EventuallyEq.deriv_eq (f₁ := fun s => e s j)
      (f := fun s => wavesE n kx kz a r (Complex.exp (I * k * kz * (s - z0 : ℝ))) (Complex.exp (-(I * k * kz * (s - z0 : ℝ)))) j)
      (he.mono fun s hs => by simp only [hs])]
    exact (wavesE_hasDerivAt n kx kz a r (I * k * kz) z0 z j).deriv
  obtain ⟨⟨h1, h2, -⟩, -⟩ := hr
  simp only [hd] at h1 h2
  rw [he.self_of_nhds] at h2 ⊢
  generalize Complex.exp (I * k * kz * (z - z0 : ℝ)) = p at *
  generalize Complex.exp (-(I * k * kz * (z - z0 : ℝ))) = m at *
  simp [wavesE] at h1 h2
  funext i
  fin_cases i
  · simp [tang, wavesE, waves]
  · simp [tang, wavesE, waves]
  · simp only [tang, waves]
    apply mul_left_cancel₀ hI
    simp
    linear_combination -h1
  · simp only [tang, waves]
    apply mul_left_cancel₀ hI
    refine h2.symm.trans ?_
    simp only [Fin.isValue, Fin.reduceFinMk, Matrix.cons_val]
    field_simp
    linear_combination (p * a 0 + m * r 0) * hkz

end PyElli
