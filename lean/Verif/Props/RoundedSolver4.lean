import Verif.Model.RoundedSolver4
import Verif.Lemmas.ExpPerturb
import Verif.Props.RoundedSolver
import Mathlib.Analysis.Matrix.Normed

/-! # Rounding errors of `Solver4x4` -/

namespace Spec

open PyElli Complex
open scoped Matrix.Norms.Operator

/-- Sizes of the terms of the delta matrix. -/
noncomputable def deltaSize (kx : ℂ) (eps : Tensor) : Matrix (Fin 4) (Fin 4) ℝ :=
  !![‖kx‖ * ‖eps 2 0‖ / ‖eps 2 2‖, ‖kx‖ * ‖eps 2 1‖ / ‖eps 2 2‖, 0, 1 + ‖kx‖ ^ 2 / ‖eps 2 2‖;
     0, 0, 1, 0;
     ‖eps 1 2‖ * ‖eps 2 0‖ / ‖eps 2 2‖ + ‖eps 1 0‖, ‖kx‖ ^ 2 + ‖eps 1 1‖ + ‖eps 1 2‖ * ‖eps 2 1‖ / ‖eps 2 2‖, 0, ‖kx‖ * ‖eps 1 2‖ / ‖eps 2 2‖;
     ‖eps 0 0‖ + ‖eps 0 2‖ * ‖eps 2 0‖ / ‖eps 2 2‖, ‖eps 0 1‖ + ‖eps 0 2‖ * ‖eps 2 1‖ / ‖eps 2 2‖, 0, ‖kx‖ * ‖eps 0 2‖ / ‖eps 2 2‖]

/-- The phase a layer may add: wavenumber times thickness times the size of the delta matrix (largest sum of a row). -/
noncomputable def phase4 (kx : ℂ) (lbda : ℝ) (l : ℝ × Tensor) : ℝ := 2 * Real.pi / |lbda| * |l.1| * ‖deltaSize kx l.2‖

end Spec

namespace PyElli

open Matrix Complex
open scoped Matrix.Norms.Operator

/-- The library routines: sums of `n` products as accurate as `n` operations, matrix exponentials that are exact for a matrix close to the given one, and
inverses with a small residual for matrices that are not close to singular. -/
structure Accurate4 (m : Machine4) (τ η θ : ℝ) : Prop where
  ops : Accurate m.toMachine τ
  dot : ∀ n (x y : Fin n → ℂ), ‖m.dot n x y - ∑ j, x j * y j‖ ≤ (τ ^ n - 1) * ∑ j, ‖x j‖ * ‖y j‖
  expm : ∀ A : Mat4, ∃ E : Mat4, ‖E‖ ≤ η * ‖A‖ ∧ m.expm A = NormedSpace.exp (A + E)
  inv : ∀ A : Mat2, A.det ≠ 0 → θ * (‖A‖ * ‖A⁻¹‖) < 1 → ∃ X, m.inv A = some X ∧ ‖A * X - 1‖ ≤ θ * (‖A‖ * ‖X‖)
  expm_nonneg : 0 ≤ η
  inv_nonneg : 0 ≤ θ

/-- `A'` stands for `A`, with an error of `(g - 1) P`. -/
def MatRel {n : ℕ} (g P : ℝ) (A' A : Matrix (Fin n) (Fin n) ℂ) : Prop := 1 ≤ g ∧ ‖A‖ ≤ P ∧ ‖A' - A‖ ≤ (g - 1) * P

namespace MatRel

variable {n : ℕ} {a b P Q : ℝ} {A A' B B' : Matrix (Fin n) (Fin n) ℂ}

lemma size_nonneg (h : MatRel a P A' A) : 0 ≤ P := (norm_nonneg _).trans h.2.1

lemma norm_le (h : MatRel a P A' A) : ‖A'‖ ≤ a * P := by
  have := norm_add_le (A' - A) A
  rw [sub_add_cancel] at this
  nlinarith [h.2.1, h.2.2]

lemma mono (h : MatRel a P A' A) (hab : a ≤ b) (hPQ : P ≤ Q) : MatRel b Q A' A := by
  refine ⟨h.1.trans hab, h.2.1.trans hPQ, h.2.2.trans ?_⟩
  have := h.1
  exact mul_le_mul (by linarith) hPQ h.size_nonneg (by linarith)

lemma mul (h : MatRel a P A' A) (k : MatRel b Q B' B) : MatRel (a * b) (P * Q) (A' * B') (A * B) := by
  refine ⟨one_le_mul_of_one_le_of_one_le h.1 k.1, ?_, ?_⟩
  · exact (norm_mul_le _ _).trans (mul_le_mul h.2.1 k.2.1 (norm_nonneg _) h.size_nonneg)
  · have e : A' * B' - A * B = A' * (B' - B) + (A' - A) * B := by rw [mul_sub, sub_mul]; abel
    rw [e]
    refine (norm_add_le _ _).trans ((add_le_add (norm_mul_le _ _) (norm_mul_le _ _)).trans ?_)
    have h1 := mul_le_mul h.norm_le k.2.2 (norm_nonneg _) (mul_nonneg (by linarith [h.1]) h.size_nonneg)
    have h2 := mul_le_mul h.2.2 k.2.1 (norm_nonneg _) (mul_nonneg (by linarith [h.1]) h.size_nonneg)
    nlinarith

/-- A further error of the result. -/
lemma further (h : MatRel a P A' A) {t : ℝ} (ht : 1 ≤ t) {A'' : Matrix (Fin n) (Fin n) ℂ} (k : ‖A'' - A'‖ ≤ (t - 1) * (a * P)) : MatRel (a * t) P A'' A := by
  refine ⟨one_le_mul_of_one_le_of_one_le h.1 ht, h.2.1, ?_⟩
  have := norm_add_le (A'' - A') (A' - A)
  rw [sub_add_sub_cancel] at this
  have := h.2.2
  linarith

end MatRel

/-- The norm: the largest sum of a row. -/
lemma norm_le_iff {n : ℕ} {A : Matrix (Fin n) (Fin n) ℂ} {r : ℝ} (hr : 0 ≤ r) : ‖A‖ ≤ r ↔ ∀ i, ∑ j, ‖A i j‖ ≤ r := by
  rw [Matrix.linfty_opNorm_def]
  constructor
  · intro h i
    refine le_trans ?_ h
    have := Finset.le_sup (f := fun i => ∑ j, ‖A i j‖₊) (Finset.mem_univ i)
    have h2 : ((∑ j, ‖A i j‖₊ : NNReal) : ℝ) ≤ _ := NNReal.coe_le_coe.2 this
    simpa using h2
  · intro h
    lift r to NNReal using hr
    refine NNReal.coe_le_coe.2 (Finset.sup_le fun i _ => ?_)
    have := h i
    rw [← NNReal.coe_le_coe]
    simpa using this

lemma row_le {n : ℕ} (A : Matrix (Fin n) (Fin n) ℂ) (i) : ∑ j, ‖A i j‖ ≤ ‖A‖ := (norm_le_iff (norm_nonneg _)).1 le_rfl i

/-- The same for real matrices. -/
lemma row_le_real {n : ℕ} (A : Matrix (Fin n) (Fin n) ℝ) (i) : ∑ j, |A i j| ≤ ‖A‖ := by
  rw [Matrix.linfty_opNorm_def]
  have := Finset.le_sup (f := fun i => ∑ j, ‖A i j‖₊) (Finset.mem_univ i)
  have h2 : ((∑ j, ‖A i j‖₊ : NNReal) : ℝ) ≤ _ := NNReal.coe_le_coe.2 this
  simpa using h2

/-- Errors of the entries. -/
lemma MatRel.of_entries {n : ℕ} {g : ℝ} (hg : 1 ≤ g) {A A' : Matrix (Fin n) (Fin n) ℂ} {S : Matrix (Fin n) (Fin n) ℝ} (h : ∀ i j, Rel g (S i j) (A' i j) (A i j)) :
    MatRel g ‖S‖ A' A := by
  have hs : ∀ i, ∑ j, S i j ≤ ‖S‖ := fun i => (Finset.sum_le_sum fun j _ => le_abs_self _).trans (row_le_real S i)
  refine ⟨hg, (norm_le_iff (norm_nonneg _)).2 fun i => (Finset.sum_le_sum fun j _ => (h i j).2.1).trans (hs i), ?_⟩
  refine (norm_le_iff (mul_nonneg (by linarith) (norm_nonneg _))).2 fun i => ?_
  refine (Finset.sum_le_sum fun j _ => (h i j).2.2).trans ?_
  rw [← Finset.mul_sum]
  exact mul_le_mul_of_nonneg_left (hs i) (by linarith)

/-- The same where the size is the modulus of the entry. -/
lemma MatRel.of_entries' {n : ℕ} {g : ℝ} (hg : 1 ≤ g) {A A' : Matrix (Fin n) (Fin n) ℂ} (h : ∀ i j, Rel g ‖A i j‖ (A' i j) (A i j)) :
    MatRel g ‖A‖ A' A := by
  refine ⟨hg, le_rfl, (norm_le_iff (mul_nonneg (by linarith) (norm_nonneg _))).2 fun i => ?_⟩
  refine (Finset.sum_le_sum fun j _ => (h i j).2.2).trans ?_
  rw [← Finset.mul_sum]
  exact mul_le_mul_of_nonneg_left (row_le A i) (by linarith)

section Stages

variable {m : Machine4} {τ η θ : ℝ} (hm : Accurate4 m τ η θ)

include hm

lemma acc4_one : 1 ≤ τ := acc_one hm.ops

/-- Products of computed matrices. -/
lemma acc4_matMul {n : ℕ} {a b P Q : ℝ} {A A' B B' : Matrix (Fin n) (Fin n) ℂ} (h : MatRel a P A' A) (k : MatRel b Q B' B) :
    MatRel (a * b * τ ^ n) (P * Q) (m.matMul A' B') (A * B) := by
  have ht : 1 ≤ τ ^ n := one_le_pow₀ (acc4_one hm)
  refine (h.mul k).further ht ?_
  have e : (a * b * (P * Q)) = (a * P) * (b * Q) := by ring
  rw [e]
  have hP := mul_nonneg (by linarith [h.1] : (0:ℝ) ≤ a) h.size_nonneg
  have hQ := mul_nonneg (by linarith [k.1] : (0:ℝ) ≤ b) k.size_nonneg
  refine (norm_le_iff (mul_nonneg (by linarith) (mul_nonneg hP hQ))).2 fun i => ?_
  have h1 : ∀ l, ‖(m.matMul A' B' - A' * B') i l‖ ≤ (τ ^ n - 1) * ∑ j, ‖A' i j‖ * ‖B' j l‖ := fun l => by
    have := hm.dot n (A' i) fun j => B' j l
    rw [Matrix.sub_apply, Matrix.mul_apply]
    exact this
  refine (Finset.sum_le_sum fun l _ => h1 l).trans ?_
  rw [← Finset.mul_sum]
  refine mul_le_mul_of_nonneg_left ?_ (by linarith)
  rw [Finset.sum_comm]
  calc ∑ j, ∑ l, ‖A' i j‖ * ‖B' j l‖ = ∑ j, ‖A' i j‖ * ∑ l, ‖B' j l‖ := by simp only [Finset.mul_sum]
    _ ≤ ∑ j, ‖A' i j‖ * (b * Q) := Finset.sum_le_sum fun j _ => mul_le_mul_of_nonneg_left ((row_le B' j).trans k.norm_le) (norm_nonneg _)
    _ = (∑ j, ‖A' i j‖) * (b * Q) := by rw [Finset.sum_mul]
    _ ≤ (a * P) * (b * Q) := mul_le_mul_of_nonneg_right ((row_le A' i).trans h.norm_le) hQ

omit hm in
lemma rel_zero {g : ℝ} (hg : 1 ≤ g) : Rel g 0 0 0 := ⟨hg, by simp, by simp⟩

/-- A product over a given number. -/
lemma acc_mulDiv {x y z : ℂ} (hz : z ≠ 0) : Rel (τ ^ 2) (‖x‖ * ‖y‖ / ‖z‖) (m.div (m.mul x y) z) (x * y / z) := by
  have h := acc_mul hm.ops (Rel.of_eq x) (Rel.of_eq y)
  have := acc_div hm.ops h hz Near.refl
  simp only [mul_one, one_mul] at this
  exact this.mono (le_of_eq (pow_two τ).symm) le_rfl

/-- The delta matrix. -/
lemma acc_delta (kx : ℂ) (eps : Tensor) (h : eps 2 2 ≠ 0) (i j : Fin 4) :
    Rel (τ ^ 3) (Spec.deltaSize kx eps i j) (m.buildDelta kx eps i j) (buildDelta kx eps i j) := by
  have h1 := acc4_one hm
  have h23 : τ ^ 2 ≤ τ ^ 3 := pow_le_pow_right₀ h1 (by norm_num)
  have h3 : 1 ≤ τ ^ 3 := one_le_pow₀ h1
  have h2 : 1 ≤ τ ^ 2 := one_le_pow₀ h1
  have q : ∀ x y : ℂ, Rel (τ ^ 3) (‖x‖ * ‖y‖ / ‖eps 2 2‖) (m.div (m.mul x y) (eps 2 2)) (x * y / eps 2 2) := fun x y => (acc_mulDiv hm h).mono h23 le_rfl
  have qn : ∀ x y : ℂ, Rel (τ ^ 3) (‖x‖ * ‖y‖ / ‖eps 2 2‖) (m.div (m.mul (-x) y) (eps 2 2)) (-x * y / eps 2 2) := fun x y => by simpa using q (-x) y
  have sq : ∀ z x y : ℂ, Rel (τ ^ 3) (‖z‖ + ‖x‖ * ‖y‖ / ‖eps 2 2‖) (m.add z (-m.div (m.mul x y) (eps 2 2))) (z - x * y / eps 2 2) := fun z x y => by
    rw [sub_eq_add_neg]
    have := acc_add hm.ops ((Rel.of_eq z).mono h2 le_rfl) (acc_mulDiv hm (x := x) (y := y) h).neg
    exact this.mono (by rw [← pow_succ]) le_rfl
  have qs : ∀ z x y : ℂ, Rel (τ ^ 3) (‖x‖ * ‖y‖ / ‖eps 2 2‖ + ‖z‖) (m.add (m.div (m.mul x y) (eps 2 2)) (-z)) (x * y / eps 2 2 - z) := fun z x y => by
    rw [sub_eq_add_neg]
    have := acc_add hm.ops (acc_mulDiv hm (x := x) (y := y) h) ((Rel.of_eq z).neg.mono h2 le_rfl)
    exact this.mono (by rw [← pow_succ]) le_rfl
  have mid : Rel (τ ^ 3) (‖kx‖ ^ 2 + ‖eps 1 1‖ + ‖eps 1 2‖ * ‖eps 2 1‖ / ‖eps 2 2‖)
      (m.add (m.add (m.mul kx kx) (-eps 1 1)) (m.div (m.mul (eps 1 2) (eps 2 1)) (eps 2 2))) (kx ^ 2 - eps 1 1 + eps 1 2 * eps 2 1 / eps 2 2) := by
    have k1 := acc_mul hm.ops (Rel.of_eq kx) (Rel.of_eq kx)
    have k2 := acc_add hm.ops k1 ((Rel.of_eq (eps 1 1)).neg.mono (by linarith : (1 : ℝ) ≤ 1 * 1 * τ) le_rfl)
    have k3 := acc_add hm.ops (k2.mono (by nlinarith : 1 * 1 * τ * τ ≤ τ ^ 2) le_rfl) (acc_mulDiv hm (x := eps 1 2) (y := eps 2 1) h)
    have := k3.mono (by rw [← pow_succ] : τ ^ 2 * τ ≤ τ ^ 3) le_rfl
    rw [pow_two, pow_two, sub_eq_add_neg]
    exact this
  have one : Rel (τ ^ 3) (1 : ℝ) (-1 : ℂ) (-1) := by simpa using (Rel.of_eq (-1 : ℂ)).mono h3 le_rfl
  have s1 := sq 1 kx kx
  rw [norm_one, ← pow_two, ← pow_two] at s1
  have z := rel_zero h3
  fin_cases i <;> fin_cases j <;>
    simp only [Machine4.buildDelta, buildDelta, Spec.deltaSize, Matrix.of_apply, Matrix.cons_val', Matrix.cons_val, Fin.reduceFinMk, Fin.zero_eta, Fin.mk_one, Fin.isValue,
      Matrix.cons_val_zero, Matrix.cons_val_one, Matrix.cons_val_fin_one] <;>
    first | exact z | exact one | exact qn _ _ | exact q _ _ | exact s1 | exact qs _ _ _ | exact mid | exact sq _ _ _

/-- The matrix in the exponent. -/
lemma acc_mats (kx : ℂ) (lbda : ℝ) (hl : lbda ≠ 0) (l : ℝ × Tensor) (h : l.2 2 2 ≠ 0) :
    MatRel (τ ^ 7) (Spec.phase4 kx lbda l) (m.mats (m.buildDelta kx l.2) (-l.1) lbda) ((I * ((-l.1 : ℝ) : ℂ)) • ((wavenumber lbda : ℂ) • buildDelta kx l.2)) := by
  have h1 := acc4_one hm
  obtain ⟨v, hv, ev⟩ := hm.ops.twoPi
  have k0 : Rel (τ ^ 2) (2 * Real.pi / |lbda|) (m.div m.twoPi lbda) (wavenumber lbda : ℂ) := by
    have e1 := Rel.of_mul_near (x := (2 * Real.pi : ℂ)) hv
    rw [← ev] at e1
    have := acc_div hm.ops e1 (ofReal_ne_zero.2 hl) Near.refl
    rw [mul_one, mul_one, ← pow_two] at this
    refine (this.mono le_rfl (le_of_eq ?_)) |> fun q => by simpa [wavenumber] using q
    simp [abs_of_pos Real.pi_pos]
  have key : ∀ i j, Rel (τ ^ 7) (|l.1| * (Spec.deltaSize kx l.2 i j * (2 * Real.pi / |lbda|))) (m.mats (m.buildDelta kx l.2) (-l.1) lbda i j)
      (((I * ((-l.1 : ℝ) : ℂ)) • ((wavenumber lbda : ℂ) • buildDelta kx l.2)) i j) := by
    intro i j
    have k1 := acc_mul hm.ops (acc_delta hm kx l.2 h i j) k0
    have k2 := acc_mul hm.ops (Rel.of_eq (I * ((-l.1 : ℝ) : ℂ))) k1
    have e : (((I * ((-l.1 : ℝ) : ℂ)) • ((wavenumber lbda : ℂ) • buildDelta kx l.2)) i j) = I * ((-l.1 : ℝ) : ℂ) * (buildDelta kx l.2 i j * (wavenumber lbda : ℂ)) := by
      simp only [Matrix.smul_apply, smul_eq_mul]
      ring
    rw [e]
    refine k2.mono (le_of_eq (by ring)) (le_of_eq ?_)
    simp
  have := MatRel.of_entries (S := fun i j => |l.1| * (Spec.deltaSize kx l.2 i j * (2 * Real.pi / |lbda|))) (one_le_pow₀ h1) key
  refine this.mono le_rfl (le_of_eq ?_)
  have e : (fun i j => |l.1| * (Spec.deltaSize kx l.2 i j * (2 * Real.pi / |lbda|)) : Matrix (Fin 4) (Fin 4) ℝ) = (2 * Real.pi / |lbda| * |l.1|) • Spec.deltaSize kx l.2 := by
    ext i j
    simp only [Matrix.smul_apply, smul_eq_mul]
    ring
  rw [e, norm_smul, Real.norm_eq_abs, abs_of_nonneg (by have := Real.pi_pos; positivity)]
  rfl

/-- One layer by `PropagatorExpm`. -/
lemma acc_expm (kx : ℂ) (lbda : ℝ) (hl : lbda ≠ 0) (l : ℝ × Tensor) (h : l.2 2 2 ≠ 0) {p : ℝ}
    (hp : ∀ s ∈ Set.Icc (0 : ℝ) 1, ‖propExpm (buildDelta kx l.2) (-(s * l.1)) lbda‖ ≤ p) :
    MatRel (Real.exp (((1 + η) * τ ^ 7 - 1) * (p * Spec.phase4 kx lbda l))) p (m.propExpm (m.buildDelta kx l.2) (-l.1) lbda) (propExpm (buildDelta kx l.2) (-l.1) lbda) := by
  have h1 : 1 ≤ τ ^ 7 := one_le_pow₀ (acc4_one hm)
  have hη := hm.expm_nonneg
  have hA := acc_mats hm kx lbda hl l h
  set A : Mat4 := (I * ((-l.1 : ℝ) : ℂ)) • ((wavenumber lbda : ℂ) • buildDelta kx l.2) with hAd
  set A' := m.mats (m.buildDelta kx l.2) (-l.1) lbda with hA'
  set f := Spec.phase4 kx lbda l with hf
  have hf0 : 0 ≤ f := hA.size_nonneg
  obtain ⟨E, hE, e⟩ := hm.expm A'
  have hp' : ∀ s ∈ Set.Icc (0 : ℝ) 1, ‖(NormedSpace.exp (s • A) : Mat4)‖ ≤ p := fun s hs => by
    have := hp s hs
    have e2 : propExpm (buildDelta kx l.2) (-(s * l.1)) lbda = NormedSpace.exp (s • A) := by
      unfold propExpm
      congr 1
      ext i j
      simp only [hAd, Matrix.smul_apply, smul_eq_mul, real_smul]
      push_cast
      ring
    rwa [e2] at this
  have hp0 : 0 ≤ p := (norm_nonneg _).trans (hp' 0 ⟨le_rfl, zero_le_one⟩)
  have hE' : ‖(A' - A) + E‖ ≤ ((1 + η) * τ ^ 7 - 1) * f := by
    have k1 := hA.norm_le
    have k2 := hA.2.2
    have k3 := mul_le_mul_of_nonneg_left k1 hη
    have := norm_add_le (A' - A) E
    nlinarith
  have key := exp_perturb A ((A' - A) + E) hp'
  have e3 : A + ((A' - A) + E) = A' + E := by abel
  rw [e3] at key
  refine ⟨?_, by have := hp' 1 ⟨zero_le_one, le_rfl⟩; rwa [one_smul] at this, ?_⟩
  · refine Real.one_le_exp (mul_nonneg ?_ (mul_nonneg hp0 hf0))
    have : 1 ≤ (1 + η) * τ ^ 7 := one_le_mul_of_one_le_of_one_le (by linarith) h1
    linarith
  · have e4 : m.propExpm (m.buildDelta kx l.2) (-l.1) lbda = NormedSpace.exp (A' + E) := e
    have e5 : propExpm (buildDelta kx l.2) (-l.1) lbda = NormedSpace.exp A := rfl
    rw [e4, e5]
    refine key.trans ?_
    rw [mul_comm]
    refine mul_le_mul_of_nonneg_right ?_ hp0
    have : p * ‖(A' - A) + E‖ ≤ ((1 + η) * τ ^ 7 - 1) * (p * f) := by
      have := mul_le_mul_of_nonneg_left hE' hp0
      linarith
    have := Real.exp_le_exp.2 this
    linarith

/-- One layer by `PropagatorLinear`. -/
lemma acc_linear (kx : ℂ) (lbda : ℝ) (hl : lbda ≠ 0) (l : ℝ × Tensor) (h : l.2 2 2 ≠ 0) :
    MatRel (τ ^ 8) (1 + Spec.phase4 kx lbda l) (m.propLinear (m.buildDelta kx l.2) (-l.1) lbda) (propLinear (buildDelta kx l.2) (-l.1) lbda) := by
  have h1 := acc4_one hm
  have hA := acc_mats hm kx lbda hl l h
  have ho : MatRel (τ ^ 7) 1 (1 : Mat4) 1 := ⟨one_le_pow₀ h1, by rw [norm_one], by simpa using one_le_pow₀ h1⟩
  have hs : MatRel (τ ^ 7) (1 + Spec.phase4 kx lbda l) (1 + m.mats (m.buildDelta kx l.2) (-l.1) lbda) (propLinear (buildDelta kx l.2) (-l.1) lbda) := by
    refine ⟨ho.1, (norm_add_le _ _).trans (add_le_add ho.2.1 hA.2.1), ?_⟩
    unfold propLinear
    rw [add_sub_add_left_eq_sub]
    refine hA.2.2.trans (mul_le_mul_of_nonneg_left (by linarith) (by linarith [ho.1]))
  have := hs.further h1 (A'' := m.propLinear (m.buildDelta kx l.2) (-l.1) lbda) ?_
  · rwa [← pow_succ] at this
  · have hn := hs.norm_le
    refine le_trans ?_ (mul_le_mul_of_nonneg_left hn (by linarith))
    refine (norm_le_iff (mul_nonneg (by linarith) (norm_nonneg _))).2 fun i => ?_
    refine le_trans (Finset.sum_le_sum fun j _ => ?_) (le_trans (le_of_eq (Finset.mul_sum _ _ _).symm) (mul_le_mul_of_nonneg_left (row_le _ i) (by linarith)))
    obtain ⟨w, hw, e⟩ := hm.ops.add ((1 : Mat4) i j) (m.mats (m.buildDelta kx l.2) (-l.1) lbda i j)
    rw [Matrix.sub_apply, Matrix.add_apply]
    change ‖m.add ((1 : Mat4) i j) (m.mats (m.buildDelta kx l.2) (-l.1) lbda i j) - _‖ ≤ _
    rw [e]
    have e2 : ((1 : Mat4) i j + m.mats (m.buildDelta kx l.2) (-l.1) lbda i j) * w - ((1 : Mat4) i j + m.mats (m.buildDelta kx l.2) (-l.1) lbda i j) =
      (w - 1) * ((1 : Mat4) i j + m.mats (m.buildDelta kx l.2) (-l.1) lbda i j) := by ring
    rw [e2, norm_mul]
    exact mul_le_mul_of_nonneg_right hw.2.1 (norm_nonneg _)

/-- The exit matrix. -/
lemma acc_exit (back : (ℂ × ℂ) ⊕ Mat4) : MatRel τ ‖exitOf back‖ (m.exit back) (exitOf back) := by
  have h1 := acc4_one hm
  rcases back with ⟨n, c⟩ | L
  · refine MatRel.of_entries' h1 fun i j => ?_
    have e : ∀ x : ℂ, Rel τ ‖x‖ x x := fun x => (Rel.of_eq x).mono h1 le_rfl
    have k : ∀ x y : ℂ, Rel τ ‖x * y‖ (m.mul x y) (x * y) := fun x y => by
      obtain ⟨w, hw, ew⟩ := hm.ops.mul x y
      rw [ew]
      exact Rel.of_mul_near hw
    fin_cases i <;> fin_cases j <;>
      simp only [Machine4.exit, Machine4.isoHalf, exitOf, isoHalfOf, Matrix.of_apply, Matrix.cons_val', Matrix.cons_val, Fin.reduceFinMk, Fin.zero_eta, Fin.mk_one, Fin.isValue,
        Matrix.cons_val_zero, Matrix.cons_val_one, Matrix.cons_val_fin_one] <;>
      first | exact e _ | exact k _ _
  · exact ⟨h1, le_rfl, by simp only [Machine4.exit, exitOf, sub_self, norm_zero]; exact mul_nonneg (by linarith) (norm_nonneg _)⟩

/-- The matrix of the incident side. -/
lemma acc_front {n c : ℂ} (hn : n ≠ 0) (hc : c ≠ 0) : MatRel (τ ^ 3) ‖isoHalfInvOf n c‖ (m.isoHalfInv n c) (isoHalfInvOf n c) := by
  have h1 := acc4_one hm
  refine MatRel.of_entries' (one_le_pow₀ h1) fun i j => ?_
  have half : ∀ {g : ℝ} {x' x : ℂ}, g ≤ τ ^ 2 → Rel g ‖x‖ x' x → Rel (τ ^ 3) ‖(0.5 : ℂ) * x‖ (m.mul 0.5 x') (0.5 * x) := fun hg h => by
    have := acc_mul hm.ops (Rel.of_eq (0.5 : ℂ)) h
    rw [norm_mul]
    refine this.mono ?_ le_rfl
    rw [one_mul, pow_succ]
    exact mul_le_mul_of_nonneg_right hg (by linarith)
  have q1 : ∀ x y : ℂ, y ≠ 0 → Rel τ ‖x / y‖ (m.div x y) (x / y) := fun x y hy => by
    obtain ⟨w, hw, ew⟩ := hm.ops.div x y hy
    rw [ew]
    exact Rel.of_mul_near hw
  have q2 : ∀ x : ℂ, Rel (τ ^ 2) ‖x / c / n‖ (m.div (m.div x c) n) (x / c / n) := fun x => by
    have := acc_div hm.ops (q1 x c hc) hn Near.refl
    simp only [mul_one] at this
    rw [← pow_two] at this
    rwa [norm_div (x / c)]
  have o : ∀ x : ℂ, Rel 1 ‖x‖ x x := Rel.of_eq
  have a1 : 1 ≤ τ ^ 2 := one_le_pow₀ h1
  have a2 : τ ≤ τ ^ 2 := by nlinarith
  fin_cases i <;> fin_cases j <;>
    simp only [Machine4.isoHalfInv, isoHalfInvOf, Matrix.smul_apply, smul_eq_mul, Matrix.of_apply, Matrix.cons_val', Matrix.cons_val, Fin.reduceFinMk, Fin.zero_eta, Fin.mk_one, Fin.isValue,
      Matrix.cons_val_zero, Matrix.cons_val_one, Matrix.cons_val_fin_one] <;>
    first | exact half a1 (o _) | exact half a2 (q1 _ _ hc) | exact half a2 (q1 _ _ hn) | exact half le_rfl (q2 _)

/-- The loop over the layers. -/
lemma acc4_loop {prop' prop : Propagator} (kx : ℂ) (lbda : ℝ) (g p : ℝ × Tensor → ℝ) {L L' : Mat4} {a P : ℝ} (hL : MatRel a P L' L) :
    ∀ layers : List (ℝ × Tensor), (∀ l ∈ layers, MatRel (g l) (p l) (prop' (m.buildDelta kx l.2) (-l.1) lbda) (prop (buildDelta kx l.2) (-l.1) lbda)) →
      MatRel ((layers.map g).prod * τ ^ (4 * layers.length) * a) ((layers.map p).prod * P) (m.loop prop' kx lbda layers L') (loop4x4 prop kx lbda layers L)
  | [], _ => by simpa [Machine4.loop, loop4x4] using hL
  | l :: rest, h => by
    have ih := acc4_loop kx lbda g p hL rest fun x hx => h x (List.mem_cons_of_mem _ hx)
    have hl := h l List.mem_cons_self
    have := acc4_matMul hm hl ih
    have e : loop4x4 prop kx lbda (l :: rest) L = prop (buildDelta kx l.2) (-l.1) lbda * loop4x4 prop kx lbda rest L := by
      simp [loop4x4, List.foldl_append]
    rw [e]
    refine MatRel.mono this (le_of_eq ?_) (le_of_eq ?_)
    · simp only [List.map_cons, List.prod_cons, List.length_cons]
      ring
    · simp only [List.map_cons, List.prod_cons]
      ring

omit hm in
lemma tIt_le (M : Mat4) : ‖tIt M‖ ≤ ‖M‖ := by
  refine (norm_le_iff (norm_nonneg _)).2 fun i => ?_
  have r2 := row_le M 2
  have r0 := row_le M 0
  have n2 : ∀ j, 0 ≤ ‖M 2 j‖ := fun j => norm_nonneg _
  have n0 : ∀ j, 0 ≤ ‖M 0 j‖ := fun j => norm_nonneg _
  simp only [Fin.sum_univ_four] at r2 r0
  fin_cases i
  · simp [tIt, Fin.sum_univ_two]; linarith [n2 1, n2 3]
  · simp [tIt, Fin.sum_univ_two]; linarith [n0 1, n0 3]

omit hm in
lemma tRt_le (M : Mat4) : ‖tRt M‖ ≤ ‖M‖ := by
  refine (norm_le_iff (norm_nonneg _)).2 fun i => ?_
  have r2 := row_le M 3
  have r0 := row_le M 1
  have n2 : ∀ j, 0 ≤ ‖M 3 j‖ := fun j => norm_nonneg _
  have n0 : ∀ j, 0 ≤ ‖M 1 j‖ := fun j => norm_nonneg _
  simp only [Fin.sum_univ_four] at r2 r0
  fin_cases i
  · simp [tRt, Fin.sum_univ_two]; linarith [n2 1, n2 3]
  · simp [tRt, Fin.sum_univ_two]; linarith [n0 1, n0 3]

omit hm in
lemma MatRel.tIt {g P : ℝ} {M' M : Mat4} (h : MatRel g P M' M) : MatRel g P (tIt M') (tIt M) := by
  refine ⟨h.1, (tIt_le M).trans h.2.1, ?_⟩
  have e : PyElli.tIt M' - PyElli.tIt M = PyElli.tIt (M' - M) := by ext i j; fin_cases i <;> fin_cases j <;> rfl
  rw [e]
  exact (tIt_le _).trans h.2.2

omit hm in
lemma MatRel.tRt {g P : ℝ} {M' M : Mat4} (h : MatRel g P M' M) : MatRel g P (tRt M') (tRt M) := by
  refine ⟨h.1, (tRt_le M).trans h.2.1, ?_⟩
  have e : PyElli.tRt M' - PyElli.tRt M = PyElli.tRt (M' - M) := by ext i j; fin_cases i <;> fin_cases j <;> rfl
  rw [e]
  exact (tRt_le _).trans h.2.2

omit hm in
/-- A matrix close to an invertible one is invertible, and its inverse is not much larger. -/
lemma inv_close {A A' : Mat2} (hA : A.det ≠ 0) {q : ℝ} (hq : ‖A' - A‖ * ‖A⁻¹‖ ≤ q) (hq1 : q < 1) : A'.det ≠ 0 ∧ ‖A'⁻¹‖ * (1 - q) ≤ ‖A⁻¹‖ := by
  have hu : IsUnit A.det := isUnit_iff_ne_zero.2 hA
  have hdet : A'.det ≠ 0 := by
    intro h0
    obtain ⟨v, hv, e⟩ := Matrix.exists_mulVec_eq_zero_iff.2 h0
    have e1 : v = A⁻¹ *ᵥ ((A - A') *ᵥ v) := by
      rw [Matrix.sub_mulVec, e, sub_zero, Matrix.mulVec_mulVec, Matrix.nonsing_inv_mul _ hu, Matrix.one_mulVec]
    have h1 := Matrix.linfty_opNorm_mulVec A⁻¹ ((A - A') *ᵥ v)
    rw [← e1] at h1
    have h2 := Matrix.linfty_opNorm_mulVec (A - A') v
    rw [norm_sub_rev] at h2
    have h3 := mul_le_mul_of_nonneg_left h2 (norm_nonneg A⁻¹)
    have hpos : 0 < ‖v‖ := norm_pos_iff.2 hv
    nlinarith
  refine ⟨hdet, ?_⟩
  have hu' : IsUnit A'.det := isUnit_iff_ne_zero.2 hdet
  have e : A'⁻¹ = A⁻¹ + A⁻¹ * (A - A') * A'⁻¹ := by
    rw [mul_sub, sub_mul, Matrix.nonsing_inv_mul _ hu, mul_assoc, Matrix.mul_nonsing_inv _ hu', one_mul, mul_one]
    abel
  have h1 : ‖A'⁻¹‖ ≤ ‖A⁻¹‖ + ‖A⁻¹‖ * ‖A' - A‖ * ‖A'⁻¹‖ := by
    have := norm_add_le A⁻¹ (A⁻¹ * (A - A') * A'⁻¹)
    rw [← e] at this
    refine this.trans (add_le_add le_rfl ((norm_mul_le _ _).trans (mul_le_mul_of_nonneg_right ((norm_mul_le _ _).trans ?_) (norm_nonneg _))))
    rw [norm_sub_rev]
  have := mul_le_mul_of_nonneg_right hq (norm_nonneg A'⁻¹)
  nlinarith

/-- The Jones matrices from the transfer matrix. -/
lemma acc_jones {G P : ℝ} {M' M : Mat4} (h : MatRel G P M' M) (hdet : (tIt M).det ≠ 0) {K H : ℝ} (hK : K = P * ‖(tIt M)⁻¹‖)
    (hH : H = (G * (1 + θ) - 1) * K) (hH1 : H < 1) :
    ∃ r t : Mat2, (m.inv (tIt M')).map (fun X => (m.matMul (tRt M') X, X)) = some (r, t) ∧
      ‖r - tRt M * (tIt M)⁻¹‖ ≤ (G * τ ^ 2 / (1 - H) - 1) * K ∧ ‖t - (tIt M)⁻¹‖ ≤ H / (1 - H) * ‖(tIt M)⁻¹‖ := by
  have hθ := hm.inv_nonneg
  have hA := h.tIt
  have hB := h.tRt
  have hG := h.1
  have hP0 := h.size_nonneg
  set A := tIt M with hAd
  set A' := tIt M' with hA'd
  set T := ‖A⁻¹‖ with hT
  have hT0 : 0 ≤ T := norm_nonneg _
  have hK0 : 0 ≤ K := by rw [hK]; positivity
  have hq : ‖A' - A‖ * T ≤ (G - 1) * K := by
    rw [hK, ← mul_assoc]
    exact mul_le_mul_of_nonneg_right hA.2.2 hT0
  have hGK : (G - 1) * K ≤ H := by
    rw [hH]
    exact mul_le_mul_of_nonneg_right (by nlinarith) hK0
  obtain ⟨hd', hi'⟩ := inv_close hdet hq (hGK.trans_lt hH1)
  have hn := hA.norm_le
  have hcond : θ * (‖A'‖ * ‖A'⁻¹‖) < 1 := by
    have hpos : 0 < 1 - (G - 1) * K := by linarith
    have h1 : ‖A'‖ * ‖A'⁻¹‖ * (1 - (G - 1) * K) ≤ G * K := by
      have := mul_le_mul hn hi' (mul_nonneg (norm_nonneg _) hpos.le) (by positivity)
      rw [hK] at *
      linarith
    have h2 := mul_le_mul_of_nonneg_left h1 hθ
    have h3 : θ * (G * K) < 1 - (G - 1) * K := by
      rw [hH] at hH1
      nlinarith
    by_contra hc
    push Not at hc
    nlinarith
  obtain ⟨X, hX, hres⟩ := hm.inv A' hd' hcond
  have hu : IsUnit A.det := isUnit_iff_ne_zero.2 hdet
  have hdiff : ‖X - A⁻¹‖ ≤ H * ‖X‖ := by
    have e : X - A⁻¹ = A⁻¹ * ((A' * X - 1) + (A - A') * X) := by
      rw [sub_mul, mul_add, mul_sub, mul_sub, ← mul_assoc A⁻¹ A X, Matrix.nonsing_inv_mul _ hu, one_mul, mul_one]
      abel
    have h1 : ‖(A' * X - 1) + (A - A') * X‖ ≤ (G * (1 + θ) - 1) * P * ‖X‖ := by
      refine (norm_add_le _ _).trans ?_
      have k1 : ‖(A - A') * X‖ ≤ (G - 1) * P * ‖X‖ := by
        refine (norm_mul_le _ _).trans (mul_le_mul_of_nonneg_right ?_ (norm_nonneg _))
        rw [norm_sub_rev]
        exact hA.2.2
      have k2 : θ * (‖A'‖ * ‖X‖) ≤ θ * (G * P * ‖X‖) := mul_le_mul_of_nonneg_left (mul_le_mul_of_nonneg_right hn (norm_nonneg _)) hθ
      nlinarith
    rw [e]
    refine (norm_mul_le _ _).trans ((mul_le_mul_of_nonneg_left h1 hT0).trans (le_of_eq ?_))
    rw [hH, hK]
    ring
  have hpos : 0 < 1 - H := by linarith
  have hXn : ‖X‖ ≤ T / (1 - H) := by
    rw [le_div_iff₀ hpos]
    have := norm_add_le (X - A⁻¹) A⁻¹
    rw [sub_add_cancel] at this
    linarith
  have hH0 : 0 ≤ H := (mul_nonneg (by linarith) hK0).trans hGK
  have ht : ‖X - A⁻¹‖ ≤ H / (1 - H) * T := by
    refine hdiff.trans ((mul_le_mul_of_nonneg_left hXn hH0).trans (le_of_eq ?_))
    ring
  have hXr : MatRel (1 / (1 - H)) T X A⁻¹ := by
    refine ⟨?_, le_rfl, ht.trans (le_of_eq ?_)⟩
    · rw [le_div_iff₀ hpos]; linarith
    · congr 1
      field_simp
      ring
  have hr := acc4_matMul hm hB hXr
  refine ⟨m.matMul (tRt M') X, X, by rw [hX]; rfl, ?_, ht⟩
  refine hr.2.2.trans (le_of_eq ?_)
  rw [hK]
  congr 2
  ring

end Stages

/-! ## The properties -/

/-- **C143.** The exact results that the computed ones are compared with are those of `Solver4x4.calculate`. -/
theorem C143_exact (prop : Propagator) (s : Stack) (theta lbda : ℝ) (ee : (Fin 4 → ℂ) × Mat4) :
    let M := transferOf prop (kxOf s theta) lbda (nOf s.front, cosPhi (kxOf s theta) s.front) s.layers
      (if s.backIsotropic then .inl (nOf s.back, cosPhi (kxOf s theta) s.back) else .inr (eigHalf ee.1 ee.2))
    (calculate4x4 prop s theta lbda ee).jr = tRt M * (tIt M)⁻¹ ∧ (calculate4x4 prop s theta lbda ee).jt = (tIt M)⁻¹ := by
  have e : transferOf prop (kxOf s theta) lbda (nOf s.front, cosPhi (kxOf s theta) s.front) s.layers
      (if s.backIsotropic then .inl (nOf s.back, cosPhi (kxOf s theta) s.back) else .inr (eigHalf ee.1 ee.2)) = transfer4x4 prop s theta lbda ee := by
    unfold transferOf transfer4x4 exitMatrix
    cases s.backIsotropic <;> rfl
  dsimp only
  rw [e]
  exact ⟨rfl, rfl⟩

/-- **C143.** `PropagatorExpm`: the computed Jones matrices of any stack differ from the exact ones by the growth of the rounding errors times the conditioning of the stack. -/
theorem C143_expm {m : Machine4} {τ η θ : ℝ} (hm : Accurate4 m τ η θ) (kx : ℂ) {lbda : ℝ} (hl : lbda ≠ 0) (front : ℂ × ℂ) (hn : front.1 ≠ 0) (hc : front.2 ≠ 0)
    (layers : List (ℝ × Tensor)) (h22 : ∀ l ∈ layers, l.2 2 2 ≠ 0) (back : (ℂ × ℂ) ⊕ Mat4) (p : ℝ × Tensor → ℝ)
    (hp : ∀ l ∈ layers, ∀ s ∈ Set.Icc (0 : ℝ) 1, ‖propExpm (buildDelta kx l.2) (-(s * l.1)) lbda‖ ≤ p l)
    (M : Mat4) (hM : M = transferOf propExpm kx lbda front layers back) (hdet : (tIt M).det ≠ 0) (G K H : ℝ)
    (hG : G = τ ^ (4 * (layers.length + 2)) * Real.exp (((1 + η) * τ ^ 7 - 1) * (layers.map fun l => p l * Spec.phase4 kx lbda l).sum))
    (hK : K = ‖isoHalfInvOf front.1 front.2‖ * (layers.map p).prod * ‖exitOf back‖ * ‖(tIt M)⁻¹‖) (hH : H = (G * (1 + θ) - 1) * K) (hH1 : H < 1) :
    ∃ r t : Mat2, m.jones m.propExpm kx lbda front layers back = some (r, t) ∧
      ‖r - tRt M * (tIt M)⁻¹‖ ≤ (G * τ ^ 2 / (1 - H) - 1) * K ∧ ‖t - (tIt M)⁻¹‖ ≤ H / (1 - H) * ‖(tIt M)⁻¹‖ := by
  have hloop := acc4_loop hm (prop' := m.propExpm) (prop := propExpm) kx lbda _ p (acc_exit hm back) layers fun l hl' => acc_expm hm kx lbda hl l (h22 l hl') (hp l hl')
  have h := acc4_matMul hm (acc_front hm hn hc) hloop
  have hprod : (layers.map fun l => Real.exp (((1 + η) * τ ^ 7 - 1) * (p l * Spec.phase4 kx lbda l))).prod =
      Real.exp (((1 + η) * τ ^ 7 - 1) * (layers.map fun l => p l * Spec.phase4 kx lbda l).sum) := by
    clear * -
    induction layers with
    | nil => simp
    | cons l rest ih => simp only [List.map_cons, List.prod_cons, List.sum_cons, ih, mul_add, Real.exp_add]
  rw [hprod] at h
  have h' : MatRel G (‖isoHalfInvOf front.1 front.2‖ * (layers.map p).prod * ‖exitOf back‖) (m.transfer m.propExpm kx lbda front layers back) M := by
    rw [hM]
    refine MatRel.mono h (le_of_eq ?_) (le_of_eq ?_)
    · rw [hG]; ring
    · ring
  exact acc_jones hm h' hdet hK hH hH1

/-- **C143.** `PropagatorLinear`: the same, with the size `1 + phase` of each layer. -/
theorem C143_linear {m : Machine4} {τ η θ : ℝ} (hm : Accurate4 m τ η θ) (kx : ℂ) {lbda : ℝ} (hl : lbda ≠ 0) (front : ℂ × ℂ) (hn : front.1 ≠ 0) (hc : front.2 ≠ 0)
    (layers : List (ℝ × Tensor)) (h22 : ∀ l ∈ layers, l.2 2 2 ≠ 0) (back : (ℂ × ℂ) ⊕ Mat4)
    (M : Mat4) (hM : M = transferOf propLinear kx lbda front layers back) (hdet : (tIt M).det ≠ 0) (G K H : ℝ)
    (hG : G = τ ^ (12 * layers.length + 8))
    (hK : K = ‖isoHalfInvOf front.1 front.2‖ * (layers.map fun l => 1 + Spec.phase4 kx lbda l).prod * ‖exitOf back‖ * ‖(tIt M)⁻¹‖)
    (hH : H = (G * (1 + θ) - 1) * K) (hH1 : H < 1) :
    ∃ r t : Mat2, m.jones m.propLinear kx lbda front layers back = some (r, t) ∧
      ‖r - tRt M * (tIt M)⁻¹‖ ≤ (G * τ ^ 2 / (1 - H) - 1) * K ∧ ‖t - (tIt M)⁻¹‖ ≤ H / (1 - H) * ‖(tIt M)⁻¹‖ := by
  have hloop := acc4_loop hm (prop' := m.propLinear) (prop := propLinear) kx lbda _ _ (acc_exit hm back) layers fun l hl' => acc_linear hm kx lbda hl l (h22 l hl')
  have h := acc4_matMul hm (acc_front hm hn hc) hloop
  have h' : MatRel G (‖isoHalfInvOf front.1 front.2‖ * (layers.map fun l => 1 + Spec.phase4 kx lbda l).prod * ‖exitOf back‖)
      (m.transfer m.propLinear kx lbda front layers back) M := by
    rw [hM]
    refine MatRel.mono h (le_of_eq ?_) (le_of_eq ?_)
    · rw [hG, List.map_const', List.prod_replicate]
      ring
    · ring
  exact acc_jones hm h' hdet hK hH hH1

end PyElli
