import Verif.Props.RoundedSolver4
import Verif.Props.RoundedSolverDouble
import Verif.Lemmas.MatExp
import Verif.Lemmas.Maxwell
import Mathlib.Analysis.Complex.ExponentialBounds

/-! # Rounding errors of `Solver4x4` in double precision -/

namespace PyElli

open Matrix Complex
open scoped Matrix.Norms.Operator

lemma diagonal_norm_le {n : ℕ} {v : Fin n → ℂ} {r : ℝ} (hr : 0 ≤ r) (h : ∀ i, ‖v i‖ ≤ r) : ‖(Matrix.diagonal v : Matrix (Fin n) (Fin n) ℂ)‖ ≤ r := by
  refine (norm_le_iff hr).2 fun i => ?_
  rw [Finset.sum_eq_single i]
  · rw [Matrix.diagonal_apply_eq]; exact h i
  · intro j _ hj
    rw [Matrix.diagonal_apply_ne' _ hj, norm_zero]
  · simp

lemma deltaSize_entry (kx : ℂ) (eps : Tensor) (i j : Fin 4) : ‖buildDelta kx eps i j‖ ≤ Spec.deltaSize kx eps i j := by
  have t : ∀ a b : ℂ, ‖a - b‖ ≤ ‖a‖ + ‖b‖ := norm_sub_le
  fin_cases i <;> fin_cases j <;>
    simp only [buildDelta, Spec.deltaSize, Matrix.of_apply, Matrix.cons_val', Matrix.cons_val, Fin.reduceFinMk, Fin.zero_eta, Fin.mk_one, Fin.isValue,
      Matrix.cons_val_zero, Matrix.cons_val_one, Matrix.cons_val_fin_one, norm_div, norm_mul, norm_neg, norm_zero, norm_one, le_refl]
  · refine (t _ _).trans (le_of_eq ?_); simp
  · refine (t _ _).trans (le_of_eq ?_); simp
  · refine (norm_add_le _ _).trans (add_le_add ((t _ _).trans (le_of_eq ?_)) (le_of_eq ?_)) <;> simp
  · refine (t _ _).trans (le_of_eq ?_); simp
  · refine (t _ _).trans (le_of_eq ?_); simp

lemma delta_norm_le (kx : ℂ) (eps : Tensor) : ‖buildDelta kx eps‖ ≤ ‖Spec.deltaSize kx eps‖ :=
  (norm_le_iff (norm_nonneg _)).2 fun i => (Finset.sum_le_sum fun j _ => (deltaSize_entry kx eps i j).trans (le_abs_self _)).trans (row_le_real _ i)

lemma phase4_nonneg (kx : ℂ) (lbda : ℝ) (l : ℝ × Tensor) : 0 ≤ Spec.phase4 kx lbda l := by
  unfold Spec.phase4
  have := Real.pi_pos
  positivity

lemma exp_norm_le (A : Mat4) : ‖(NormedSpace.exp A : Mat4)‖ ≤ Real.exp ‖A‖ := by
  have h := exp_perturb (0 : Mat4) A (p := 1) fun s _ => by rw [smul_zero, NormedSpace.exp_zero, norm_one]
  rw [zero_add, NormedSpace.exp_zero, one_mul, one_mul] at h
  have := norm_add_le ((NormedSpace.exp A : Mat4) - 1) 1
  rw [sub_add_cancel, norm_one] at this
  have h' : ‖(NormedSpace.exp A : Mat4) - 1‖ ≤ Real.exp ‖A‖ - 1 := h
  linarith

/-- **C143.** The sizes that `C143_expm` asks for exist: the exponential of the phase always will do, and for a layer with independent eigenwaves the
conditioning of these waves, times the growth of the fastest growing one; for transparent layers without evanescent waves that is the conditioning alone. -/
theorem C143_sizes (kx : ℂ) (lbda : ℝ) (l : ℝ × Tensor) :
    (∀ s ∈ Set.Icc (0 : ℝ) 1, ‖propExpm (buildDelta kx l.2) (-(s * l.1)) lbda‖ ≤ Real.exp (Spec.phase4 kx lbda l)) ∧
    ∀ (W : Mat4) (q : Fin 4 → ℂ) (g : ℝ), IsUnit W → buildDelta kx l.2 = W * Matrix.diagonal q * W⁻¹ → 0 ≤ g → (∀ i, 2 * Real.pi / lbda * l.1 * (q i).im ≤ g) →
      ∀ s ∈ Set.Icc (0 : ℝ) 1, ‖propExpm (buildDelta kx l.2) (-(s * l.1)) lbda‖ ≤ ‖W‖ * ‖W⁻¹‖ * Real.exp g := by
  have e : ∀ s : ℝ, propExpm (buildDelta kx l.2) (-(s * l.1)) lbda = NormedSpace.exp ((I * ((-(s * l.1) : ℝ) : ℂ) * (wavenumber lbda : ℂ)) • buildDelta kx l.2) := fun s => by
    unfold propExpm
    rw [smul_smul]
  constructor
  · intro s hs
    rw [e]
    have h1 : ‖(I * ((-(s * l.1) : ℝ) : ℂ) * (wavenumber lbda : ℂ)) • buildDelta kx l.2‖ ≤ Spec.phase4 kx lbda l := by
      rw [norm_smul, norm_mul, norm_mul, norm_I, one_mul, norm_real, norm_real, Real.norm_eq_abs, Real.norm_eq_abs, abs_neg, abs_mul, abs_of_nonneg hs.1]
      have hw : |wavenumber lbda| = 2 * Real.pi / |lbda| := by
        unfold wavenumber
        rw [abs_div, abs_of_pos (by have := Real.pi_pos; positivity)]
      rw [hw]
      unfold Spec.phase4
      have hpi := Real.pi_pos
      have h2 := delta_norm_le kx l.2
      have h3 : s * |l.1| * (2 * Real.pi / |lbda|) ≤ 2 * Real.pi / |lbda| * |l.1| := by
        have : 0 ≤ |l.1| * (2 * Real.pi / |lbda|) := by positivity
        nlinarith [hs.2]
      exact mul_le_mul h3 h2 (norm_nonneg _) (by positivity)
    exact (exp_norm_le _).trans (Real.exp_le_exp.2 h1)
  · intro W q g hW hd hg hq s hs
    rw [e, hd, exp_diag_conj W q hW]
    have hdg : ‖(Matrix.diagonal fun i => Complex.exp (I * ((-(s * l.1) : ℝ) : ℂ) * (wavenumber lbda : ℂ) * q i) : Mat4)‖ ≤ Real.exp g := by
      refine diagonal_norm_le (Real.exp_pos _).le fun i => ?_
      rw [Complex.norm_exp]
      refine Real.exp_le_exp.2 ?_
      have h1 : (I * ((-(s * l.1) : ℝ) : ℂ) * (wavenumber lbda : ℂ) * q i).re = s * (2 * Real.pi / lbda * l.1 * (q i).im) := by
        rw [show I * ((-(s * l.1) : ℝ) : ℂ) * (wavenumber lbda : ℂ) * q i = ((s * l.1 * wavenumber lbda : ℝ) : ℂ) * (-(I * q i)) by push_cast; ring, re_ofReal_mul]
        simp [wavenumber]
        ring
      rw [h1]
      nlinarith [hq i, hs.1, hs.2]
    refine (norm_mul_le _ _).trans ((mul_le_mul_of_nonneg_right ((norm_mul_le _ _).trans (mul_le_mul_of_nonneg_left hdg (norm_nonneg _))) (norm_nonneg _)).trans (le_of_eq ?_))
    ring

lemma exp_sub_one_le {x : ℝ} (h0 : 0 ≤ x) (h1 : x ≤ 1 / 6) : Real.exp x - 1 ≤ 6 / 5 * x := by
  have h := Real.exp_bound_div_one_sub_of_interval h0 (by linarith : x < 1)
  have h2 : 1 / (1 - x) ≤ 1 + 6 / 5 * x := by
    rw [div_le_iff₀ (by linarith)]
    nlinarith
  linarith

/-- **C143.** To first order: with operations and routines accurate to `u`, the error is `u` times the number of operations on the way of the light, times the conditioning. -/
theorem C143_first_order {m : Machine4} {τ η θ u : ℝ} (hm : Accurate4 m τ η θ) (hτ : τ ≤ 1 + u) (hη : η ≤ u) (hθ : θ ≤ u) (kx : ℂ) {lbda : ℝ} (hl : lbda ≠ 0)
    (front : ℂ × ℂ) (hn : front.1 ≠ 0) (hc : front.2 ≠ 0) (layers : List (ℝ × Tensor)) (h22 : ∀ l ∈ layers, l.2 2 2 ≠ 0) (back : (ℂ × ℂ) ⊕ Mat4) (p : ℝ × Tensor → ℝ)
    (hp : ∀ l ∈ layers, ∀ s ∈ Set.Icc (0 : ℝ) 1, ‖propExpm (buildDelta kx l.2) (-(s * l.1)) lbda‖ ≤ p l)
    (M : Mat4) (hM : M = transferOf propExpm kx lbda front layers back) (hdet : (tIt M).det ≠ 0) (e K : ℝ)
    (he : e = u * (4 * layers.length + 9 + 10 * (layers.map fun l => p l * Spec.phase4 kx lbda l).sum)) (he8 : e ≤ 1 / 8)
    (hK : K = ‖isoHalfInvOf front.1 front.2‖ * (layers.map p).prod * ‖exitOf back‖ * ‖(tIt M)⁻¹‖) (heK : 4 * e * K ≤ 1) :
    ∃ r t : Mat2, m.jones m.propExpm kx lbda front layers back = some (r, t) ∧
      ‖r - tRt M * (tIt M)⁻¹‖ ≤ 3 * e * (1 + K) * K ∧ ‖t - (tIt M)⁻¹‖ ≤ 2 * e * K * ‖(tIt M)⁻¹‖ := by
  have hτ1 := acc4_one hm
  have hu0 : 0 ≤ u := by linarith
  have hη0 := hm.expm_nonneg
  have hθ0 := hm.inv_nonneg
  set Φ := (layers.map fun l => p l * Spec.phase4 kx lbda l).sum with hΦ
  have hp0 : ∀ l ∈ layers, 0 ≤ p l := fun l hl' => (norm_nonneg _).trans (hp l hl' 0 ⟨le_rfl, zero_le_one⟩)
  have hΦ0 : 0 ≤ Φ := List.sum_nonneg fun x hx => by
    obtain ⟨l, hl', rfl⟩ := List.mem_map.1 hx
    exact mul_nonneg (hp0 l hl') (phase4_nonneg _ _ _)
  have hK0 : 0 ≤ K := by
    rw [hK]
    have : 0 ≤ (layers.map p).prod := List.prod_nonneg fun x hx => by
      obtain ⟨l, hl', rfl⟩ := List.mem_map.1 hx
      exact hp0 l hl'
    positivity
  have hlen : (0 : ℝ) ≤ layers.length := Nat.cast_nonneg _
  have hu9 : 9 * u ≤ e := by rw [he]; nlinarith
  have hu72 : u ≤ 1 / 72 := by linarith
  have hτe : τ ≤ Real.exp u := hτ.trans (by linarith [Real.add_one_le_exp u])
  have hpow : ∀ k : ℕ, τ ^ k ≤ Real.exp (k * u) := fun k => by
    rw [Real.exp_nat_mul]
    exact pow_le_pow_left₀ (by linarith) hτe k
  have h8 : (1 + η) * τ ^ 7 - 1 ≤ 10 * u := by
    have h1 : (1 + η) * τ ^ 7 ≤ Real.exp u * Real.exp (7 * u) :=
      mul_le_mul (by linarith [Real.add_one_le_exp u]) (by simpa using hpow 7) (by positivity) (Real.exp_pos _).le
    rw [← Real.exp_add] at h1
    have := exp_sub_one_le (x := u + 7 * u) (by linarith) (by linarith)
    linarith
  set G := τ ^ (4 * (layers.length + 2)) * Real.exp (((1 + η) * τ ^ 7 - 1) * Φ) with hG
  have hGe : G ≤ Real.exp (e - u) := by
    have h1 := hpow (4 * (layers.length + 2))
    have h2 : Real.exp (((1 + η) * τ ^ 7 - 1) * Φ) ≤ Real.exp (10 * u * Φ) := Real.exp_le_exp.2 (mul_le_mul_of_nonneg_right h8 hΦ0)
    rw [hG]
    refine (mul_le_mul h1 h2 (Real.exp_pos _).le (Real.exp_pos _).le).trans ?_
    rw [← Real.exp_add]
    refine Real.exp_le_exp.2 ?_
    rw [he]
    push_cast
    nlinarith
  have hG1 : 1 ≤ G := by
    refine one_le_mul_of_one_le_of_one_le (one_le_pow₀ hτ1) (Real.one_le_exp (mul_nonneg ?_ hΦ0))
    have : 1 ≤ (1 + η) * τ ^ 7 := one_le_mul_of_one_le_of_one_le (by linarith) (one_le_pow₀ hτ1)
    linarith
  have hGθ : G * (1 + θ) - 1 ≤ 6 / 5 * e := by
    have h1 : G * (1 + θ) ≤ Real.exp (e - u) * Real.exp u :=
      mul_le_mul hGe (by linarith [Real.add_one_le_exp u]) (by linarith) (Real.exp_pos _).le
    rw [← Real.exp_add, sub_add_cancel] at h1
    have := exp_sub_one_le (x := e) (by linarith) (by linarith)
    linarith
  have hGτ : G * τ ^ 2 - 1 ≤ 4 / 3 * e := by
    have h1 : G * τ ^ 2 ≤ Real.exp (e - u) * Real.exp (2 * u) := mul_le_mul hGe (by simpa using hpow 2) (by positivity) (Real.exp_pos _).le
    rw [← Real.exp_add] at h1
    have := exp_sub_one_le (x := e - u + 2 * u) (by linarith) (by linarith)
    linarith
  set H := (G * (1 + θ) - 1) * K with hH
  have hHe : H ≤ 6 / 5 * e * K := mul_le_mul_of_nonneg_right hGθ hK0
  have hH3 : H ≤ 3 / 10 := by linarith
  have hpos : 0 < 1 - H := by linarith
  have hH0 : 0 ≤ H := mul_nonneg (by nlinarith) hK0
  obtain ⟨r, t, h1, h2, h3⟩ := C143_expm hm kx hl front hn hc layers h22 back p hp M hM hdet G K H hG hK rfl (by linarith)
  refine ⟨r, t, h1, h2.trans ?_, h3.trans ?_⟩
  · refine mul_le_mul_of_nonneg_right ?_ hK0
    have e1 : G * τ ^ 2 / (1 - H) - 1 = (G * τ ^ 2 - 1 + H) / (1 - H) := by field_simp; ring
    rw [e1, div_le_iff₀ hpos]
    have he0 : 0 ≤ e := by linarith
    have : 0 ≤ e * K := mul_nonneg he0 hK0
    nlinarith
  · refine mul_le_mul_of_nonneg_right ?_ (norm_nonneg _)
    rw [div_le_iff₀ hpos]
    have he0 : 0 ≤ e := by linarith
    have : 0 ≤ e * K := mul_nonneg he0 hK0
    nlinarith

/-- Sums of products one after the other. -/
def dotSeq (m : Machine) : (n : ℕ) → (Fin n → ℂ) → (Fin n → ℂ) → ℂ
  | 0, _, _ => 0
  | 1, x, y => m.mul (x 0) (y 0)
  | n + 2, x, y => m.add (dotSeq m (n + 1) (fun i => x i.castSucc) fun i => y i.castSucc) (m.mul (x (Fin.last _)) (y (Fin.last _)))

lemma dotSeq_rel {m : Machine} {τ : ℝ} (hm : Accurate m τ) : ∀ (n : ℕ) (x y : Fin n → ℂ),
    Rel (τ ^ n) (∑ j, ‖x j‖ * ‖y j‖) (dotSeq m n x y) (∑ j, x j * y j)
  | 0, _, _ => ⟨by simp, by simp, by simp [dotSeq]⟩
  | 1, x, y => by
    have := acc_mul hm (Rel.of_eq (x 0)) (Rel.of_eq (y 0))
    simpa [dotSeq] using this
  | n + 2, x, y => by
    have ih := dotSeq_rel hm (n + 1) (fun i => x i.castSucc) fun i => y i.castSucc
    have h1 := acc_one hm
    have hp := acc_mul hm (Rel.of_eq (x (Fin.last _))) (Rel.of_eq (y (Fin.last _)))
    have := acc_add hm ih (hp.mono (by rw [mul_one, one_mul]; exact le_self_pow₀ h1 (Nat.succ_ne_zero n)) le_rfl)
    rw [Fin.sum_univ_castSucc, Fin.sum_univ_castSucc (f := fun j => x j * y j), pow_succ τ (n + 1)]
    exact this

open Classical in
/-- Rounded operations, with an exact exponential and an exact inverse. -/
noncomputable def roundedMachine4 (rd : ℝ → ℝ) : Machine4 where
  toMachine := roundedMachine rd
  dot := dotSeq (roundedMachine rd)
  expm := fun A => NormedSpace.exp A
  inv := fun A => if A.det = 0 then none else some A⁻¹

/-- **C143.** Rounding every real operation meets the conditions. -/
theorem C143_machine {rd : ℝ → ℝ} {u : ℝ} (hrd : ∀ x, |rd x - x| ≤ u * |x|) (hodd : ∀ x, rd (-x) = -rd x) (hu : u ≤ 1 / 30) {η θ : ℝ} (hη : 0 ≤ η) (hθ : 0 ≤ θ) :
    Accurate4 (roundedMachine4 rd) (1 + 6 * u) η θ where
  ops := C138_machine hrd hodd hu
  dot := fun n x y => (dotSeq_rel (C138_machine hrd hodd hu) n x y).2.2
  expm := fun A => ⟨0, by rw [norm_zero]; positivity, by rw [add_zero]; rfl⟩
  inv := fun A hA _ => ⟨A⁻¹, if_neg hA, by rw [Matrix.mul_nonsing_inv _ (isUnit_iff_ne_zero.2 hA), sub_self, norm_zero]; positivity⟩
  expm_nonneg := hη
  inv_nonneg := hθ

/-- **C143.** With routines accurate to `1e-14`, up to 99 layers and a total phase of ten thousand. -/
theorem C143_double {m : Machine4} {τ η θ : ℝ} (hm : Accurate4 m τ η θ) (hτ : τ ≤ 1 + 1 / 10 ^ 14) (hη : η ≤ 1 / 10 ^ 14) (hθ : θ ≤ 1 / 10 ^ 14) (kx : ℂ) {lbda : ℝ} (hl : lbda ≠ 0)
    (front : ℂ × ℂ) (hn : front.1 ≠ 0) (hc : front.2 ≠ 0) (layers : List (ℝ × Tensor)) (hlen : layers.length ≤ 99) (h22 : ∀ l ∈ layers, l.2 2 2 ≠ 0)
    (back : (ℂ × ℂ) ⊕ Mat4) (p : ℝ × Tensor → ℝ)
    (hp : ∀ l ∈ layers, ∀ s ∈ Set.Icc (0 : ℝ) 1, ‖propExpm (buildDelta kx l.2) (-(s * l.1)) lbda‖ ≤ p l)
    (hph : (layers.map fun l => p l * Spec.phase4 kx lbda l).sum ≤ 10 ^ 4)
    (M : Mat4) (hM : M = transferOf propExpm kx lbda front layers back) (hdet : (tIt M).det ≠ 0) (K : ℝ)
    (hK : K = ‖isoHalfInvOf front.1 front.2‖ * (layers.map p).prod * ‖exitOf back‖ * ‖(tIt M)⁻¹‖) (hK8 : K ≤ 2 * 10 ^ 8) :
    ∃ r t : Mat2, m.jones m.propExpm kx lbda front layers back = some (r, t) ∧
      ‖r - tRt M * (tIt M)⁻¹‖ ≤ 31 / 10 ^ 10 * (1 + K) * K ∧ ‖t - (tIt M)⁻¹‖ ≤ 21 / 10 ^ 10 * K * ‖(tIt M)⁻¹‖ := by
  have hlen' : (layers.length : ℝ) ≤ 99 := by exact_mod_cast hlen
  have hlen0 : (0 : ℝ) ≤ layers.length := Nat.cast_nonneg _
  have hp0 : ∀ l ∈ layers, 0 ≤ p l := fun l hl' => (norm_nonneg _).trans (hp l hl' 0 ⟨le_rfl, zero_le_one⟩)
  have hK0 : 0 ≤ K := by
    rw [hK]
    have : 0 ≤ (layers.map p).prod := List.prod_nonneg fun x hx => by
      obtain ⟨l, hl', rfl⟩ := List.mem_map.1 hx
      exact hp0 l hl'
    positivity
  set e := 1 / 10 ^ 14 * (4 * layers.length + 9 + 10 * (layers.map fun l => p l * Spec.phase4 kx lbda l).sum) with he
  have he9 : e ≤ 101 / 10 ^ 11 := by
    rw [he]
    have : 4 * (layers.length : ℝ) + 9 + 10 * (layers.map fun l => p l * Spec.phase4 kx lbda l).sum ≤ 4 * 99 + 9 + 10 * 10 ^ 4 := by linarith
    refine (mul_le_mul_of_nonneg_left this (by norm_num)).trans (by norm_num)
  have heK : 4 * e * K ≤ 1 := by
    have := mul_le_mul he9 hK8 hK0 (by norm_num)
    norm_num at this ⊢
    linarith
  obtain ⟨r, t, h1, h2, h3⟩ := C143_first_order hm hτ hη hθ kx hl front hn hc layers h22 back p hp M hM hdet e K he (he9.trans (by norm_num)) hK heK
  refine ⟨r, t, h1, h2.trans ?_, h3.trans ?_⟩
  · refine mul_le_mul_of_nonneg_right (mul_le_mul_of_nonneg_right ?_ (by linarith)) hK0
    linarith
  · refine mul_le_mul_of_nonneg_right (mul_le_mul_of_nonneg_right ?_ hK0) (norm_nonneg _)
    linarith

/-- The conditions are met: a layer on glass, in vacuum, at normal incidence. -/
example : ∃ r t : Mat2, (roundedMachine4 round53).jones (roundedMachine4 round53).propExpm 0 (2 * Real.pi) (1, 1) [(1, Matrix.diagonal fun _ => 9 / 4)] (.inl (3 / 2, 1)) = some (r, t) ∧
    ‖r - !![1 / 5, 0; 0, -1 / 5]‖ ≤ 2 / 10 ^ 6 := by
  set l : ℝ × Tensor := (1, Matrix.diagonal fun _ => 9 / 4) with hl
  have hpi := Real.pi_pos
  have hD : buildDelta 0 l.2 = !![0, 0, 0, 1; 0, 0, -1, 0; 0, -9 / 4, 0, 0; 9 / 4, 0, 0, 0] := by
    ext i j
    fin_cases i <;> fin_cases j <;> simp [buildDelta, hl, Matrix.diagonal] <;> norm_num
  have hw : wavenumber (2 * Real.pi) = 1 := by unfold wavenumber; field_simp
  have hS : ‖Spec.deltaSize 0 l.2‖ ≤ 9 / 4 := by
    rw [Matrix.linfty_opNorm_def, show (9 / 4 : ℝ) = ((9 / 4 : NNReal) : ℝ) by norm_num, NNReal.coe_le_coe]
    refine Finset.sup_le fun i _ => ?_
    rw [← NNReal.coe_le_coe]
    fin_cases i <;> simp [Fin.sum_univ_four, Spec.deltaSize, hl, Matrix.diagonal] <;> norm_num
  have hph : Spec.phase4 0 (2 * Real.pi) l ≤ 9 / 4 := by
    unfold Spec.phase4
    rw [abs_of_pos (by positivity), div_self (by positivity)]
    simpa [hl] using hS
  have hexp : Real.exp (9 / 4) ≤ 10 := by
    have h1 := Real.exp_one_lt_d9
    have h2 : Real.exp (9 / 4) ^ 4 = Real.exp 1 ^ 9 := by
      rw [← Real.exp_nat_mul, ← Real.exp_nat_mul]
      norm_num
    have h3 : Real.exp 1 ^ 9 ≤ (2.7182818286 : ℝ) ^ 9 := pow_le_pow_left₀ (Real.exp_pos _).le h1.le 9
    by_contra hc
    push Not at hc
    have h4 : (10 : ℝ) ^ 4 ≤ Real.exp (9 / 4) ^ 4 := pow_le_pow_left₀ (by norm_num) hc.le 4
    rw [h2] at h4
    have := h4.trans h3
    norm_num at this
  set M := transferOf propExpm 0 (2 * Real.pi) (1, 1) [l] (.inl (3 / 2, 1)) with hM
  set f := Complex.exp (-(3 / 2 * I)) with hf
  have hf0 : f ≠ 0 := Complex.exp_ne_zero _
  have hf1 : ‖f‖ = 1 := by rw [hf, show -(3 / 2 * I) = ((-(3 / 2) : ℝ) : ℂ) * I by push_cast; ring, Complex.norm_exp_ofReal_mul_I]
  have hcol : ∀ j : Fin 4, buildDelta 0 l.2 *ᵥ (fun k => isoHalfOf (3 / 2) 1 k j) = (3 / 2 : ℂ) • (fun k => isoHalfOf (3 / 2) 1 k j) →
      ∀ i, M i j = f * (isoHalfInvOf 1 1 * isoHalfOf (3 / 2) 1) i j := by
    intro j hj i
    have h1 : ((I * ((-l.1 : ℝ) : ℂ)) • ((wavenumber (2 * Real.pi) : ℂ) • buildDelta 0 l.2)) *ᵥ (fun k => isoHalfOf (3 / 2) 1 k j) =
        (-(3 / 2 * I)) • (fun k => isoHalfOf (3 / 2) 1 k j) := by
      rw [hw, Matrix.smul_mulVec, Matrix.smul_mulVec, hj, smul_smul, smul_smul]
      congr 1
      simp [hl]
      ring
    have h2 := exp_eigen _ _ _ h1 1
    rw [one_smul] at h2
    have h3 : M = isoHalfInvOf 1 1 * (propExpm (buildDelta 0 l.2) (-l.1) (2 * Real.pi) * isoHalfOf (3 / 2) 1) := rfl
    have h4 : ∀ k, (propExpm (buildDelta 0 l.2) (-l.1) (2 * Real.pi) * isoHalfOf (3 / 2) 1 : Mat4) k j = f * isoHalfOf (3 / 2) 1 k j := fun k => by
      have h5 := congrFun h2 k
      rw [Matrix.mul_apply]
      refine Eq.trans h5 ?_
      simp [hf]
    rw [h3, Matrix.mul_apply, Matrix.mul_apply, Finset.mul_sum]
    refine Finset.sum_congr rfl fun k _ => ?_
    rw [h4]
    ring
  have c0 := hcol 0 (by rw [hD]; ext i; fin_cases i <;> simp [isoHalfOf, Matrix.mulVec, dotProduct, Fin.sum_univ_four] <;> norm_num)
  have c2 := hcol 2 (by rw [hD]; ext i; fin_cases i <;> simp [isoHalfOf, Matrix.mulVec, dotProduct, Fin.sum_univ_four] <;> norm_num)
  have hit : tIt M = (f * (5 / 4)) • (1 : Mat2) := by
    unfold tIt
    rw [c0, c0, c2, c2]
    ext i j
    fin_cases i <;> fin_cases j <;> simp [isoHalfOf, isoHalfInvOf, Matrix.mul_apply, Fin.sum_univ_four] <;> left <;> norm_num
  have hrt : tRt M = (f * (5 / 4)) • (!![1 / 5, 0; 0, -1 / 5] : Mat2) := by
    unfold tRt
    rw [c0, c0, c2, c2]
    ext i j
    fin_cases i <;> fin_cases j <;> simp [isoHalfOf, isoHalfInvOf, Matrix.mul_apply, Fin.sum_univ_four] <;> ring
  have hg : f * (5 / 4) ≠ 0 := mul_ne_zero hf0 (by norm_num)
  have hdet : (tIt M).det ≠ 0 := by
    rw [hit, Matrix.det_smul]
    simpa using hf0
  have hinv : (tIt M)⁻¹ = (f * (5 / 4))⁻¹ • (1 : Mat2) := by
    rw [hit]
    refine Matrix.inv_eq_right_inv ?_
    rw [Matrix.smul_mul, Matrix.one_mul, smul_smul, mul_inv_cancel₀ hg, one_smul]
  have hT : ‖(tIt M)⁻¹‖ = 4 / 5 := by
    rw [hinv, norm_smul, norm_one, norm_inv, norm_mul, hf1]
    norm_num
  have hF : ‖isoHalfInvOf 1 1‖ ≤ 1 := by
    refine (norm_le_iff (by norm_num)).2 fun i => ?_
    fin_cases i <;> simp [isoHalfInvOf, Fin.sum_univ_four] <;> norm_num
  have hL : ‖isoHalfOf (3 / 2) 1‖ ≤ 3 := by
    refine (norm_le_iff (by norm_num)).2 fun i => ?_
    fin_cases i <;> simp [isoHalfOf, Fin.sum_univ_four] <;> norm_num
  have hp : ∀ x ∈ [l], ∀ s ∈ Set.Icc (0 : ℝ) 1, ‖propExpm (buildDelta 0 x.2) (-(s * x.1)) (2 * Real.pi)‖ ≤ 10 := by
    intro x hx s hs
    rw [List.mem_singleton] at hx
    subst hx
    exact ((C143_sizes 0 (2 * Real.pi) l).1 s hs).trans ((Real.exp_le_exp.2 hph).trans hexp)
  have hK : ‖isoHalfInvOf 1 1‖ * 10 * ‖isoHalfOf (3 / 2) 1‖ * ‖(tIt M)⁻¹‖ ≤ 24 := by
    rw [hT]
    have := mul_le_mul hF hL (norm_nonneg _) zero_le_one
    linarith
  have hm : Accurate4 (roundedMachine4 round53) (1 + 6 * _) 0 0 := C143_machine round53_rel round53_odd (by norm_num) le_rfl le_rfl
  obtain ⟨r, t, h1, h2, -⟩ := C143_double hm (by norm_num) (by norm_num) (by norm_num) 0 (by positivity : (2 * Real.pi : ℝ) ≠ 0) (1, 1) one_ne_zero one_ne_zero [l] (by simp)
    (by simp [hl, Matrix.diagonal]) (.inl (3 / 2, 1)) (fun _ => 10) hp (by simp only [List.map_cons, List.map_nil, List.sum_cons, List.sum_nil]; linarith) M hM hdet
    (‖isoHalfInvOf 1 1‖ * 10 * ‖isoHalfOf (3 / 2) 1‖ * ‖(tIt M)⁻¹‖) (by simp [exitOf]) (hK.trans (by norm_num))
  refine ⟨r, t, h1, ?_⟩
  have e : tRt M * (tIt M)⁻¹ = !![1 / 5, 0; 0, -1 / 5] := by
    rw [hrt, hinv, Matrix.smul_mul, Matrix.mul_smul, Matrix.mul_one, smul_smul, mul_inv_cancel₀ hg, one_smul]
  rw [e] at h2
  refine h2.trans ?_
  set K := ‖isoHalfInvOf 1 1‖ * 10 * ‖isoHalfOf (3 / 2) 1‖ * ‖(tIt M)⁻¹‖
  have hK0 : 0 ≤ K := by positivity
  nlinarith

end PyElli
