import Verif.Lemmas.Machine
import Verif.Spec.Conditioning

/-! # Rounding errors of `Solver2x2` -/

namespace PyElli

open Complex

/-- `x'` stands for `x`, with an error of `(g - 1) P`. -/
def Rel (g P : ℝ) (x' x : ℂ) : Prop := 1 ≤ g ∧ ‖x‖ ≤ P ∧ ‖x' - x‖ ≤ (g - 1) * P

namespace Rel

variable {a b P Q t : ℝ} {x x' y y' w : ℂ}

lemma size_nonneg (h : Rel a P x' x) : 0 ≤ P := (norm_nonneg _).trans h.2.1

lemma norm_le (h : Rel a P x' x) : ‖x'‖ ≤ a * P := by
  have := norm_add_le (x' - x) x
  rw [sub_add_cancel] at this
  nlinarith [h.2.1, h.2.2]

lemma mono (h : Rel a P x' x) (hab : a ≤ b) (hPQ : P ≤ Q) : Rel b Q x' x := by
  refine ⟨h.1.trans hab, h.2.1.trans hPQ, h.2.2.trans ?_⟩
  have := h.size_nonneg
  have := h.1
  exact mul_le_mul (by linarith) hPQ h.size_nonneg (by linarith)

lemma mul (h : Rel a P x' x) (k : Rel b Q y' y) : Rel (a * b) (P * Q) (x' * y') (x * y) := by
  refine ⟨one_le_mul_of_one_le_of_one_le h.1 k.1, ?_, ?_⟩
  · rw [norm_mul]; exact mul_le_mul h.2.1 k.2.1 (norm_nonneg _) h.size_nonneg
  · have e : x' * y' - x * y = x' * (y' - y) + (x' - x) * y := by ring
    rw [e]
    refine (norm_add_le _ _).trans ?_
    rw [norm_mul, norm_mul]
    have h1 := mul_le_mul h.norm_le k.2.2 (norm_nonneg _) (mul_nonneg (by linarith [h.1]) h.size_nonneg)
    have h2 := mul_le_mul h.2.2 k.2.1 (norm_nonneg _) (mul_nonneg (by linarith [h.1]) h.size_nonneg)
    nlinarith

lemma of_near (h : Near t w) : Rel t 1 w 1 := ⟨h.one_le, by simp, by simpa using h.2.1⟩

lemma of_eq (x : ℂ) : Rel 1 ‖x‖ x x := ⟨le_rfl, le_rfl, by simp⟩

lemma near (h : Rel a P x' x) (k : Near t w) : Rel (a * t) P (x' * w) x := by
  simpa using h.mul (of_near k)

lemma of_mul_near (k : Near t w) : Rel t ‖x‖ (x * w) x := by
  simpa using (of_eq x).near k

lemma add (h : Rel a P x' x) (k : Rel a Q y' y) : Rel a (P + Q) (x' + y') (x + y) := by
  refine ⟨h.1, (norm_add_le _ _).trans (add_le_add h.2.1 k.2.1), ?_⟩
  have e : x' + y' - (x + y) = (x' - x) + (y' - y) := by ring
  rw [e]
  refine (norm_add_le _ _).trans ?_
  have := h.2.2
  have := k.2.2
  linarith

lemma neg (h : Rel a P x' x) : Rel a P (-x') (-x) := by
  refine ⟨h.1, by rw [norm_neg]; exact h.2.1, ?_⟩
  have e : -x' - -x = -(x' - x) := by ring
  rw [e, norm_neg]
  exact h.2.2

/-- Division by a number known up to a factor. -/
lemma div_near (h : Rel a P x' x) (k : Near t w) : Rel (a * t) (P / ‖y‖) (x' / (y * w)) (x / y) := by
  have := (h.mul (of_eq y⁻¹)).near k.inv
  rw [norm_inv, mul_one, ← div_eq_mul_inv, ← div_eq_mul_inv x y] at this
  convert this using 1
  rw [div_eq_mul_inv, mul_inv, mul_assoc]

/-- A number whose error is below its modulus is known up to a factor. -/
lemma to_near (h : Rel a P x' x) (hx : x ≠ 0) (hs : (a - 1) * P / ‖x‖ < 1) : ∃ w, Near (1 / (1 - (a - 1) * P / ‖x‖)) w ∧ x' = x * w := by
  refine ⟨x' / x, Near.of_rel hs ?_, by field_simp⟩
  have e : x' / x - 1 = (x' - x) / x := by field_simp
  rw [e, norm_div]
  exact div_le_div_of_nonneg_right h.2.2 (norm_nonneg _)

end Rel

section Stages

variable {m : Machine} {τ : ℝ} (hm : Accurate m τ)

include hm

lemma acc_one : 1 ≤ τ := by
  obtain ⟨w, hw, -⟩ := hm.twoPi
  exact hw.one_le

lemma acc_mul {a b P Q : ℝ} {x x' y y' : ℂ} (h : Rel a P x' x) (k : Rel b Q y' y) : Rel (a * b * τ) (P * Q) (m.mul x' y') (x * y) := by
  obtain ⟨w, hw, e⟩ := hm.mul x' y'
  rw [e]
  exact (h.mul k).near hw

lemma acc_add {a P Q : ℝ} {x x' y y' : ℂ} (h : Rel a P x' x) (k : Rel a Q y' y) : Rel (a * τ) (P + Q) (m.add x' y') (x + y) := by
  obtain ⟨w, hw, e⟩ := hm.add x' y'
  rw [e]
  exact (h.add k).near hw

lemma acc_div {a t P : ℝ} {x x' y w : ℂ} (h : Rel a P x' x) (hy : y ≠ 0) (k : Near t w) :
    Rel (a * t * τ) (P / ‖y‖) (m.div x' (y * w)) (x / y) := by
  obtain ⟨v, hv, e⟩ := hm.div x' (y * w) (mul_ne_zero hy k.1)
  rw [e]
  exact (h.div_near k).near hv

/-- A product with the cosine of an angle. -/
lemma acc_mulCos (n th : ℂ) : ∃ w, Near (τ ^ 2) w ∧ m.mul n (m.cos th) = n * cos th * w := by
  obtain ⟨v, hv, e⟩ := hm.cos th
  obtain ⟨w, hw, e'⟩ := hm.mul n (m.cos th)
  refine ⟨v * w, by rw [pow_two]; exact hv.mul hw, ?_⟩
  rw [e', e]
  ring

lemma acc_twice (n th : ℂ) : ∃ w, Near (τ ^ 3) w ∧ m.mul (m.mul 2 n) (m.cos th) = 2 * n * cos th * w := by
  obtain ⟨v, hv, e⟩ := hm.mul 2 n
  obtain ⟨w, hw, e'⟩ := acc_mulCos hm (m.mul 2 n) th
  refine ⟨v * w, by rw [pow_succ']; exact hv.mul hw, ?_⟩
  rw [e', e]
  ring

/-- Sum in the denominator. -/
lemma acc_sum {a b va vb : ℂ} (ha : Near (τ ^ 2) va) (hb : Near (τ ^ 2) vb) (hab : a + b ≠ 0) {Q : ℝ} (hQ : (‖a‖ + ‖b‖) / ‖a + b‖ ≤ Q)
    (hs : (τ ^ 2 - 1) * Q < 1) : ∃ w, Near (1 / (1 - (τ ^ 2 - 1) * Q) * τ) w ∧ m.add (a * va) (b * vb) = (a + b) * w := by
  have h := (Rel.of_mul_near (x := a) ha).add (Rel.of_mul_near (x := b) hb)
  have h1 : 0 ≤ τ ^ 2 - 1 := by have := ha.one_le; linarith
  have hle : (τ ^ 2 - 1) * (‖a‖ + ‖b‖) / ‖a + b‖ ≤ (τ ^ 2 - 1) * Q := by
    rw [mul_div_assoc]
    exact mul_le_mul_of_nonneg_left hQ h1
  obtain ⟨v, hv, e⟩ := h.to_near hab (hle.trans_lt hs)
  obtain ⟨w, hw, e'⟩ := hm.add (a * va) (b * vb)
  refine ⟨v * w, Near.mul (hv.mono ?_) hw, by rw [e', e]; ring⟩
  exact one_div_le_one_div_of_le (by linarith) (by linarith)

/-- One pair of Fresnel coefficients. -/
lemma acc_pair {a b c va vb vc : ℂ} (ha : Near (τ ^ 2) va) (hb : Near (τ ^ 2) vb) (hc : Near (τ ^ 3) vc) (hab : a + b ≠ 0) {Q : ℝ}
    (hQ : (‖a‖ + ‖b‖) / ‖a + b‖ ≤ Q) (hs : (τ ^ 2 - 1) * Q < 1) :
    Rel (1 / (1 - (τ ^ 2 - 1) * Q) * τ ^ 5) ((‖a‖ + ‖b‖) / ‖a + b‖) (m.div (m.add (a * va) (-(b * vb))) (m.add (a * va) (b * vb))) ((a - b) / (a + b)) ∧
    ∃ w, Near (1 / (1 - (τ ^ 2 - 1) * Q) * τ ^ 5) w ∧ m.div (c * vc) (m.add (a * va) (b * vb)) = c / (a + b) * w := by
  obtain ⟨w, hw, e⟩ := acc_sum hm ha hb hab hQ hs
  rw [e]
  constructor
  · have h := acc_div hm (acc_add hm (Rel.of_mul_near (x := a) ha) (Rel.of_mul_near (x := b) hb).neg) hab hw
    rw [← sub_eq_add_neg a b] at h
    convert h using 1
    ring
  · obtain ⟨v, hv, e'⟩ := hm.div (c * vc) ((a + b) * w) (mul_ne_zero hab hw.1)
    refine ⟨vc / w * v, ?_, ?_⟩
    · convert (hc.div hw).mul hv using 1
      ring
    · rw [e']
      have := hw.1
      field_simp

lemma acc_phase (lbda d n th : ℂ) (hl : lbda ≠ 0) : ∃ w, Near (τ ^ 6) w ∧ m.phase lbda d n th = phase2x2 lbda d n th * w := by
  obtain ⟨w1, h1, e1⟩ := hm.twoPi
  obtain ⟨w2, h2, e2⟩ := hm.mul m.twoPi n
  obtain ⟨w3, h3, e3⟩ := acc_mulCos hm (m.mul m.twoPi n) th
  obtain ⟨w4, h4, e4⟩ := hm.div (m.mul (m.mul m.twoPi n) (m.cos th)) lbda hl
  obtain ⟨w5, h5, e5⟩ := hm.mul (m.div (m.mul (m.mul m.twoPi n) (m.cos th)) lbda) d
  refine ⟨w1 * w2 * w3 * w4 * w5, ?_, ?_⟩
  · convert (((h1.mul h2).mul h3).mul h4).mul h5 using 1
    ring
  · unfold Machine.phase phase2x2
    rw [e5, e4, e3, e2, e1]
    field_simp

lemma acc_exp {delta w c : ℂ} (hw : Near (τ ^ 6) w) (hc : ‖c‖ = 1) :
    Rel (Real.exp ((τ ^ 6 - 1) * ‖delta‖) * τ) ‖exp (c * delta)‖ (m.exp (c * (delta * w))) (exp (c * delta)) := by
  obtain ⟨v, hv, e⟩ := hm.exp (c * (delta * w))
  have e1 : exp (c * (delta * w)) = exp (c * delta) * exp (c * delta * (w - 1)) := by rw [← exp_add]; ring_nf
  rw [e, e1, mul_assoc]
  refine Rel.of_mul_near (Near.mul (Near.exp.mono (Real.exp_le_exp.mpr ?_)) hv)
  rw [norm_mul, norm_mul, hc, one_mul, mul_comm]
  exact mul_le_mul_of_nonneg_right hw.2.1 (norm_nonneg _)

/-- The rounded product of two matrices. -/
lemma acc_matMul {a b : ℝ} {A A' B B' : Mat2} {P R : Matrix (Fin 2) (Fin 2) ℝ} (h : ∀ i j, Rel a (P i j) (A' i j) (A i j))
    (k : ∀ i j, Rel b (R i j) (B' i j) (B i j)) : ∀ i j, Rel (a * (b * τ ^ 2)) ((P * R) i j) (m.matMul A' B' i j) ((A * B) i j) := by
  intro i j
  have := acc_add hm (acc_mul hm (h i 0) (k 0 j)) (acc_mul hm (h i 1) (k 1 j))
  rw [Matrix.mul_apply, Matrix.mul_apply, Fin.sum_univ_two, Fin.sum_univ_two]
  convert this using 1
  · ring
  · rfl

/-- The factor of a layer. -/
lemma acc_layer {sg K : ℝ} {delta w r r' t v : ℂ} (hw : Near (τ ^ 6) w) (ht : t ≠ 0) (hr : Rel (sg * τ ^ 5) K r' r) (hv : Near (sg * τ ^ 5) v) (hsg : 1 ≤ sg) :
    ∀ i j, Rel (sg ^ 2 * τ ^ 13 * Real.exp ((τ ^ 6 - 1) * ‖delta‖))
      ((!![Real.exp delta.im / ‖t‖, K * Real.exp delta.im / ‖t‖; K * Real.exp (-delta.im) / ‖t‖, Real.exp (-delta.im) / ‖t‖] : Matrix (Fin 2) (Fin 2) ℝ) i j)
      (m.layerMatrix (delta * w) r' (t * v) i j) (layerMatrix delta r t i j) := by
  have hτ := acc_one hm
  have em := acc_exp hm (delta := delta) hw (c := -I) (by simp)
  have ep := acc_exp hm (delta := delta) hw (c := I) (by simp)
  have nm : ‖exp (-I * delta)‖ = Real.exp delta.im := by rw [norm_exp]; simp
  have np : ‖exp (I * delta)‖ = Real.exp (-delta.im) := by rw [norm_exp]; simp
  rw [nm] at em
  rw [np] at ep
  have hE : 0 ≤ Real.exp ((τ ^ 6 - 1) * ‖delta‖) := (Real.exp_pos _).le
  set E := Real.exp ((τ ^ 6 - 1) * ‖delta‖)
  have hle : E * τ * (sg * τ ^ 5) * τ ≤ sg ^ 2 * τ ^ 13 * E := by
    have h1 : 1 ≤ sg * τ ^ 6 := one_le_mul_of_one_le_of_one_le hsg (one_le_pow₀ hτ)
    have h2 : 0 ≤ E * sg * τ ^ 7 := by positivity
    nlinarith [mul_le_mul_of_nonneg_left h1 h2]
  have d1 := (acc_div hm em ht hv).mono hle le_rfl
  have d2 := (acc_div hm (acc_mul hm hr em) ht hv).mono (b := sg ^ 2 * τ ^ 13 * E) (le_of_eq (by ring)) le_rfl
  have d3 := (acc_div hm (acc_mul hm hr ep) ht hv).mono (b := sg ^ 2 * τ ^ 13 * E) (le_of_eq (by ring)) le_rfl
  have d4 := (acc_div hm ep ht hv).mono hle le_rfl
  intro i j
  fin_cases i <;> fin_cases j
  · exact d1
  · exact d2
  · exact d3
  · exact d4

/-- The first interface. -/
lemma acc_interface {sg K : ℝ} {r r' t v : ℂ} (ht : t ≠ 0) (hr : Rel (sg * τ ^ 5) K r' r) (hv : Near (sg * τ ^ 5) v) (hsg : 1 ≤ sg) :
    ∀ i j, Rel (sg ^ 2 * τ ^ 15)
      ((!![1 / ‖t‖, K / ‖t‖; K / ‖t‖, 1 / ‖t‖] : Matrix (Fin 2) (Fin 2) ℝ) i j)
      (m.interfaceMatrix r' (t * v) i j) (interfaceMatrix r t i j) := by
  have hτ := acc_one hm
  have o : Rel 1 1 (1 : ℂ) 1 := by simpa using Rel.of_eq 1
  have h1 : 1 * (sg * τ ^ 5) * τ ≤ sg ^ 2 * τ ^ 15 := by
    have h1 : 1 ≤ sg * τ ^ 9 := one_le_mul_of_one_le_of_one_le hsg (one_le_pow₀ hτ)
    have h2 : 0 ≤ sg * τ ^ 6 := by positivity
    nlinarith [mul_le_mul_of_nonneg_left h1 h2]
  have h2 : sg * τ ^ 5 * (sg * τ ^ 5) * τ ≤ sg ^ 2 * τ ^ 15 := by
    have h1 : 1 ≤ τ ^ 4 := one_le_pow₀ hτ
    have h2 : 0 ≤ sg ^ 2 * τ ^ 11 := by positivity
    nlinarith [mul_le_mul_of_nonneg_left h1 h2]
  have d1 := (acc_div hm o ht hv).mono h1 le_rfl
  have d2 := (acc_div hm hr ht hv).mono h2 le_rfl
  intro i j
  fin_cases i <;> fin_cases j
  · exact d1
  · exact d2
  · exact d2
  · exact d1

lemma acc_fresnel_s {i t : Medium} {Q : ℝ} (hab : (Spec.sPol i t).1 + (Spec.sPol i t).2 ≠ 0) (hQ : Spec.interfaceCond Spec.sPol i t ≤ Q) (hs : (τ ^ 2 - 1) * Q < 1) :
    Rel (1 / (1 - (τ ^ 2 - 1) * Q) * τ ^ 5) (Spec.interfaceCond Spec.sPol i t) (m.fresnel i.1 t.1 i.2 t.2).1 (fresnel i.1 t.1 i.2 t.2).1 ∧
    ∃ w, Near (1 / (1 - (τ ^ 2 - 1) * Q) * τ ^ 5) w ∧ (m.fresnel i.1 t.1 i.2 t.2).2.2.1 = (fresnel i.1 t.1 i.2 t.2).2.2.1 * w := by
  obtain ⟨va, ha, ea⟩ := acc_mulCos hm i.1 i.2
  obtain ⟨vb, hb, eb⟩ := acc_mulCos hm t.1 t.2
  obtain ⟨vc, hc, ec⟩ := acc_twice hm i.1 i.2
  have := acc_pair hm (c := 2 * i.1 * cos i.2) ha hb hc hab hQ hs
  unfold Machine.fresnel fresnel
  dsimp only
  rw [ea, eb, ec]
  exact this

lemma acc_fresnel_p {i t : Medium} {Q : ℝ} (hab : (Spec.pPol i t).1 + (Spec.pPol i t).2 ≠ 0) (hQ : Spec.interfaceCond Spec.pPol i t ≤ Q) (hs : (τ ^ 2 - 1) * Q < 1) :
    Rel (1 / (1 - (τ ^ 2 - 1) * Q) * τ ^ 5) (Spec.interfaceCond Spec.pPol i t) (m.fresnel i.1 t.1 i.2 t.2).2.1 (fresnel i.1 t.1 i.2 t.2).2.1 ∧
    ∃ w, Near (1 / (1 - (τ ^ 2 - 1) * Q) * τ ^ 5) w ∧ (m.fresnel i.1 t.1 i.2 t.2).2.2.2 = (fresnel i.1 t.1 i.2 t.2).2.2.2 * w := by
  obtain ⟨va, ha, ea⟩ := acc_mulCos hm t.1 i.2
  obtain ⟨vb, hb, eb⟩ := acc_mulCos hm i.1 t.2
  obtain ⟨vc, hc, ec⟩ := acc_twice hm i.1 i.2
  have := acc_pair hm (c := 2 * i.1 * cos i.2) ha hb hc hab hQ hs
  unfold Machine.fresnel fresnel
  dsimp only
  rw [ea, eb, ec]
  exact this

end Stages

/-- What is needed of a polarisation: selectors of the pairs of coefficients. -/
structure PolOk (m : Machine) (τ : ℝ) (pol : Spec.Pol) (sel : ℂ × ℂ × ℂ × ℂ → ℂ × ℂ) : Prop where
  trans : ∀ i t : Medium, (sel (fresnel i.1 t.1 i.2 t.2)).2 = 2 * i.1 * cos i.2 / ((pol i t).1 + (pol i t).2)
  acc : ∀ (i t : Medium) (Q : ℝ), (pol i t).1 + (pol i t).2 ≠ 0 → Spec.interfaceCond pol i t ≤ Q → (τ ^ 2 - 1) * Q < 1 →
    Rel (1 / (1 - (τ ^ 2 - 1) * Q) * τ ^ 5) (Spec.interfaceCond pol i t) (sel (m.fresnel i.1 t.1 i.2 t.2)).1 (sel (fresnel i.1 t.1 i.2 t.2)).1 ∧
    ∃ w, Near (1 / (1 - (τ ^ 2 - 1) * Q) * τ ^ 5) w ∧ (sel (m.fresnel i.1 t.1 i.2 t.2)).2 = (sel (fresnel i.1 t.1 i.2 t.2)).2 * w

def selS (f : ℂ × ℂ × ℂ × ℂ) : ℂ × ℂ := (f.1, f.2.2.1)
def selP (f : ℂ × ℂ × ℂ × ℂ) : ℂ × ℂ := (f.2.1, f.2.2.2)

lemma polOk_s {m : Machine} {τ : ℝ} (hm : Accurate m τ) : PolOk m τ Spec.sPol selS :=
  ⟨fun _ _ => rfl, fun _ _ _ h1 h2 h3 => acc_fresnel_s hm h1 h2 h3⟩

lemma polOk_p {m : Machine} {τ : ℝ} (hm : Accurate m τ) : PolOk m τ Spec.pPol selP :=
  ⟨fun _ _ => rfl, fun _ _ _ h1 h2 h3 => acc_fresnel_p hm h1 h2 h3⟩

/-- The loop for one polarisation. -/
noncomputable def polLoop (sel : ℂ × ℂ × ℂ × ℂ → ℂ × ℂ) (lbda : ℝ) (last : Medium) : Mat2 → List (ℝ × Medium) → Mat2
  | M, [] => M
  | M, (d, n, th) :: rest =>
    let f := sel (fresnel n (nextMedium rest last).1 th (nextMedium rest last).2)
    polLoop sel lbda last (M * layerMatrix (phase2x2 lbda d n th) f.1 f.2) rest

/-- The rounded loop for one polarisation. -/
def polLoopR (m : Machine) (sel : ℂ × ℂ × ℂ × ℂ → ℂ × ℂ) (lbda : ℝ) (last : Medium) : Mat2 → List (ℝ × Medium) → Mat2
  | M, [] => M
  | M, (d, n, th) :: rest =>
    let f := sel (m.fresnel n (nextMedium rest last).1 th (nextMedium rest last).2)
    polLoopR m sel lbda last (m.matMul M (m.layerMatrix (m.phase lbda d n th) f.1 f.2)) rest

lemma loop_split (lbda : ℝ) (last : Medium) (L : List (ℝ × Medium)) : ∀ Ms Mp, loop2x2 lbda last Ms Mp L = (polLoop selS lbda last Ms L, polLoop selP lbda last Mp L) := by
  induction L with
  | nil => intro Ms Mp; rfl
  | cons l rest ih => intro Ms Mp; exact ih _ _

lemma loopR_split (m : Machine) (lbda : ℝ) (last : Medium) (L : List (ℝ × Medium)) :
    ∀ Ms Mp, m.loop lbda last Ms Mp L = (polLoopR m selS lbda last Ms L, polLoopR m selP lbda last Mp L) := by
  induction L with
  | nil => intro Ms Mp; rfl
  | cons l rest ih => intro Ms Mp; exact ih _ _

lemma stackSizes_cons (pol : Spec.Pol) (lbda : ℝ) (last : Medium) (P : Matrix (Fin 2) (Fin 2) ℝ) (d : ℝ) (md : Medium) (rest : List (ℝ × Medium)) :
    Spec.stackSizes pol lbda last P ((d, md) :: rest) = Spec.stackSizes pol lbda last (P * Spec.factorSize pol (Spec.layerPhase lbda d md) md (nextMedium rest last)) rest := by
  cases rest with
  | nil => rfl
  | cons l rest => rfl

lemma headD_next (rest : List (ℝ × Medium)) (last : Medium) : (rest.map Prod.snd).headD last = nextMedium rest last := by
  cases rest <;> rfl

section Loop

variable {m : Machine} {τ Q : ℝ} {pol : Spec.Pol} {sel : ℂ × ℂ × ℂ × ℂ → ℂ × ℂ}

lemma factorSize_eq (hp : PolOk m τ pol sel) (delta : ℂ) (i t : Medium) :
    Spec.factorSize pol delta i t = !![Real.exp delta.im / ‖(sel (fresnel i.1 t.1 i.2 t.2)).2‖, Spec.interfaceCond pol i t * Real.exp delta.im / ‖(sel (fresnel i.1 t.1 i.2 t.2)).2‖;
      Spec.interfaceCond pol i t * Real.exp (-delta.im) / ‖(sel (fresnel i.1 t.1 i.2 t.2)).2‖, Real.exp (-delta.im) / ‖(sel (fresnel i.1 t.1 i.2 t.2)).2‖] := by
  rw [hp.trans, norm_div]
  rfl

lemma sigma_one (hm : Accurate m τ) (hQ0 : 0 ≤ Q) (hs : (τ ^ 2 - 1) * Q < 1) : 1 ≤ 1 / (1 - (τ ^ 2 - 1) * Q) := by
  have h1 : 1 ≤ τ ^ 2 := one_le_pow₀ (acc_one hm)
  have : 0 ≤ (τ ^ 2 - 1) * Q := mul_nonneg (by linarith) hQ0
  rw [le_div_iff₀ (by linarith)]
  linarith

lemma interfaceCond_nonneg (pol : Spec.Pol) (i t : Medium) : 0 ≤ Spec.interfaceCond pol i t := by
  unfold Spec.interfaceCond
  positivity

lemma chain_next {first last : Medium} {inner : List (ℝ × Medium)} (h : Spec.Conditioned pol Q (Spec.media first last inner)) :
    (first.1 * cos first.2 ≠ 0 ∧ (pol first (nextMedium inner last)).1 + (pol first (nextMedium inner last)).2 ≠ 0 ∧
      Spec.interfaceCond pol first (nextMedium inner last) ≤ Q) ∧
    ∀ d md rest, inner = (d, md) :: rest → Spec.Conditioned pol Q (Spec.media md last rest) := by
  cases inner with
  | nil =>
    unfold Spec.Conditioned Spec.media at h
    simp only [List.map_nil, List.nil_append, List.isChain_cons_cons] at h
    exact ⟨h.1, by simp⟩
  | cons l rest =>
    unfold Spec.Conditioned Spec.media at h
    simp only [List.map_cons, List.cons_append, List.isChain_cons_cons] at h
    refine ⟨h.1, ?_⟩
    intro d md rest' e
    obtain ⟨rfl, rfl⟩ := List.cons_eq_cons.mp e
    exact h.2

lemma acc_loop (hm : Accurate m τ) (hp : PolOk m τ pol sel) {lbda : ℝ} (hl : lbda ≠ 0) (hs : (τ ^ 2 - 1) * Q < 1) (last : Medium) (L : List (ℝ × Medium)) :
    ∀ (first : Medium) (a : ℝ) (A A' : Mat2) (P : Matrix (Fin 2) (Fin 2) ℝ), Spec.Conditioned pol Q (Spec.media first last L) →
      (∀ i j, Rel a (P i j) (A' i j) (A i j)) →
      ∀ i j, Rel (a * (((1 / (1 - (τ ^ 2 - 1) * Q)) ^ 2 * τ ^ 15) ^ L.length * Real.exp ((τ ^ 6 - 1) * Spec.totalPhase lbda L)))
        (Spec.stackSizes pol lbda last P L i j) (polLoopR m sel lbda last A' L i j) (polLoop sel lbda last A L i j) := by
  induction L with
  | nil =>
    intro first a A A' P _ h i j
    simpa [Spec.totalPhase, Spec.stackSizes, polLoop, polLoopR] using h i j
  | cons l rest ih =>
    obtain ⟨d, n, th⟩ := l
    intro first a A A' P hc h
    have hc' := (chain_next hc).2 d (n, th) rest rfl
    obtain ⟨⟨h0, hab, hQ⟩, -⟩ := chain_next hc'
    obtain ⟨hr, v, hv, ev⟩ := hp.acc (n, th) (nextMedium rest last) Q hab hQ hs
    obtain ⟨w, hw, ew⟩ := acc_phase hm lbda d n th (by exact_mod_cast hl)
    have ht : (sel (fresnel (n, th).1 (nextMedium rest last).1 (n, th).2 (nextMedium rest last).2)).2 ≠ 0 := by
      rw [hp.trans]
      have : 2 * n * cos th ≠ 0 := by rw [mul_assoc]; exact mul_ne_zero two_ne_zero h0
      exact div_ne_zero this hab
    have hsg := sigma_one hm ((interfaceCond_nonneg _ _ _).trans hQ) hs
    have hlay := acc_layer hm (delta := phase2x2 lbda d n th) hw ht hr hv hsg
    rw [← factorSize_eq hp, ← ev, ← ew] at hlay
    have hmul := acc_matMul hm h hlay
    have key := ih (n, th) _ _ _ _ hc' hmul
    intro i j
    rw [stackSizes_cons]
    have e : Spec.totalPhase lbda ((d, n, th) :: rest) = ‖phase2x2 lbda d n th‖ + Spec.totalPhase lbda rest := by
      simp [Spec.totalPhase, Spec.layerPhase, phase2x2]
    refine (key i j).mono (le_of_eq ?_) le_rfl
    rw [e, mul_add, Real.exp_add, List.length_cons, pow_succ]
    ring

/-- The transfer matrix of one polarisation. -/
lemma acc_matrix (hm : Accurate m τ) (hp : PolOk m τ pol sel) {lbda : ℝ} (hl : lbda ≠ 0) (hs : (τ ^ 2 - 1) * Q < 1) (first last : Medium) (inner : List (ℝ × Medium))
    (hc : Spec.Conditioned pol Q (Spec.media first last inner)) (f f' : ℂ × ℂ)
    (hf : f = sel (fresnel first.1 (nextMedium inner last).1 first.2 (nextMedium inner last).2))
    (hf' : f' = sel (m.fresnel first.1 (nextMedium inner last).1 first.2 (nextMedium inner last).2)) :
    ∀ i j, Rel (Spec.growth τ Q inner.length (Spec.totalPhase lbda inner)) (Spec.wholeSizes pol lbda first last inner i j)
      (polLoopR m sel lbda last (m.interfaceMatrix f'.1 f'.2) inner i j) (polLoop sel lbda last (interfaceMatrix f.1 f.2) inner i j) := by
  obtain ⟨⟨h0, hab, hQ⟩, -⟩ := chain_next hc
  obtain ⟨hr, v, hv, ev⟩ := hp.acc first (nextMedium inner last) Q hab hQ hs
  have ht : (sel (fresnel first.1 (nextMedium inner last).1 first.2 (nextMedium inner last).2)).2 ≠ 0 := by
    rw [hp.trans]
    have : 2 * first.1 * cos first.2 ≠ 0 := by rw [mul_assoc]; exact mul_ne_zero two_ne_zero h0
    exact div_ne_zero this hab
  have hsg := sigma_one hm ((interfaceCond_nonneg _ _ _).trans hQ) hs
  have hint := acc_interface hm ht hr hv hsg
  rw [← ev, ← hf, ← hf'] at hint
  have e : (!![1 / ‖f.2‖, Spec.interfaceCond pol first (nextMedium inner last) / ‖f.2‖; Spec.interfaceCond pol first (nextMedium inner last) / ‖f.2‖, 1 / ‖f.2‖] : Matrix (Fin 2) (Fin 2) ℝ) =
      Spec.factorSize pol 0 first (nextMedium inner last) := by
    rw [factorSize_eq hp, ← hf]
    simp
  rw [e] at hint
  have key := acc_loop hm hp hl hs last inner first _ _ _ _ hc hint
  intro i j
  unfold Spec.growth Spec.wholeSizes
  rw [headD_next, pow_succ]
  convert key i j using 1
  ring

end Loop

/-- The coefficients from the transfer matrix. -/
lemma acc_coeff {m : Machine} {τ G : ℝ} (hm : Accurate m τ) {A A' : Mat2} {P : Matrix (Fin 2) (Fin 2) ℝ} (h : ∀ i j, Rel G (P i j) (A' i j) (A i j))
    (h0 : 1 / A 0 0 ≠ 0) (hs : (G - 1) * (P 0 0 * ‖1 / A 0 0‖) < 1) :
    ‖m.div (A' 1 0) (A' 0 0) - A 1 0 / A 0 0‖ ≤ (G * τ / (1 - (G - 1) * (P 0 0 * ‖1 / A 0 0‖)) - 1) * (P 1 0 * ‖1 / A 0 0‖) ∧
    ‖m.div 1 (A' 0 0) - 1 / A 0 0‖ ≤ (τ / (1 - (G - 1) * (P 0 0 * ‖1 / A 0 0‖)) - 1) * ‖1 / A 0 0‖ := by
  have hA : A 0 0 ≠ 0 := fun e => h0 (by rw [e, div_zero])
  have e : (G - 1) * (P 0 0 * ‖1 / A 0 0‖) = (G - 1) * P 0 0 / ‖A 0 0‖ := by
    rw [norm_div, norm_one]; ring
  rw [e] at hs ⊢
  obtain ⟨w, hw, ew⟩ := (h 0 0).to_near hA hs
  rw [ew]
  constructor
  · have := (acc_div hm (h 1 0) hA hw).2.2
    rw [norm_div, norm_one]
    convert this using 1
    ring
  · have o : Rel 1 1 (1 : ℂ) 1 := by simpa using Rel.of_eq 1
    have := (acc_div hm o hA hw).2.2
    rw [norm_div, norm_one]
    convert this using 1
    ring

/-! ## The properties -/

/-- The coefficients of the exact loop are those `calculate2x2` reports. -/
lemma coefficients2x2_eq (asin : ℂ → ℂ) (s : Stack) (theta lbda : ℝ) :
    let c := coefficients2x2 lbda (frontMedium asin s theta) (backMedium asin s theta) (innerMedia asin (nOf s.front) theta s.layers)
    (calculate2x2 asin s theta lbda).jr = !![c.1, 0; 0, c.2.1] ∧ (calculate2x2 asin s theta lbda).jt = !![c.2.2.1, 0; 0, c.2.2.2] :=
  ⟨rfl, rfl⟩

/-- **C138.** s polarisation: the computed coefficients of any stack differ from the exact ones by the growth of the rounding errors times the conditioning of the stack. -/
theorem C138_s_polarisation {m : Machine} {τ Q lbda : ℝ} (hm : Accurate m τ) (hl : lbda ≠ 0) (hs : (τ ^ 2 - 1) * Q < 1) (first last : Medium) (inner : List (ℝ × Medium))
    (hc : Spec.Conditioned Spec.sPol Q (Spec.media first last inner)) (rs ts : ℂ) (hr : rs = (coefficients2x2 lbda first last inner).2.1)
    (ht : ts = (coefficients2x2 lbda first last inner).2.2.2) (ht0 : ts ≠ 0) (G K K' : ℝ) (hG : G = Spec.growth τ Q inner.length (Spec.totalPhase lbda inner))
    (hK : K = Spec.wholeSizes Spec.sPol lbda first last inner 0 0 * ‖ts‖) (hK' : K' = Spec.wholeSizes Spec.sPol lbda first last inner 1 0 * ‖ts‖)
    (hGK : (G - 1) * K < 1) :
    ‖(m.coefficients lbda first last inner).2.1 - rs‖ ≤ (G * τ / (1 - (G - 1) * K) - 1) * K' ∧
    ‖(m.coefficients lbda first last inner).2.2.2 - ts‖ ≤ (τ / (1 - (G - 1) * K) - 1) * ‖ts‖ := by
  have h := acc_matrix hm (polOk_s hm) hl hs first last inner hc _ _ rfl rfl
  subst hr ht hG hK hK'
  unfold coefficients2x2 Machine.coefficients Machine.matrices at *
  dsimp only at *
  rw [loop_split] at *
  rw [loopR_split]
  exact acc_coeff hm h ht0 hGK

/-- **C138.** p polarisation. -/
theorem C138_p_polarisation {m : Machine} {τ Q lbda : ℝ} (hm : Accurate m τ) (hl : lbda ≠ 0) (hs : (τ ^ 2 - 1) * Q < 1) (first last : Medium) (inner : List (ℝ × Medium))
    (hc : Spec.Conditioned Spec.pPol Q (Spec.media first last inner)) (rp tp : ℂ) (hr : rp = (coefficients2x2 lbda first last inner).1)
    (ht : tp = (coefficients2x2 lbda first last inner).2.2.1) (ht0 : tp ≠ 0) (G K K' : ℝ) (hG : G = Spec.growth τ Q inner.length (Spec.totalPhase lbda inner))
    (hK : K = Spec.wholeSizes Spec.pPol lbda first last inner 0 0 * ‖tp‖) (hK' : K' = Spec.wholeSizes Spec.pPol lbda first last inner 1 0 * ‖tp‖)
    (hGK : (G - 1) * K < 1) :
    ‖(m.coefficients lbda first last inner).1 - rp‖ ≤ (G * τ / (1 - (G - 1) * K) - 1) * K' ∧
    ‖(m.coefficients lbda first last inner).2.2.1 - tp‖ ≤ (τ / (1 - (G - 1) * K) - 1) * ‖tp‖ := by
  have h := acc_matrix hm (polOk_p hm) hl hs first last inner hc _ _ rfl rfl
  subst hr ht hG hK hK'
  unfold coefficients2x2 Machine.coefficients Machine.matrices at *
  dsimp only at *
  rw [loop_split] at *
  rw [loopR_split]
  exact acc_coeff hm h ht0 hGK

end PyElli
