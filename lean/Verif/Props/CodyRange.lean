import Verif.Props.CodyDouble

/-! # C140: where `CodyLorentz` stays within the range of doubles -/

namespace PyElli

open Dbl

/-- A double holding the number `x`, of modulus at most `10 ^ k`. -/
def Is (d : Dbl) (x : ℝ) (k : ℕ) : Prop := d = num x ∧ |x| ≤ 10 ^ k

namespace Is

variable {a b : Dbl} {x y : ℝ} {k l m : ℕ}

lemma mono (h : Is a x k) (hk : k ≤ l) : Is a x l := ⟨h.1, h.2.trans (pow_le_pow_right₀ (by norm_num) hk)⟩

lemma tighten (h : Is a x k) (hx : |x| ≤ 10 ^ l) : Is a x l := ⟨h.1, hx⟩

lemma of_num (hx : |x| ≤ 10 ^ k) : Is (num x) x k := ⟨rfl, hx⟩

lemma add (ha : Is a x k) (hb : Is b y k) (hk : k + 1 ≤ 300) : Is (Dbl.add a b) (x + y) (k + 1) := by
  have h : |x + y| ≤ 10 ^ (k + 1) := by
    have := abs_add_le x y
    have h0 : (0 : ℝ) ≤ 10 ^ k := by positivity
    have := ha.2
    have := hb.2
    rw [pow_succ]; linarith
  refine ⟨?_, h⟩
  rw [ha.1, hb.1, add_num]; exact small h hk

lemma sub (ha : Is a x k) (hb : Is b y k) (hk : k + 1 ≤ 300) : Is (Dbl.sub a b) (x - y) (k + 1) := by
  have hn : Is (neg b) (-y) k := ⟨by rw [hb.1]; rfl, by rw [abs_neg]; exact hb.2⟩
  rw [sub_eq_add_neg]
  exact ha.add hn hk

lemma mul (ha : Is a x k) (hb : Is b y l) (hk : k + l ≤ 300) : Is (Dbl.mul a b) (x * y) (k + l) := by
  have h : |x * y| ≤ 10 ^ (k + l) := by
    rw [abs_mul, pow_add]
    exact mul_le_mul ha.2 hb.2 (abs_nonneg _) (by positivity)
  refine ⟨?_, h⟩
  rw [ha.1, hb.1, mul_num]; exact small h hk

lemma sq (ha : Is a x k) (hk : k + k ≤ 300) : Is (Dbl.sq a) (x ^ 2) (k + k) := by
  rw [pow_two]; exact ha.mul ha hk

lemma div (ha : Is a x k) (hb : Is b y l) (hy : 1 ≤ |y| * 10 ^ m) (hk : k + m ≤ 300) : Is (Dbl.div a b) (x / y) (k + m) := by
  have hy0 : y ≠ 0 := by rintro rfl; simp at hy; linarith
  have hya := abs_pos.2 hy0
  have h : |x / y| ≤ 10 ^ (k + m) := by
    rw [abs_div, div_le_iff₀ hya, pow_add]
    have h0 : (0 : ℝ) ≤ 10 ^ k := by positivity
    have := ha.2
    nlinarith
  refine ⟨?_, h⟩
  rw [ha.1, hb.1, div_num _ hy0]; exact small h hk

end Is

/-- Parameters of ordinary size (energies in eV). -/
structure CodyBox (p : CodyPars) : Prop where
  Eg : 0 ≤ p.Eg ∧ p.Eg ≤ 1000
  A : 0 ≤ p.A ∧ p.A ≤ 10 ^ 6
  Et : 1 / 1000 ≤ p.Et ∧ p.Et ≤ 1000
  gamma : 1 / 1000 ≤ p.gamma ∧ p.gamma ≤ 1000
  Ep : 1 / 1000 ≤ p.Ep ∧ p.Ep ≤ 1000
  E0 : 0 ≤ p.E0 ∧ p.E0 ≤ 1000
  Eu : 1 / 10 ^ 6 ≤ p.Eu ∧ p.Eu ≤ 1000

/-- `G(E)`. -/
noncomputable def gVal (p : CodyPars) (E : ℝ) : ℝ := (E - p.Eg) ^ 2 / ((E - p.Eg) ^ 2 + p.Ep ^ 2)

/-- `L(E)`. -/
noncomputable def lVal (p : CodyPars) (E : ℝ) : ℝ := p.A * p.E0 * p.gamma * E / ((E ^ 2 - p.E0 ^ 2) ^ 2 + p.gamma ^ 2 * E ^ 2)

lemma is_pos {x : ℝ} {k : ℕ} (h0 : 0 ≤ x) (h : x ≤ 10 ^ k) : Is (num x) x k := Is.of_num (by rwa [abs_of_nonneg h0])

lemma is_G {p : CodyPars} (hp : CodyBox p) {E : ℝ} (h1 : 1 / 1000 ≤ E) (h2 : E ≤ 1000) : Is (codyGD p (num E)) (gVal p E) 0 := by
  have iE : Is (num E) E 3 := is_pos (by linarith) (by linarith)
  have iG : Is (num p.Eg) p.Eg 3 := is_pos hp.Eg.1 (by linarith [hp.Eg.2])
  have iP : Is (num p.Ep) p.Ep 3 := is_pos (by linarith [hp.Ep.1]) (by linarith [hp.Ep.2])
  have i1 := (iE.sub iG (by norm_num)).sq (by norm_num)
  have i2 := i1.add ((iP.sq (by norm_num)).mono (l := 4 + 4) (by norm_num)) (by norm_num)
  have hpos : 1 / 10 ^ 6 ≤ (E - p.Eg) ^ 2 + p.Ep ^ 2 := by nlinarith [hp.Ep.1, sq_nonneg (E - p.Eg)]
  have i3 := i1.div i2 (m := 6) (by rw [abs_of_pos (by linarith)]; linarith) (by norm_num)
  refine i3.tighten ?_
  rw [pow_zero, abs_of_nonneg (by positivity)]
  exact div_le_one_of_le₀ (by nlinarith [sq_nonneg p.Ep]) (by positivity)

lemma is_L {p : CodyPars} (hp : CodyBox p) {E : ℝ} (h1 : 1 / 1000 ≤ E) (h2 : E ≤ 1000) : Is (codyLD p (num E)) (lVal p E) 27 := by
  have iE : Is (num E) E 3 := is_pos (by linarith) (by linarith)
  have iA : Is (num p.A) p.A 6 := is_pos hp.A.1 hp.A.2
  have i0 : Is (num p.E0) p.E0 3 := is_pos hp.E0.1 (by linarith [hp.E0.2])
  have ig : Is (num p.gamma) p.gamma 3 := is_pos (by linarith [hp.gamma.1]) (by linarith [hp.gamma.2])
  have i1 := ((iA.mul i0 (by norm_num)).mul ig (by norm_num)).mul iE (by norm_num)
  have i2 := ((iE.sq (by norm_num)).sub (i0.sq (by norm_num)) (by norm_num)).sq (by norm_num)
  have i3 := (ig.sq (by norm_num)).mul (iE.sq (by norm_num)) (by norm_num)
  have i4 := i2.add (i3.mono (by norm_num)) (by norm_num)
  have hq : 1 / 10 ^ 6 ≤ p.gamma ^ 2 := by nlinarith [hp.gamma.1]
  have hr : 1 / 10 ^ 6 ≤ E ^ 2 := by nlinarith
  have hpos : 1 / 10 ^ 12 ≤ (E ^ 2 - p.E0 ^ 2) ^ 2 + p.gamma ^ 2 * E ^ 2 := by nlinarith [sq_nonneg (E ^ 2 - p.E0 ^ 2)]
  exact i1.div i4 (m := 12) (by rw [abs_of_pos (by linarith)]; linarith) (by norm_num)

lemma exp_600 : Real.exp 600 ≤ 10 ^ 262 := by
  have h30 : Real.exp 30 ≤ 1.07 * 10 ^ 13 := by
    have e : Real.exp 30 = Real.exp 1 ^ 30 := by rw [← Real.exp_nat_mul]; norm_num
    rw [e]
    refine (pow_le_pow_left₀ (Real.exp_pos 1).le Real.exp_one_lt_d9.le 30).trans ?_
    norm_num
  have e : Real.exp 600 = Real.exp 30 ^ 20 := by rw [← Real.exp_nat_mul]; norm_num
  rw [e]
  refine (pow_le_pow_left₀ (Real.exp_pos _).le h30 20).trans ?_
  rw [mul_pow, ← pow_mul]
  have : (1.07 : ℝ) ^ 20 ≤ 10 ^ 2 := by norm_num
  calc (1.07 : ℝ) ^ 20 * 10 ^ (13 * 20) ≤ 10 ^ 2 * 10 ^ (13 * 20) := mul_le_mul_of_nonneg_right this (by positivity)
    _ = 10 ^ 262 := by rw [← pow_add]

/-- The absorption. -/
noncomputable def eps2Val (p : CodyPars) (E : ℝ) : ℝ :=
  p.Et * gVal p p.Et * lVal p p.Et / E * Real.exp ((E - p.Et) / p.Eu) * heaviside (p.Et - E) 1 + gVal p E * lVal p E * heaviside (E - p.Et) 0

lemma heaviside_cases (x v : ℝ) (hv : v = 0 ∨ v = 1) : heaviside x v = 0 ∨ heaviside x v = 1 := by
  unfold heaviside
  split_ifs
  · exact Or.inl rfl
  · exact hv
  · exact Or.inr rfl

lemma is_eps2 {p : CodyPars} (hp : CodyBox p) {E : ℝ} (h1 : 1 / 1000 ≤ E) (h2 : E ≤ 1000) (hx : E - p.Et ≤ 600 * p.Eu) :
    Is (codyEps2D p (num E)) (eps2Val p E) 34 := by
  have iE : Is (num E) E 3 := is_pos (by linarith) (by linarith)
  have it : Is (num p.Et) p.Et 3 := is_pos (by linarith [hp.Et.1]) (by linarith [hp.Et.2])
  have iu : Is (num p.Eu) p.Eu 3 := is_pos (by have := hp.Eu.1; norm_num at this; linarith) (by linarith [hp.Eu.2])
  have hu0 : 0 < p.Eu := lt_of_lt_of_le (by norm_num) hp.Eu.1
  have iGt := is_G hp hp.Et.1 hp.Et.2
  have iLt := is_L hp hp.Et.1 hp.Et.2
  have iG := is_G hp h1 h2
  have iL := is_L hp h1 h2
  have i1 := (it.mul iGt (by norm_num)).mul iLt (by norm_num)
  have i2 := i1.div iE (m := 3) (by rw [abs_of_pos (by linarith)]; linarith) (by norm_num)
  have i3 := (iE.sub it (by norm_num)).div iu (m := 6) (by rw [abs_of_pos hu0]; have := hp.Eu.1; rw [div_le_iff₀ (by norm_num)] at this; exact this) (by norm_num)
  have hq : (E - p.Et) / p.Eu ≤ 600 := by rw [div_le_iff₀ hu0]; exact hx
  have hexp : |Real.exp ((E - p.Et) / p.Eu)| ≤ 10 ^ 262 := by
    rw [abs_of_pos (Real.exp_pos _)]
    exact (Real.exp_le_exp.mpr hq).trans exp_600
  have i4 : Is (Dbl.exp (Dbl.div (Dbl.sub (num E) (num p.Et)) (num p.Eu))) (Real.exp ((E - p.Et) / p.Eu)) 262 := by
    refine ⟨?_, hexp⟩
    rw [i3.1]
    exact small hexp (by norm_num)
  have i5 := i2.mul i4 (by norm_num)
  have hst : Is (Dbl.heaviside (Dbl.sub (num p.Et) (num E)) 1) (heaviside (p.Et - E) 1) 0 := by
    refine ⟨by rw [(it.sub iE (by norm_num)).1]; rfl, ?_⟩
    rcases heaviside_cases (p.Et - E) 1 (Or.inr rfl) with h | h <;> rw [h] <;> norm_num
  have hst' : Is (Dbl.heaviside (Dbl.sub (num E) (num p.Et)) 0) (heaviside (E - p.Et) 0) 0 := by
    refine ⟨by rw [(iE.sub it (by norm_num)).1]; rfl, ?_⟩
    rcases heaviside_cases (E - p.Et) 0 (Or.inl rfl) with h | h <;> rw [h] <;> norm_num
  have i6 := i5.mul hst (by norm_num)
  -- where the step is one the exponential is below one
  have i7 := i6.tighten (l := 33) (by
    by_cases hE : p.Et - E < 0
    · have : heaviside (p.Et - E) 1 = 0 := by simp [heaviside, hE]
      rw [this, mul_zero, abs_zero]; positivity
    · have hle : Real.exp ((E - p.Et) / p.Eu) ≤ 1 := by
        rw [Real.exp_le_one_iff]
        exact div_nonpos_of_nonpos_of_nonneg (by linarith) hu0.le
      rw [abs_mul, abs_mul]
      have h8 := i2.2
      have h9 := hst.2
      rw [pow_zero] at h9
      have h10 : |Real.exp ((E - p.Et) / p.Eu)| ≤ 1 := by rw [abs_of_pos (Real.exp_pos _)]; exact hle
      calc _ ≤ (10 : ℝ) ^ (3 + 0 + 27 + 3) * 1 * 1 :=
            mul_le_mul (mul_le_mul h8 h10 (abs_nonneg _) (by positivity)) h9 (abs_nonneg _) (by positivity)
        _ = 10 ^ 33 := by norm_num)
  have i8 := ((iG.mul iL (by norm_num)).mul hst' (by norm_num)).mono (l := 33) (by norm_num)
  exact i7.add i8 (by norm_num)

lemma codyEps2_dict (p : CodyPars) (hp : CodyBox p) {E : ℝ} (hE : E ≠ 0) : codyEps2 p.dict E = some (eps2Val p E) := by
  have hPp : 0 < p.Ep := by linarith [hp.Ep.1]
  have hgp : 0 < p.gamma := by linarith [hp.gamma.1]
  have htp : 0 < p.Et := by linarith [hp.Et.1]
  have hup : p.Eu ≠ 0 := by have := hp.Eu.1; norm_num at this; exact (by linarith : 0 < p.Eu).ne'
  have d1 : ∀ x : ℝ, (x - p.Eg) ^ 2 + p.Ep ^ 2 ≠ 0 := fun x => by positivity
  have d2 : ∀ x : ℝ, x ≠ 0 → (x ^ 2 - p.E0 ^ 2) ^ 2 + p.gamma ^ 2 * x ^ 2 ≠ 0 := fun x hx => by positivity
  have g : (∀ k v, (k, v) ∈ p.dict → p.dict.get k = some v) := by
    intro k v hkv
    simp only [CodyPars.dict, List.mem_cons, Prod.mk.injEq, List.not_mem_nil, or_false] at hkv
    rcases hkv with ⟨rfl, rfl⟩ | ⟨rfl, rfl⟩ | ⟨rfl, rfl⟩ | ⟨rfl, rfl⟩ | ⟨rfl, rfl⟩ | ⟨rfl, rfl⟩ | ⟨rfl, rfl⟩ <;> rfl
  rw [codyEps2, g "Eg" p.Eg (by simp [CodyPars.dict]), g "A" p.A (by simp [CodyPars.dict]), g "Et" p.Et (by simp [CodyPars.dict]),
    g "gamma" p.gamma (by simp [CodyPars.dict]), g "Ep" p.Ep (by simp [CodyPars.dict]), g "E0" p.E0 (by simp [CodyPars.dict]), g "Eu" p.Eu (by simp [CodyPars.dict])]
  simp only [Option.bind_eq_bind, Option.bind_some, codyG, codyL, divN_ne (d1 _), divN_ne (d2 _ htp.ne'), divN_ne (d2 _ hE), divN_ne hE, divN_ne hup]
  rfl

/-! ## The transform -/

/-- One summand. -/
noncomputable def termVal (t x xi : ℝ) : ℝ := t / (x * (1 - x * x / (xi * xi)))

lemma node_gap {i j : ℕ} (hij : i ≠ j) : 9 ≤ |codyNode i - codyNode j| := by
  unfold codyNode
  have e : (50 + (i : ℝ) * (9950 / 999)) - (50 + j * (9950 / 999)) = (((i : ℤ) - j : ℤ) : ℝ) * (9950 / 999) := by push_cast; ring
  rw [e, abs_mul, ← Int.cast_abs]
  have h1 : (1 : ℤ) ≤ |(i : ℤ) - j| := Int.one_le_abs (by omega)
  have h2 : (1 : ℝ) ≤ ((|(i : ℤ) - j| : ℤ) : ℝ) := by exact_mod_cast h1
  rw [abs_of_pos (by norm_num : (0 : ℝ) < 9950 / 999)]
  nlinarith

lemma kernel_lower {i j : ℕ} (hi : i < 1000) (hj : j < 1000) (hij : i ≠ j) :
    1 ≤ |codyNode j * (1 - codyNode j * codyNode j / (codyNode i * codyNode i))| * 10 ^ 2 := by
  obtain ⟨a1, a2⟩ := codyNode_bounds hi
  obtain ⟨b1, b2⟩ := codyNode_bounds hj
  have hg := node_gap hij
  generalize codyNode i = xi at *
  generalize codyNode j = x at *
  have h0 : 0 < xi := by linarith
  have e : x * (1 - x * x / (xi * xi)) = x * ((xi - x) * (xi + x)) / (xi * xi) := by field_simp; ring
  rw [e, abs_div, abs_mul, abs_mul, abs_of_pos (by linarith : 0 < x), abs_of_pos (by linarith : 0 < xi + x), abs_of_pos (by positivity : 0 < xi * xi),
    div_mul_eq_mul_div, le_div_iff₀ (by positivity)]
  have h1 : 9 * xi ≤ |xi - x| * (xi + x) := mul_le_mul hg (by linarith) h0.le (abs_nonneg _)
  have h2 : 50 * (9 * xi) ≤ x * (|xi - x| * (xi + x)) := mul_le_mul b1 h1 (by positivity) (by linarith)
  nlinarith

lemma is_term {t : Dbl} {v : ℝ} (ht : Is t v 34) {i j : ℕ} (hi : i < 1000) (hj : j < 1000) (hij : i ≠ j) :
    Is (kkrTermD t (codyNode j) (codyNode i)) (termVal v (codyNode j) (codyNode i)) 36 := by
  obtain ⟨a1, a2⟩ := codyNode_bounds hi
  obtain ⟨b1, b2⟩ := codyNode_bounds hj
  have hk := kernel_lower hi hj hij
  have ix : Is (num (codyNode j)) (codyNode j) 4 := is_pos (by linarith) (by linarith)
  have iy : Is (num (codyNode i)) (codyNode i) 4 := is_pos (by linarith) (by linarith)
  have i1 : Is (num 1) 1 8 := is_pos (by norm_num) (by norm_num)
  have hy : 1 ≤ |codyNode i * codyNode i| * 10 ^ 0 := by rw [abs_of_pos (by nlinarith), pow_zero]; nlinarith
  have i2 := (ix.mul ix (by norm_num)).div (iy.mul iy (by norm_num)) hy (by norm_num)
  have i3 := ix.mul (i1.sub i2 (by norm_num)) (by norm_num)
  exact ht.div i3 hk (by norm_num)

lemma is_foldl {f : ℕ → Dbl} {g : ℕ → ℝ} (l : List ℕ) (h : ∀ j ∈ l, Is (f j) (g j) 36) (a : ℝ) (c : ℕ) (ha : |a| ≤ c * 10 ^ 36) (hc : c + l.length ≤ 1000) :
    (l.map f).foldl Dbl.add (num a) = num (a + (l.map g).sum) ∧ |a + (l.map g).sum| ≤ ((c + l.length : ℕ) : ℝ) * 10 ^ 36 := by
  induction l generalizing a c with
  | nil => simpa using ha
  | cons j l ih =>
    have hj := h j List.mem_cons_self
    have hb : |a + g j| ≤ ((c + 1 : ℕ) : ℝ) * 10 ^ 36 := by
      have := abs_add_le a (g j)
      have := hj.2
      push_cast
      linarith
    have hlen : c + 1 + l.length ≤ 1000 := by simp only [List.length_cons] at hc; omega
    have hs : Dbl.add (num a) (f j) = num (a + g j) := by
      rw [hj.1, add_num]
      refine small (k := 39) (hb.trans ?_) (by norm_num)
      have : ((c + 1 : ℕ) : ℝ) ≤ 1000 := by exact_mod_cast (by omega : c + 1 ≤ 1000)
      norm_num at this ⊢
      linarith
    have := ih (fun j' hj' => h j' (List.mem_cons_of_mem _ hj')) (a + g j) (c + 1) hb hlen
    simp only [List.map_cons, List.foldl_cons, List.sum_cons, List.length_cons]
    rw [hs, ← add_assoc]
    have e : c + (l.length + 1) = c + 1 + l.length := by omega
    rw [e]
    exact this

lemma slice2_length (s : ℕ) : (slice2 s 1000).length ≤ 1000 := by
  unfold slice2
  exact (List.length_filter_le _ _).trans (by simp)

/-- Entry `i` of the transform of the values `t`. -/
noncomputable def kkrVal (t : ℕ → ℝ) (i : ℕ) : ℝ :=
  4 / Real.pi * kkrInterval codyNode i * ((slice2 (if i % 2 = 0 then 1 else 0) 1000).map fun j => termVal (t j) (codyNode j) (codyNode i)).sum

lemma mem_slice {i j : ℕ} (h : j ∈ slice2 (if i % 2 = 0 then 1 else 0) 1000) : j < 1000 ∧ i ≠ j := by
  simp only [slice2, List.mem_filter, List.mem_range, decide_eq_true_eq] at h
  refine ⟨h.1, ?_⟩
  rintro rfl
  have := h.2
  split_ifs at this <;> omega

lemma interval_bounds {i : ℕ} (hi : i < 1000) : |kkrInterval codyNode i| ≤ 10 ^ 2 := by
  unfold kkrInterval
  split_ifs with h
  · norm_num [codyNode, abs_le]
  · have h1 : ((i - 1 : ℕ) : ℝ) = (i : ℝ) - 1 := by push_cast [Nat.one_le_iff_ne_zero.2 h]; ring
    have e : codyNode i - codyNode (i - 1) = 9950 / 999 := by unfold codyNode; rw [h1]; ring
    rw [e]; norm_num [abs_le]

lemma is_kkr {t : ℕ → Dbl} {v : ℕ → ℝ} (ht : ∀ j < 1000, Is (t j) (v j) 34) {i : ℕ} (hi : i < 1000) : Is (kkrPointD t codyNode 1000 i) (kkrVal v i) 42 := by
  have hs := is_foldl (f := fun j => kkrTermD (t j) (codyNode j) (codyNode i)) (g := fun j => termVal (v j) (codyNode j) (codyNode i))
    (slice2 (if i % 2 = 0 then 1 else 0) 1000) (fun j hj => is_term (ht j (mem_slice hj).1) hi (mem_slice hj).1 (mem_slice hj).2) 0 0 (by simp)
    (by rw [zero_add]; exact slice2_length _)
  simp only [zero_add] at hs
  have isum : Is (sumD ((slice2 (if i % 2 = 0 then 1 else 0) 1000).map fun j => kkrTermD (t j) (codyNode j) (codyNode i)))
      ((slice2 (if i % 2 = 0 then 1 else 0) 1000).map fun j => termVal (v j) (codyNode j) (codyNode i)).sum 39 := by
    refine ⟨hs.1, hs.2.trans ?_⟩
    have : (((slice2 (if i % 2 = 0 then 1 else 0) 1000).length : ℕ) : ℝ) ≤ 1000 := by exact_mod_cast slice2_length _
    calc _ ≤ (1000 : ℝ) * 10 ^ 36 := mul_le_mul_of_nonneg_right this (by positivity)
      _ = 10 ^ 39 := by norm_num
  have i4 : Is (num 4) 4 1 := is_pos (by norm_num) (by norm_num)
  have hpi := Real.pi_gt_three
  have ipi : Is (num Real.pi) Real.pi 1 := is_pos (by linarith) (by linarith [Real.pi_le_four])
  have i5 := i4.div ipi (m := 0) (by rw [abs_of_pos (by linarith), pow_zero]; linarith) (by norm_num)
  exact (i5.mul (Is.of_num (interval_bounds hi)) (by norm_num)).mul isum (by norm_num)

lemma sumN_some {l : List ℕ} (g : ℕ → ℝ) (f : ℕ → Option ℝ) (h : ∀ j ∈ l, f j = some (g j)) : sumN (l.map f) = some (l.map g).sum := by
  induction l with
  | nil => rfl
  | cons a l ih =>
    rw [List.map_cons, h a List.mem_cons_self, List.map_cons, List.sum_cons]
    simp only [sumN, ih fun j hj => h j (List.mem_cons_of_mem _ hj), Option.map_some]

lemma kkrPoint_val (v : ℕ → ℝ) {i : ℕ} (hi : i < 1000) : kkrPoint .im2reReciprocal v codyNode 1000 i = some (kkrVal v i) := by
  have hterm : ∀ j ∈ slice2 (if i % 2 = 0 then 1 else 0) 1000,
      KkrKind.im2reReciprocal.term (v j) (codyNode j) (codyNode i) = some (termVal (v j) (codyNode j) (codyNode i)) := by
    intro j hj
    obtain ⟨hj1, hij⟩ := mem_slice hj
    have hk := kernel_lower hi hj1 hij
    have hne : codyNode j * (1 - codyNode j * codyNode j / (codyNode i * codyNode i)) ≠ 0 := by
      intro h0; rw [h0] at hk; norm_num at hk
    have h1 : codyNode i * codyNode i ≠ 0 := by have := (codyNode_bounds hi).1; positivity
    change (divN (codyNode j * codyNode j) (codyNode i * codyNode i)).bind (fun q => divN (v j) (codyNode j * (1 - q))) = _
    rw [divN_ne h1, Option.bind_some, divN_ne hne]; rfl
  have hs := sumN_some (fun j => termVal (v j) (codyNode j) (codyNode i)) _ hterm
  unfold kkrPoint kkrIntegral kkrVal
  by_cases hm : i % 2 = 0
  · rw [if_pos hm] at hs
    rw [if_pos hm, if_pos hm, hs]; rfl
  · rw [if_neg hm] at hs
    rw [if_neg hm, if_neg hm, hs]; rfl

lemma kkrPoint_congr {t t' x x' : ℕ → ℝ} {i : ℕ} (hi : i < 1000) (ht : ∀ j < 1000, t j = t' j) (hx : ∀ j < 1000, x j = x' j) :
    kkrPoint .im2reReciprocal t x 1000 i = kkrPoint .im2reReciprocal t' x' 1000 i := by
  have hI : kkrInterval x i = kkrInterval x' i := by
    unfold kkrInterval
    rw [hx 0 (by norm_num), hx 1 (by norm_num), hx i hi, hx (i - 1) (by omega)]
  have hS : ∀ s, (slice2 s 1000).map (fun j => KkrKind.im2reReciprocal.term (t j) (x j) (x i)) =
      (slice2 s 1000).map (fun j => KkrKind.im2reReciprocal.term (t' j) (x' j) (x' i)) := by
    intro s
    refine List.map_congr_left fun j hj => ?_
    have hj' : j < 1000 := by
      simp only [slice2, List.mem_filter, List.mem_range] at hj
      exact hj.1
    rw [ht j hj', hx j hj', hx i hi]
  unfold kkrPoint kkrIntegral
  rw [hI, hS, hS]

lemma getD_node {j : ℕ} (hj : j < 1000) : codyNodes.getD j 0 = codyNode j := by
  rw [List.getD_eq_getElem?_getD, codyNodes_get j (by rw [codyNodes_length]; exact hj)]
  rfl

/-- Absorption at the nodes. -/
noncomputable def nodeVal (K : PhysConst) (p : CodyPars) (j : ℕ) : ℝ := eps2Val p (photon K (codyNode j))

/-- The exact dielectric function, with the table of real parts written out. -/
lemma exact_cody (K : PhysConst) {p : CodyPars} (hp : CodyBox p) (lbda : ℝ) :
    codyLorentz K p.dict lbda = (mkTable codyNodes (((List.range 1000).map (kkrVal (nodeVal K p))).map Complex.ofReal)).bind fun t =>
        (t.value lbda).map fun re =>
          re.bind fun re => ((conversionWavelengthEnergy K lbda).bind (codyEps2 p.dict)).map fun im : ℝ => re + Complex.I * (im : ℂ) := by
  have h1 := allSome_map codyNodes (fun l => (conversionWavelengthEnergy K l).bind (codyEps2 p.dict)) (fun l => eps2Val p (photon K l)) fun l hl => by
    have hl0 := (codyNodes_pos l hl).ne'
    rw [energy_photon K hl0, Option.bind_some, codyEps2_dict p hp (photon_ne K hl0)]
  have h2 : calcKkr .im2reReciprocal (codyNodes.map fun l => eps2Val p (photon K l)) codyNodes =
      .ok ((List.range 1000).map fun i => some (kkrVal (nodeVal K p) i)) := by
    unfold calcKkr
    rw [if_neg (by simp), if_neg (by rw [codyNodes_length]; norm_num), codyNodes_length]
    refine congrArg Except.ok (List.map_congr_left fun i hi => ?_)
    rw [List.mem_range] at hi
    rw [← kkrPoint_val _ hi]
    refine kkrPoint_congr hi (fun j hj => ?_) fun j hj => getD_node hj
    rw [List.getD_eq_getElem?_getD, List.getElem?_map, codyNodes_get j (by rw [codyNodes_length]; exact hj)]
    rfl
  have h3 := allSome_map (List.range 1000) (fun i => some (kkrVal (nodeVal K p) i)) (kkrVal (nodeVal K p)) fun i _ => rfl
  exact codyLorentz_unfold K p.dict lbda h1 h2 h3

lemma mem_table {v : ℕ → ℝ} {r : ℝ × ℂ} (h : r ∈ codyNodes.zip (((List.range 1000).map v).map Complex.ofReal)) :
    ∃ a < 1000, r = (codyNode a, (v a : ℂ)) := by
  obtain ⟨a, ha⟩ := List.mem_iff_getElem?.1 h
  rw [List.getElem?_zip_eq_some] at ha
  have hlt : a < 1000 := by
    by_contra hc
    rw [List.getElem?_eq_none (by rw [codyNodes_length]; omega)] at ha
    cases ha.1
  refine ⟨a, hlt, ?_⟩
  have h1 := codyNodes_get a (by rw [codyNodes_length]; exact hlt)
  rw [h1] at ha
  have h2 := ha.2
  rw [List.getElem?_map, List.getElem?_map, List.getElem?_range hlt] at h2
  exact Prod.ext (Option.some.inj ha.1).symm (Option.some.inj h2).symm

lemma table_mem (v : ℕ → ℝ) {a : ℕ} (ha : a < 1000) : (codyNode a, (v a : ℂ)) ∈ codyNodes.zip (((List.range 1000).map v).map Complex.ofReal) := by
  refine List.mem_of_getElem? (i := a) ?_
  rw [List.getElem?_zip_eq_some]
  refine ⟨codyNodes_get a (by rw [codyNodes_length]; exact ha), ?_⟩
  rw [List.getElem?_map, List.getElem?_map, List.getElem?_range ha]
  rfl

lemma is_chord {x0 x1 v : ℝ} {y0 y1 : Dbl} {a b : ℝ} (h0 : Is y0 a 42) (h1 : Is y1 b 42) (hx : x1 - x0 = 9950 / 999) (hx0 : 50 ≤ x0) (hx1 : x1 ≤ 10000)
    (hv0 : x0 ≤ v) (hv1 : v ≤ x1) : Is (chordD x0 x1 y0 y1 v) ((b - a) / (x1 - x0) * (v - x0) + a) 49 := by
  have ix0 : Is (num x0) x0 4 := is_pos (by linarith) (by linarith)
  have ix1 : Is (num x1) x1 4 := is_pos (by linarith) (by linarith)
  have iv : Is (num v) v 4 := is_pos (by linarith) (by linarith)
  have i1 := (h1.sub h0 (by norm_num)).div (ix1.sub ix0 (by norm_num)) (m := 0) (by rw [hx]; norm_num [abs_of_pos]) (by norm_num)
  have i2 := (i1.mul (iv.sub ix0 (by norm_num)) (by norm_num)).add (h0.mono (by norm_num)) (by norm_num)
  refine ⟨?_, i2.2⟩
  unfold chordD
  simp only
  rw [i2.1]

/-- C140, the half that holds: for parameters of ordinary size and a tail of at least a six-hundredth of the distance from its start to the photon energy at
50 nm, no intermediate result leaves the range of doubles and the result is that of exact arithmetic. Missing: narrower tails (`C140_narrow_tail_refuted`). -/
theorem C140_wide_tail_partial (K : PhysConst) (p : CodyPars) (hK : 1 ≤ photon K 50 ∧ photon K 50 ≤ 1000) (hp : CodyBox p)
    (hu : photon K 50 - p.Et ≤ 600 * p.Eu) (lbda : ℝ) (h1 : 50 ≤ lbda) (h2 : lbda ≤ 10000) :
    ∃ re im : ℝ, codyLorentzD K p lbda = .ok (num re, num im) ∧ codyLorentz K p.dict lbda = .ok (some ⟨re, im⟩) := by
  have henergy : ∀ l, 50 ≤ l → l ≤ 10000 → energyD K l = num (photon K l) ∧ 1 / 1000 ≤ photon K l ∧ photon K l ≤ photon K 50 := by
    intro l hl1 hl2
    obtain ⟨e1, e2⟩ := energyD_eq K (v := l) (by linarith) (hl2.trans (by norm_num)) (hK.2.trans (by norm_num))
    have e : photon K l * l = 50 * photon K 50 := by
      have : l ≠ 0 := by linarith
      unfold photon; field_simp
    refine ⟨e1, ?_, ?_⟩ <;> nlinarith [hK.1]
  have hnode : ∀ j < 1000, Is (codyEps2D p (energyD K (codyNode j))) (nodeVal K p j) 34 := by
    intro j hj
    obtain ⟨b1, b2⟩ := codyNode_bounds hj
    obtain ⟨e1, e2, e3⟩ := henergy _ b1 b2
    rw [e1]
    exact is_eps2 hp e2 (by linarith [hK.2]) (by linarith)
  have heps1 : ∀ i < 1000, Is (codyEps1D K p i) (kkrVal (nodeVal K p) i) 42 := fun i hi => is_kkr hnode hi
  obtain ⟨e1, e2, e3⟩ := henergy lbda h1 h2
  have him : Is (codyEps2D p (energyD K lbda)) (eps2Val p (photon K lbda)) 34 := by
    rw [e1]
    exact is_eps2 hp e2 (by linarith [hK.2]) (by linarith)
  have hl0 : lbda ≠ 0 := by linarith
  have him' : (conversionWavelengthEnergy K lbda).bind (codyEps2 p.dict) = some (eps2Val p (photon K lbda)) := by
    rw [energy_photon K hl0, Option.bind_some, codyEps2_dict p hp (photon_ne K hl0)]
  have hv : (((List.range 1000).map (kkrVal (nodeVal K p))).map Complex.ofReal).length = codyNodes.length := by rw [codyNodes_length]; simp
  have hlen : 2 ≤ codyNodes.length := by rw [codyNodes_length]; norm_num
  have e0 : codyNode 0 = 50 := by simp [codyNode]
  have e999 : codyNode 999 = 10000 := by norm_num [codyNode]
  -- the interpolation
  obtain ⟨re, hre, hre49, t, hT, hval⟩ : ∃ re : ℝ, interpD codyNode (codyEps1D K p) 1000 lbda = .ok (num re) ∧ |re| ≤ 10 ^ 49 ∧
      ∃ t, mkTable codyNodes (((List.range 1000).map (kkrVal (nodeVal K p))).map Complex.ofReal) = .ok t ∧ t.value lbda = .ok (some (re : ℂ)) := by
    obtain ⟨k, hk, hk1, hk2, hk3⟩ := count_nodes (lbda := lbda) (by rw [e0]; exact h1)
    have hI : interpD codyNode (codyEps1D K p) 1000 lbda = .ok (if k = 1000 - 1 then codyEps1D K p k else if codyNode k = lbda then codyEps1D K p k
        else chordD (codyNode k) (codyNode (k + 1)) (codyEps1D K p k) (codyEps1D K p (k + 1)) lbda) := by
      unfold interpD
      rw [if_neg (by rw [e0, (e999 : codyNode (1000 - 1) = 10000)]; push Not; exact ⟨h1, h2⟩)]
      simp only
      rw [hk]
    by_cases hkl : codyNode k = lbda
    · obtain ⟨t, hT, hval⟩ := C53_node codyNodes _ hv hlen codyNodes_nodup _ (table_mem (kkrVal (nodeVal K p)) hk1)
      refine ⟨kkrVal (nodeVal K p) k, ?_, (heps1 k hk1).2.trans (pow_le_pow_right₀ (by norm_num) (by norm_num)), t, hT, ?_⟩
      · rw [hI, if_pos hkl, ite_self, (heps1 k hk1).1]
      · rw [← hkl]; exact hval
    · have hk9 : k ≠ 999 := by
        rintro rfl
        exact hkl (le_antisymm hk2 (by rw [e999]; exact h2))
      have hk4 : k + 1 < 1000 := by omega
      have hlt := hk3 hk4
      have hlt' : codyNode k < lbda := lt_of_le_of_ne hk2 hkl
      have hgap : codyNode (k + 1) - codyNode k = 9950 / 999 := by unfold codyNode; push_cast; ring
      have ic := is_chord (heps1 k hk1) (heps1 (k + 1) hk4) hgap (codyNode_bounds hk1).1 (codyNode_bounds hk4).2 hk2 hlt.le
      obtain ⟨t, hT, pp, hpp, qq, hqq, -, hp1, hq1, hno, hval⟩ := C53_chord codyNodes _ hv hlen codyNodes_nodup lbda
        ⟨50, codyNodes_first, h1⟩ ⟨10000, codyNodes_last, h2⟩
      obtain ⟨a, ha, rfl⟩ := mem_table hpp
      obtain ⟨b, hb, rfl⟩ := mem_table hqq
      simp only at hp1 hq1 hno
      have mem : ∀ c < 1000, codyNode c ∈ codyNodes := fun c hc => List.mem_of_getElem? (codyNodes_get c (by rw [codyNodes_length]; exact hc))
      have hak : a = k := by
        have u1 : a < k + 1 := codyNode_lt.1 (lt_of_le_of_lt hp1 hlt)
        have u2 : k ≤ a := by
          rcases hno _ (mem k hk1) with h | h
          · exact codyNode_le.1 h
          · linarith
        omega
      have hbk : b = k + 1 := by
        have u1 : k < b := codyNode_lt.1 (lt_of_lt_of_le hlt' hq1)
        have u2 : b ≤ k + 1 := by
          rcases hno _ (mem (k + 1) hk4) with h | h
          · linarith
          · exact codyNode_le.1 h
        omega
      subst hak hbk
      refine ⟨_, ?_, ic.2, t, hT, ?_⟩
      · rw [hI, if_neg (by omega), if_neg hkl, ic.1]
      · rw [hval]
        refine congrArg (fun z => Except.ok (some z)) ?_
        unfold Spec.chord
        push_cast
        ring
  refine ⟨re, eps2Val p (photon K lbda), ?_, ?_⟩
  · unfold codyLorentzD
    rw [hre, him.1]
    have z : Is (num 0) 0 0 := is_pos le_rfl (by norm_num)
    have o : Is (num 1) 1 0 := is_pos (by norm_num) (by norm_num)
    have iim : Is (num (eps2Val p (photon K lbda))) _ 34 := Is.of_num him.2
    have ire : Is (num re) re 49 := Is.of_num hre49
    have r1 := ire.add (((z.mul iim (by norm_num)).sub ((o.mul z (by norm_num)).mono (by norm_num)) (by norm_num)).mono (l := 49) (by norm_num)) (by norm_num)
    have r2 := ((z.mul z (by norm_num)).mono (l := 34) (by norm_num)).add ((o.mul iim (by norm_num)).mono (by norm_num)) (by norm_num)
    simp only [Except.map]
    rw [r1.1, r2.1]
    simp
  · rw [exact_cody K hp, hT]
    simp only [Except.bind]
    rw [hval, him']
    simp only [Except.map, Option.bind_some, Option.map_some]
    refine congrArg (fun z => Except.ok (some z)) ?_
    apply Complex.ext <;> simp

/-- The template of the class, at 632.8 nm. -/
example : ∃ re im : ℝ, codyLorentzD codataConst (codyTemplate 0.05) 632.8 = .ok (num re, num im) ∧
    codyLorentz codataConst (codyTemplate 0.05).dict 632.8 = .ok (some ⟨re, im⟩) :=
  C140_wide_tail_partial codataConst (codyTemplate 0.05) (by norm_num [photon, codataConst])
    ⟨by norm_num [codyTemplate], by norm_num [codyTemplate], by norm_num [codyTemplate], by norm_num [codyTemplate], by norm_num [codyTemplate],
      by norm_num [codyTemplate], by norm_num [codyTemplate]⟩ (by norm_num [photon, codataConst, codyTemplate]) 632.8 (by norm_num) (by norm_num)

end PyElli
