import Verif.Props.KkrLimit
import Mathlib.Analysis.Calculus.ContDiff.RCLike

/-! # The accuracy of the Kramers-Kronig sums (C89) -/

namespace PyElli

open Filter Topology

/-! ## Odd harmonic numbers -/

lemma oddHarm_two_succ (m : ℕ) : oddHarm (2 * (m + 1)) = oddHarm (2 * m) + 2 / (2 * (m : ℝ) + 1) := by
  rw [show 2 * (m + 1) = 2 * m + 1 + 1 by ring]
  unfold oddHarm
  rw [Finset.sum_range_succ, Finset.sum_range_succ, if_neg (by omega), if_pos (by omega), add_zero]
  push_cast
  ring

/-- The distance of the odd harmonic numbers from the logarithm. -/
lemma oddHarm_between : ∃ c, ∀ m : ℕ, Real.log (2 * m + 1) + c ≤ oddHarm (2 * (m + 1)) ∧ oddHarm (2 * (m + 1)) ≤ Real.log (2 * m + 3) + c := by
  obtain ⟨c, hc⟩ := oddHarm_asymp
  have hlow : Antitone fun m : ℕ => oddHarm (2 * (m + 1)) - Real.log (2 * m + 1) := by
    refine antitone_nat_of_succ_le fun m => ?_
    rw [oddHarm_two_succ (m + 1)]
    push_cast
    have h1 : (0 : ℝ) < 2 * m + 1 := by positivity
    have h3 : (0 : ℝ) < 2 * m + 3 := by positivity
    have e : 2 * ((m : ℝ) + 1) + 1 = 2 * m + 3 := by ring
    rw [e]
    have := Real.log_le_sub_one_of_pos (div_pos h1 h3)
    rw [Real.log_div h1.ne' h3.ne'] at this
    have e2 : (2 * (m : ℝ) + 1) / (2 * m + 3) - 1 = -(2 / (2 * m + 3)) := by field_simp; ring
    linarith
  have hup : Monotone fun m : ℕ => oddHarm (2 * (m + 1)) - Real.log (2 * m + 3) := by
    refine monotone_nat_of_le_succ fun m => ?_
    rw [oddHarm_two_succ (m + 1)]
    push_cast
    have h1 : (0 : ℝ) < 2 * m + 3 := by positivity
    have h3 : (0 : ℝ) < 2 * m + 5 := by positivity
    have e : 2 * ((m : ℝ) + 1) + 1 = 2 * m + 3 := by ring
    have e' : 2 * ((m : ℝ) + 1) + 3 = 2 * m + 5 := by ring
    rw [e, e']
    have := Real.log_le_sub_one_of_pos (div_pos h3 h1)
    rw [Real.log_div h3.ne' h1.ne'] at this
    have e2 : (2 * (m : ℝ) + 5) / (2 * m + 3) - 1 = 2 / (2 * m + 3) := by field_simp; ring
    linarith
  have hsub : Tendsto (fun m : ℕ => 2 * (m + 1)) atTop atTop := tendsto_atTop_mono (fun m => by omega : ∀ m, m ≤ 2 * (m + 1)) tendsto_id
  have t := hc.comp hsub
  have hlog : ∀ d : ℝ, 0 < d → Tendsto (fun m : ℕ => Real.log (((2 * (m + 1) : ℕ) : ℝ)) - Real.log (2 * m + d)) atTop (𝓝 0) := by
    intro d hd
    have ht : Tendsto (fun m : ℕ => (((2 * (m + 1) : ℕ) : ℝ)) / (2 * m + d)) atTop (𝓝 1) := by
      have h0 : Tendsto (fun m : ℕ => (2 - d) / (2 * (m : ℝ) + d)) atTop (𝓝 0) := by
        refine Tendsto.div_atTop tendsto_const_nhds ?_
        exact tendsto_atTop_add_const_right _ _ (tendsto_natCast_atTop_atTop.const_mul_atTop two_pos)
      have := h0.const_add 1
      rw [add_zero] at this
      refine this.congr fun m => ?_
      have hp : 2 * (m : ℝ) + d ≠ 0 := by positivity
      push_cast
      field_simp
      ring
    have := (Real.continuousAt_log one_ne_zero).tendsto.comp ht
    rw [Real.log_one] at this
    refine this.congr fun m => ?_
    have hp : 2 * (m : ℝ) + d ≠ 0 := by positivity
    simp only [Function.comp]
    rw [Real.log_div (by positivity) hp]
  have t1 := t.add (hlog 1 one_pos)
  have t3 := t.add (hlog 3 (by norm_num))
  rw [add_zero] at t1 t3
  refine ⟨c, fun m => ⟨?_, ?_⟩⟩
  · have := hlow.le_of_tendsto (t1.congr fun m => by simp only [Function.comp]; ring) m
    linarith
  · have := hup.ge_of_tendsto (t3.congr fun m => by simp only [Function.comp]; ring) m
    linarith

lemma oddHarm_bound : ∃ c, ∀ q : ℕ, 1 ≤ q → |oddHarm (q + 1) - Real.log q - c| ≤ 2 / q := by
  obtain ⟨c, h⟩ := oddHarm_between
  refine ⟨c, fun q hq => ?_⟩
  have key : ∀ {x y : ℝ}, 0 < x → 0 < y → Real.log x - Real.log y ≤ x / y - 1 := fun hx hy => by
    rw [← Real.log_div hx.ne' hy.ne']
    exact Real.log_le_sub_one_of_pos (div_pos hx hy)
  rcases Nat.even_or_odd' q with ⟨m, rfl | rfl⟩
  · obtain ⟨k, rfl⟩ : ∃ k, m = k + 1 := ⟨m - 1, by omega⟩
    obtain ⟨h1, h2⟩ := h k
    rw [oddHarm_odd]
    push_cast
    have p1 : (0 : ℝ) < 2 * k + 1 := by positivity
    have p2 : (0 : ℝ) < 2 * (k + 1) := by positivity
    have p3 : (0 : ℝ) < 2 * k + 3 := by positivity
    have a1 := key p2 p1
    have a2 := key p3 p2
    have b1 : 2 * ((k : ℝ) + 1) / (2 * k + 1) - 1 ≤ 2 / (2 * (k + 1)) := by
      rw [div_sub_one p1.ne', div_le_div_iff₀ p1 p2]
      nlinarith
    have b2 : (2 * (k : ℝ) + 3) / (2 * (k + 1)) - 1 ≤ 2 / (2 * (k + 1)) := by
      rw [div_sub_one p2.ne', div_le_div_iff₀ p2 p2]
      nlinarith
    rw [abs_le]
    constructor <;> linarith
  · obtain ⟨h1, h2⟩ := h m
    rw [show 2 * m + 1 + 1 = 2 * (m + 1) by ring]
    push_cast
    have p1 : (0 : ℝ) < 2 * m + 1 := by positivity
    have p3 : (0 : ℝ) < 2 * m + 3 := by positivity
    have a2 := key p3 p1
    have b2 : (2 * (m : ℝ) + 3) / (2 * m + 1) - 1 = 2 / (2 * m + 1) := by field_simp; ring
    have b3 : (0 : ℝ) ≤ 2 / (2 * m + 1) := by positivity
    rw [abs_le]
    constructor <;> linarith

lemma inv_sum_rate {a w b h : ℝ} {n i : ℕ} (haw : a < w) (hwb : w < b) (hh : 0 < h) (hb : a + ((n : ℝ) - 1) * h = b) (hw : a + i * h = w) :
    |oddHarm (n - i) - oddHarm (i + 1) - Real.log ((b - w) / (w - a))| ≤ h * (2 / (b - w) + 2 / (w - a)) := by
  obtain ⟨c, hc⟩ := oddHarm_bound
  obtain ⟨hi, hin⟩ := grid_pos haw hwb hh hb hw
  have hq : i + 1 < n := by
    by_contra h0
    have : n = i + 1 := by omega
    rw [this] at hb
    push_cast at hb
    linarith
  obtain ⟨q, rfl⟩ : ∃ q, n = i + q + 1 := ⟨n - i - 1, by omega⟩
  have hq1 : 1 ≤ q := by omega
  have e1 : i + q + 1 - i = q + 1 := by omega
  have e2 : b - w = q * h := by rw [← hb, ← hw]; push_cast; ring
  have e3 : w - a = i * h := by rw [← hw]; ring
  have p1 : (0 : ℝ) < q := by exact_mod_cast hq1
  have p2 : (0 : ℝ) < i := by exact_mod_cast hi
  have r1 := hc q hq1
  have r2 := hc i hi
  rw [e1, e2, e3, mul_div_mul_right _ _ hh.ne', Real.log_div p1.ne' p2.ne']
  have e4 : h * (2 / (q * h) + 2 / (i * h)) = 2 / q + 2 / i := by field_simp
  rw [e4, abs_le]
  rw [abs_le] at r1 r2
  constructor <;> linarith [r1.1, r1.2, r2.1, r2.2]

/-! ## Sums of every second value -/

lemma paritySum_rate {F : ℝ → ℝ} {a b M L h : ℝ} (hab : a < b) (hM : ∀ x ∈ Set.Icc a b, |F x| ≤ M)
    (hL : ∀ x ∈ Set.Icc a b, ∀ y ∈ Set.Icc a b, |F x - F y| ≤ L * |x - y|) (hL0 : 0 ≤ L) {n r : ℕ} (hr : r < 2) (hh : 0 < h) (hb : a + ((n : ℝ) - 1) * h = b) :
    |paritySum F a h n r - ∫ x in a..b, F x| ≤ h * (2 * (b - a + h) * L + 4 * M) := by
  set G : ℝ → ℝ := Set.IccExtend hab.le (Set.restrict (Set.Icc a b) F) with hG
  have hGp : ∀ x, G x = F (Set.projIcc a b hab.le x) := fun _ => rfl
  have hGL : ∀ x y, |G x - G y| ≤ L * |x - y| := fun x y => by
    rw [hGp, hGp]
    refine (hL _ (Set.projIcc a b hab.le x).2 _ (Set.projIcc a b hab.le y).2).trans (mul_le_mul_of_nonneg_left ?_ hL0)
    have := (LipschitzWith.projIcc hab.le).dist_le_mul x y
    simpa [Subtype.dist_eq, Real.dist_eq] using this
  have hGc : Continuous G := by
    refine (LipschitzWith.of_dist_le_mul (K := ⟨L, hL0⟩) fun x y => ?_).continuous
    rw [Real.dist_eq, Real.dist_eq]
    exact hGL x y
  have hGF : ∀ x ∈ Set.Icc a b, G x = F x := fun x hx => by rw [hG, Set.IccExtend_of_mem _ _ hx]; rfl
  have hGM : ∀ x, |G x| ≤ M := fun x => by rw [hGp]; exact hM _ (Set.projIcc a b hab.le x).2
  have hsum : paritySum F a h n r = paritySum G a h n r := by
    unfold paritySum
    refine Finset.sum_congr rfl fun j hj => ?_
    split_ifs
    · rw [hGF]
      have hj' : (j : ℝ) ≤ (n : ℝ) - 1 := by
        have := Finset.mem_range.1 hj
        have : (j : ℝ) + 1 ≤ n := by exact_mod_cast this
        linarith
      constructor
      · have : (0 : ℝ) ≤ j * h := by positivity
        linarith
      · rw [← hb]
        nlinarith
    · rfl
  have hint : (∫ x in a..b, F x) = ∫ x in a..b, G x := by
    refine intervalIntegral.integral_congr fun x hx => ?_
    rw [Set.uIcc_of_le hab.le] at hx
    exact (hGF x hx).symm
  rw [hsum, hint]
  have key := paritySum_error G hGc M (L * (2 * h)) a h hGM hh (fun x y hxy => (hGL x y).trans (mul_le_mul_of_nonneg_left hxy hL0)) r hr n
  have hend : a + n * h = b + h := by linarith
  have hnh : (n : ℝ) * h = b - a + h := by linarith
  rw [hend, hnh] at key
  have hadd : (∫ x in a..(b + h), G x) = (∫ x in a..b, G x) + ∫ x in b..(b + h), G x :=
    (intervalIntegral.integral_add_adjacent_intervals (hGc.intervalIntegrable _ _) (hGc.intervalIntegrable _ _)).symm
  have hlast : |∫ x in b..(b + h), G x| ≤ M * h := by
    have := intervalIntegral.norm_integral_le_of_norm_le_const (a := b) (b := b + h) (f := G) (C := M) (fun x _ => hGM x)
    simpa [abs_of_pos hh] using this
  rw [hadd] at key
  rw [abs_le] at key hlast ⊢
  constructor <;> nlinarith [key.1, key.2, hlast.1, hlast.2]

/-! ## The quotient -/

lemma dslope_integral {g : ℝ → ℝ} {a b w : ℝ} (hw : w ∈ Set.Icc a b) (hg : ∀ x ∈ Set.Icc a b, DifferentiableAt ℝ g x) (hc : ContinuousOn (deriv g) (Set.Icc a b))
    {x : ℝ} (hx : x ∈ Set.Icc a b) : dslope g w x = ∫ t in (0 : ℝ)..1, deriv g (w + t * (x - w)) := by
  have hmem : ∀ t ∈ Set.Icc (0 : ℝ) 1, w + t * (x - w) ∈ Set.Icc a b := fun t ht => by
    have := (convex_Icc a b).add_smul_sub_mem hw hx ht
    simpa using this
  by_cases hxw : x = w
  · rw [hxw, dslope_same]
    simp
  · have hne : x - w ≠ 0 := sub_ne_zero.2 hxw
    have hcont : ContinuousOn (fun t : ℝ => deriv g (w + t * (x - w))) (Set.Icc 0 1) := hc.comp (by fun_prop) hmem
    have hder : ∀ t ∈ Set.uIcc (0 : ℝ) 1, HasDerivAt (fun t : ℝ => g (w + t * (x - w))) (deriv g (w + t * (x - w)) * (x - w)) t := fun t ht => by
      rw [Set.uIcc_of_le zero_le_one] at ht
      have h1 : HasDerivAt (fun t : ℝ => w + t * (x - w)) (x - w) t := by
        simpa using ((hasDerivAt_id t).mul_const (x - w)).const_add w
      exact (hg _ (hmem t ht)).hasDerivAt.comp t h1
    have := intervalIntegral.integral_eq_sub_of_hasDerivAt hder ((hcont.mul continuousOn_const).intervalIntegrable_of_Icc zero_le_one)
    rw [intervalIntegral.integral_mul_const] at this
    rw [dslope_of_ne _ hxw, slope_def_field]
    rw [div_eq_iff hne, this]
    congr 1 <;> ring_nf

lemma dslope_lipschitz {g : ℝ → ℝ} {a b w K : ℝ} (hw : w ∈ Set.Icc a b) (hg : ∀ x ∈ Set.Icc a b, DifferentiableAt ℝ g x) (hc : ContinuousOn (deriv g) (Set.Icc a b))
    (hK : ∀ x ∈ Set.Icc a b, ∀ y ∈ Set.Icc a b, |deriv g x - deriv g y| ≤ K * |x - y|) (hK0 : 0 ≤ K) :
    ∀ x ∈ Set.Icc a b, ∀ y ∈ Set.Icc a b, |dslope g w x - dslope g w y| ≤ K * |x - y| := by
  intro x hx y hy
  have hmem : ∀ z ∈ Set.Icc a b, ∀ t ∈ Set.Icc (0 : ℝ) 1, w + t * (z - w) ∈ Set.Icc a b := fun z hz t ht => by
    have := (convex_Icc a b).add_smul_sub_mem hw hz ht
    simpa using this
  have hi : ∀ z ∈ Set.Icc a b, IntervalIntegrable (fun t : ℝ => deriv g (w + t * (z - w))) MeasureTheory.volume 0 1 := fun z hz =>
    (hc.comp (by fun_prop) (hmem z hz)).intervalIntegrable_of_Icc zero_le_one
  rw [dslope_integral hw hg hc hx, dslope_integral hw hg hc hy, ← intervalIntegral.integral_sub (hi x hx) (hi y hy)]
  have := intervalIntegral.norm_integral_le_of_norm_le_const (a := 0) (b := 1) (f := fun t : ℝ => deriv g (w + t * (x - w)) - deriv g (w + t * (y - w)))
    (C := K * |x - y|) (fun t ht => by
      rw [Set.uIoc_of_le zero_le_one] at ht
      have ht' : t ∈ Set.Icc (0 : ℝ) 1 := ⟨ht.1.le, ht.2⟩
      rw [Real.norm_eq_abs]
      refine (hK _ (hmem x hx t ht') _ (hmem y hy t ht')).trans (mul_le_mul_of_nonneg_left ?_ hK0)
      rw [show w + t * (x - w) - (w + t * (y - w)) = t * (x - y) by ring, abs_mul, abs_of_pos ht.1]
      exact mul_le_of_le_one_left (abs_nonneg _) ht.2)
  simpa using this

lemma kkNum_contDiffAt (k : KkrKind) {w x : ℝ} (hw : 0 < w) (hx : 0 < x) {f : ℝ → ℝ} (hf : ContDiffAt ℝ 2 f x) : ContDiffAt ℝ 2 (kkNum k w f) x := by
  have di : ContDiffAt ℝ 2 (fun x : ℝ => x) x := contDiffAt_id
  have ds : ContDiffAt ℝ 2 (fun x : ℝ => x + w) x := di.add contDiffAt_const
  have h1 : x + w ≠ 0 := by positivity
  have h2 : x * (x + w) ≠ 0 := by positivity
  cases k
  · exact (contDiffAt_const.div ds h1).mul hf
  · exact (di.div ds h1).mul hf
  · exact (contDiffAt_const.div ds h1).neg.mul hf
  · exact (contDiffAt_const.div (di.mul ds) h2).neg.mul hf

/-- The sum over the grid and the principal value. -/
lemma pv_grid_rate {g : ℝ → ℝ} {a w b M L : ℝ} (haw : a < w) (hwb : w < b) (hM : ∀ x ∈ Set.Icc a b, |dslope g w x| ≤ M)
    (hL : ∀ x ∈ Set.Icc a b, ∀ y ∈ Set.Icc a b, |dslope g w x - dslope g w y| ≤ L * |x - y|) (hL0 : 0 ≤ L) {n i : ℕ} {h : ℝ} (hh : 0 < h)
    (hb : a + ((n : ℝ) - 1) * h = b) (hw : a + i * h = w) :
    |2 * h * (∑ j ∈ Finset.range n, if j % 2 ≠ i % 2 then g (a + j * h) / (a + j * h - w) else 0) - pvVal g a w b| ≤
      (4 * (b - a) * L + 4 * M + |g w| * (2 / (b - w) + 2 / (w - a))) * h := by
  obtain ⟨hi, hin⟩ := grid_pos haw hwb hh hb hw
  have e : 2 * h * (∑ j ∈ Finset.range n, if j % 2 ≠ i % 2 then g (a + j * h) / (a + j * h - w) else 0) =
      paritySum (dslope g w) a h n ((i + 1) % 2) + g w * (oddHarm (n - i) - oddHarm (i + 1)) := by
    rw [← sum_inv_odd _ _ hin]
    unfold paritySum
    rw [Finset.mul_sum, Finset.mul_sum, ← Finset.sum_add_distrib]
    refine Finset.sum_congr rfl fun j _ => ?_
    have hpar : (j % 2 = (i + 1) % 2) ↔ j % 2 ≠ i % 2 := by omega
    simp only [hpar]
    split_ifs with hj
    · have hne : (j : ℝ) - i ≠ 0 := by
        intro h0
        apply hj
        have : j = i := by exact_mod_cast sub_eq_zero.1 h0
        rw [this]
      have hx : a + j * h - w = ((j : ℝ) - i) * h := by rw [← hw]; ring
      have hh' := hh.ne'
      have hxw : a + j * h ≠ w := by
        intro h0
        rw [h0, sub_self] at hx
        exact (mul_ne_zero hne hh') hx.symm
      rw [dslope_split g w _ hxw, hx]
      field_simp
    · simp
  have r1 := paritySum_rate (haw.trans hwb) hM hL hL0 (Nat.mod_lt (i + 1) two_pos) hh hb
  have r2 := inv_sum_rate haw hwb hh hb hw
  have hle : h ≤ b - a := by
    have h2 : (2 : ℝ) ≤ n := by exact_mod_cast (by omega : 2 ≤ n)
    nlinarith
  rw [e]
  unfold pvVal
  have e2 : paritySum (dslope g w) a h n ((i + 1) % 2) + g w * (oddHarm (n - i) - oddHarm (i + 1)) - ((∫ x in a..b, dslope g w x) + g w * Real.log ((b - w) / (w - a))) =
      (paritySum (dslope g w) a h n ((i + 1) % 2) - ∫ x in a..b, dslope g w x) + g w * (oddHarm (n - i) - oddHarm (i + 1) - Real.log ((b - w) / (w - a))) := by ring
  rw [e2]
  refine (abs_add_le _ _).trans ?_
  rw [abs_mul]
  have r3 := mul_le_mul_of_nonneg_left r2 (abs_nonneg (g w))
  have r4 : h * (2 * (b - a + h) * L + 4 * M) ≤ h * (4 * (b - a) * L + 4 * M) := by
    refine mul_le_mul_of_nonneg_left ?_ hh.le
    have : 2 * (b - a + h) * L ≤ 4 * (b - a) * L := mul_le_mul_of_nonneg_right (by linarith) hL0
    linarith
  calc _ ≤ h * (4 * (b - a) * L + 4 * M) + |g w| * (h * (2 / (b - w) + 2 / (w - a))) := add_le_add (r1.trans r4) r3
    _ = _ := by ring

/-- The value at a point of the axis as a sum of every second value. -/
lemma kk_value (k : KkrKind) (f : ℝ → ℝ) {a w b : ℝ} (ha : 0 < a) (haw : a < w) (hwb : w < b) {x : List ℝ} {i : ℕ} {h : ℝ} (hh : 0 < h)
    (hxj : ∀ j < x.length, x[j]? = some (a + j * h)) (hb : a + ((x.length : ℝ) - 1) * h = b) (hi : x[i]? = some w) :
    a + i * h = w ∧ ∃ o, calcKkr k (x.map f) x = .ok o ∧
      o[i]? = some (some (2 / Real.pi * (2 * h * ∑ j ∈ Finset.range x.length, if j % 2 ≠ i % 2 then kkNum k w f (a + j * h) / (a + j * h - w) else 0))) := by
  have hw0 : 0 < w := ha.trans haw
  have hin : i < x.length := by
    by_contra hc
    rw [List.getElem?_eq_none (not_lt.1 hc)] at hi
    exact absurd hi (by simp)
  have hw : a + i * h = w := by
    have h1 := hxj i hin
    rw [hi] at h1
    exact (Option.some.inj h1).symm
  have hi1 : 1 ≤ i := (grid_pos haw hwb hh hb hw).1
  obtain ⟨o, ho, hy⟩ := C56_weight_partial k (x.map f) x a h ha hh (by simp) (by omega) hxj i hi1 hin
  refine ⟨hw, o, ho, ?_⟩
  rw [hy]
  congr 2
  unfold Spec.maclaurin
  rw [mul_assoc]
  congr 2
  refine Finset.sum_congr rfl fun j hj => ?_
  have hj' := Finset.mem_range.1 hj
  split_ifs with hp
  · have hne : a + j * h ≠ w := by
      intro h0
      have h1 : ((j : ℝ) - i) * h = 0 := by linarith
      rcases mul_eq_zero.1 h1 with h2 | h2
      · apply hp
        have : j = i := by exact_mod_cast sub_eq_zero.1 h2
        rw [this]
      · exact hh.ne' h2
    have hpos : 0 < a + j * h := by positivity
    rw [← kkNum_eq k hw0 hpos hne f]
    simp only [hw]
    congr 1
    simp [List.getD_eq_getElem?_getD, List.getElem?_map, hxj j hj']
  · rfl

/-- C89, accuracy: for spectra that are twice continuously differentiable on `[a, b]` the error of the transforms at `w` is at most a constant times the step of the axis;
the constant is the same for all axes over the interval. -/
theorem C89_rate (k : KkrKind) (f : ℝ → ℝ) (a w b : ℝ) (ha : 0 < a) (haw : a < w) (hwb : w < b) (hf : ∀ x ∈ Set.Icc a b, ContDiffAt ℝ 2 f x) :
    ∃ v C, KkIntegral k f a w b v ∧
      ∀ (x : List ℝ) (i : ℕ) (h : ℝ), 0 < h → (∀ j < x.length, x[j]? = some (a + j * h)) → a + ((x.length : ℝ) - 1) * h = b → x[i]? = some w →
        ∃ o y, calcKkr k (x.map f) x = .ok o ∧ o[i]? = some (some y) ∧ |y - 2 / Real.pi * v| ≤ C * h := by
  have hw0 : 0 < w := ha.trans haw
  have hwm : w ∈ Set.Icc a b := ⟨haw.le, hwb.le⟩
  have hcf : ContinuousOn f (Set.Icc a b) := fun x hx => (hf x hx).continuousAt.continuousWithinAt
  have hdf : DifferentiableAt ℝ f w := (hf w hwm).differentiableAt (by norm_num)
  set g := kkNum k w f with hg
  have hg2 : ∀ x ∈ Set.Icc a b, ContDiffAt ℝ 2 g x := fun x hx => kkNum_contDiffAt k hw0 (ha.trans_le hx.1) (hf x hx)
  have hgd : ∀ x ∈ Set.Icc a b, DifferentiableAt ℝ g x := fun x hx => (hg2 x hx).differentiableAt (by norm_num)
  have hg1 : ContDiffOn ℝ 1 (deriv g) (Set.Icc a b) := fun x hx => by
    have : ContDiffAt ℝ 1 (deriv g) x := by
      have := (hg2 x hx).fderiv_right (m := 1) (by norm_num)
      exact this.clm_apply contDiffAt_const
    exact this.contDiffWithinAt
  obtain ⟨K, hK⟩ := hg1.exists_lipschitzOnWith one_ne_zero (convex_Icc a b) isCompact_Icc
  have hK' : ∀ x ∈ Set.Icc a b, ∀ y ∈ Set.Icc a b, |deriv g x - deriv g y| ≤ K * |x - y| := fun x hx y hy => by
    have := hK.dist_le_mul x hx y hy
    rwa [Real.dist_eq, Real.dist_eq] at this
  have hL := dslope_lipschitz hwm hgd hg1.continuousOn hK' K.2
  have hcd : ContinuousOn (dslope g w) (Set.Icc a b) :=
    (continuousOn_dslope (Icc_mem_nhds haw hwb)).2 ⟨fun x hx => (hgd x hx).continuousAt.continuousWithinAt, hgd w hwm⟩
  obtain ⟨M, hM⟩ := isCompact_Icc.exists_bound_of_continuousOn hcd
  refine ⟨_, 2 / Real.pi * (4 * (b - a) * K + 4 * M + |g w| * (2 / (b - w) + 2 / (w - a))), kkIntegral_pvVal k f a w b ha haw hwb hcf hdf, ?_⟩
  intro x i h hh hxj hb hi
  obtain ⟨hw, o, ho, hy⟩ := kk_value k f ha haw hwb hh hxj hb hi
  refine ⟨o, _, ho, hy, ?_⟩
  have key := pv_grid_rate haw hwb hM hL K.2 hh hb hw
  have hpi : 0 < 2 / Real.pi := by positivity
  rw [← mul_sub, abs_mul, abs_of_pos hpi]
  calc _ ≤ 2 / Real.pi * ((4 * (b - a) * K + 4 * M + |g w| * (2 / (b - w) + 2 / (w - a))) * h) := mul_le_mul_of_nonneg_left key hpi.le
    _ = _ := by ring

/-- A Gaussian absorption on `[1, 3]`, `w = 2`: halving the step halves the bound. -/
example : ∃ v C, KkIntegral .im2re (fun x => Real.exp (-(x - 2) ^ 2)) 1 2 3 v ∧ ∀ m : ℕ,
    ∃ o y, calcKkr .im2re (((List.range (2 * m + 3)).map fun j : ℕ => (1 : ℝ) + j * (1 / (m + 1))).map fun x => Real.exp (-(x - 2) ^ 2))
        ((List.range (2 * m + 3)).map fun j : ℕ => (1 : ℝ) + j * (1 / (m + 1))) = .ok o ∧ o[m + 1]? = some (some y) ∧ |y - 2 / Real.pi * v| ≤ C * (1 / (m + 1)) := by
  obtain ⟨v, C, hv, h⟩ := C89_rate .im2re (fun x => Real.exp (-(x - 2) ^ 2)) 1 2 3 (by norm_num) (by norm_num) (by norm_num) (fun x _ => by fun_prop)
  refine ⟨v, C, hv, fun m => h _ (m + 1) (1 / (m + 1)) (by positivity) (fun j hj => ?_) ?_ ?_⟩
  · simp only [List.length_map, List.length_range] at hj
    simp [hj]
  · simp only [List.length_map, List.length_range]
    push_cast
    field_simp
    ring
  · have : m + 1 < 2 * m + 3 := by omega
    simp only [List.getElem?_map, List.getElem?_range this, Option.map_some]
    push_cast
    congr 1
    field_simp
    ring

lemma even_count (m : ℕ) : (∑ j ∈ Finset.range (4 * m + 3), if j % 2 ≠ (2 * m + 1) % 2 then (1 : ℝ) else 0) = 2 * m + 2 := by
  have hodd : (2 * m + 1) % 2 = 1 := by omega
  rw [hodd]
  have key : ∀ p : ℕ, (∑ j ∈ Finset.range (2 * p + 1), if j % 2 ≠ 1 then (1 : ℝ) else 0) = p + 1 := by
    intro p
    induction p with
    | zero => rw [Finset.sum_range_one]; simp
    | succ p ih =>
      rw [show 2 * (p + 1) + 1 = 2 * p + 1 + 1 + 1 by ring, Finset.sum_range_succ, Finset.sum_range_succ, ih, if_neg (by omega), if_pos (by omega)]
      push_cast
      ring
  rw [show 4 * m + 3 = 2 * (2 * m + 1) + 1 by ring, key]
  push_cast
  ring

/-- C89: the first order cannot be improved, however smooth the spectrum: for the parabola `(x² - 4)/2` on `[1, 3]` the error of `re2im` at `w = 2` is exactly `4/π` times the
step on all axes on which the point has an odd position and whose length is `4 m + 3`. -/
theorem C89_rate_sharp : ∃ v, KkIntegral .re2im (fun x => (x ^ 2 - 4) / 2) 1 2 3 v ∧ ∀ (m : ℕ) (x : List ℝ) (h : ℝ), 0 < h → x.length = 4 * m + 3 →
    (∀ j < x.length, x[j]? = some (1 + j * h)) → 1 + ((x.length : ℝ) - 1) * h = 3 →
      ∃ o, calcKkr .re2im (x.map fun x => (x ^ 2 - 4) / 2) x = .ok o ∧ o[2 * m + 1]? = some (some (2 / Real.pi * v + 4 / Real.pi * h)) := by
  have hcont : ContinuousOn (fun x : ℝ => (x ^ 2 - 4) / 2) (Set.Icc 1 3) := by fun_prop
  have hdiff : DifferentiableAt ℝ (fun x : ℝ => (x ^ 2 - 4) / 2) 2 := by fun_prop
  have hg : ∀ x : ℝ, 1 ≤ x → kkNum .re2im 2 (fun x => (x ^ 2 - 4) / 2) x = x - 2 := fun x hx => by
    have : x + 2 ≠ 0 := by linarith
    simp only [kkNum]
    field_simp
    ring
  have hpv : pvVal (kkNum .re2im 2 fun x => (x ^ 2 - 4) / 2) 1 2 3 = 2 := by
    unfold pvVal
    have h0 : (∫ x in (1 : ℝ)..3, dslope (kkNum .re2im 2 fun x => (x ^ 2 - 4) / 2) 2 x) = ∫ _ in (1 : ℝ)..3, (1 : ℝ) := by
      refine intervalIntegral.integral_congr_ae ?_
      have : ∀ᵐ x : ℝ, x ≠ 2 := by simp [MeasureTheory.ae_iff]
      filter_upwards [this] with x hx hm
      rw [Set.uIoc_of_le (by norm_num)] at hm
      rw [dslope_of_ne _ hx, slope_def_field, hg x hm.1.le, hg 2 (by norm_num)]
      have : x - 2 ≠ 0 := sub_ne_zero.2 hx
      rw [sub_self, sub_zero, div_self this]
    rw [h0, hg 2 (by norm_num)]
    simp
    norm_num
  have hkk := kkIntegral_pvVal .re2im _ 1 2 3 one_pos (by norm_num) (by norm_num) hcont hdiff
  rw [hpv] at hkk
  refine ⟨2, hkk, ?_⟩
  intro m x h hh hl hxj hb
  have hmh : (2 * (m : ℝ) + 1) * h = 1 := by
    rw [hl] at hb
    push_cast at hb
    linarith
  have hi : x[2 * m + 1]? = some 2 := by
    rw [hxj _ (by omega)]
    congr 1
    push_cast
    linarith
  obtain ⟨hw, o, ho, hy⟩ := kk_value .re2im (fun x => (x ^ 2 - 4) / 2) one_pos (by norm_num : (1 : ℝ) < 2) (by norm_num) hh hxj hb hi
  refine ⟨o, ho, ?_⟩
  rw [hy, hl]
  congr 2
  have hsum : (∑ j ∈ Finset.range (4 * m + 3), if j % 2 ≠ (2 * m + 1) % 2 then kkNum .re2im 2 (fun x => (x ^ 2 - 4) / 2) (1 + j * h) / (1 + j * h - 2) else 0) = 2 * m + 2 := by
    rw [← even_count m]
    refine Finset.sum_congr rfl fun j hj => ?_
    split_ifs with hp
    · have hne : 1 + j * h - 2 ≠ 0 := by
        intro h0
        have h1 : ((j : ℝ) - (2 * m + 1)) * h = 0 := by linarith
        rcases mul_eq_zero.1 h1 with h2 | h2
        · apply hp
          have : (j : ℝ) = ((2 * m + 1 : ℕ) : ℝ) := by push_cast; linarith
          have : j = 2 * m + 1 := by exact_mod_cast this
          rw [this]
        · exact hh.ne' h2
      rw [hg _ (by have : (0 : ℝ) ≤ j * h := by positivity
                   linarith), div_self hne]
    · rfl
  rw [hsum]
  linear_combination 4 / Real.pi * hmh

/-- The coarsest axis `1, 2, 3`: the step is 1 and the error `4/π`. -/
example : ∃ v, KkIntegral .re2im (fun x => (x ^ 2 - 4) / 2) 1 2 3 v ∧
    ∃ o, calcKkr .re2im ([1, 2, 3].map fun x => (x ^ 2 - 4) / 2) [1, 2, 3] = .ok o ∧ o[1]? = some (some (2 / Real.pi * v + 4 / Real.pi * 1)) := by
  obtain ⟨v, hv, h⟩ := C89_rate_sharp
  refine ⟨v, hv, h 0 [1, 2, 3] 1 one_pos rfl (fun j hj => ?_) (by norm_num)⟩
  simp only [List.length_cons, List.length_nil] at hj
  interval_cases j <;> norm_num

end PyElli
