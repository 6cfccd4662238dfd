import Verif.Props.RoundedUnits

/-!
# C135: the slices of inhomogeneous layers in double precision
-/

namespace PyElli

/-- The computed positions before the last. -/
lemma linPoint_eq (R : Rounding) {t : ℝ} {div : ℕ} (hd : 1 ≤ div) (ht : (2 : ℝ) ^ (-1022 : ℤ) * div ≤ t) (k : ℕ) :
    R.linPoint t div k = R.rd (k * R.rd (t / div)) := by
  have hd0 : (0 : ℝ) < div := by exact_mod_cast hd
  have h1 : (2 : ℝ) ^ (-1022 : ℤ) ≤ t / div := by rwa [le_div_iff₀ hd0]
  have h2 := R.le_rd (isDouble_two_zpow (by norm_num)) h1
  unfold Rounding.linPoint
  rw [if_neg (lt_of_lt_of_le (two_zpow_pos _) h2).ne']

lemma step_bounds (R : Rounding) {t : ℝ} {div : ℕ} (hd : 1 ≤ div) (ht : (2 : ℝ) ^ (-1022 : ℤ) * div ≤ t) :
    0 ≤ R.rd (t / div) ∧ |R.rd (t / div) - t / div| ≤ ulpHalf * (t / div) := by
  have hd0 : (0 : ℝ) < div := by exact_mod_cast hd
  have h1 : (2 : ℝ) ^ (-1022 : ℤ) ≤ t / div := by rwa [le_div_iff₀ hd0]
  have h0 : 0 < t / div := lt_of_lt_of_le (two_zpow_pos _) h1
  refine ⟨R.rd_nonneg h0.le, ?_⟩
  have := R.rd_rel (x := t / div) (by rwa [abs_of_pos h0])
  rwa [abs_of_pos h0] at this

lemma thickness_nonneg {t : ℝ} {div : ℕ} (ht : (2 : ℝ) ^ (-1022 : ℤ) * div ≤ t) : 0 ≤ t :=
  le_trans (by positivity) ht

lemma linPoint_le (R : Rounding) {t : ℝ} {div : ℕ} (hd : 1 ≤ div) (hd' : div ≤ 2 ^ 53) (htd : IsDouble t)
    (ht : (2 : ℝ) ^ (-1022 : ℤ) * div ≤ t) {k : ℕ} (hk : k < div) : R.linPoint t div k ≤ t := by
  rw [linPoint_eq R hd ht]
  refine R.rd_le htd ?_
  obtain ⟨h0, h1⟩ := step_bounds R hd ht
  have hd0 : (0 : ℝ) < div := by exact_mod_cast hd
  have ht0 := thickness_nonneg ht
  have h2 : R.rd (t / div) ≤ t / div * (1 + ulpHalf) := by linarith [(abs_le.1 h1).2]
  have h3 : (k : ℝ) ≤ div - 1 := by
    have : k + 1 ≤ div := hk
    have : (k : ℝ) + 1 ≤ div := by exact_mod_cast this
    linarith
  have h4 : (div : ℝ) ≤ 2 ^ 53 := by exact_mod_cast hd'
  have h5 : (0 : ℝ) ≤ t / div := by positivity
  calc (k : ℝ) * R.rd (t / div) ≤ (div - 1) * (t / div * (1 + ulpHalf)) := mul_le_mul h3 h2 h0 (by
        have : (1 : ℝ) ≤ div := by exact_mod_cast hd
        linarith)
    _ = t / div * ((div - 1) * (1 + ulpHalf)) := by ring
    _ ≤ t / div * div := by
        refine mul_le_mul_of_nonneg_left ?_ h5
        rw [ulpHalf_val]
        have h6 : (div : ℝ) ≤ 9007199254740992 := by linarith [show (2 : ℝ) ^ 53 = 9007199254740992 by norm_num]
        linarith
    _ = t := by field_simp

lemma linPoint_mono (R : Rounding) {t : ℝ} {div : ℕ} (hd : 1 ≤ div) (ht : (2 : ℝ) ^ (-1022 : ℤ) * div ≤ t) {j k : ℕ} (hjk : j ≤ k) :
    R.linPoint t div j ≤ R.linPoint t div k := by
  rw [linPoint_eq R hd ht, linPoint_eq R hd ht]
  refine R.rd_mono (mul_le_mul_of_nonneg_right ?_ (step_bounds R hd ht).1)
  exact_mod_cast hjk

lemma linPoint_nonneg (R : Rounding) {t : ℝ} {div : ℕ} (hd : 1 ≤ div) (ht : (2 : ℝ) ^ (-1022 : ℤ) * div ≤ t) (k : ℕ) : 0 ≤ R.linPoint t div k := by
  rw [linPoint_eq R hd ht]
  exact R.rd_nonneg (mul_nonneg (by positivity) (step_bounds R hd ht).1)

lemma linPoint_double (R : Rounding) (t : ℝ) (div k : ℕ) : IsDouble (R.linPoint t div k) := by
  unfold Rounding.linPoint
  split_ifs <;> exact R.double _

/-- C135: `div + 1` positions, doubles from 0 to the thickness, both exactly, in rising order. -/
theorem C135_slices (R : Rounding) (t : ℝ) (div : ℕ) (hd : 1 ≤ div) (hd' : div ≤ 2 ^ 53) (htd : IsDouble t)
    (ht : (2 : ℝ) ^ (-1022 : ℤ) * div ≤ t) :
    (R.getSlices t div).length = div + 1 ∧ (R.getSlices t div).head? = some 0 ∧ (R.getSlices t div).getLast? = some t ∧
      (R.getSlices t div).Pairwise (· ≤ ·) ∧ ∀ z ∈ R.getSlices t div, IsDouble z ∧ 0 ≤ z ∧ z ≤ t := by
  refine ⟨by simp [Rounding.getSlices], ?_, by simp [Rounding.getSlices], ?_, ?_⟩
  · obtain ⟨n, rfl⟩ : ∃ n, div = n + 1 := ⟨div - 1, by omega⟩
    have h0 : R.linPoint t (n + 1) 0 = 0 := by
      rw [linPoint_eq R hd ht]
      simp [R.rd_zero]
    simp [Rounding.getSlices, List.range_succ_eq_map, h0]
  · unfold Rounding.getSlices
    rw [List.pairwise_append]
    refine ⟨?_, by simp, ?_⟩
    · rw [List.pairwise_map]
      exact List.pairwise_lt_range.imp fun h => linPoint_mono R hd ht h.le
    · intro a ha b hb
      obtain ⟨k, hk, rfl⟩ := List.mem_map.1 ha
      rw [List.mem_singleton.1 hb]
      exact linPoint_le R hd hd' htd ht (List.mem_range.1 hk)
  · intro z hz
    unfold Rounding.getSlices at hz
    rcases List.mem_append.1 hz with h | h
    · obtain ⟨k, hk, rfl⟩ := List.mem_map.1 h
      exact ⟨linPoint_double R t div k, linPoint_nonneg R hd ht k, linPoint_le R hd hd' htd ht (List.mem_range.1 hk)⟩
    · rw [List.mem_singleton.1 h]
      exact ⟨htd, thickness_nonneg ht, le_refl _⟩

/-- C135: each position is right up to three roundings of the thickness. -/
theorem C135_positions (R : Rounding) (t : ℝ) (div k : ℕ) (z : ℝ) (hd : 1 ≤ div) (ht : (2 : ℝ) ^ (-1022 : ℤ) * div ≤ t)
    (hz : (R.getSlices t div)[k]? = some z) : |z - t * k / div| ≤ 3 * 2 ^ (-53 : ℤ) * t := by
  have hd0 : (0 : ℝ) < div := by exact_mod_cast hd
  have ht0 := thickness_nonneg ht
  unfold Rounding.getSlices at hz
  rcases lt_or_ge k div with hk | hk
  · rw [List.getElem?_append_left (by simpa using hk)] at hz
    simp [hk] at hz
    rw [← hz, linPoint_eq R hd ht]
    rcases Nat.eq_zero_or_pos k with rfl | hk0
    · simp [R.rd_zero]
      exact ht0
    obtain ⟨h0, h1⟩ := step_bounds R hd ht
    have h5 : (2 : ℝ) ^ (-1022 : ℤ) ≤ t / div := by rwa [le_div_iff₀ hd0]
    have hk1 : (1 : ℝ) ≤ k := by exact_mod_cast hk0
    have hkd : (k : ℝ) ≤ div := by exact_mod_cast hk.le
    have h6 : (2 : ℝ) ^ (-1022 : ℤ) ≤ R.rd (t / div) := R.le_rd (isDouble_two_zpow (by norm_num)) h5
    obtain ⟨δ, d1, e1⟩ := R.rd_factor (x := k * R.rd (t / div)) (by
      rw [abs_of_nonneg (by positivity)]
      nlinarith [two_zpow_pos (-1022)])
    obtain ⟨δ', d2, e2⟩ := R.rd_factor (x := t / div) (by
      rw [abs_of_nonneg (by positivity)]
      exact h5)
    have hp : |(1 + δ') * (1 + δ) - 1| ≤ 3 * 2 ^ (-53 : ℤ) := by
      refine (near_mul (near_one d2) (near_one d1)).trans ?_
      rw [ulpHalf_val]
      norm_num
    rw [e1, e2, show (k : ℝ) * (t / div * (1 + δ')) * (1 + δ) - t * k / div = ((1 + δ') * (1 + δ) - 1) * (t * (k / div)) by ring, abs_mul]
    refine mul_le_mul hp ?_ (abs_nonneg _) (by positivity)
    rw [abs_of_nonneg (by positivity)]
    exact mul_le_of_le_one_right ht0 (by rw [div_le_one hd0]; exact hkd)
  · rw [List.getElem?_append_right (by simpa using hk)] at hz
    rw [List.getElem?_singleton] at hz
    simp only [List.length_map, List.length_range] at hz
    split_ifs at hz with h
    have : k = div := by omega
    subst this
    rw [← Option.some.inj hz, mul_div_assoc, div_self hd0.ne']
    simp
    exact ht0

/-- The sum of the computed differences telescopes up to one relative rounding. -/
lemma diffs_sum (R : Rounding) : ∀ (z : List ℝ) (a : ℝ), (a :: z).Pairwise (· ≤ ·) → (∀ x ∈ a :: z, IsDouble x) →
    (∀ d ∈ R.diffs (a :: z), 0 ≤ d) ∧ |(R.diffs (a :: z)).sum - ((a :: z).getLast (by simp) - a)| ≤ ulpHalf * ((a :: z).getLast (by simp) - a) := by
  intro z
  induction z with
  | nil => intro a _ _; simp [Rounding.diffs]
  | cons b t ih =>
    intro a hp hd
    obtain ⟨i1, i2⟩ := ih b (List.pairwise_cons.1 hp).2 fun x hx => hd x (List.mem_cons_of_mem _ hx)
    have hab : a ≤ b := (List.pairwise_cons.1 hp).1 b (by simp)
    have hr := R.rd_sub_rel (hd b (by simp)) (hd a (by simp))
    rw [abs_of_nonneg (sub_nonneg.2 hab)] at hr
    have hl : (a :: b :: t).getLast (by simp) = (b :: t).getLast (by simp) := List.getLast_cons (by simp)
    rw [hl]
    generalize (b :: t).getLast (by simp) = l at *
    constructor
    · intro d hd'
      unfold Rounding.diffs at hd'
      rcases List.mem_cons.1 hd' with rfl | h
      · exact R.rd_nonneg (sub_nonneg.2 hab)
      · exact i1 d h
    · unfold Rounding.diffs
      rw [List.sum_cons, show R.rd (b - a) + (R.diffs (b :: t)).sum - (l - a) = (R.rd (b - a) - (b - a)) + ((R.diffs (b :: t)).sum - (l - b)) by ring]
      refine (abs_add_le _ _).trans ?_
      have : ulpHalf * (l - a) = 2 ^ (-53 : ℤ) * (b - a) + ulpHalf * (l - b) := by unfold ulpHalf; ring
      rw [this]
      exact add_le_add hr i2

/-- C135: the thicknesses of the slices are never negative and add up to the thickness of the layer within one rounding. -/
theorem C135_thicknesses (R : Rounding) (t : ℝ) (div : ℕ) (hd : 1 ≤ div) (hd' : div ≤ 2 ^ 53) (htd : IsDouble t)
    (ht : (2 : ℝ) ^ (-1022 : ℤ) * div ≤ t) :
    (∀ d ∈ R.diffs (R.getSlices t div), 0 ≤ d) ∧ |(R.diffs (R.getSlices t div)).sum - t| ≤ 2 ^ (-53 : ℤ) * t := by
  obtain ⟨h1, h2, h3, h4, h5⟩ := C135_slices R t div hd hd' htd ht
  rcases hz : R.getSlices t div with _ | ⟨a, z⟩
  · simp [hz] at h1
  rw [hz] at h2 h3 h4 h5
  obtain rfl : a = 0 := by simpa using h2
  have hl : (0 :: z).getLast (by simp) = t := by
    rw [List.getLast?_eq_getLast_of_ne_nil (by simp)] at h3
    exact Option.some.inj h3
  obtain ⟨i1, i2⟩ := diffs_sum R z 0 h4 fun x hx => (h5 x hx).1
  rw [hl, sub_zero] at i2
  exact ⟨i1, i2⟩

lemma diffs_getElem (R : Rounding) : ∀ (z : List ℝ) (k : ℕ) (d : ℝ), (R.diffs z)[k]? = some d →
    ∃ a b, z[k]? = some a ∧ z[k + 1]? = some b ∧ d = R.rd (b - a) := by
  intro z
  induction z with
  | nil => intro k d h; simp [Rounding.diffs] at h
  | cons a t ih =>
    rcases t with _ | ⟨b, t⟩
    · intro k d h; simp [Rounding.diffs] at h
    · intro k d h
      unfold Rounding.diffs at h
      rcases k with _ | k
      · exact ⟨a, b, by simp, by simp, by simpa using h.symm⟩
      · obtain ⟨x, y, h1, h2, h3⟩ := ih k d (by simpa using h)
        exact ⟨x, y, by simpa using h1, by simpa using h2, h3⟩

/-- C135: each slice has the nominal thickness up to seven roundings of the thickness of the layer; with up to `2⁵⁰` divisions none is empty. -/
theorem C135_each_thickness (R : Rounding) (t : ℝ) (div : ℕ) (hd : 1 ≤ div) (hd' : div ≤ 2 ^ 53) (htd : IsDouble t)
    (ht : (2 : ℝ) ^ (-1022 : ℤ) * div ≤ t) (d : ℝ) (h : d ∈ R.diffs (R.getSlices t div)) :
    |d - t / div| ≤ 7 * 2 ^ (-53 : ℤ) * t ∧ (div ≤ 2 ^ 50 → 0 < d) := by
  obtain ⟨-, -, -, h4, h5⟩ := C135_slices R t div hd hd' htd ht
  have hd0 : (0 : ℝ) < div := by exact_mod_cast hd
  have ht0 : 0 < t := lt_of_lt_of_le (mul_pos (two_zpow_pos _) hd0) ht
  obtain ⟨k, hk⟩ := List.mem_iff_getElem?.1 h
  obtain ⟨a, b, ha, hb, rfl⟩ := diffs_getElem R _ k d hk
  have pa := C135_positions R t div k a hd ht ha
  have pb := C135_positions R t div (k + 1) b hd ht hb
  obtain ⟨da, a0, at'⟩ := h5 a (List.mem_of_getElem? ha)
  obtain ⟨db, b0, bt⟩ := h5 b (List.mem_of_getElem? hb)
  obtain ⟨ka, ea⟩ := List.getElem?_eq_some_iff.1 ha
  obtain ⟨kb, eb⟩ := List.getElem?_eq_some_iff.1 hb
  have hab : a ≤ b := by
    have := List.pairwise_iff_getElem.1 h4 k (k + 1) ka kb (Nat.lt_succ_self k)
    rwa [ea, eb] at this
  have hr := R.rd_sub_rel db da
  rw [abs_of_nonneg (sub_nonneg.2 hab)] at hr
  have e : t * ((k + 1 : ℕ) : ℝ) / div = t * k / div + t / div := by
    push_cast
    field_simp
  rw [e] at pb
  have hu : (2 : ℝ) ^ (-53 : ℤ) = 1 / 9007199254740992 := by norm_num
  rw [hu] at pa pb hr ⊢
  have key : |R.rd (b - a) - t / div| ≤ 7 * (1 / 9007199254740992) * t := by
    rw [abs_le] at pa pb hr ⊢
    constructor <;> linarith
  refine ⟨key, fun h50 => ?_⟩
  have h6 : (div : ℝ) ≤ 1125899906842624 := by exact_mod_cast h50
  have h7 : t / 1125899906842624 ≤ t / div := div_le_div_of_nonneg_left ht0.le hd0 h6
  linarith [(abs_le.1 key).1]

lemma isDouble_two_mul {x : ℝ} (h : IsDouble x) : IsDouble (2 * x) := by
  obtain ⟨m, e, hm, he, rfl⟩ := h
  refine ⟨m, e + 1, hm, by linarith, ?_⟩
  rw [zpow_add_one₀ (by norm_num)]
  ring

/-- The computed middle of two doubles lies between them. -/
lemma mid_between (R : Rounding) {a b : ℝ} (ha : IsDouble a) (hb : IsDouble b) (hab : a ≤ b) :
    a ≤ R.rd (R.rd (a + b) / 2) ∧ R.rd (R.rd (a + b) / 2) ≤ b := by
  have h1 := R.le_rd (isDouble_two_mul ha) (show 2 * a ≤ a + b by linarith)
  have h2 := R.rd_le (isDouble_two_mul hb) (show a + b ≤ 2 * b by linarith)
  exact ⟨R.le_rd ha (by linarith), R.rd_le hb (by linarith)⟩

/-- C135: the tensor of each slice is evaluated inside that slice, so the modulation function of a mixture only sees numbers from 0 to 1. -/
theorem C135_midpoints (R : Rounding) (t : ℝ) (div k : ℕ) (a b z : ℝ) (hd : 1 ≤ div) (hd' : div ≤ 2 ^ 53) (htd : IsDouble t)
    (ht : (2 : ℝ) ^ (-1022 : ℤ) * div ≤ t) (ha : (R.getSlices t div)[k]? = some a) (hb : (R.getSlices t div)[k + 1]? = some b)
    (hz : (R.midpoints (R.getSlices t div))[k]? = some z) :
    a ≤ z ∧ z ≤ b ∧ 0 ≤ R.fraction z t ∧ R.fraction z t ≤ 1 := by
  obtain ⟨h1, h2, h3, h4, h5⟩ := C135_slices R t div hd hd' htd ht
  have hd0 : (0 : ℝ) < div := by exact_mod_cast hd
  have ht0 : 0 < t := lt_of_lt_of_le (mul_pos (two_zpow_pos _) hd0) ht
  have ma := List.mem_of_getElem? ha
  have mb := List.mem_of_getElem? hb
  obtain ⟨ka, ea⟩ := List.getElem?_eq_some_iff.1 ha
  obtain ⟨kb, eb⟩ := List.getElem?_eq_some_iff.1 hb
  have hab : a ≤ b := by
    have := List.pairwise_iff_getElem.1 h4 k (k + 1) ka kb (Nat.lt_succ_self k)
    rwa [ea, eb] at this
  have hz' : z = R.rd (R.rd (a + b) / 2) := by
    unfold Rounding.midpoints at hz
    rw [List.getElem?_zipWith_eq_some] at hz
    obtain ⟨x, y, hx, hy, rfl⟩ := hz
    rw [List.getElem?_tail, hb] at hy
    rw [List.getElem?_dropLast] at hx
    rw [if_pos (by omega), ha] at hx
    rw [Option.some.inj hx, Option.some.inj hy]
  obtain ⟨m1, m2⟩ := mid_between R (h5 a ma).1 (h5 b mb).1 hab
  rw [← hz'] at m1 m2
  have z0 : 0 ≤ z := (h5 a ma).2.1.trans m1
  have zt : z ≤ t := m2.trans (h5 b mb).2.2
  refine ⟨m1, m2, R.rd_nonneg (by positivity), R.rd_le ?_ ?_⟩
  · simpa using isDouble_intCast (n := 1) (by norm_num)
  · rwa [div_le_one ht0]

lemma slice_ok {t : ℝ} {div : ℕ} (h1 : 1 ≤ t) (h2 : div ≤ 1000) : (2 : ℝ) ^ (-1022 : ℤ) * div ≤ t := by
  have h3 : (2 : ℝ) ^ (-1022 : ℤ) ≤ 2 ^ (-10 : ℤ) := zpow_le_zpow_right₀ (by norm_num) (by norm_num)
  have h4 : (div : ℝ) ≤ 1000 := by exact_mod_cast h2
  have h5 : (2 : ℝ) ^ (-1022 : ℤ) * div ≤ 2 ^ (-10 : ℤ) * 1000 := mul_le_mul h3 h4 (by positivity) (by positivity)
  have h6 : (2 : ℝ) ^ (-10 : ℤ) * 1000 ≤ 1 := by norm_num
  linarith

lemma double_100 : IsDouble 100 := by simpa using isDouble_intCast (n := 100) (by norm_num)

/-- A layer of 100 nm in 30 slices: the step is not a double. -/
example (R : Rounding) : (R.getSlices 100 30).length = 31 ∧ |(R.diffs (R.getSlices 100 30)).sum - 100| ≤ 2 ^ (-53 : ℤ) * 100 :=
  ⟨(C135_slices R 100 30 (by norm_num) (by norm_num) double_100 (by simpa using slice_ok (t := 100) (div := 30) (by norm_num) (by norm_num))).1,
    (C135_thicknesses R 100 30 (by norm_num) (by norm_num) double_100 (by simpa using slice_ok (t := 100) (div := 30) (by norm_num) (by norm_num))).2⟩

example (R : Rounding) (z : ℝ) (h : (R.getSlices 100 30)[7]? = some z) : |z - 100 * 7 / 30| ≤ 3 * 2 ^ (-53 : ℤ) * 100 := by
  simpa using C135_positions R 100 30 7 z (by norm_num) (by simpa using slice_ok (t := 100) (div := 30) (by norm_num) (by norm_num)) h

example (R : Rounding) (d : ℝ) (h : d ∈ R.diffs (R.getSlices 100 30)) : 0 < d :=
  (C135_each_thickness R 100 30 (by norm_num) (by norm_num) double_100 (by simpa using slice_ok (t := 100) (div := 30) (by norm_num) (by norm_num)) d h).2
    (by norm_num)

example (R : Rounding) (a b z : ℝ) (ha : (R.getSlices 100 30)[29]? = some a) (hb : (R.getSlices 100 30)[30]? = some b)
    (hz : (R.midpoints (R.getSlices 100 30))[29]? = some z) : a ≤ z ∧ z ≤ b ∧ 0 ≤ R.fraction z 100 ∧ R.fraction z 100 ≤ 1 :=
  C135_midpoints R 100 30 29 a b z (by norm_num) (by norm_num) double_100 (by simpa using slice_ok (t := 100) (div := 30) (by norm_num) (by norm_num)) ha hb hz

end PyElli
