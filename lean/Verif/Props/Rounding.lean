import Verif.Lemmas.Rounding
import Verif.Props.Angles

/-!
# C134: the wrapping of delta in double precision
-/

namespace PyElli

open Spec

lemma rounding_fmod_pos {a b : ℝ} (hb : 0 < b) (ha : 0 ≤ a) :
    0 ≤ Rounding.fmod a b ∧ Rounding.fmod a b < b ∧ ∃ k : ℤ, Rounding.fmod a b = a - b * k := by
  have h : 0 ≤ a / b := div_nonneg ha hb.le
  unfold Rounding.fmod
  rw [if_pos h]
  have h1 := Int.floor_le (a / b)
  have h2 := Int.lt_floor_add_one (a / b)
  rw [le_div_iff₀ hb] at h1
  rw [div_lt_iff₀ hb] at h2
  exact ⟨by linarith, by linarith, _, rfl⟩

lemma rounding_fmod_neg {a b : ℝ} (hb : 0 < b) (ha : a < 0) :
    Rounding.fmod a b ≤ 0 ∧ -b < Rounding.fmod a b ∧ ∃ k : ℤ, Rounding.fmod a b = a - b * k := by
  have h : ¬ 0 ≤ a / b := not_le.2 (div_neg_of_neg_of_pos ha hb)
  unfold Rounding.fmod
  rw [if_neg h]
  have h1 := Int.le_ceil (a / b)
  have h2 := Int.ceil_lt_add_one (a / b)
  rw [div_le_iff₀ hb] at h1
  rw [← sub_lt_iff_lt_add, lt_div_iff₀ hb] at h2
  exact ⟨by linarith, by linarith, _, rfl⟩

lemma isDouble_360 : IsDouble 360 := by simpa using isDouble_intCast (n := 360) (by norm_num)

lemma mod_360_eq (R : Rounding) (a : ℝ) : R.mod a 360 =
    if Rounding.fmod a 360 = 0 then 0 else if Rounding.fmod a 360 < 0 then R.rd (Rounding.fmod a 360 + 360) else Rounding.fmod a 360 := by
  have h360 : ¬ ((360 : ℝ) < 0) := by norm_num
  unfold Rounding.mod
  by_cases h : Rounding.fmod a 360 < 0 <;> simp [h, h360]

/-- numpy's remainder by 360: between 0 and 360, both included, and congruent up to one rounding. -/
lemma mod_360 (R : Rounding) (a : ℝ) :
    0 ≤ R.mod a 360 ∧ R.mod a 360 ≤ 360 ∧ ∃ k : ℤ, |R.mod a 360 - (a - 360 * k)| ≤ 2 ^ (-45 : ℤ) := by
  have hz : (0 : ℝ) ≤ 2 ^ (-45 : ℤ) := by positivity
  rw [mod_360_eq]
  rcases le_or_gt 0 a with ha | ha
  · obtain ⟨h1, h2, k, hk⟩ := rounding_fmod_pos (b := 360) (by norm_num) ha
    rw [if_neg (not_lt.2 h1)]
    split_ifs with h
    · refine ⟨le_refl _, by norm_num, k, ?_⟩
      rw [← hk, h]
      simpa using hz
    · exact ⟨h1, h2.le, k, by rw [← hk]; simpa using hz⟩
  · obtain ⟨h1, h2, k, hk⟩ := rounding_fmod_neg (b := 360) (by norm_num) ha
    split_ifs with h h'
    · refine ⟨le_refl _, by norm_num, k, ?_⟩
      rw [← hk, h]
      simpa using hz
    · refine ⟨R.rd_nonneg (by linarith), R.rd_le isDouble_360 (by linarith), k - 1, ?_⟩
      have := R.rd_abs (x := Rounding.fmod a 360 + 360) (e := -44) (by norm_num) (by
        rw [abs_of_nonneg (by linarith)]
        norm_num
        linarith)
      norm_num at this
      push_cast
      rw [show a - 360 * ((k : ℝ) - 1) = Rounding.fmod a 360 + 360 by rw [hk]; ring]
      norm_num
      exact this
    · exact absurd (lt_of_le_of_ne h1 h) h'

lemma range_bounds {lower upper : PyNum} {r : DeltaRange} (hr : mkDeltaRange lower upper = .ok r) :
    -360 ≤ r.lower ∧ r.lower ≤ 0 ∧ IsDouble r.lower ∧ IsDouble (r.lower + 360) := by
  obtain ⟨a, b, ha, hb⟩ := C01_accepted_bounds_are_integers lower upper r hr
  have hv := ((C01_delta_range_accepts_iff _ _ _).1 hr).2.2.2
  have hl : -360 ≤ r.lower ∧ r.lower ≤ 0 := by
    rcases hv with ⟨h1, _⟩ | ⟨h1, h2, _⟩
    · rw [h1]; norm_num
    · exact ⟨h1, h2⟩
  rw [ha] at hl ⊢
  have h1 : (-360 : ℤ) ≤ a := by exact_mod_cast hl.1
  have h2 : a ≤ 0 := by exact_mod_cast hl.2
  refine ⟨hl.1, hl.2, isDouble_intCast ?_, ?_⟩
  · rw [abs_le]; constructor <;> linarith
  · have := isDouble_intCast (n := a + 360) (by rw [abs_le]; constructor <;> linarith)
    simpa using this

lemma convert_ok (R : Rounding) {d : ℝ} {lower upper : PyNum} {r : DeltaRange} (hr : mkDeltaRange lower upper = .ok r) :
    R.convertDeltaRange d lower upper = .ok (R.shiftDelta d r) := by
  unfold Rounding.convertDeltaRange
  rw [hr]
  rfl

lemma range_360 : mkDeltaRange (.int 0) (.int 360) = .ok ⟨0, 360⟩ := by
  rw [C01_delta_range_accepts_iff]
  refine ⟨Or.inl rfl, by simp [Denotes], by simp [Denotes], Or.inr ⟨by norm_num, by norm_num, by norm_num⟩⟩

lemma range_180 : mkDeltaRange (.int (-180)) (.int 180) = .ok ⟨-180, 180⟩ := by
  rw [C01_delta_range_accepts_iff]
  refine ⟨Or.inl rfl, by simp [Denotes], by simp [Denotes], Or.inr ⟨by norm_num, by norm_num, by norm_num⟩⟩

/-- C134: the computed angle is a double of the closed window. -/
theorem C134_closed_window (R : Rounding) (d y : ℝ) (lower upper : PyNum) (r : DeltaRange) (hr : mkDeltaRange lower upper = .ok r)
    (h : R.convertDeltaRange d lower upper = .ok y) : IsDouble y ∧ r.lower ≤ y ∧ y ≤ r.lower + 360 := by
  unfold Rounding.convertDeltaRange at h
  rw [hr] at h
  cases h
  obtain ⟨-, -, l1, l2⟩ := range_bounds hr
  obtain ⟨m1, m2, -⟩ := mod_360 R (R.rd (d + r.lower))
  exact ⟨R.double _, R.le_rd l1 (by linarith), R.rd_le l2 (by linarith)⟩

example (R : Rounding) : ∃ y, R.convertDeltaRange 270 (.int (-180)) (.int 180) = .ok y ∧ IsDouble y ∧ -180 ≤ y ∧ y ≤ 180 := by
  refine ⟨_, convert_ok R range_180, ?_⟩
  have := C134_closed_window R 270 _ _ _ _ range_180 (convert_ok R range_180)
  norm_num at this
  exact this

/-- C134: the computed angle agrees with the exact formula of C02 up to multiples of 360 degrees and `3 · 2⁻⁴⁴`, about `1.7e-13` degrees. -/
theorem C134_accuracy (R : Rounding) (d y : ℝ) (lower upper : PyNum) (r : DeltaRange) (hr : mkDeltaRange lower upper = .ok r)
    (h : R.convertDeltaRange d lower upper = .ok y) (hd : |d| ≤ 1024) :
    ∃ k : ℤ, |y - (d + 2 * r.lower) - 360 * k| ≤ 3 * 2 ^ (-44 : ℤ) := by
  unfold Rounding.convertDeltaRange at h
  rw [hr] at h
  cases h
  obtain ⟨l0, l0', l1, l2⟩ := range_bounds hr
  obtain ⟨m1, m2, k, hk⟩ := mod_360 R (R.rd (d + r.lower))
  have hd' := abs_le.1 hd
  have e1 := R.rd_abs (x := d + r.lower) (e := -42) (by norm_num) (by rw [abs_le]; norm_num; constructor <;> linarith)
  have e2 := R.rd_abs (x := R.mod (R.rd (d + r.lower)) 360 + r.lower) (e := -44) (by norm_num) (by rw [abs_le]; norm_num; constructor <;> linarith)
  refine ⟨-k, ?_⟩
  change |R.rd (R.mod (R.rd (d + r.lower)) 360 + r.lower) - _ - _| ≤ _
  push_cast
  generalize R.mod (R.rd (d + r.lower)) 360 = m at *
  norm_num at e1 e2 hk ⊢
  rw [abs_le] at *
  constructor <;> linarith

example (R : Rounding) : ∃ (y : ℝ) (k : ℤ), R.convertDeltaRange (-37.5) (.int 0) (.int 360) = .ok y ∧ |y + 37.5 - 360 * k| ≤ 3 * 2 ^ (-44 : ℤ) := by
  obtain ⟨k, hk⟩ := C134_accuracy R (-37.5) _ _ _ _ range_360 (convert_ok R range_360) (by norm_num [abs_le])
  refine ⟨_, k, convert_ok R range_360, ?_⟩
  simpa using hk

/-- C134: the window of C02 without its upper end is not kept: a tiny negative delta is converted to 360 degrees exactly. Converting
once more gives zero. -/
theorem C134_open_window_refuted (R : Rounding) :
    IsDouble (-(2 ^ (-60 : ℤ))) ∧ R.convertDeltaRange (-(2 ^ (-60 : ℤ))) (.int 0) (.int 360) = .ok 360 ∧
      R.convertDeltaRange 360 (.int 0) (.int 360) = .ok 0 := by
  have hx : IsDouble (-(2 ^ (-60 : ℤ))) := ⟨-1, -60, by norm_num, by norm_num, by simp⟩
  refine ⟨hx, ?_, ?_⟩
  · rw [convert_ok R range_360]
    congr 1
    unfold Rounding.shiftDelta
    simp only [add_zero]
    rw [R.rd_of_double hx]
    have hf : Rounding.fmod (-(2 ^ (-60 : ℤ))) 360 = -(2 ^ (-60 : ℤ)) := by
      unfold Rounding.fmod
      have h1 : ⌈(-(2 ^ (-60 : ℤ)) : ℝ) / 360⌉ = 0 := by
        rw [Int.ceil_eq_iff]
        norm_num
      rw [if_neg (by norm_num), h1]
      simp
    have h360 : R.rd (-(2 ^ (-60 : ℤ)) + 360) = 360 := by
      refine rd_eq R (e := -44) (k := 360 * 2 ^ 44) isDouble_360 (by norm_num) ?_ ?_
      · norm_num [abs_lt]
      · norm_num
    rw [mod_360_eq, hf, if_neg (by norm_num), if_pos (by norm_num), h360, R.rd_of_double isDouble_360]
  · rw [convert_ok R range_360]
    congr 1
    unfold Rounding.shiftDelta
    simp only [add_zero]
    rw [R.rd_of_double isDouble_360]
    have hf : Rounding.fmod 360 360 = 0 := by
      unfold Rounding.fmod
      norm_num
    rw [mod_360_eq, if_pos hf, R.rd_zero]

/-- C134: an angle already inside the default window is not always returned as it is. -/
theorem C134_fixed_refuted (R : Rounding) :
    IsDouble (-90 + 2 ^ (-46 : ℤ)) ∧ R.convertDeltaRange (-90 + 2 ^ (-46 : ℤ)) (.int (-180)) (.int 180) = .ok (-90) := by
  have hx : IsDouble (-90 + 2 ^ (-46 : ℤ)) := ⟨-90 * 2 ^ 46 + 1, -46, by norm_num, by norm_num, by norm_num⟩
  refine ⟨hx, ?_⟩
  rw [convert_ok R range_180]
  congr 1
  unfold Rounding.shiftDelta
  have hd : ∀ n : ℤ, |n| ≤ 360 → IsDouble (n : ℝ) := fun n hn => isDouble_intCast (hn.trans (by norm_num))
  have h1 : R.rd (-90 + 2 ^ (-46 : ℤ) + -180) = -270 := by
    refine rd_eq R (e := -44) (k := -270 * 2 ^ 44) (by simpa using hd (-270) (by norm_num)) (by norm_num) ?_ ?_
    · norm_num [abs_lt]
    · norm_num
  have h2 : Rounding.fmod (-270) 360 = -270 := by
    unfold Rounding.fmod
    have h3 : ⌈(-270 : ℝ) / 360⌉ = 0 := by
      rw [Int.ceil_eq_iff]
      norm_num
    rw [if_neg (by norm_num), h3]
    simp
  have h4 : R.rd (-270 + 360) = 90 := by
    rw [show (-270 + 360 : ℝ) = 90 by norm_num]
    exact R.rd_of_double (by simpa using hd 90 (by norm_num))
  simp only
  rw [h1, mod_360_eq, h2, if_neg (by norm_num), if_pos (by norm_num), h4, show (90 + -180 : ℝ) = -90 by norm_num]
  exact R.rd_of_double (by simpa using hd (-90) (by norm_num))

/-- C134: with the lower end 0 the angles inside the window are fixed exactly. -/
theorem C134_fixed_partial (R : Rounding) (d : ℝ) (lower upper : PyNum) (r : DeltaRange) (hr : mkDeltaRange lower upper = .ok r) (h0 : r.lower = 0)
    (hd : IsDouble d) (h1 : 0 ≤ d) (h2 : d < 360) : R.convertDeltaRange d lower upper = .ok d := by
  rw [convert_ok R hr]
  congr 1
  unfold Rounding.shiftDelta
  rw [h0]
  simp only [add_zero]
  rw [R.rd_of_double hd]
  have hf : Rounding.fmod d 360 = d := by
    unfold Rounding.fmod
    have h3 : ⌊d / 360⌋ = 0 := by
      rw [Int.floor_eq_zero_iff, Set.mem_Ico, le_div_iff₀ (by norm_num), div_lt_iff₀ (by norm_num)]
      constructor <;> linarith
    rw [if_pos (by positivity), h3]
    simp
  rw [mod_360_eq, hf, if_neg (not_lt.2 h1)]
  split_ifs with h
  · rw [R.rd_zero, h]
  · exact R.rd_of_double hd

example (R : Rounding) : R.convertDeltaRange 270 (.int 0) (.int 360) = .ok 270 :=
  C134_fixed_partial R 270 _ _ _ range_360 rfl (by simpa using isDouble_intCast (n := 270) (by norm_num)) (by norm_num) (by norm_num)

end PyElli
