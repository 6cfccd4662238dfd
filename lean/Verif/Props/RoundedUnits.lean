import Verif.Lemmas.Rounding

/-!
# C136: unit conversions in double precision
-/

namespace PyElli

/-- The relative rounding error of a double. -/
noncomputable def ulpHalf : ℝ := 2 ^ (-53 : ℤ)

lemma isDouble_two_zpow {a : ℤ} (h : -1074 ≤ a) : IsDouble ((2 : ℝ) ^ a) := ⟨1, a, by norm_num, h, by simp⟩

/-- Rounding between two powers of two: a small relative change inside the same bounds. -/
lemma rd_between (R : Rounding) {x : ℝ} {a b : ℤ} (ha : (2 : ℝ) ^ a ≤ x) (hb : x ≤ (2 : ℝ) ^ b) (h : -1022 ≤ a) :
    (∃ δ : ℝ, |δ| ≤ ulpHalf ∧ R.rd x = x * (1 + δ)) ∧ (2 : ℝ) ^ a ≤ R.rd x ∧ R.rd x ≤ (2 : ℝ) ^ b := by
  have hx : 0 < x := lt_of_lt_of_le (two_zpow_pos a) ha
  have hab : a ≤ b := (zpow_le_zpow_iff_right₀ (by norm_num : (1 : ℝ) < 2)).1 (ha.trans hb)
  refine ⟨R.rd_factor ?_, R.le_rd (isDouble_two_zpow (by linarith)) ha, R.rd_le (isDouble_two_zpow (by linarith)) hb⟩
  rw [abs_of_pos hx]
  exact (zpow_le_zpow_right₀ (by norm_num) h).trans ha

lemma mul_between {x y : ℝ} {a b c d : ℤ} (hx : (2 : ℝ) ^ a ≤ x ∧ x ≤ (2 : ℝ) ^ b) (hy : (2 : ℝ) ^ c ≤ y ∧ y ≤ (2 : ℝ) ^ d) :
    (2 : ℝ) ^ (a + c) ≤ x * y ∧ x * y ≤ (2 : ℝ) ^ (b + d) := by
  have h1 := two_zpow_pos a
  have h2 := two_zpow_pos c
  rw [zpow_add₀ (by norm_num), zpow_add₀ (by norm_num)]
  exact ⟨mul_le_mul hx.1 hy.1 h2.le (by linarith [hx.1]), mul_le_mul hx.2 hy.2 (by linarith [hy.1]) (by positivity)⟩

lemma div_between {x y : ℝ} {a b c d : ℤ} (hx : (2 : ℝ) ^ a ≤ x ∧ x ≤ (2 : ℝ) ^ b) (hy : (2 : ℝ) ^ c ≤ y ∧ y ≤ (2 : ℝ) ^ d) :
    (2 : ℝ) ^ (a - d) ≤ x / y ∧ x / y ≤ (2 : ℝ) ^ (b - c) := by
  have h2 := two_zpow_pos c
  have hy0 : 0 < y := lt_of_lt_of_le h2 hy.1
  have hx0 : 0 < x := lt_of_lt_of_le (two_zpow_pos a) hx.1
  rw [zpow_sub₀ (by norm_num), zpow_sub₀ (by norm_num)]
  exact ⟨div_le_div₀ hx0.le hx.1 hy0 hy.2, div_le_div₀ (by positivity) hx.2 h2 hy.1⟩

lemma ulpHalf_val : ulpHalf = 1 / 9007199254740992 := by
  unfold ulpHalf
  norm_num

lemma near_one {δ : ℝ} (h : |δ| ≤ ulpHalf) : |1 + δ - 1| ≤ ulpHalf := by simpa using h

lemma near_mul {p q α β : ℝ} (hp : |p - 1| ≤ α) (hq : |q - 1| ≤ β) : |p * q - 1| ≤ α + β + α * β := by
  have hα := (abs_nonneg _).trans hp
  have e : p * q - 1 = (p - 1) + (q - 1) + (p - 1) * (q - 1) := by ring
  rw [e]
  refine (abs_add_le _ _).trans (add_le_add ((abs_add_le _ _).trans (add_le_add hp hq)) ?_)
  rw [abs_mul]
  exact mul_le_mul hp hq (abs_nonneg _) hα

lemma near_div {p q α β : ℝ} (hp : |p - 1| ≤ α) (hq : |q - 1| ≤ β) (hβ : β < 1) : |p / q - 1| ≤ (α + β) / (1 - β) := by
  have hα := (abs_nonneg _).trans hp
  have hβ0 := (abs_nonneg _).trans hq
  have hq1 : 1 - β ≤ q := by linarith [(abs_le.1 hq).1]
  have hq0 : 0 < q := by linarith
  rw [show p / q - 1 = ((p - 1) - (q - 1)) / q by field_simp; ring, abs_div, abs_of_pos hq0]
  exact div_le_div₀ (by linarith) ((abs_sub _ _).trans (add_le_add hp hq)) (by linarith) hq1

lemma near_scale {x y p ε : ℝ} (hx : 0 < x) (h : y = x * p) (hp : |p - 1| ≤ ε) : |y - x| ≤ ε * x := by
  rw [h, show x * p - x = (p - 1) * x by ring, abs_mul, abs_of_pos hx]
  exact mul_le_mul_of_nonneg_right hp hx.le

/-- An ordinary magnitude: from `2⁻⁴⁰⁰` to `2⁴⁰⁰`. -/
def Ordinary (x : ℝ) : Prop := (2 : ℝ) ^ (-400 : ℤ) ≤ x ∧ x ≤ (2 : ℝ) ^ (400 : ℤ)

/-- The magnitude of a physical constant: from `2⁻⁶⁴` to `2⁶⁴`. -/
def ConstSize (x : ℝ) : Prop := (2 : ℝ) ^ (-64 : ℤ) ≤ x ∧ x ≤ (2 : ℝ) ^ (64 : ℤ)

lemma Ordinary.pos {x : ℝ} (h : Ordinary x) : 0 < x := lt_of_lt_of_le (two_zpow_pos _) h.1

lemma ConstSize.pos {x : ℝ} (h : ConstSize x) : 0 < x := lt_of_lt_of_le (two_zpow_pos _) h.1

/-- C136: the energy of a wavelength, and the wavelength of an energy, is right up to four roundings, and neither it nor the intermediate
products overflow or underflow. -/
theorem C136_wavelength_energy (R : Rounding) (c h nano v : ℝ) (hc : ConstSize c) (hh : ConstSize h) (hn : ConstSize nano) (hv : Ordinary v) :
    |R.wavelengthEnergy c h nano v - c * h / (v * nano)| ≤ 4 * 2 ^ (-53 : ℤ) * (c * h / (v * nano)) ∧
      (2 : ℝ) ^ (-592 : ℤ) ≤ R.wavelengthEnergy c h nano v ∧ R.wavelengthEnergy c h nano v ≤ (2 : ℝ) ^ (592 : ℤ) := by
  have hc0 := hc.pos
  have hh0 := hh.pos
  have hn0 := hn.pos
  have hv0 := hv.pos
  have b1 := mul_between hc hh
  obtain ⟨⟨δ₁, d1, e1⟩, k1⟩ := rd_between R b1.1 b1.2 (by norm_num)
  have b2 := mul_between hv hn
  obtain ⟨⟨δ₂, d2, e2⟩, k2⟩ := rd_between R b2.1 b2.2 (by norm_num)
  have b3 := div_between k1 k2
  obtain ⟨⟨δ₃, d3, e3⟩, k3⟩ := rd_between R b3.1 b3.2 (by norm_num)
  norm_num only at k3
  refine ⟨?_, by unfold Rounding.wavelengthEnergy; norm_num only; exact k3.1, by unfold Rounding.wavelengthEnergy; norm_num only; exact k3.2⟩
  have hq : (0 : ℝ) < 1 + δ₂ := by
    have := (abs_le.1 d2).1
    rw [ulpHalf_val] at this
    linarith
  refine near_scale (p := (1 + δ₁) * (1 + δ₃) / (1 + δ₂)) (by positivity) ?_ ?_
  · unfold Rounding.wavelengthEnergy
    rw [e3, e1, e2]
    field_simp
  · refine (near_div (near_mul (near_one d1) (near_one d3)) (near_one d2) (by rw [ulpHalf_val]; norm_num)).trans ?_
    rw [ulpHalf_val]
    norm_num

/-- C136: converting back and forth between wavelength and energy returns the value up to five roundings. -/
theorem C136_wavelength_energy_round_trip (R : Rounding) (c h nano v : ℝ) (hc : ConstSize c) (hh : ConstSize h) (hn : ConstSize nano) (hv : Ordinary v) :
    |R.wavelengthEnergy c h nano (R.wavelengthEnergy c h nano v) - v| ≤ 5 * 2 ^ (-53 : ℤ) * v := by
  have hn0 := hn.pos
  have hv0 := hv.pos
  have b1 := mul_between hc hh
  obtain ⟨-, k1⟩ := rd_between R b1.1 b1.2 (by norm_num)
  have b2 := mul_between hv hn
  obtain ⟨⟨δ₂, d2, e2⟩, k2⟩ := rd_between R b2.1 b2.2 (by norm_num)
  have b3 := div_between k1 k2
  obtain ⟨⟨δ₃, d3, e3⟩, k3⟩ := rd_between R b3.1 b3.2 (by norm_num)
  have b4 := mul_between k3 hn
  obtain ⟨⟨δ₄, d4, e4⟩, k4⟩ := rd_between R b4.1 b4.2 (by norm_num)
  have b5 := div_between k1 k4
  obtain ⟨⟨δ₅, d5, e5⟩, -⟩ := rd_between R b5.1 b5.2 (by norm_num)
  have hK : 0 < R.rd (c * h) := lt_of_lt_of_le (two_zpow_pos _) k1.1
  have pos : ∀ δ : ℝ, |δ| ≤ ulpHalf → 0 < 1 + δ := fun δ d => by
    have := (abs_le.1 d).1
    rw [ulpHalf_val] at this
    linarith
  have p2 := pos _ d2
  have p3 := pos _ d3
  have p4 := pos _ d4
  refine near_scale (p := (1 + δ₂) * (1 + δ₅) / ((1 + δ₃) * (1 + δ₄))) hv0 ?_ ?_
  · unfold Rounding.wavelengthEnergy
    rw [e5, e4, e3, e2]
    field_simp
  · refine (near_div (near_mul (near_one d2) (near_one d5)) (near_mul (near_one d3) (near_one d4)) (by rw [ulpHalf_val]; norm_num)).trans ?_
    rw [ulpHalf_val]
    norm_num

/-- C136: wavelength and frequency. -/
theorem C136_wavelength_frequency (R : Rounding) (c nano v : ℝ) (hc : ConstSize c) (hn : ConstSize nano) (hv : Ordinary v) :
    |R.wavelengthFrequency c nano v - c / (v * nano)| ≤ 3 * 2 ^ (-53 : ℤ) * (c / (v * nano)) ∧
      |R.wavelengthFrequency c nano (R.wavelengthFrequency c nano v) - v| ≤ 5 * 2 ^ (-53 : ℤ) * v := by
  have hc0 := hc.pos
  have hn0 := hn.pos
  have hv0 := hv.pos
  have b2 := mul_between hv hn
  obtain ⟨⟨δ₂, d2, e2⟩, k2⟩ := rd_between R b2.1 b2.2 (by norm_num)
  have b3 := div_between hc k2
  obtain ⟨⟨δ₃, d3, e3⟩, k3⟩ := rd_between R b3.1 b3.2 (by norm_num)
  have b4 := mul_between k3 hn
  obtain ⟨⟨δ₄, d4, e4⟩, k4⟩ := rd_between R b4.1 b4.2 (by norm_num)
  have b5 := div_between hc k4
  obtain ⟨⟨δ₅, d5, e5⟩, -⟩ := rd_between R b5.1 b5.2 (by norm_num)
  have pos : ∀ δ : ℝ, |δ| ≤ ulpHalf → 0 < 1 + δ := fun δ d => by
    have := (abs_le.1 d).1
    rw [ulpHalf_val] at this
    linarith
  have p2 := pos _ d2
  have p3 := pos _ d3
  have p4 := pos _ d4
  constructor
  · refine near_scale (p := (1 + δ₃) / (1 + δ₂)) (by positivity) ?_ ?_
    · unfold Rounding.wavelengthFrequency
      rw [e3, e2]
      field_simp
    · refine (near_div (near_one d3) (near_one d2) (by rw [ulpHalf_val]; norm_num)).trans ?_
      rw [ulpHalf_val]
      norm_num
  · refine near_scale (p := (1 + δ₂) * (1 + δ₅) / ((1 + δ₃) * (1 + δ₄))) hv0 ?_ ?_
    · unfold Rounding.wavelengthFrequency
      rw [e5, e4, e3, e2]
      field_simp
    · refine (near_div (near_mul (near_one d2) (near_one d5)) (near_mul (near_one d3) (near_one d4)) (by rw [ulpHalf_val]; norm_num)).trans ?_
      rw [ulpHalf_val]
      norm_num

/-- C136: wavelength and wavenumber. -/
theorem C136_wavelength_wavenumber (R : Rounding) (v : ℝ) (hv : Ordinary v) :
    |R.wavelengthWavenumber v - 1e7 / v| ≤ 2 ^ (-53 : ℤ) * (1e7 / v) ∧
      |R.wavelengthWavenumber (R.wavelengthWavenumber v) - v| ≤ 3 * 2 ^ (-53 : ℤ) * v := by
  have hv0 := hv.pos
  have hc : ConstSize 1e7 := by
    constructor <;> norm_num
  have b3 := div_between hc hv
  obtain ⟨⟨δ₃, d3, e3⟩, k3⟩ := rd_between R b3.1 b3.2 (by norm_num)
  have b5 := div_between hc k3
  obtain ⟨⟨δ₅, d5, e5⟩, -⟩ := rd_between R b5.1 b5.2 (by norm_num)
  have p3 : 0 < 1 + δ₃ := by
    have := (abs_le.1 d3).1
    rw [ulpHalf_val] at this
    linarith
  constructor
  · exact near_scale (p := 1 + δ₃) (by positivity) e3 (near_one d3)
  · refine near_scale (p := (1 + δ₅) / (1 + δ₃)) hv0 ?_ ?_
    · unfold Rounding.wavelengthWavenumber
      rw [e5, e3]
      field_simp
    · refine (near_div (near_one d5) (near_one d3) (by rw [ulpHalf_val]; norm_num)).trans ?_
      rw [ulpHalf_val]
      norm_num

/-- C136: energy and frequency, in both directions. -/
theorem C136_energy_frequency (R : Rounding) (h f : ℝ) (hh : ConstSize h) (hf : Ordinary f) :
    |R.frequency2Energy h f - f * h| ≤ 2 ^ (-53 : ℤ) * (f * h) ∧ |R.energy2Frequency h f - f / h| ≤ 2 ^ (-53 : ℤ) * (f / h) ∧
      |R.energy2Frequency h (R.frequency2Energy h f) - f| ≤ 3 * 2 ^ (-53 : ℤ) * f ∧
      |R.frequency2Energy h (R.energy2Frequency h f) - f| ≤ 3 * 2 ^ (-53 : ℤ) * f := by
  have hf0 := hf.pos
  have hh0 := hh.pos
  have b1 := mul_between hf hh
  obtain ⟨⟨δ₁, d1, e1⟩, k1⟩ := rd_between R b1.1 b1.2 (by norm_num)
  have b2 := div_between k1 hh
  obtain ⟨⟨δ₂, d2, e2⟩, -⟩ := rd_between R b2.1 b2.2 (by norm_num)
  have b3 := div_between hf hh
  obtain ⟨⟨δ₃, d3, e3⟩, k3⟩ := rd_between R b3.1 b3.2 (by norm_num)
  have b4 := mul_between k3 hh
  obtain ⟨⟨δ₄, d4, e4⟩, -⟩ := rd_between R b4.1 b4.2 (by norm_num)
  refine ⟨near_scale (p := 1 + δ₁) (by positivity) e1 (near_one d1), near_scale (p := 1 + δ₃) (by positivity) e3 (near_one d3), ?_, ?_⟩
  · refine near_scale (p := (1 + δ₁) * (1 + δ₂)) hf0 ?_ ((near_mul (near_one d1) (near_one d2)).trans (by rw [ulpHalf_val]; norm_num))
    unfold Rounding.energy2Frequency Rounding.frequency2Energy
    rw [e2, e1]
    field_simp
  · refine near_scale (p := (1 + δ₃) * (1 + δ₄)) hf0 ?_ ((near_mul (near_one d3) (near_one d4)).trans (by rw [ulpHalf_val]; norm_num))
    unfold Rounding.energy2Frequency Rounding.frequency2Energy
    rw [e4, e3]
    field_simp

/-- C136: rounding never inverts the order: longer wavelengths never get higher energies, frequencies or wavenumbers. -/
theorem C136_monotone (R : Rounding) (c h nano v w : ℝ) (hc : 0 < c) (hh : 0 < h) (hn : ConstSize nano) (hv : Ordinary v) (hvw : v ≤ w) :
    R.wavelengthEnergy c h nano w ≤ R.wavelengthEnergy c h nano v ∧ R.wavelengthFrequency c nano w ≤ R.wavelengthFrequency c nano v ∧
      R.wavelengthWavenumber w ≤ R.wavelengthWavenumber v := by
  have hn0 := hn.pos
  have hv0 := hv.pos
  have b2 := mul_between hv hn
  obtain ⟨-, k2⟩ := rd_between R b2.1 b2.2 (by norm_num)
  have hp : 0 < R.rd (v * nano) := lt_of_lt_of_le (two_zpow_pos _) k2.1
  have hm : R.rd (v * nano) ≤ R.rd (w * nano) := R.rd_mono (by nlinarith)
  exact ⟨R.rd_mono (div_le_div_of_nonneg_left (R.rd_nonneg (by positivity)) hp hm), R.rd_mono (div_le_div_of_nonneg_left hc.le hp hm),
    R.rd_mono (div_le_div_of_nonneg_left (by norm_num) hv0 hvw)⟩

/-- C136: the round trips are not exact: 490 nm come back one unit in the last place short. -/
theorem C136_exact_round_trip_refuted (R : Rounding) : R.wavelengthWavenumber (R.wavelengthWavenumber 490) = 490 - 2 ^ (-44 : ℤ) := by
  have h1 : R.wavelengthWavenumber 490 = (0x13ee0a72f05398 : ℤ) * 2 ^ (-38 : ℤ) := by
    refine rd_eq R (e := -38) ⟨_, _, by norm_num, by norm_num, rfl⟩ rfl ?_ ?_
    · rw [abs_lt]
      constructor <;> norm_num
    · norm_num
  rw [h1]
  refine rd_eq R (e := -44) (k := 490 * 2 ^ 44 - 1) ⟨490 * 2 ^ 44 - 1, -44, by norm_num, by norm_num, by norm_num⟩ (by norm_num) ?_ ?_
  · rw [abs_lt]
    constructor <;> norm_num
  · rw [abs_of_pos (by norm_num)]
    norm_num

lemma const_size {x : ℝ} (h1 : 1 / 2 ^ 64 ≤ x) (h2 : x ≤ 2 ^ 64) : ConstSize x := by
  constructor
  · rw [zpow_neg]; norm_num at h1 ⊢; linarith
  · norm_num at h2 ⊢; linarith

lemma ordinary_of {x : ℝ} (h1 : 1 ≤ x) (h2 : x ≤ 2 ^ 64) : Ordinary x := by
  constructor
  · exact (zpow_le_one_of_nonpos₀ (by norm_num) (by norm_num)).trans h1
  · refine h2.trans ?_
    rw [← zpow_natCast]
    exact zpow_le_zpow_right₀ (by norm_num) (by norm_num)

/-- The constants of scipy and a visible wavelength. -/
example (R : Rounding) : |R.wavelengthEnergy 299792458 4.135667696e-15 1e-9 (R.wavelengthEnergy 299792458 4.135667696e-15 1e-9 632.8) - 632.8| ≤
    5 * 2 ^ (-53 : ℤ) * 632.8 :=
  C136_wavelength_energy_round_trip R _ _ _ _ (const_size (by norm_num) (by norm_num)) (const_size (by norm_num) (by norm_num))
    (const_size (by norm_num) (by norm_num)) (ordinary_of (by norm_num) (by norm_num))

example (R : Rounding) : |R.wavelengthEnergy 299792458 4.135667696e-15 1e-9 500 - 299792458 * 4.135667696e-15 / (500 * 1e-9)| ≤
    4 * 2 ^ (-53 : ℤ) * (299792458 * 4.135667696e-15 / (500 * 1e-9)) :=
  (C136_wavelength_energy R _ _ _ _ (const_size (by norm_num) (by norm_num)) (const_size (by norm_num) (by norm_num))
    (const_size (by norm_num) (by norm_num)) (ordinary_of (by norm_num) (by norm_num))).1

example (R : Rounding) : |R.wavelengthFrequency 299792458 1e-9 (R.wavelengthFrequency 299792458 1e-9 1550) - 1550| ≤ 5 * 2 ^ (-53 : ℤ) * 1550 :=
  (C136_wavelength_frequency R _ _ _ (const_size (by norm_num) (by norm_num)) (const_size (by norm_num) (by norm_num)) (ordinary_of (by norm_num) (by norm_num))).2

example (R : Rounding) : |R.wavelengthWavenumber (R.wavelengthWavenumber 490) - 490| ≤ 3 * 2 ^ (-53 : ℤ) * 490 :=
  (C136_wavelength_wavenumber R _ (ordinary_of (by norm_num) (by norm_num))).2

example (R : Rounding) : |R.frequency2Energy 4.135667696e-15 (R.energy2Frequency 4.135667696e-15 1.96) - 1.96| ≤ 3 * 2 ^ (-53 : ℤ) * 1.96 :=
  (C136_energy_frequency R _ _ (const_size (by norm_num) (by norm_num)) (ordinary_of (by norm_num) (by norm_num))).2.2.2

example (R : Rounding) : R.wavelengthWavenumber 501 ≤ R.wavelengthWavenumber 500 :=
  (C136_monotone R 1 1 1 500 501 (by norm_num) (by norm_num) (const_size (by norm_num) (by norm_num)) (ordinary_of (by norm_num) (by norm_num)) (by norm_num)).2.2

end PyElli
