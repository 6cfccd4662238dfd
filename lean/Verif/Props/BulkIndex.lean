import Verif.Props.AngleReflect

/-! # What the reflectance of a bulk sample tells about its index (C152) -/

namespace PyElli

open Complex

/-- The reflectance of a surface at normal incidence: light from index `n0` on a sample of index `n + i k`. -/
noncomputable def Spec.normalReflectance (n0 n k : ℝ) : ℝ := ((n - n0) ^ 2 + k ^ 2) / ((n + n0) ^ 2 + k ^ 2)

/-- A sample of complex index `n + i k`. -/
structure Spec.HasIndex (e : ℂ) (n k : ℝ) : Prop where
  refraction : 0 ≤ n
  extinction : 0 ≤ k
  square : e = ((n : ℂ) + k * I) ^ 2

lemma hasIndex_sqrt {e : ℂ} {n k : ℝ} (h : Spec.HasIndex e n k) : Complex.sqrt e = (n : ℂ) + k * I := by
  rw [csqrt_eq_iff]
  refine ⟨?_, h.square.symm⟩
  rcases h.refraction.lt_or_eq with hn | hn
  · exact Or.inl (by simpa using hn)
  · exact Or.inr ⟨by simp [← hn], by simpa using h.extinction⟩

lemma hasIndex_exists {e : ℂ} (he : 0 ≤ e.im) : Spec.HasIndex e (Complex.sqrt e).re (Complex.sqrt e).im :=
  ⟨csqrt_re_nonneg _, csqrt_im_nonneg he, by rw [re_add_im, csqrt_sq]⟩

lemma bulkW_normal (n0 : ℝ) (e : ℂ) : bulkW n0 0 e = Complex.sqrt e := by
  unfold bulkW deg2rad
  simp

section

variable {s : Stack} {n0 : ℝ}

/-- The fraction `(q - w)/(q + w)` for real `q`. -/
lemma contrast_norm {q : ℝ} {w : ℂ} : ‖((q : ℂ) - w) / (q + w)‖ ^ 2 = ((w.re - q) ^ 2 + w.im ^ 2) / ((w.re + q) ^ 2 + w.im ^ 2) := by
  rw [norm_div, div_pow, ← normSq_eq_norm_sq, ← normSq_eq_norm_sq, normSq_apply, normSq_apply]
  simp only [sub_re, sub_im, add_re, add_im, ofReal_re, ofReal_im]
  congr 1 <;> ring

/-- **C152.** At normal incidence R is for both polarisations the known function of the complex index. -/
theorem C152_normal (h : BulkSample s n0) {n k : ℝ} (hi : Spec.HasIndex (s.back 0 0) n k) (lbda : ℝ) (ee) (a : ℂ) :
    (measured s 0 lbda ee a).RMatrix 1 1 = Spec.normalReflectance n0 n k ∧ (measured s 0 lbda ee a).RMatrix 0 0 = Spec.normalReflectance n0 n k := by
  obtain ⟨hS, hP, hs, hp⟩ := bulk_amplitudes h le_rfl (by norm_num : (0 : ℝ) < 90) lbda ee
  have hc : Real.cos (deg2rad 0) = 1 := by unfold deg2rad; simp
  rw [bulkW_normal, hasIndex_sqrt hi, hc] at hS hP hs hp
  have e1 : ((n : ℂ) + k * I).re = n := by simp
  have e2 : ((n : ℂ) + k * I).im = k := by simp
  have hw : (n : ℂ) + k * I ≠ 0 := by
    intro h0
    apply h.nonzero
    rw [hi.square, h0]
    simp
  constructor
  · show ‖(calculate4x4 propExpm s 0 lbda ee).jr 1 1‖ ^ 2 = _
    rw [hs, ofReal_one, mul_one, contrast_norm, e1, e2]
    rfl
  · show ‖(calculate4x4 propExpm s 0 lbda ee).jr 0 0‖ ^ 2 = _
    have : (calculate4x4 propExpm s 0 lbda ee).jr 0 0 = -(((n0 : ℂ) - ((n : ℂ) + k * I)) / (n0 + ((n : ℂ) + k * I))) := by
      rw [hp, hi.square, ofReal_one, mul_one]
      rw [hi.square, ofReal_one, mul_one] at hP
      rw [ofReal_one, mul_one] at hS
      generalize (n : ℂ) + k * I = w at *
      rw [← neg_div, div_eq_div_iff hP hS]
      ring
    rw [this, norm_neg, contrast_norm, e1, e2]
    rfl

lemma normalReflectance_eq {n0 n k : ℝ} (h0 : 0 < n0) (hn : 0 ≤ n) : Spec.normalReflectance n0 n k = 1 - 4 * n0 * n / ((n + n0) ^ 2 + k ^ 2) := by
  have hd : (n + n0) ^ 2 + k ^ 2 ≠ 0 := by positivity
  unfold Spec.normalReflectance
  rw [eq_sub_iff_add_eq, ← add_div, div_eq_one_iff_eq hd]
  ring

/-- **C152.** Absorption makes a surface brighter: of two samples with the same refractive index the one with the larger extinction coefficient reflects more at
normal incidence. -/
theorem C152_absorption {s' : Stack} (h : BulkSample s n0) (h' : BulkSample s' n0) {n k k' : ℝ} (hn : 0 < n) (hi : Spec.HasIndex (s.back 0 0) n k)
    (hi' : Spec.HasIndex (s'.back 0 0) n k') (hk : k < k') (lbda : ℝ) (ee) (a : ℂ) :
    (measured s 0 lbda ee a).RMatrix 1 1 < (measured s' 0 lbda ee a).RMatrix 1 1 := by
  rw [(C152_normal h hi lbda ee a).1, (C152_normal h' hi' lbda ee a).1, normalReflectance_eq h.index hn.le, normalReflectance_eq h.index hn.le]
  have h0 := h.index
  have hk0 := hi.extinction
  have : 4 * n0 * n / ((n + n0) ^ 2 + k' ^ 2) < 4 * n0 * n / ((n + n0) ^ 2 + k ^ 2) := by
    apply div_lt_div_of_pos_left (by positivity) (by positivity)
    nlinarith
  linarith

/-- **C152.** Transparent samples: R grows with the index from that of the surrounding medium on, and two indices have the same reflectance exactly if they are equal
or their product is the square of that of the surrounding medium. -/
theorem C152_transparent {s' : Stack} (h : BulkSample s n0) (h' : BulkSample s' n0) {n n' : ℝ} (hn : 0 < n) (hn' : 0 < n') (hi : s.back 0 0 = (n : ℂ) ^ 2)
    (hi' : s'.back 0 0 = (n' : ℂ) ^ 2) (lbda : ℝ) (ee) (a : ℂ) :
    (n0 ≤ n → n < n' → (measured s 0 lbda ee a).RMatrix 1 1 < (measured s' 0 lbda ee a).RMatrix 1 1) ∧
    ((measured s 0 lbda ee a).RMatrix 1 1 = (measured s' 0 lbda ee a).RMatrix 1 1 ↔ n = n' ∨ n * n' = n0 ^ 2) := by
  have h0 := h.index
  rw [(C152_normal h ⟨hn.le, le_rfl, by rw [hi]; simp⟩ lbda ee a).1, (C152_normal h' ⟨hn'.le, le_rfl, by rw [hi']; simp⟩ lbda ee a).1]
  unfold Spec.normalReflectance
  simp only [ne_eq, OfNat.ofNat_ne_zero, not_false_eq_true, zero_pow, add_zero]
  have d1 : 0 < (n + n0) ^ 2 := by positivity
  have d2 : 0 < (n' + n0) ^ 2 := by positivity
  have key : (n' - n0) ^ 2 * (n + n0) ^ 2 - (n - n0) ^ 2 * (n' + n0) ^ 2 = 4 * n0 * (n' - n) * (n * n' - n0 ^ 2) := by ring
  constructor
  · intro hle hlt
    rw [div_lt_div_iff₀ d1 d2]
    have : 0 < 4 * n0 * (n' - n) * (n * n' - n0 ^ 2) := by
      refine mul_pos (mul_pos (by positivity) (by linarith)) ?_
      nlinarith
    linarith
  · rw [div_eq_div_iff d1.ne' d2.ne']
    constructor
    · intro he
      have h1 : 4 * n0 * (n' - n) * (n * n' - n0 ^ 2) = 0 := by linarith
      rcases mul_eq_zero.1 h1 with h2 | h2
      · left
        have : n' - n = 0 := by
          rcases mul_eq_zero.1 h2 with h3 | h3
          · linarith
          · exact h3
        linarith
      · right; linarith
    · rintro (he | he)
      · rw [he]
      · rw [he, sub_self, mul_zero] at key
        linarith

/-- One reflectance: a linear condition on `|w|²` and `Re w`. -/
lemma contrast_iff {q R : ℝ} (hq : 0 < q) (hR1 : R < 1) {w : ℂ} (hw : 0 ≤ w.re) :
    ((w.re - q) ^ 2 + w.im ^ 2) / ((w.re + q) ^ 2 + w.im ^ 2) = R ↔ ‖w‖ ^ 2 + q ^ 2 = 2 * (q * ((1 + R) / (1 - R))) * w.re := by
  have hd : (w.re + q) ^ 2 + w.im ^ 2 ≠ 0 := by positivity
  have h1 : 1 - R ≠ 0 := by linarith
  rw [div_eq_iff hd, ← normSq_eq_norm_sq, normSq_apply]
  rw [show 2 * (q * ((1 + R) / (1 - R))) * w.re = 2 * q * (1 + R) * w.re / (1 - R) by ring, eq_div_iff h1]
  constructor <;> intro h <;> nlinarith

/-- **C152.** One value of R_s at any angle leaves a circle of possible normal wave vector components (at normal incidence: complex indices). -/
theorem C152_circle (h : BulkSample s n0) {theta : ℝ} (h1 : 0 ≤ theta) (h2 : theta < 90) {R : ℝ} (hR0 : 0 ≤ R) (hR1 : R < 1) (lbda : ℝ) (ee) (a : ℂ) :
    let q := n0 * Real.cos (deg2rad theta)
    (measured s theta lbda ee a).RMatrix 1 1 = R ↔
      ‖Complex.sqrt (s.back 0 0 - ((n0 * Real.sin (deg2rad theta)) ^ 2 : ℝ)) - ((q * ((1 + R) / (1 - R)) : ℝ) : ℂ)‖ = 2 * q * √R / (1 - R) := by
  intro q
  have hq : 0 < q := mul_pos h.index (cos_pos_of_mem h1 h2)
  obtain ⟨hS, -, hs, -⟩ := bulk_amplitudes h h1 h2 lbda ee
  obtain ⟨q1, -, -⟩ := bulkW_quadrant n0 theta h.passive
  have hR : (measured s theta lbda ee a).RMatrix 1 1 = ‖(calculate4x4 propExpm s theta lbda ee).jr 1 1‖ ^ 2 := rfl
  have e : (n0 * Real.cos (deg2rad theta) : ℂ) = (q : ℂ) := by simp [q]
  rw [hR, hs, e, contrast_norm, contrast_iff hq hR1 q1]
  change _ ↔ ‖bulkW n0 theta (s.back 0 0) - _‖ = _
  generalize bulkW n0 theta (s.back 0 0) = w at *
  have h1R : 0 < 1 - R := by linarith
  have hr : 0 ≤ 2 * q * √R / (1 - R) := by positivity
  rw [← sq_eq_sq₀ (norm_nonneg _) hr]
  have e1 : ‖w - ((q * ((1 + R) / (1 - R)) : ℝ) : ℂ)‖ ^ 2 = ‖w‖ ^ 2 - 2 * (q * ((1 + R) / (1 - R))) * w.re + (q * ((1 + R) / (1 - R))) ^ 2 := by
    generalize q * ((1 + R) / (1 - R)) = c
    rw [← normSq_eq_norm_sq, ← normSq_eq_norm_sq, normSq_apply, normSq_apply]
    simp only [sub_re, sub_im, ofReal_re, ofReal_im]
    ring
  have e2 : (2 * q * √R / (1 - R)) ^ 2 = (q * ((1 + R) / (1 - R))) ^ 2 - q ^ 2 := by
    have := Real.sq_sqrt hR0
    rw [div_pow, mul_pow, this]
    field_simp
    ring
  rw [e1, e2]
  constructor <;> intro h' <;> linarith

/-- **C152.** The reflectances of one material at normal incidence from two different media determine its complex index. -/
theorem C152_two_media {n1 n2 : ℝ} {s1 s2 t1 t2 : Stack} (hs1 : BulkSample s1 n1) (hs2 : BulkSample s2 n2) (ht1 : BulkSample t1 n1) (ht2 : BulkSample t2 n2)
    (hn : n1 ≠ n2) (hs : s1.back 0 0 = s2.back 0 0) (ht : t1.back 0 0 = t2.back 0 0) (hpos : 0 < (Complex.sqrt (s1.back 0 0)).re) (lbda : ℝ) (ee) (a : ℂ)
    (h1 : (measured s1 0 lbda ee a).RMatrix 1 1 = (measured t1 0 lbda ee a).RMatrix 1 1)
    (h2 : (measured s2 0 lbda ee a).RMatrix 1 1 = (measured t2 0 lbda ee a).RMatrix 1 1) : s1.back 0 0 = t1.back 0 0 := by
  have is := hasIndex_exists hs1.passive
  have it := hasIndex_exists ht1.passive
  rw [(C152_normal hs1 is lbda ee a).1, (C152_normal ht1 it lbda ee a).1] at h1
  rw [(C152_normal hs2 (hs ▸ is) lbda ee a).1, (C152_normal ht2 (ht ▸ it) lbda ee a).1, ← hs, ← ht] at h2
  have p1 := hs1.index
  have p2 := hs2.index
  rw [is.square, it.square]
  obtain ⟨-, is2, -⟩ := is
  obtain ⟨it1, it2, -⟩ := it
  generalize (Complex.sqrt (s1.back 0 0)).re = x at *
  generalize (Complex.sqrt (s1.back 0 0)).im = y at *
  generalize (Complex.sqrt (t1.back 0 0)).re = u at *
  generalize (Complex.sqrt (t1.back 0 0)).im = v at *
  have key : ∀ {m : ℝ}, 0 < m → Spec.normalReflectance m x y = Spec.normalReflectance m u v → u * (x ^ 2 + y ^ 2 + m ^ 2) = x * (u ^ 2 + v ^ 2 + m ^ 2) := by
    intro m hm he
    rw [normalReflectance_eq hm hpos.le, normalReflectance_eq hm it1] at he
    have d1 : (x + m) ^ 2 + y ^ 2 ≠ 0 := by positivity
    have d2 : (u + m) ^ 2 + v ^ 2 ≠ 0 := by positivity
    have he' : 4 * m * x / ((x + m) ^ 2 + y ^ 2) = 4 * m * u / ((u + m) ^ 2 + v ^ 2) := by linarith
    rw [div_eq_div_iff d1 d2] at he'
    have : 4 * m * (u * (x ^ 2 + y ^ 2 + m ^ 2) - x * (u ^ 2 + v ^ 2 + m ^ 2)) = 0 := by linear_combination -he'
    rcases mul_eq_zero.1 this with h | h
    · linarith
    · linarith
  have k1 := key p1 h1
  have k2 := key p2 h2
  have hd : (u - x) * (n1 ^ 2 - n2 ^ 2) = 0 := by linear_combination k1 - k2
  have hne : n1 ^ 2 - n2 ^ 2 ≠ 0 := by
    intro h0
    apply hn
    have h1 : (n1 - n2) * (n1 + n2) = 0 := by linear_combination h0
    rcases mul_eq_zero.1 h1 with h | h <;> linarith
  have hux : u = x := by
    rcases mul_eq_zero.1 hd with h | h
    · linarith
    · exact absurd h hne
  have hvy : v = y := by
    have : y ^ 2 = v ^ 2 := by
      rw [hux] at k1
      have := mul_left_cancel₀ hpos.ne' k1
      linarith
    exact ((sq_eq_sq₀ is2 it2).1 this).symm
  rw [hux, hvy]

end

lemma index_three_one : Spec.HasIndex ((bulkStack ⟨8, 6⟩).back 0 0) 3 1 where
  refraction := by norm_num
  extinction := by norm_num
  square := by
    simp only [bulkStack, isoTensor, if_true, one_mul]
    apply Complex.ext <;> simp [pow_two] <;> norm_num

lemma index_three_two : Spec.HasIndex ((bulkStack ⟨5, 12⟩).back 0 0) 3 2 where
  refraction := by norm_num
  extinction := by norm_num
  square := by
    simp only [bulkStack, isoTensor, if_true, one_mul]
    apply Complex.ext <;> simp [pow_two] <;> norm_num

/-- Index `3 + i` in air: R = 5/17; index `3 + 2 i`: R = 2/5. -/
example (lbda : ℝ) (ee) (a : ℂ) : (measured (bulkStack ⟨8, 6⟩) 0 lbda ee a).RMatrix 1 1 = 5 / 17 ∧ (measured (bulkStack ⟨5, 12⟩) 0 lbda ee a).RMatrix 1 1 = 2 / 5 ∧
    (measured (bulkStack ⟨8, 6⟩) 0 lbda ee a).RMatrix 1 1 < (measured (bulkStack ⟨5, 12⟩) 0 lbda ee a).RMatrix 1 1 := by
  have h1 := bulkStack_sample (e := ⟨8, 6⟩) (by norm_num)
  have h2 := bulkStack_sample (e := ⟨5, 12⟩) (by norm_num)
  refine ⟨?_, ?_, C152_absorption h1 h2 (by norm_num) index_three_one index_three_two (by norm_num) lbda ee a⟩
  · rw [(C152_normal h1 index_three_one lbda ee a).1]
    norm_num [Spec.normalReflectance]
  · rw [(C152_normal h2 index_three_two lbda ee a).1]
    norm_num [Spec.normalReflectance]

lemma medium_two : BulkSample ⟨isoTensor 4, [], isoTensor ⟨8, 6⟩, true⟩ 2 where
  index := two_pos
  front := by simp [isoTensor]; norm_num
  layers := rfl
  back := rfl
  passive := by simp [isoTensor]
  nonzero := by
    intro h
    have := congrArg Complex.im h
    simp [isoTensor] at this
  different := by
    intro h
    have := congrArg Complex.im h
    simp [isoTensor] at this

/-- The index `3 + i` is found from the values in a medium of index 1 and in one of index 2. -/
example {t1 t2 : Stack} (ht1 : BulkSample t1 1) (ht2 : BulkSample t2 2) (ht : t1.back 0 0 = t2.back 0 0) (lbda : ℝ) (ee) (a : ℂ)
    (h1 : (measured t1 0 lbda ee a).RMatrix 1 1 = 5 / 17) (h2 : (measured t2 0 lbda ee a).RMatrix 1 1 = 1 / 13) : t1.back 0 0 = ⟨8, 6⟩ := by
  have b1 := bulkStack_sample (e := ⟨8, 6⟩) (by norm_num)
  have hb : (bulkStack ⟨8, 6⟩).back 0 0 = ⟨8, 6⟩ := by simp [bulkStack, isoTensor]
  have hw : Spec.HasIndex ((⟨isoTensor 4, [], isoTensor ⟨8, 6⟩, true⟩ : Stack).back 0 0) 3 1 := by
    simpa [bulkStack] using index_three_one
  have := C152_two_media b1 medium_two ht1 ht2 (by norm_num) rfl ht (by rw [hasIndex_sqrt index_three_one]; simp) lbda ee a
    (by rw [h1, (C152_normal b1 index_three_one lbda ee a).1]; norm_num [Spec.normalReflectance])
    (by rw [h2, (C152_normal medium_two hw lbda ee a).1]; norm_num [Spec.normalReflectance])
  rw [← this, hb]

lemma quarter_sample : BulkSample (bulkStack (1 / 4)) 1 where
  index := one_pos
  front := by simp [bulkStack, isoTensor]
  layers := rfl
  back := rfl
  passive := by simp [bulkStack, isoTensor]
  nonzero := by simp [bulkStack, isoTensor]
  different := by simp [bulkStack, isoTensor]

/-- Indices 2 and 1/2 in air have the same reflectance. -/
example (lbda : ℝ) (ee) (a : ℂ) : (measured (bulkStack 4) 0 lbda ee a).RMatrix 1 1 = (measured (bulkStack (1 / 4)) 0 lbda ee a).RMatrix 1 1 :=
  (C152_transparent glass_sample quarter_sample (n := 2) (n' := 1 / 2) (by norm_num) (by norm_num) (by simp [bulkStack, isoTensor]; norm_num)
    (by simp [bulkStack, isoTensor]; norm_num) lbda ee a).2.2 (Or.inr (by norm_num))

/-- Glass of index 2 and the matching circle at 60 degrees. -/
example (lbda : ℝ) (ee) (a : ℂ) : (measured (bulkStack 4) 60 lbda ee a).RMatrix 1 1 = 1 / 4 ↔
    ‖Complex.sqrt ((bulkStack 4).back 0 0 - ((1 * Real.sin (deg2rad 60)) ^ 2 : ℝ)) - ((1 * Real.cos (deg2rad 60) * ((1 + 1 / 4) / (1 - 1 / 4)) : ℝ) : ℂ)‖ =
      2 * (1 * Real.cos (deg2rad 60)) * √(1 / 4) / (1 - 1 / 4) :=
  C152_circle glass_sample (by norm_num) (by norm_num) (by norm_num) (by norm_num) lbda ee a

end PyElli
