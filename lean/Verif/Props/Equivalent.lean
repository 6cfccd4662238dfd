import Verif.Props.Bragg
import Verif.Props.SolverLaws
import Verif.Spec.Equivalent
import Mathlib.Analysis.SpecialFunctions.Complex.Arg

/-! # Symmetric multilayers act like one layer (C158) -/

namespace PyElli

open Matrix Complex
open _root_.Spec.Equivalent

/-- Swaps the two diagonal entries; reverses products. -/
def flip2 (M : Matrix (Fin 2) (Fin 2) ℝ) : Matrix (Fin 2) (Fin 2) ℝ := !![M 1 1, M 0 1; M 1 0, M 0 0]

lemma flip2_mul (M N : Matrix (Fin 2) (Fin 2) ℝ) : flip2 (M * N) = flip2 N * flip2 M := by
  ext i j
  fin_cases i <;> fin_cases j <;> simp [flip2, Matrix.mul_apply, Fin.sum_univ_two] <;> ring

lemma multilayer_cons (lbda : ℝ) (l : ℝ × ℝ) (L : List (ℝ × ℝ)) :
    multilayer lbda (l :: L) = layer l.1 (2 * Real.pi * l.1 * l.2 / lbda) * multilayer lbda L := by
  simp [multilayer]

lemma multilayer_append (lbda : ℝ) (L L' : List (ℝ × ℝ)) : multilayer lbda (L ++ L') = multilayer lbda L * multilayer lbda L' := by
  simp [multilayer]

lemma multilayer_flip (lbda : ℝ) (L : List (ℝ × ℝ)) : flip2 (multilayer lbda L) = multilayer lbda L.reverse := by
  induction L with
  | nil => ext i j; fin_cases i <;> fin_cases j <;> simp [multilayer, flip2]
  | cons l L ih =>
    rw [multilayer_cons, flip2_mul, ih, List.reverse_cons, multilayer_append]
    congr 1
    simp [multilayer, flip2, layer]

lemma multilayer_det (lbda : ℝ) (L : List (ℝ × ℝ)) (hL : ∀ l ∈ L, 0 < l.1) : (multilayer lbda L).det = 1 := by
  induction L with
  | nil => simp [multilayer]
  | cons l L ih =>
    rw [multilayer_cons, det_mul, ih fun x hx => hL x (List.mem_cons_of_mem _ hx), mul_one, layer, det_fin_two_of]
    have hn := (hL l (by simp)).ne'
    have := Real.sin_sq_add_cos_sq (2 * Real.pi * l.1 * l.2 / lbda)
    field_simp
    linear_combination this

/-- A matrix with equal diagonal in the pass band is the matrix of one layer. -/
lemma exists_layer (M : Matrix (Fin 2) (Fin 2) ℝ) (hd : M.det = 1) (hs : M 0 0 = M 1 1) (hp : |M 0 0| < 1) :
    ∃ n B : ℝ, 0 < n ∧ 0 < B ∧ B < 2 * Real.pi ∧ layer n B = M := by
  rw [det_fin_two, ← hs] at hd
  have h1 : M 0 0 ^ 2 < 1 := (sq_lt_one_iff_abs_lt_one _).2 hp
  have hbc : M 0 1 * M 1 0 < 0 := by nlinarith
  have hb : M 0 1 ≠ 0 := by rintro h; rw [h, zero_mul] at hbc; exact lt_irrefl _ hbc
  have hq : 0 < -(M 1 0 / M 0 1) := by
    have : M 1 0 / M 0 1 = M 0 1 * M 1 0 / M 0 1 ^ 2 := by field_simp
    rw [this, ← neg_div]
    have : 0 < M 0 1 ^ 2 := by positivity
    exact div_pos (by linarith) this
  set n := Real.sqrt (-(M 1 0 / M 0 1)) with hn
  have hn0 : 0 < n := Real.sqrt_pos.2 hq
  have hn2 : n ^ 2 = -(M 1 0 / M 0 1) := Real.sq_sqrt hq.le
  have hn2b : n ^ 2 * M 0 1 = -M 1 0 := by rw [hn2]; field_simp
  set z : ℂ := ⟨M 0 0, n * M 0 1⟩ with hz
  have hunit : M 0 0 ^ 2 + (n * M 0 1) ^ 2 = 1 := by linear_combination hd + M 0 1 * hn2b
  have hnorm : ‖z‖ = 1 := by
    have : ‖z‖ ^ 2 = 1 := by rw [Complex.sq_norm, Complex.normSq_mk]; linear_combination hunit
    nlinarith [norm_nonneg z]
  have hz0 : z ≠ 0 := by rw [← norm_pos_iff, hnorm]; exact one_pos
  have hc : Real.cos z.arg = M 0 0 := by rw [Complex.cos_arg hz0, hnorm, div_one]
  have hsn : Real.sin z.arg = n * M 0 1 := by rw [Complex.sin_arg, hnorm, div_one]
  have hs0 : Real.sin z.arg ≠ 0 := by rw [hsn]; exact mul_ne_zero hn0.ne' hb
  have hfin : ∀ B, Real.cos B = M 0 0 → Real.sin B = n * M 0 1 → layer n B = M := by
    intro B h2 h3
    unfold layer
    rw [h2, h3]
    ext i j
    fin_cases i <;> fin_cases j
    · rfl
    · show n * M 0 1 / n = _
      field_simp
      rfl
    · show -(n * (n * M 0 1)) = M 1 0
      linear_combination -hn2b
    · exact hs
  rcases lt_trichotomy z.arg 0 with h | h | h
  · refine ⟨n, z.arg + 2 * Real.pi, hn0, ?_, by linarith, hfin _ (by rw [Real.cos_add_two_pi, hc]) (by rw [Real.sin_add_two_pi, hsn])⟩
    have := Complex.neg_pi_lt_arg z
    have := Real.pi_pos
    linarith
  · exact absurd (by rw [h, Real.sin_zero]) hs0
  · refine ⟨n, z.arg, hn0, h, ?_, hfin _ hc hsn⟩
    have := Complex.arg_le_pi z
    have := Real.pi_pos
    linarith

/-- A layer of real index. -/
noncomputable def clearLayer (l : ℝ × ℝ) : ℝ × Tensor := (l.2, isoTensor ((l.1 ^ 2 : ℝ) : ℂ))

/-- The complex matrix of one polarisation. -/
noncomputable def polMat (sg : ℂ) (M : Matrix (Fin 2) (Fin 2) ℝ) : Mat2 := !![(M 0 0 : ℂ), sg * I * M 0 1; -(sg * I * M 1 0), M 1 1]

lemma polMat_mul {sg : ℂ} (hsg : sg ^ 2 = 1) (M N : Matrix (Fin 2) (Fin 2) ℝ) : polMat sg (M * N) = polMat sg M * polMat sg N := by
  have hI : I * I = -1 := I_mul_I
  ext i j
  fin_cases i <;> fin_cases j <;> simp [polMat, Matrix.mul_apply, Fin.sum_univ_two]
  · linear_combination (-(M 0 1 : ℂ) * N 1 0) * hsg + (sg ^ 2 * (M 0 1 : ℂ) * N 1 0) * hI
  · ring
  · ring
  · linear_combination (-(M 1 0 : ℂ) * N 0 1) * hsg + (sg ^ 2 * (M 1 0 : ℂ) * N 0 1) * hI

lemma layerT_polMat (sg : ℂ) (n B : ℝ) : layerT sg n (B : ℂ) = polMat sg (layer n B) := by
  unfold layerT polMat layer
  ext i j
  fin_cases i <;> fin_cases j <;> simp <;> ring

lemma clear_prod {lbda : ℝ} (L : List (ℝ × ℝ)) (hL : ∀ l ∈ L, 0 < l.1) :
    prodS 0 lbda (L.map clearLayer) = polMat 1 (multilayer lbda L) ∧ prodP 0 lbda (L.map clearLayer) = polMat (-1) (multilayer lbda L) := by
  induction L with
  | nil =>
    have h1 : ∀ sg, polMat sg 1 = 1 := by
      intro sg
      ext i j
      fin_cases i <;> fin_cases j <;> simp [polMat]
    simp [prodS, prodP, multilayer, h1]
  | cons l L ih =>
    obtain ⟨i1, i2⟩ := ih fun x hx => hL x (List.mem_cons_of_mem _ hx)
    have hn := hL l (by simp)
    obtain ⟨_, _, hs, hp⟩ := layer_real (kx := 0) (e := l.1 ^ 2) (by rw [zero_pow two_ne_zero]; positivity) lbda l.2
    have hq : Real.sqrt (l.1 ^ 2 - 0 ^ 2) = l.1 := by rw [zero_pow two_ne_zero, sub_zero, Real.sqrt_sq hn.le]
    have hz : l.1 ^ 2 / l.1 = l.1 := by field_simp
    have hph : 2 * Real.pi * l.1 / lbda * l.2 = 2 * Real.pi * l.1 * l.2 / lbda := by ring
    rw [hq, hph] at hs hp
    rw [hz] at hp
    rw [multilayer_cons, polMat_mul (by norm_num), polMat_mul (by norm_num), ← i1, ← i2, ← layerT_polMat, ← layerT_polMat, ← hs, ← hp]
    simp [prodS, prodP, clearLayer, isoTensor]

lemma clear_iso (L : List (ℝ × ℝ)) : IsoLayers (L.map clearLayer) := by
  intro l h
  obtain ⟨x, -, rfl⟩ := List.mem_map.1 h
  ext i j
  simp [clearLayer, isoTensor]

/-- Multilayers with the same real matrix can replace each other in every sample. -/
lemma clear_replace (s : Stack) (l₁ l₂ : List (ℝ × Tensor)) {L L' : List (ℝ × ℝ)} (hL : ∀ l ∈ L, 0 < l.1) (hL' : ∀ l ∈ L', 0 < l.1) (lbda : ℝ) (ee)
    (h : multilayer lbda L = multilayer lbda L') :
    calculate4x4 propExpm (s.withLayers (l₁ ++ L.map clearLayer ++ l₂)) 0 lbda ee =
      calculate4x4 propExpm (s.withLayers (l₁ ++ L'.map clearLayer ++ l₂)) 0 lbda ee := by
  have hk : kxOf s 0 = 0 := by simp [kxOf, deg2rad]
  have ht : transfer4x4 propExpm (s.withLayers (l₁ ++ L.map clearLayer ++ l₂)) 0 lbda ee =
      transfer4x4 propExpm (s.withLayers (l₁ ++ L'.map clearLayer ++ l₂)) 0 lbda ee := by
    unfold transfer4x4
    rw [loop4x4_eq, loop4x4_eq]
    have hk' : ∀ ls, kxOf (s.withLayers ls) 0 = 0 := fun _ => hk
    have hx : ∀ ls, exitMatrix (s.withLayers ls) 0 ee = exitMatrix s 0 ee := fun _ => rfl
    simp only [hk', hx]
    simp only [Stack.withLayers, List.map_append, List.prod_append]
    rw [loop4x4_iso 0 lbda _ (clear_iso L), loop4x4_iso 0 lbda _ (clear_iso L'), (clear_prod L hL).1, (clear_prod L hL).2, (clear_prod L' hL').1,
      (clear_prod L' hL').2, h]
  unfold calculate4x4
  rw [ht]
  rfl

/-- C158: a symmetric multilayer of transparent layers in its pass band acts at normal incidence like one layer, in front of and behind whatever
other layers (crystals included) of any sample. -/
theorem C158_equivalent (lbda : ℝ) (hl : 0 < lbda) (L : List (ℝ × ℝ)) (hL : ∀ l ∈ L, 0 < l.1) (hsym : L.reverse = L)
    (hpass : |multilayer lbda L 0 0| < 1) :
    ∃ n d : ℝ, 0 < n ∧ 0 < d ∧ n * d < lbda ∧ ∀ (s : Stack) (l₁ l₂ : List (ℝ × Tensor)) (ee),
      calculate4x4 propExpm (s.withLayers (l₁ ++ L.map clearLayer ++ l₂)) 0 lbda ee =
        calculate4x4 propExpm (s.withLayers (l₁ ++ (d, isoTensor ((n ^ 2 : ℝ) : ℂ)) :: l₂)) 0 lbda ee := by
  have hf := multilayer_flip lbda L
  rw [hsym] at hf
  have hs : multilayer lbda L 0 0 = multilayer lbda L 1 1 := by
    have := congrFun (congrFun hf 1) 1
    simpa [flip2] using this
  obtain ⟨n, B, hn, hB, hB', he⟩ := exists_layer _ (multilayer_det lbda L hL) hs hpass
  have hpi := Real.pi_pos
  refine ⟨n, B * lbda / (2 * Real.pi * n), hn, by positivity, ?_, ?_⟩
  · have : n * (B * lbda / (2 * Real.pi * n)) = B * lbda / (2 * Real.pi) := by field_simp
    rw [this, div_lt_iff₀ (by positivity)]
    nlinarith
  · intro s l₁ l₂ ee
    have hm : multilayer lbda L = multilayer lbda [(n, B * lbda / (2 * Real.pi * n))] := by
      have : 2 * Real.pi * n * (B * lbda / (2 * Real.pi * n)) / lbda = B := by field_simp
      simp only [multilayer, List.map_cons, List.map_nil, List.prod_cons, List.prod_nil, mul_one]
      rw [this, he]
      rfl
    rw [clear_replace s l₁ l₂ hL (L' := [(n, B * lbda / (2 * Real.pi * n))]) (by simpa using hn) lbda ee hm]
    simp [clearLayer]

/-- Layers in air. -/
noncomputable def inAir (L : List (ℝ × ℝ)) : Stack := ⟨isoTensor ((1 ^ 2 : ℝ) : ℂ), L.map clearLayer, isoTensor ((1 ^ 2 : ℝ) : ℂ), true⟩

/-- Reflection and transmission of transparent layers in air in terms of the real matrix. -/
lemma inAir_out (lbda : ℝ) (L : List (ℝ × ℝ)) (hL : ∀ l ∈ L, 0 < l.1) (ee) :
    let M := multilayer lbda L
    let u : ℂ := ((M 0 0 + M 1 1 : ℝ) : ℂ) + ((M 1 0 - M 0 1 : ℝ) : ℂ) * I
    let v : ℂ := ((M 0 0 - M 1 1 : ℝ) : ℂ) - ((M 0 1 + M 1 0 : ℝ) : ℂ) * I
    u ≠ 0 ∧ (calculate4x4 propExpm (inAir L) 0 lbda ee).jr 1 1 = v / u ∧ (calculate4x4 propExpm (inAir L) 0 lbda ee).jt 1 1 = 2 / u := by
  intro M u v
  have hdet : M.det = 1 := multilayer_det lbda L hL
  rw [det_fin_two] at hdet
  have hu : u ≠ 0 := by
    intro h
    have h1 : M 0 0 + M 1 1 = 0 := by simpa [u] using congrArg Complex.re h
    have h2 : M 1 0 - M 0 1 = 0 := by simpa [u] using congrArg Complex.im h
    have h3 : M 1 1 = -M 0 0 := by linarith
    have h4 : M 1 0 = M 0 1 := by linarith
    rw [h3, h4] at hdet
    nlinarith [sq_nonneg (M 0 0), sq_nonneg (M 0 1)]
  have hk : kxOf (inAir L) 0 = 0 := by simp [kxOf, deg2rad]
  have hcos : ∀ e, cosPhi 0 (isoTensor e) = 1 := by
    intro e
    unfold cosPhi
    have := csqrt_ofReal (x := 1) (by norm_num)
    simpa using this
  have hT := transfer4x4_iso (inAir L) 0 lbda ee (clear_iso L) rfl
  rw [hk] at hT
  have hcf : cosPhi 0 (inAir L).front = 1 := hcos _
  have hcb : cosPhi 0 (inAir L).back = 1 := hcos _
  have hnf : nOf (inAir L).front = ((1 : ℝ) : ℂ) := nOf_iso_sq zero_le_one
  have hnb : nOf (inAir L).back = ((1 : ℝ) : ℂ) := nOf_iso_sq zero_le_one
  have hps : prodS 0 lbda (inAir L).layers = polMat 1 M := (clear_prod L hL).1
  have hpp : prodP 0 lbda (inAir L).layers = polMat (-1) M := (clear_prod L hL).2
  rw [hcf, hcb, hnf, hnb, hps, hpp] at hT
  have S0 : (DsInv ((1 : ℝ) : ℂ) 1 * polMat 1 M * Ds ((1 : ℝ) : ℂ) 1) 0 0 = u / 2 := by
    simp [DsInv, Ds, polMat, Matrix.mul_apply, Fin.sum_univ_two, u]
    ring
  have S1 : (DsInv ((1 : ℝ) : ℂ) 1 * polMat 1 M * Ds ((1 : ℝ) : ℂ) 1) 1 0 = v / 2 := by
    simp [DsInv, Ds, polMat, Matrix.mul_apply, Fin.sum_univ_two, v]
    ring
  have P0 : (DpInv ((1 : ℝ) : ℂ) 1 * polMat (-1) M * Dp ((1 : ℝ) : ℂ) 1) 0 0 = u / 2 := by
    simp [DpInv, Dp, polMat, Matrix.mul_apply, Fin.sum_univ_two, u]
    ring
  have hu2 : u / 2 ≠ 0 := div_ne_zero hu two_ne_zero
  obtain ⟨hr, ht⟩ := calc4x4_of_blkD (inAir L) 0 lbda ee _ _ hT (by rw [S0]; exact hu2) (by rw [P0]; exact hu2)
  refine ⟨hu, ?_, ?_⟩
  · rw [hr, S0, S1]
    show v / 2 / (u / 2) = _
    field_simp
  · rw [ht, S0]
    show 1 / (u / 2) = _
    field_simp

/-- C158: reflection and transmission of s light in air determine what transparent layers do in every other sample at this wavelength. -/
theorem C158_determined (lbda : ℝ) (L L' : List (ℝ × ℝ)) (hL : ∀ l ∈ L, 0 < l.1) (hL' : ∀ l ∈ L', 0 < l.1) (ee)
    (hr : (calculate4x4 propExpm (inAir L) 0 lbda ee).jr 1 1 = (calculate4x4 propExpm (inAir L') 0 lbda ee).jr 1 1)
    (ht : (calculate4x4 propExpm (inAir L) 0 lbda ee).jt 1 1 = (calculate4x4 propExpm (inAir L') 0 lbda ee).jt 1 1) :
    multilayer lbda L = multilayer lbda L' ∧ ∀ (s : Stack) (l₁ l₂ : List (ℝ × Tensor)) (ee'),
      calculate4x4 propExpm (s.withLayers (l₁ ++ L.map clearLayer ++ l₂)) 0 lbda ee' =
        calculate4x4 propExpm (s.withLayers (l₁ ++ L'.map clearLayer ++ l₂)) 0 lbda ee' := by
  obtain ⟨hu, r1, t1⟩ := inAir_out lbda L hL ee
  obtain ⟨hu', r2, t2⟩ := inAir_out lbda L' hL' ee
  rw [t1, t2] at ht
  rw [r1, r2] at hr
  have huu := (div_eq_div_iff hu hu').1 ht
  have huu' := mul_left_cancel₀ (two_ne_zero' ℂ) huu
  rw [huu'] at hr
  have hvv := (div_left_inj' hu).1 hr
  have a1 : multilayer lbda L 0 0 + multilayer lbda L 1 1 = multilayer lbda L' 0 0 + multilayer lbda L' 1 1 := by
    have := congrArg Complex.re huu'
    simp at this
    linarith
  have a2 : multilayer lbda L 1 0 - multilayer lbda L 0 1 = multilayer lbda L' 1 0 - multilayer lbda L' 0 1 := by
    have := congrArg Complex.im huu'
    simp at this
    linarith
  have a3 : multilayer lbda L 0 0 - multilayer lbda L 1 1 = multilayer lbda L' 0 0 - multilayer lbda L' 1 1 := by
    have := congrArg Complex.re hvv
    simp at this
    linarith
  have a4 : multilayer lbda L 0 1 + multilayer lbda L 1 0 = multilayer lbda L' 0 1 + multilayer lbda L' 1 0 := by
    have := congrArg Complex.im hvv
    simp at this
    linarith
  have hM : multilayer lbda L = multilayer lbda L' := by
    ext i j
    fin_cases i <;> fin_cases j <;> simp only [Fin.zero_eta, Fin.mk_one] <;> linarith
  exact ⟨hM, fun s l₁ l₂ ee' => clear_replace s l₁ l₂ hL hL' lbda ee' hM⟩

/-- C158: the equivalent layer is unique: two layers thinner than one wavelength, no half-wave layers, that reflect and transmit alike in air are the
same. -/
theorem C158_unique (lbda n n' d d' : ℝ) (hl : 0 < lbda) (hn : 0 < n) (hn' : 0 < n') (hd : 0 < d) (hd' : 0 < d') (h1 : n * d < lbda) (h1' : n' * d' < lbda)
    (hh : 2 * (n * d) ≠ lbda) (ee)
    (hr : (calculate4x4 propExpm (inAir [(n, d)]) 0 lbda ee).jr 1 1 = (calculate4x4 propExpm (inAir [(n', d')]) 0 lbda ee).jr 1 1)
    (ht : (calculate4x4 propExpm (inAir [(n, d)]) 0 lbda ee).jt 1 1 = (calculate4x4 propExpm (inAir [(n', d')]) 0 lbda ee).jt 1 1) :
    n = n' ∧ d = d' := by
  have hM := (C158_determined lbda [(n, d)] [(n', d')] (by simpa using hn) (by simpa using hn') ee hr ht).1
  have hpi := Real.pi_pos
  simp only [multilayer, List.map_cons, List.map_nil, List.prod_cons, List.prod_nil, mul_one] at hM
  set B := 2 * Real.pi * n * d / lbda with hB
  set B' := 2 * Real.pi * n' * d' / lbda with hB'
  have b0 : 0 < B := by positivity
  have b0' : 0 < B' := by positivity
  have b2 : B < 2 * Real.pi := by
    rw [hB, div_lt_iff₀ hl]
    nlinarith
  have b2' : B' < 2 * Real.pi := by
    rw [hB', div_lt_iff₀ hl]
    nlinarith
  have hs : Real.sin B ≠ 0 := by
    intro h
    obtain ⟨k, hk⟩ := Real.sin_eq_zero_iff.1 h
    have k0 : (0 : ℝ) < k := by
      by_contra hc
      have : k * Real.pi ≤ 0 := mul_nonpos_of_nonpos_of_nonneg (not_lt.1 hc) hpi.le
      linarith
    have k2 : (k : ℝ) < 2 := by
      by_contra hc
      have : 2 * Real.pi ≤ k * Real.pi := mul_le_mul_of_nonneg_right (not_lt.1 hc) hpi.le
      linarith
    have hk1 : k = 1 := by
      have a : 0 < k := by exact_mod_cast k0
      have b : k < 2 := by exact_mod_cast k2
      omega
    rw [hk1, hB] at hk
    apply hh
    have h2 : (1 : ℝ) * Real.pi * lbda = 2 * Real.pi * n * d := by
      push_cast at hk
      field_simp at hk
      linear_combination Real.pi * hk
    have : Real.pi * (2 * (n * d)) = Real.pi * lbda := by linear_combination -h2
    exact mul_left_cancel₀ hpi.ne' this
  have h00 : Real.cos B = Real.cos B' := congrFun (congrFun hM 0) 0
  have h01 : Real.sin B / n = Real.sin B' / n' := congrFun (congrFun hM 0) 1
  have h10 : -(n * Real.sin B) = -(n' * Real.sin B') := congrFun (congrFun hM 1) 0
  rw [div_eq_div_iff hn.ne' hn'.ne'] at h01
  have h3 : Real.sin B * (n' ^ 2 - n ^ 2) = 0 := by linear_combination n' * h01 + n * h10
  have hnn : n = n' := by
    rcases mul_eq_zero.1 h3 with h4 | h4
    · exact absurd h4 hs
    · nlinarith [mul_pos hn hn']
  subst hnn
  refine ⟨rfl, ?_⟩
  have hsin : Real.sin B = Real.sin B' := mul_right_cancel₀ hn.ne' h01
  have hone : Real.cos (B - B') = 1 := by
    rw [Real.cos_sub, ← h00, ← hsin]
    linear_combination Real.sin_sq_add_cos_sq B
  have hBB := (Real.cos_eq_one_iff_of_lt_of_lt (by linarith) (by linarith)).1 hone
  have : 2 * Real.pi * n * d / lbda = 2 * Real.pi * n * d' / lbda := by rw [← hB, ← hB']; linarith
  rw [div_left_inj' hl.ne'] at this
  exact mul_left_cancel₀ (by positivity) this

/-- C158: outside of the pass band no transparent layer acts like the multilayer: already in air it reflects or transmits differently. -/
theorem C158_stop_band (lbda : ℝ) (L : List (ℝ × ℝ)) (hL : ∀ l ∈ L, 0 < l.1) (hstop : 1 < |multilayer lbda L 0 0|) (n d : ℝ) (hn : 0 < n) (ee) :
    (calculate4x4 propExpm (inAir L) 0 lbda ee).jr 1 1 ≠ (calculate4x4 propExpm (inAir [(n, d)]) 0 lbda ee).jr 1 1 ∨
    (calculate4x4 propExpm (inAir L) 0 lbda ee).jt 1 1 ≠ (calculate4x4 propExpm (inAir [(n, d)]) 0 lbda ee).jt 1 1 := by
  by_contra h
  rw [not_or, not_not, not_not] at h
  have hM := (C158_determined lbda L [(n, d)] hL (by simpa using hn) ee h.1 h.2).1
  rw [hM] at hstop
  have : multilayer lbda [(n, d)] 0 0 = Real.cos (2 * Real.pi * n * d / lbda) := by simp [multilayer, layer]
  rw [this] at hstop
  exact absurd (Real.abs_cos_le_one _) (not_le.2 hstop)

/-- Two eighth-wave layers around a half wave of another index are in the pass band, around a quarter wave in the stop band. -/
example : |multilayer 16 [(2, 1), (3, 8 / 3), (2, 1)] 0 0| < 1 ∧ 1 < |multilayer 16 [(2, 1), (3, 4 / 3), (2, 1)] 0 0| ∧
    ([(2, 1), (3, 8 / 3), (2, 1)] : List (ℝ × ℝ)).reverse = [(2, 1), (3, 8 / 3), (2, 1)] := by
  have h1 : (2 * Real.pi * 2 * 1 / 16 : ℝ) = Real.pi / 4 := by ring
  have h2 : (2 * Real.pi * 3 * (8 / 3) / 16 : ℝ) = Real.pi := by ring
  have h3 : (2 * Real.pi * 3 * (4 / 3) / 16 : ℝ) = Real.pi / 2 := by ring
  have hs : Real.sqrt 2 * Real.sqrt 2 = 2 := Real.mul_self_sqrt (by norm_num)
  have e1 : multilayer 16 [(2, 1), (3, 8 / 3), (2, 1)] 0 0 = 0 := by
    simp only [multilayer, List.map_cons, List.map_nil, List.prod_cons, List.prod_nil, mul_one, h2]
    rw [show (2 * Real.pi * 2 / 16 : ℝ) = Real.pi / 4 by ring]
    simp only [layer, Real.cos_pi_div_four, Real.sin_pi_div_four, Real.cos_pi, Real.sin_pi]
    simp [Matrix.mul_apply, Fin.sum_univ_two]
    ring
  have e2 : multilayer 16 [(2, 1), (3, 4 / 3), (2, 1)] 0 0 = -(13 / 12) := by
    simp only [multilayer, List.map_cons, List.map_nil, List.prod_cons, List.prod_nil, mul_one, h3]
    rw [show (2 * Real.pi * 2 / 16 : ℝ) = Real.pi / 4 by ring]
    simp only [layer, Real.cos_pi_div_four, Real.sin_pi_div_four, Real.cos_pi_div_two, Real.sin_pi_div_two]
    simp [Matrix.mul_apply, Fin.sum_univ_two]
    linear_combination (-13 / 24 : ℝ) * hs
  rw [e1, e2]
  refine ⟨by norm_num, by norm_num, rfl⟩

end PyElli
