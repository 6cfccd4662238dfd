import Verif.Props.Symmetry
import Verif.Props.Mueller
import Verif.Spec.Polarisation

/-! # C14: circular polarisation of samples that look the same after a turn about their normal -/

namespace Spec

/-- The circular states `L` (index 0) and `R` (index 1) of unit intensity: `(1, i)/√2`, with positive last Stokes parameter, and `(1, -i)/√2`. -/
noncomputable def circular (i : Fin 2) : ℂ × ℂ := (isq2, if i = 0 then Complex.I * isq2 else -Complex.I * isq2)

end Spec

namespace PyElli

open Complex Matrix Spec

lemma isq2_conj : (starRingEnd ℂ) isq2 = isq2 := by rw [isq2, Complex.conj_ofReal]

lemma isq2_mul : isq2 * isq2 = 1 / 2 := by
  rw [isq2, ← Complex.ofReal_mul, show (1 / Real.sqrt 2) * (1 / Real.sqrt 2) = (1 / 2 : ℝ) by
    rw [div_mul_div_comm, Real.mul_self_sqrt (by norm_num)]; norm_num]
  norm_num

lemma circ_amplitude (J : Mat2) (i j : Fin 2) :
    (starRingEnd ℂ) (circular i).1 * (J 0 0 * (circular j).1 + J 0 1 * (circular j).2) +
      (starRingEnd ℂ) (circular i).2 * (J 1 0 * (circular j).1 + J 1 1 * (circular j).2) = jonesTc J i j := by
  rw [jonesTc_explicit]
  have hI : I * I = -1 := Complex.I_mul_I
  fin_cases i <;> fin_cases j <;> simp [circular, isq2_conj]
  · linear_combination (J 0 0 + I * J 0 1 - I * J 1 0 - I * I * J 1 1) * isq2_mul + (-J 1 1 / 2) * hI
  · linear_combination (J 0 0 - I * J 0 1 - I * J 1 0 + I * I * J 1 1) * isq2_mul + (J 1 1 / 2) * hI
  · linear_combination (J 0 0 + I * J 0 1 + I * J 1 0 + I * I * J 1 1) * isq2_mul + (J 1 1 / 2) * hI
  · linear_combination (J 0 0 - I * J 0 1 + I * J 1 0 - I * I * J 1 1) * isq2_mul + (-J 1 1 / 2) * hI

/-- C14, meaning of the matrices: `Rc_matrix[i, j]` is the intensity behind an analyser for the circular state `i` when the sample reflects
light of the circular state `j`; `Tc_matrix` the same for the transmitted light, with the factor of the transmitted power. -/
theorem C14_circular_meaning (res : Result) (i j : Fin 2) :
    res.RcMatrix i j = Spec.intensity (circular i).1 (circular i).2 (res.jr 0 0 * (circular j).1 + res.jr 0 1 * (circular j).2)
      (res.jr 1 0 * (circular j).1 + res.jr 1 1 * (circular j).2) ∧
    res.TcMatrix i j = Spec.intensity (circular i).1 (circular i).2 (res.jt 0 0 * (circular j).1 + res.jt 0 1 * (circular j).2)
      (res.jt 1 0 * (circular j).1 + res.jt 1 1 * (circular j).2) * res.power := by
  constructor
  · rw [Spec.intensity, circ_amplitude, Complex.normSq_eq_norm_sq, Result.RcMatrix, jonesRc_explicit, Matrix.neg_apply, norm_neg]
  · rw [Spec.intensity, circ_amplitude, Complex.normSq_eq_norm_sq, Result.TcMatrix]

/-- The states are circular: no linear part, opposite handedness. -/
example : Spec.stokes (circular 0).1 (circular 0).2 = ![1, 0, 0, 1] ∧ Spec.stokes (circular 1).1 (circular 1).2 = ![1, 0, 0, -1] := by
  have h : (1 / Real.sqrt 2) ^ 2 = 1 / 2 := by rw [div_pow, Real.sq_sqrt (by norm_num)]; norm_num
  have h2 : (Real.sqrt 2) ^ 2 = 2 := Real.sq_sqrt (by norm_num)
  constructor
  · rw [stokes_explicit]
    ext i
    fin_cases i <;> simp [circular, isq2] <;> nlinarith [h2]
  · rw [stokes_explicit]
    ext i
    fin_cases i <;> simp [circular, isq2] <;> nlinarith [h2]

lemma turn_factor {phi : ℝ} (h : Real.sin phi ≠ 0) (e : ℂ) (he : e = I ∨ e = -I) :
    (Real.sin phi : ℂ) * ((Real.cos phi : ℂ) * e - (Real.sin phi : ℂ)) ≠ 0 := by
  have hs : (Real.sin phi : ℂ) ≠ 0 := by exact_mod_cast h
  refine mul_ne_zero hs fun h0 => h ?_
  have hre := congrArg Complex.re h0
  rcases he with rfl | rfl
  · rw [Complex.sub_re, Complex.re_ofReal_mul, Complex.I_re, mul_zero, zero_sub, Complex.ofReal_re, Complex.zero_re, neg_eq_zero] at hre
    exact hre
  · rw [Complex.sub_re, Complex.re_ofReal_mul, Complex.neg_re, Complex.I_re, neg_zero, mul_zero, zero_sub, Complex.ofReal_re, Complex.zero_re,
      neg_eq_zero] at hre
    exact hre

/-- C14 for structures: at normal incidence every sample that looks the same after some turn about its normal which is not a multiple of a
half turn (isotropic layers, uniaxial layers with the axis along the normal, …) changes the handedness of circular light in reflection and keeps it in
transmission. -/
theorem C14_symmetric_sample (s : Stack) (hb : s.backIsotropic = true) (hn : nOf s.front ≠ 0) (phi lbda : ℝ) (ee)
    (hphi : Real.sin phi ≠ 0) (hsym : moved (Spec.Rz phi) s = s) (jones : Fin 2 → ℂ) (i : Fin 2) :
    let out := calculate4x4 propExpm s 0 lbda ee
    let res := Result.mk' out.jr out.jt out.power jones
    res.RcMatrix i i = 0 ∧ ∀ j, j ≠ i → res.TcMatrix i j = 0 := by
  intro out res
  obtain ⟨ht, hr⟩ := C80_azimuth s hb hn phi lbda ee ee
  rw [hsym] at ht hr
  change out.jt = turn2 phi * out.jt * turn2 (-phi) at ht
  change out.jr = turn2 (-phi) * out.jr * turn2 (-phi) at hr
  have t1 : turn2 phi = !![(Real.cos phi : ℂ), -(Real.sin phi : ℂ); (Real.sin phi : ℂ), (Real.cos phi : ℂ)] := rfl
  have t2 : turn2 (-phi) = !![(Real.cos phi : ℂ), (Real.sin phi : ℂ); -(Real.sin phi : ℂ), (Real.cos phi : ℂ)] := by
    simp [turn2, Real.cos_neg, Real.sin_neg]
  have hcs : (Real.cos phi : ℂ) ^ 2 + (Real.sin phi : ℂ) ^ 2 = 1 := by exact_mod_cast Real.cos_sq_add_sin_sq phi
  have f1 := turn_factor hphi I (Or.inl rfl)
  have f2 := turn_factor hphi (-I) (Or.inr rfl)
  have hI : I * I = -1 := Complex.I_mul_I
  rw [t1, t2] at ht
  rw [t2] at hr
  have r00 := congrFun (congrFun hr 0) 0
  have r01 := congrFun (congrFun hr 0) 1
  have r10 := congrFun (congrFun hr 1) 0
  have r11 := congrFun (congrFun hr 1) 1
  have s00 := congrFun (congrFun ht 0) 0
  have s01 := congrFun (congrFun ht 0) 1
  have s10 := congrFun (congrFun ht 1) 0
  have s11 := congrFun (congrFun ht 1) 1
  simp only [Matrix.mul_apply, Fin.sum_univ_two, of_apply, cons_val_zero, cons_val_one, cons_val'] at r00 r01 r10 r11 s00 s01 s10 s11
  have hRc : ∀ k, jonesTc out.jr k k = 0 := by
    intro k
    rw [jonesTc_explicit]
    generalize (Real.cos phi : ℂ) = c at *
    generalize (Real.sin phi : ℂ) = d at *
    fin_cases k
    · simp
      refine mul_left_cancel₀ f1 ?_
      linear_combination (-1 / 2 : ℂ) * (r00 + I * r01 - I * r10 + r11) - (1 / 2 : ℂ) * (out.jr 0 0 + I * out.jr 0 1 - I * out.jr 1 0 + out.jr 1 1) * hcs - (1 / 2 : ℂ) * ((out.jr 0 0 + I * out.jr 0 1 - I * out.jr 1 0 + out.jr 1 1) * d ^ 2 + ((c + I * d) * d * (out.jr 1 0 + I * out.jr 1 1) - (c + I * d) * d * (out.jr 0 1 - I * out.jr 1 1) - d ^ 2 * out.jr 1 1 * (I * I + 1))) * hI +
        (d * c * I * out.jr 1 1 + d * c * (out.jr 0 1 - out.jr 1 0) / 2 + d ^ 2 * out.jr 0 0 / 2 + d ^ 2 * I * I * out.jr 1 1 / 2) * hI
    · simp
      refine mul_left_cancel₀ f2 ?_
      linear_combination (-1 / 2 : ℂ) * (r00 - I * r01 + I * r10 + r11) - (1 / 2 : ℂ) * (out.jr 0 0 - I * out.jr 0 1 + I * out.jr 1 0 + out.jr 1 1) * hcs - (1 / 2 : ℂ) * ((out.jr 0 0 - I * out.jr 0 1 + I * out.jr 1 0 + out.jr 1 1) * d ^ 2 + ((c - I * d) * d * (out.jr 1 0 - I * out.jr 1 1) - (c - I * d) * d * (out.jr 0 1 + I * out.jr 1 1) - d ^ 2 * out.jr 1 1 * (I * I + 1))) * hI +
        (-(d * c * I * out.jr 1 1) + d * c * (out.jr 0 1 - out.jr 1 0) / 2 + d ^ 2 * out.jr 0 0 / 2 + d ^ 2 * I * I * out.jr 1 1 / 2) * hI
  have hTc : ∀ k j, j ≠ k → jonesTc out.jt k j = 0 := by
    intro k j hkj
    rw [jonesTc_explicit]
    generalize (Real.cos phi : ℂ) = c at *
    generalize (Real.sin phi : ℂ) = d at *
    fin_cases k <;> fin_cases j
    · exact absurd rfl hkj
    · simp
      refine mul_left_cancel₀ f2 ?_
      linear_combination (-1 / 2 : ℂ) * (s00 - I * s01 - I * s10 - s11) - (1 / 2 : ℂ) * (out.jt 0 0 - I * out.jt 0 1 - I * out.jt 1 0 - out.jt 1 1) * hcs - (1 / 2 : ℂ) * ((out.jt 0 0 - I * out.jt 0 1 - I * out.jt 1 0 - out.jt 1 1) * d ^ 2 + (-(c - I * d) * d * (out.jt 1 0 - I * out.jt 1 1) - (c - I * d) * d * (out.jt 0 1 - I * out.jt 1 1) + d ^ 2 * out.jt 1 1 * (I * I + 1))) * hI +
        (d * c * I * out.jt 1 1 + d * c * (out.jt 0 1 + out.jt 1 0) / 2 + d ^ 2 * out.jt 0 0 / 2 - d ^ 2 * I * I * out.jt 1 1 / 2) * hI
    · simp
      refine mul_left_cancel₀ f1 ?_
      linear_combination (-1 / 2 : ℂ) * (s00 + I * s01 + I * s10 - s11) - (1 / 2 : ℂ) * (out.jt 0 0 + I * out.jt 0 1 + I * out.jt 1 0 - out.jt 1 1) * hcs - (1 / 2 : ℂ) * ((out.jt 0 0 + I * out.jt 0 1 + I * out.jt 1 0 - out.jt 1 1) * d ^ 2 + (-(c + I * d) * d * (out.jt 1 0 + I * out.jt 1 1) - (c + I * d) * d * (out.jt 0 1 + I * out.jt 1 1) + d ^ 2 * out.jt 1 1 * (I * I + 1))) * hI +
        (-(d * c * I * out.jt 1 1) + d * c * (out.jt 0 1 + out.jt 1 0) / 2 + d ^ 2 * out.jt 0 0 / 2 - d ^ 2 * I * I * out.jt 1 1 / 2) * hI
    · exact absurd rfl hkj
  refine ⟨?_, fun j hj => ?_⟩
  · simp only [Result.RcMatrix, jonesRc_explicit, Matrix.neg_apply, res, Result.mk']
    rw [hRc]
    simp
  · simp only [Result.TcMatrix, res, Result.mk']
    rw [hTc i j hj]
    simp

/-- Layers with their optical axis along the normal, among them isotropic ones, look the same after every turn. -/
lemma moved_normal_axis (s : Stack) (h : ∀ l ∈ s.layers, ∃ o e : ℂ, l.2 = !![o, 0, 0; 0, o, 0; 0, 0, e]) (phi : ℝ) : moved (Spec.Rz phi) s = s := by
  obtain ⟨f, ls, b, bi⟩ := s
  simp only [moved, Stack.mk.injEq, true_and, and_true]
  conv_rhs => rw [← List.map_id ls]
  refine List.map_congr_left fun l hl => ?_
  obtain ⟨o, e, he⟩ := h l hl
  obtain ⟨d, t⟩ := l
  simp only at he
  subst he
  have hcs : (Real.cos phi : ℂ) ^ 2 + (Real.sin phi : ℂ) ^ 2 = 1 := by exact_mod_cast Real.cos_sq_add_sin_sq phi
  refine Prod.ext rfl ?_
  ext i j
  simp only [Matrix.mul_apply, Fin.sum_univ_three, Spec.Rz, Matrix.map_apply, Matrix.transpose_apply, id]
  generalize hc : Real.cos phi = c at *
  generalize hd : Real.sin phi = d at *
  fin_cases i <;> fin_cases j <;> simp <;> first | ring1 | linear_combination o * hcs

/-- C14 for stacks of isotropic layers and uniaxial layers with the axis along the normal. -/
theorem C14_normal_axis (s : Stack) (hb : s.backIsotropic = true) (hn : nOf s.front ≠ 0) (lbda : ℝ) (ee)
    (h : ∀ l ∈ s.layers, ∃ o e : ℂ, l.2 = !![o, 0, 0; 0, o, 0; 0, 0, e]) (jones : Fin 2 → ℂ) (i : Fin 2) :
    let out := calculate4x4 propExpm s 0 lbda ee
    let res := Result.mk' out.jr out.jt out.power jones
    res.RcMatrix i i = 0 ∧ ∀ j, j ≠ i → res.TcMatrix i j = 0 :=
  C14_symmetric_sample s hb hn (Real.pi / 2) lbda ee (by simp) (moved_normal_axis s h _) jones i

/-- A uniaxial film on an isotropic substrate. -/
example (ee) (i : Fin 2) : let s : Stack := ⟨isoTensor 1, [(100, !![2, 0, 0; 0, 2, 0; 0, 0, 3])], isoTensor 4, true⟩
    let out := calculate4x4 propExpm s 0 500 ee
    (Result.mk' out.jr out.jt out.power ![1, 1]).RcMatrix i i = 0 :=
  (C14_normal_axis ⟨isoTensor 1, [(100, !![2, 0, 0; 0, 2, 0; 0, 0, 3])], isoTensor 4, true⟩ rfl (by simp [nOf, isoTensor]) 500 ee
    (by intro l hl; rw [List.mem_singleton.1 hl]; exact ⟨2, 3, rfl⟩) ![1, 1] i).1

end PyElli
