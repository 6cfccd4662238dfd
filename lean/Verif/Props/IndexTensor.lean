import Verif.Model.IndexTensor
import Verif.Model.Utils
import Verif.Props.PlaneStack
import Verif.Spec.Rotation

/-! # The refractive index tensor of a material (C157) -/

/-- A refractive index tensor: its square is the permittivity. -/
def Spec.IsIndexTensor (N eps : Matrix (Fin 3) (Fin 3) ℂ) : Prop := N * N = eps

namespace PyElli

open Matrix Complex Spec

/-- C157: materials that are not rotated. The tensor is diagonal, with the refractive indices along the axes: squares are the dielectric functions,
`n ≥ 0`, and `k ≥ 0` where the material does not amplify. -/
theorem C157_unrotated_partial (m : SingleMaterial) (lbda : ℝ) (h : m.rotation = none) :
    IsIndexTensor (refractiveIndex (m.getTensor lbda)) (m.getTensor lbda) ∧
    ∃ n : Fin 3 → ℂ, refractiveIndex (m.getTensor lbda) = diagonal n ∧
      (∀ i, 0 ≤ (n i).re) ∧ n 0 ^ 2 = m.dispersionX lbda ∧ n 1 ^ 2 = m.dispersionY lbda ∧ n 2 ^ 2 = m.dispersionZ lbda ∧
      ∀ i, 0 ≤ (m.getTensor lbda i i).im → 0 ≤ (n i).im := by
  have e : m.getTensor lbda = diagonal ![m.dispersionX lbda, m.dispersionY lbda, m.dispersionZ lbda] := by
    unfold SingleMaterial.getTensor
    rw [h]
  have hN : refractiveIndex (m.getTensor lbda) =
      diagonal fun i => Complex.sqrt ((![m.dispersionX lbda, m.dispersionY lbda, m.dispersionZ lbda] : Fin 3 → ℂ) i) := by
    rw [e]
    ext i j
    by_cases hij : i = j
    · subst hij
      simp [refractiveIndex]
    · simp [refractiveIndex, diagonal_apply_ne _ hij, csqrt_eq_zero.2]
  refine ⟨?_, _, hN, fun i => csqrt_re_nonneg _, csqrt_sq _, csqrt_sq _, csqrt_sq _, ?_⟩
  · unfold IsIndexTensor
    rw [hN, diagonal_mul_diagonal, e]
    congr 1
    funext i
    exact csqrt_mul_self _
  · intro i hi
    apply csqrt_im_nonneg
    rw [e] at hi
    simpa using hi

/-- The tensor of a material is symmetric. -/
lemma getTensor_symm (m : SingleMaterial) (lbda : ℝ) (i j : Fin 3) : m.getTensor lbda i j = m.getTensor lbda j i := by
  have : (m.getTensor lbda)ᵀ = m.getTensor lbda := by
    unfold SingleMaterial.getTensor
    rcases m.rotation with _ | r
    · simp
    · simp [Matrix.transpose_mul, Matrix.mul_assoc]
  exact (congrFun (congrFun this j) i).trans rfl

/-- C157: which materials have an index tensor at all: exactly those whose permittivity tensor is diagonal. For every rotation matrix. -/
theorem C157_diagonal_iff (m : SingleMaterial) (lbda : ℝ) :
    IsIndexTensor (refractiveIndex (m.getTensor lbda)) (m.getTensor lbda) ↔ ∀ i j, i ≠ j → m.getTensor lbda i j = 0 := by
  have hs := getTensor_symm m lbda
  generalize m.getTensor lbda = e at *
  have hd : ∀ i, (refractiveIndex e * refractiveIndex e) i i = e i 0 + e i 1 + e i 2 := by
    intro i
    rw [Matrix.mul_apply, Fin.sum_univ_three]
    simp only [refractiveIndex, Matrix.of_apply]
    rw [hs 0 i, hs 1 i, hs 2 i, csqrt_mul_self, csqrt_mul_self, csqrt_mul_self]
  constructor
  · intro h
    have h0 := congrFun (congrFun h 0) 0
    have h1 := congrFun (congrFun h 1) 1
    have h2 := congrFun (congrFun h 2) 2
    rw [hd] at h0 h1 h2
    have s1 := hs 1 0
    have s2 := hs 2 0
    have s3 := hs 2 1
    have a : e 0 1 = 0 := by linear_combination (h0 + h1 - h2 - s1 + s2 + s3) / 2
    have b : e 0 2 = 0 := by linear_combination (h0 - h1 + h2 + s1 - s2 - s3) / 2
    have c : e 1 2 = 0 := by linear_combination (-h0 + h1 + h2 - s1 - s2 - s3) / 2
    intro i j hij
    fin_cases i <;> fin_cases j <;> first | exact absurd rfl hij | assumption | (rw [hs]; assumption)
  · intro h
    have e' : e = diagonal fun i => e i i := by
      ext i j
      by_cases hij : i = j
      · subst hij; simp
      · rw [diagonal_apply_ne _ hij, h i j hij]
    have hN : refractiveIndex e = diagonal fun i => Complex.sqrt (e i i) := by
      ext i j
      by_cases hij : i = j
      · subst hij; simp [refractiveIndex]
      · simp [refractiveIndex, diagonal_apply_ne _ hij, h i j hij, csqrt_eq_zero.2]
    unfold IsIndexTensor
    rw [hN, diagonal_mul_diagonal]
    conv_rhs => rw [e']
    congr 1
    funext i
    exact csqrt_mul_self _

/-- C157: what the claim asks for exists: the index tensor of the material before the rotation, rotated like the material. -/
theorem C157_wanted (m : SingleMaterial) (lbda : ℝ) (R : Mat3) (hm : m.rotation = none) (hR : IsProperRotation R) :
    IsIndexTensor (R.map Complex.ofReal * refractiveIndex (m.getTensor lbda) * (R.map Complex.ofReal)ᵀ) ((m.setRotation R).getTensor lbda) := by
  have h := (C157_unrotated_partial m lbda hm).1
  have hRR : (R.map Complex.ofReal)ᵀ * R.map Complex.ofReal = 1 := by
    have := congrArg (fun M : Mat3 => M.map Complex.ofReal) hR.2.1
    rw [← Matrix.transpose_map]
    rw [show (Rᵀ * R).map Complex.ofReal = Rᵀ.map Complex.ofReal * R.map Complex.ofReal from Matrix.map_mul (f := Complex.ofRealHom)] at this
    rw [this]
    ext i j
    simp [Matrix.one_apply]
    split <;> simp
  have e : (m.setRotation R).getTensor lbda = R.map Complex.ofReal * m.getTensor lbda * (R.map Complex.ofReal)ᵀ := by
    simp [SingleMaterial.setRotation, SingleMaterial.getTensor, hm]
  unfold IsIndexTensor at *
  rw [e]
  conv_rhs => rw [← h]
  generalize refractiveIndex (m.getTensor lbda) = N
  calc _ = R.map Complex.ofReal * N * ((R.map Complex.ofReal)ᵀ * R.map Complex.ofReal) * N * (R.map Complex.ofReal)ᵀ := by
        simp only [Matrix.mul_assoc]
    _ = _ := by rw [hRR]; simp only [Matrix.mul_assoc, Matrix.mul_one]

/-- A uniaxial crystal whose optical axis is tilted by `theta` degrees in the plane of incidence. -/
noncomputable def tiltedCrystal (o e theta lbda : ℝ) : Tensor :=
  ((uniaxialMaterial (fun _ => (o : ℂ)) (fun _ => (e : ℂ))).setRotation (rotationVTheta ![0, 1, 0] theta)).getTensor lbda

lemma tiltedCrystal_eq (o e theta lbda : ℝ) :
    let c := Real.cos (deg2rad theta)
    let s := Real.sin (deg2rad theta)
    tiltedCrystal o e theta lbda = !![((c ^ 2 * o + s ^ 2 * e : ℝ) : ℂ), 0, ((s * c * (e - o) : ℝ) : ℂ); 0, (o : ℂ), 0;
      ((s * c * (e - o) : ℝ) : ℂ), 0, ((s ^ 2 * o + c ^ 2 * e : ℝ) : ℂ)] := by
  intro c s
  have hR : rotationVTheta ![0, 1, 0] theta = !![c, 0, s; 0, 1, 0; -s, 0, c] := by
    ext i j
    fin_cases i <;> fin_cases j <;> simp [rotationVTheta, mW, pow_two, c, s]
  unfold tiltedCrystal SingleMaterial.setRotation SingleMaterial.getTensor uniaxialMaterial
  simp only [hR]
  ext i j
  fin_cases i <;> fin_cases j <;> simp [Matrix.mul_apply, Fin.sum_univ_three, Matrix.diagonal, Matrix.transpose_apply] <;> ring

/-- C157 fails for every tilted crystal: unless the axis is along x or z, or the crystal is isotropic, the square is not the permittivity. -/
theorem C157_tilted_refuted (o e theta lbda : ℝ) (ho : o ≠ e) (ht : Real.sin (2 * deg2rad theta) ≠ 0) :
    ¬ IsIndexTensor (refractiveIndex (tiltedCrystal o e theta lbda)) (tiltedCrystal o e theta lbda) := by
  unfold tiltedCrystal
  rw [C157_diagonal_iff]
  intro h
  have h1 := h 0 2 (by decide)
  have h2 := tiltedCrystal_eq o e theta lbda
  unfold tiltedCrystal at h2
  simp only at h2
  rw [h2] at h1
  have h3 : Real.sin (deg2rad theta) * Real.cos (deg2rad theta) * (e - o) = 0 := by
    have : ((Real.sin (deg2rad theta) * Real.cos (deg2rad theta) * (e - o) : ℝ) : ℂ) = 0 := h1
    exact_mod_cast this
  rcases mul_eq_zero.1 h3 with h4 | h4
  · exact ht (by rw [Real.sin_two_mul, mul_assoc, h4, mul_zero])
  · exact ho (by linarith)

/-- C157 fails for quarter-wave layers of tilted crystals: at normal incidence light polarised along x sees the layer as an isotropic one of index
`n`, but the thickness of `get_qwp_thickness` is less than a quarter of its wave. -/
theorem C157_quarter_wave_refuted (o e theta lbda n0 ns : ℝ) (ho : 0 < o) (he : 0 < e) (hoe : o ≠ e) (ht : Real.sin (2 * deg2rad theta) ≠ 0) (hl : 0 < lbda)
    (hn0 : 0 < n0) (hns : 0 < ns) :
    ∃ n > 0, (∀ d, 0 ≤ d → ∀ ee ee',
        (calculate4x4 propExpm ⟨isoTensor ((n0 ^ 2 : ℝ) : ℂ), [(d, tiltedCrystal o e theta lbda)], isoTensor ((ns ^ 2 : ℝ) : ℂ), true⟩ 0 lbda ee).jr 0 0 =
          (calculate4x4 propExpm ⟨isoTensor ((n0 ^ 2 : ℝ) : ℂ), [(d, isoTensor ((n ^ 2 : ℝ) : ℂ))], isoTensor ((ns ^ 2 : ℝ) : ℂ), true⟩ 0 lbda ee').jr 0 0) ∧
      qwpThickness (tiltedCrystal o e theta lbda) lbda < lbda / (4 * n) ∧ qwpThickness (isoTensor ((n ^ 2 : ℝ) : ℂ)) lbda = lbda / (4 * n) := by
  set c := Real.cos (deg2rad theta) with hc
  set s := Real.sin (deg2rad theta) with hs
  have hcs : s ^ 2 + c ^ 2 = 1 := Real.sin_sq_add_cos_sq _
  have hsc : s * c ≠ 0 := by
    intro h
    apply ht
    rw [Real.sin_two_mul, mul_assoc, ← hs, ← hc, h, mul_zero]
  have hs0 : 0 < s ^ 2 := by
    have : s ≠ 0 := left_ne_zero_of_mul hsc
    positivity
  have hE := tiltedCrystal_eq o e theta lbda
  simp only [← hc, ← hs] at hE
  set z := s ^ 2 * o + c ^ 2 * e with hz
  set x := c ^ 2 * o + s ^ 2 * e with hx
  have hz0 : 0 < z := by positivity
  have hx0 : 0 < x := by positivity
  have hm : 0 < o * e / z := by positivity
  have key : x - (s * c * (e - o)) * (s * c * (e - o)) / z = o * e / z := by
    have hz' := hz0.ne'
    field_simp
    rw [hz, hx]
    linear_combination (o * e * (s ^ 2 + c ^ 2 + 1)) * hcs
  refine ⟨Real.sqrt (o * e / z), Real.sqrt_pos.2 hm, ?_, ?_, ?_⟩
  · intro d hd ee ee'
    have hn2 : ((Real.sqrt (o * e / z) ^ 2 : ℝ) : ℂ) = ((o * e / z : ℝ) : ℂ) := by rw [Real.sq_sqrt hm.le]
    have hf : (tiltedCrystal o e theta lbda) 0 0 - (tiltedCrystal o e theta lbda) 0 2 * (tiltedCrystal o e theta lbda) 2 0 / (tiltedCrystal o e theta lbda) 2 2 = ((o * e / z : ℝ) : ℂ) := by
      rw [← key, hE]
      simp
    have hp : PassiveStack ⟨isoTensor ((n0 ^ 2 : ℝ) : ℂ), [(d, tiltedCrystal o e theta lbda)], isoTensor ((ns ^ 2 : ℝ) : ℂ), true⟩ 0 lbda := by
      refine ⟨⟨n0, hn0, by simp [isoTensor]⟩, by norm_num, hl, ?_, ?_, ?_, rfl⟩
      · intro l h
        simp only [List.mem_singleton] at h
        subst h
        refine ⟨hd, ?_, ?_⟩
        · show tiltedCrystal o e theta lbda 2 2 ≠ 0
          rw [hE]
          show ((z : ℝ) : ℂ) ≠ 0
          exact_mod_cast hz0.ne'
        · have hH : (tiltedCrystal o e theta lbda).IsHermitian := by
            rw [hE]
            unfold Matrix.IsHermitian
            ext i j
            fin_cases i <;> fin_cases j <;> simp [Matrix.conjTranspose_apply]
          intro E
          exact (hH.im_star_dotProduct_mulVec_self E).ge
      · have h0 : ((ns ^ 2 : ℝ) : ℂ) ≠ 0 := by exact_mod_cast (pow_pos hns 2).ne'
        simpa [isoTensor] using h0
      · show 0 ≤ ((ns ^ 2 : ℝ) : ℂ).im
        exact (Complex.ofReal_im _).ge
    have h := (C122_p_normal _ lbda ee ee' hp (by
      intro l h
      simp only [List.mem_singleton] at h
      subst h
      show InPlane (tiltedCrystal o e theta lbda)
      rw [hE]
      exact ⟨rfl, rfl, rfl, rfl⟩) (by
      intro l h
      simp only [List.mem_singleton] at h
      subst h
      show (tiltedCrystal o e theta lbda) 0 0 - _ ≠ 0
      rw [hf]
      exact_mod_cast hm.ne')).1
    rw [h]
    unfold isotropised
    simp only [List.map_cons, List.map_nil]
    rw [hf, hn2]
  · have hlt : o * e / z < x := by
      have : 0 < (s * c * (e - o)) * (s * c * (e - o)) / z := by
        have h1 : s * c * (e - o) ≠ 0 := mul_ne_zero hsc (sub_ne_zero.2 (Ne.symm hoe))
        have := mul_self_pos.2 h1
        positivity
      linarith
    have e1 : (nOf (tiltedCrystal o e theta lbda)).re = Real.sqrt x := by
      unfold nOf
      rw [hE]
      show (Complex.sqrt ((x : ℝ) : ℂ)).re = _
      rw [csqrt_ofReal hx0.le, Complex.ofReal_re]
    unfold qwpThickness
    rw [e1]
    have := Real.sqrt_lt_sqrt hm.le hlt
    have h2 : 0 < Real.sqrt (o * e / z) := Real.sqrt_pos.2 hm
    exact div_lt_div_of_pos_left hl (by positivity) (by linarith)
  · unfold qwpThickness
    have e1 : (nOf (isoTensor ((Real.sqrt (o * e / z) ^ 2 : ℝ) : ℂ))).re = Real.sqrt (o * e / z) := by
      have : (isoTensor ((Real.sqrt (o * e / z) ^ 2 : ℝ) : ℂ)) 0 0 = ((Real.sqrt (o * e / z) ^ 2 : ℝ) : ℂ) := by simp [isoTensor]
      unfold nOf
      rw [this, csqrt_ofReal (sq_nonneg _), Real.sqrt_sq (Real.sqrt_nonneg _), Complex.ofReal_re]
    rw [e1]

/-- Calcite, tilted by 45 degrees. -/
example : (2.75 : ℝ) ≠ 2.21 ∧ Real.sin (2 * deg2rad 45) ≠ 0 := by
  refine ⟨by norm_num, ?_⟩
  have : 2 * deg2rad 45 = Real.pi / 2 := by unfold deg2rad; ring
  rw [this, Real.sin_pi_div_two]
  exact one_ne_zero

/-- A crystal in its standard orientation is not rotated. -/
example : (uniaxialMaterial (fun _ => 2.75) (fun _ => 2.21)).rotation = none := rfl

end PyElli
