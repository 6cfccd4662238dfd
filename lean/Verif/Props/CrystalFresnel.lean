import Verif.Props.CrystalExit
import Mathlib.Tactic

/-! # Reflection of crystals in closed form (C117) -/

namespace Spec

/-- Order of two wave numbers: stronger decay first, then larger real part. -/
def Ahead (a b : ℂ) : Prop := b.im < a.im ∨ (a.im = b.im ∧ b.re < a.re)

/-- A wave number of a wave that leaves the stack: it decays, or is real and positive. -/
def Outward (a : ℂ) : Prop := 0 < a.im ∨ (a.im = 0 ∧ 0 < a.re)

end Spec

namespace PyElli

open Matrix Complex Spec

lemma not_lexGe {a b : ℂ} (h : Ahead a b) : ¬ LexGe b a := by
  rintro (h' | ⟨h', h''⟩) <;> rcases h with h | ⟨h, h2⟩ <;> linarith

lemma ahead_neg {a b : ℂ} (ha : Outward a) (hb : Outward b) : Ahead a (-b) := by
  unfold Ahead
  rw [Complex.neg_im, Complex.neg_re]
  rcases ha with ha | ⟨ha, ha'⟩ <;> rcases hb with hb | ⟨hb, hb'⟩
  · left; linarith
  · left; linarith
  · left; linarith
  · right; exact ⟨by linarith, by linarith⟩

lemma outward_ne {a : ℂ} (h : Outward a) : a ≠ 0 := by
  rintro rfl
  rcases h with h | ⟨-, h⟩ <;> simp at h

/-- Second and first column. -/
def firstTwo (w : Mat4) : Matrix (Fin 4) (Fin 2) ℂ := fun a k => w a (![1, 0] k)

/-- If the first two of four wave numbers are ahead of the others, they are sorted first. -/
lemma fwd_first {q : Fin 4 → ℂ} (w : Mat4) (h : ∀ a b : Fin 4, a ≤ 1 → 1 < b → Ahead (q a) (q b)) :
    sortedQ q 1 ≠ sortedQ q 2 ∧ ∃ g : Mat2, IsUnit g ∧ fwd q w = firstTwo w * g := by
  have hb := takeIdx_bijective (lexLe q)
  have an := fun i j (hij : i < j) => sortedQ_anti q (i := i) (j := j) hij
  have hf : ∀ k, fwd q w k 0 = w k (takeIdx (argsort (lexLe q)) (argsort_length _) 0) ∧
      fwd q w k 1 = w k (takeIdx (argsort (lexLe q)) (argsort_length _) 1) := fun k => ⟨rfl, rfl⟩
  unfold sortedQ at an ⊢
  generalize takeIdx (argsort (lexLe q)) (argsort_length _) = s at *
  have key : ∀ k : Fin 4, k ≤ 1 → s k ≤ 1 := by
    intro k hk
    by_contra hlow
    obtain ⟨x, hx⟩ := hb.2 0
    obtain ⟨y, hy⟩ := hb.2 1
    have hxy : x ≠ y := by
      rintro rfl
      exact absurd (hx.symm.trans hy) (by decide)
    have hx0 : x < k := by
      by_contra hn
      rcases (not_lt.1 hn).lt_or_eq with hlt | heq
      · have := an k x hlt
        rw [hx] at this
        exact not_lexGe (h 0 (s k) (by decide) (not_le.1 hlow)) this
      · rw [heq, hx] at hlow
        exact hlow (by decide)
    have hy0 : y < k := by
      by_contra hn
      rcases (not_lt.1 hn).lt_or_eq with hlt | heq
      · have := an k y hlt
        rw [hy] at this
        exact not_lexGe (h 1 (s k) (by decide) (not_le.1 hlow)) this
      · rw [heq, hy] at hlow
        exact hlow (by decide)
    omega
  have h01 : s 0 ≠ s 1 := fun hh => absurd (hb.1 hh) (by decide)
  have h02 : s 0 ≠ s 2 := fun hh => absurd (hb.1 hh) (by decide)
  have h12 : s 1 ≠ s 2 := fun hh => absurd (hb.1 hh) (by decide)
  have k0 := key 0 (by decide)
  have k1 := key 1 (by decide)
  have h2 : 1 < s 2 := by omega
  refine ⟨?_, ?_⟩
  · intro hh
    have := h (s 1) (s 2) k1 h2
    rw [hh] at this
    rcases this with h | ⟨-, h⟩ <;> exact lt_irrefl _ h
  · have : (s 0 = 0 ∧ s 1 = 1) ∨ (s 0 = 1 ∧ s 1 = 0) := by omega
    rcases this with ⟨e0, e1⟩ | ⟨e0, e1⟩
    · refine ⟨!![0, 1; 1, 0], ?_, ?_⟩
      · rw [Matrix.isUnit_iff_isUnit_det, Matrix.det_fin_two]
        simp
      · ext a k
        rw [Matrix.mul_apply, Fin.sum_univ_two]
        fin_cases k
        · have := (hf a).1
          rw [e0] at this
          simpa [firstTwo] using this
        · have := (hf a).2
          rw [e1] at this
          simpa [firstTwo] using this
    · refine ⟨1, isUnit_one, ?_⟩
      rw [Matrix.mul_one]
      ext a k
      fin_cases k
      · have := (hf a).1
        rw [e0] at this
        simpa [firstTwo] using this
      · have := (hf a).2
        rw [e1] at this
        simpa [firstTwo] using this

/-- The reflection matrix only depends on the space spanned by the transmitted columns. -/
lemma jr_of_cols (A E : Mat4) (F : Matrix (Fin 4) (Fin 2) ℂ) (g : Mat2) (hg : IsUnit g) (h : cols E = F * g) :
    tRt (A * E) * (tIt (A * E))⁻¹ = rows ![3, 1] (A * F) * (rows ![2, 0] (A * F))⁻¹ := by
  have hu := (Matrix.isUnit_iff_isUnit_det _).1 hg
  rw [tRt_cols, tIt_cols, h, ← Matrix.mul_assoc, rows_mul, rows_mul, Matrix.mul_inv_rev, Matrix.mul_assoc, ← Matrix.mul_assoc g,
    Matrix.mul_nonsing_inv _ hu, Matrix.one_mul]

/-- The p and the s wave of an exit medium with the plane of incidence as a plane of symmetry: tangential fields. -/
noncomputable def planeCols (b y qs : ℂ) : Matrix (Fin 4) (Fin 2) ℂ := !![b, 0; 0, 1; 0, -qs; y, 0]

/-- Eigenvectors of the delta matrix of such a medium. -/
noncomputable def planeW (b y y' qs : ℂ) : Mat4 := !![0, b, 0, b; 1, 0, 1, 0; -qs, 0, qs, 0; 0, y, 0, y']

lemma planeW_unit {b y y' qs : ℂ} (hb : b ≠ 0) (hy : y ≠ y') (hq : qs ≠ 0) : IsUnit (planeW b y y' qs) := by
  have hd : y - y' ≠ 0 := sub_ne_zero.2 hy
  have h : planeW b y y' qs * !![0, 1 / 2, -1 / (2 * qs), 0; -y' / (b * (y - y')), 0, 0, 1 / (y - y');
      0, 1 / 2, 1 / (2 * qs), 0; y / (b * (y - y')), 0, 0, -1 / (y - y')] = 1 := by
    ext i j
    fin_cases i <;> fin_cases j <;> simp [planeW, Matrix.mul_apply, Fin.sum_univ_four] <;> field_simp <;> ring
  exact IsUnit.of_mul_eq_one _ h

/-- The exit medium is symmetric with respect to the plane of incidence. -/
structure PlaneCrystal (eps : Tensor) : Prop where
  xy : eps 0 1 = 0
  yx : eps 1 0 = 0
  yz : eps 1 2 = 0
  zy : eps 2 1 = 0
  zz : eps 2 2 ≠ 0

/-- The wave numbers along z of the waves in such a medium: `qs` and `-qs` of the s waves, `qp` and `qp'` of the p waves, where the
first of each pair are ahead of the others. -/
structure PlaneWaves (kx : ℂ) (eps : Tensor) (qs qp qp' : ℂ) : Prop where
  s : qs ^ 2 = eps 1 1 - kx ^ 2
  p : (eps 2 2 * qp + kx * eps 2 0) * (eps 2 2 * qp + kx * eps 0 2) = (eps 2 2 - kx ^ 2) * (eps 0 0 * eps 2 2 - eps 0 2 * eps 2 0)
  p' : (eps 2 2 * qp' + kx * eps 2 0) * (eps 2 2 * qp' + kx * eps 0 2) = (eps 2 2 - kx ^ 2) * (eps 0 0 * eps 2 2 - eps 0 2 * eps 2 0)
  ss : Ahead qs (-qs)
  sp : Ahead qs qp'
  ps : Ahead qp (-qs)
  pp : Ahead qp qp'

lemma plane_eig {kx : ℂ} {eps : Tensor} (h : PlaneCrystal eps) {qs qp qp' : ℂ} (hw : PlaneWaves kx eps qs qp qp') :
    buildDelta kx eps * planeW (eps 2 2 - kx ^ 2) (eps 2 2 * qp + kx * eps 2 0) (eps 2 2 * qp' + kx * eps 2 0) qs =
      planeW (eps 2 2 - kx ^ 2) (eps 2 2 * qp + kx * eps 2 0) (eps 2 2 * qp' + kx * eps 2 0) qs * Matrix.diagonal ![qs, qp, -qs, qp'] := by
  have hz := h.zz
  have e1 := hw.s
  have e2 := hw.p
  have e3 := hw.p'
  ext i j
  rw [Matrix.mul_diagonal]
  simp only [Matrix.mul_apply, Fin.sum_univ_four, buildDelta, planeW, h.xy, h.yx, h.yz, h.zy]
  generalize eps 2 2 = ezz at *
  generalize eps 0 0 = exx at *
  generalize eps 1 1 = eyy at *
  generalize eps 0 2 = exz at *
  generalize eps 2 0 = ezx at *
  fin_cases i <;> fin_cases j <;> simp
  · field_simp; ring
  · field_simp; ring
  · linear_combination e1
  · linear_combination e1
  · field_simp
    linear_combination -e2
  · field_simp
    linear_combination -e3

/-- The reflection matrix of any stack on such a medium, in terms of its two outgoing waves. -/
lemma plane_reflection (prop : Propagator) {s : Stack} {theta lbda : ℝ} {q : Fin 4 → ℂ} {w : Mat4} (hs : s.backIsotropic = false)
    (hu : IsUnit w) (he : buildDelta (kxOf s theta) s.back * w = w * Matrix.diagonal q) (hn : eigNorm q w ≠ 0)
    (h : PlaneCrystal s.back) (hz : s.back 2 2 ≠ kxOf s theta ^ 2) {qs qp qp' : ℂ} (hw : PlaneWaves (kxOf s theta) s.back qs qp qp') :
    let F := planeCols (s.back 2 2 - kxOf s theta ^ 2) (s.back 2 2 * qp + kxOf s theta * s.back 2 0) qs
    let A := isoHalfInv (kxOf s theta) s.front * (s.layers.map fun l => prop (buildDelta (kxOf s theta) l.2) (-l.1) lbda).prod
    (calculate4x4 prop s theta lbda (q, w)).jr = rows ![3, 1] (A * F) * (rows ![2, 0] (A * F))⁻¹ := by
  intro F A
  have hq0 : qs ≠ 0 := by
    rintro rfl
    rcases hw.ss with h | ⟨-, h⟩ <;> simp at h
  have hpp : qp ≠ qp' := by
    rintro rfl
    rcases hw.pp with h | ⟨-, h⟩ <;> exact lt_irrefl _ h
  have hy : s.back 2 2 * qp + kxOf s theta * s.back 2 0 ≠ s.back 2 2 * qp' + kxOf s theta * s.back 2 0 := by
    intro hh
    exact hpp (mul_left_cancel₀ h.zz (add_right_cancel hh))
  have hW := planeW_unit (sub_ne_zero.2 hz) hy hq0
  have hE := plane_eig h hw
  have hfirst := fwd_first (q := ![qs, qp, -qs, qp'])
    (planeW (s.back 2 2 - kxOf s theta ^ 2) (s.back 2 2 * qp + kxOf s theta * s.back 2 0)
      (s.back 2 2 * qp' + kxOf s theta * s.back 2 0) qs) (by
    intro a b ha hb
    have ha' : a = 0 ∨ a = 1 := by omega
    have hb' : b = 2 ∨ b = 3 := by omega
    rcases ha' with rfl | rfl <;> rcases hb' with rfl | rfl
    · exact hw.ss
    · exact hw.sp
    · exact hw.ps
    · exact hw.pp)
  obtain ⟨hgap, k0, hk0, ek0⟩ := hfirst
  obtain ⟨k, hk, ek⟩ := fwd_mix _ _ w _ q hW hu hE he hgap
  obtain ⟨g, hg, e⟩ := cols_eigHalf q w hn
  have hF : firstTwo (planeW (s.back 2 2 - kxOf s theta ^ 2) (s.back 2 2 * qp + kxOf s theta * s.back 2 0)
      (s.back 2 2 * qp' + kxOf s theta * s.back 2 0) qs) = F := by
    ext a k
    fin_cases k <;> fin_cases a <;> rfl
  have hc : cols (eigHalf q w) = F * (k0 * k * g) := by
    rw [e, ek, ek0, hF, Matrix.mul_assoc, Matrix.mul_assoc, Matrix.mul_assoc]
  have hm : transfer4x4 prop s theta lbda (q, w) = A * eigHalf q w := by
    simp only [transfer4x4, loop4x4_eq, exitMatrix, hs]
    simp only [Bool.false_eq_true, if_false, A, Matrix.mul_assoc]
  show tRt (transfer4x4 prop s theta lbda (q, w)) * (tIt (transfer4x4 prop s theta lbda (q, w)))⁻¹ = _
  rw [hm]
  exact jr_of_cols A _ F _ ((hk0.mul hk).mul hg) hc

lemma front_plane {kx : ℂ} {eps : Tensor} {n c : ℂ} (hn : nOf eps = n) (hc : cosPhi kx eps = c) (hn0 : n ≠ 0) (hc0 : c ≠ 0) (b y qs : ℂ) :
    rows ![3, 1] (isoHalfInv kx eps * planeCols b y qs) = !![(y * c - b * n) / (2 * n * c), 0; 0, (n * c - qs) / (2 * n * c)] ∧
    rows ![2, 0] (isoHalfInv kx eps * planeCols b y qs) = !![(y * c + b * n) / (2 * n * c), 0; 0, (n * c + qs) / (2 * n * c)] := by
  refine ⟨?_, ?_⟩
  · ext i j
    simp only [rows, isoHalfInv, hc, hn]
    fin_cases i <;> fin_cases j <;> simp [planeCols, Matrix.mul_apply, Fin.sum_univ_four] <;> field_simp <;> ring
  · ext i j
    simp only [rows, isoHalfInv, hc, hn]
    fin_cases i <;> fin_cases j <;> simp [planeCols, Matrix.mul_apply, Fin.sum_univ_four] <;> field_simp <;> ring

lemma plane_quotient {n c qs y b : ℂ} (hn : n ≠ 0) (hc : c ≠ 0) (hd1 : n * c + qs ≠ 0) (hd2 : y * c + b * n ≠ 0) :
    (!![(y * c - b * n) / (2 * n * c), 0; 0, (n * c - qs) / (2 * n * c)] : Mat2) *
      (!![(y * c + b * n) / (2 * n * c), 0; 0, (n * c + qs) / (2 * n * c)] : Mat2)⁻¹ =
      !![(y * c - b * n) / (y * c + b * n), 0; 0, (n * c - qs) / (n * c + qs)] := by
  have hinv : (!![(y * c + b * n) / (2 * n * c), 0; 0, (n * c + qs) / (2 * n * c)] : Mat2)⁻¹ =
      !![2 * n * c / (y * c + b * n), 0; 0, 2 * n * c / (n * c + qs)] := by
    apply Matrix.inv_eq_right_inv
    ext i j
    fin_cases i <;> fin_cases j <;> simp [Matrix.mul_apply, Fin.sum_univ_two] <;> field_simp
  rw [hinv]
  ext i j
  fin_cases i <;> fin_cases j <;> simp [Matrix.mul_apply, Fin.sum_univ_two] <;> field_simp

/-- C117: reflection at a crystal with the plane of incidence as a plane of symmetry (isotropic, uniaxial and biaxial crystals with an
axis perpendicular to the plane of incidence, in any rotation about it): no cross polarisation, and Fresnel's formulas with the wave
numbers of the two outgoing waves, whatever correct answer `np.linalg.eig` gives. -/
theorem C117_fresnel (prop : Propagator) {s : Stack} {theta lbda : ℝ} {q : Fin 4 → ℂ} {w : Mat4} (hs : s.backIsotropic = false)
    (hl : s.layers = []) (hu : IsUnit w) (he : buildDelta (kxOf s theta) s.back * w = w * Matrix.diagonal q) (hn : eigNorm q w ≠ 0)
    (hf : nOf s.front ≠ 0) (ha : |theta| < 90)
    (h : PlaneCrystal s.back) (hz : s.back 2 2 ≠ kxOf s theta ^ 2) {qs qp qp' : ℂ} (hw : PlaneWaves (kxOf s theta) s.back qs qp qp') :
    let n := nOf s.front
    let c : ℂ := Real.cos (deg2rad theta)
    let y := s.back 2 2 * qp + kxOf s theta * s.back 2 0
    let b := s.back 2 2 - kxOf s theta ^ 2
    n * c + qs ≠ 0 → y * c + b * n ≠ 0 →
    (calculate4x4 prop s theta lbda (q, w)).jr = !![(y * c - b * n) / (y * c + b * n), 0; 0, (n * c - qs) / (n * c + qs)] := by
  intro n c y b hd1 hd2
  have hc0 := cos_pos_of_angle ha
  have hc : c ≠ 0 := Complex.ofReal_ne_zero.2 hc0.ne'
  rw [plane_reflection prop hs hu he hn h hz hw]
  simp only [hl, List.map_nil, List.prod_nil, Matrix.mul_one]
  obtain ⟨hR, hI⟩ := front_plane (n := n) (c := c) rfl (cosPhi_front s theta hf hc0) hf hc b y qs
  rw [hR, hI]
  exact plane_quotient hf hc hd1 hd2

/-- The exit medium has its axes along the coordinates. -/
def alignedTensor (ex ey ez : ℂ) : Tensor := !![ex, 0, 0; 0, ey, 0; 0, 0, ez]

lemma aligned_plane {ex ey ez : ℂ} (hz : ez ≠ 0) : PlaneCrystal (alignedTensor ex ey ez) :=
  ⟨rfl, rfl, rfl, rfl, hz⟩

lemma aligned_waves {kx ex ey ez qs qp : ℂ} (h1 : Outward qs) (h2 : Outward qp) (hs : qs ^ 2 = ey - kx ^ 2)
    (hp : ez * qp ^ 2 = ex * (ez - kx ^ 2)) : PlaneWaves kx (alignedTensor ex ey ez) qs qp (-qp) where
  s := hs
  p := by
    simp [alignedTensor]
    linear_combination ez * hp
  p' := by
    simp [alignedTensor]
    linear_combination ez * hp
  ss := ahead_neg h1 h1
  sp := ahead_neg h1 h2
  ps := ahead_neg h2 h1
  pp := ahead_neg h2 h2

/-- C117 for axes along the coordinates (uniaxial with the axis along x, y or z, biaxial). -/
theorem C117_aligned (prop : Propagator) {s : Stack} {theta lbda : ℝ} {q : Fin 4 → ℂ} {w : Mat4} (hs : s.backIsotropic = false)
    (hl : s.layers = []) (hu : IsUnit w) (he : buildDelta (kxOf s theta) s.back * w = w * Matrix.diagonal q) (hn : eigNorm q w ≠ 0)
    (hf : nOf s.front ≠ 0) (ha : |theta| < 90) {ex ey ez qs qp : ℂ} (hb : s.back = alignedTensor ex ey ez) (hz : ez ≠ 0)
    (hz' : ez ≠ kxOf s theta ^ 2) (h1 : Outward qs) (h2 : Outward qp) (hqs : qs ^ 2 = ey - kxOf s theta ^ 2)
    (hqp : ez * qp ^ 2 = ex * (ez - kxOf s theta ^ 2)) :
    let n := nOf s.front
    let c : ℂ := Real.cos (deg2rad theta)
    let b := ez - kxOf s theta ^ 2
    n * c + qs ≠ 0 → ez * qp * c + b * n ≠ 0 →
    (calculate4x4 prop s theta lbda (q, w)).jr =
      !![(ez * qp * c - b * n) / (ez * qp * c + b * n), 0; 0, (n * c - qs) / (n * c + qs)] := by
  intro n c b hd1 hd2
  have hw := aligned_waves h1 h2 hqs hqp
  rw [← hb] at hw
  have hp : PlaneCrystal s.back := by rw [hb]; exact aligned_plane hz
  have h22 : s.back 2 2 = ez := by rw [hb]; rfl
  have h20 : s.back 2 0 = 0 := by rw [hb]; rfl
  have := C117_fresnel prop (lbda := lbda) hs hl hu he hn hf ha hp (by rw [h22]; exact hz') hw
  simp only [h22, h20, mul_zero, add_zero] at this
  exact this hd1 hd2

/-- C117: polarising angle of an aligned transparent crystal. -/
theorem C117_brewster (prop : Propagator) {s : Stack} {theta lbda : ℝ} {q : Fin 4 → ℂ} {w : Mat4} (hs : s.backIsotropic = false)
    (hl : s.layers = []) (hu : IsUnit w) (he : buildDelta (kxOf s theta) s.back * w = w * Matrix.diagonal q) (hn : eigNorm q w ≠ 0)
    {n0 : ℝ} (hn0 : 0 < n0) (hf : s.front 0 0 = ((n0 ^ 2 : ℝ) : ℂ)) (ha : |theta| < 90) {ex ey ez : ℝ}
    (hb : s.back = alignedTensor ex ey ez) (hx : 0 < ex) (hy : n0 ^ 2 * Real.sin (deg2rad theta) ^ 2 < ey)
    (hz : n0 ^ 2 * Real.sin (deg2rad theta) ^ 2 < ez) :
    (calculate4x4 prop s theta lbda (q, w)).jr 0 0 = 0 ↔
      Real.sin (deg2rad theta) ^ 2 * (ex * ez - n0 ^ 4) = ez * (ex - n0 ^ 2) := by
  have hc0 := cos_pos_of_angle ha
  have hnf := nOf_front hn0 hf
  have hk := kxOf_real hn0 hf theta
  have hsc := Real.sin_sq_add_cos_sq (deg2rad theta)
  generalize Real.sin (deg2rad theta) = sn at *
  have hkk : n0 ^ 2 * sn ^ 2 = (n0 * sn) ^ 2 := by ring
  have hez : 0 < ez := lt_of_le_of_lt (by positivity) hz
  have hbpos : 0 < ez - (n0 * sn) ^ 2 := by linarith
  set ps := Real.sqrt (ey - (n0 * sn) ^ 2) with hps
  set pp := Real.sqrt (ex * (ez - (n0 * sn) ^ 2) / ez) with hpp
  have hps0 : 0 < ps := Real.sqrt_pos.2 (by linarith)
  have hpp0 : 0 < pp := Real.sqrt_pos.2 (by positivity)
  have hps2 : ps ^ 2 = ey - (n0 * sn) ^ 2 := Real.sq_sqrt (by linarith)
  have hpp2 : ez * pp ^ 2 = ex * (ez - (n0 * sn) ^ 2) := by
    rw [hpp, Real.sq_sqrt (by positivity)]
    field_simp
  clear_value ps pp
  have key := C117_aligned prop (lbda := lbda) hs hl hu he hn (by rw [hnf]; exact_mod_cast hn0.ne') ha hb
    (by exact_mod_cast hez.ne') (by rw [hk]; exact_mod_cast (show ez ≠ (n0 * sn) ^ 2 by linarith)) (qs := (ps : ℂ)) (qp := (pp : ℂ))
    (Or.inr ⟨by simp, by simpa using hps0⟩) (Or.inr ⟨by simp, by simpa using hpp0⟩)
    (by rw [hk]; exact_mod_cast hps2) (by rw [hk]; exact_mod_cast hpp2)
  generalize hcc : Real.cos (deg2rad theta) = c at *
  simp only [hnf, hk] at key
  have hd1 : (n0 : ℂ) * c + ps ≠ 0 := by exact_mod_cast (show n0 * c + ps ≠ 0 by positivity)
  have hd2' : ez * pp * c + (ez - (n0 * sn) ^ 2) * n0 ≠ 0 := by positivity
  have hd2 : (ez : ℂ) * pp * c + ((ez : ℂ) - ((n0 * sn : ℝ) : ℂ) ^ 2) * n0 ≠ 0 := by exact_mod_cast hd2'
  rw [key hd1 hd2]
  simp only [Matrix.of_apply, Matrix.cons_val_zero, Matrix.cons_val']
  rw [div_eq_zero_iff, or_iff_left hd2, sub_eq_zero]
  have hiff : ((ez : ℂ) * pp * c = ((ez : ℂ) - ((n0 * sn : ℝ) : ℂ) ^ 2) * n0) ↔ ez * pp * c = (ez - (n0 * sn) ^ 2) * n0 := by
    constructor <;> intro h <;> exact_mod_cast h
  rw [hiff, ← sq_eq_sq₀ (by positivity) (by positivity)]
  have e1 : (ez * pp * c) ^ 2 = (ez - (n0 * sn) ^ 2) * (ez * ex * c ^ 2) := by linear_combination ez * c ^ 2 * hpp2
  have e2 : ((ez - (n0 * sn) ^ 2) * n0) ^ 2 = (ez - (n0 * sn) ^ 2) * ((ez - (n0 * sn) ^ 2) * n0 ^ 2) := by ring
  rw [e1, e2, mul_right_inj' hbpos.ne']
  constructor
  · intro h
    linear_combination -h + ez * ex * hsc
  · intro h
    linear_combination -h + ez * ex * hsc

/-- The wave number along z in a passive isotropic medium, as the route for isotropic media computes it, belongs to the outgoing wave. -/
lemma iso_outward {kx : ℝ} {e : ℂ} (he : 0 ≤ e.im) (he0 : e ≠ 0) (hk : e ≠ (kx : ℂ) ^ 2) :
    let n := nOf (isoTensor e)
    let c := cosPhi kx (isoTensor e)
    n ≠ 0 ∧ c ≠ 0 ∧ n ^ 2 = e ∧ (n * c) ^ 2 = e - (kx : ℂ) ^ 2 ∧ Outward (n * c) := by
  intro n c
  have hn2 : n ^ 2 = e := nOf_sq _
  have hn0 : n ≠ 0 := by
    intro h
    rw [h] at hn2
    exact he0 (by rw [← hn2]; ring)
  have hc2 : c ^ 2 = 1 - (kx / n) ^ 2 := csqrt_sq _
  have hnc2 : (n * c) ^ 2 = e - (kx : ℂ) ^ 2 := by
    rw [mul_pow, hc2, ← hn2]
    field_simp
  have hc0 : c ≠ 0 := by
    intro h
    rw [h] at hnc2
    exact hk (by linear_combination -hnc2)
  have harg : 1 - (kx / n) ^ 2 = 1 - (kx : ℂ) ^ 2 / e := by rw [div_pow, hn2]
  have him : (1 - (kx : ℂ) ^ 2 / e).im = kx ^ 2 * e.im / Complex.normSq e := by
    rw [div_eq_mul_inv, ← Complex.ofReal_pow, Complex.sub_im, Complex.im_ofReal_mul, Complex.inv_im]
    simp
    ring
  have hnr : 0 ≤ n.re := csqrt_re_nonneg _
  have hni : 0 ≤ n.im := csqrt_im_nonneg he
  have hcr : 0 ≤ c.re := csqrt_re_nonneg _
  have hci : 0 ≤ c.im := by
    apply csqrt_im_nonneg
    show 0 ≤ (1 - (kx / n) ^ 2).im
    rw [harg, him]
    exact div_nonneg (mul_nonneg (sq_nonneg _) he) (Complex.normSq_nonneg _)
  refine ⟨hn0, hc0, hn2, hnc2, ?_⟩
  unfold Outward
  rw [Complex.mul_im, Complex.mul_re]
  have p1 := mul_nonneg hnr hci
  have p2 := mul_nonneg hni hcr
  rcases (add_nonneg p1 p2).lt_or_eq with h | h
  · exact Or.inl h
  · refine Or.inr ⟨h.symm, ?_⟩
    have z1 : n.re * c.im = 0 := by linarith
    have z2 : n.im * c.re = 0 := by linarith
    rcases hnr.lt_or_eq with hr | hr
    · have hci0 : c.im = 0 := by
        rcases mul_eq_zero.1 z1 with h | h
        · linarith
        · exact h
      rw [hci0, mul_zero, sub_zero]
      apply mul_pos hr
      rcases hcr.lt_or_eq with h | h
      · exact h
      · exact absurd (Complex.ext h.symm hci0) hc0
    · exfalso
      have hni0 : n.im ≠ 0 := fun h => hn0 (Complex.ext hr.symm h)
      have hcr0 : c.re = 0 := (mul_eq_zero.1 z2).resolve_left hni0
      have hre := congrArg Complex.re hnc2
      rw [← hn2] at hre
      simp only [pow_two, Complex.mul_re, Complex.mul_im, Complex.sub_re, Complex.ofReal_re, Complex.ofReal_im, ← hr, hcr0] at hre
      have hci0 : c.im ≠ 0 := fun h => hc0 (Complex.ext hcr0 h)
      have q1 : 0 < (n.im * c.im) ^ 2 := by positivity
      have q2 : 0 < n.im ^ 2 := by positivity
      nlinarith [sq_nonneg kx]

/-- C117: an isotropic exit medium treated as a crystal (`solver4x4.py:205-259`) reflects as by the route for isotropic media
(`solver4x4.py:261-306`), for any layers. -/
theorem C117_isotropic_exit (prop : Propagator) {s : Stack} {theta lbda : ℝ} {q : Fin 4 → ℂ} {w : Mat4} (hs : s.backIsotropic = false)
    (hu : IsUnit w) (he : buildDelta (kxOf s theta) s.back * w = w * Matrix.diagonal q) (hn : eigNorm q w ≠ 0)
    {n0 : ℝ} (hn0 : 0 < n0) (hf : s.front 0 0 = ((n0 ^ 2 : ℝ) : ℂ)) {e : ℂ} (hb : s.back = isoTensor e) (hp : 0 ≤ e.im) (he0 : e ≠ 0)
    (hk : e ≠ kxOf s theta ^ 2) (other : (Fin 4 → ℂ) × Mat4) :
    (calculate4x4 prop s theta lbda (q, w)).jr = (calculate4x4 prop { s with backIsotropic := true } theta lbda other).jr := by
  have hkx := kxOf_real hn0 hf theta
  have hk' := hk
  rw [hkx] at hk'
  obtain ⟨i1, i2, i3, i4, i5⟩ := iso_outward hp he0 hk'
  rw [← hkx, ← hb] at i4 i5 i2
  rw [← hb] at i1 i3
  set n := nOf s.back with hndef
  set c := cosPhi (kxOf s theta) s.back with hcdef
  have hw : PlaneWaves (kxOf s theta) s.back (n * c) (n * c) (-(n * c)) := by
    refine ⟨?_, ?_, ?_, ahead_neg i5 i5, ahead_neg i5 i5, ahead_neg i5 i5, ahead_neg i5 i5⟩
    · rw [i4, hb]
      simp [isoTensor]
    · rw [hb]
      simp [isoTensor]
      linear_combination e ^ 2 * i4
    · rw [hb]
      simp [isoTensor]
      linear_combination e ^ 2 * i4
  have hpc : PlaneCrystal s.back := by
    rw [hb]
    refine ⟨?_, ?_, ?_, ?_, ?_⟩ <;> simp [isoTensor, he0]
  have h22 : s.back 2 2 = e := by rw [hb]; simp [isoTensor]
  have h20 : s.back 2 0 = 0 := by rw [hb]; simp [isoTensor]
  have key := plane_reflection prop (lbda := lbda) hs hu he hn hpc (by rw [h22]; exact hk) hw
  simp only [h22, h20, mul_zero, add_zero] at key
  rw [key]
  set A := isoHalfInv (kxOf s theta) s.front * (s.layers.map fun l => prop (buildDelta (kxOf s theta) l.2) (-l.1) lbda).prod with hA
  have hkeq : kxOf { s with backIsotropic := true } theta = kxOf s theta := rfl
  have hm : transfer4x4 prop { s with backIsotropic := true } theta lbda other = A * isoHalf (kxOf s theta) s.back := by
    simp only [transfer4x4, loop4x4_eq, exitMatrix, hkeq, if_true, hA, Matrix.mul_assoc]
  have hcols : cols (isoHalf (kxOf s theta) s.back) =
      planeCols (e - kxOf s theta ^ 2) (e * (n * c)) (n * c) * !![1 / (n ^ 2 * c), 0; 0, 1] := by
    have e1 : e - kxOf s theta ^ 2 = n ^ 2 * c ^ 2 := by rw [← i4]; ring
    rw [e1, ← i3]
    ext a k
    simp only [isoHalf, cols, planeCols, ← hndef, ← hcdef]
    fin_cases a <;> fin_cases k <;> simp [Matrix.mul_apply, Fin.sum_univ_two] <;> field_simp
  have hunit : IsUnit (!![1 / (n ^ 2 * c), 0; 0, 1] : Mat2) := by
    rw [Matrix.isUnit_iff_isUnit_det, Matrix.det_fin_two]
    simp [i1, i2]
  show _ = tRt (transfer4x4 prop { s with backIsotropic := true } theta lbda other) *
    (tIt (transfer4x4 prop { s with backIsotropic := true } theta lbda other))⁻¹
  rw [hm, jr_of_cols A _ _ _ hunit hcols]

/-! ## Media with negative principal values -/

/-- A lossless medium with a negative principal value, behind a medium with refractive index 4. -/
noncomputable def hyperStack : Stack := ⟨isoTensor 16, [], alignedTensor (-1) 8 2, false⟩

noncomputable def hyperQ : Fin 4 → ℂ := ![2, 1, -1, -2]

noncomputable def hyperW : Mat4 := !![0, -1, -1, 0; 1, 0, 0, 1; -2, 0, 0, 2; 0, 1, -1, 0]

lemma kx_two {s : Stack} (h : s.front 0 0 = 16) : kxOf s 30 = ((2 : ℝ) : ℂ) := by
  rw [kxOf_real (n0 := 4) (by norm_num) (by rw [h]; norm_num)]
  have : deg2rad 30 = Real.pi / 6 := by unfold deg2rad; ring
  rw [this, Real.sin_pi_div_six]
  norm_num

lemma hyper_kx : kxOf hyperStack 30 = ((2 : ℝ) : ℂ) := kx_two (by simp [hyperStack, isoTensor])

lemma hyper_unit : IsUnit hyperW := by
  have h : hyperW * !![0, 1 / 2, -1 / 4, 0; -1 / 2, 0, 0, 1 / 2; -1 / 2, 0, 0, -1 / 2; 0, 1 / 2, 1 / 4, 0] = 1 := by
    ext i j
    fin_cases i <;> fin_cases j <;> simp [hyperW, Matrix.mul_apply, Fin.sum_univ_four] <;> norm_num
  exact IsUnit.of_mul_eq_one _ h

lemma hyper_eig : buildDelta (kxOf hyperStack 30) hyperStack.back * hyperW = hyperW * Matrix.diagonal hyperQ := by
  rw [hyper_kx]
  ext i j
  rw [Matrix.mul_diagonal]
  fin_cases i <;> fin_cases j <;>
    simp [buildDelta, hyperStack, alignedTensor, hyperW, hyperQ, Matrix.mul_apply, Fin.sum_univ_four] <;> norm_num

lemma hyper_norm : eigNorm hyperQ hyperW = 1 + 1 := by
  have hidx : argsort (lexLe hyperQ) = [0, 1, 2, 3] := by
    apply idx_of_sorted
    simp [LexGe, hyperQ]
  have hs : eigSorted hyperQ hyperW = hyperW := by
    ext a k
    unfold eigSorted takeIdx
    simp only [hidx]
    fin_cases k <;> rfl
  have d0 : descTwo 1 0 = ![0, 1] := by simp [descTwo]
  have d1 : descTwo 0 1 = ![1, 0] := by simp [descTwo]
  have p1 : unitPhase 1 = 1 := unitPhase_one (by simp)
  have w0 : hyperW 1 0 = 1 := rfl
  have w1 : hyperW 1 1 = 0 := rfl
  have w2 : hyperW 1 2 = 0 := rfl
  have w3 : hyperW 1 3 = 1 := rfl
  simp only [eigNorm, eigPhased, hs, w0, w1, w2, w3, d0, d1]
  simp [w0, w3, p1]

lemma hyper_crystal (lbda : ℝ) (hl : 0 < lbda) : CrystalStack hyperStack 30 lbda hyperQ hyperW where
  front := ⟨4, by norm_num, by simp [hyperStack, isoTensor]; norm_num⟩
  angle := by rw [abs_of_pos] <;> norm_num
  lbda_pos := hl
  layers := by intro l hm; simp [hyperStack] at hm
  aniso := rfl
  unit := hyper_unit
  eig := hyper_eig
  norm_ne := by rw [hyper_norm]; norm_num

/-- C116 fails for lossless media with a principal value below zero: the p wave with positive wave number carries its energy towards the
stack, and the calculated reflectance is above one. -/
theorem C116_hyperbolic_refuted (prop : Propagator) (lbda : ℝ) (hl : 0 < lbda) (jones : Fin 2 → ℂ) :
    ∃ (s : Stack) (theta : ℝ) (q : Fin 4 → ℂ) (w : Mat4), CrystalStack s theta lbda q w ∧ Lossless s.back ∧
      let out := calculate4x4 prop s theta lbda (q, w)
      1 < (Result.mk' out.jr out.jt out.power jones).RMatrix 0 0 := by
  refine ⟨hyperStack, 30, hyperQ, hyperW, hyper_crystal lbda hl, ?_, ?_⟩
  · ext i j
    rw [Matrix.conjTranspose_apply]
    fin_cases i <;> fin_cases j <;> simp [hyperStack, alignedTensor]
  · have hf : hyperStack.front 0 0 = (((4 : ℝ) ^ 2 : ℝ) : ℂ) := by
      simp [hyperStack, isoTensor]; norm_num
    have hnf := nOf_front (by norm_num) hf
    have ha : |(30 : ℝ)| < 90 := by rw [abs_of_pos] <;> norm_num
    have hc0 := cos_pos_of_angle ha
    have hc1 := Real.cos_le_one (deg2rad 30)
    have key := C117_aligned prop (s := hyperStack) (theta := 30) (lbda := lbda) rfl rfl hyper_unit hyper_eig
      (by rw [hyper_norm]; norm_num) (by rw [hnf]; norm_num) ha (ex := -1) (ey := 8) (ez := 2) rfl (by norm_num)
      (by rw [hyper_kx]; norm_num) (qs := 2) (qp := 1) (Or.inr (by norm_num)) (Or.inr (by norm_num)) (by rw [hyper_kx]; norm_num)
      (by rw [hyper_kx]; norm_num)
    generalize Real.cos (deg2rad 30) = c at *
    simp only [hnf, hyper_kx] at key
    have hd2 : (2 : ℂ) * 1 * c + (2 - ((2 : ℝ) : ℂ) ^ 2) * ((4 : ℝ) : ℂ) ≠ 0 := by
      have : (2 : ℝ) * 1 * c + (2 - 2 ^ 2) * 4 ≠ 0 := by linarith
      exact_mod_cast this
    have hd1 : ((4 : ℝ) : ℂ) * c + 2 ≠ 0 := by
      have : 4 * c + 2 ≠ 0 := by positivity
      exact_mod_cast this
    have hj := key hd1 hd2
    simp only [Result.mk', Result.RMatrix, hj]
    simp only [Matrix.of_apply, Matrix.cons_val_zero, Matrix.cons_val']
    have hr : (2 * 1 * (c : ℂ) - (2 - ((2 : ℝ) : ℂ) ^ 2) * ((4 : ℝ) : ℂ)) / (2 * 1 * c + (2 - ((2 : ℝ) : ℂ) ^ 2) * ((4 : ℝ) : ℂ)) =
        (((c + 4) / (c - 4) : ℝ) : ℂ) := by
      have : c - 4 ≠ 0 := by linarith
      have : (c : ℂ) - 4 ≠ 0 := by exact_mod_cast this
      rw [div_eq_iff hd2]
      push_cast
      field_simp
      ring
    rw [hr, Complex.norm_real, Real.norm_eq_abs, sq_abs, div_pow, one_lt_div (by nlinarith)]
    nlinarith

/-! ## The hypotheses are met -/

lemma norm_of_sorted {q : Fin 4 → ℂ} {w : Mat4} (hq : LexGe (q 0) (q 1) ∧ LexGe (q 1) (q 2) ∧ LexGe (q 2) (q 3))
    (hw : (w 1 0 = 1 ∧ w 1 1 = 0 ∨ w 1 0 = 0 ∧ w 1 1 = 1) ∧ (w 1 2 = 1 ∧ w 1 3 = 0 ∨ w 1 2 = 0 ∧ w 1 3 = 1)) : eigNorm q w = 1 + 1 := by
  have hidx := idx_of_sorted hq
  have hs : eigSorted q w = w := by
    ext a k
    unfold eigSorted takeIdx
    simp only [hidx]
    fin_cases k <;> rfl
  have d0 : descTwo 1 0 = ![0, 1] := by simp [descTwo]
  have d1 : descTwo 0 1 = ![1, 0] := by simp [descTwo]
  have p1 : unitPhase 1 = 1 := unitPhase_one (by simp)
  obtain ⟨⟨w0, w1⟩ | ⟨w0, w1⟩, ⟨w2, w3⟩ | ⟨w2, w3⟩⟩ := hw <;>
    simp only [eigNorm, eigPhased, hs, w0, w1, w2, w3, d0, d1] <;> simp [w0, w1, w2, w3, p1]

/-- A crystal with its axes tilted in the plane of incidence. -/
noncomputable def planeTilted : Stack := ⟨isoTensor 16, [], !![5, 0, 2; 0, 13, 0; 2, 0, 8], false⟩

lemma planeTilted_kx : kxOf planeTilted 30 = ((2 : ℝ) : ℂ) := kx_two (by simp [planeTilted, isoTensor])

/-- The hypotheses of `C117_fresnel` are met for that crystal at 30 degrees, where the two p waves have different wave numbers. -/
example : ∃ (q : Fin 4 → ℂ) (w : Mat4), IsUnit w ∧
    buildDelta (kxOf planeTilted 30) planeTilted.back * w = w * Matrix.diagonal q ∧ eigNorm q w ≠ 0 ∧ PlaneCrystal planeTilted.back ∧
    planeTilted.back 2 2 ≠ kxOf planeTilted 30 ^ 2 ∧ PlaneWaves (kxOf planeTilted 30) planeTilted.back 3 1 (-2) := by
  refine ⟨![3, 1, -2, -3], !![0, 1, 1, 0; 1, 0, 0, 1; -3, 0, 0, 3; 0, 3, -3, 0], ?_, ?_, ?_, ?_, ?_, ?_⟩
  · have h : (!![0, 1, 1, 0; 1, 0, 0, 1; -3, 0, 0, 3; 0, 3, -3, 0] : Mat4) *
        !![0, 1 / 2, -1 / 6, 0; 1 / 2, 0, 0, 1 / 6; 1 / 2, 0, 0, -1 / 6; 0, 1 / 2, 1 / 6, 0] = 1 := by
      ext i j
      fin_cases i <;> fin_cases j <;> simp [Matrix.mul_apply, Fin.sum_univ_four] <;> norm_num
    exact IsUnit.of_mul_eq_one _ h
  · rw [planeTilted_kx]
    ext i j
    rw [Matrix.mul_diagonal]
    fin_cases i <;> fin_cases j <;> simp [buildDelta, planeTilted, Matrix.mul_apply, Fin.sum_univ_four] <;> norm_num
  · rw [norm_of_sorted]
    · norm_num
    · simp [LexGe]
      norm_num
    · simp
  · exact ⟨rfl, rfl, rfl, rfl, by simp [planeTilted]⟩
  · rw [planeTilted_kx]
    simp [planeTilted]
    norm_num
  · rw [planeTilted_kx]
    constructor <;> simp [planeTilted, Ahead] <;> norm_num

/-- A biaxial crystal in air. -/
noncomputable def brewsterStack : Stack := ⟨isoTensor 1, [], alignedTensor ((5 / 2 : ℝ) : ℂ) ((7 / 4 : ℝ) : ℂ) ((2 : ℝ) : ℂ), false⟩

lemma brewster_sin : Real.sin (deg2rad 60) ^ 2 = 3 / 4 := by
  have : deg2rad 60 = Real.pi / 3 := by unfold deg2rad; ring
  rw [this, Real.sin_pi_div_three, div_pow, Real.sq_sqrt (by norm_num)]
  norm_num

/-- At 60 degrees that crystal does not reflect p light, as `C117_brewster` says. -/
example (prop : Propagator) (lbda : ℝ) : ∃ (q : Fin 4 → ℂ) (w : Mat4), IsUnit w ∧
    buildDelta (kxOf brewsterStack 60) brewsterStack.back * w = w * Matrix.diagonal q ∧ eigNorm q w ≠ 0 ∧
    (calculate4x4 prop brewsterStack 60 lbda (q, w)).jr 0 0 = 0 := by
  have hf : brewsterStack.front 0 0 = (((1 : ℝ) ^ 2 : ℝ) : ℂ) := by simp [brewsterStack, isoTensor]
  have hk : kxOf brewsterStack 60 ^ 2 = 3 / 4 := by
    rw [kxOf_real one_pos hf, ← Complex.ofReal_pow, one_mul, brewster_sin]
    norm_num
  have hu : IsUnit (!![1, 0, 0, 1; 0, 1, 1, 0; 0, -1, 1, 0; 2, 0, 0, -2] : Mat4) := by
    have h : (!![1, 0, 0, 1; 0, 1, 1, 0; 0, -1, 1, 0; 2, 0, 0, -2] : Mat4) *
        !![1 / 2, 0, 0, 1 / 4; 0, 1 / 2, -1 / 2, 0; 0, 1 / 2, 1 / 2, 0; 1 / 2, 0, 0, -1 / 4] = 1 := by
      ext i j
      fin_cases i <;> fin_cases j <;> simp [Matrix.mul_apply, Fin.sum_univ_four] <;> norm_num
    exact IsUnit.of_mul_eq_one _ h
  have he : buildDelta (kxOf brewsterStack 60) brewsterStack.back * !![1, 0, 0, 1; 0, 1, 1, 0; 0, -1, 1, 0; 2, 0, 0, -2] =
      !![1, 0, 0, 1; 0, 1, 1, 0; 0, -1, 1, 0; 2, 0, 0, -2] * Matrix.diagonal ![5 / 4, 1, -1, -5 / 4] := by
    generalize kxOf brewsterStack 60 = k at hk
    ext i j
    rw [Matrix.mul_diagonal]
    fin_cases i <;> fin_cases j <;>
      simp [buildDelta, brewsterStack, alignedTensor, Matrix.mul_apply, Fin.sum_univ_four, hk] <;> norm_num
  have hn : eigNorm ![5 / 4, 1, -1, -5 / 4] !![1, 0, 0, 1; 0, 1, 1, 0; 0, -1, 1, 0; 2, 0, 0, -2] ≠ 0 := by
    rw [norm_of_sorted]
    · norm_num
    · simp [LexGe]
      norm_num
    · simp
  refine ⟨_, _, hu, he, hn, ?_⟩
  rw [C117_brewster prop (s := brewsterStack) rfl rfl hu he hn one_pos hf (by rw [abs_of_pos] <;> norm_num) rfl (by norm_num)
    (by rw [brewster_sin]; norm_num) (by rw [brewster_sin]; norm_num), brewster_sin]
  norm_num

/-- Glass as an exit medium by the route for crystals: the hypotheses of `C117_isotropic_exit` are met. -/
example : ∃ (q : Fin 4 → ℂ) (w : Mat4), IsUnit w ∧
    buildDelta (kxOf ⟨isoTensor 16, [], isoTensor 5, false⟩ 30) (isoTensor 5) * w = w * Matrix.diagonal q ∧ eigNorm q w ≠ 0 := by
  have hk : kxOf ⟨isoTensor 16, [], isoTensor 5, false⟩ 30 = ((2 : ℝ) : ℂ) := kx_two (by simp [isoTensor])
  refine ⟨![1, 1, -1, -1], !![0, 1, 0, 1; 1, 0, 1, 0; -1, 0, 1, 0; 0, 5, 0, -5], ?_, ?_, ?_⟩
  · have h : (!![0, 1, 0, 1; 1, 0, 1, 0; -1, 0, 1, 0; 0, 5, 0, -5] : Mat4) *
        !![0, 1 / 2, -1 / 2, 0; 1 / 2, 0, 0, 1 / 10; 0, 1 / 2, 1 / 2, 0; 1 / 2, 0, 0, -1 / 10] = 1 := by
      ext i j
      fin_cases i <;> fin_cases j <;> simp [Matrix.mul_apply, Fin.sum_univ_four] <;> norm_num
    exact IsUnit.of_mul_eq_one _ h
  · rw [hk]
    ext i j
    rw [Matrix.mul_diagonal]
    fin_cases i <;> fin_cases j <;> simp [buildDelta, isoTensor, Matrix.mul_apply, Fin.sum_univ_four] <;> norm_num
  · rw [norm_of_sorted]
    · norm_num
    · simp [LexGe]
    · simp

end PyElli
