import Verif.Props.Defined2x2
import Verif.Props.Tunnelling
import Verif.Props.MixtureExit

/-! # C150 and C151 for `Solver2x2` and for structure objects -/

namespace PyElli

open Complex _root_.Spec PyElli.Spec

variable {asin : ℂ → ℂ}

lemma coated_solver2x2 (ha : PrincipalArcsin asin) {n0 theta lbda d e1 eb : ℝ} (hn : 0 < n0) (hth : |theta| < 90) (hl : 0 < lbda) (hd : 0 ≤ d) (he1 : e1 ≠ 0)
    (hc : e1 ≠ (n0 * Real.sin (theta * Real.pi / 180)) ^ 2) (hb : (n0 * Real.sin (theta * Real.pi / 180)) ^ 2 < eb) (ee) :
    calculate2x2 asin (coated n0 d e1 eb) theta lbda = calculate4x4 propExpm (coated n0 d e1 eb) theta lbda ee := by
  have heb : 0 < eb := lt_of_le_of_lt (sq_nonneg _) hb
  have hnt : ¬ TotalReflection n0 ((coated n0 d e1 eb).back 0 0) theta := by
    rintro ⟨-, h⟩
    rw [deg2rad_eq] at h
    simp [coated, isoTensor] at h
    linarith
  refine (C148_defined ha _ n0 theta lbda ee (coated_passive hn hth hl hd he1 heb.ne') (coated_iso n0 d e1 eb) hn (by simp [coated, isoTensor]) ?_
    (fun h => absurd h hnt) ?_).2
  · intro l hm h0
    simp only [coated, List.mem_singleton] at hm
    subst hm
    rw [deg2rad_eq] at h0
    apply hc
    have h1 : ((e1 : ℝ) : ℂ) = (((n0 * Real.sin (theta * Real.pi / 180)) ^ 2 : ℝ) : ℂ) := by simpa [isoTensor] using h0
    exact_mod_cast h1
  · intro _ h
    exact absurd h hnt

/-- **C150.** `Solver2x2` gives the same reflectance and transmittance of a transparent film. -/
theorem C150_solver2x2 (ha : PrincipalArcsin asin) {n0 theta e1 eb : ℝ} (h : Transparent n0 theta e1 eb) (σ : Polarisation) {d lbda : ℝ} (hd : 0 ≤ d) (hl : 0 < lbda) (a : ℂ) :
    let R := filmReflectance (σ.admittance n0 theta (n0 ^ 2)) (σ.admittance n0 theta e1) (σ.admittance n0 theta eb)
      (2 * Real.pi * normalComponent n0 theta e1 * d / lbda)
    let out := calculate2x2 asin (coated n0 d e1 eb) theta lbda
    let res := Result.mk' out.jr out.jt out.power ![a, a]
    res.RMatrix σ.index σ.index = R ∧ res.TMatrix σ.index σ.index = 1 - R := by
  intro R out res
  have e := coated_solver2x2 ha h.index h.angle hl hd (lt_of_le_of_lt (sq_nonneg _) h.film).ne' h.film.ne' h.back (0, 0)
  have := C150_formula h σ hd hl (0, 0) a
  unfold measured at this
  rw [← e] at this
  exact this

/-- **C151.** `Solver2x2` gives the same transmittance and reflectance of a film beyond total reflection. -/
theorem C151_solver2x2 (ha : PrincipalArcsin asin) {n0 theta e1 eb : ℝ} (h : Frustrated n0 theta e1 eb) (σ : Polarisation) {d lbda : ℝ} (hd : 0 ≤ d) (hl : 0 < lbda) (a : ℂ) :
    let T := tunnelT (σ.admittance n0 theta (n0 ^ 2)) (σ.evanescent n0 theta e1) (σ.admittance n0 theta eb) (2 * Real.pi * decay n0 theta e1 * d / lbda)
    let out := calculate2x2 asin (coated n0 d e1 eb) theta lbda
    let res := Result.mk' out.jr out.jt out.power ![a, a]
    res.TMatrix σ.index σ.index = T ∧ res.RMatrix σ.index σ.index = 1 - T := by
  intro T out res
  have e := coated_solver2x2 ha h.index h.angle hl hd h.film_ne h.film.ne h.back (0, 0)
  have := C151_formula h σ hd hl (0, 0) a
  unfold measured at this
  rw [← e] at this
  exact this

/-- **C150.** The stack of C150 and C151 is what the solvers see of a `Structure` with one `Layer` of an isotropic material between two isotropic materials, at a wavelength where
the dispersions have these real values. -/
theorem C150_structure (front film back : ℝ → ℂ) {n0 d e1 eb lbda : ℝ} (hf : front lbda = ((n0 ^ 2 : ℝ) : ℂ)) (h1 : film lbda = (e1 : ℂ)) (hb : back lbda = (eb : ℂ)) :
    Struct.stack ⟨.single .isotropic (isotropicMaterial front), [.layer (.single .isotropic (isotropicMaterial film)) d], .single .isotropic (isotropicMaterial back)⟩ lbda =
      some (coated n0 d e1 eb) := by
  unfold Struct.stack
  simp only [iso_numTensor, finite_some, profileList, LayerObj.profile, finiteSlices, hf, h1, hb, List.append_nil, List.cons_append, List.nil_append, Option.bind_some, Option.map_some, coated,
    Material.isIsotropicClass]

/-- A gap filled with an oil of index 1.4 between prisms, below the critical angle, with the arcsine of textbooks. -/
example (σ : Polarisation) (a : ℂ) :
    let out := calculate2x2 textbookArcsin (coated 1.5 100 (1.4 ^ 2) (1.5 ^ 2)) 30 500
    let res := Result.mk' out.jr out.jt out.power ![a, a]
    res.RMatrix σ.index σ.index + res.TMatrix σ.index σ.index = 1 := by
  have e : Real.sin (30 * Real.pi / 180) = 1 / 2 := by
    rw [show (30 * Real.pi / 180 : ℝ) = Real.pi / 6 by ring, Real.sin_pi_div_six]
  have h : Transparent 1.5 30 (1.4 ^ 2) (1.5 ^ 2) := ⟨by norm_num, by rw [abs_lt]; norm_num, by rw [e]; norm_num, by rw [e]; norm_num⟩
  have := C150_solver2x2 textbook_principal h σ (by norm_num : (0 : ℝ) ≤ 100) (by norm_num : (0 : ℝ) < 500) a
  intro out res
  rw [this.1, this.2]
  ring

end PyElli
