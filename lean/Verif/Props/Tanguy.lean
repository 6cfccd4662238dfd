import Verif.Lemmas.Tanguy
import Verif.Props.Dispersion

/-! # Properties of the Tanguy dispersion -/

namespace PyElli

open Complex Filter Topology PyElli.Exciton PyElli.Herglotz

/-- The parameters of a Tanguy dispersion, in the order of the template. -/
def tanguyParams (A d gam R Eg a b : ℝ) : Dict ℝ :=
  [("A", A), ("d", d), ("gamma", gam), ("R", R), ("Eg", Eg), ("a", a), ("b", b)]

/-- The value of the model in closed form. -/
lemma tanguy_value (K : PhysConst) {A d gam R Eg a b lbda E : ℝ} (hE : conversionWavelengthEnergy K lbda = some E) (hE0 : 0 < E)
    (hd : 1 < d) (hd' : d ≤ 3) (hg : 0 < gam) (hR : 0 < R) (hb : R < ((d - 1) / 2) ^ 2 * Eg) (hbE : b ≠ E ^ 2) :
    tanguy K (tanguyParams A d gam R Eg a b) lbda = some (1 + (a / (b - E ^ 2) : ℝ) + (A * R ^ (d / 2 - 1) : ℝ) / (E + I * gam) ^ 2 *
      (gfun d (xi R Eg (E + I * gam)) + gfun d (xi R Eg (-(E + I * gam))) - 2 * gfun d (xi R Eg 0))) := by
  have ha : 0 < (d - 1) / 2 := by linarith
  have ht : 0 < Eg - R / ((d - 1) / 2) ^ 2 := by
    rw [sub_pos, div_lt_iff₀ (pow_pos ha 2)]
    linarith
  have hle : Eg - R / ((d - 1) / 2) ^ 2 ≤ Eg := by
    have := div_pos hR (pow_pos ha 2)
    linarith
  have c1 : (E : ℂ) + I * gam ∈ Cut (Eg - R / ((d - 1) / 2) ^ 2) := fun h => by simp at h; linarith
  have c2 : -((E : ℂ) + I * gam) ∈ Cut (Eg - R / ((d - 1) / 2) ^ 2) := fun h => by simp at h; linarith
  have c3 : (0 : ℂ) ∈ Cut (Eg - R / ((d - 1) / 2) ^ 2) := fun _ => by simpa using ht
  have key : ∀ z : ℂ, z ∈ Cut (Eg - R / ((d - 1) / 2) ^ 2) → tanguyXsi z R Eg = some (xi R Eg z) ∧
      tanguyG (xi R Eg z) d = some (gfun d (xi R Eg z)) := by
    intro z hz
    have hz' := cut_mono hle hz
    constructor
    · rw [tanguyXsi, divN, if_neg (slitPlane_ne_zero (sub_slit hz'))]
      rfl
    · exact tanguyG_eq hd hd' (xi_re_pos hR hz') (xi_no_pole hR ha hz)
  have h0 : ((E : ℂ) + I * gam) ^ 2 ≠ 0 := by
    apply pow_ne_zero
    intro h
    have := congrArg re h
    simp at this
    linarith
  have hpow : powN R (d / 2 - 1) = some (R ^ (d / 2 - 1)) := by
    rw [powN, if_neg (by rintro ⟨h, -⟩; linarith), if_neg (by rintro ⟨h, -⟩; linarith)]
  have hback : divN a (b - E ^ 2) = some (a / (b - E ^ 2)) := by
    rw [divN, if_neg (sub_ne_zero.2 hbE)]
  have hq : divN ((A * R ^ (d / 2 - 1) : ℝ) : ℂ) (((E : ℂ) + I * gam) ^ 2) = some ((A * R ^ (d / 2 - 1) : ℝ) / (E + I * gam) ^ 2) := by
    rw [divN, if_neg h0]
  have e2 : -(E : ℂ) - I * gam = -((E : ℂ) + I * gam) := by ring
  have e3 : (((E * 0 : ℝ)) : ℂ) = 0 := by simp
  have g1 : Dict.get (tanguyParams A d gam R Eg a b) "A" = some A := rfl
  have g2 : Dict.get (tanguyParams A d gam R Eg a b) "d" = some d := rfl
  have g3 : Dict.get (tanguyParams A d gam R Eg a b) "gamma" = some gam := rfl
  have g4 : Dict.get (tanguyParams A d gam R Eg a b) "R" = some R := rfl
  have g5 : Dict.get (tanguyParams A d gam R Eg a b) "Eg" = some Eg := rfl
  have g6 : Dict.get (tanguyParams A d gam R Eg a b) "a" = some a := rfl
  have g7 : Dict.get (tanguyParams A d gam R Eg a b) "b" = some b := rfl
  unfold tanguy
  rw [hE, g1, g2, g3, g4, g5, g6, g7]
  simp only [Option.bind_eq_bind, Option.bind_some]
  rw [hback, hpow]
  simp only [Option.bind_some]
  rw [hq, e2, e3, (key _ c1).1, (key _ c2).1, (key _ c3).1]
  simp only [Option.bind_some]
  rw [(key _ c1).2, (key _ c2).2, (key _ c3).2]
  simp only [Option.bind_some]

/-- C49: the Tanguy model. For all dimensionalities of the documentation (`1 < d ≤ 3`), nonnegative amplitude, positive broadening and
binding energy, if the lowest exciton has a positive energy (`R < ((d-1)/2)² Eg`), the value is defined at every wavelength at which the
background is, and its imaginary part is nonnegative. -/
theorem C49_tanguy (K : PhysConst) (A d gam R Eg a b lbda : ℝ) (hl : 0 < lbda) (hA : 0 ≤ A) (hd : 1 < d) (hd' : d ≤ 3) (hg : 0 < gam)
    (hR : 0 < R) (hb : R < ((d - 1) / 2) ^ 2 * Eg) (hbE : b ≠ (K.c * K.h / (lbda * 1e-9)) ^ 2) :
    ∃ v, tanguy K (tanguyParams A d gam R Eg a b) lbda = some v ∧ 0 ≤ v.im := by
  have hE := energy_some K hl.ne'
  have hE0 := energy_pos K hl hE
  generalize K.c * K.h / (lbda * 1e-9) = E at *
  refine ⟨_, tanguy_value K hE hE0 hd hd' hg hR hb hbE, ?_⟩
  have ha : 0 < (d - 1) / 2 := by linarith
  have ht : 0 < Eg - R / ((d - 1) / 2) ^ 2 := by
    rw [sub_pos, div_lt_iff₀ (pow_pos ha 2)]
    linarith
  have h := second_difference_nonneg ht (pick_gfun (Eg := Eg) hd hd' hR) (z := E + I * gam) (by simpa using hE0) (by simpa using hg)
  generalize gfun d (xi R Eg (E + I * gam)) + gfun d (xi R Eg (-(E + I * gam))) - 2 * gfun d (xi R Eg 0) = S at *
  rw [show (((A * R ^ (d / 2 - 1) : ℝ)) : ℂ) / (E + I * gam) ^ 2 * S = ((A * R ^ (d / 2 - 1) : ℝ) : ℂ) * (S / (E + I * gam) ^ 2) by ring,
    add_im, im_ofReal_mul, add_im, one_im, ofReal_im]
  have : 0 ≤ A * R ^ (d / 2 - 1) := mul_nonneg hA (Real.rpow_nonneg hR.le _)
  have := mul_nonneg this h
  linarith

/-- Non-trivial case: the default parameters of the class (amplitude 1, three dimensions, broadening and binding energy 0.1 eV, gap 1 eV),
at a photon energy of 1 eV. -/
example : ∃ K : PhysConst, ∃ v, tanguy K (tanguyParams 1 3 0.1 0.1 1 0 0) 1e9 = some v ∧ 0 ≤ v.im :=
  ⟨⟨1, 1, 1, one_pos, one_pos, one_pos⟩, C49_tanguy _ 1 3 0.1 0.1 1 0 0 1e9 (by norm_num) (by norm_num) (by norm_num) (by norm_num)
    (by norm_num) (by norm_num) (by norm_num) (by norm_num)⟩

end PyElli
