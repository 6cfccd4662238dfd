import Verif.Spec.Coating

/-! # A film beyond total reflection between transparent media: decay constant and transmittance -/

namespace Spec

/-- Decay constant of the evanescent wave, in units of `2π/λ`, in a medium of permittivity `e` under incidence from index `n0` at `theta` degrees. -/
noncomputable def decay (n0 theta e : ℝ) : ℝ := √((n0 * Real.sin (theta * Real.pi / 180)) ^ 2 - e)

/-- Modulus of the (imaginary) admittance of such a medium. -/
noncomputable def Polarisation.evanescent (σ : Polarisation) (n0 theta e : ℝ) : ℝ :=
  match σ with
  | .s => decay n0 theta e
  | .p => |e| / decay n0 theta e

/-- Transmittance of a film with the admittance `i v` and the damping `b` between media with the admittances `u` and `w`. -/
noncomputable def tunnelT (u v w b : ℝ) : ℝ := 4 * u * w * v ^ 2 / (v ^ 2 * (u + w) ^ 2 + (v ^ 2 + u ^ 2) * (v ^ 2 + w ^ 2) * Real.sinh b ^ 2)

end Spec
