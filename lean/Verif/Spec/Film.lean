import Mathlib.Analysis.SpecialFunctions.Trigonometric.Arctan
import Mathlib.Analysis.Complex.Exponential

/-! # Airy's formulas for a single film, in terms of permittivities and wave vector components (Born and Wolf, section 1.6.4) -/

namespace Spec

open Complex

/-- Fresnel coefficients of one interface; `q` and `q'` are the z components of the wave vectors in units of `2π/λ`. -/
noncomputable def rS (q q' : ℂ) : ℂ := (q - q') / (q + q')
noncomputable def tS (q q' : ℂ) : ℂ := 2 * q / (q + q')
noncomputable def rP (e q e' q' : ℂ) : ℂ := (e' * q - e * q') / (e' * q + e * q')
/-- `n` and `n'` are the refractive indices, the coefficient is one of the electric fields. -/
noncomputable def tP (n q n' q' : ℂ) : ℂ := 2 * n * n' * q / (n' ^ 2 * q + n ^ 2 * q')

/-- Sum of all multiple reflections in a film with phase thickness `b`. -/
noncomputable def airyR (r r' b : ℂ) : ℂ := (r + r' * exp (2 * I * b)) / (1 + r * r' * exp (2 * I * b))
noncomputable def airyT (r r' t t' b : ℂ) : ℂ := t * t' * exp (I * b) / (1 + r * r' * exp (2 * I * b))

end Spec
