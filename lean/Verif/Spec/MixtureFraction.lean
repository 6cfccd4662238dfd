import Mathlib.Analysis.SpecialFunctions.Pow.Complex

/-! # Volume fractions from dielectric constants (C154)

The fraction of the guest `g` in the host `h` as the rules of mixing give it back from the dielectric constant `e` of the mixture. -/

namespace Spec.Fraction

/-- Mixing by volume: the way from `h` to `g` that `e` has gone. -/
noncomputable def linear (h g e : ℂ) : ℂ := (e - h) / (g - h)

/-- The same for the cube roots (Looyenga 1965). -/
noncomputable def cubeRoot (h g e : ℂ) : ℂ := linear (h ^ (1 / 3 : ℂ)) (g ^ (1 / 3 : ℂ)) (e ^ (1 / 3 : ℂ))

/-- The polarisability of a sphere of `e` in surroundings of `h`. -/
noncomputable def polarisability (h e : ℂ) : ℂ := (e - h) / (e + 2 * h)

/-- Maxwell Garnett (1904): the polarisability of the mixture in units of that of the guest. -/
noncomputable def spheres (h g e : ℂ) : ℂ := polarisability h e / polarisability h g

/-- Bruggeman (1935): the polarisability of the host in the mixture, over the difference of those of host and guest. -/
noncomputable def selfConsistent (h g e : ℂ) : ℂ := polarisability e h / (polarisability e h - polarisability e g)

end Spec.Fraction
