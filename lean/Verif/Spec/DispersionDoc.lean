import Mathlib.Analysis.SpecialFunctions.Pow.Real
import Mathlib.Analysis.SpecialFunctions.Complex.Log
import Mathlib.Analysis.Complex.Basic

/-!
# The formulas printed in the documentation of the dispersions (C84)

`E` is the photon energy in eV, `l` the wavelength in nm; the parameters have the documented names. Each definition is copied from the section
"Output" of the docstring of the class.
-/

namespace Spec.Doc

open Complex

/-- `Cauchy`, square root of ε. -/
noncomputable def cauchy (n0 n1 n2 k0 k1 k2 l : ℝ) : ℂ :=
  n0 + 100 * n1 / l ^ 2 + 10 ^ 7 * n2 / l ^ 4 + I * (k0 + 100 * k1 / l ^ 2 + 10 ^ 7 * k2 / l ^ 4)

/-- `CauchyCustomExponent`, square root of ε; one pair `(f, e)` per repetition. -/
noncomputable def cauchyCustom (n0 : ℝ) (fe : List (ℝ × ℝ)) (l : ℝ) : ℂ := n0 + ((fe.map fun p => p.1 * l ^ p.2).sum : ℝ)

/-- `CauchyUrbach`, refractive index. -/
noncomputable def cauchyUrbach (n0 B C D Eg Eu E : ℝ) : ℂ := n0 + B * E ^ 2 + C * E ^ 4 + I * D * Real.exp ((E - Eg) / Eu)

/-- `ConstantRefractiveIndex`, ε. -/
noncomputable def constantIndex (n : ℝ) : ℂ := (n : ℂ) ^ 2

/-- `EpsilonInf`. -/
noncomputable def epsilonInf (eps : ℝ) : ℂ := eps

/-- `DrudeEnergy`. -/
noncomputable def drudeEnergy (A gamma E : ℝ) : ℂ := A / ((E : ℂ) ^ 2 - I * gamma * E)

/-- `DrudeResistivity`. -/
noncomputable def drudeResistivity (hbar eps0 rho tau E : ℝ) : ℂ := hbar / (eps0 * rho * tau * (E : ℂ) ^ 2 - I * hbar * E)

/-- `LorentzEnergy`; one triple `(A, E, gamma)` per repetition. -/
noncomputable def lorentzEnergy (osc : List (ℝ × ℝ × ℝ)) (E : ℝ) : ℂ :=
  1 + (osc.map fun o => (o.1 : ℂ) / ((E : ℂ) ^ 2 - (o.2.1 : ℂ) ^ 2 + I * o.2.2 * E)).sum

/-- `LorentzLambda`; one triple `(A, lambda_r, gamma)` per repetition. -/
noncomputable def lorentzLambda (osc : List (ℝ × ℝ × ℝ)) (l : ℝ) : ℂ :=
  1 + (osc.map fun o => (o.1 : ℂ) * (l : ℂ) ^ 2 / ((l : ℂ) ^ 2 - (o.2.1 : ℂ) ^ 2 + I * o.2.2 * l)).sum

/-- `Poles`. -/
noncomputable def poles (Air Auv Euv E : ℝ) : ℂ := Air / (E : ℂ) ^ 2 + Auv / ((Euv : ℂ) ^ 2 - (E : ℂ) ^ 2)

/-- `Polynomial`; one pair `(f, e)` per repetition. -/
noncomputable def polynomial (e0 : ℝ) (fe : List (ℝ × ℝ)) (l : ℝ) : ℂ := e0 + ((fe.map fun p => p.1 * l ^ p.2).sum : ℝ)

/-- `Sellmeier`; one pair `(A, B)` per repetition, `B` in µm², so that the wavelength counts in µm. -/
noncomputable def sellmeier (ab : List (ℝ × ℝ)) (l : ℝ) : ℂ :=
  1 + (ab.map fun p => (p.1 : ℂ) * ((l / 1000 : ℝ) : ℂ) ^ 2 / (((l / 1000 : ℝ) : ℂ) ^ 2 - p.2)).sum

/-- `SellmeierCustomExponent`; one quadruple `(A, e_A, B, e_B)` per repetition. -/
noncomputable def sellmeierCustom (ab : List (ℝ × ℝ × ℝ × ℝ)) (l : ℝ) : ℂ :=
  ((ab.map fun p => p.1 * (l / 1000) ^ p.2.1 / ((l / 1000) ^ 2 - p.2.2.1 ^ p.2.2.2)).sum : ℝ)

/-- `Gaussian`; one triple `(A, E, sigma)` per repetition, `D` the Dawson function. -/
noncomputable def gaussian (D : ℝ → ℝ) (osc : List (ℝ × ℝ × ℝ)) (E : ℝ) : ℂ :=
  (osc.map fun o => ((2 * o.1 / √Real.pi * (D (2 * √(2 * Real.log 2) * (E + o.2.1) / o.2.2) - D (2 * √(2 * Real.log 2) * (E - o.2.1) / o.2.2)) : ℝ) : ℂ)
    + I * ((o.1 * Real.exp (-(4 * Real.log 2 * (E - o.2.1) / o.2.2) ^ 2) - o.1 * Real.exp (-(4 * Real.log 2 * (E + o.2.1) / o.2.2) ^ 2) : ℝ) : ℂ)).sum

end Spec.Doc
