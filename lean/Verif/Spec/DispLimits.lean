import Mathlib.Analysis.Complex.Basic
import Mathlib.Analysis.SpecialFunctions.Sqrt
import Mathlib.MeasureTheory.Integral.Bochner.Set
import Mathlib.MeasureTheory.Integral.IntervalIntegral.Basic
import Mathlib.MeasureTheory.Measure.Lebesgue.Basic

/-! # What a dielectric function does far away from its resonances

Vocabulary for C126, without reference to the dispersion classes. -/

namespace Spec

open Filter Topology MeasureTheory

/-- A computation that may fail (`none`: NaN or infinity) succeeds all along the way and approaches a value. -/
def Approaches (F : Filter ℝ) (f : ℝ → Option ℂ) (z : ℂ) : Prop :=
  ∃ g : ℝ → ℂ, (∀ᶠ l in F, f l = some (g l)) ∧ Tendsto g F (𝓝 z)

/-- The photon energy in electron volts of light of the given wavelength in nanometres. -/
noncomputable def photonEnergy (c h lbda : ℝ) : ℝ := c * h / (lbda * 1e-9)

/-- For light of shorter and shorter wavelength the dielectric function approaches `z`, and it does so like free electrons of plasma
energy `√W`: as `z - W / E²`. -/
def FreeElectrons (c h : ℝ) (eps : ℝ → Option ℂ) (z W : ℂ) : Prop :=
  Approaches (𝓝[>] 0) eps z ∧ Approaches (𝓝[>] 0) (fun l => (eps l).map fun v => (photonEnergy c h l : ℂ) ^ 2 * (z - v)) W

/-- The absorption at all photon energies together: `2/π ∫ E Im ε(E) dE = W`. -/
def AbsorptionSum (c h : ℝ) (eps : ℝ → Option ℂ) (W : ℝ) : Prop :=
  ∃ f : ℝ → ℂ, (∀ᵐ l, 0 < l → eps l = some (f (photonEnergy c h l))) ∧ IntegrableOn (fun E => E * (f E).im) (Set.Ioi 0) ∧
    2 / Real.pi * ∫ E in Set.Ioi 0, E * (f E).im = W

/-- The f-sum rule: the absorption at all photon energies together tells the plasma energy with which the limit `z` at high energies is
approached. -/
def SumRule (c h : ℝ) (eps : ℝ → Option ℂ) (z : ℂ) (W : ℝ) : Prop := FreeElectrons c h eps z W ∧ AbsorptionSum c h eps W

/-- For light of longer and longer wavelength the dielectric function approaches the static value `z`. -/
def Static (eps : ℝ → Option ℂ) (z : ℂ) : Prop := Approaches atTop eps z

/-- For light of longer and longer wavelength the dielectric function exceeds every bound, as that of a conductor does. -/
def Unbounded (eps : ℝ → Option ℂ) : Prop :=
  ∃ g : ℝ → ℂ, (∀ᶠ l in atTop, eps l = some (g l)) ∧ Tendsto (fun l => ‖g l‖) atTop atTop

/-- The absorption divided by the photon energy, summed over all photon energies: `2/π ∫ Im ε(E) / E dE = s`. -/
def StaticSum (c h : ℝ) (eps : ℝ → Option ℂ) (s : ℝ) : Prop :=
  ∃ f : ℝ → ℂ, (∀ᵐ l, 0 < l → eps l = some (f (photonEnergy c h l))) ∧ Tendsto (fun T : ℝ => 2 / Real.pi * ∫ E in (0 : ℝ)..T, (f E).im / E) atTop (𝓝 s)

end Spec
