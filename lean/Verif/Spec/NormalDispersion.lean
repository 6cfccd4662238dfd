import Mathlib.Analysis.Complex.Basic

/-! # Normal and anomalous dispersion -/

namespace Spec

/-- `f` has a value at all wavelengths of `S`, and the real part falls as the wavelength grows (normal dispersion). -/
def Falls (f : ℝ → Option ℂ) (S : Set ℝ) : Prop :=
  (∀ l ∈ S, ∃ z, f l = some z) ∧ ∀ l ∈ S, ∀ l' ∈ S, l < l' → ∀ z z', f l = some z → f l' = some z' → z'.re < z.re

/-- `f` has a value at all wavelengths of `S`, and the real part rises with the wavelength (anomalous dispersion). -/
def Rises (f : ℝ → Option ℂ) (S : Set ℝ) : Prop :=
  (∀ l ∈ S, ∃ z, f l = some z) ∧ ∀ l ∈ S, ∀ l' ∈ S, l < l' → ∀ z z', f l = some z → f l' = some z' → z.re < z'.re

/-- `f` is real at all wavelengths of `S`. -/
def Transparent (f : ℝ → Option ℂ) (S : Set ℝ) : Prop := ∀ l ∈ S, ∃ r : ℝ, f l = some (r : ℂ)

end Spec
