import Verif.Model.Base

/-! # Specification: spectra

A computation for a list of wavelengths treats every wavelength by itself. -/

namespace Spec

open PyElli

/-- `eval L` is a computation for the wavelengths `L`; `sized r n` says that its result has an entry for each of `n` wavelengths and
`point r k` is the entry number `k`. The entries are those of computations for each wavelength alone, and the computation raises an
exception exactly if one of these does. -/
def PointByPoint {W R A : Type} (eval : List W → Except PyErr R) (sized : R → ℕ → Prop) (point : R → ℕ → A) : Prop :=
  ∀ L : List W,
    (∀ r, eval L = .ok r → sized r L.length ∧ ∀ k w, L[k]? = some w → ∃ r₁, eval [w] = .ok r₁ ∧ point r k = point r₁ 0) ∧
    ((∃ e, eval L = .error e) ↔ ∃ w ∈ L, ∃ e, eval [w] = .error e)

end Spec
