import Verif.Model.Solver

/-!
# Conditioning of a stack

How far the transfer matrix of a stack may be spoilt by errors in its factors: the product of the factors with every number replaced by its
modulus, and every Fresnel coefficient by the conditioning `(|a| + |b|) / |a + b|` of its quotient `(a - b) / (a + b)`.
-/

namespace Spec

open PyElli Complex

/-- One polarisation: the two terms `a`, `b` of the denominator at the interface of two media. -/
abbrev Pol := Medium → Medium → ℂ × ℂ

/-- `n_i cos_i` and `n_t cos_t`. -/
noncomputable def sPol : Pol := fun i t => (i.1 * cos i.2, t.1 * cos t.2)

/-- `n_t cos_i` and `n_i cos_t`. -/
noncomputable def pPol : Pol := fun i t => (t.1 * cos i.2, i.1 * cos t.2)

/-- Conditioning of the quotient at one interface. -/
noncomputable def interfaceCond (pol : Pol) (i t : Medium) : ℝ := (‖(pol i t).1‖ + ‖(pol i t).2‖) / ‖(pol i t).1 + (pol i t).2‖

/-- Modulus of the transmission coefficient of one interface. -/
noncomputable def transSize (pol : Pol) (i t : Medium) : ℝ := ‖2 * i.1 * cos i.2‖ / ‖(pol i t).1 + (pol i t).2‖

/-- Sizes of the entries of the factor of a layer with phase `delta` before an interface; an interface alone has `delta = 0`. -/
noncomputable def factorSize (pol : Pol) (delta : ℂ) (i t : Medium) : Matrix (Fin 2) (Fin 2) ℝ :=
  !![Real.exp delta.im / transSize pol i t, interfaceCond pol i t * Real.exp delta.im / transSize pol i t;
    interfaceCond pol i t * Real.exp (-delta.im) / transSize pol i t, Real.exp (-delta.im) / transSize pol i t]

/-- Phase of a layer. -/
noncomputable def layerPhase (lbda : ℝ) (d : ℝ) (m : Medium) : ℂ := 2 * Real.pi * m.1 * cos m.2 / lbda * d

/-- The product of the sizes of the factors of a stack. -/
noncomputable def stackSizes (pol : Pol) (lbda : ℝ) (last : Medium) : Matrix (Fin 2) (Fin 2) ℝ → List (ℝ × Medium) → Matrix (Fin 2) (Fin 2) ℝ
  | P, [] => P
  | P, [(d, m)] => P * factorSize pol (layerPhase lbda d m) m last
  | P, (d, m) :: (d', m') :: rest => stackSizes pol lbda last (P * factorSize pol (layerPhase lbda d m) m m') ((d', m') :: rest)

/-- All media from the front to the back. -/
def media (first last : Medium) (inner : List (ℝ × Medium)) : List Medium := first :: (inner.map Prod.snd ++ [last])

/-- Sizes for the whole stack. -/
noncomputable def wholeSizes (pol : Pol) (lbda : ℝ) (first last : Medium) (inner : List (ℝ × Medium)) : Matrix (Fin 2) (Fin 2) ℝ :=
  stackSizes pol lbda last (factorSize pol 0 first ((inner.map Prod.snd).headD last)) inner

/-- Sum of the moduli of the phases. -/
noncomputable def totalPhase (lbda : ℝ) (inner : List (ℝ × Medium)) : ℝ := (inner.map fun l => ‖layerPhase lbda l.1 l.2‖).sum

/-- No interface of the stack is singular, and each has a conditioning of at most `Q`. -/
def Conditioned (pol : Pol) (Q : ℝ) (ms : List Medium) : Prop :=
  ms.IsChain fun i t => i.1 * cos i.2 ≠ 0 ∧ (pol i t).1 + (pol i t).2 ≠ 0 ∧ interfaceCond pol i t ≤ Q

/-- Growth of the relative errors of operations with relative error below `τ - 1`. -/
noncomputable def growth (τ Q : ℝ) (layers : ℕ) (phase : ℝ) : ℝ :=
  ((1 / (1 - (τ ^ 2 - 1) * Q)) ^ 2 * τ ^ 15) ^ (layers + 1) * Real.exp ((τ ^ 6 - 1) * phase)

end Spec
