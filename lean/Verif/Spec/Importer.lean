import Verif.Spec.Angles
import Mathlib.Data.List.Basic

/-! # What the readers of measurement files should do -/

namespace Spec.Importer

/-- A nonempty run of decimal digits. -/
def Digits (digit : Char → Bool) (w : List Char) : Prop := w ≠ [] ∧ ∀ c ∈ w, digit c = true

/-- Decimal numerals: optional sign, digits with or without a decimal point, optional exponent. -/
def Numeral (digit : Char → Bool) (s : List Char) : Prop :=
  ∃ sign mant ex, s = sign ++ mant ++ ex ∧ (sign = [] ∨ sign = ['+'] ∨ sign = ['-']) ∧
    (Digits digit mant ∨ (∃ a, Digits digit a ∧ mant = a ++ ['.']) ∨ (∃ a b, Digits digit a ∧ Digits digit b ∧ mant = a ++ '.' :: b) ∨
      (∃ b, Digits digit b ∧ mant = '.' :: b)) ∧
    (ex = [] ∨ ∃ e sg d, (e = 'e' ∨ e = 'E') ∧ (sg = [] ∨ sg = ['+'] ∨ sg = ['-']) ∧ Digits digit d ∧ ex = e :: sg ++ d)

/-- Rows in strictly increasing order of angle, then wavelength. -/
def SortedRows (rows : List ((ℝ × ℝ) × (ℝ × ℝ))) : Prop :=
  rows.Pairwise fun a b => a.1.1 < b.1.1 ∨ (a.1.1 = b.1.1 ∧ a.1.2 < b.1.2)

/-- The frame holds exactly these measurements: same keys, same Ψ, and the same Δ written in the window from -180 to 180 degrees. -/
def Holds (frame meas : List ((ℝ × ℝ) × (ℝ × ℝ))) : Prop :=
  (∀ m ∈ meas, ∃ d, (m.1, d, m.2.2) ∈ frame ∧ Spec.SameAngle d m.2.1 ∧ Spec.InWindow (-180) d) ∧
  (∀ f ∈ frame, ∃ d, (f.1, d, f.2.2) ∈ meas ∧ Spec.SameAngle f.2.1 d ∧ Spec.InWindow (-180) f.2.1)

/-- The measurements in a table with one row per wavelength and, for each angle, a column with Ψ followed by a column with Δ. -/
def cells (aois : List ℝ) (rows : List (ℝ × List ℝ)) : List ((ℝ × ℝ) × (ℝ × ℝ)) :=
  rows.flatMap fun r => (List.range aois.length).map fun j => ((aois.getD j 0, r.1), (r.2.getD (2 * j + 1) 0, r.2.getD (2 * j) 0))

end Spec.Importer
