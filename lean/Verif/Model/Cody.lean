import Verif.Model.Dispersion
import Verif.Model.Table

/-! # `CodyLorentz.dielectric_function`: `/repo/src/elli/dispersions/cody_lorentz.py:69-79` -/

namespace PyElli

open Complex

/-- `np.linspace(50, 10000, 1000)`, `cody_lorentz.py:72`. -/
noncomputable def codyNodes : List ℝ := (List.range 1000).map fun i : ℕ => (50 : ℝ) + i * (9950 / 999)

/-- All entries of an array, or `none` if one of them is NaN. -/
def allSome {α : Type} : List (Option α) → Option (List α)
  | [] => some []
  | a :: l => a.bind fun x => (allSome l).map fun r => x :: r

/-- `CodyLorentz.dielectric_function`, `cody_lorentz.py:69-79`: the real part is the Kramers-Kronig transform of the absorption on a fixed grid of
wavelengths, interpolated linearly (`interp1d`, `ValueError` outside the grid); the imaginary part is the absorption at the wavelength itself.
Simplification: if a value on the grid is NaN then the result is NaN (`none`); the code gives numbers on some of the nodes. -/
noncomputable def codyLorentz (K : PhysConst) (s : Dict ℝ) (lbda : ℝ) : Except PyErr (Option ℂ) :=
  match allSome (codyNodes.map fun l => (conversionWavelengthEnergy K l).bind (codyEps2 s)) with
  | none => .ok none
  | some eps2 =>
    (calcKkr .im2reReciprocal eps2 codyNodes).bind fun eps1 =>
      match allSome eps1 with
      | none => .ok none
      | some eps1 =>
        (mkTable codyNodes (eps1.map Complex.ofReal)).bind fun t =>
          (t.value lbda).map fun re =>
            re.bind fun re => ((conversionWavelengthEnergy K lbda).bind (codyEps2 s)).map fun im : ℝ => re + I * (im : ℂ)

end PyElli
