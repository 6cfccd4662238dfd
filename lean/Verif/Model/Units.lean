import Verif.Model.Dispersion

/-! # Unit conversions of `utils.py`

One value at a time (numpy works point by point). `none`: the value is zero, for which numpy gives an infinity and Python floats raise
`ZeroDivisionError`. `conversion_wavelength_energy` is `PyElli.conversionWavelengthEnergy` in `Model/Dispersion.lean`. -/

namespace PyElli

/-- `conversion_frequency2energy`, `/repo/src/elli/utils.py:216-228`. -/
noncomputable def conversionFrequency2Energy (K : PhysConst) (f : ℝ) : ℝ := f * K.h

/-- `conversion_energy2frequency`, `utils.py:231-243`. The Planck constant is not zero. -/
noncomputable def conversionEnergy2Frequency (K : PhysConst) (E : ℝ) : ℝ := E / K.h

/-- `conversion_wavelength_frequency`, `utils.py:246-258`. -/
noncomputable def conversionWavelengthFrequency (K : PhysConst) (v : ℝ) : Option ℝ := divN K.c (v * 1e-9)

/-- `conversion_wavelength_wavenumber`, `utils.py:261-274`. -/
noncomputable def conversionWavelengthWavenumber (v : ℝ) : Option ℝ := divN 1e7 v

end PyElli
