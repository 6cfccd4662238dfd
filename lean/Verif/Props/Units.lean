import Verif.Model.Units
import Verif.Spec.Units

/-! # C69: unit conversions -/

namespace PyElli

open Spec.Units

lemma divN_of_ne {a b : ℝ} (h : b ≠ 0) : divN a b = some (a / b) := by
  unfold divN
  rw [if_neg h]

/-- C69: for every nonzero wavelength the three conversions give energy, frequency and wavenumber of the same photon. -/
theorem C69_photon (K : PhysConst) (l : ℝ) (hl : l ≠ 0) :
    ∃ E f s, conversionWavelengthEnergy K l = some E ∧ conversionWavelengthFrequency K l = some f ∧
      conversionWavelengthWavenumber l = some s ∧ Photon K.c K.h l E f s := by
  have h1 : l * 1e-9 ≠ 0 := mul_ne_zero hl (by norm_num)
  refine ⟨K.c * K.h / (l * 1e-9), K.c / (l * 1e-9), 1e7 / l, divN_of_ne h1, divN_of_ne h1, divN_of_ne hl, ?_, ?_, ?_⟩
  · field_simp
  · rw [show (1e-9 : ℝ) = 1 / 10 ^ 9 by norm_num]; field_simp
  · field_simp; norm_num

/-- C69: the same functions convert back: from any photon's energy, frequency or wavenumber they give its wavelength. -/
theorem C69_back (K : PhysConst) (l E f s : ℝ) (h : Photon K.c K.h l E f s) :
    conversionWavelengthEnergy K E = some l ∧ conversionWavelengthFrequency K f = some l ∧ conversionWavelengthWavenumber s = some l := by
  have hc := K.c_pos.ne'
  have hh := K.h_pos.ne'
  obtain ⟨h1, h2, h3⟩ := h
  have hf : f ≠ 0 := by
    rintro rfl
    rw [mul_zero] at h2
    exact mul_ne_zero hc (by norm_num) h2.symm
  have hs : s ≠ 0 := by
    rintro rfl
    norm_num at h3
  have hE : E ≠ 0 := by rw [h1]; exact mul_ne_zero hh hf
  have e9 : (1e-9 : ℝ) = 1 / 10 ^ 9 := by norm_num
  have e7 : (1e7 : ℝ) = 10 ^ 7 := by norm_num
  refine ⟨?_, ?_, ?_⟩
  · rw [conversionWavelengthEnergy, divN_of_ne (mul_ne_zero hE (by norm_num)), h1, e9]
    congr 1
    field_simp
    linarith
  · rw [conversionWavelengthFrequency, divN_of_ne (mul_ne_zero hf (by norm_num)), e9]
    congr 1
    field_simp
    linarith
  · rw [conversionWavelengthWavenumber, divN_of_ne hs, e7, ← h3]
    congr 1
    field_simp

/-- C69: energy and frequency conversions agree with the photon relation in both directions, whatever the value. -/
theorem C69_energy_frequency (K : PhysConst) (x : ℝ) :
    conversionFrequency2Energy K (conversionEnergy2Frequency K x) = x ∧ conversionEnergy2Frequency K (conversionFrequency2Energy K x) = x ∧
    ∀ l E f s, Photon K.c K.h l E f s → conversionFrequency2Energy K f = E ∧ conversionEnergy2Frequency K E = f := by
  have hh := K.h_pos.ne'
  refine ⟨?_, ?_, ?_⟩
  · simp only [conversionFrequency2Energy, conversionEnergy2Frequency]; field_simp
  · simp only [conversionFrequency2Energy, conversionEnergy2Frequency]; field_simp
  · rintro l E f s ⟨h1, -, -⟩
    constructor
    · rw [conversionFrequency2Energy, h1, mul_comm]
    · rw [conversionEnergy2Frequency, h1]; field_simp

/-- C69: the three wavelength conversions are self-inverse on nonzero values. -/
theorem C69_self_inverse (K : PhysConst) (v : ℝ) (hv : v ≠ 0) :
    (conversionWavelengthEnergy K v).bind (conversionWavelengthEnergy K) = some v ∧
    (conversionWavelengthFrequency K v).bind (conversionWavelengthFrequency K) = some v ∧
    (conversionWavelengthWavenumber v).bind conversionWavelengthWavenumber = some v := by
  obtain ⟨E, f, s, h1, h2, h3, hp⟩ := C69_photon K v hv
  obtain ⟨e1, e2, e3⟩ := C69_back K v E f s hp
  rw [h1, h2, h3]
  exact ⟨e1, e2, e3⟩

/-- C69: zero has no counterpart. -/
theorem C69_zero (K : PhysConst) :
    conversionWavelengthEnergy K 0 = none ∧ conversionWavelengthFrequency K 0 = none ∧ conversionWavelengthWavenumber 0 = none := by
  simp [conversionWavelengthEnergy, conversionWavelengthFrequency, conversionWavelengthWavenumber, divN]

/-- A photon: 10 nm wavelength where light travels 2 m/s and the Planck constant is 3. -/
example : Photon 2 3 10 (6e8) (2e8) (1e6) := ⟨by norm_num, by norm_num, by norm_num⟩

end PyElli
