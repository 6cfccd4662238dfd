import Verif.Model.Cody
import Verif.Props.Passivity
import Verif.Props.Kkr
import Verif.Props.Table
import Verif.Props.DispersionDoc

/-! # The complete Cody-Lorentz model: C49 (passivity), C56 (Kramers-Kronig relation) -/

namespace PyElli

open Complex

lemma codyNodes_length : codyNodes.length = 1000 := by simp [codyNodes]

lemma codyNodes_get (j : ℕ) (hj : j < codyNodes.length) : codyNodes[j]? = some ((50 : ℝ) + j * (9950 / 999)) := by
  rw [codyNodes_length] at hj
  simp [codyNodes, List.getElem?_map, List.getElem?_range hj]

lemma codyNodes_pos : ∀ l ∈ codyNodes, 0 < l := by
  intro l hl
  simp only [codyNodes, List.mem_map] at hl
  obtain ⟨i, -, rfl⟩ := hl
  positivity

lemma codyNodes_nodup : codyNodes.Nodup := by
  unfold codyNodes
  refine List.Nodup.map ?_ List.nodup_range
  intro i j h
  have : (i : ℝ) = j := by
    have h' : (50 : ℝ) + i * (9950 / 999) = 50 + j * (9950 / 999) := h
    linarith
  exact_mod_cast this

lemma codyNodes_first : (50 : ℝ) ∈ codyNodes := by
  simp only [codyNodes, List.mem_map, List.mem_range]
  exact ⟨0, by norm_num, by norm_num⟩

lemma codyNodes_last : (10000 : ℝ) ∈ codyNodes := by
  simp only [codyNodes, List.mem_map, List.mem_range]
  exact ⟨999, by norm_num, by norm_num⟩

lemma codyNodes_range : ∀ l ∈ codyNodes, 50 ≤ l ∧ l ≤ 10000 := by
  intro l hl
  simp only [codyNodes, List.mem_map, List.mem_range] at hl
  obtain ⟨i, hi, rfl⟩ := hl
  have : (i : ℝ) ≤ 999 := by exact_mod_cast (by omega : i ≤ 999)
  constructor
  · have : (0 : ℝ) ≤ i * (9950 / 999) := by positivity
    linarith
  · nlinarith

lemma allSome_map {α β : Type} (l : List α) (f : α → Option β) (g : α → β) (h : ∀ x ∈ l, f x = some (g x)) :
    allSome (l.map f) = some (l.map g) := by
  induction l with
  | nil => rfl
  | cons a l ih =>
    simp only [List.map_cons, allSome, h a List.mem_cons_self, ih fun x hx => h x (List.mem_cons_of_mem _ hx), Option.bind_some, Option.map_some]

/-- All seven parameters are there and no denominator of the absorption vanishes. -/
structure CodyOk (s : Dict ℝ) : Prop where
  eg : ∃ v, s.get "Eg" = some v
  a : ∃ v, s.get "A" = some v
  et : ∃ v, s.get "Et" = some v ∧ v ≠ 0
  gamma : ∃ v, s.get "gamma" = some v ∧ v ≠ 0
  ep : ∃ v, s.get "Ep" = some v ∧ v ≠ 0
  e0 : ∃ v, s.get "E0" = some v
  eu : ∃ v, s.get "Eu" = some v ∧ v ≠ 0

lemma codyEps2_some {s : Dict ℝ} (h : CodyOk s) {E : ℝ} (hE : E ≠ 0) : ∃ v, codyEps2 s E = some v := by
  obtain ⟨⟨Eg, h1⟩, ⟨A, h2⟩, ⟨Et, h3, h3'⟩, ⟨g, h4, h4'⟩, ⟨Ep, h5, h5'⟩, ⟨E0, h6⟩, ⟨Eu, h7, h7'⟩⟩ := h
  have d1 : ∀ x : ℝ, (x - Eg) ^ 2 + Ep ^ 2 ≠ 0 := fun x => by positivity
  have d2 : ∀ x : ℝ, x ≠ 0 → (x ^ 2 - E0 ^ 2) ^ 2 + g ^ 2 * x ^ 2 ≠ 0 := fun x hx => by positivity
  simp only [codyEps2, h1, h2, h3, h4, h5, h6, h7, Option.bind_eq_bind, Option.bind_some, codyG, codyL, divN_ne (d1 _), divN_ne (d2 _ h3'),
    divN_ne (d2 _ hE), divN_ne hE, divN_ne h7', Option.some.injEq, exists_eq']

/-- Absorption on the photon energy of a wavelength. -/
noncomputable def absorb (K : PhysConst) (s : Dict ℝ) (l : ℝ) : ℝ := (codyEps2 s (photon K l)).getD 0

lemma absorb_some (K : PhysConst) {s : Dict ℝ} (h : CodyOk s) {l : ℝ} (hl : l ≠ 0) :
    (conversionWavelengthEnergy K l).bind (codyEps2 s) = some (absorb K s l) := by
  rw [energy_photon K hl, Option.bind_some]
  obtain ⟨v, hv⟩ := codyEps2_some h (photon_ne K hl)
  simp [absorb, hv]

/-- The real part on the grid. -/
lemma cody_eps1 (t : List ℝ) (ht : t.length = codyNodes.length) :
    calcKkr .im2reReciprocal t codyNodes = .ok ((List.range 1000).map fun i =>
      some (kkrInterval (fun j => codyNodes.getD j 0) i / (9950 / 999) *
        Spec.maclaurin (docKernel .im2reReciprocal) (fun j => t.getD j 0) (fun j => codyNodes.getD j 0) (9950 / 999) 1000 i)) := by
  have hb : ¬ codyNodes.length < 2 := by rw [codyNodes_length]; norm_num
  unfold calcKkr
  rw [if_neg (by simpa using ht), if_neg hb, codyNodes_length]
  refine congrArg Except.ok ?_
  refine List.map_congr_left fun i hi => ?_
  rw [List.mem_range] at hi
  refine kkrPoint_equidistant .im2reReciprocal _ _ 50 (9950 / 999) (by norm_num) (by norm_num) 1000 i ?_ hi
  intro j hj
  rw [List.getD_eq_getElem?_getD, codyNodes_get j (by rw [codyNodes_length]; exact hj)]
  rfl

lemma chord_im {p q : ℝ × ℂ} (hp : p.2.im = 0) (hq : q.2.im = 0) (x : ℝ) : (Spec.chord p q x).im = 0 := by
  obtain ⟨a, u, v⟩ := p
  obtain ⟨b, w, y⟩ := q
  simp only at hp hq
  subst hp hq
  have e : Spec.chord (a, (⟨u, 0⟩ : ℂ)) (b, (⟨w, 0⟩ : ℂ)) x = ((Spec.chord (a, ((u : ℝ) : ℂ)) (b, ((w : ℝ) : ℂ)) x) : ℂ) := rfl
  rw [e]
  unfold Spec.chord
  simp only
  norm_cast

lemma codyLorentz_unfold (K : PhysConst) (s : Dict ℝ) (lbda : ℝ) {e2 : List ℝ} {o : List (Option ℝ)} {e1 : List ℝ}
    (h1 : allSome (codyNodes.map fun l => (conversionWavelengthEnergy K l).bind (codyEps2 s)) = some e2)
    (h2 : calcKkr .im2reReciprocal e2 codyNodes = .ok o) (h3 : allSome o = some e1) :
    codyLorentz K s lbda = (mkTable codyNodes (e1.map Complex.ofReal)).bind fun t =>
        (t.value lbda).map fun re =>
          re.bind fun re => ((conversionWavelengthEnergy K lbda).bind (codyEps2 s)).map fun im : ℝ => re + I * (im : ℂ) := by
  unfold codyLorentz
  rw [h1]
  simp only
  rw [h2]
  simp only [Except.bind]
  rw [h3]

/-- The whole function, with the table of real parts written out. -/
lemma codyLorentz_eq (K : PhysConst) {s : Dict ℝ} (h : CodyOk s) (lbda : ℝ) :
    ∃ eps1 : List ℝ, eps1.length = codyNodes.length ∧
      (∀ i < 1000, eps1[i]? = some (kkrInterval (fun j => codyNodes.getD j 0) i / (9950 / 999) *
        Spec.maclaurin (docKernel .im2reReciprocal) (fun j => (codyNodes.map (absorb K s)).getD j 0) (fun j => codyNodes.getD j 0) (9950 / 999) 1000 i)) ∧
      codyLorentz K s lbda = (mkTable codyNodes (eps1.map Complex.ofReal)).bind fun t =>
        (t.value lbda).map fun re =>
          re.bind fun re => ((conversionWavelengthEnergy K lbda).bind (codyEps2 s)).map fun im : ℝ => re + I * (im : ℂ) := by
  have h1 := allSome_map codyNodes (fun l => (conversionWavelengthEnergy K l).bind (codyEps2 s)) (absorb K s)
    fun l hl => absorb_some K h (codyNodes_pos l hl).ne'
  have h2 := cody_eps1 (codyNodes.map (absorb K s)) (by simp)
  have h3 := allSome_map (List.range 1000) (fun i => some (kkrInterval (fun j => codyNodes.getD j 0) i / (9950 / 999) *
        Spec.maclaurin (docKernel .im2reReciprocal) (fun j => (codyNodes.map (absorb K s)).getD j 0) (fun j => codyNodes.getD j 0) (9950 / 999) 1000 i)) _
        (fun i _ => rfl)
  refine ⟨(List.range 1000).map fun i => kkrInterval (fun j => codyNodes.getD j 0) i / (9950 / 999) *
        Spec.maclaurin (docKernel .im2reReciprocal) (fun j => (codyNodes.map (absorb K s)).getD j 0) (fun j => codyNodes.getD j 0) (9950 / 999) 1000 i, ?_, ?_, ?_⟩
  rotate_left 2
  · exact codyLorentz_unfold K s lbda h1 h2 h3
  · rw [codyNodes_length]; simp
  · intro i hi
    simp [List.getElem?_map, List.getElem?_range hi]

/-- C49: the complete Cody-Lorentz dispersion. For wavelengths from 50 nm to 10 µm and nonnegative amplitude, resonance energy, broadening and tail energy
it returns a number, whose imaginary part is the absorption formula and never negative; for all other wavelengths it raises `ValueError`. -/
theorem C49_cody_lorentz (K : PhysConst) (s : Dict ℝ) (h : CodyOk s) (hA : NonnegAt s "A") (h0 : NonnegAt s "E0") (hg : NonnegAt s "gamma")
    (ht : NonnegAt s "Et") (lbda : ℝ) :
    (50 ≤ lbda → lbda ≤ 10000 → ∃ v, codyLorentz K s lbda = .ok (some v) ∧ codyEps2 s (photon K lbda) = some v.im ∧ 0 ≤ v.im) ∧
    (lbda < 50 ∨ 10000 < lbda → codyLorentz K s lbda = .error .valueError) := by
  obtain ⟨eps1, hlen, -, hc⟩ := codyLorentz_eq K h lbda
  have hv : (eps1.map Complex.ofReal).length = codyNodes.length := by rw [List.length_map, hlen]
  constructor
  · intro hlo hhi
    obtain ⟨t, hT, p, hp, q, hq, -, -, -, -, hval⟩ := C53_chord codyNodes (eps1.map Complex.ofReal) hv (by rw [codyNodes_length]; norm_num) codyNodes_nodup lbda
      ⟨50, codyNodes_first, hlo⟩ ⟨10000, codyNodes_last, hhi⟩
    have him : ∀ r ∈ codyNodes.zip (eps1.map Complex.ofReal), r.2.im = 0 := by
      intro r hr
      have := (List.of_mem_zip (a := r.1) (b := r.2) hr).2
      obtain ⟨x, -, hx⟩ := List.mem_map.1 this
      rw [← hx]
      rfl
    have hl : lbda ≠ 0 := by linarith
    have hE : 0 < photon K lbda := by
      have := K.c_pos
      have := K.h_pos
      have : 0 < lbda := by linarith
      unfold photon
      positivity
    obtain ⟨e2, he2⟩ := codyEps2_some h hE.ne'
    refine ⟨Spec.chord p q lbda + I * (e2 : ℂ), ?_, ?_, ?_⟩
    · rw [hc, hT]
      change (t.value lbda).map _ = _
      rw [hval, energy_photon K hl, Option.bind_some, he2]
      rfl
    · rw [he2]
      simp [chord_im (him p hp) (him q hq)]
    · have := C49_cody_eps2 s _ hE hA h0 hg ht e2 he2
      simpa [chord_im (him p hp) (him q hq)] using this
  · intro hout
    have hne : codyNodes ≠ [] := List.ne_nil_of_mem codyNodes_first
    have hT := mkTable_ok codyNodes (eps1.map Complex.ofReal) hne hv
    have hr := (C53_range codyNodes _ _ hT lbda)
    rw [hc, hT]
    change (Table.value _ lbda).map _ = _
    rw [hr.1.2 ?_]
    · rfl
    · rcases hout with ho | ho
      · exact Or.inl fun l hl => lt_of_lt_of_le ho (codyNodes_range l hl).1
      · exact Or.inr fun l hl => lt_of_le_of_lt (codyNodes_range l hl).2 ho

/-- C56: on the wavelengths of its internal grid, except the first, the real part of the Cody-Lorentz dispersion is Maclaurin's formula for the
Kramers-Kronig integral of its own absorption, with the grid spacing as weight. -/
theorem C56_cody_lorentz (K : PhysConst) (s : Dict ℝ) (h : CodyOk s) (i : ℕ) (hi0 : 1 ≤ i) (hi : i < 1000) :
    ∃ v, codyLorentz K s (50 + i * (9950 / 999)) = .ok (some v) ∧
      v.re = Spec.maclaurin (docKernel .im2reReciprocal) (fun j => if j < 1000 then absorb K s (50 + j * (9950 / 999)) else 0)
        (fun j => if j < 1000 then 50 + (j : ℝ) * (9950 / 999) else 0) (9950 / 999) 1000 i := by
  obtain ⟨eps1, hlen, hget, hc⟩ := codyLorentz_eq K h (50 + i * (9950 / 999))
  have hv : (eps1.map Complex.ofReal).length = codyNodes.length := by rw [List.length_map, hlen]
  have hd : ∀ j, codyNodes.getD j 0 = if j < 1000 then 50 + (j : ℝ) * (9950 / 999) else 0 := by
    intro j
    rw [List.getD_eq_getElem?_getD]
    split_ifs with hj
    · rw [codyNodes_get j (by rw [codyNodes_length]; exact hj)]; rfl
    · rw [List.getElem?_eq_none (by rw [codyNodes_length]; omega)]; rfl
  have he : ∀ j, (codyNodes.map (absorb K s)).getD j 0 = if j < 1000 then absorb K s (50 + j * (9950 / 999)) else 0 := by
    intro j
    rw [List.getD_eq_getElem?_getD, List.getElem?_map]
    split_ifs with hj
    · rw [codyNodes_get j (by rw [codyNodes_length]; exact hj)]; rfl
    · rw [List.getElem?_eq_none (by rw [codyNodes_length]; omega)]; rfl
  have hI : kkrInterval (fun j => codyNodes.getD j 0) i = 9950 / 999 := by
    unfold kkrInterval
    rw [if_neg (by omega)]
    simp only [hd]
    rw [if_pos hi, if_pos (by omega)]
    have : ((i - 1 : ℕ) : ℝ) = (i : ℝ) - 1 := by push_cast [hi0]; ring
    rw [this]; ring
  have hgi := hget i hi
  rw [hI, div_self (by norm_num), one_mul] at hgi
  simp only [hd, he] at hgi
  set m := Spec.maclaurin (docKernel .im2reReciprocal) (fun j => if j < 1000 then absorb K s (50 + j * (9950 / 999)) else 0)
        (fun j => if j < 1000 then 50 + (j : ℝ) * (9950 / 999) else 0) (9950 / 999) 1000 i with hm
  have hz : ((50 + i * (9950 / 999) : ℝ), (m : ℂ)) ∈ codyNodes.zip (eps1.map Complex.ofReal) := by
    refine List.mem_of_getElem? (i := i) ?_
    rw [List.getElem?_zip_eq_some]
    refine ⟨codyNodes_get i (by rw [codyNodes_length]; exact hi), ?_⟩
    rw [List.getElem?_map, hgi]
    rfl
  obtain ⟨t, hT, hval⟩ := C53_node codyNodes (eps1.map Complex.ofReal) hv (by rw [codyNodes_length]; norm_num) codyNodes_nodup _ hz
  have hl : (50 + i * (9950 / 999) : ℝ) ≠ 0 := by positivity
  refine ⟨(m : ℂ) + I * (absorb K s (50 + i * (9950 / 999)) : ℂ), ?_, by simp⟩
  rw [hc, hT]
  simp only [Except.bind]
  rw [hval, absorb_some K h hl]
  rfl

/-- The documented parameters of the template satisfy the conditions. -/
example : CodyOk [("Eg", 1.6), ("A", 100), ("Et", 1.8), ("gamma", 2.4), ("Ep", 0.8), ("E0", 3.6), ("Eu", 0.05)] := by
  refine ⟨⟨1.6, ?_⟩, ⟨100, ?_⟩, ⟨1.8, ?_, ?_⟩, ⟨2.4, ?_, ?_⟩, ⟨0.8, ?_, ?_⟩, ⟨3.6, ?_⟩, ⟨0.05, ?_, ?_⟩⟩
  all_goals first | (simp [Dict.get]; done) | norm_num [Dict.get]

/-- C49: the index of `CauchyUrbach` has a nonnegative extinction coefficient exactly if the amplitude of the tail is nonnegative, so the
dielectric function `n²` absorbs wherever the real part of the index is nonnegative. -/
theorem C49_cauchy_urbach (K : PhysConst) (s : Dict ℝ) (D lbda : ℝ) (h3 : s.get "D" = some D) (v : ℂ) (hv : cauchyUrbachIndex K s lbda = some v) :
    (0 ≤ v.im ↔ 0 ≤ D) ∧ (0 ≤ D → 0 ≤ v.re → 0 ≤ (v ^ 2).im) := by
  simp only [cauchyUrbachIndex, h3, Option.bind_eq_bind, Option.bind_some, Option.bind_eq_some_iff] at hv
  obtain ⟨E, -, n0, -, B, -, C, -, Eg, -, Eu, -, x, -, hv⟩ := hv
  obtain rfl := Option.some.inj hv
  have hx := Real.exp_pos x
  generalize n0 + B * E ^ 2 + C * E ^ 4 = r
  have him : (((r : ℝ) : ℂ) + I * ((D * Real.exp x : ℝ) : ℂ)).im = D * Real.exp x := by
    rw [add_im, ofReal_im, mul_im, I_re, I_im, ofReal_re, ofReal_im]; ring
  have hre : (((r : ℝ) : ℂ) + I * ((D * Real.exp x : ℝ) : ℂ)).re = r := by
    rw [add_re, ofReal_re, mul_re, I_re, I_im, ofReal_re, ofReal_im]; ring
  constructor
  · rw [him]
    constructor
    · intro h
      exact nonneg_of_mul_nonneg_left h hx
    · intro h
      positivity
  · intro hD hr
    rw [pow_two, mul_im, him, hre] at *
    have := mul_nonneg hr (mul_nonneg hD hx.le)
    linarith

example : ∃ v, cauchyUrbachIndex ⟨1, 1, 1, one_pos, one_pos, one_pos⟩ [("n0", 1.5), ("B", 0.005), ("C", 0), ("D", 0.1), ("Eg", 2), ("Eu", 0.5)] 500 = some v := by
  refine ⟨_, C84_cauchy_urbach _ _ 1.5 0.005 0 0.1 2 0.5 500 (by norm_num) (by norm_num) ?_ ?_ ?_ ?_ ?_ ?_⟩ <;> simp [Dict.get]

end PyElli
