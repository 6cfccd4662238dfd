import Verif.Props.DispArray
import Verif.Model.Tanguy
import Verif.Lemmas.Sqrt

/-! # The array code of the dispersions computes the formulas of `Model/Dispersion.lean` (C113) -/

namespace Spec

open PyElli PyElli.Nd

/-- `φ` embeds the complex numbers in the numbers of the arithmetic, and the operations are exact on them wherever they are defined. -/
structure Exact {V : Type} [Arith V] [Special V] (K : PhysConst) (dawsn : ℝ → ℝ) (φ : ℂ → V) : Prop where
  num : ∀ q : ℚ, Arith.num q = φ q
  I : Arith.I = φ Complex.I
  pi : Arith.pi = φ Real.pi
  add : ∀ a b, Arith.add (φ a) (φ b) = φ (a + b)
  sub : ∀ a b, Arith.sub (φ a) (φ b) = φ (a - b)
  mul : ∀ a b, Arith.mul (φ a) (φ b) = φ (a * b)
  div : ∀ a b, b ≠ 0 → Arith.div (φ a) (φ b) = φ (a / b)
  neg : ∀ a, Arith.neg (φ a) = φ (-a)
  powNat : ∀ a (n : ℕ), Arith.pow (φ a) (φ n) = φ (a ^ n)
  powReal : ∀ x e p : ℝ, powN x e = some p → Arith.pow (φ x) (φ e) = φ p
  powComplex : ∀ (z : ℂ) (e : ℝ), z ≠ 0 → Arith.pow (φ z) (φ e) = φ (z ^ (e : ℂ))
  sqrt : ∀ a, Arith.sqrt (φ a) = φ (Complex.sqrt a)
  exp : ∀ a, Arith.exp (φ a) = φ (Complex.exp a)
  arctan : ∀ a, Arith.arctan (φ a) = φ (Complex.arctan a)
  abs : ∀ x : ℝ, Arith.abs (φ x) = φ (|x| : ℝ)
  eq : ∀ a b, Arith.eq (φ a) (φ b) = true ↔ a = b
  log : ∀ a, a ≠ 0 → Special.log (φ a) = φ (Complex.log a)
  cot : ∀ a, Complex.sin a ≠ 0 → Arith.div (φ 1) (Special.tan (φ a)) = φ (Complex.cos a / Complex.sin a)
  gamma : ∀ a : ℂ, (∀ m : ℕ, a ≠ -m) → Special.gamma (φ a) = φ (Complex.Gamma a)
  digamma : ∀ a : ℂ, (∀ m : ℕ, a ≠ -m) → Special.digamma (φ a) = φ (Complex.digamma a)
  dawsn : ∀ x : ℝ, Special.dawsn (φ x) = φ (dawsn x)
  heaviside : ∀ x v : ℝ, Special.heaviside (φ x) (φ v) = φ (heaviside x v)
  c : Special.c = φ K.c
  h : Special.h = φ K.h
  eps0 : Special.eps0 = φ K.eps0

/-- The parameters `s'` of the array code are those of the dictionary `s`. -/
def SamePars {V : Type} (φ : ℂ → V) (s : Dict ℝ) (s' : Pars V) : Prop := ∀ k v, s.get k = some v → s' k = φ v

end Spec

namespace PyElli.Nd

open PyElli Spec

variable {V : Type} [Arith V] [Special V] {K : PhysConst} {dawsn : ℝ → ℝ} {φ : ℂ → V}

section Closure

variable (hx : Exact K dawsn φ)
include hx

lemma ex_lit (q : ℚ) : (lit q : Out V) = scalar (φ q) := congrArg scalar (hx.num q)
lemma ex_imag : (imagUnit : Out V) = scalar (φ Complex.I) := congrArg scalar hx.I
lemma ex_pi : (scalar Arith.pi : Out V) = scalar (φ Real.pi) := congrArg scalar hx.pi
lemma ex_add {o₁ o₂ : Out V} {a b : ℂ} (h₁ : o₁ = scalar (φ a)) (h₂ : o₂ = scalar (φ b)) : o₁ + o₂ = scalar (φ (a + b)) := by
  rw [h₁, h₂, ← hx.add]; exact op2_scalar _ _ _
lemma ex_sub {o₁ o₂ : Out V} {a b : ℂ} (h₁ : o₁ = scalar (φ a)) (h₂ : o₂ = scalar (φ b)) : o₁ - o₂ = scalar (φ (a - b)) := by
  rw [h₁, h₂, ← hx.sub]; exact op2_scalar _ _ _
lemma ex_mul {o₁ o₂ : Out V} {a b : ℂ} (h₁ : o₁ = scalar (φ a)) (h₂ : o₂ = scalar (φ b)) : o₁ * o₂ = scalar (φ (a * b)) := by
  rw [h₁, h₂, ← hx.mul]; exact op2_scalar _ _ _
lemma ex_div {o₁ o₂ : Out V} {a b : ℂ} (h₁ : o₁ = scalar (φ a)) (h₂ : o₂ = scalar (φ b)) (hb : b ≠ 0) : o₁ / o₂ = scalar (φ (a / b)) := by
  rw [h₁, h₂, ← hx.div _ _ hb]; exact op2_scalar _ _ _
lemma ex_neg {o : Out V} {a : ℂ} (h : o = scalar (φ a)) : -o = scalar (φ (-a)) := by
  rw [h, ← hx.neg]; rfl
lemma ex_pow {o : Out V} {a : ℂ} (h : o = scalar (φ a)) (n : ℕ) (q : ℚ) (hq : q = n) : powLit o q = scalar (φ (a ^ n)) := by
  have h2 : (lit q : Out V) = scalar (φ (n : ℂ)) := by
    rw [ex_lit hx, hq]
    congr 2
  unfold powLit
  rw [h2, h, op2_scalar, hx.powNat]
lemma ex_pow2 {o : Out V} {a : ℂ} (h : o = scalar (φ a)) : powLit o 2 = scalar (φ (a ^ 2)) := ex_pow hx h 2 2 (by norm_num)
lemma ex_pow4 {o : Out V} {a : ℂ} (h : o = scalar (φ a)) : powLit o 4 = scalar (φ (a ^ 4)) := ex_pow hx h 4 4 (by norm_num)
lemma ex_sqrt {o : Out V} {a : ℂ} (h : o = scalar (φ a)) : op1 Arith.sqrt o = scalar (φ (Complex.sqrt a)) := by rw [h, ← hx.sqrt]; rfl
lemma ex_exp {o : Out V} {a : ℂ} (h : o = scalar (φ a)) : op1 Arith.exp o = scalar (φ (Complex.exp a)) := by rw [h, ← hx.exp]; rfl
lemma ex_arctan {o : Out V} {a : ℂ} (h : o = scalar (φ a)) : op1 Arith.arctan o = scalar (φ (Complex.arctan a)) := by rw [h, ← hx.arctan]; rfl
lemma ex_log {o : Out V} {a : ℂ} (h : o = scalar (φ a)) (ha : a ≠ 0) : op1 Special.log o = scalar (φ (Complex.log a)) := by
  rw [h, ← hx.log _ ha]; rfl

lemma ex_energy {lbda e : ℝ} (h : conversionWavelengthEnergy K lbda = some e) : energyArr (scalar (φ lbda)) = scalar (φ e) := by
  unfold conversionWavelengthEnergy divN at h
  split_ifs at h with h0
  have he : e = K.c * K.h / (lbda * 1e-9) := by simpa using h.symm
  unfold energyArr
  have h1 : (scalar (Special.c ⊗ Special.h) : Out V) = scalar (φ (K.c * K.h)) := by rw [hx.c, hx.h]; exact congrArg scalar (hx.mul _ _)
  have h2 : (lbda : ℂ) * ((1 / 1000000000 : ℚ) : ℂ) = ((lbda * 1e-9 : ℝ) : ℂ) := by push_cast; norm_num
  rw [ex_div hx h1 (ex_mul hx rfl (ex_lit hx _)) (by rw [h2]; exact_mod_cast h0), h2, he]
  push_cast
  rfl

end Closure

lemma ex_cast {o : Out V} {a b : ℂ} (h : o = scalar (φ a)) (hab : a = b) : o = scalar (φ b) := hab ▸ h

omit [Arith V] [Special V] in
lemma divN_some {R : Type} [DivisionRing R] {a b c : R} (h : divN a b = some c) : b ≠ 0 ∧ c = a / b := by
  unfold divN at h
  split_ifs at h with h0
  exact ⟨h0, by simpa using h.symm⟩

omit [Arith V] [Special V] in
lemma bind_some {α β : Type} {x : Option α} {f : α → Option β} {w : β} (h : (x >>= f) = some w) : ∃ a, x = some a ∧ f a = some w :=
  Option.bind_eq_some_iff.1 h

omit [Arith V] [Special V] in
lemma toC_some {x : Option ℝ} {w : ℂ} (h : toC x = some w) : ∃ r : ℝ, x = some r ∧ w = r := by
  rcases x with _ | r
  · simp [toC] at h
  · exact ⟨r, rfl, by simpa [toC] using h.symm⟩

/-- Computes the value of an expression built from the operations above; leaves the equality with the value and the divisors. -/
macro "ex" h:term : tactic => `(tactic| (apply ex_cast; on_goal 1 => repeat' with_reducible first
  | rfl
  | exact ex_lit $h _
  | exact ex_imag $h
  | exact ex_pi $h
  | assumption
  | apply ex_add $h
  | apply ex_sub $h
  | apply ex_mul $h
  | apply ex_div $h
  | apply ex_neg $h
  | apply ex_pow2 $h
  | apply ex_pow4 $h
  | apply ex_sqrt $h
  | apply ex_exp $h
  | apply ex_arctan $h
  | apply ex_log $h))

/-! ## The formulas -/

/-- `Cauchy` -/
theorem values_cauchy (hx : Exact K dawsn φ) {s : Dict ℝ} {s' : Pars V} (hs : SamePars φ s s') {lbda : ℝ} {w : ℂ}
    (h : cauchyIndex s lbda = some w) : cauchyArr s' (scalar (φ lbda)) = scalar (φ w) := by
  simp only [cauchyIndex, Option.bind_eq_bind, Option.bind_eq_some_iff, Option.some.injEq] at h
  obtain ⟨n0, h0, n1', h1', n1, h1, n2', h2', n2, h2, k0, g0, k1', g1', k1, g1, k2', g2', k2, g2, rfl⟩ := h
  obtain ⟨z1, rfl⟩ := divN_some h1
  obtain ⟨z2, rfl⟩ := divN_some h2
  obtain ⟨-, rfl⟩ := divN_some g1
  obtain ⟨-, rfl⟩ := divN_some g2
  have z1 : (lbda : ℂ) ^ 2 ≠ 0 := by exact_mod_cast z1
  have z2 : (lbda : ℂ) ^ 4 ≠ 0 := by exact_mod_cast z2
  unfold cauchyArr
  rw [hs _ _ h0, hs _ _ h1', hs _ _ h2', hs _ _ g0, hs _ _ g1', hs _ _ g2']
  ex hx
  push_cast
  norm_num

/-- Sums over the sets of repeated parameters -/
lemma ex_pySum (hx : Exact K dawsn φ) {f : Dict ℝ → Option ℂ} {F : Pars V → Out V} {rep : List (Dict ℝ)} {rep' : List (Pars V)}
    (hr : List.Forall₂ (SamePars φ) rep rep') (hf : ∀ c c' w, SamePars φ c c' → f c = some w → F c' = scalar (φ w)) {t : ℂ}
    (h : sumN (rep.map f) = some t) : pySum F rep' = scalar (φ t) := by
  have key : ∀ (a : ℂ) (t : ℂ), sumN (rep.map f) = some t → rep'.foldl (fun acc c => acc + F c) (scalar (φ a)) = scalar (φ (a + t)) := by
    clear h t
    induction hr with
    | nil =>
      intro a t h
      simp only [List.map_nil, sumN, Option.some.injEq] at h
      simp [← h]
    | @cons c c' rep rep' hc _ ih =>
      intro a t h
      rcases hfc : f c with _ | w
      · simp [sumN, hfc] at h
      · simp only [List.map_cons, hfc, sumN, Option.map_eq_some_iff] at h
        obtain ⟨t', h1, rfl⟩ := h
        rw [List.foldl_cons, ex_add hx rfl (hf c c' w hc hfc), ih _ _ h1, add_assoc]
  have := key 0 t h
  rw [zero_add] at this
  rw [← this]
  unfold pySum
  congr 1
  exact ex_cast (ex_lit hx 0) (by simp)

lemma ex_powReal (hx : Exact K dawsn φ) {x e p : ℝ} (h : powN x e = some p) : op2 Arith.pow (scalar (φ x)) (scalar (φ e)) = scalar (φ p) := by
  rw [op2_scalar, hx.powReal _ _ _ h]

lemma values_power (hx : Exact K dawsn φ) {lbda : ℝ} (c : Dict ℝ) (c' : Pars V) (w : ℂ) (hc : SamePars φ c c') (h : powerTerm lbda c = some w) :
    scalar (c' "f") * op2 Arith.pow (scalar (φ lbda)) (scalar (c' "e")) = scalar (φ w) := by
  simp only [powerTerm, Option.bind_eq_bind, Option.bind_eq_some_iff, Option.some.injEq] at h
  obtain ⟨e, he, p, hp, f, hf, rfl⟩ := h
  rw [hc _ _ he, hc _ _ hf, ex_powReal hx hp]
  ex hx
  push_cast
  rfl

/-- `CauchyCustomExponent` -/
theorem values_cauchyCustom (hx : Exact K dawsn φ) {s : Dict ℝ} {s' : Pars V} (hs : SamePars φ s s') {rep : List (Dict ℝ)} {rep' : List (Pars V)}
    (hr : List.Forall₂ (SamePars φ) rep rep') {lbda : ℝ} {w : ℂ} (h : cauchyCustomIndex s rep lbda = some w) :
    cauchyCustomArr s' rep' (scalar (φ lbda)) = scalar (φ w) := by
  simp only [cauchyCustomIndex, Option.bind_eq_bind, Option.bind_eq_some_iff, Option.some.injEq] at h
  obtain ⟨n0, h0, t, ht, rfl⟩ := h
  unfold cauchyCustomArr
  rw [hs _ _ h0]
  exact ex_add hx rfl (ex_pySum hx hr (values_power hx) ht)

/-- `Polynomial` -/
theorem values_polynomial (hx : Exact K dawsn φ) {s : Dict ℝ} {s' : Pars V} (hs : SamePars φ s s') {rep : List (Dict ℝ)} {rep' : List (Pars V)}
    (hr : List.Forall₂ (SamePars φ) rep rep') {lbda : ℝ} {w : ℂ} (h : polynomial s rep lbda = some w) :
    polynomialArr s' rep' (scalar (φ lbda)) = scalar (φ w) := by
  simp only [polynomial, Option.bind_eq_bind, Option.bind_eq_some_iff, Option.some.injEq] at h
  obtain ⟨n0, h0, t, ht, rfl⟩ := h
  unfold polynomialArr
  rw [hs _ _ h0]
  exact ex_add hx rfl (ex_pySum hx hr (values_power hx) ht)

/-- `CauchyUrbach` -/
theorem values_cauchyUrbach (hx : Exact K dawsn φ) {s : Dict ℝ} {s' : Pars V} (hs : SamePars φ s s') {lbda : ℝ} {w : ℂ}
    (h : cauchyUrbachIndex K s lbda = some w) : cauchyUrbachArr s' (scalar (φ lbda)) = scalar (φ w) := by
  simp only [cauchyUrbachIndex, Option.bind_eq_bind, Option.bind_eq_some_iff, Option.some.injEq] at h
  obtain ⟨energy, he, n0, h0, B, hB, C, hC, D, hD, Eg, hEg, Eu, hEu, x, hq, rfl⟩ := h
  obtain ⟨z, rfl⟩ := divN_some hq
  have z : (Eu : ℂ) ≠ 0 := by exact_mod_cast z
  unfold cauchyUrbachArr
  dsimp only
  rw [hs _ _ h0, hs _ _ hB, hs _ _ hC, hs _ _ hD, hs _ _ hEg, hs _ _ hEu, ex_energy hx he]
  ex hx
  push_cast
  ring

/-- `ConstantRefractiveIndex` and `EpsilonInf` -/
theorem values_constants {s : Dict ℝ} {s' : Pars V} (hs : SamePars φ s s') {lbda : ℝ} {w : ℂ} :
    (constantIndex s lbda = some w → constantIndexArr s' (scalar (φ lbda)) = scalar (φ w)) ∧
    (epsilonInf s lbda = some w → epsilonInfArr s' (scalar (φ lbda)) = scalar (φ w)) := by
  constructor <;> intro h
  · obtain ⟨n, hn, rfl⟩ := toC_some h
    rw [constantIndexArr, hs _ _ hn]
  · obtain ⟨n, hn, rfl⟩ := toC_some h
    rw [epsilonInfArr, hs _ _ hn]

lemma ex_micro (hx : Exact K dawsn φ) (lbda : ℝ) : (scalar (φ lbda) / lit 1000 : Out V) = scalar (φ ((lbda / 1e3 : ℝ) : ℂ)) := by
  ex hx
  · norm_num
  · push_cast
    norm_num

/-- `Sellmeier` -/
theorem values_sellmeier (hx : Exact K dawsn φ) {rep : List (Dict ℝ)} {rep' : List (Pars V)}
    (hr : List.Forall₂ (SamePars φ) rep rep') {lbda : ℝ} {w : ℂ} (h : sellmeier rep lbda = some w) :
    sellmeierArr rep' (scalar (φ lbda)) = scalar (φ w) := by
  simp only [sellmeier, Option.bind_eq_bind, Option.bind_eq_some_iff, Option.some.injEq] at h
  obtain ⟨t, ht, rfl⟩ := h
  unfold sellmeierArr
  dsimp only
  rw [ex_micro hx]
  refine ex_cast (ex_add hx (ex_lit hx 1) (ex_pySum hx hr ?_ ht)) (by simp)
  intro c c' w hc h
  simp only [sellmeierTerm, Option.bind_eq_bind, Option.bind_eq_some_iff] at h
  obtain ⟨A, hA, B, hB, h⟩ := h
  obtain ⟨q, hq, rfl⟩ := toC_some h
  obtain ⟨z, rfl⟩ := divN_some hq
  generalize lbda / 1e3 = l at *
  have z : (l : ℂ) ^ 2 - B ≠ 0 := by exact_mod_cast z
  rw [hc _ _ hA, hc _ _ hB]
  ex hx
  push_cast
  rfl

/-- `SellmeierCustomExponent` -/
theorem values_sellmeierCustom (hx : Exact K dawsn φ) {rep : List (Dict ℝ)} {rep' : List (Pars V)}
    (hr : List.Forall₂ (SamePars φ) rep rep') {lbda : ℝ} {w : ℂ} (h : sellmeierCustom rep lbda = some w) :
    sellmeierCustomArr rep' (scalar (φ lbda)) = scalar (φ w) := by
  unfold sellmeierCustomArr
  dsimp only
  rw [ex_micro hx]
  refine ex_pySum hx hr ?_ h
  intro c c' w hc h
  simp only [sellmeierCustomTerm, Option.bind_eq_bind, Option.bind_eq_some_iff] at h
  obtain ⟨eA, heA, p, hp, B, hB, eB, heB, r, hr, A, hA, h⟩ := h
  obtain ⟨q, hq, rfl⟩ := toC_some h
  obtain ⟨z, rfl⟩ := divN_some hq
  generalize lbda / 1e3 = l at *
  have z : (l : ℂ) ^ 2 - r ≠ 0 := by exact_mod_cast z
  rw [hc _ _ hA, hc _ _ hB, hc _ _ heA, hc _ _ heB, ex_powReal hx hp, ex_powReal hx hr]
  ex hx
  push_cast
  rfl

/-- `DrudeEnergy` -/
theorem values_drudeEnergy (hx : Exact K dawsn φ) {s : Dict ℝ} {s' : Pars V} (hs : SamePars φ s s') {lbda : ℝ} {w : ℂ}
    (h : drudeEnergy K s lbda = some w) : drudeEnergyArr s' (scalar (φ lbda)) = scalar (φ w) := by
  simp only [drudeEnergy, Option.bind_eq_bind, Option.bind_eq_some_iff] at h
  obtain ⟨energy, he, A, hA, g, hg, hq⟩ := h
  obtain ⟨z, rfl⟩ := divN_some hq
  unfold drudeEnergyArr
  dsimp only
  rw [hs _ _ hA, hs _ _ hg, ex_energy hx he]
  ex hx
  rfl

/-- `DrudeResistivity` -/
theorem values_drudeResistivity (hx : Exact K dawsn φ) {s : Dict ℝ} {s' : Pars V} (hs : SamePars φ s s') {lbda : ℝ} {w : ℂ}
    (h : drudeResistivity K s lbda = some w) : drudeResistivityArr s' (scalar (φ lbda)) = scalar (φ w) := by
  simp only [drudeResistivity, Option.bind_eq_bind, Option.bind_eq_some_iff] at h
  obtain ⟨energy, he, rho, hr, tau, ht, hq⟩ := h
  obtain ⟨z, rfl⟩ := divN_some hq
  unfold drudeResistivityArr
  dsimp only
  have h1 : (scalar Special.h / lit 2 / scalar Arith.pi : Out V) = scalar (φ ((K.h / 2 / Real.pi : ℝ) : ℂ)) := by
    rw [hx.h]
    ex hx
    · norm_num
    · exact_mod_cast Real.pi_ne_zero
    · push_cast; rfl
  have h2 : (scalar Special.eps0 * lit (1 / 100) : Out V) = scalar (φ ((K.eps0 * 1e-2 : ℝ) : ℂ)) := by
    rw [hx.eps0]
    ex hx
    push_cast; norm_num
  rw [hs _ _ hr, hs _ _ ht, ex_energy hx he, h1, h2]
  generalize K.h / 2 / Real.pi = hbar at *
  generalize K.eps0 * 1e-2 = e0 at *
  ex hx
  rfl

/-- `LorentzEnergy` -/
theorem values_lorentzEnergy (hx : Exact K dawsn φ) {rep : List (Dict ℝ)} {rep' : List (Pars V)}
    (hr : List.Forall₂ (SamePars φ) rep rep') {lbda : ℝ} {w : ℂ} (h : lorentzEnergy K rep lbda = some w) :
    lorentzEnergyArr rep' (scalar (φ lbda)) = scalar (φ w) := by
  simp only [lorentzEnergy, Option.bind_eq_bind, Option.bind_eq_some_iff, Option.some.injEq] at h
  obtain ⟨energy, he, t, ht, rfl⟩ := h
  unfold lorentzEnergyArr
  dsimp only
  rw [ex_energy hx he]
  refine ex_cast (ex_add hx (ex_lit hx 1) (ex_pySum hx hr ?_ ht)) (by simp)
  intro c c' w hc h
  simp only [lorentzEnergyTerm, Option.bind_eq_bind, Option.bind_eq_some_iff] at h
  obtain ⟨A, hA, E, hE, g, hg, hq⟩ := h
  obtain ⟨z, rfl⟩ := divN_some hq
  rw [hc _ _ hA, hc _ _ hE, hc _ _ hg]
  ex hx
  rfl

/-- `LorentzLambda` -/
theorem values_lorentzLambda (hx : Exact K dawsn φ) {rep : List (Dict ℝ)} {rep' : List (Pars V)}
    (hr : List.Forall₂ (SamePars φ) rep rep') {lbda : ℝ} {w : ℂ} (h : lorentzLambda rep lbda = some w) :
    lorentzLambdaArr rep' (scalar (φ lbda)) = scalar (φ w) := by
  simp only [lorentzLambda, Option.bind_eq_bind, Option.bind_eq_some_iff, Option.some.injEq] at h
  obtain ⟨t, ht, rfl⟩ := h
  unfold lorentzLambdaArr
  refine ex_cast (ex_add hx (ex_lit hx 1) (ex_pySum hx hr ?_ ht)) (by simp)
  intro c c' w hc h
  simp only [lorentzLambdaTerm, Option.bind_eq_bind, Option.bind_eq_some_iff] at h
  obtain ⟨A, hA, E, hE, g, hg, hq⟩ := h
  obtain ⟨z, rfl⟩ := divN_some hq
  rw [hc _ _ hA, hc _ _ hE, hc _ _ hg]
  ex hx
  rfl

/-- `Poles` -/
theorem values_poles (hx : Exact K dawsn φ) {s : Dict ℝ} {s' : Pars V} (hs : SamePars φ s s') {lbda : ℝ} {w : ℂ}
    (h : poles K s lbda = some w) : polesArr s' (scalar (φ lbda)) = scalar (φ w) := by
  simp only [poles, Option.bind_eq_bind, Option.bind_eq_some_iff, Option.some.injEq] at h
  obtain ⟨energy, he, A, hA, a, ha, B, hB, E, hE, b, hb, rfl⟩ := h
  obtain ⟨z1, rfl⟩ := divN_some ha
  obtain ⟨z2, rfl⟩ := divN_some hb
  have z1 : (energy : ℂ) ^ 2 ≠ 0 := by exact_mod_cast z1
  have z2 : (E : ℂ) ^ 2 - (energy : ℂ) ^ 2 ≠ 0 := by exact_mod_cast z2
  unfold polesArr
  dsimp only
  rw [hs _ _ hA, hs _ _ hB, hs _ _ hE, ex_energy hx he]
  ex hx
  push_cast
  rfl

/-- `Gaussian` -/
theorem values_gaussian (hx : Exact K dawsn φ) {rep : List (Dict ℝ)} {rep' : List (Pars V)}
    (hr : List.Forall₂ (SamePars φ) rep rep') {lbda : ℝ} {w : ℂ} (h : gaussian dawsn K rep lbda = some w) :
    gaussianArr rep' (scalar (φ lbda)) = scalar (φ w) := by
  simp only [gaussian, Option.bind_eq_bind, Option.bind_eq_some_iff] at h
  obtain ⟨energy, he, ht⟩ := h
  unfold gaussianArr
  dsimp only
  have hl : op1 Special.log (lit 2) = (scalar (φ ((Real.log 2 : ℝ) : ℂ)) : Out V) := by
    refine ex_cast (ex_log hx (ex_lit hx 2) (by norm_num)) ?_
    rw [Complex.ofReal_log (by norm_num)]
    norm_num
  have hf : (lit 2 * op1 Arith.sqrt (op1 Special.log (lit 2)) : Out V) = scalar (φ ((2 * √(Real.log 2) : ℝ) : ℂ)) := by
    rw [hl]
    refine ex_cast (ex_mul hx (ex_lit hx 2) (ex_sqrt hx rfl)) ?_
    rw [csqrt_ofReal (Real.log_nonneg (by norm_num))]
    push_cast
    rfl
  have hpi : (op1 Arith.sqrt (scalar Arith.pi) : Out V) = scalar (φ ((√Real.pi : ℝ) : ℂ)) := by
    refine ex_cast (ex_sqrt hx (ex_pi hx)) ?_
    rw [csqrt_ofReal Real.pi_pos.le]
  have hd : ∀ x : ℝ, op1 Special.dawsn (scalar (φ x) : Out V) = scalar (φ (dawsn x : ℝ)) := fun x => by rw [← hx.dawsn]; rfl
  rw [ex_energy hx he, hf, hpi]
  have hpi0 : ((√Real.pi : ℝ) : ℂ) ≠ 0 := by exact_mod_cast (Real.sqrt_pos.2 Real.pi_pos).ne'
  refine ex_pySum hx hr ?_ ht
  intro c c' w hc h
  simp only [gaussianTerm, Option.bind_eq_bind, Option.bind_eq_some_iff, Option.some.injEq] at h
  obtain ⟨A, hA, E, hE, sg, hsg, x, hxx, y, hy, rfl⟩ := h
  generalize 2 * √(Real.log 2) = ftos at *
  obtain ⟨z, ex⟩ := divN_some hxx
  obtain ⟨-, ey⟩ := divN_some hy
  have z : (sg : ℂ) ≠ 0 := by exact_mod_cast z
  rw [hc _ _ hA, hc _ _ hE, hc _ _ hsg]
  have hX : (scalar (φ ftos) * (scalar (φ energy) + scalar (φ E)) / scalar (φ sg) : Out V) = scalar (φ (x : ℂ)) := by
    ex hx
    rw [ex]
    push_cast
    rfl
  have hY : (scalar (φ ftos) * (scalar (φ energy) - scalar (φ E)) / scalar (φ sg) : Out V) = scalar (φ (y : ℂ)) := by
    ex hx
    rw [ey]
    push_cast
    rfl
  rw [hX, hY, hd, hd]
  ex hx
  push_cast
  norm_num

lemma ex_heaviside (hx : Exact K dawsn φ) {o₁ o₂ : Out V} {x v : ℝ} (h₁ : o₁ = scalar (φ x)) (h₂ : o₂ = scalar (φ v)) :
    op2 Special.heaviside o₁ o₂ = scalar (φ (heaviside x v : ℝ)) := by rw [h₁, h₂, op2_scalar, hx.heaviside]

lemma ex_abs (hx : Exact K dawsn φ) {o : Out V} {x : ℝ} (h : o = scalar (φ x)) : op1 Arith.abs o = scalar (φ (|x| : ℝ)) := by rw [h, ← hx.abs]; rfl

lemma values_taucEps1 (hx : Exact K dawsn φ) {E Eg Ai Ei Ci : ℝ} {w : ℂ} (h : taucEps1 E Eg Ai Ei Ci = some w) :
    taucEps1Arr (scalar (φ E)) (scalar (φ Eg)) (scalar (φ Ai)) (scalar (φ Ei)) (scalar (φ Ci)) = scalar (φ w) := by
  unfold taucEps1 at h
  dsimp only at h
  split_ifs at h with hn
  simp only [not_or, not_le, ne_eq] at hn
  obtain ⟨hz, ha, hEi, hCi, hE, hden, hroot, hl1, hl2⟩ := hn
  simp only [Option.some.injEq] at h
  unfold taucEps1Arr
  dsimp only
  have e1 : (op1 Arith.sqrt (powLit (scalar (φ Ei)) 2 - powLit (scalar (φ Ci)) 2 / lit 2) : Out V)
      = scalar (φ (Complex.sqrt ((Ei ^ 2 - Ci ^ 2 / 2 : ℝ) : ℂ))) := by
    ex hx
    · norm_num
    · push_cast; norm_num
  have e2 : (op1 Arith.sqrt (lit 4 * powLit (scalar (φ Ei)) 2 - powLit (scalar (φ Ci)) 2) : Out V)
      = scalar (φ (Complex.sqrt ((4 * Ei ^ 2 - Ci ^ 2 : ℝ) : ℂ))) := by
    ex hx
    push_cast; norm_num
  rw [e1, e2]
  clear e1 e2
  have hal := csqrt_sq ((4 * Ei ^ 2 - Ci ^ 2 : ℝ) : ℂ)
  generalize Complex.sqrt ((Ei ^ 2 - Ci ^ 2 / 2 : ℝ) : ℂ) = g at *
  generalize Complex.sqrt ((4 * Ei ^ 2 - Ci ^ 2 : ℝ) : ℂ) = al at *
  have e3 : (powLit (powLit (scalar (φ E)) 2 - powLit (scalar (φ g)) 2) 2 + powLit (scalar (φ al)) 2 * powLit (scalar (φ Ci)) 2 / lit 4 : Out V)
      = scalar (φ (((E : ℂ) ^ 2 - g ^ 2) ^ 2 + al ^ 2 * (Ci : ℂ) ^ 2 / 4)) := by
    ex hx
    · norm_num
    · norm_num
  rw [e3]
  clear e3
  generalize ((E : ℂ) ^ 2 - g ^ 2) ^ 2 + al ^ 2 * (Ci : ℂ) ^ 2 / 4 = ze at *
  have e4 : (op1 Arith.abs (scalar (φ E) - scalar (φ Eg)) : Out V) = scalar (φ (|E - Eg| : ℝ)) := by
    refine ex_abs hx ?_
    ex hx
    push_cast; rfl
  rw [e4]
  have hs : E + Eg ≠ 0 := by
    intro h0
    rw [h0] at hl1
    simp at hl1
  have e5 : (op1 Special.log (scalar (φ (|E - Eg| : ℝ)) / (scalar (φ E) + scalar (φ Eg))) : Out V)
      = scalar (φ (Real.log (|E - Eg| / (E + Eg)) : ℝ)) := by
    ex hx
    · exact_mod_cast hs
    · exact_mod_cast hl1.ne'
    · rw [Complex.ofReal_log hl1.le]; push_cast; rfl
  rw [e5]
  have e6 : (op1 Arith.sqrt (powLit (powLit (scalar (φ Ei)) 2 - powLit (scalar (φ Eg)) 2) 2 + powLit (scalar (φ Eg)) 2 * powLit (scalar (φ Ci)) 2) : Out V)
      = scalar (φ (√((Ei ^ 2 - Eg ^ 2) ^ 2 + Eg ^ 2 * Ci ^ 2) : ℝ)) := by
    ex hx
    rw [← csqrt_ofReal (by positivity)]; push_cast; rfl
  rw [e6]
  have hnum : (Ei ^ 2 + Eg ^ 2 + al * Eg : ℂ) ≠ 0 := by
    intro h0
    have h1 : (((Ei ^ 2 - Eg ^ 2) ^ 2 + Eg ^ 2 * Ci ^ 2 : ℝ) : ℂ) = 0 := by
      push_cast at hal ⊢
      linear_combination (Ei ^ 2 + Eg ^ 2 - al * Eg : ℂ) * h0 + (Eg : ℂ) ^ 2 * hal
    rw [Complex.ofReal_eq_zero] at h1
    rw [h1, Real.sqrt_zero] at hroot
    exact hroot rfl
  have hrp : 0 < √((Ei ^ 2 - Eg ^ 2) ^ 2 + Eg ^ 2 * Ci ^ 2) := lt_of_le_of_ne (Real.sqrt_nonneg _) (Ne.symm hroot)
  generalize √((Ei ^ 2 - Eg ^ 2) ^ 2 + Eg ^ 2 * Ci ^ 2) = rt at *
  have hl3 : 0 < |E - Eg| * (E + Eg) / rt := by positivity
  have e7 : (op1 Special.log (scalar (φ (|E - Eg| : ℝ)) * (scalar (φ E) + scalar (φ Eg)) / scalar (φ rt)) : Out V)
      = scalar (φ (Real.log (|E - Eg| * (E + Eg) / rt) : ℝ)) := by
    ex hx
    · exact_mod_cast hroot
    · exact_mod_cast hl3.ne'
    · rw [Complex.ofReal_log hl3.le]; push_cast; rfl
  rw [e7]
  clear e4 e5 e6 e7
  generalize Real.log (|E - Eg| * (E + Eg) / rt) = l1 at *
  generalize Real.log (|E - Eg| / (E + Eg)) = l2 at *
  have hEi' : (Ei : ℂ) ≠ 0 := by exact_mod_cast hEi
  have hCi' : (Ci : ℂ) ≠ 0 := by exact_mod_cast hCi
  have hE' : (E : ℂ) ≠ 0 := by exact_mod_cast hE
  have hpi' : (Real.pi : ℂ) ≠ 0 := by exact_mod_cast Real.pi_ne_zero
  have h2 : ((2 : ℚ) : ℂ) ≠ 0 := by norm_num
  have hq := div_ne_zero hnum hden
  ex hx
  rw [← h]
  push_cast
  norm_num

/-- `TaucLorentz` -/
theorem values_taucLorentz (hx : Exact K dawsn φ) {s : Dict ℝ} {s' : Pars V} (hs : SamePars φ s s') {rep : List (Dict ℝ)} {rep' : List (Pars V)}
    (hr : List.Forall₂ (SamePars φ) rep rep') {lbda : ℝ} {w : ℂ} (h : taucLorentz K s rep lbda = some w) :
    taucLorentzArr s' rep' (scalar (φ lbda)) = scalar (φ w) := by
  simp only [taucLorentz, Option.bind_eq_bind, Option.bind_eq_some_iff] at h
  obtain ⟨energy, he, Eg, hEg, ht⟩ := h
  unfold taucLorentzArr
  dsimp only
  rw [ex_energy hx he, hs _ _ hEg]
  refine ex_pySum hx hr ?_ ht
  intro c c' w hc h
  simp only [taucTerm, Option.bind_eq_bind, Option.bind_eq_some_iff, Option.some.injEq] at h
  obtain ⟨A, hA, E, hE, C, hC, q, hq, q', hq', e1, he1, rfl⟩ := h
  obtain ⟨z1, rfl⟩ := divN_some hq
  obtain ⟨z2, rfl⟩ := divN_some hq'
  rw [hc _ _ hA, hc _ _ hE, hc _ _ hC, values_taucEps1 hx he1]
  have hh : op2 Special.heaviside (scalar (φ energy) - scalar (φ Eg)) (lit 0 : Out V) = scalar (φ (heaviside (energy - Eg) 0 : ℝ)) := by
    refine ex_heaviside hx ?_ ?_
    · ex hx; push_cast; rfl
    · ex hx; norm_num
  rw [hh]
  have z1 : ((energy : ℂ) ^ 2 - (E : ℂ) ^ 2) ^ 2 + (C : ℂ) ^ 2 * (energy : ℂ) ^ 2 ≠ 0 := by exact_mod_cast z1
  have z2 : (energy : ℂ) ≠ 0 := by exact_mod_cast z2
  ex hx
  push_cast
  rfl

/-- The imaginary part of `CodyLorentz` -/
theorem values_codyEps2 (hx : Exact K dawsn φ) {s : Dict ℝ} {s' : Pars V} (hs : SamePars φ s s') {E w : ℝ}
    (h : codyEps2 s E = some w) : codyEps2Arr s' (scalar (φ E)) = scalar (φ w) := by
  unfold codyEps2 codyG codyL at h
  obtain ⟨Eg, hEg, h⟩ := bind_some h
  obtain ⟨A, hA, h⟩ := bind_some h
  obtain ⟨Et, hEt, h⟩ := bind_some h
  obtain ⟨gam, hgam, h⟩ := bind_some h
  obtain ⟨Ep, hEp, h⟩ := bind_some h
  obtain ⟨E0, hE0, h⟩ := bind_some h
  obtain ⟨Eu, hEu, h⟩ := bind_some h
  obtain ⟨Gt, hGt, h⟩ := bind_some h
  obtain ⟨Lt, hLt, h⟩ := bind_some h
  obtain ⟨q, hq, h⟩ := bind_some h
  obtain ⟨x, hxx, h⟩ := bind_some h
  obtain ⟨G, hG, h⟩ := bind_some h
  obtain ⟨L, hL, h⟩ := bind_some h
  obtain rfl := Option.some.inj h
  obtain ⟨z1, e1⟩ := divN_some hGt
  obtain ⟨z2, e2⟩ := divN_some hLt
  obtain ⟨z3, e3⟩ := divN_some hq
  obtain ⟨z4, e4⟩ := divN_some hxx
  obtain ⟨z5, e5⟩ := divN_some hG
  obtain ⟨z6, e6⟩ := divN_some hL
  unfold codyEps2Arr
  dsimp only
  rw [hs _ _ hEg, hs _ _ hA, hs _ _ hEt, hs _ _ hgam, hs _ _ hEp, hs _ _ hE0, hs _ _ hEu]
  have h1 : op2 Special.heaviside (scalar (φ Et) - scalar (φ E)) (lit 1 : Out V) = scalar (φ (heaviside (Et - E) 1 : ℝ)) := by
    refine ex_heaviside hx ?_ ?_
    · ex hx; push_cast; rfl
    · ex hx; norm_num
  have h2 : op2 Special.heaviside (scalar (φ E) - scalar (φ Et)) (lit 0 : Out V) = scalar (φ (heaviside (E - Et) 0 : ℝ)) := by
    refine ex_heaviside hx ?_ ?_
    · ex hx; push_cast; rfl
    · ex hx; norm_num
  rw [h1, h2]
  clear h1 h2
  generalize heaviside (Et - E) 1 = s1
  generalize heaviside (E - Et) 0 = s2
  have z1 : ((Et : ℂ) - Eg) ^ 2 + (Ep : ℂ) ^ 2 ≠ 0 := by exact_mod_cast z1
  have z2 : ((Et : ℂ) ^ 2 - (E0 : ℂ) ^ 2) ^ 2 + (gam : ℂ) ^ 2 * (Et : ℂ) ^ 2 ≠ 0 := by exact_mod_cast z2
  have z3 : (E : ℂ) ≠ 0 := by exact_mod_cast z3
  have z4 : (Eu : ℂ) ≠ 0 := by exact_mod_cast z4
  have z5 : ((E : ℂ) - Eg) ^ 2 + (Ep : ℂ) ^ 2 ≠ 0 := by exact_mod_cast z5
  have z6 : ((E : ℂ) ^ 2 - (E0 : ℂ) ^ 2) ^ 2 + (gam : ℂ) ^ 2 * (E : ℂ) ^ 2 ≠ 0 := by exact_mod_cast z6
  ex hx
  rw [e3, e1, e2, e4, e5, e6]
  push_cast
  rfl

lemma ex_gamma (hx : Exact K dawsn φ) {o : Out V} {a g : ℂ} (h : o = scalar (φ a)) (hg : gammaN a = some g) :
    op1 Special.gamma o = scalar (φ g) := by
  unfold gammaN at hg
  split_ifs at hg with h0
  push Not at h0
  rw [h, ← Option.some.inj hg, ← hx.gamma _ h0]; rfl

lemma ex_digamma (hx : Exact K dawsn φ) {o : Out V} {a g : ℂ} (h : o = scalar (φ a)) (hg : digammaN a = some g) :
    op1 Special.digamma o = scalar (φ g) := by
  unfold digammaN at hg
  split_ifs at hg with h0
  push Not at h0
  rw [h, ← Option.some.inj hg, ← hx.digamma _ h0]; rfl

lemma ex_clog (hx : Exact K dawsn φ) {o : Out V} {a g : ℂ} (h : o = scalar (φ a)) (hg : clogN a = some g) : op1 Special.log o = scalar (φ g) := by
  unfold clogN at hg
  split_ifs at hg with h0
  rw [← Option.some.inj hg, ex_log hx h h0]

lemma ex_cot (hx : Exact K dawsn φ) {o : Out V} {a g : ℂ} (h : o = scalar (φ a)) (hg : cotN a = some g) :
    lit 1 / op1 Special.tan o = scalar (φ g) := by
  unfold cotN at hg
  split_ifs at hg with h0
  have h1 : (lit 1 : Out V) = scalar (φ 1) := ex_cast (ex_lit hx 1) (by norm_num)
  rw [h, h1, ← Option.some.inj hg, Complex.tan_eq_sin_div_cos, one_div_div, ← hx.cot _ h0]
  exact op2_scalar Arith.div (φ 1) (Special.tan (φ a))

lemma values_tanguyG (hx : Exact K dawsn φ) {xsi w : ℂ} {d : ℝ} (h : tanguyG xsi d = some w) :
    tanguyGArr (scalar (φ xsi)) (φ d) = scalar (φ w) := by
  have c2 : Arith.eq (φ (d : ℂ)) (Arith.num 2) = true ↔ d = 2 := by
    rw [hx.num, hx.eq]
    norm_num
    exact_mod_cast Iff.rfl
  have c3 : Arith.eq (φ (d : ℂ)) (Arith.num 3) = true ↔ d = 3 := by
    rw [hx.num, hx.eq]
    norm_num
    exact_mod_cast Iff.rfl
  unfold tanguyG at h
  unfold tanguyGArr
  simp only [c2, c3]
  split_ifs at h with h2 h3
  · rw [if_pos h2]
    simp only [Option.bind_eq_bind, Option.bind_eq_some_iff, Option.some.injEq] at h
    obtain ⟨l, hl, p, hp, rfl⟩ := h
    have e1 : (lit (1 / 2) - scalar (φ xsi) : Out V) = scalar (φ (0.5 - xsi)) := by
      ex hx
      norm_num
    rw [ex_clog hx rfl hl, ex_digamma hx e1 hp]
    ex hx
    norm_num
  · rw [if_neg h2, if_pos h3]
    simp only [Option.bind_eq_bind, Option.bind_eq_some_iff, Option.some.injEq] at h
    obtain ⟨l, hl, p, hp, q, hq, rfl⟩ := h
    obtain ⟨z, rfl⟩ := divN_some hq
    have e1 : (lit 1 - scalar (φ xsi) : Out V) = scalar (φ (1 - xsi)) := by
      ex hx
      norm_num
    rw [ex_clog hx rfl hl, ex_digamma hx e1 hp]
    ex hx
    norm_num
  · rw [if_neg h2, if_neg h3]
    simp only [Option.bind_eq_bind, Option.bind_eq_some_iff, Option.some.injEq] at h
    obtain ⟨g1, hg1, g2, hg2, g3, hg3, p, hp, q1, hq1, q2, hq2, q3, hq3, c1, hc1, c2, hc2, rfl⟩ := h
    obtain ⟨z1, rfl⟩ := divN_some hq1
    obtain ⟨z2, rfl⟩ := divN_some hq2
    obtain ⟨z3, rfl⟩ := divN_some hq3
    have eD : (scalar (φ d) - lit 1 : Out V) = scalar (φ ((d - 1 : ℝ) : ℂ)) := by
      ex hx
      push_cast; norm_num
    rw [eD]
    generalize d - 1 = D at *
    have t2 : ((2 : ℚ) : ℂ) ≠ 0 := by norm_num
    have e1 : (scalar (φ D) / lit 2 : Out V) = scalar (φ ((D / 2 : ℝ) : ℂ)) := by
      ex hx
      push_cast; norm_num
    have e2 : (lit 1 - scalar (φ ((D / 2 : ℝ) : ℂ)) + scalar (φ xsi) : Out V) = scalar (φ ((1 - D / 2 : ℝ) + xsi)) := by
      ex hx
      push_cast; norm_num
    have e3 : (scalar Arith.pi * (scalar (φ ((D / 2 : ℝ) : ℂ)) - scalar (φ xsi)) : Out V) = scalar (φ (Real.pi * ((D / 2 : ℝ) - xsi))) := by
      ex hx
      rfl
    have e4 : (scalar Arith.pi * scalar (φ (D : ℂ)) : Out V) = scalar (φ ((Real.pi * D : ℝ) : ℂ)) := by
      ex hx
      push_cast; rfl
    have e5 : (op2 Arith.pow (scalar (φ xsi)) (scalar (φ d) - lit 2) : Out V) = scalar (φ p) := by
      have : (scalar (φ d) - lit 2 : Out V) = scalar (φ ((d - 2 : ℝ) : ℂ)) := by
        ex hx
        push_cast; norm_num
      unfold cpowN at hp
      split_ifs at hp with h0
      rw [this, op2_scalar, hx.powComplex _ _ h0, Option.some.inj hp]
    rw [e1, e2, e5, ex_gamma hx (ex_add hx rfl rfl) hg1, ex_gamma hx rfl hg2, ex_gamma hx rfl hg3, e3, e4, ex_cot hx rfl hc1, ex_cot hx rfl hc2]
    ex hx
    norm_num

lemma values_tanguyXsi (hx : Exact K dawsn φ) {z w : ℂ} {R Eg : ℝ} (h : tanguyXsi z R Eg = some w) :
    tanguyXsiArr (scalar (φ z)) (scalar (φ R)) (scalar (φ Eg)) = scalar (φ w) := by
  simp only [tanguyXsi, Option.map_eq_some_iff] at h
  obtain ⟨q, hq, rfl⟩ := h
  obtain ⟨z0, rfl⟩ := divN_some hq
  unfold tanguyXsiArr
  ex hx
  rfl

/-- `Tanguy` -/
theorem values_tanguy (hx : Exact K dawsn φ) {s : Dict ℝ} {s' : Pars V} (hs : SamePars φ s s') {lbda : ℝ} {w : ℂ}
    (h : tanguy K s lbda = some w) : tanguyArr s' (scalar (φ lbda)) = scalar (φ w) := by
  unfold tanguy at h
  obtain ⟨E, he, h⟩ := bind_some h
  obtain ⟨A, hA, h⟩ := bind_some h
  obtain ⟨d, hd, h⟩ := bind_some h
  obtain ⟨gam, hgam, h⟩ := bind_some h
  obtain ⟨R, hR, h⟩ := bind_some h
  obtain ⟨Eg, hEg, h⟩ := bind_some h
  obtain ⟨a, ha, h⟩ := bind_some h
  obtain ⟨b, hb, h⟩ := bind_some h
  obtain ⟨back, hback, h⟩ := bind_some h
  obtain ⟨p, hp, h⟩ := bind_some h
  obtain ⟨q, hq, h⟩ := bind_some h
  obtain ⟨x1, hx1, h⟩ := bind_some h
  obtain ⟨x2, hx2, h⟩ := bind_some h
  obtain ⟨x0, hx0, h⟩ := bind_some h
  obtain ⟨g1, hg1, h⟩ := bind_some h
  obtain ⟨g2, hg2, h⟩ := bind_some h
  obtain ⟨g0, hg0, h⟩ := bind_some h
  obtain rfl := Option.some.inj h
  obtain ⟨z1, rfl⟩ := divN_some hback
  obtain ⟨z2, rfl⟩ := divN_some hq
  unfold tanguyArr
  dsimp only
  rw [ex_energy hx he, hs _ _ hA, hs _ _ hd, hs _ _ hgam, hs _ _ hR, hs _ _ hEg, hs _ _ ha, hs _ _ hb]
  have t2 : ((2 : ℚ) : ℂ) ≠ 0 := by norm_num
  have e1 : (scalar (φ d) / lit 2 - lit 1 : Out V) = scalar (φ ((d / 2 - 1 : ℝ) : ℂ)) := by
    ex hx
    push_cast; norm_num
  have e2 : (scalar (φ E) + imagUnit * scalar (φ gam) : Out V) = scalar (φ (E + Complex.I * gam)) := by
    ex hx
    rfl
  have e3 : (-scalar (φ E) - imagUnit * scalar (φ gam) : Out V) = scalar (φ (-E - Complex.I * gam)) := by
    ex hx
    rfl
  have e4 : (scalar (φ E) * lit 0 : Out V) = scalar (φ ((E * 0 : ℝ) : ℂ)) := by
    ex hx
    push_cast; norm_num
  rw [e1, e2, e3, e4, ex_powReal hx hp, values_tanguyXsi hx hx1, values_tanguyXsi hx hx2, values_tanguyXsi hx hx0,
    values_tanguyG hx hg1, values_tanguyG hx hg2, values_tanguyG hx hg0]
  have z1 : (b : ℂ) - (E : ℂ) ^ 2 ≠ 0 := by exact_mod_cast z1
  ex hx
  push_cast
  norm_num

end PyElli.Nd

namespace Spec

open PyElli PyElli.Nd

/-- A dispersion object of the array code has the formula `M` of `Model/Dispersion.lean` or `Model/Tanguy.lean`, with the same parameters;
`index` tells whether the formula is that of a refractive index or of a dielectric function. -/
inductive HasFormula {V : Type} (K : PhysConst) (dawsn : ℝ → ℝ) (φ : ℂ → V) : (index : Bool) → DispObj V → (ℝ → Option ℂ) → Prop
  | constantIndex {s s'} (hs : SamePars φ s s') : HasFormula K dawsn φ true (.constantIndex s') (PyElli.constantIndex s)
  | cauchy {s s'} (hs : SamePars φ s s') : HasFormula K dawsn φ true (.cauchy s') (cauchyIndex s)
  | cauchyCustom {s s' rep rep'} (hs : SamePars φ s s') (hr : List.Forall₂ (SamePars φ) rep rep') :
      HasFormula K dawsn φ true (.cauchyCustom s' rep') (cauchyCustomIndex s rep)
  | cauchyUrbach {s s'} (hs : SamePars φ s s') : HasFormula K dawsn φ true (.cauchyUrbach s') (cauchyUrbachIndex K s)
  | epsilonInf {s s'} (hs : SamePars φ s s') : HasFormula K dawsn φ false (.epsilonInf s') (PyElli.epsilonInf s)
  | polynomial {s s' rep rep'} (hs : SamePars φ s s') (hr : List.Forall₂ (SamePars φ) rep rep') :
      HasFormula K dawsn φ false (.polynomial s' rep') (PyElli.polynomial s rep)
  | sellmeier {rep rep'} (hr : List.Forall₂ (SamePars φ) rep rep') : HasFormula K dawsn φ false (.sellmeier rep') (PyElli.sellmeier rep)
  | sellmeierCustom {rep rep'} (hr : List.Forall₂ (SamePars φ) rep rep') : HasFormula K dawsn φ false (.sellmeierCustom rep') (PyElli.sellmeierCustom rep)
  | drudeEnergy {s s'} (hs : SamePars φ s s') : HasFormula K dawsn φ false (.drudeEnergy s') (PyElli.drudeEnergy K s)
  | drudeResistivity {s s'} (hs : SamePars φ s s') : HasFormula K dawsn φ false (.drudeResistivity s') (PyElli.drudeResistivity K s)
  | lorentzEnergy {rep rep'} (hr : List.Forall₂ (SamePars φ) rep rep') : HasFormula K dawsn φ false (.lorentzEnergy rep') (PyElli.lorentzEnergy K rep)
  | lorentzLambda {rep rep'} (hr : List.Forall₂ (SamePars φ) rep rep') : HasFormula K dawsn φ false (.lorentzLambda rep') (PyElli.lorentzLambda rep)
  | poles {s s'} (hs : SamePars φ s s') : HasFormula K dawsn φ false (.poles s') (PyElli.poles K s)
  | gaussian {rep rep'} (hr : List.Forall₂ (SamePars φ) rep rep') : HasFormula K dawsn φ false (.gaussian rep') (PyElli.gaussian dawsn K rep)
  | taucLorentz {s s' rep rep'} (hs : SamePars φ s s') (hr : List.Forall₂ (SamePars φ) rep rep') :
      HasFormula K dawsn φ false (.taucLorentz s' rep') (PyElli.taucLorentz K s rep)
  | tanguy {s s'} (hs : SamePars φ s s') : HasFormula K dawsn φ false (.tanguy s') (PyElli.tanguy K s)

/-- The result of array code is an array of this shape with these values, or a number with that value for all. -/
def HasEntries {V : Type} (o : Out V) (shape : List ℕ) (value : List ℕ → V) : Prop :=
  ∃ A, o = .ok A ∧ ((A.shape = shape ∧ ∀ idx, IsPosition shape idx → A.val idx = value idx) ∨
    (A.shape = [] ∧ ∀ idx, IsPosition shape idx → A.val [] = value idx))

end Spec

namespace PyElli.Nd

open PyElli Spec

variable {V : Type} [Arith V] [Special V] {K : PhysConst} {dawsn : ℝ → ℝ} {φ : ℂ → V}

lemma values_own (hx : Exact K dawsn φ) {d : DispObj V} {M : ℝ → Option ℂ} {index : Bool} (hd : HasFormula K dawsn φ index d M) {lbda : ℝ} {w : ℂ}
    (h : M lbda = some w) : d.own (scalar (φ lbda)) = scalar (φ w) := by
  cases hd with
  | constantIndex hs => simp only [DispObj.own]; exact (values_constants hs).1 h
  | cauchy hs => simp only [DispObj.own]; exact values_cauchy hx hs h
  | cauchyCustom hs hr => simp only [DispObj.own]; exact values_cauchyCustom hx hs hr h
  | cauchyUrbach hs => simp only [DispObj.own]; exact values_cauchyUrbach hx hs h
  | epsilonInf hs => simp only [DispObj.own]; exact (values_constants hs).2 h
  | polynomial hs hr => simp only [DispObj.own]; exact values_polynomial hx hs hr h
  | sellmeier hr => simp only [DispObj.own]; exact values_sellmeier hx hr h
  | sellmeierCustom hr => simp only [DispObj.own]; exact values_sellmeierCustom hx hr h
  | drudeEnergy hs => simp only [DispObj.own]; exact values_drudeEnergy hx hs h
  | drudeResistivity hs => simp only [DispObj.own]; exact values_drudeResistivity hx hs h
  | lorentzEnergy hr => simp only [DispObj.own]; exact values_lorentzEnergy hx hr h
  | lorentzLambda hr => simp only [DispObj.own]; exact values_lorentzLambda hx hr h
  | poles hs => simp only [DispObj.own]; exact values_poles hx hs h
  | gaussian hr => simp only [DispObj.own]; exact values_gaussian hx hr h
  | taucLorentz hs hr => simp only [DispObj.own]; exact values_taucLorentz hx hs hr h
  | tanguy hs => simp only [DispObj.own]; exact values_tanguy hx hs h

/-- From one wavelength to an array of them. -/
lemma entries_of_pbp {a : Bool} {F : Out V → Out V} (hF : PointByPoint a F) (x : ND V) (value : List ℕ → V)
    (h : ∀ idx, IsPosition x.shape idx → F (scalar (x.val idx)) = scalar (value idx)) : HasEntries (F (.ok x)) x.shape value := by
  have inj : ∀ {a b : V}, (scalar a : Out V) = scalar b → a = b := by
    intro a b hab
    have := congrArg (fun o : Out V => match o with | .ok A => A.val [] | .error _ => a) hab
    exact this
  rcases pbp_iff.1 hF x with ⟨A, e, h1, -, h2⟩ | ⟨A, e, h1, -, h2⟩ | ⟨e, he, idx, h1, h2⟩
  · exact ⟨A, e, Or.inl ⟨h1, fun idx hi => inj ((h2 idx hi).symm.trans (h idx hi))⟩⟩
  · exact ⟨A, e, Or.inr ⟨h1, fun idx hi => inj ((h2 _).symm.trans (h idx hi))⟩⟩
  · rw [h idx h1] at h2
    cases h2

lemma isIndex_formula {d : DispObj V} {M : ℝ → Option ℂ} {index : Bool} (hd : HasFormula K dawsn φ index d M) : d.isIndex = index := by
  cases hd <;> rfl

/-- C113: for an array of real wavelengths of any shape on which the formula of the class has values, `get_dielectric` and
`get_refractive_index` return those values at the same positions; for a formula of the refractive index `get_dielectric` returns the squares, for one of the
dielectric function `get_refractive_index` the principal roots. -/
theorem C113_values (hx : Exact K dawsn φ) {d : DispObj V} {M : ℝ → Option ℂ} {index : Bool} (hd : HasFormula K dawsn φ index d M) (shape : List ℕ)
    (lbda : List ℕ → ℝ) (w : List ℕ → ℂ) (hM : ∀ idx, IsPosition shape idx → M (lbda idx) = some (w idx)) :
    HasEntries (d.getDielectric (.ok ⟨shape, fun idx => φ (lbda idx)⟩)) shape (fun idx => φ (if index then w idx ^ 2 else w idx)) ∧
    HasEntries (d.getRefractiveIndex (.ok ⟨shape, fun idx => φ (lbda idx)⟩)) shape
      (fun idx => φ (if index then w idx else Complex.sqrt (w idx))) := by
  obtain ⟨h1, h2⟩ := C113_point_by_point d
  have hi' := isIndex_formula hd
  have hD : ∀ idx, IsPosition shape idx → d.dielectricFunction (scalar (φ (lbda idx))) = scalar (φ (if index then w idx ^ 2 else w idx)) := by
    intro idx hi
    have hv := values_own hx hd (hM idx hi)
    unfold DispObj.dielectricFunction
    rw [hi']
    split_ifs
    · exact ex_pow2 hx hv
    · exact hv
  refine ⟨entries_of_pbp h1 _ _ hD, entries_of_pbp h2 _ _ fun idx hi => ?_⟩
  have hv := values_own hx hd (hM idx hi)
  have hDi := hD idx hi
  unfold DispObj.getRefractiveIndex
  rw [hi']
  split_ifs with hd
  · exact hv
  · rw [if_neg hd] at hDi
    exact ex_sqrt hx hDi

end PyElli.Nd
