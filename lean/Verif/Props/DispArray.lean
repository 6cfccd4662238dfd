import Verif.Model.DispArray
import Verif.Model.ArraySolver

/-! # Dispersions act on every wavelength separately (C113) -/

namespace Spec

/-- `idx` is a position in an array of this shape. -/
def IsPosition (shape idx : List ℕ) : Prop := List.Forall₂ (fun n i => i < n) shape idx

/-- The classes whose result is an array when the wavelength is one: all but the two constants, except when a class that adds up repeated
parameters was given none; a sum if one of its terms is. -/
def Varies {V : Type} : PyElli.Nd.DispObj V → Bool
  | .constantIndex _ | .epsilonInf _ => false
  | .cauchyCustom _ rep | .polynomial _ rep | .sellmeier rep | .sellmeierCustom rep | .lorentzEnergy rep | .lorentzLambda rep
  | .gaussian rep | .taucLorentz _ rep => !rep.isEmpty
  | .indexSum parts | .sum parts => (parts.map fun p => Varies p).any id
  | .cauchy _ | .cauchyUrbach _ | .tableIndex _ | .drudeEnergy _ | .drudeResistivity _ | .poles _ | .codyLorentz _ _ | .tanguy _
  | .tableEpsilon _ => true

end Spec

namespace PyElli.Nd

open PyElli Spec

variable {V : Type}

/-- `F` works on every wavelength separately: the result for an array has (with `array = true`) the shape of the array, and each entry is what `F`
gives for that number alone; with `array = false` the result is a number that is the same for all wavelengths. If `F` raises for an array,
it raises the same for one of its entries. -/
def PointByPoint (array : Bool) (F : Out V → Out V) : Prop := ∀ x : ND V,
  match F (.ok x) with
  | .ok A =>
    if array then A.shape = x.shape ∧ ∀ idx, IsPosition x.shape idx → F (scalar (x.val idx)) = scalar (A.val idx)
    else A.shape = [] ∧ ∀ v, F (scalar v) = scalar (A.val [])
  | .error e => ∃ idx, IsPosition x.shape idx ∧ F (scalar (x.val idx)) = .error e

/-! ## Broadcasting -/

lemma bcastRev_self (a : List ℕ) : bcastRev a a = some a := by
  induction a with
  | nil => rfl
  | cons x a ih => simp [bcastRev, ih]

lemma bcastRev_nil (a : List ℕ) : bcastRev a [] = some a := by cases a <;> rfl

lemma bcast_self (a : List ℕ) : bcast a a = some a := by simp [bcast, bcastRev_self]
lemma bcast_nil_left (a : List ℕ) : bcast [] a = some a := by simp [bcast, bcastRev]
lemma bcast_nil_right (a : List ℕ) : bcast a [] = some a := by simp [bcast, bcastRev_nil]

lemma project_nil (idx : List ℕ) : project [] idx = [] := by simp [project]

lemma project_position {shape idx : List ℕ} (h : IsPosition shape idx) : project shape idx = idx := by
  have hl : shape.length = idx.length := h.length_eq
  unfold project
  rw [hl, Nat.sub_self, List.drop_zero]
  clear hl
  induction h with
  | nil => rfl
  | cons h1 _ ih =>
    rw [List.zipWith_cons_cons, ih]
    split_ifs with h2
    · congr 1
      omega
    · rfl

lemma position_nil {idx : List ℕ} (h : IsPosition [] idx) : idx = [] := by cases h; rfl

lemma mem_allIdx {shape idx : List ℕ} : idx ∈ allIdx shape ↔ IsPosition shape idx := by
  induction shape generalizing idx with
  | nil => simp [allIdx, IsPosition]
  | cons n s ih =>
    unfold allIdx IsPosition
    simp only [List.mem_flatMap, List.mem_range, List.mem_map, ih]
    constructor
    · rintro ⟨i, hi, r, hr, rfl⟩
      exact .cons hi hr
    · intro h
      cases h with
      | cons h1 h2 => exact ⟨_, h1, _, h2, rfl⟩

/-! ## Closure -/

lemma pbp_id : PointByPoint true (fun x : Out V => x) := fun x => ⟨rfl, fun _ _ => rfl⟩

lemma pbp_scalar (v : V) : PointByPoint false (fun _ : Out V => scalar v) := fun _ => ⟨rfl, fun _ => rfl⟩

lemma pbp_iff {array : Bool} {F : Out V → Out V} : PointByPoint array F ↔ ∀ x : ND V,
    (∃ A, F (.ok x) = .ok A ∧ A.shape = x.shape ∧ array = true ∧ ∀ idx, IsPosition x.shape idx → F (scalar (x.val idx)) = scalar (A.val idx)) ∨
    (∃ A, F (.ok x) = .ok A ∧ A.shape = [] ∧ array = false ∧ ∀ v, F (scalar v) = scalar (A.val [])) ∨
    (∃ e, F (.ok x) = .error e ∧ ∃ idx, IsPosition x.shape idx ∧ F (scalar (x.val idx)) = .error e) := by
  constructor
  · intro h x
    have hx := h x
    rcases hF : F (.ok x) with e | A
    · rw [hF] at hx
      exact Or.inr (Or.inr ⟨e, rfl, hx⟩)
    · rw [hF] at hx
      cases array
      · exact Or.inr (Or.inl ⟨A, rfl, hx.1, rfl, hx.2⟩)
      · exact Or.inl ⟨A, rfl, hx.1, rfl, hx.2⟩
  · intro h x
    rcases h x with ⟨A, hF, h1, rfl, h2⟩ | ⟨A, hF, h1, rfl, h2⟩ | ⟨e, hF, h1⟩
    · rw [hF]; exact ⟨h1, h2⟩
    · rw [hF]; exact ⟨h1, h2⟩
    · rw [hF]; exact h1

lemma pbp_op1 {array : Bool} {F : Out V → Out V} (h : PointByPoint array F) (f : V → V) : PointByPoint array (fun x => op1 f (F x)) := by
  rw [pbp_iff] at h ⊢
  intro x
  rcases h x with ⟨A, hF, h1, h0, h2⟩ | ⟨A, hF, h1, h0, h2⟩ | ⟨e, hF, idx, h1, h2⟩
  · exact Or.inl ⟨⟨A.shape, fun idx => f (A.val idx)⟩, by simp only [hF, op1], h1, h0, fun idx hi => by simp only [h2 idx hi]; rfl⟩
  · exact Or.inr (Or.inl ⟨⟨A.shape, fun idx => f (A.val idx)⟩, by simp only [hF, op1], h1, h0, fun v => by simp only [h2 v]; rfl⟩)
  · exact Or.inr (Or.inr ⟨e, by simp only [hF, op1], idx, h1, by simp only [h2, op1]⟩)

lemma op2_scalar (f : V → V → V) (a b : V) : op2 f (scalar a) (scalar b) = scalar (f a b) := by
  simp [op2, scalar, bcast, bcastRev]

lemma op2_ok (f : V → V → V) {A B : ND V} {s : List ℕ} (h : bcast A.shape B.shape = some s) :
    op2 f (.ok A) (.ok B) = .ok ⟨s, fun idx => f (A.val (project A.shape idx)) (B.val (project B.shape idx))⟩ := by
  simp only [op2, h]

lemma pbp_op2 {a b : Bool} {F G : Out V → Out V} (hF : PointByPoint a F) (hG : PointByPoint b G) (f : V → V → V) :
    PointByPoint (a || b) (fun x => op2 f (F x) (G x)) := by
  rw [pbp_iff] at hF hG ⊢
  intro x
  rcases hF x with ⟨A, eF, s1, rfl, v1⟩ | ⟨A, eF, s1, rfl, v1⟩ | ⟨e, eF, idx, i1, i2⟩
  · rcases hG x with ⟨B, eG, s2, rfl, v2⟩ | ⟨B, eG, s2, rfl, v2⟩ | ⟨e, eG, idx, i1, i2⟩
    · have e := op2_ok f (A := A) (B := B) (s := x.shape) (by simp only [s1, s2, bcast_self])
      refine Or.inl ⟨_, (show op2 f (F (.ok x)) (G (.ok x)) = _ by rw [eF, eG]).trans e, rfl, rfl, fun idx hi => ?_⟩
      simp only [v1 idx hi, v2 idx hi, op2_scalar, s1, s2, project_position hi]
    · have e := op2_ok f (A := A) (B := B) (s := x.shape) (by simp only [s1, s2, bcast_nil_right])
      refine Or.inl ⟨_, (show op2 f (F (.ok x)) (G (.ok x)) = _ by rw [eF, eG]).trans e, rfl, rfl, fun idx hi => ?_⟩
      simp only [v1 idx hi, v2, op2_scalar, s1, s2, project_position hi, project_nil]
    · exact Or.inr (Or.inr ⟨e, by simp only [eF, eG, op2], idx, i1, by simp only [v1 idx i1, i2]; rfl⟩)
  · rcases hG x with ⟨B, eG, s2, rfl, v2⟩ | ⟨B, eG, s2, rfl, v2⟩ | ⟨e, eG, idx, i1, i2⟩
    · have e := op2_ok f (A := A) (B := B) (s := x.shape) (by simp only [s1, s2, bcast_nil_left])
      refine Or.inl ⟨_, (show op2 f (F (.ok x)) (G (.ok x)) = _ by rw [eF, eG]).trans e, rfl, rfl, fun idx hi => ?_⟩
      simp only [v1, v2 idx hi, op2_scalar, s1, s2, project_position hi, project_nil]
    · have e := op2_ok f (A := A) (B := B) (s := []) (by simp only [s1, s2, bcast_nil_left])
      refine Or.inr (Or.inl ⟨_, (show op2 f (F (.ok x)) (G (.ok x)) = _ by rw [eF, eG]).trans e, rfl, rfl, fun v => ?_⟩)
      simp only [v1, v2, op2_scalar, s1, s2, project_nil]
    · exact Or.inr (Or.inr ⟨e, by simp only [eF, eG, op2], idx, i1, by simp only [v1, i2]; rfl⟩)
  · exact Or.inr (Or.inr ⟨e, by simp only [eF, op2], idx, i1, by simp only [i2, op2]⟩)

variable [Arith V] [Special V]

lemma pbp_call (f : V → Except PyErr V) : PointByPoint true (callArr f) := by
  have hs : ∀ v, callArr f (scalar v) = match f v with
      | .error e => .error e
      | .ok w => scalar w := by
    intro v
    rcases hf : f v with e | w <;> simp [callArr, scalar, allIdx, hf, Except.isOk, Except.toBool, Except.toOption]
  rw [pbp_iff]
  intro x
  rcases hfind : (allIdx x.shape).find? fun idx => (f (x.val idx)).isOk = false with _ | idx
  · refine Or.inl ⟨⟨x.shape, fun idx => (f (x.val idx)).toOption.getD Arith.nan⟩, by simp only [callArr, hfind], rfl, rfl, fun idx hi => ?_⟩
    have := List.find?_eq_none.1 hfind idx (mem_allIdx.2 hi)
    rw [hs]
    rcases hf : f (x.val idx) with e | w
    · rw [hf] at this
      simp [Except.isOk, Except.toBool] at this
    · simp only [hf, Except.toOption, Option.getD_some]
  · have h1 := List.find?_some hfind
    have h2 := List.mem_of_find?_eq_some hfind
    rcases hf : f (x.val idx) with e | w
    · exact Or.inr (Or.inr ⟨e, by simp only [callArr, hfind, hf], idx, mem_allIdx.1 h2, by rw [hs, hf]⟩)
    · rw [hf] at h1
      simp [Except.isOk, Except.toBool] at h1

lemma pbp_add {a b : Bool} {F G : Out V → Out V} (hF : PointByPoint a F) (hG : PointByPoint b G) : PointByPoint (a || b) (fun x => F x + G x) := pbp_op2 hF hG _
lemma pbp_sub {a b : Bool} {F G : Out V → Out V} (hF : PointByPoint a F) (hG : PointByPoint b G) : PointByPoint (a || b) (fun x => F x - G x) := pbp_op2 hF hG _
lemma pbp_mul {a b : Bool} {F G : Out V → Out V} (hF : PointByPoint a F) (hG : PointByPoint b G) : PointByPoint (a || b) (fun x => F x * G x) := pbp_op2 hF hG _
lemma pbp_div {a b : Bool} {F G : Out V → Out V} (hF : PointByPoint a F) (hG : PointByPoint b G) : PointByPoint (a || b) (fun x => F x / G x) := pbp_op2 hF hG _
lemma pbp_neg {a : Bool} {F : Out V → Out V} (hF : PointByPoint a F) : PointByPoint a (fun x => -F x) := pbp_op1 hF _
lemma pbp_lit (q : ℚ) : PointByPoint false (fun _ : Out V => lit q) := pbp_scalar _
lemma pbp_imag : PointByPoint false (fun _ : Out V => imagUnit) := pbp_scalar _
lemma pbp_pow {a : Bool} {F : Out V → Out V} (hF : PointByPoint a F) (n : ℚ) : PointByPoint a (fun x => powLit (F x) n) := by
  have := pbp_op2 hF (pbp_lit n) Arith.pow
  rwa [Bool.or_false] at this

lemma pbp_cast {a b : Bool} {F : Out V → Out V} (h : PointByPoint a F) (hab : a = b) : PointByPoint b F := hab ▸ h

lemma pbp_energy : PointByPoint true (energyArr (V := V)) :=
  pbp_div (pbp_scalar _) (pbp_mul pbp_id (pbp_lit _))

lemma pbp_foldl {b : Bool} {ι : Type} (f : ι → Out V → Out V) (rep : List ι) (hf : ∀ c ∈ rep, PointByPoint b (f c)) :
    ∀ {a : Bool} (acc : Out V → Out V), PointByPoint a acc →
      PointByPoint (a || (!rep.isEmpty && b)) (fun x => rep.foldl (fun r c => r + f c x) (acc x)) := by
  induction rep with
  | nil => intro a acc ha; simpa using ha
  | cons c rep ih =>
    intro a acc ha
    have := ih (fun d hd => hf d (List.mem_cons_of_mem _ hd)) (fun x => acc x + f c x) (pbp_add ha (hf c List.mem_cons_self))
    refine pbp_cast this ?_
    cases a <;> cases b <;> cases rep <;> rfl

lemma pbp_pySum {b : Bool} (f : Pars V → Out V → Out V) (rep : List (Pars V)) (hf : ∀ c, PointByPoint b (f c)) :
    PointByPoint (!rep.isEmpty && b) (fun x => pySum (fun c => f c x) rep) :=
  pbp_foldl f rep (fun c _ => hf c) _ (pbp_lit 0)

/-- Closes goals about expressions built from the operations above. -/
macro "pbp" : tactic => `(tactic| repeat' with_reducible first
  | exact pbp_id
  | exact pbp_scalar _
  | exact pbp_lit _
  | exact pbp_imag
  | exact pbp_energy
  | exact pbp_call _
  | assumption
  | apply pbp_add
  | apply pbp_sub
  | apply pbp_mul
  | apply pbp_div
  | apply pbp_neg
  | apply pbp_pow
  | (apply pbp_pySum; intro c)
  | apply pbp_op1
  | apply pbp_op2)

/-! ## The dispersions -/

lemma pbp_cauchy (s : Pars V) : PointByPoint true (cauchyArr s) := by unfold cauchyArr; exact pbp_cast (by pbp) (by simp)
lemma pbp_cauchyCustom (s : Pars V) (rep : List (Pars V)) : PointByPoint (!rep.isEmpty) (cauchyCustomArr s rep) := by unfold cauchyCustomArr; exact pbp_cast (by pbp) (by simp)
lemma pbp_cauchyUrbach (s : Pars V) : PointByPoint true (cauchyUrbachArr s) := by unfold cauchyUrbachArr; dsimp only; exact pbp_cast (by pbp) (by simp)
lemma pbp_polynomial (s : Pars V) (rep : List (Pars V)) : PointByPoint (!rep.isEmpty) (polynomialArr s rep) := by unfold polynomialArr; exact pbp_cast (by pbp) (by simp)
lemma pbp_sellmeier (rep : List (Pars V)) : PointByPoint (!rep.isEmpty) (sellmeierArr rep) := by unfold sellmeierArr; dsimp only; exact pbp_cast (by pbp) (by simp)
lemma pbp_sellmeierCustom (rep : List (Pars V)) : PointByPoint (!rep.isEmpty) (sellmeierCustomArr rep) := by
  unfold sellmeierCustomArr; dsimp only; exact pbp_cast (by pbp) (by simp)
lemma pbp_drudeEnergy (s : Pars V) : PointByPoint true (drudeEnergyArr s) := by unfold drudeEnergyArr; dsimp only; exact pbp_cast (by pbp) (by simp)
lemma pbp_drudeResistivity (s : Pars V) : PointByPoint true (drudeResistivityArr s) := by unfold drudeResistivityArr; dsimp only; exact pbp_cast (by pbp) (by simp)
lemma pbp_lorentzEnergy (rep : List (Pars V)) : PointByPoint (!rep.isEmpty) (lorentzEnergyArr rep) := by unfold lorentzEnergyArr; dsimp only; exact pbp_cast (by pbp) (by simp)
lemma pbp_lorentzLambda (rep : List (Pars V)) : PointByPoint (!rep.isEmpty) (lorentzLambdaArr rep) := by unfold lorentzLambdaArr; exact pbp_cast (by pbp) (by simp)
lemma pbp_poles (s : Pars V) : PointByPoint true (polesArr s) := by unfold polesArr; dsimp only; exact pbp_cast (by pbp) (by simp)
lemma pbp_gaussian (rep : List (Pars V)) : PointByPoint (!rep.isEmpty) (gaussianArr rep) := by unfold gaussianArr; dsimp only; exact pbp_cast (by pbp) (by simp)
lemma pbp_taucEps1 {a : Bool} {F : Out V → Out V} (hF : PointByPoint a F) (Eg Ai Ei Ci : V) :
    PointByPoint a (fun x => taucEps1Arr (F x) (scalar Eg) (scalar Ai) (scalar Ei) (scalar Ci)) := by
  unfold taucEps1Arr; dsimp only; exact pbp_cast (by pbp) (by simp)
lemma pbp_taucLorentz (s : Pars V) (rep : List (Pars V)) : PointByPoint (!rep.isEmpty) (taucLorentzArr s rep) := by
  have h := fun c : Pars V => pbp_taucEps1 pbp_energy (s "Eg") (c "A") (c "E") (c "C")
  unfold taucLorentzArr
  dsimp only
  refine pbp_cast (pbp_pySum (b := true) _ _ fun c => ?_) (by simp)
  have h := h c
  exact pbp_cast (by pbp) (by simp)
lemma pbp_codyLorentz (f : V → Except PyErr V) (s : Pars V) : PointByPoint true (codyLorentzArr f s) := by
  unfold codyLorentzArr codyEps2Arr; dsimp only; exact pbp_cast (by pbp) (by simp)
lemma pbp_tanguyG {a : Bool} {F : Out V → Out V} (hF : PointByPoint a F) (d : V) : PointByPoint a (fun x => tanguyGArr (F x) d) := by
  unfold tanguyGArr
  dsimp only
  split_ifs
  · exact pbp_cast (by pbp) (by simp)
  · exact pbp_cast (by pbp) (by simp)
  · exact pbp_cast (by pbp) (by simp)
lemma pbp_tanguy (s : Pars V) : PointByPoint true (tanguyArr s) := by
  have h1 : PointByPoint true fun x => tanguyXsiArr (energyArr x + imagUnit * scalar (s "gamma")) (scalar (s "R")) (scalar (s "Eg")) := by
    unfold tanguyXsiArr; exact pbp_cast (by pbp) (by simp)
  have h2 : PointByPoint true fun x => tanguyXsiArr (-energyArr x - imagUnit * scalar (s "gamma")) (scalar (s "R")) (scalar (s "Eg")) := by
    unfold tanguyXsiArr; exact pbp_cast (by pbp) (by simp)
  have h3 : PointByPoint true fun x => tanguyXsiArr (energyArr x * lit 0) (scalar (s "R")) (scalar (s "Eg")) := by
    unfold tanguyXsiArr; exact pbp_cast (by pbp) (by simp)
  have h1 := pbp_tanguyG h1 (s "d")
  have h2 := pbp_tanguyG h2 (s "d")
  have h3 := pbp_tanguyG h3 (s "d")
  unfold tanguyArr
  dsimp only
  exact pbp_cast (by pbp) (by simp)

lemma pbp_foldl_any {ι : Type} (b : ι → Bool) (f : ι → Out V → Out V) (rep : List ι) (hf : ∀ c ∈ rep, PointByPoint (b c) (f c)) :
    ∀ {a : Bool} (acc : Out V → Out V), PointByPoint a acc →
      PointByPoint (a || rep.any b) (fun x => (rep.map fun c => f c x).foldl (· + ·) (acc x)) := by
  induction rep with
  | nil => intro a acc ha; simpa using ha
  | cons c rep ih =>
    intro a acc ha
    have := ih (fun d hd => hf d (List.mem_cons_of_mem _ hd)) (fun x => acc x + f c x) (pbp_add ha (hf c List.mem_cons_self))
    refine pbp_cast this ?_
    rw [List.any_cons, Bool.or_assoc]

lemma pbp_own {a b : Bool} {F G : Out V → Out V} (h : PointByPoint a F) (hab : b = a) (hFG : ∀ l, G l = F l) : PointByPoint b G := by
  rw [hab, show G = F from funext hFG]
  exact h

theorem own_pbp : (d : DispObj V) → PointByPoint (Varies d) d.own
  | .constantIndex s => pbp_own (pbp_scalar _) (by simp only [Varies]) fun l => by simp only [DispObj.own]; rfl
  | .cauchy s => pbp_own (pbp_cauchy s) (by simp only [Varies]) fun l => by simp only [DispObj.own]
  | .cauchyCustom s rep => pbp_own (pbp_cauchyCustom s rep) (by simp only [Varies]) fun l => by simp only [DispObj.own]
  | .cauchyUrbach s => pbp_own (pbp_cauchyUrbach s) (by simp only [Varies]) fun l => by simp only [DispObj.own]
  | .tableIndex f => pbp_own (pbp_call f) (by simp only [Varies]) fun l => by simp only [DispObj.own, tableArr]
  | .indexSum parts => by
    have h : ∀ p ∈ parts, PointByPoint (Varies p) p.own := fun p hp => own_pbp p
    have := pbp_foldl_any _ _ parts h _ (pbp_lit (V := V) 0)
    exact pbp_own this (by simp [Varies]) fun l => by simp only [DispObj.own]
  | .epsilonInf s => pbp_own (pbp_scalar _) (by simp only [Varies]) fun l => by simp only [DispObj.own]; rfl
  | .polynomial s rep => pbp_own (pbp_polynomial s rep) (by simp only [Varies]) fun l => by simp only [DispObj.own]
  | .sellmeier rep => pbp_own (pbp_sellmeier rep) (by simp only [Varies]) fun l => by simp only [DispObj.own]
  | .sellmeierCustom rep => pbp_own (pbp_sellmeierCustom rep) (by simp only [Varies]) fun l => by simp only [DispObj.own]
  | .drudeEnergy s => pbp_own (pbp_drudeEnergy s) (by simp only [Varies]) fun l => by simp only [DispObj.own]
  | .drudeResistivity s => pbp_own (pbp_drudeResistivity s) (by simp only [Varies]) fun l => by simp only [DispObj.own]
  | .lorentzEnergy rep => pbp_own (pbp_lorentzEnergy rep) (by simp only [Varies]) fun l => by simp only [DispObj.own]
  | .lorentzLambda rep => pbp_own (pbp_lorentzLambda rep) (by simp only [Varies]) fun l => by simp only [DispObj.own]
  | .poles s => pbp_own (pbp_poles s) (by simp only [Varies]) fun l => by simp only [DispObj.own]
  | .gaussian rep => pbp_own (pbp_gaussian rep) (by simp only [Varies]) fun l => by simp only [DispObj.own]
  | .taucLorentz s rep => pbp_own (pbp_taucLorentz s rep) (by simp only [Varies]) fun l => by simp only [DispObj.own]
  | .codyLorentz f s => pbp_own (pbp_codyLorentz f s) (by simp only [Varies]) fun l => by simp only [DispObj.own]
  | .tanguy s => pbp_own (pbp_tanguy s) (by simp only [Varies]) fun l => by simp only [DispObj.own]
  | .tableEpsilon f => pbp_own (pbp_call f) (by simp only [Varies]) fun l => by simp only [DispObj.own, tableArr]
  | .sum parts => by
    have h : ∀ p ∈ parts, PointByPoint (Varies p) (fun l => if p.isIndex then powLit (p.own l) 2 else p.own l) := by
      intro p hp
      have := own_pbp p
      split_ifs
      · exact pbp_pow this 2
      · exact this
    have := pbp_foldl_any _ _ parts h _ (pbp_lit (V := V) 0)
    exact pbp_own this (by simp [Varies]) fun l => by simp only [DispObj.own]

/-- C113: `get_dielectric` and `get_refractive_index` of every dispersion act on each wavelength separately, for arrays of any shape. -/
theorem C113_point_by_point (d : DispObj V) : PointByPoint (Varies d) d.getDielectric ∧ PointByPoint (Varies d) d.getRefractiveIndex := by
  have h := own_pbp d
  have hd : PointByPoint (Varies d) d.dielectricFunction := by
    unfold DispObj.dielectricFunction
    split_ifs
    · exact pbp_pow h 2
    · exact h
  refine ⟨hd, ?_⟩
  unfold DispObj.getRefractiveIndex
  split_ifs
  · exact h
  · exact pbp_op1 hd _

end PyElli.Nd
