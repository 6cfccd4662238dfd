import Verif.Props.DispValues
import Verif.Model.ArrayExact
import Verif.Model.Formula
import Verif.Lemmas.NdLinear

/-! # Dispersions act on every wavelength separately: examples, exceptions, and the dispersions of the array solver (C113) -/

namespace PyElli.Nd

open PyElli Spec

variable {V : Type} [Arith V] [Special V]

lemma values_fold {K : PhysConst} {dawsn : ℝ → ℝ} {φ : ℂ → V} (hx : Exact K dawsn φ) {g : DispObj V → Out V} {lbda : ℝ} {parts : List (DispObj V)}
    {Ms : List (ℝ → Option ℂ)} (h : List.Forall₂ (fun p M => ∀ w, M lbda = some w → g p = scalar (φ w)) parts Ms) :
    ∀ (a t : ℂ), sumN (Ms.map fun M => M lbda) = some t → (parts.map g).foldl (· + ·) (scalar (φ a)) = scalar (φ (a + t)) := by
  induction h with
  | nil =>
    intro a t ht
    simp only [List.map_nil, sumN, Option.some.injEq] at ht
    simp [← ht]
  | @cons p M parts Ms hp _ ih =>
    intro a t ht
    rcases hM : M lbda with _ | w
    · simp [sumN, hM] at ht
    · simp only [List.map_cons, hM, sumN, Option.map_eq_some_iff] at ht
      obtain ⟨t', h1, rfl⟩ := ht
      rw [List.map_cons, List.foldl_cons, ex_add hx rfl (hp w hM), ih _ _ h1, add_assoc]

/-- C113: a sum of dispersions has the sum of the dielectric functions of its terms (the squares of the terms that are refractive indices), a sum of index
dispersions the square of the sum of their refractive indices. `Ms` lists the formulas of the terms, and which of them are refractive indices. -/
theorem C113_sums {K : PhysConst} {dawsn : ℝ → ℝ} {φ : ℂ → V} (hx : Exact K dawsn φ) {parts : List (DispObj V)} {Ms : List (Bool × (ℝ → Option ℂ))}
    (h : List.Forall₂ (fun p M => HasFormula K dawsn φ M.1 p M.2) parts Ms) {lbda : ℝ} {t : ℂ} :
    (sumN (Ms.map fun M => (M.2 lbda).map fun w => if M.1 then w ^ 2 else w) = some t → (DispObj.sum parts).getDielectric (scalar (φ lbda)) = scalar (φ t)) ∧
    (sumN (Ms.map fun M => M.2 lbda) = some t → (∀ M ∈ Ms, M.1 = true) → (DispObj.indexSum parts).getRefractiveIndex (scalar (φ lbda)) = scalar (φ t) ∧
      (DispObj.indexSum parts).getDielectric (scalar (φ lbda)) = scalar (φ (t ^ 2))) := by
  have h0 : (lit 0 : Out V) = scalar (φ 0) := ex_cast (ex_lit hx 0) (by simp)
  constructor
  · intro ht
    have h' : List.Forall₂ (fun p M => ∀ w, M lbda = some w →
        (fun p : DispObj V => if p.isIndex then powLit (p.own (scalar (φ lbda))) 2 else p.own (scalar (φ lbda))) p = scalar (φ w)) parts
        (Ms.map fun M => fun l => (M.2 l).map fun w => if M.1 then w ^ 2 else w) := by
      rw [List.forall₂_map_right_iff]
      refine h.imp fun p M hp w hw => ?_
      obtain ⟨v, hv, rfl⟩ := Option.map_eq_some_iff.1 hw
      dsimp only
      have := values_own hx hp hv
      rw [isIndex_formula hp]
      split_ifs
      · exact ex_pow2 hx this
      · exact this
    have := values_fold hx h' 0 t (by rw [List.map_map]; exact ht)
    rw [zero_add] at this
    simp only [DispObj.getDielectric, DispObj.dielectricFunction, DispObj.isIndex, Bool.false_eq_true, if_false, DispObj.own, h0]
    exact this
  · intro ht _
    have h' : List.Forall₂ (fun p M => ∀ w, M lbda = some w → (fun p : DispObj V => p.own (scalar (φ lbda))) p = scalar (φ w)) parts (Ms.map Prod.snd) := by
      rw [List.forall₂_map_right_iff]
      exact h.imp fun p M hp w hw => values_own hx hp hw
    have := values_fold hx h' 0 t (by rw [List.map_map]; exact ht)
    rw [zero_add] at this
    have hown : (DispObj.indexSum parts).own (scalar (φ lbda)) = scalar (φ t) := by
      simp only [DispObj.own, h0]
      exact this
    constructor
    · simpa only [DispObj.getRefractiveIndex, DispObj.isIndex, if_true] using hown
    · simp only [DispObj.getDielectric, DispObj.dielectricFunction, DispObj.isIndex, if_true]
      exact ex_pow2 hx hown

/-- The dispersion of `Model/ArraySolver.lean` for a dispersion object. -/
def toDisp (d : DispObj V) : Disp V :=
  if Varies d then .fn fun v => match d.getDielectric (scalar v) with
    | .ok A => .ok (A.val [])
    | .error e => .error e
  else match d.getDielectric (.ok ⟨[0], fun _ => Arith.nan⟩) with
    | .ok A => .const (A.val [])
    | .error e => .fn fun _ => .error e

/-- C113: what `Model/ArraySolver.lean` assumes about dispersions holds for every dispersion object: on the wavelengths of an experiment the
array code returns an array of the same shape with the same values, or raises where that raises. -/
theorem C113_array_solver (d : DispObj V) (L : List V) :
    match d.getDielectric (.ok (wavelengths L)), (toDisp d).eval (wavelengths L) with
    | .ok A, .ok B => A.shape = B.shape ∧ ∀ idx, IsPosition A.shape idx → A.val idx = B.val idx
    | .error _, .error _ => True
    | _, _ => False := by
  have h := (C113_point_by_point d).1
  have hsc : ∀ {v w : V}, (scalar v : Out V) = scalar w → v = w := by
    intro v w hvw
    exact congrArg (fun o : Out V => match o with | .ok A => A.val [] | .error _ => v) hvw
  rw [pbp_iff] at h
  have hpos : ∀ k, k < L.length → IsPosition (wavelengths L).shape [k] := fun k hk => .cons hk .nil
  rcases h (wavelengths L) with ⟨A, hF, h1, h0, h2⟩ | ⟨A, hF, h1, h0, h2⟩ | ⟨e, hF, idx, hi, h2⟩
  · -- an array
    rw [hF]
    unfold toDisp Disp.eval
    simp only [h0, if_true]
    have hall : ∀ k, k < L.length → (match d.getDielectric (scalar ((wavelengths L).val [k])) with
        | .ok A => (.ok (A.val []) : Except PyErr V)
        | .error e => .error e) = .ok (A.val [k]) := by
      intro k hk
      rw [h2 [k] (hpos k hk)]
      rfl
    rcases ht : traverseList (fun k => match d.getDielectric (scalar ((wavelengths L).val [k])) with
        | .ok A => (.ok (A.val []) : Except PyErr V)
        | .error e => .error e) (List.range ((wavelengths L).shape.headD 0)) with e | l
    · obtain ⟨k, hk, hk'⟩ := traverseList_error ht
      rw [hall k (by simpa [wavelengths] using hk)] at hk'
      cases hk'
    · obtain ⟨-, hl⟩ := traverseList_ok ht
      refine ⟨h1, fun idx hi => ?_⟩
      rw [h1] at hi
      cases hi with
      | @cons n i _ r hin hr =>
        cases hr
        obtain ⟨y, hy, hy'⟩ := hl i (by simpa [wavelengths] using hin)
        rw [List.getElem_range, hall i hin] at hy'
        simp only [List.headD_cons, List.getD_eq_getElem?_getD, hy, Option.getD_some]
        exact Except.ok.inj hy'
  · -- a number
    rw [hF]
    rcases h ⟨[0], fun _ => Arith.nan⟩ with ⟨A', hF', _, h0', _⟩ | ⟨A', hF', _, _, h2'⟩ | ⟨e, _, idx, hi, _⟩
    · rw [h0] at h0'; cases h0'
    · unfold toDisp
      simp only [h0, Bool.false_eq_true, if_false, hF', Disp.eval, scalar]
      refine ⟨h1, fun idx hi => ?_⟩
      rw [h1] at hi
      rw [position_nil hi]
      exact hsc ((h2 Arith.nan).symm.trans (h2' Arith.nan))
    · cases hi with
      | cons hi _ => exact absurd hi (Nat.not_lt_zero _)
  · -- an exception
    rw [hF]
    cases hi with
    | @cons n k _ r hk hr =>
      cases hr
      rcases hv : Varies d with _ | _
      · rcases h ⟨[0], fun _ => Arith.nan⟩ with ⟨A', hF', _, h0', _⟩ | ⟨A', hF', _, _, h2'⟩ | ⟨e, _, idx, hi, _⟩
        · rw [hv] at h0'; cases h0'
        · rw [h2'] at h2; cases h2
        · cases hi with
          | cons hi _ => exact absurd hi (Nat.not_lt_zero _)
      · unfold toDisp Disp.eval
        simp only [hv, if_true]
        rcases ht : traverseList (fun k => match d.getDielectric (scalar ((wavelengths L).val [k])) with
            | .ok A => (.ok (A.val []) : Except PyErr V)
            | .error e => .error e) (List.range ((wavelengths L).shape.headD 0)) with e | l
        · trivial
        · obtain ⟨-, hl⟩ := traverseList_ok ht
          obtain ⟨y, hy, hy'⟩ := hl k (by simpa [wavelengths] using hk)
          rw [List.getElem_range, h2] at hy'
          cases hy'

/-- C113 (the shape of the array is not always kept): a constant, and a dispersion to which no oscillator was added, return one number for any
number of wavelengths. -/
theorem C113_shape_refuted (s : Pars V) (L : List V) :
    (∃ A, (DispObj.epsilonInf s).getDielectric (.ok (wavelengths L)) = .ok A ∧ A.shape = []) ∧
    (∃ A, (DispObj.constantIndex s).getRefractiveIndex (.ok (wavelengths L)) = .ok A ∧ A.shape = []) ∧
    (∃ A, (DispObj.lorentzEnergy ([] : List (Pars V))).getDielectric (.ok (wavelengths L)) = .ok A ∧ A.shape = []) ∧
    (∃ A, (DispObj.sellmeier ([] : List (Pars V))).getRefractiveIndex (.ok (wavelengths L)) = .ok A ∧ A.shape = []) := by
  have key : ∀ {F : Out V → Out V}, PointByPoint false F → ∃ A, F (.ok (wavelengths L)) = .ok A ∧ A.shape = [] := by
    intro F hF
    rw [pbp_iff] at hF
    rcases hF (wavelengths L) with ⟨A, _, _, h0, _⟩ | ⟨A, e, h1, _⟩ | ⟨e, _, idx, hi, hv⟩
    · cases h0
    · exact ⟨A, e, h1⟩
    · rcases hF ⟨[0], fun _ => Arith.nan⟩ with ⟨A', _, _, h0', _⟩ | ⟨A', _, _, _, h2'⟩ | ⟨e, _, idx, hi, _⟩
      · cases h0'
      · rw [h2'] at hv; cases hv
      · cases hi with
        | cons hi _ => exact absurd hi (Nat.not_lt_zero _)
  refine ⟨key (pbp_cast (C113_point_by_point _).1 ?_), key (pbp_cast (C113_point_by_point _).2 ?_), key (pbp_cast (C113_point_by_point _).1 ?_),
    key (pbp_cast (C113_point_by_point _).2 ?_)⟩ <;> simp [Varies]

/-- C113 (formulas do not accept a number): a formula that has a value for the array of one wavelength raises `TypeError` for that wavelength. -/
theorem C113_formula_number_refuted {W : Type} (O : Formula.Ops W) (v : W) :
    ∃ (f : Formula.Obj W) (u : Formula.Unit W), (∃ r, Formula.dispersionFunction O f u (.array (N := 1) fun _ => v) = .ok ⟨0, .col r⟩ ∧ r 0 = v) ∧
      Formula.dispersionFunction O f u (.number (N := 1) v) = .error .typeError := by
  refine ⟨⟨.singleParamName "lbda", "lbda", [], ⟨[], []⟩, []⟩, .none, ⟨fun _ => v, ?_, rfl⟩, rfl⟩
  rfl

/-! ## Examples -/

/-- Exact arithmetic on complex numbers with the functions of the dispersions. -/
@[reducible] noncomputable def dispArith : Arith ℂ := { exact (fun z => z) (fun _ => (0, 0)) with arctan := Complex.arctan }

/-- The functions of scipy on complex numbers. -/
@[reducible] noncomputable def dispSpecial (K : PhysConst) (dawsn : ℝ → ℝ) : Special ℂ where
  log := Complex.log
  tan := Complex.tan
  gamma := Complex.Gamma
  digamma := Complex.digamma
  dawsn z := (dawsn z.re : ℂ)
  heaviside x v := (heaviside x.re v.re : ℂ)
  c := K.c
  h := K.h
  eps0 := K.eps0

/-- The hypothesis `Exact` can be met. -/
theorem exact_complex (K : PhysConst) (dawsn : ℝ → ℝ) : @Exact ℂ dispArith (dispSpecial K dawsn) K dawsn id := by
  letI := dispArith
  letI := dispSpecial K dawsn
  constructor
  case powNat => intro a n; exact Complex.cpow_natCast a n
  case powReal =>
    intro x e p h
    unfold powN at h
    split_ifs at h with h1 h2
    rw [← Option.some.inj h]
    show (x : ℂ) ^ (e : ℂ) = ((x ^ e : ℝ) : ℂ)
    rcases lt_or_ge x 0 with hx | hx
    · have : ∃ n : ℤ, e = n := by
        by_contra hn
        exact h1 ⟨hx, hn⟩
      obtain ⟨n, rfl⟩ := this
      rw [Real.rpow_intCast]
      push_cast
      exact Complex.cpow_intCast _ _
    · exact (Complex.ofReal_cpow hx e).symm
  case cot =>
    intro a _
    show (1 : ℂ) / Complex.tan a = _
    rw [Complex.tan_eq_sin_div_cos, one_div_div]
    rfl
  case abs =>
    intro x
    show ((‖(x : ℂ)‖ : ℝ) : ℂ) = _
    rw [Complex.norm_real]
    rfl
  case eq => intro a b; exact decide_eq_true_iff
  all_goals intros; rfl

/-- A Cauchy layer for two rows of three wavelengths: the squares of the indices at the same positions. -/
example (K : PhysConst) (dawsn : ℝ → ℝ) (lbda : List ℕ → ℝ) (hl : ∀ idx, IsPosition [2, 3] idx → lbda idx ≠ 0) :
    letI := dispArith
    letI := dispSpecial K dawsn
    HasEntries ((DispObj.cauchy fun k => if k = "n0" then (1.5 : ℂ) else 0).getDielectric (.ok ⟨[2, 3], fun idx => (lbda idx : ℂ)⟩)) [2, 3]
      (fun _ => (1.5 : ℂ) ^ 2) := by
  letI := dispArith
  letI := dispSpecial K dawsn
  have hd : HasFormula K dawsn id true (DispObj.cauchy fun k => if k = "n0" then (1.5 : ℂ) else 0)
      (cauchyIndex [("n0", 1.5), ("n1", 0), ("n2", 0), ("k0", 0), ("k1", 0), ("k2", 0)]) := by
    refine .cauchy ?_
    intro k v h
    by_cases h0 : k = "n0"
    · subst h0
      have : v = 1.5 := by simpa [Dict.get] using h.symm
      simp [this]
    · have : v = 0 := by
        simp only [Dict.get] at h
        rw [if_neg (Ne.symm h0)] at h
        split_ifs at h <;> exact (Option.some.inj h).symm
      simp [h0, this]
  have := (C113_values (exact_complex K dawsn) hd [2, 3] lbda (fun _ => 1.5) fun idx hi => ?_).1
  · exact this
  · have h2 := pow_ne_zero 2 (hl idx hi)
    have h4 := pow_ne_zero 4 (hl idx hi)
    simp [cauchyIndex, Dict.get, divN, h2, h4]

end PyElli.Nd
