import Verif.Lemmas.Grammar
import Verif.Spec.Formula

/-! # The formula grammar (C58) -/

namespace PyElli.Formula

open Spec.Formula

/-- C58: every token sequence has at most one reading, as an expression (inside or outside brackets) and as any part of one. -/
theorem C58_unambiguous (n : NT) (u : List Tok) (t t' : Tree) (h : D n u t) (h' : D n u t') : t = t' :=
  ((reads_all h').det (reads_all h)).1

/-- C58: whole formulas have at most one reading. -/
theorem C58_formula_unambiguous (u : List Tok) (a a' : Assignment) (h : DAssign u a) (h' : DAssign u a') : a = a' := by
  have key : ∀ (v : List Tok) (r r' : Rhs), DRhs v r → DRhs v r' → r = r' := by
    intro v r r' h h'
    have nokkr : ∀ v t, ¬ D (.expression false) (.kkr :: v) t := by
      intro v t hd
      have := reads_all hd
      have h1 : ∀ m i w o, R m i w o → ∀ v, i = .kkr :: v → (∃ n, m = .nt n) → False := by
        intro m i w o h
        induction h with
        | expr _ _ ih _ => exact fun v hi _ => ih v hi ⟨_, rfl⟩
        | term _ _ ih _ => exact fun v hi _ => ih v hi ⟨_, rfl⟩
        | fOne _ _ ih => exact fun v hi _ => ih v hi ⟨_, rfl⟩
        | fPow _ _ ih _ => exact fun v hi _ => ih v hi ⟨_, rfl⟩
        | eStop _ => rintro v - ⟨n, hn⟩; cases hn
        | eAdd _ _ _ _ => rintro v - ⟨n, hn⟩; cases hn
        | eSub _ _ _ _ => rintro v - ⟨n, hn⟩; cases hn
        | tStop _ => rintro v - ⟨n, hn⟩; cases hn
        | tMul _ _ _ _ => rintro v - ⟨n, hn⟩; cases hn
        | tDiv _ _ _ _ => rintro v - ⟨n, hn⟩; cases hn
        | paren _ _ => rintro v hi -; cases hi
        | func _ _ => rintro v hi -; cases hi
        | sum _ _ => rintro v hi -; cases hi
        | single => rintro v hi -; cases hi
        | param => rintro v hi -; cases hi
        | number => rintro v hi -; cases hi
        | builtin => rintro v hi -; cases hi
      exact h1 _ _ _ _ this v rfl ⟨_, rfl⟩
    cases h with
    | expr hd =>
      cases h' with
      | expr hd' => rw [C58_unambiguous _ _ _ _ hd hd']
      | kkr hd' => exact (nokkr _ _ hd).elim
    | kkr hd =>
      cases h' with
      | expr hd' => exact (nokkr _ _ hd').elim
      | kkr hd' => rw [C58_unambiguous _ _ _ _ hd hd']
  cases h with
  | eps h1 => cases h' with | eps h2 => rw [key _ _ _ h1 h2]
  | n h1 => cases h' with | n h2 => rw [key _ _ _ h1 h2]

/-- Where a level is allowed to stand. -/
private def levelNT (r : Bool) : ℕ → NT
  | 0 => .expression r
  | 1 => .term r
  | 2 => .factor r
  | _ => .power r

private lemma lift_power {r : Bool} {u : List Tok} {t : Tree} (h : D (.power r) u t) (l : ℕ) : D (levelNT r l) u t := by
  match l with
  | 0 => exact .exprTerm (.termFactor (.factorPower h))
  | 1 => exact .termFactor (.factorPower h)
  | 2 => exact .factorPower h
  | (n + 3) => exact h

private lemma lift_expr {r : Bool} {u : List Tok} {t : Tree} (h : D (.expression r) u t) (l : ℕ) :
    D (levelNT r l) (bracket (0 < l) u) t := by
  match l with
  | 0 => simpa [bracket, levelNT] using h
  | (n + 1) =>
    have : bracket (0 < n + 1) u = .lpar :: u ++ [.rpar] := by simp [bracket]
    rw [this]
    exact lift_power (.powParen h) _

private lemma lift_term {r : Bool} {u : List Tok} {t : Tree} (h : D (.term r) u t) (l : ℕ) :
    D (levelNT r l) (bracket (1 < l) u) t := by
  match l with
  | 0 => simpa [bracket, levelNT] using D.exprTerm h
  | 1 => simpa [bracket, levelNT] using h
  | (n + 2) =>
    have : bracket (1 < n + 2) u = .lpar :: u ++ [.rpar] := by simp [bracket]
    rw [this]
    exact lift_power (.powParen (.exprTerm h)) _

private lemma lift_factor {r : Bool} {u : List Tok} {t : Tree} (h : D (.factor r) u t) (l : ℕ) :
    D (levelNT r l) (bracket (2 < l) u) t := by
  match l with
  | 0 => simpa [bracket, levelNT] using D.exprTerm (D.termFactor h)
  | 1 => simpa [bracket, levelNT] using D.termFactor h
  | 2 => simpa [bracket, levelNT] using h
  | (n + 3) =>
    have : bracket (2 < n + 3) u = .lpar :: u ++ [.rpar] := by simp [bracket]
    rw [this]
    exact lift_power (.powParen (.exprTerm (.termFactor h))) _

private lemma derives_print (t : Tree) : ∀ (r : Bool) (l : ℕ), WellFormed r t → D (levelNT r l) (print l t) t := by
  induction t with
  | add a b ha hb => exact fun r l h => lift_expr (.exprAdd (ha r 0 h.1) (hb r 1 h.2)) l
  | sub a b ha hb => exact fun r l h => lift_expr (.exprSub (ha r 0 h.1) (hb r 1 h.2)) l
  | mul a b ha hb => exact fun r l h => lift_term (.termMul (ha r 1 h.1) (hb r 2 h.2)) l
  | div a b ha hb => exact fun r l h => lift_term (.termDiv (ha r 1 h.1) (hb r 2 h.2)) l
  | power a b ha hb => exact fun r l h => lift_factor (.factorPow (ha r 3 h.1) (hb r 3 h.2)) l
  | func f a ha => exact fun r l h => lift_power (.powFunc (ha r 0 h)) l
  | sumExpr a ha =>
    rintro r l ⟨rfl, h⟩
    exact lift_power (.powSum (ha true 0 h)) l
  | singleParamName s => rintro r l rfl; exact lift_power .powSingle l
  | paramName s => rintro r l rfl; exact lift_power .powParam l
  | number s => exact fun r l _ => lift_power .powNumber l
  | builtin s => exact fun r l _ => lift_power .powBuiltin l

/-- C58: writing an expression with the usual minimal brackets and parsing it gives the expression back, and nothing else. -/
theorem C58_print_parse (r : Bool) (t : Tree) (h : WellFormed r t) (t' : Tree) :
    D (.expression r) (print 0 t) t' ↔ t' = t := by
  constructor
  · exact fun h' => C58_unambiguous _ _ _ _ h' (derives_print t r 0 h)
  · rintro rfl
    exact derives_print t' r 0 h

/-- C58: every tree that parsing can give is well formed, so the round trip covers all formulas. -/
theorem C58_trees (n : NT) (u : List Tok) (t : Tree) (h : D n u t) :
    WellFormed (match n with | .expression r | .term r | .factor r | .power r => r) t := by
  induction h with
  | exprTerm _ ih => exact ih
  | exprAdd _ _ h1 h2 => exact ⟨h1, h2⟩
  | exprSub _ _ h1 h2 => exact ⟨h1, h2⟩
  | termFactor _ ih => exact ih
  | termMul _ _ h1 h2 => exact ⟨h1, h2⟩
  | termDiv _ _ h1 h2 => exact ⟨h1, h2⟩
  | factorPower _ ih => exact ih
  | factorPow _ _ h1 h2 => exact ⟨h1, h2⟩
  | powParen _ ih => exact ih
  | powFunc _ ih => exact ih
  | powSum _ ih => exact ⟨rfl, ih⟩
  | powSingle => rfl
  | powParam => rfl
  | powNumber => trivial
  | powBuiltin => trivial

/-- C58: a chain of `+` and `-` associates to the left, whatever its length. -/
theorem C58_sum_left (r : Bool) (u : List Tok) (a : Tree) (h : D (.term r) u a) (chain : List (AddOp × List Tok × Tree))
    (hc : ∀ c ∈ chain, D (.term r) c.2.1 c.2.2) (t : Tree) :
    D (.expression r) (chain.foldl (fun v c => v ++ c.1.tok :: c.2.1) u) t ↔ t = chain.foldl (fun x c => c.1.node x c.2.2) a := by
  have key : ∀ (chain : List (AddOp × List Tok × Tree)) (u : List Tok) (a : Tree), D (.expression r) u a →
      (∀ c ∈ chain, D (.term r) c.2.1 c.2.2) →
      D (.expression r) (chain.foldl (fun v c => v ++ c.1.tok :: c.2.1) u) (chain.foldl (fun x c => c.1.node x c.2.2) a) := by
    intro chain
    induction chain with
    | nil => exact fun u a h _ => h
    | cons c chain ih =>
      intro u a h hc
      refine ih _ _ ?_ fun d hd => hc d (by simp [hd])
      obtain ⟨op, v, b⟩ := c
      have hb := hc (op, v, b) (by simp)
      cases op with
      | plus => exact .exprAdd h hb
      | minus => exact .exprSub h hb
  constructor
  · exact fun h' => C58_unambiguous _ _ _ _ h' (key chain u a (.exprTerm h) hc)
  · rintro rfl
    exact key chain u a (.exprTerm h) hc

/-- C58: a chain of `*` and `/` associates to the left, and binds tighter than `+` and `-` (it is a term). -/
theorem C58_product_left (r : Bool) (u : List Tok) (a : Tree) (h : D (.factor r) u a) (chain : List (MulOp × List Tok × Tree))
    (hc : ∀ c ∈ chain, D (.factor r) c.2.1 c.2.2) (t : Tree) :
    D (.term r) (chain.foldl (fun v c => v ++ c.1.tok :: c.2.1) u) t ↔ t = chain.foldl (fun x c => c.1.node x c.2.2) a := by
  have key : ∀ (chain : List (MulOp × List Tok × Tree)) (u : List Tok) (a : Tree), D (.term r) u a →
      (∀ c ∈ chain, D (.factor r) c.2.1 c.2.2) →
      D (.term r) (chain.foldl (fun v c => v ++ c.1.tok :: c.2.1) u) (chain.foldl (fun x c => c.1.node x c.2.2) a) := by
    intro chain
    induction chain with
    | nil => exact fun u a h _ => h
    | cons c chain ih =>
      intro u a h hc
      refine ih _ _ ?_ fun d hd => hc d (by simp [hd])
      obtain ⟨op, v, b⟩ := c
      have hb := hc (op, v, b) (by simp)
      cases op with
      | times => exact .termMul h hb
      | divided => exact .termDiv h hb
  constructor
  · exact fun h' => C58_unambiguous _ _ _ _ h' (key chain u a (.termFactor h) hc)
  · rintro rfl
    exact key chain u a (.termFactor h) hc

/-- C58: `**` does not chain: `x ** y ** z` is rejected, whatever the operands and whatever follows. -/
theorem C58_power_no_chain (r : Bool) (u v w : List Tok) (a b : Tree) (hu : D (.power r) u a) (hv : D (.power r) v b) (t : Tree) :
    ¬ D (.expression r) (u ++ .pow :: (v ++ .pow :: w)) t := by
  intro h
  have h1 := reads_all h
  have h2 : R (.nt (.expression r)) (u ++ .pow :: (v ++ .pow :: w)) (.power a b) (.pow :: w) :=
    .expr (.term (.fPow (reads hu _) (reads hv _)) (.tStop trivial)) (.eStop trivial)
  have := (h2.det h1).2
  cases this

/-- C58: there is no unary minus for names, but a signed number is one token, so a sign binds tighter than `**`: the tokens of
`-2 ** 2` are read as `(-2) ** 2`. This is not the usual precedence. -/
theorem C58_signed_power_refuted (r : Bool) (t : Tree) :
    (D (.expression r) [.number "-2", .pow, .number "2"] t ↔ t = .power (.number "-2") (.number "2")) ∧
    (∀ s, ¬ D (.expression r) [.minus, .name s] t) := by
  constructor
  · have h := C58_print_parse r (.power (.number "-2") (.number "2")) ⟨trivial, trivial⟩ t
    exact h
  · intro s h
    have h1 : ∀ m i w o, R m i w o → ∀ v, i = .minus :: v → (∃ n, m = .nt n) → False := by
      intro m i w o h
      induction h with
      | expr _ _ ih _ => exact fun v hi _ => ih v hi ⟨_, rfl⟩
      | term _ _ ih _ => exact fun v hi _ => ih v hi ⟨_, rfl⟩
      | fOne _ _ ih => exact fun v hi _ => ih v hi ⟨_, rfl⟩
      | fPow _ _ ih _ => exact fun v hi _ => ih v hi ⟨_, rfl⟩
      | eStop _ => rintro v - ⟨n, hn⟩; cases hn
      | eAdd _ _ _ _ => rintro v - ⟨n, hn⟩; cases hn
      | eSub _ _ _ _ => rintro v - ⟨n, hn⟩; cases hn
      | tStop _ => rintro v - ⟨n, hn⟩; cases hn
      | tMul _ _ _ _ => rintro v - ⟨n, hn⟩; cases hn
      | tDiv _ _ _ _ => rintro v - ⟨n, hn⟩; cases hn
      | paren _ _ => rintro v hi -; cases hi
      | func _ _ => rintro v hi -; cases hi
      | sum _ _ => rintro v hi -; cases hi
      | single => rintro v hi -; cases hi
      | param => rintro v hi -; cases hi
      | number => rintro v hi -; cases hi
      | builtin => rintro v hi -; cases hi
    exact h1 _ _ _ _ (reads_all h) _ rfl ⟨_, rfl⟩

/-- Non-trivial case: the Sellmeier formula `1 + sum[A * l ** 2 / (l ** 2 - B)]` has exactly one reading. -/
example (t : Tree) : D (.expression false)
    [.number "1", .plus, .kwSum, .lbrk, .name "A", .star, .name "l", .pow, .number "2", .slash, .lpar, .name "l", .pow, .number "2",
      .minus, .name "B", .rpar, .rbrk] t ↔
    t = .add (.number "1") (.sumExpr (.div (.mul (.paramName "A") (.power (.paramName "l") (.number "2")))
      (.sub (.power (.paramName "l") (.number "2")) (.paramName "B")))) :=
  C58_print_parse false (.add (.number "1") (.sumExpr (.div (.mul (.paramName "A") (.power (.paramName "l") (.number "2")))
    (.sub (.power (.paramName "l") (.number "2")) (.paramName "B"))))) (by simp [WellFormed]) t

end PyElli.Formula
