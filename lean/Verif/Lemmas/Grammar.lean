import Verif.Model.Grammar
import Mathlib.Tactic

/-! # A deterministic reading of token sequences, used to show that derivations are unique -/

namespace PyElli.Formula

/-- Modes of the reader: a nonterminal, or the rest of a chain after the part read so far. -/
inductive Mode
  | nt (n : NT)
  | tailE (r : Bool) (acc : Tree)
  | tailT (r : Bool) (acc : Tree)

def NoAdd : List Tok → Prop
  | .plus :: _ => False
  | .minus :: _ => False
  | _ => True

def NoMul : List Tok → Prop
  | .star :: _ => False
  | .slash :: _ => False
  | _ => True

def NoPow : List Tok → Prop
  | .pow :: _ => False
  | _ => True

/-- `R m input tree rest`: reading in mode `m` gives `tree` and leaves `rest`. -/
inductive R : Mode → List Tok → Tree → List Tok → Prop
  | expr {r i a m t o} : R (.nt (.term r)) i a m → R (.tailE r a) m t o → R (.nt (.expression r)) i t o
  | eStop {r a i} : NoAdd i → R (.tailE r a) i a i
  | eAdd {r a b i m t o} : R (.nt (.term r)) i b m → R (.tailE r (.add a b)) m t o → R (.tailE r a) (.plus :: i) t o
  | eSub {r a b i m t o} : R (.nt (.term r)) i b m → R (.tailE r (.sub a b)) m t o → R (.tailE r a) (.minus :: i) t o
  | term {r i a m t o} : R (.nt (.factor r)) i a m → R (.tailT r a) m t o → R (.nt (.term r)) i t o
  | tStop {r a i} : NoMul i → R (.tailT r a) i a i
  | tMul {r a b i m t o} : R (.nt (.factor r)) i b m → R (.tailT r (.mul a b)) m t o → R (.tailT r a) (.star :: i) t o
  | tDiv {r a b i m t o} : R (.nt (.factor r)) i b m → R (.tailT r (.div a b)) m t o → R (.tailT r a) (.slash :: i) t o
  | fOne {r i a m} : R (.nt (.power r)) i a m → NoPow m → R (.nt (.factor r)) i a m
  | fPow {r i a b m o} : R (.nt (.power r)) i a (.pow :: m) → R (.nt (.power r)) m b o → R (.nt (.factor r)) i (.power a b) o
  | paren {r i t o} : R (.nt (.expression r)) i t (.rpar :: o) → R (.nt (.power r)) (.lpar :: i) t o
  | func {r f i t o} : R (.nt (.expression r)) i t (.rpar :: o) → R (.nt (.power r)) (.func f :: .lpar :: i) (.func f t) o
  | sum {i t o} : R (.nt (.expression true)) i t (.rbrk :: o) → R (.nt (.power false)) (.kwSum :: .lbrk :: i) (.sumExpr t) o
  | single {s o} : R (.nt (.power false)) (.name s :: o) (.singleParamName s) o
  | param {s o} : R (.nt (.power true)) (.name s :: o) (.paramName s) o
  | number {r s o} : R (.nt (.power r)) (.number s :: o) (.number s) o
  | builtin {r s o} : R (.nt (.power r)) (.builtin s :: o) (.builtin s) o

/-- The reader is deterministic. -/
lemma R.det {m : Mode} {i : List Tok} {t : Tree} {o : List Tok} (h : R m i t o) :
    ∀ {t' o'}, R m i t' o' → t' = t ∧ o' = o := by
  induction h with
  | expr _ _ ih1 ih2 =>
    intro t' o' h'
    cases h' with
    | expr a b =>
      obtain ⟨rfl, rfl⟩ := ih1 a
      exact ih2 b
  | eStop hn =>
    intro t' o' h'
    cases h' with
    | eStop _ => exact ⟨rfl, rfl⟩
    | eAdd _ _ => exact hn.elim
    | eSub _ _ => exact hn.elim
  | eAdd _ _ ih1 ih2 =>
    intro t' o' h'
    cases h' with
    | eStop hn => exact hn.elim
    | eAdd a b =>
      obtain ⟨rfl, rfl⟩ := ih1 a
      exact ih2 b
  | eSub _ _ ih1 ih2 =>
    intro t' o' h'
    cases h' with
    | eStop hn => exact hn.elim
    | eSub a b =>
      obtain ⟨rfl, rfl⟩ := ih1 a
      exact ih2 b
  | term _ _ ih1 ih2 =>
    intro t' o' h'
    cases h' with
    | term a b =>
      obtain ⟨rfl, rfl⟩ := ih1 a
      exact ih2 b
  | tStop hn =>
    intro t' o' h'
    cases h' with
    | tStop _ => exact ⟨rfl, rfl⟩
    | tMul _ _ => exact hn.elim
    | tDiv _ _ => exact hn.elim
  | tMul _ _ ih1 ih2 =>
    intro t' o' h'
    cases h' with
    | tStop hn => exact hn.elim
    | tMul a b =>
      obtain ⟨rfl, rfl⟩ := ih1 a
      exact ih2 b
  | tDiv _ _ ih1 ih2 =>
    intro t' o' h'
    cases h' with
    | tStop hn => exact hn.elim
    | tDiv a b =>
      obtain ⟨rfl, rfl⟩ := ih1 a
      exact ih2 b
  | fOne _ hn ih =>
    intro t' o' h'
    cases h' with
    | fOne a _ => exact ih a
    | fPow a b =>
      obtain ⟨rfl, rfl⟩ := ih a
      exact hn.elim
  | fPow _ _ ih1 ih2 =>
    intro t' o' h'
    cases h' with
    | fOne a hn =>
      obtain ⟨rfl, rfl⟩ := ih1 a
      exact hn.elim
    | fPow a b =>
      obtain ⟨rfl, e⟩ := ih1 a
      cases e
      obtain ⟨rfl, rfl⟩ := ih2 b
      exact ⟨rfl, rfl⟩
  | paren _ ih =>
    intro t' o' h'
    cases h' with
    | paren a =>
      obtain ⟨rfl, e⟩ := ih a
      cases e
      exact ⟨rfl, rfl⟩
  | func _ ih =>
    intro t' o' h'
    cases h' with
    | func a =>
      obtain ⟨rfl, e⟩ := ih a
      cases e
      exact ⟨rfl, rfl⟩
  | sum _ ih =>
    intro t' o' h'
    cases h' with
    | sum a =>
      obtain ⟨rfl, e⟩ := ih a
      cases e
      exact ⟨rfl, rfl⟩
  | single => intro t' o' h'; cases h'; exact ⟨rfl, rfl⟩
  | param => intro t' o' h'; cases h'; exact ⟨rfl, rfl⟩
  | number => intro t' o' h'; cases h'; exact ⟨rfl, rfl⟩
  | builtin => intro t' o' h'; cases h'; exact ⟨rfl, rfl⟩

/-- What a derivation says about reading its tokens followed by anything. -/
def Reads : NT → List Tok → Tree → Prop
  | .expression r, u, t => ∀ rest w o, NoMul rest → NoPow rest → R (.tailE r t) rest w o → R (.nt (.expression r)) (u ++ rest) w o
  | .term r, u, t => ∀ rest w o, NoPow rest → R (.tailT r t) rest w o → R (.nt (.term r)) (u ++ rest) w o
  | .factor r, u, t => ∀ rest, NoPow rest → R (.nt (.factor r)) (u ++ rest) t rest
  | .power r, u, t => ∀ rest, R (.nt (.power r)) (u ++ rest) t rest

lemma reads {n : NT} {u : List Tok} {t : Tree} (h : D n u t) : Reads n u t := by
  induction h with
  | exprTerm _ ih =>
    intro rest w o h1 h2 h3
    exact R.expr (ih rest _ _ h2 (R.tStop h1)) h3
  | exprAdd _ _ ih1 ih2 =>
    intro rest w o h1 h2 h3
    rw [List.append_assoc, List.cons_append]
    exact ih1 _ w o trivial trivial (R.eAdd (ih2 rest _ _ h2 (R.tStop h1)) h3)
  | exprSub _ _ ih1 ih2 =>
    intro rest w o h1 h2 h3
    rw [List.append_assoc, List.cons_append]
    exact ih1 _ w o trivial trivial (R.eSub (ih2 rest _ _ h2 (R.tStop h1)) h3)
  | termFactor _ ih =>
    intro rest w o h2 h3
    exact R.term (ih rest h2) h3
  | termMul _ _ ih1 ih2 =>
    intro rest w o h2 h3
    rw [List.append_assoc, List.cons_append]
    exact ih1 _ w o trivial (R.tMul (ih2 rest h2) h3)
  | termDiv _ _ ih1 ih2 =>
    intro rest w o h2 h3
    rw [List.append_assoc, List.cons_append]
    exact ih1 _ w o trivial (R.tDiv (ih2 rest h2) h3)
  | factorPower _ ih =>
    intro rest h2
    exact R.fOne (ih rest) h2
  | factorPow _ _ ih1 ih2 =>
    intro rest h2
    rw [List.append_assoc, List.cons_append]
    exact R.fPow (ih1 _) (ih2 rest)
  | powParen _ ih =>
    intro rest
    rw [List.append_assoc]
    exact R.paren (ih (.rpar :: rest) _ _ trivial trivial (R.eStop trivial))
  | powFunc _ ih =>
    intro rest
    rw [List.append_assoc]
    exact R.func (ih (.rpar :: rest) _ _ trivial trivial (R.eStop trivial))
  | powSum _ ih =>
    intro rest
    rw [List.append_assoc]
    exact R.sum (ih (.rbrk :: rest) _ _ trivial trivial (R.eStop trivial))
  | powSingle => intro rest; exact R.single
  | powParam => intro rest; exact R.param
  | powNumber => intro rest; exact R.number
  | powBuiltin => intro rest; exact R.builtin

/-- A derivation reads its own tokens completely. -/
lemma reads_all {n : NT} {u : List Tok} {t : Tree} (h : D n u t) : R (.nt n) u t [] := by
  have h' := reads h
  cases n with
  | expression r => simpa using h' [] t [] trivial trivial (R.eStop trivial)
  | term r => simpa using h' [] t [] trivial (R.tStop trivial)
  | factor r => simpa using h' [] trivial
  | power r => simpa using h' []

end PyElli.Formula
