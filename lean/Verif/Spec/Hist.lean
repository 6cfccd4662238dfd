import Verif.Model.Hist

/-! # Parameter history on values -/

namespace Spec.Hist

open PyElli PyElli.Hist

variable {V : Type}

/-- The last `n` elements, in order. -/
def lastN {A : Type} (n : ℕ) (l : List A) : List A := l.drop (l.length - n)

/-- Which operations put the current values into the history. -/
def commits : Op V → Bool
  | .commit | .updateValue _ _ | .updateParams _ | .trackedAdd _ _ => true
  | _ => false

/-- Which operations remove history entries on request. -/
def removes : Op V → Bool
  | .clear | .setMax _ | .pop => true
  | _ => false

/-- The history after an operation, as a list of parameter values; `cur` are the values before the operation. -/
def after (max : ℕ) (hist : List (List (String × V))) (cur : List (String × V)) : Op V → List (List (String × V))
  | .commit | .updateValue _ _ | .updateParams _ | .trackedAdd _ _ => lastN max (hist ++ [cur])
  | .pop => hist.dropLast
  | .clear => []
  | .setMax (.int i) => if 1 ≤ i then lastN i.toNat hist else hist
  | _ => hist

/-- Maximal length and history as a list of snapshots; `snap` is the snapshot that the operation takes if it commits. -/
def record {A : Type} (st : ℕ × List A) (op : Op V) (snap : A) : ℕ × List A :=
  match op with
  | .commit | .updateValue _ _ | .updateParams _ | .trackedAdd _ _ => (st.1, lastN st.1 (st.2 ++ [snap]))
  | .pop => (st.1, st.2.dropLast)
  | .clear => (st.1, [])
  | .setMax (.int i) => if 1 ≤ i then (i.toNat, lastN i.toNat st.2) else st
  | _ => st

end Spec.Hist
