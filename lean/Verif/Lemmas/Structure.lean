import Verif.Model.Structure
import Verif.Lemmas.Rotation
import Mathlib.Tactic

namespace PyElli

open Matrix

lemma diffs_map_range (h : ℝ) (n s : ℕ) :
    diffs ((List.range' s (n + 1)).map fun (k : ℕ) => (k : ℝ) * h) = List.replicate n h := by
  induction n generalizing s with
  | zero => simp [List.range', diffs]
  | succ n ih =>
    have := ih (s + 1)
    rw [List.range'_succ, List.map_cons]
    rw [List.range'_succ, List.map_cons] at this ⊢
    rw [diffs, this, List.replicate_succ]
    congr 1
    push_cast
    ring

lemma midpoints_map_range (h : ℝ) (n s : ℕ) :
    midpoints ((List.range' s (n + 1)).map fun (k : ℕ) => (k : ℝ) * h) =
      (List.range' s n).map fun (k : ℕ) => ((k : ℝ) + 1 / 2) * h := by
  unfold midpoints
  induction n generalizing s with
  | zero => simp
  | succ n ih =>
    have := ih (s + 1)
    rw [List.range'_succ, List.map_cons]
    rw [List.range'_succ, List.map_cons] at this ⊢
    simp only [List.tail_cons, List.dropLast_cons_cons] at this ⊢
    rw [List.zipWith_cons_cons]
    conv_rhs => rw [List.range'_succ, List.map_cons]
    congr 1
    · push_cast; ring

/-- The slices of an inhomogeneous layer in closed form. -/
lemma inhomogeneousProfile_eq (t : ℝ) (div : ℕ) (tensor : ℝ → NumTensor) :
    inhomogeneousProfile t div tensor =
      (List.range div).map fun (k : ℕ) => ⟨t / div, tensor (((k : ℝ) + 1 / 2) * (t / div))⟩ := by
  unfold inhomogeneousProfile getSlices
  simp only
  rw [List.range_eq_range', diffs_map_range, midpoints_map_range, List.range_eq_range']
  have key : ∀ (l : List ℕ) (n : ℕ), n = l.length →
      List.zipWith Slice.mk (List.replicate n (t / div))
        (List.map tensor (List.map (fun (k : ℕ) => ((k : ℝ) + 1 / 2) * (t / div)) l)) =
      l.map fun (k : ℕ) => ⟨t / div, tensor (((k : ℝ) + 1 / 2) * (t / div))⟩ := by
    intro l
    induction l with
    | nil => intro n hn; subst hn; rfl
    | cons a l ih =>
      intro n hn
      subst hn
      simp only [List.length_cons, List.replicate_succ, List.map_cons, List.zipWith_cons_cons]
      rw [ih _ rfl]
  exact key _ _ (by simp)

lemma profileList_eq (ls : List LayerObj) (lbda : ℝ) :
    profileList ls lbda = ls.flatMap fun l => l.profile lbda := by
  induction ls with
  | nil => simp [profileList]
  | cons a t ih => simp [profileList, ih]

end PyElli
