import Verif.Props.Structure
import Mathlib.Data.List.DropRight

/-! # C26: the slice thicknesses of every layer list, with partial periods -/

namespace Spec

mutual
/-- The thicknesses of the slices of a layer, from the geometry alone: a plain layer is one slice, an inhomogeneous layer has equal slices,
a repeated group has the end of a period, whole periods and the beginning of a period. -/
noncomputable def heights : PyElli.LayerObj → List ℝ
  | .layer _ t => [t]
  | .twisted _ t div _ => List.replicate div (t / div)
  | .varying _ _ _ t div _ => List.replicate div (t / div)
  | .repeated ls n before after => (heightsList ls).rtake before ++ (List.replicate n (heightsList ls)).flatten ++ (heightsList ls).take after
/-- The same for layers one after the other. -/
noncomputable def heightsList : List PyElli.LayerObj → List ℝ
  | [] => []
  | l :: ls => heights l ++ heightsList ls
end

end Spec

namespace PyElli

open Spec

lemma map_repeated {A B : Type} (f : A → B) (l : List A) (n b a : ℕ) :
    (repeatedSlices l n b a).map f = (l.map f).rtake b ++ (List.replicate n (l.map f)).flatten ++ (l.map f).take a := by
  unfold repeatedSlices
  simp only [List.map_append, List.map_flatten, List.map_replicate, List.map_take]
  congr 2
  by_cases hb : b > 0
  · simp [hb, List.rtake]
  · have : b = 0 := by omega
    subst this
    simp [List.rtake]

lemma inhom_heights (t : ℝ) (div : ℕ) (tensor : ℝ → NumTensor) :
    (inhomogeneousProfile t div tensor).map Slice.d = List.replicate div (t / div) := by
  rw [inhomogeneousProfile_eq, List.map_map]
  have : (Slice.d ∘ fun (k : ℕ) => (⟨t / div, tensor (((k : ℝ) + 1 / 2) * (t / div))⟩ : Slice)) =
      fun _ => t / div := rfl
  rw [this]
  simp

mutual
lemma heights_aux (l : LayerObj) (lbda : ℝ) : (l.profile lbda).map Slice.d = heights l := by
  cases l with
  | layer m t => simp [LayerObj.profile, heights]
  | twisted m t div angle => simp only [LayerObj.profile, heights]; exact inhom_heights _ _ _
  | varying k hm g t div md => simp only [LayerObj.profile, heights]; exact inhom_heights _ _ _
  | repeated ls n b a =>
    simp only [LayerObj.profile, heights]
    rw [map_repeated, heightsList_aux ls lbda]
lemma heightsList_aux (ls : List LayerObj) (lbda : ℝ) : (profileList ls lbda).map Slice.d = heightsList ls := by
  cases ls with
  | nil => simp [profileList, heightsList]
  | cons a t =>
    simp only [profileList, heightsList, List.map_append]
    rw [heights_aux a lbda, heightsList_aux t lbda]
end

/-- C26: the slices of every layer list have the thicknesses of the geometry, at every wavelength: for any nesting of repeated, twisted and
varying layers, with partial periods before and after. -/
theorem C26_heights (s : Struct) (lbda : ℝ) : (s.profile lbda).tail.dropLast.map Prod.fst = (heightsList s.layers).map (WithTop.some : ℝ → WithTop ℝ) := by
  rw [(C26_profile_order s lbda).2.2.1, List.map_map, ← heightsList_aux s.layers lbda, profileList_eq, List.map_map]
  rfl

/-- Half a period of a group, then two periods, then a quarter. -/
example (m : Material) : heightsList [.layer m 3, .repeated [.layer m 1, .twisted m 2 2 90] 2 2 1] = [3, 1, 1, 1, 1, 1, 1, 1, 1, 1] := by
  simp [heightsList, heights, List.replicate, List.rtake]

end PyElli
