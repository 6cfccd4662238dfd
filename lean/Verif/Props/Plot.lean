import Verif.Model.Plot
import Verif.Spec.Plot
import Verif.Props.Structure
import Verif.Lemmas.Berreman
import Verif.Lemmas.Sqrt

/-! # C99: index profiles and drawings of structures -/

namespace PyElli.Plot

open PyElli Spec.Plot

/-- C99: the profile behind the drawings is the one the solvers use. -/
theorem C99_profile (s : Struct) (lbda : ℝ) : permittivityProfile s lbda = s.profile lbda := by
  simp [permittivityProfile, Struct.profile]

/-- C99: `get_index_profile` lists the media with their thicknesses, infinite for the half-spaces; along x the index is the root of `ε_xx`. -/
theorem C99_index_profile (s : Struct) (lbda : ℝ) (v : Fin 3 → ℝ) :
    (indexProfile s lbda v).map Prod.fst = ⊤ :: ((profileList s.layers lbda).map fun sl => (sl.d : WithTop ℝ)) ++ [⊤] ∧
    (indexProfile s lbda ![1, 0, 0]).map Prod.snd = (s.front.getTensor lbda :: (profileList s.layers lbda).map Slice.eps ++ [s.back.getTensor lbda]).map
      fun eps => (eps 0 0).map Complex.sqrt := by
  constructor
  · simp [indexProfile, permittivityProfile, Function.comp_def]
  · simp [indexProfile, permittivityProfile, Function.comp_def, indexAlong]

/-- Non-trivial case of C99_index_profile: two layers of 10 and 20 nm. -/
example (f a b k : Material) (lbda : ℝ) (v : Fin 3 → ℝ) :
    (indexProfile ⟨f, [.layer a 10, .layer b 20], k⟩ lbda v).map Prod.fst = [⊤, ((10 : ℝ) : WithTop ℝ), ((20 : ℝ) : WithTop ℝ), ⊤] := by
  rw [(C99_index_profile _ lbda v).1]
  simp [profileList, LayerObj.profile]

lemma shown_slabs {α : Type} (slabs : List (ℝ × α)) (hd : ∀ p ∈ slabs, 0 ≤ p.1) (back : α) (more : List α) (zm : ℝ) :
    ∀ z x : ℝ, z ≤ x → x < z + (slabs.map Prod.fst).sum + zm →
      shown ((slabs.map Prod.fst).scanl (· + ·) z ++ [z + (slabs.map Prod.fst).sum + zm]) (slabs.map Prod.snd ++ back :: more) x =
        some (below slabs back (x - z)) := by
  classical
  induction slabs with
  | nil =>
    intro z x h1 h2
    simp only [List.map_nil, List.sum_nil, add_zero] at h2 ⊢
    simp only [List.scanl_nil, List.cons_append, List.nil_append, shown, below]
    rw [if_pos ⟨h1, h2⟩]
  | cons p slabs ih =>
    intro z x h1 h2
    have ih' := ih (fun q hq => hd q (by simp [hq])) (z + p.1) x
    simp only [List.map_cons, List.sum_cons] at h2 ⊢
    have hs : (slabs.map Prod.fst).scanl (· + ·) (z + p.1) ++ [z + (p.1 + (slabs.map Prod.fst).sum) + zm] =
        (z + p.1) :: ((slabs.map Prod.fst).scanl (· + ·) (z + p.1) ++ [z + p.1 + (slabs.map Prod.fst).sum + zm]).tail := by
      cases slabs <;> simp [List.scanl_cons, add_assoc]
    rw [List.scanl_cons, List.cons_append, hs, List.cons_append]
    simp only [shown, below]
    by_cases hx : x < z + p.1
    · rw [if_pos ⟨h1, hx⟩, if_pos (by linarith)]
    · rw [if_neg (fun h => hx h.2), if_neg (by intro h; apply hx; linarith)]
      have := ih' (not_lt.1 hx) (by linarith)
      rw [sub_sub, ← this]
      congr 1
      cases slabs <;> simp [List.scanl_cons]

lemma shown_all {α : Type} (front : α) (slabs : List (ℝ × α)) (hd : ∀ p ∈ slabs, 0 ≤ p.1) (back : α) (more : List α) (zm : ℝ) (x : ℝ)
    (h1 : -zm ≤ x) (h2 : x < (slabs.map Prod.fst).sum + zm) :
    shown (-zm :: (boundaries (slabs.map Prod.fst) ++ [(slabs.map Prod.fst).sum + zm])) (front :: (slabs.map Prod.snd ++ back :: more)) x =
      some (mediumAt front slabs back x) := by
  classical
  have hs : boundaries (slabs.map Prod.fst) ++ [(slabs.map Prod.fst).sum + zm] =
      0 :: (boundaries (slabs.map Prod.fst) ++ [(slabs.map Prod.fst).sum + zm]).tail := by
    unfold boundaries
    cases slabs <;> simp [List.scanl_cons]
  rw [hs]
  simp only [shown, mediumAt]
  by_cases hx : x < 0
  · rw [if_pos ⟨h1, hx⟩, if_pos hx]
  · rw [if_neg (fun h => hx h.2), if_neg hx, ← hs]
    have := shown_slabs slabs hd back more zm 0 x (not_lt.1 hx) (by linarith)
    simpa [boundaries] using this

/-- Real part of the index along x of a tensor. -/
noncomputable def realIndex (eps : NumTensor) : Option ℝ := (eps 0 0).map fun e => (Complex.sqrt e).re

/-- The slabs of a structure with their index. -/
noncomputable def slabs (s : Struct) (lbda : ℝ) : List (ℝ × Option ℝ) := (profileList s.layers lbda).map fun sl => (sl.d, realIndex sl.eps)

open Classical in
/-- How far beyond the sample the drawing reaches. -/
noncomputable def reach (s : Struct) (lbda margin : ℝ) : ℝ :=
  let total := ((profileList s.layers lbda).map Slice.d).sum
  if total ≠ 0 then margin * total else 1e-6

/-- C99: both drawings show at every depth the real part of the index of the medium at that depth: the incidence medium above the
surface, each slice of each layer at its place, the exit medium below. -/
theorem C99_drawing (s : Struct) (lbda margin x : ℝ) (hd : ∀ sl ∈ profileList s.layers lbda, 0 ≤ sl.d) (h1 : -reach s lbda margin ≤ x)
    (h2 : x < ((profileList s.layers lbda).map Slice.d).sum + reach s lbda margin) :
    drawGraph s lbda margin x =
      some (mediumAt (realIndex (s.front.getTensor lbda)) (slabs s lbda) (realIndex (s.back.getTensor lbda)) x) ∧
    drawSection s lbda margin x = drawGraph s lbda margin x := by
  have hi : ∀ eps : NumTensor, (indexAlong eX eps).map Complex.re = realIndex eps := by
    intro eps
    simp [indexAlong, realIndex, eX, Option.map_map, Function.comp_def]
  have hn : ((indexProfile s lbda eX).map fun p => p.2.map Complex.re) =
      realIndex (s.front.getTensor lbda) :: ((slabs s lbda).map Prod.snd ++ [realIndex (s.back.getTensor lbda)]) := by
    simp [indexProfile, permittivityProfile, slabs, hi, Function.comp_def]
  have hz : (profileList s.layers lbda).map Slice.d = (slabs s lbda).map Prod.fst := by simp [slabs, Function.comp_def]
  have hd' : ∀ p ∈ slabs s lbda, 0 ≤ p.1 := by
    intro p hp
    obtain ⟨sl, hsl, rfl⟩ := List.mem_map.1 hp
    exact hd sl hsl
  have hpos : positions ((profileList s.layers lbda).map Slice.d) margin = -reach s lbda margin ::
      (boundaries ((profileList s.layers lbda).map Slice.d) ++ [((profileList s.layers lbda).map Slice.d).sum + reach s lbda margin]) := rfl
  have key : ∀ more, shown (positions ((profileList s.layers lbda).map Slice.d) margin)
      (realIndex (s.front.getTensor lbda) :: ((slabs s lbda).map Prod.snd ++ realIndex (s.back.getTensor lbda) :: more)) x =
      some (mediumAt (realIndex (s.front.getTensor lbda)) (slabs s lbda) (realIndex (s.back.getTensor lbda)) x) := by
    intro more
    rw [hpos, hz]
    exact shown_all _ _ hd' _ more _ x h1 (by rw [← hz]; exact h2)
  constructor
  · unfold drawGraph
    simp only [hn]
    have hl : (realIndex (s.front.getTensor lbda) :: ((slabs s lbda).map Prod.snd ++ [realIndex (s.back.getTensor lbda)])).getLast? =
        some (realIndex (s.back.getTensor lbda)) := by
      rw [← List.cons_append, List.getLast?_concat]
    rw [hl]
    simpa using key [realIndex (s.back.getTensor lbda)]
  · have h3 := key []
    have h4 := key [realIndex (s.back.getTensor lbda)]
    unfold drawSection drawGraph
    simp only [hn]
    have hl : (realIndex (s.front.getTensor lbda) :: ((slabs s lbda).map Prod.snd ++ [realIndex (s.back.getTensor lbda)])).getLast? =
        some (realIndex (s.back.getTensor lbda)) := by
      rw [← List.cons_append, List.getLast?_concat]
    rw [hl, h3]
    simpa using h4.symm

/-- The index in a direction, `sqrt(v · ε v)`, as documented. -/
noncomputable def documented (v : Fin 3 → ℝ) (eps : Tensor) : ℂ := Complex.sqrt (∑ i, ∑ j, (v i : ℂ) * eps i j * v j)

/-- C99 for the default direction x: the profile has the index in that direction. Missing: every other direction
(`C99_direction_refuted`). -/
theorem C99_index_partial (eps : Tensor) : indexAlong eX (fun i j => some (eps i j)) = some (documented eX eps) := by
  simp [indexAlong, documented, eX, Fin.sum_univ_three]

/-- C99 fails for other directions, even in an isotropic medium of index `n`: the profile has `n |v_x|` instead of `n`. -/
theorem C99_direction_refuted (n : ℝ) (hn : 0 < n) (v : Fin 3 → ℝ) (hv : v 0 ^ 2 + v 1 ^ 2 + v 2 ^ 2 = 1) :
    indexAlong v (fun i j => some (isoTensor ((n : ℂ) ^ 2) i j)) = some ((n * |v 0| : ℝ) : ℂ) ∧
    documented v (isoTensor ((n : ℂ) ^ 2)) = n ∧
    (((n * |v 0| : ℝ) : ℂ) = n ↔ v 0 = 1 ∨ v 0 = -1) := by
  have hsq : ∀ r : ℝ, 0 ≤ r → Complex.sqrt ((r : ℂ) ^ 2) = r := by
    intro r hr
    rw [← Complex.ofReal_pow, show Complex.sqrt ((r ^ 2 : ℝ) : ℂ) = ((Real.sqrt (r ^ 2) : ℝ) : ℂ) from csqrt_ofReal (sq_nonneg r),
      Real.sqrt_sq hr]
  refine ⟨?_, ?_, ?_⟩
  · simp only [indexAlong, Option.map_some, isoTensor, if_true]
    congr 1
    rw [← hsq (n * |v 0|) (by positivity)]
    congr 1
    have : ((|v 0| : ℝ) : ℂ) ^ 2 = (v 0 : ℂ) ^ 2 := by exact_mod_cast sq_abs (v 0)
    push_cast
    rw [mul_pow, this]
    ring
  · unfold documented
    rw [← hsq n hn.le]
    congr 1
    have h : (v 0 : ℂ) ^ 2 + (v 1 : ℂ) ^ 2 + (v 2 : ℂ) ^ 2 = 1 := by exact_mod_cast hv
    simp only [Fin.sum_univ_three, isoTensor]
    simp
    rw [hsq n hn.le]
    linear_combination (n : ℂ) ^ 2 * h
  · constructor
    · intro h
      have h1 : n * |v 0| = n * 1 := by rw [mul_one]; exact_mod_cast h
      have h2 := mul_left_cancel₀ hn.ne' h1
      exact (abs_eq one_pos.le).1 h2
    · rintro (h | h) <;> rw [h] <;> simp

/-- Non-trivial case of C99_drawing: layers of 10 and 20 nm, margin 0.15; the drawing reaches from -4.5 to 34.5 nm, and shows the second
layer at 15 nm, the incidence medium at -1 nm and the exit medium from 30 nm on. -/
example (f a b k : Material) (lbda : ℝ) :
    drawGraph ⟨f, [.layer a 10, .layer b 20], k⟩ lbda 0.15 15 = some (realIndex (b.getTensor lbda)) ∧
    drawGraph ⟨f, [.layer a 10, .layer b 20], k⟩ lbda 0.15 (-1) = some (realIndex (f.getTensor lbda)) ∧
    drawSection ⟨f, [.layer a 10, .layer b 20], k⟩ lbda 0.15 30 = some (realIndex (k.getTensor lbda)) := by
  have hp : profileList [.layer a 10, .layer b 20] lbda = [⟨10, a.getTensor lbda⟩, ⟨20, b.getTensor lbda⟩] := by
    simp [profileList, LayerObj.profile]
  have hr : reach ⟨f, [.layer a 10, .layer b 20], k⟩ lbda 0.15 = 4.5 := by
    unfold reach
    simp only [hp]
    norm_num
  have hd : ∀ sl ∈ profileList [.layer a 10, .layer b 20] lbda, (0 : ℝ) ≤ sl.d := by
    rw [hp]
    simp
  have key := fun x => C99_drawing ⟨f, [.layer a 10, .layer b 20], k⟩ lbda 0.15 x hd
  simp only [hr, hp, slabs] at key
  refine ⟨?_, ?_, ?_⟩
  · rw [(key 15 (by norm_num) (by norm_num)).1]
    norm_num [mediumAt, below]
  · rw [(key (-1) (by norm_num) (by norm_num)).1]
    norm_num [mediumAt, below]
  · rw [(key 30 (by norm_num) (by norm_num)).2, (key 30 (by norm_num) (by norm_num)).1]
    norm_num [mediumAt, below]

/-- Non-trivial case of C99_direction_refuted: along y the profile has 0. -/
example : indexAlong ![0, 1, 0] (fun i j => some (isoTensor ((1.5 : ℝ) ^ 2) i j)) = some 0 := by
  have := (C99_direction_refuted 1.5 (by norm_num) ![0, 1, 0] (by simp)).1
  simpa using this

end PyElli.Plot
