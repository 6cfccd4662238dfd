import Verif.Model.Kkr
import Verif.Spec.Kkr
import Mathlib.Tactic

/-! # Kramers-Kronig transforms (C55, C56) -/

namespace PyElli

/-- The part of a summand that does not depend on the data. -/
noncomputable def KkrKind.kernel (k : KkrKind) (x xi : ℝ) : Option ℝ := k.term 1 x xi

lemma term_kernel (k : KkrKind) (t x xi : ℝ) : k.term t x xi = (k.kernel x xi).map fun w => w * t := by
  cases k <;> simp only [KkrKind.kernel, KkrKind.term, divN, Option.bind]
  · split_ifs <;> simp; ring
  · split_ifs <;> simp; ring
  · split_ifs <;> simp <;> split_ifs <;> simp [div_eq_inv_mul]
  · split_ifs <;> simp <;> split_ifs <;> simp [div_eq_inv_mul]

/-- Indices of the other parity. -/
def others (n i : ℕ) : List ℕ := (List.range n).filter fun j => j % 2 ≠ i % 2

lemma kkrIntegral_others (k : KkrKind) (t x : ℕ → ℝ) (n i : ℕ) :
    kkrIntegral k t x n i = sumN ((others n i).map fun j => k.term (t j) (x j) (x i)) := by
  unfold kkrIntegral others slice2
  rcases Nat.mod_two_eq_zero_or_one i with h | h
  · rw [if_pos h]
    congr 2
    apply List.filter_congr
    intro j _
    rw [h]
    rcases Nat.mod_two_eq_zero_or_one j with h' | h' <;> simp [h']
  · rw [if_neg (by omega)]
    congr 2
    apply List.filter_congr
    intro j _
    rw [h]
    rcases Nat.mod_two_eq_zero_or_one j with h' | h' <;> simp [h']

/-- A weighted sum over a list of indices with weights that may be undefined. -/
lemma sumN_weights (js : List ℕ) (w : ℕ → Option ℝ) (t : ℕ → ℝ) :
    sumN (js.map fun j => (w j).map fun a => a * t j) =
      if ∀ j ∈ js, (w j).isSome then some ((js.map fun j => (w j).getD 0 * t j).sum) else none := by
  induction js with
  | nil => simp [sumN]
  | cons j js ih =>
    simp only [List.map_cons, List.forall_mem_cons, List.sum_cons]
    cases hw : w j with
    | none => simp [sumN]
    | some a =>
      simp only [Option.map_some, sumN, ih, Option.isSome_some, true_and, Option.getD_some]
      split_ifs <;> simp

/-- The transform of one point is a weighted sum of the data at the points of the other parity. -/
lemma kkrPoint_eq (k : KkrKind) (t x : ℕ → ℝ) (n i : ℕ) :
    kkrPoint k t x n i =
      if ∀ j ∈ others n i, (k.kernel (x j) (x i)).isSome then
        some (4 / Real.pi * kkrInterval x i * ((others n i).map fun j => (k.kernel (x j) (x i)).getD 0 * t j).sum)
      else none := by
  unfold kkrPoint
  rw [kkrIntegral_others]
  simp only [term_kernel]
  rw [sumN_weights (others n i) (fun j => k.kernel (x j) (x i)) t]
  split_ifs <;> rfl

/-- C55: unequal lengths raise `ValueError`, fewer than two points `IndexError`, everything else gives as many values as points. -/
theorem C55_lengths (k : KkrKind) (t x : List ℝ) :
    (calcKkr k t x = .error .valueError ↔ t.length ≠ x.length) ∧
    (calcKkr k t x = .error .indexError ↔ t.length = x.length ∧ x.length < 2) ∧
    (t.length = x.length → 2 ≤ x.length → ∃ out, calcKkr k t x = .ok out ∧ out.length = x.length) := by
  unfold calcKkr
  refine ⟨?_, ?_, ?_⟩
  · by_cases h1 : t.length = x.length
    · by_cases h2 : x.length < 2 <;> simp [h1, h2]
    · simp [h1]
  · by_cases h1 : t.length = x.length
    · by_cases h2 : x.length < 2 <;> simp [h1, h2]
    · simp [h1]
  · intro h1 h2
    rw [if_neg (by simpa using h1), if_neg (by omega)]
    exact ⟨_, rfl, by simp⟩

/-- C55: the transforms are linear in the data (at points where the axis makes them defined; whether a point is defined does not
depend on the data). -/
theorem C55_linear (k : KkrKind) (t u x : List ℝ) (a b : ℝ) (ht : t.length = x.length) (hu : u.length = x.length)
    (h2 : 2 ≤ x.length) :
    ∃ ot ou oc, calcKkr k t x = .ok ot ∧ calcKkr k u x = .ok ou ∧
      calcKkr k (List.zipWith (fun p q => a * p + b * q) t u) x = .ok oc ∧
      ∀ i < x.length,
        (∃ p q, ot[i]? = some (some p) ∧ ou[i]? = some (some q) ∧ oc[i]? = some (some (a * p + b * q))) ∨
        (ot[i]? = some none ∧ ou[i]? = some none ∧ oc[i]? = some none) := by
  have hz : (List.zipWith (fun p q => a * p + b * q) t u).length = x.length := by simp [ht, hu]
  refine ⟨_, _, _, by rw [calcKkr, if_neg (by simpa using ht), if_neg (by omega)],
    by rw [calcKkr, if_neg (by simpa using hu), if_neg (by omega)],
    by rw [calcKkr, if_neg (by simpa using hz), if_neg (by omega)], ?_⟩
  intro i hi
  simp only [List.getElem?_map, List.getElem?_range hi, Option.map_some, kkrPoint_eq]
  have hsum : ((others x.length i).map fun j => (k.kernel (x.getD j 0) (x.getD i 0)).getD 0 *
        (List.zipWith (fun p q => a * p + b * q) t u).getD j 0).sum =
      a * ((others x.length i).map fun j => (k.kernel (x.getD j 0) (x.getD i 0)).getD 0 * t.getD j 0).sum +
      b * ((others x.length i).map fun j => (k.kernel (x.getD j 0) (x.getD i 0)).getD 0 * u.getD j 0).sum := by
    rw [← List.sum_map_mul_left, ← List.sum_map_mul_left, ← List.sum_map_add]
    congr 1
    apply List.map_congr_left
    intro j hj
    have hj' : j < x.length := List.mem_range.1 (List.mem_filter.1 hj).1
    have e : (List.zipWith (fun p q => a * p + b * q) t u).getD j 0 = a * t.getD j 0 + b * u.getD j 0 := by
      simp [List.getD, ht, hu, hj']
    rw [e]
    ring
  split_ifs with hdef
  · left
    refine ⟨_, _, rfl, rfl, ?_⟩
    rw [hsum]
    congr 2
    ring
  · right
    exact ⟨rfl, rfl, rfl⟩

/-- C55: the value at point `i` does not depend on the data at points of the same parity, in particular not on its own. -/
theorem C55_parity (k : KkrKind) (t t' x : List ℝ) (ht : t.length = x.length) (ht' : t'.length = x.length) (h2 : 2 ≤ x.length)
    (i : ℕ) (hi : i < x.length) (h : ∀ j < x.length, j % 2 ≠ i % 2 → t[j]? = t'[j]?) :
    ∃ o o', calcKkr k t x = .ok o ∧ calcKkr k t' x = .ok o' ∧ o[i]? = o'[i]? := by
  refine ⟨_, _, by rw [calcKkr, if_neg (by simpa using ht), if_neg (by omega)],
    by rw [calcKkr, if_neg (by simpa using ht'), if_neg (by omega)], ?_⟩
  simp only [List.getElem?_map, List.getElem?_range hi, Option.map_some, kkrPoint_eq]
  have : ((others x.length i).map fun j => (k.kernel (x.getD j 0) (x.getD i 0)).getD 0 * t.getD j 0) =
      (others x.length i).map fun j => (k.kernel (x.getD j 0) (x.getD i 0)).getD 0 * t'.getD j 0 := by
    apply List.map_congr_left
    intro j hj
    obtain ⟨h1, h2⟩ := List.mem_filter.1 hj
    have := h j (List.mem_range.1 h1) (by simpa using h2)
    simp only [List.getD_eq_getElem?_getD, this]
  rw [this]

lemma kernel_scale (k : KkrKind) (s x xi : ℝ) (hs : s ≠ 0) :
    k.kernel (s * x) (s * xi) = (k.kernel x xi).map fun w => w / s := by
  have hss : s * s ≠ 0 := mul_ne_zero hs hs
  cases k <;> simp only [KkrKind.kernel, KkrKind.term, divN, Option.bind]
  · have e : s * x * (s * x) - s * xi * (s * xi) = s * s * (x * x - xi * xi) := by ring
    rw [e]
    by_cases h : x * x - xi * xi = 0
    · simp [h]
    · simp [h, hs]
      field_simp
  · have e : s * x * (s * x) - s * xi * (s * xi) = s * s * (x * x - xi * xi) := by ring
    rw [e]
    by_cases h : x * x - xi * xi = 0
    · simp [h]
    · simp [h, hs]
      field_simp
  · by_cases h : xi = 0
    · simp [h]
    · have e : s * xi - s * x * (s * x) / (s * xi) = s * (xi - x * x / xi) := by field_simp
      simp only [mul_eq_zero, hs, h, if_false, or_self, e]
      by_cases h' : xi - x * x / xi = 0
      · simp [h']
      · simp [h']
        field_simp
  · by_cases h : xi = 0
    · simp [h]
    · have e : s * x * (1 - s * x * (s * x) / (s * xi * (s * xi))) = s * (x * (1 - x * x / (xi * xi))) := by field_simp
      have h1 : s * xi * (s * xi) ≠ 0 := by positivity
      have h2 : xi * xi ≠ 0 := by positivity
      rw [if_neg h1, if_neg h2]
      simp only [e]
      by_cases h' : x * (1 - x * x / (xi * xi)) = 0
      · simp [h']
      · rw [if_neg (mul_ne_zero hs h'), if_neg h']
        simp only [Option.map_some]
        congr 1
        field_simp

/-- C55: rescaling the axis (any non-zero factor) changes nothing. -/
theorem C55_axis_scale (k : KkrKind) (t x : List ℝ) (s : ℝ) (hs : s ≠ 0) :
    calcKkr k t (x.map (s * ·)) = calcKkr k t x := by
  unfold calcKkr
  simp only [List.length_map]
  split_ifs with h1 h2
  · rfl
  · rfl
  · congr 1
    apply List.map_congr_left
    intro i _
    have hx : (fun j => (x.map (s * ·)).getD j 0) = fun j => s * x.getD j 0 := by
      funext j
      simp only [List.getD_eq_getElem?_getD, List.getElem?_map]
      cases x[j]? <;> simp
    rw [hx, kkrPoint_eq, kkrPoint_eq]
    have hk : ∀ j, k.kernel (s * x.getD j 0) (s * x.getD i 0) = (k.kernel (x.getD j 0) (x.getD i 0)).map fun w => w / s :=
      fun j => kernel_scale k s _ _ hs
    simp only [hk, Option.isSome_map]
    split_ifs with h
    · congr 1
      have hI : kkrInterval (fun j => s * x.getD j 0) i = s * kkrInterval (fun j => x.getD j 0) i := by
        unfold kkrInterval
        split_ifs <;> ring
      have hS : ((others x.length i).map fun j => ((k.kernel (x.getD j 0) (x.getD i 0)).map fun w => w / s).getD 0 * t.getD j 0).sum =
          s⁻¹ * ((others x.length i).map fun j => (k.kernel (x.getD j 0) (x.getD i 0)).getD 0 * t.getD j 0).sum := by
        rw [← List.sum_map_mul_left]
        congr 1
        apply List.map_congr_left
        intro j _
        cases k.kernel (x.getD j 0) (x.getD i 0) with
        | none => simp
        | some w => simp; ring
      rw [hI, hS]
      field_simp
    · rfl

/-- C55: the reciprocal variants compute the same integrand: with `x = c/λ` the kernel on the wavelength axis is the kernel on the
reciprocal axis times `|dx/dλ| = c/λ²`. -/
theorem C55_reciprocal (c l li : ℝ) (hc : 0 < c) (hl : 0 < l) (hli : 0 < li) (t : ℝ) :
    KkrKind.im2reReciprocal.term t l li = (KkrKind.im2re.term t (c / l) (c / li)).map (· * (c / l ^ 2)) ∧
    KkrKind.re2imReciprocal.term t l li = (KkrKind.re2im.term t (c / l) (c / li)).map (· * (c / l ^ 2)) := by
  have h1 : li * li ≠ 0 := by positivity
  by_cases h : l = li
  · subst h
    simp [KkrKind.term, divN, hl.ne']
  · have hd : li ^ 2 - l ^ 2 ≠ 0 := by
      intro h0
      rcases sq_eq_sq_iff_eq_or_eq_neg.1 (sub_eq_zero.1 h0) with h' | h'
      · exact h h'.symm
      · linarith
    have e1 : l * (1 - l * l / (li * li)) = l * (li ^ 2 - l ^ 2) / li ^ 2 := by field_simp
    have e2 : c / l * (c / l) - c / li * (c / li) = c ^ 2 * (li ^ 2 - l ^ 2) / (l ^ 2 * li ^ 2) := by field_simp
    have e3 : li - l * l / li = (li ^ 2 - l ^ 2) / li := by field_simp
    have n1 : l * (li ^ 2 - l ^ 2) / li ^ 2 ≠ 0 := by positivity
    have n2 : c ^ 2 * (li ^ 2 - l ^ 2) / (l ^ 2 * li ^ 2) ≠ 0 := by positivity
    have n3 : (li ^ 2 - l ^ 2) / li ≠ 0 := by positivity
    constructor
    · simp only [KkrKind.term, divN, Option.bind, if_neg h1, e1, e2, if_neg n1, if_neg n2, Option.map_some]
      congr 1
      field_simp
    · simp only [KkrKind.term, divN, Option.bind, if_neg hli.ne', e3, e2, if_neg n3, if_neg n2, Option.map_some]
      congr 1
      field_simp

/-- Non-trivial case: three points, middle value of `im2re` for data 1, 5, 2 on the axis 1, 2, 3. -/
example : ∃ o, calcKkr .im2re [1, 5, 2] [1, 2, 3] = .ok o ∧ o[1]? = some (some (4 / Real.pi * 1 * (1 * 1 / (1 * 1 - 2 * 2) + (3 * 2 / (3 * 3 - 2 * 2) + 0)))) := by
  refine ⟨_, by rw [calcKkr, if_neg (by simp), if_neg (by simp)], ?_⟩
  have : slice2 0 3 = [0, 2] := by decide
  norm_num [kkrPoint, kkrIntegral, kkrInterval, this, KkrKind.term, divN]
  norm_num [sumN]

/-! ## Integration weight (C56) -/

/-- The four integrands of the module documentation, as total functions; used only where the denominators do not vanish. -/
noncomputable def docKernel : KkrKind → ℝ → ℝ → ℝ
  | .re2im, x, xi => xi / (x ^ 2 - xi ^ 2)
  | .im2re, x, xi => x / (x ^ 2 - xi ^ 2)
  | .re2imReciprocal, x, xi => 1 / (xi - x ^ 2 / xi)
  | .im2reReciprocal, x, xi => 1 / (x * (1 - x ^ 2 / xi ^ 2))

lemma kernel_doc (k : KkrKind) {x xi : ℝ} (hx : 0 < x) (hxi : 0 < xi) (hne : x ≠ xi) :
    k.kernel x xi = some (docKernel k x xi) := by
  have hd : x ^ 2 - xi ^ 2 ≠ 0 := by
    intro h
    rcases sq_eq_sq_iff_eq_or_eq_neg.1 (sub_eq_zero.1 h) with h | h
    · exact hne h
    · linarith
  have hd0 : x * x - xi * xi ≠ 0 := by rwa [← pow_two, ← pow_two]
  have hd' : xi ^ 2 - x ^ 2 ≠ 0 := fun h => hd (by linarith)
  cases k
  · simp [KkrKind.kernel, KkrKind.term, divN, docKernel, hd0, pow_two]
  · simp [KkrKind.kernel, KkrKind.term, divN, docKernel, hd0, pow_two]
  · have e : xi - x * x / xi = (xi ^ 2 - x ^ 2) / xi := by field_simp
    have n : xi - x * x / xi ≠ 0 := by rw [e]; positivity
    simp only [KkrKind.kernel, KkrKind.term, divN, Option.bind, if_neg hxi.ne', if_neg n, docKernel, pow_two]
  · have e : x * (1 - x * x / (xi * xi)) = x * (xi ^ 2 - x ^ 2) / xi ^ 2 := by field_simp
    have n : x * (1 - x * x / (xi * xi)) ≠ 0 := by rw [e]; positivity
    have n' : xi * xi ≠ 0 := by positivity
    simp only [KkrKind.kernel, KkrKind.term, divN, Option.bind, if_neg n', if_neg n, docKernel, pow_two]

lemma kkrPoint_equidistant (k : KkrKind) (t x : ℕ → ℝ) (x0 h : ℝ) (hx0 : 0 < x0) (hh : 0 < h) (n i : ℕ)
    (hx : ∀ j < n, x j = x0 + j * h) (hi : i < n) :
    kkrPoint k t x n i =
      some (kkrInterval x i / h * Spec.maclaurin (docKernel k) t x h n i) := by
  have hpos : ∀ j < n, 0 < x j := fun j hj => by rw [hx j hj]; positivity
  have hker : ∀ j ∈ others n i, k.kernel (x j) (x i) = some (docKernel k (x j) (x i)) := by
    intro j hj
    obtain ⟨h1, h2⟩ := List.mem_filter.1 hj
    have hj' := List.mem_range.1 h1
    refine kernel_doc k (hpos j hj') (hpos i hi) ?_
    rw [hx j hj', hx i hi]
    intro he
    have : ((j : ℝ) - i) * h = 0 := by linarith
    rcases mul_eq_zero.1 this with h0 | h0
    · have : j = i := by exact_mod_cast sub_eq_zero.1 h0
      subst this
      simp at h2
    · exact hh.ne' h0
  rw [kkrPoint_eq, if_pos (fun j hj => by rw [hker j hj]; rfl)]
  congr 1
  unfold Spec.maclaurin
  have hs : ((others n i).map fun j => (k.kernel (x j) (x i)).getD 0 * t j).sum =
      ∑ j ∈ Finset.range n, if j % 2 ≠ i % 2 then docKernel k (x j) (x i) * t j else 0 := by
    rw [← Finset.sum_filter]
    have e1 : ((others n i).map fun j => (k.kernel (x j) (x i)).getD 0 * t j) =
        (others n i).map fun j => docKernel k (x j) (x i) * t j := by
      apply List.map_congr_left
      intro j hj
      rw [hker j hj]; rfl
    rw [e1]
    have hnd : (others n i).Nodup := List.Nodup.filter _ List.nodup_range
    rw [← List.sum_toFinset _ hnd]
    congr 1
    ext j
    simp [others]
  rw [hs]
  field_simp
  ring

/-- C56 without the first point: on an equidistant positive axis every output point but the first is Maclaurin's formula with the grid
spacing as weight. Missing: the first point, where the property is false (`C56_first_point_refuted`). -/
theorem C56_weight_partial (k : KkrKind) (t x : List ℝ) (x0 h : ℝ) (hx0 : 0 < x0) (hh : 0 < h) (ht : t.length = x.length)
    (h2 : 2 ≤ x.length) (hx : ∀ j < x.length, x[j]? = some (x0 + j * h)) (i : ℕ) (hi0 : 1 ≤ i) (hi : i < x.length) :
    ∃ o, calcKkr k t x = .ok o ∧
      o[i]? = some (some (Spec.maclaurin (docKernel k) (fun j => t.getD j 0) (fun j => x0 + j * h) h x.length i)) := by
  have hx' : ∀ j < x.length, x.getD j 0 = x0 + j * h := fun j hj => by
    simp only [List.getD_eq_getElem?_getD, hx j hj, Option.getD_some]
  refine ⟨_, by rw [calcKkr, if_neg (by simpa using ht), if_neg (by omega)], ?_⟩
  simp only [List.getElem?_map, List.getElem?_range hi, Option.map_some]
  rw [kkrPoint_equidistant k _ _ x0 h hx0 hh x.length i hx' hi]
  have hI : kkrInterval (fun j => x.getD j 0) i = h := by
    unfold kkrInterval
    rw [if_neg (by omega)]
    simp only [hx' i hi, hx' (i - 1) (by omega)]
    have : ((i - 1 : ℕ) : ℝ) = (i : ℝ) - 1 := by push_cast [hi0]; ring
    rw [this]; ring
  rw [hI, div_self hh.ne', one_mul]
  congr 2
  unfold Spec.maclaurin
  congr 1
  apply Finset.sum_congr rfl
  intro j hj
  simp only [hx' j (Finset.mem_range.1 hj), hx' i hi]

/-- C56 is false at the first point: there the code uses `x₀ - h` instead of `h` as weight, for every equidistant axis. -/
theorem C56_first_point_refuted (k : KkrKind) (t x : List ℝ) (x0 h : ℝ) (hx0 : 0 < x0) (hh : 0 < h) (ht : t.length = x.length)
    (h2 : 2 ≤ x.length) (hx : ∀ j < x.length, x[j]? = some (x0 + j * h)) :
    ∃ o, calcKkr k t x = .ok o ∧
      o[0]? = some (some ((x0 - h) / h *
        Spec.maclaurin (docKernel k) (fun j => t.getD j 0) (fun j => x0 + j * h) h x.length 0)) := by
  have hx' : ∀ j < x.length, x.getD j 0 = x0 + j * h := fun j hj => by
    simp only [List.getD_eq_getElem?_getD, hx j hj, Option.getD_some]
  refine ⟨_, by rw [calcKkr, if_neg (by simpa using ht), if_neg (by omega)], ?_⟩
  have hi : 0 < x.length := by omega
  simp only [List.getElem?_map, List.getElem?_range hi, Option.map_some]
  rw [kkrPoint_equidistant k _ _ x0 h hx0 hh x.length 0 hx' hi]
  have hI : kkrInterval (fun j => x.getD j 0) 0 = x0 - h := by
    unfold kkrInterval
    rw [if_pos rfl]
    simp only [hx' 0 hi, hx' 1 (by omega)]
    push_cast; ring
  rw [hI]
  congr 3
  unfold Spec.maclaurin
  congr 1
  apply Finset.sum_congr rfl
  intro j hj
  simp only [hx' j (Finset.mem_range.1 hj), hx' 0 hi]

/-- Witness that the first point differs from Maclaurin's formula: axis 3, 4 with data 0, 1. -/
theorem C56_witness_refuted :
    ∃ o, calcKkr .im2re [0, 1] [3, 4] = .ok o ∧
      o[0]? ≠ some (some (Spec.maclaurin (docKernel .im2re) (fun j => [0, 1].getD j 0) (fun j => 3 + j * 1) 1 2 0)) := by
  obtain ⟨o, h1, h2⟩ := C56_first_point_refuted .im2re [0, 1] [3, 4] 3 1 (by norm_num) (by norm_num) rfl (by simp)
    (by
      intro j hj
      simp only [List.length_cons, List.length_nil] at hj
      interval_cases j <;> norm_num)
  refine ⟨o, h1, ?_⟩
  rw [h2]
  intro h
  simp only [Option.some.injEq] at h
  have hpi := Real.pi_pos
  have : Spec.maclaurin (docKernel .im2re) (fun j => [0, 1].getD j 0) (fun j => 3 + j * 1) 1 2 0 = 2 / Real.pi * 2 * (4 / 7) := by
    simp [Spec.maclaurin, docKernel, Finset.sum_range_succ]
    norm_num
  have h' : (3 - 1) / 1 * Spec.maclaurin (docKernel .im2re) (fun j => [0, 1].getD j 0) (fun j => 3 + j * 1) 1 2 0 =
      Spec.maclaurin (docKernel .im2re) (fun j => [0, 1].getD j 0) (fun j => 3 + j * 1) 1 2 0 := h
  rw [this] at h'
  have : 0 < 2 / Real.pi * 2 * (4 / 7) := by positivity
  linarith

end PyElli
