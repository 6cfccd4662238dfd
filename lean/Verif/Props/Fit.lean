import Verif.Model.Fit
import Verif.Model.Result
import Verif.Spec.Fit
import Verif.Props.Angles

/-! # C66, C75: residuals of the fitting classes -/

namespace PyElli.Fit

open PyElli Spec Spec.Fit

lemma npSub_eq {α : Type} [Sub α] {x y : List α} (h : x.length = y.length) :
    npSub x y = .ok (List.zipWith (· - ·) x y) := by
  unfold npSub
  rw [if_pos h]

lemma zipWith_sub_zero {α : Type} [AddGroup α] : ∀ {x y : List α}, x.length = y.length →
    ((∀ d ∈ List.zipWith (· - ·) x y, d = 0) ↔ x = y)
  | [], [], _ => by simp
  | a :: x, b :: y, h => by
    have ih := zipWith_sub_zero (x := x) (y := y) (by simpa using h)
    simp only [List.zipWith_cons_cons, List.mem_cons, forall_eq_or_imp, ih, sub_eq_zero, List.cons.injEq]
  | [], _ :: _, h => by simp at h
  | _ :: _, [], h => by simp at h

lemma map_re_im_eq {x y : List ℂ} (h : x.length = y.length) :
    (x.map Complex.re = y.map Complex.re ∧ x.map Complex.im = y.map Complex.im) ↔ x = y := by
  constructor
  · rintro ⟨h1, h2⟩
    apply List.ext_getElem h
    intro k hx hy
    have e1 := congrArg (fun l => l[k]?) h1
    have e2 := congrArg (fun l => l[k]?) h2
    simp only [List.getElem?_map, List.getElem?_eq_getElem hx, List.getElem?_eq_getElem hy, Option.map_some,
      Option.some.injEq] at e1 e2
    exact Complex.ext e1 e2
  · rintro rfl
    exact ⟨rfl, rfl⟩

lemma fitFunction_eq {x rho : List ℂ} (h : x.length = rho.length) :
    fitFunction (x.map Complex.re) (x.map Complex.im) rho =
      .ok (List.zipWith (· - ·) (x.map Complex.re) (rho.map Complex.re)
        ++ List.zipWith (· - ·) (x.map Complex.im) (rho.map Complex.im)) := by
  unfold fitFunction
  rw [npSub_eq (by simpa using h), npSub_eq (by simpa using h)]

/-- C66: for a model with one value per measured row the residual has two entries per row, whatever the values, and it vanishes exactly
when the model satisfies the ellipsometric equation with the measured Ψ and Δ in every row. -/
theorem C66_rho_zero (data : List (ℝ × ℝ)) (rho : List ℂ) (h : data.length = rho.length) :
    ∃ r, fitResidual data rho = .ok r ∧ r.length = 2 * data.length ∧ ((∀ d ∈ r, d = 0) ↔ Reproduces data rho) := by
  have hl : (data.map fun r => calcRho r.1 r.2).length = rho.length := by simpa using h
  refine ⟨_, fitFunction_eq hl, ?_, ?_⟩
  · simp only [List.length_append, List.length_zipWith, List.length_map]
    omega
  · simp only [List.mem_append, or_imp, forall_and]
    rw [zipWith_sub_zero (by simpa using h), zipWith_sub_zero (by simpa using h), map_re_im_eq hl]
    constructor
    · intro e
      refine ⟨h, fun k hd hr => ?_⟩
      rw [← C03_calc_rho_spec]
      have := congrArg (fun l => l[k]?) e
      simpa [List.getElem?_map, List.getElem?_eq_getElem hd, List.getElem?_eq_getElem hr] using this
    · rintro ⟨-, e⟩
      apply List.ext_getElem hl
      intro k hd hr
      have := e k (by simpa using hd) hr
      rw [← C03_calc_rho_spec] at this
      simpa using this

/-- The hypothesis is met, with a model that fits: a row with Ψ = 0. -/
example : fitResidual [(0, 30)] [0] = .ok [0, 0] := by
  have : calcRho 0 30 = 0 := by simp [calcRho, deg2rad]
  simp [fitResidual, fitFunction, npSub, this]

/-- C66: a model with another number of values than the data (and not a single one) is refused with `ValueError`. -/
theorem C66_shape_error (data : List (ℝ × ℝ)) (rho : List ℂ) (h : data.length ≠ rho.length) (h1 : data.length ≠ 1)
    (h2 : rho.length ≠ 1) : fitResidual data rho = .error .valueError := by
  have key : ∀ x y : List ℝ, x.length ≠ y.length → x.length ≠ 1 → y.length ≠ 1 → npSub x y = .error .valueError := by
    intro x y ha hb hc
    unfold npSub
    rw [if_neg ha]
    split
    · simp at hb
    · simp at hc
    · rfl
  simp only [fitResidual, fitFunction]
  rw [key _ _ (by simpa using h) (by simpa using h1) (by simpa using h2)]

example : fitResidual [] [0, 0] = .error .valueError := C66_shape_error _ _ (by simp) (by simp) (by simp)

/-- C66, broadcasting: a model with one value is compared with every measured row, and a single measured row with every value of the model, always as measured
minus modelled. -/
theorem C66_broadcast (data : List (ℝ × ℝ)) (hd : data.length ≠ 1) (d : ℝ × ℝ) (rho : List ℂ) (hr : rho.length ≠ 1) (m : ℂ) :
    fitResidual data [m] = .ok ((data.map fun r => (calcRho r.1 r.2).re - m.re) ++ data.map fun r => (calcRho r.1 r.2).im - m.im) ∧
    fitResidual [d] rho = .ok ((rho.map fun z => (calcRho d.1 d.2).re - z.re) ++ rho.map fun z => (calcRho d.1 d.2).im - z.im) := by
  have h1 : ∀ (x : List ℝ) (b : ℝ), x.length ≠ 1 → npSub x [b] = .ok (x.map fun a => a - b) := by
    intro x b hx
    unfold npSub
    rw [if_neg (by simpa using hx)]
    match x, hx with
    | [], _ => rfl
    | _ :: _ :: _, _ => rfl
  have h2 : ∀ (y : List ℝ) (a : ℝ), y.length ≠ 1 → npSub [a] y = .ok (y.map fun b => a - b) := by
    intro y a hy
    unfold npSub
    rw [if_neg (by simpa using fun h => hy h.symm)]
  constructor
  · simp only [fitResidual, fitFunction, List.map_cons, List.map_nil]
    rw [h1 _ _ (by simpa using hd), h1 _ _ (by simpa using hd)]
    simp [List.map_map, Function.comp_def]
  · simp only [fitResidual, fitFunction, List.map_cons, List.map_nil]
    rw [h2 _ _ (by simpa using hr), h2 _ _ (by simpa using hr)]
    simp [List.map_map, Function.comp_def]

/-- Non-trivial case: three rows against one value. -/
example (m : ℂ) : ∃ r, fitResidual [(10, 20), (30, 40), (50, 60)] [m] = .ok r ∧ r.length = 6 :=
  ⟨_, (C66_broadcast [(10, 20), (30, 40), (50, 60)] (by simp) (0, 0) [] (by simp) m).1, by simp⟩

/-- C66: what least squares minimises is the sum of the squared distances of the measured and modelled ratio in the complex plane. -/
theorem C66_cost (data : List (ℝ × ℝ)) (rho : List ℂ) (h : data.length = rho.length) :
    ∃ r, fitResidual data rho = .ok r ∧
      (r.map (· ^ 2)).sum = (List.zipWith (fun d m => ‖calcRho d.1 d.2 - m‖ ^ 2) data rho).sum := by
  have hl : (data.map fun r => calcRho r.1 r.2).length = rho.length := by simpa using h
  refine ⟨_, fitFunction_eq hl, ?_⟩
  clear hl
  induction data generalizing rho with
  | nil => cases rho <;> simp at *
  | cons d data ih =>
    cases rho with
    | nil => simp at h
    | cons m rho =>
      have e := ih rho (by simpa using h)
      simp only [List.map_append, List.sum_append, List.map_cons, List.zipWith_cons_cons, List.sum_cons] at e ⊢
      rw [← e, ← Complex.normSq_eq_norm_sq, Complex.normSq_apply]
      simp only [Complex.sub_re, Complex.sub_im]
      ring

/-- C66 in terms of angles: for measured 0 ≤ Ψ < 90 and a result in a range starting at a multiple of 180 degrees (the default one), the
ellipsometric equation says that the modelled psi is Ψ and, unless Ψ = 0, the modelled delta is Δ up to full turns. -/
theorem C66_angles (res : Result) (k : ℤ) (hr : res.range.lower = 180 * k) (psi delta : ℝ) (h0 : 0 ≤ psi) (h90 : psi < 90) :
    EllipsometricEq res.rho psi delta ↔ res.psi = psi ∧ (psi ≠ 0 → SameAngle res.delta delta) := by
  have hpi := Real.pi_pos
  have hrt := C03_round_trip_partial res k hr
  rw [← C03_calc_rho_spec] at hrt ⊢
  have hlt : -(Real.pi / 2) < deg2rad psi ∧ deg2rad psi < Real.pi / 2 := by
    unfold deg2rad
    constructor <;> nlinarith
  have htan0 : 0 ≤ Real.tan (deg2rad psi) := by
    apply Real.tan_nonneg_of_nonneg_of_le_pi_div_two _ hlt.2.le
    unfold deg2rad
    positivity
  have hnorm : ∀ p d, ‖calcRho p d‖ = |Real.tan (deg2rad p)| := by
    intro p d
    unfold calcRho
    have : (-Complex.I * (deg2rad d : ℂ)) = ((-deg2rad d : ℝ) : ℂ) * Complex.I := by push_cast; ring
    rw [norm_mul, this, Complex.norm_exp_ofReal_mul_I, mul_one, Complex.norm_real, Real.norm_eq_abs]
  constructor
  · intro h
    have hp : res.psi = psi := by
      unfold Result.psi psiOf
      rw [← h, hnorm, abs_of_nonneg htan0, Real.arctan_tan hlt.1 hlt.2]
      unfold rad2deg deg2rad
      field_simp
    refine ⟨hp, fun hne => ?_⟩
    rw [← h, hp] at hrt
    unfold calcRho at hrt
    have htan : Real.tan (deg2rad psi) ≠ 0 := by
      have : 0 < Real.tan (deg2rad psi) := by
        apply Real.tan_pos_of_pos_of_lt_pi_div_two _ hlt.2
        unfold deg2rad
        have : 0 < psi := lt_of_le_of_ne h0 (Ne.symm hne)
        positivity
      exact this.ne'
    have he := mul_left_cancel₀ (by exact_mod_cast htan) hrt
    have hone : Complex.exp (-Complex.I * (deg2rad (2 * ((res.delta - delta) / 2)) : ℂ)) = 1 := by
      have : (-Complex.I * (deg2rad (2 * ((res.delta - delta) / 2)) : ℂ)) =
          (-Complex.I * (deg2rad res.delta : ℂ)) - (-Complex.I * (deg2rad delta : ℂ)) := by
        unfold deg2rad
        push_cast
        ring
      rw [this, Complex.exp_sub, he, div_self (Complex.exp_ne_zero _)]
    obtain ⟨n, hn⟩ := (exp_deg_eq_one_iff _).1 hone
    exact ⟨n, by linarith⟩
  · rintro ⟨hp, hd⟩
    rw [hp] at hrt
    by_cases hz : psi = 0
    · rw [← hrt]
      simp [calcRho, hz, deg2rad]
    · obtain ⟨n, hn⟩ := hd hz
      rw [← hrt]
      unfold calcRho
      rw [exp_deg_period delta res.delta n hn]

/-- The hypotheses are met by every fresh result. -/
example (jr jt : Mat2) (jones : Fin 2 → ℂ) : (Result.mk' jr jt none jones).range.lower = 180 * ((-1 : ℤ) : ℝ) := by
  simp [Result.mk']

/-! ## Mueller matrices -/

lemma flatten_length16 {rows : List (List ℝ)} (h : ∀ r ∈ rows, r.length = 16) : rows.flatten.length = 16 * rows.length := by
  induction rows with
  | nil => simp
  | cons r rows ih =>
    have h1 := h r (by simp)
    have h2 := ih fun x hx => h x (by simp [hx])
    simp only [List.flatten_cons, List.length_append, List.length_cons, h1, h2]
    ring

lemma flatten_getD16 {rows : List (List ℝ)} (h : ∀ r ∈ rows, r.length = 16) :
    ∀ (k : ℕ) (hk : k < rows.length) (c : ℕ), c < 16 → rows.flatten.getD (16 * k + c) 0 = rows[k].getD c 0 := by
  induction rows with
  | nil => intro k hk; simp at hk
  | cons r rows ih =>
    intro k hk c hc
    have h1 := h r (by simp)
    have ih' := ih fun x hx => h x (by simp [hx])
    cases k with
    | zero =>
      simp only [List.flatten_cons, Nat.mul_zero, Nat.zero_add, List.getElem_cons_zero, List.getD_eq_getElem?_getD]
      rw [List.getElem?_append_left (by omega)]
    | succ k =>
      have := ih' k (by simpa using hk) c hc
      simp only [List.flatten_cons, List.getElem_cons_succ, List.getD_eq_getElem?_getD] at this ⊢
      rw [List.getElem?_append_right (by omega), h1, ← this]
      congr 2
      omega

lemma reshape44_eq {rows : List (List ℝ)} (h : ∀ r ∈ rows, r.length = 16) :
    reshape44 rows = .ok (rows.map fun r => block r 0) := by
  unfold reshape44
  rw [flatten_length16 h]
  simp only [Nat.mul_mod_right, ne_eq, not_true_eq_false, if_false, Except.ok.injEq]
  rw [Nat.mul_div_cancel_left _ (by norm_num)]
  apply List.ext_getElem (by simp)
  intro k h1 h2
  simp only [List.getElem_map, List.getElem_range]
  ext i j
  have hi := i.isLt
  have hj := j.isLt
  have := flatten_getD16 h k (by simpa using h1) (4 * i.val + j.val) (by omega)
  simp only [block, Nat.add_assoc, Nat.mul_zero, Nat.zero_add] at this ⊢
  exact this

lemma row16_zero (m : M4) : (∀ d ∈ row16 m, d = 0) ↔ m = 0 := by
  constructor
  · intro h
    simp only [row16, List.mem_cons, List.not_mem_nil, or_false, forall_eq_or_imp, forall_eq] at h
    obtain ⟨h0, h1, h2, h3, h4, h5, h6, h7, h8, h9, h10, h11, h12, h13, h14, h15⟩ := h
    ext i j
    fin_cases i <;> fin_cases j <;> simpa
  · rintro rfl
    simp [row16]

lemma flatten_row16_zero (ds : List M4) : (∀ d ∈ (ds.map row16).flatten, d = 0) ↔ ∀ m ∈ ds, m = 0 := by
  constructor
  · intro h m hm
    rw [← row16_zero]
    intro d hd
    exact h d (List.mem_flatten.2 ⟨_, List.mem_map.2 ⟨m, hm, rfl⟩, hd⟩)
  · intro h d hd
    obtain ⟨l, hl, hdl⟩ := List.mem_flatten.1 hd
    obtain ⟨m, hm, rfl⟩ := List.mem_map.1 hl
    exact (row16_zero m).2 (h m hm) d hdl

/-- C66 for Mueller matrices, by position: with 16 columns and one matrix per row the residual has 16 entries per row and vanishes exactly when
the value in column `4 i + j` is the element in row `i`, column `j` of the model. -/
theorem C66_mueller_zero (exp : Frame) (mm : List M4) (h16 : ∀ r ∈ exp.rows, r.length = 16)
    (h : exp.rows.length = mm.length) :
    ∃ r, mmFitFunction exp mm = .ok r ∧ r.length = 16 * mm.length ∧ ((∀ d ∈ r, d = 0) ↔
      ∀ k (hk : k < mm.length) (i j : Fin 4), (exp.rows[k]?.getD []).getD (4 * i.val + j.val) 0 = mm[k] i j) := by
  have hl : (exp.rows.map fun r => block r 0).length = mm.length := by simpa using h
  refine ⟨((List.zipWith (· - ·) (exp.rows.map fun r => block r 0) mm).map row16).flatten, ?_, ?_, ?_⟩
  · unfold mmFitFunction
    rw [reshape44_eq h16]
    simp only
    rw [npSub_eq hl]
  · rw [flatten_length16]
    · simp [h]
    · intro r hr
      obtain ⟨m, -, rfl⟩ := List.mem_map.1 hr
      rfl
  · rw [flatten_row16_zero, zipWith_sub_zero hl]
    constructor
    · intro e k hk i j
      have := congrArg (fun l => l[k]?) e
      have hk' : k < exp.rows.length := by omega
      simp only [List.getElem?_map, List.getElem?_eq_getElem hk, List.getElem?_eq_getElem hk', Option.map_some,
        Option.some.injEq] at this
      rw [List.getElem?_eq_getElem hk', ← this]
      simp [block]
    · intro e
      apply List.ext_getElem hl
      intro k hk1 hk2
      ext i j
      have := e k hk2 i j
      have hk' : k < exp.rows.length := by omega
      rw [List.getElem?_eq_getElem hk'] at this
      simpa [block] using this

/-- The columns set by the SpectraRay importer are in row-major order. -/
theorem C66_spectraray_columns (i j : Fin 4) : spectrarayColumns[4 * i.val + j.val]? = some (label i j) := by
  revert i j
  decide

lemma spectraray_index {c : ℕ} {i j : Fin 4} (h : spectrarayColumns[c]? = some (label i j)) : c = 4 * i.val + j.val := by
  have hc : c < 16 := by
    by_contra hge
    rw [List.getElem?_eq_none (by simp [spectrarayColumns]; omega)] at h
    simp at h
  have hn : spectrarayColumns.Nodup := by decide
  have h2 := C66_spectraray_columns i j
  have hi := i.isLt
  have hj := j.isLt
  have e1 := List.getElem?_eq_some_iff.1 h
  have e2 := List.getElem?_eq_some_iff.1 h2
  obtain ⟨l1, e1⟩ := e1
  obtain ⟨l2, e2⟩ := e2
  exact (hn.getElem_inj_iff).1 (e1.trans e2.symm)

/-- C66 for Mueller matrices by label, for a data frame whose columns are in the order of the importer (row-major). Missing: other column
orders, where it is false (`C66_mueller_labels_refuted`). -/
theorem C66_mueller_labels_partial (exp : Frame) (mm : List M4) (hc : exp.columns = spectrarayColumns)
    (h16 : ∀ r ∈ exp.rows, r.length = 16) (h : exp.rows.length = mm.length) :
    ∃ r, mmFitFunction exp mm = .ok r ∧ ((∀ d ∈ r, d = 0) ↔
      ∀ k (hk : k < mm.length) (i j : Fin 4), Cell exp.columns exp.rows k i j (mm[k] i j)) := by
  obtain ⟨r, h1, -, h2⟩ := C66_mueller_zero exp mm h16 h
  refine ⟨r, h1, h2.trans ?_⟩
  have key : ∀ k (hk : k < mm.length) (i j : Fin 4),
      (exp.rows[k]?.getD []).getD (4 * i.val + j.val) 0 = mm[k] i j ↔ Cell exp.columns exp.rows k i j (mm[k] i j) := by
    intro k hk i j
    have hk' : k < exp.rows.length := by omega
    have hlen := h16 exp.rows[k] (List.getElem_mem hk')
    have hi := i.isLt
    have hj := j.isLt
    have hlt : 4 * i.val + j.val < exp.rows[k].length := by omega
    rw [List.getElem?_eq_getElem hk', Option.getD_some, List.getD_eq_getElem?_getD, List.getElem?_eq_getElem hlt,
      Option.getD_some, hc]
    constructor
    · intro e
      exact ⟨_, C66_spectraray_columns i j, _, List.getElem?_eq_getElem hk', by rw [List.getElem?_eq_getElem hlt, e]⟩
    · rintro ⟨c, h3, r', h4, h5⟩
      have := spectraray_index h3
      subst this
      rw [List.getElem?_eq_getElem hk'] at h4
      simp only [Option.some.injEq] at h4
      subst h4
      rw [List.getElem?_eq_getElem hlt] at h5
      simpa using h5
  exact forall_congr' fun k => forall_congr' fun hk => forall_congr' fun i => forall_congr' fun j => key k hk i j

/-- A frame meeting the hypotheses. -/
example : ∃ exp : Frame, exp.columns = spectrarayColumns ∧ (∀ r ∈ exp.rows, r.length = 16) ∧ exp.rows.length = 1 :=
  ⟨⟨spectrarayColumns, [row16 1]⟩, rfl, by simp [row16], rfl⟩

/-- C66 by label fails when the columns come in another order (here column-major, as in the transposed frame): the labels are never looked
at, so a model that reproduces every labelled element has a residual that is not zero. -/
theorem C66_mueller_labels_refuted : ∃ (exp : Frame) (m : M4),
    (∀ i j, Cell exp.columns exp.rows 0 i j (m i j)) ∧ exp.rows.length = 1 ∧
      ∃ r, mmFitFunction exp [m] = .ok r ∧ ¬ ∀ d ∈ r, d = 0 := by
  let m : M4 := fun i j => 4 * i.val + j.val
  let exp : Frame := ⟨["M11", "M21", "M31", "M41", "M12", "M22", "M32", "M42", "M13", "M23", "M33", "M43", "M14", "M24", "M34", "M44"],
    [row16 (fun i j => m j i)]⟩
  have h16 : ∀ r ∈ exp.rows, r.length = 16 := by simp [exp, row16]
  obtain ⟨r, h1, -, h2⟩ := C66_mueller_zero exp [m] h16 rfl
  refine ⟨exp, m, ?_, rfl, r, h1, ?_⟩
  · intro i j
    refine ⟨4 * j.val + i.val, ?_, _, rfl, ?_⟩
    · revert i j
      decide
    · fin_cases i <;> fin_cases j <;> simp [row16, m]
  · rw [h2]
    intro h
    have := h 0 (by simp) 0 1
    have e : [m][0] 0 1 = m 0 1 := rfl
    rw [e] at this
    simp [exp, m, row16] at this

/-- C66, model data: the data frame made from modelled Mueller matrices keeps row `k`, column `4 i + j` equal to element `(i, j)` and takes
the labels of the experiment, with the identifier appended. -/
theorem C66_frame (exp : Frame) (mm : List M4) (hc : exp.columns = spectrarayColumns) (h : mm.length = exp.rows.length) :
    ∃ f, mmToFrame exp mm none = .ok f ∧ ∀ k (hk : k < mm.length) (i j : Fin 4), Cell f.columns f.rows k i j (mm[k] i j) := by
  refine ⟨⟨spectrarayColumns, mm.map row16⟩, ?_, ?_⟩
  · simp only [mmToFrame, hc]
    rw [if_neg (by simpa using h), if_neg (by simp [spectrarayColumns])]
  · intro k hk i j
    refine ⟨_, C66_spectraray_columns i j, row16 mm[k], by simp [hk], ?_⟩
    generalize mm[k] = m
    fin_cases i <;> fin_cases j <;> rfl

/-- The same with an identifier: the label becomes `Mij_fit`. -/
theorem C66_frame_identifier (exp : Frame) (mm : List M4) (s : String) (hc : exp.columns = spectrarayColumns)
    (h : mm.length = exp.rows.length) :
    ∃ f, mmToFrame exp mm (some s) = .ok f ∧ ∀ k (hk : k < mm.length) (i j : Fin 4),
      f.columns[4 * i.val + j.val]? = some (label i j ++ "_" ++ s) ∧
      ∃ r, f.rows[k]? = some r ∧ r[4 * i.val + j.val]? = some (mm[k] i j) := by
  refine ⟨⟨spectrarayColumns.map fun c => c ++ "_" ++ s, mm.map row16⟩, ?_, ?_⟩
  · simp only [mmToFrame, hc]
    rw [if_neg (by simpa using h), if_neg (by simp [spectrarayColumns])]
  · intro k hk i j
    refine ⟨by rw [List.getElem?_map, C66_spectraray_columns]; rfl, row16 mm[k], by simp [hk], ?_⟩
    generalize mm[k] = m
    fin_cases i <;> fin_cases j <;> rfl

/-! ## C75: optional arguments -/

/-- C75 fails: without any one of the three display options the constructor raises `AttributeError`. -/
theorem C75_options_refuted (kwargs : Dict Bool)
    (h : Dict.get kwargs "display_single" = none ∨ Dict.get kwargs "sharex" = none ∨ Dict.get kwargs "full_scale" = none) :
    mmInitOptions kwargs = .error .attributeError := by
  have key : ∀ (d : Dict Bool) (k : String), k ∈ ["display_single", "sharex", "full_scale"] →
      Dict.get (d.filter fun kv => kv.1 ∈ ["display_single", "sharex", "full_scale"]) k = Dict.get d k := by
    intro d k hk
    induction d with
    | nil => rfl
    | cons kv d ih =>
      obtain ⟨k', v⟩ := kv
      by_cases hm : k' ∈ ["display_single", "sharex", "full_scale"]
      · rw [List.filter_cons_of_pos (by simpa using hm)]
        simp only [Dict.get, ih]
      · rw [List.filter_cons_of_neg (by simpa using hm), ih]
        simp only [Dict.get]
        rw [if_neg (by rintro rfl; exact hm hk)]
  unfold mmInitOptions
  simp only
  rw [key _ _ (by simp), key _ _ (by simp), key _ _ (by simp)]
  rcases h with h | h | h <;> rw [h]
  · cases Dict.get kwargs "display_single" <;> rfl
  · cases Dict.get kwargs "display_single" <;> cases Dict.get kwargs "sharex" <;> rfl

/-- C75: with all three options given they are used as given. -/
theorem C75_options_partial (a b c : Bool) :
    mmInitOptions [("display_single", a), ("sharex", b), ("full_scale", c)] = .ok (a, b, c) := by
  rfl

example : mmInitOptions [] = .error .attributeError := C75_options_refuted _ (by simp [Dict.get])

end PyElli.Fit
