import Verif.Lemmas.ArrayCalc2
import Verif.Lemmas.ArrayExact2
import Verif.Spec.Spectra

/-! # C103: a spectrum is its points

The solvers compute with arrays that have a wavelength axis. Whatever the arithmetic is (floating point numbers with rounding, NaN and
infinities included), the results for a list of wavelengths are the results for the single wavelengths: no wavelength influences another
one, and no axis is confused with another one, whatever the numbers of wavelengths and layers are. -/

namespace PyElli.Nd

open PyElli

variable {V : Type} [Arith V]

lemma pointByPoint_of_sim {α β A : Type} {r : Reading α β} {eval : List V → Except PyErr α} {F : V → Except PyErr β}
    (h : ∀ L, Sim r L.length (eval L) fun k => F (L.getD k Arith.nan)) {point : α → ℕ → A} {g : β → A} (hp : ∀ x k, point x k = g (r.read k x))
    {sized : α → ℕ → Prop} (hs : ∀ x n, r.wf n x → sized x n) : Spec.PointByPoint eval sized point := by
  have single : ∀ w, (∃ e, F w = .error e) → ∃ e, eval [w] = .error e := by
    rintro w ⟨e, he⟩
    have h1 := h [w]
    cases hev : eval [w] with
    | error e' => exact ⟨e', rfl⟩
    | ok x =>
      rw [hev] at h1
      have := h1.2 0 (by simp)
      simp [he] at this
  have single' : ∀ w x, F w = .ok x → ∃ y, eval [w] = .ok y ∧ r.read 0 y = x := by
    intro w x hx
    have h1 := h [w]
    cases hev : eval [w] with
    | error e' =>
      rw [hev] at h1
      obtain ⟨k, hk, e, he⟩ := h1
      obtain rfl : k = 0 := by simpa using hk
      simp [hx] at he
    | ok y =>
      rw [hev] at h1
      have := h1.2 0 (by simp)
      simp only [List.getD_cons_zero, hx, Except.ok.injEq] at this
      exact ⟨y, rfl, this.symm⟩
  intro L
  have hL := h L
  refine ⟨fun x hx => ?_, ?_⟩
  · rw [hx] at hL
    refine ⟨hs _ _ hL.1, fun k w hk => ?_⟩
    obtain ⟨hlt, hkw⟩ := List.getElem?_eq_some_iff.1 hk
    have h1 := hL.2 k hlt
    simp only [List.getD_eq_getElem?_getD, hk, Option.getD_some] at h1
    obtain ⟨y, hy, hr⟩ := single' w _ h1
    exact ⟨y, hy, by rw [hp, hp, hr]⟩
  · constructor
    · rintro ⟨e, he⟩
      rw [he] at hL
      obtain ⟨k, hk, e', he'⟩ := hL
      refine ⟨L[k], List.getElem_mem hk, single _ ⟨e', ?_⟩⟩
      simpa [List.getD_eq_getElem?_getD, hk] using he'
    · rintro ⟨w, hw, e, he⟩
      cases hev : eval L with
      | error e' => exact ⟨e', rfl⟩
      | ok x =>
        rw [hev] at hL
        obtain ⟨k, hk, rfl⟩ := List.mem_iff_getElem.1 hw
        have h1 := hL.2 k hk
        simp only [List.getD_eq_getElem?_getD, List.getElem?_eq_getElem hk, Option.getD_some] at h1
        obtain ⟨y, hy, _⟩ := single' _ _ h1
        rw [hy] at he
        exact absurd he (by simp)

/-- The shapes of a result for `n` wavelengths. -/
def ResArr.sized (r : ResArr V) (n : ℕ) : Prop := r.jr.shape = [n, 2, 2] ∧ r.jt.shape = [n, 2, 2] ∧ r.power.shape = [n]

/-- The result for wavelength number `k`: reflection matrix, transmission matrix and power correction. -/
def ResArr.point (r : ResArr V) (k : ℕ) : (Fin 2 → Fin 2 → V) × (Fin 2 → Fin 2 → V) × V :=
  (fun i j => r.jr.val [k, i.val, j.val], fun i j => r.jt.val [k, i.val, j.val], r.power.val [k])

/-- C103: the spectrum computed by `Solver4x4` is its points, for all three propagators. -/
theorem C103_solver4x4 (prop : PropKind) (s : StructArr V) (theta : V) :
    Spec.PointByPoint (fun L => calculate4Arr prop s theta (wavelengths L)) ResArr.sized ResArr.point :=
  pointByPoint_of_sim (r := resR V) (F := p4 prop s theta) (g := id) (fun L => sim_calculate4 prop s theta (lbda := wavelengths L) rfl)
    (fun _ _ => rfl) fun _ _ h => h

/-- C103: the spectrum computed by `Solver2x2` is its points. -/
theorem C103_solver2x2 (s : StructArr V) (theta : V) :
    Spec.PointByPoint (fun L => calculate2Arr s theta (wavelengths L)) ResArr.sized ResArr.point :=
  pointByPoint_of_sim (r := resR V) (F := p2 s theta) (g := id) (fun L => sim_calculate2 s theta (lbda := wavelengths L) rfl)
    (fun _ _ => rfl) fun _ _ h => h

/-- C103: the tensors and refractive indices of a material are computed for every wavelength by itself. -/
theorem C103_tensor (m : Mat V) :
    Spec.PointByPoint (fun L => m.getTensor (wavelengths L)) (fun x n => x.shape = [n, 3, 3])
      (fun x k => (fun i j : Fin 3 => x.val [k, i.val, j.val])) :=
  pointByPoint_of_sim (r := mats V 3 3) (F := pTensor m) (g := id) (fun L => sim_tensor (lbda := wavelengths L) rfl m) (fun _ _ => rfl) fun _ _ h => h

/-- C103: so is the permittivity profile of a list of layers; its thicknesses do not depend on the wavelengths. -/
theorem C103_profile (ls : List (Lay V)) :
    Spec.PointByPoint (fun L => layProfile ls (wavelengths L)) (fun p n => ∀ s ∈ p, s.2.shape = [n, 3, 3])
      (fun p k => p.map fun s => (s.1, fun i j : Fin 3 => s.2.val [k, i.val, j.val])) :=
  pointByPoint_of_sim (r := profR V) (F := pLays ls) (g := id) (fun L => sim_lays (lbda := wavelengths L) rfl ls) (fun _ _ => rfl) fun _ _ h => h

/-! ## Examples -/

section Examples

variable {asin : ℂ → ℂ} {eig : Mat4 → (Fin 4 → ℂ) × Mat4}

local notation "𝔼" => exact asin eig

/-- A material with a table for wavelengths up to 1000 nm. -/
noncomputable def tableMat (c : ℂ) : Mat ℂ :=
  .single .isotropic (.fn fun l => if l.re ≤ 1000 then .ok c else .error .valueError) (.fn fun l => if l.re ≤ 1000 then .ok c else .error .valueError)
    (.fn fun l => if l.re ≤ 1000 then .ok c else .error .valueError) none

/-- A material with a constant permittivity. -/
def constMat (c : ℂ) : Mat ℂ := .single .isotropic (.const c) (.const c) (.const c) none

/-- A film between air and a substrate. -/
noncomputable def filmArr : StructArr ℂ := ⟨constMat 1, [.layer (tableMat 4) ((100 : ℝ) : ℂ)], constMat 2⟩

lemma table_raises : ∃ e, @p2 ℂ 𝔼 filmArr 45 2000 = .error e ∧ @p4 ℂ 𝔼 .expm filmArr 45 2000 = .error e ∧ @pTensor ℂ 𝔼 (tableMat 4) 2000 = .error e ∧
    @pLays ℂ 𝔼 filmArr.layers 2000 = .error e := by
  refine ⟨.valueError, ?_, ?_, ?_, ?_⟩ <;>
    norm_num [p2, p4, pSetup, filmArr, pTensor, constMat, tableMat, pSet, pDisp, Except.bind, pLays, pLay]

/-- One wavelength outside the table: the calculations raise for the whole list, as they do for this wavelength alone. -/
example : (∃ e, @calculate2Arr ℂ 𝔼 filmArr 45 (@wavelengths ℂ 𝔼 [500, 2000]) = .error e) ∧
    (∃ e, @calculate4Arr ℂ 𝔼 .expm filmArr 45 (@wavelengths ℂ 𝔼 [500, 2000]) = .error e) ∧
    (∃ e, @Mat.getTensor ℂ 𝔼 (tableMat 4) (@wavelengths ℂ 𝔼 [500, 2000]) = .error e) ∧
    ∃ e, @layProfile ℂ 𝔼 filmArr.layers (@wavelengths ℂ 𝔼 [500, 2000]) = .error e := by
  obtain ⟨e, h1, h2, h3, h4⟩ := table_raises (asin := asin) (eig := eig)
  have key : ∀ {α β : Type} {r : Reading α β} {x : Except PyErr α} {F : ℕ → Except PyErr β}, Sim r 1 x F → F 0 = .error e → ∃ e, x = .error e := by
    intro α β r x F h hF
    cases x with
    | error e => exact ⟨e, rfl⟩
    | ok a =>
      have := h.2 0 (by simp)
      rw [hF] at this
      cases this
  exact ⟨(@C103_solver2x2 ℂ 𝔼 filmArr 45 [500, 2000]).2.2 ⟨2000, by simp, key (@sim_calculate2 ℂ 𝔼 1 filmArr 45 _ rfl) h1⟩,
    (@C103_solver4x4 ℂ 𝔼 .expm filmArr 45 [500, 2000]).2.2 ⟨2000, by simp, key (@sim_calculate4 ℂ 𝔼 1 .expm filmArr 45 _ rfl) h2⟩,
    (@C103_tensor ℂ 𝔼 (tableMat 4) [500, 2000]).2.2 ⟨2000, by simp, key (@sim_tensor ℂ 𝔼 1 _ rfl (tableMat 4)) h3⟩,
    (@C103_profile ℂ 𝔼 filmArr.layers [500, 2000]).2.2 ⟨2000, by simp, key (@sim_lays ℂ 𝔼 1 _ rfl filmArr.layers) h4⟩⟩

/-- Inside the table: the tensors of two wavelengths are the tensors of each of them. -/
example : ∃ x, @Mat.getTensor ℂ 𝔼 (tableMat 4) (@wavelengths ℂ 𝔼 [500, 600]) = .ok x ∧ x.shape = [2, 3, 3] ∧ x.val [1, 2, 2] = 4 := by
  have h := @sim_tensor ℂ 𝔼 2 (@wavelengths ℂ 𝔼 [500, 600]) rfl (tableMat 4)
  cases hev : @Mat.getTensor ℂ 𝔼 (tableMat 4) (@wavelengths ℂ 𝔼 [500, 600]) with
  | error e =>
    rw [hev] at h
    obtain ⟨k, hk, e, he⟩ := h
    have : k = 0 ∨ k = 1 := by omega
    rcases this with rfl | rfl <;> norm_num [pTensor, tableMat, pSet, pDisp, Except.bind, wavelengths] at he <;> cases he
  | ok x =>
    rw [hev] at h
    have h1 := h.2 1 (by simp)
    norm_num [pTensor, tableMat, pSet, pDisp, Except.bind, wavelengths, pRot] at h1
    have h2 := congrFun (congrFun h1 2) 2
    exact ⟨x, rfl, h.1, by simpa [mats] using h2.symm⟩

end Examples

end PyElli.Nd
