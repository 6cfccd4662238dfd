import Verif.Model.Factory

/-! # C111: the dispersion factory -/

namespace Spec

/-- The documented dispersion models. -/
def DispersionNames : List String :=
  ["Cauchy", "CauchyCustomExponent", "CauchyUrbach", "ConstantRefractiveIndex", "DrudeEnergy", "DrudeResistivity", "EpsilonInf", "Gaussian",
    "LorentzEnergy", "LorentzLambda", "Poles", "Polynomial", "Sellmeier", "SellmeierCustomExponent", "TableEpsilon", "Table", "Tanguy",
    "TaucLorentz", "CodyLorentz", "PseudoDielectricFunction", "Formula", "FormulaIndex"]

/-- Base classes, sums and the factory itself: not to be made by name. -/
def AbstractNames : List String :=
  ["BaseDispersion", "Dispersion", "IndexDispersion", "DispersionSum", "IndexDispersionSum", "DispersionFactory", "InvalidParameters",
    "FormulaParser"]

/-- Names that start with two underscores. -/
def Dunder (name : String) : Prop := name.toList.take 2 = ['_', '_']

end Spec

namespace PyElli.Factory

variable {A D : Type} (extra : String → Option Attr) (construct : String → A → Except PyErr D) (loads : A → Bool)

/-- C111: for the name of a dispersion model the factory does what calling the class does, exceptions included. -/
theorem C111_models (name : String) (h : name ∈ Spec.DispersionNames) (args : A) :
    getDispersion extra construct loads name args = (construct name args).map Made.dispersion := by
  have h1 : attrOf extra name = some (.dispersion name) := if_pos h
  have h2 : name ∉ ["Dispersion"] := by
    rintro h'
    rw [List.mem_singleton] at h'
    subst h'
    revert h
    decide
  unfold getDispersion
  simp only [h1, if_neg h2]
  rcases construct name args with e | d <;> rfl

/-- C111: the factory makes a dispersion for no other name, and never a base class or a sum: those are refused with `ValueError`
(other attributes of the module, `extra`, have names that start with two underscores). -/
theorem C111_others_partial (hx : ∀ n a, extra n = some a → Spec.Dunder n) (name : String) (h : name ∉ Spec.DispersionNames)
    (args : A) :
    (∀ d, getDispersion extra construct loads name args ≠ .ok (.dispersion d) ∨ ∃ m, extra name = some (.dispersion m)) ∧
    (name ∈ Spec.AbstractNames → getDispersion extra construct loads name args = .error .valueError) ∧
    (name ∉ submodules → name ≠ "TableSpectraRay" → ¬ Spec.Dunder name →
      getDispersion extra construct loads name args = .error .valueError) := by
  have hcl : name ∉ classes := h
  have plain : name ∉ submodules → name ≠ "TableSpectraRay" → ¬ Spec.Dunder name →
      getDispersion extra construct loads name args = .error .valueError := by
    intro h1 h2 h3
    have : attrOf extra name = none := by
      unfold attrOf
      rw [if_neg hcl, if_neg h2, if_neg h1]
      rcases hn : extra name with _ | a
      · rfl
      · exact absurd (hx name a hn) h3
    unfold getDispersion
    simp only [this]
  refine ⟨?_, ?_, plain⟩
  · intro d
    by_cases hd : ∃ m, extra name = some (.dispersion m)
    · exact Or.inr hd
    · left
      unfold getDispersion
      rcases ha : attrOf extra name with _ | a
      · simp
      · simp only
        split
        · simp
        · cases a with
          | dispersion m =>
            exfalso
            unfold attrOf at ha
            rw [if_neg hcl] at ha
            split at ha
            · simp at ha
            · split at ha
              · simp at ha
              · exact hd ⟨m, ha⟩
          | loader => simp only; split <;> simp
          | notCallable => simp
          | otherCallable => simp
  · intro hab
    have key : ∀ n ∈ Spec.AbstractNames, n ∉ submodules ∧ n ≠ "TableSpectraRay" ∧ ¬ Spec.Dunder n := by
      simp [Spec.AbstractNames, submodules, Spec.Dunder]
    obtain ⟨h1, h2, h3⟩ := key name hab
    exact plain h1 h2 h3

/-- C111: not every name that is not a model is refused with `ValueError`. The 23 names of submodules, such as `"cauchy"`, which differ from
models in their capitals only, end in a `TypeError`; `"TableSpectraRay"` gives an object that is not a dispersion. -/
theorem C111_others_refuted (args : A) :
    (∀ name ∈ submodules, name ∉ Spec.DispersionNames ∧ getDispersion extra construct loads name args = .error .typeError) ∧
    "cauchy" ∈ submodules ∧
    (loads args = true → getDispersion extra construct loads "TableSpectraRay" args = .ok .loader) := by
  refine ⟨?_, by decide, ?_⟩
  · intro name h
    have key : ∀ n ∈ submodules, n ∉ Spec.DispersionNames ∧ n ≠ "TableSpectraRay" ∧ n ∉ ["Dispersion"] := by decide
    obtain ⟨h1, h2, h3⟩ := key name h
    refine ⟨h1, ?_⟩
    have : attrOf extra name = some .notCallable := by
      unfold attrOf
      have h1' : name ∉ classes := h1
      rw [if_neg h1', if_neg h2, if_pos h]
    unfold getDispersion
    simp only [this, if_neg h3]
  · intro hl
    have : attrOf extra "TableSpectraRay" = some .loader := by
      unfold attrOf
      rw [if_neg (by decide), if_pos rfl]
    unfold getDispersion
    simp only [this]
    rw [if_neg (by decide), if_pos hl]

/-- A model, an unknown name and a submodule. -/
example : getDispersion (fun _ => none) (fun n (_ : Unit) => Except.ok n) (fun _ => false) "Sellmeier" () = .ok (.dispersion "Sellmeier") ∧
    getDispersion (fun _ => none) (fun n (_ : Unit) => Except.ok n) (fun _ => false) "Selmeier" () = .error .valueError ∧
    getDispersion (fun _ => none) (fun n (_ : Unit) => Except.ok n) (fun _ => false) "sellmeier" () = .error .typeError := by
  refine ⟨?_, ?_, ?_⟩
  · exact C111_models _ _ _ "Sellmeier" (by decide) ()
  · exact (C111_others_partial (fun _ => none) _ _ (by simp) "Selmeier" (by decide) ()).2.2 (by decide) (by decide) (by simp [Spec.Dunder])
  · exact ((C111_others_refuted (fun _ => none) _ _ ()).1 "sellmeier" (by decide)).2

end PyElli.Factory
