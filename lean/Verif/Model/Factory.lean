import Verif.Model.Base

/-! # The dispersion factory: `DispersionFactory.get_dispersion`, `/repo/src/elli/dispersions/base_dispersion.py:313-333`

`dispersions` is the package `elli.dispersions` as a module object. Its attributes are the names imported in
`/repo/src/elli/dispersions/__init__.py`, the submodules (the import system binds each imported submodule in its package), and the
attributes of every module object (`__name__`, `__dict__`, …), which are a parameter of the model. -/

namespace PyElli.Factory

/-- What an attribute of the package is. -/
inductive Attr
  /-- a dispersion class -/
  | dispersion (name : String)
  /-- the class `TableSpectraRay`, which is not a dispersion (`table_spectraray.py:10-18`) -/
  | loader
  /-- a submodule or another object that cannot be called -/
  | notCallable
  /-- an object that can be called and is not a dispersion class -/
  | otherCallable
  deriving DecidableEq

/-- The dispersion classes of the package, `/repo/src/elli/dispersions/__init__.py:2-23`. -/
def classes : List String :=
  ["Cauchy", "CauchyCustomExponent", "CauchyUrbach", "ConstantRefractiveIndex", "DrudeEnergy", "DrudeResistivity", "EpsilonInf", "Gaussian",
    "LorentzEnergy", "LorentzLambda", "Poles", "Polynomial", "Sellmeier", "SellmeierCustomExponent", "TableEpsilon", "Table", "Tanguy",
    "TaucLorentz", "CodyLorentz", "PseudoDielectricFunction", "Formula", "FormulaIndex"]

/-- The submodules that are imported with the package: those named in `/repo/src/elli/dispersions/__init__.py:2-23` and
`base_dispersion`, which each of them imports. -/
def submodules : List String :=
  ["base_dispersion", "cauchy", "cauchy_custom", "cauchy_urbach", "constant_refractive_index", "drude_energy", "drude_resistivity",
    "epsilon_inf", "gaussian", "lorentz_energy", "lorentz_lambda", "poles", "polynomial", "sellmeier", "sellmeier_custom", "table_epsilon",
    "table_index", "table_spectraray", "tanguy", "tauc_lorentz", "cody_lorentz", "pseudo_dielectric", "formula"]

/-- `getattr(dispersions, identifier)`; `none` if there is no such attribute. `extra` are the attributes of every module object. -/
def attrOf (extra : String → Option Attr) (name : String) : Option Attr :=
  if name ∈ classes then some (.dispersion name)
  else if name = "TableSpectraRay" then some .loader
  else if name ∈ submodules then some .notCallable
  else extra name

/-- What a call may return. -/
inductive Made (D : Type)
  /-- a dispersion object -/
  | dispersion (d : D)
  /-- a `TableSpectraRay` object -/
  | loader
  /-- something else -/
  | other

/-- `get_dispersion(identifier, *args, **kwargs)`, `base_dispersion.py:317-333`. `construct name args` is the call of the class `name`
with the arguments; `args` stands for `*args, **kwargs`; `loads args` tells whether `args` fit `TableSpectraRay.__init__` (one path). -/
def getDispersion {A D : Type} (extra : String → Option Attr) (construct : String → A → Except PyErr D) (loads : A → Bool)
    (identifier : String) (args : A) : Except PyErr (Made D) :=
  let bad := ["Dispersion"]
  match attrOf extra identifier with
  | none => .error .valueError
  | some a =>
    if identifier ∈ bad then .error .valueError
    else
      match a with
      | .dispersion name =>
        match construct name args with
        | .error e => .error e
        | .ok d => .ok (.dispersion d)
      | .loader => if loads args then .ok .loader else .error .typeError
      | .notCallable => .error .typeError
      | .otherCallable => .ok .other

end PyElli.Factory
