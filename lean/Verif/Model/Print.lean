import Verif.Model.Base

/-! # Printed dispersions: `__repr__` in `/repo/src/elli/dispersions/base_dispersion.py`

Python strings are lists of characters. `str(x)` and `f"{x}"` of a dispersion both give its `__repr__`; how a parameter value is
written (`f"{value}"`) is the parameter `txt`. -/

namespace PyElli.Print

/-- A Python `str`. -/
abbrev Text := List Char

/-- A `dict` of parameters in insertion order. -/
abbrev PDict (V : Type) := List (Text × V)

/-- A dispersion that is not a sum: the name of its class, `single_params`, `rep_params`, and everything else it keeps in attributes
of its own (the interpolation `kind` of tables `table_epsilon.py:35`, `table_index.py:36`; `formula`, axis name and unit of formula dispersions
`formula.py:32-77`), written as a text. -/
structure Leaf (V : Type) where
  cls : Text
  single : PDict V
  rep : List (PDict V)
  other : Text
  deriving DecidableEq

/-- What a sum can hold: a dispersion, the `as_index()` object of a dispersion, or the `as_index()` object of a `DispersionSum`. -/
inductive Term (V : Type)
  | leaf (d : Leaf V)
  | view (d : Leaf V)
  | viewSum (ds : List (Leaf V))
  deriving DecidableEq

/-- A dispersion object: a term or one of the two kinds of sums. -/
inductive Obj (V : Type)
  | term (t : Term V)
  | epsSum (ts : List (Term V))
  | idxSum (ts : List (Term V))
  deriving DecidableEq

variable {V : Type}

/-- `sep.join(parts)`. -/
def join (sep : Text) : List Text → Text
  | [] => []
  | [p] => p
  | p :: q :: ps => p ++ sep ++ join sep (q :: ps)

/-- `f"{item[0]} = {item[1]}"`, `base_dispersion.py:183`. -/
def itemStr (txt : V → Text) (item : Text × V) : Text := item.1 ++ (' ' :: '=' :: ' ' :: txt item.2)

/-- `_dict_to_str`, `base_dispersion.py:182-183`. -/
def dictToStr (txt : V → Text) (d : PDict V) : Text := join [',', ' '] (d.map (itemStr txt))

/-- `"Oscillators"`, `base_dispersion.py:192`. -/
def oscTitle : Text := ['O', 's', 'c', 'i', 'l', 'l', 'a', 't', 'o', 'r', 's']

/-- `"==========="`, `base_dispersion.py:193`. -/
def oscLine : Text := List.replicate 11 '='

/-- `BaseDispersion.__repr__`, `base_dispersion.py:181-198`. -/
def baseRepr (txt : V → Text) (d : Leaf V) : Text :=
  d.cls ++ ['\n'] ++ List.replicate d.cls.length '=' ++ ['\n'] ++ dictToStr txt d.single ++
    (if d.rep.length > 0 then
      ['\n', '\n'] ++ oscTitle ++ ['\n'] ++ oscLine ++ ['\n'] ++ join ['\n'] (d.rep.map (dictToStr txt))
    else [])

/-- The name of the class made by `as_index`, `base_dispersion.py:243`. -/
def anonymous : Text := "AnonymousIndexDispersion".toList

/-- What `BaseDispersion.__repr__` finds in a term. `as_index` makes an object of another class that shares `rep_params` and
`single_params`, `base_dispersion.py:255-257`; those of a `DispersionSum` are empty, `base_dispersion.py:339-340`. -/
def Term.shown : Term V → Leaf V
  | .leaf d => d
  | .view d => { cls := anonymous, single := d.single, rep := d.rep, other := d.other }
  | .viewSum _ => { cls := anonymous, single := [], rep := [], other := [] }

/-- `repr` of a term. -/
def Term.repr (txt : V → Text) (t : Term V) : Text := baseRepr txt t.shown

/-- `"DispersionSum"`, `base_dispersion.py:372`. -/
def epsTitle : Text := "DispersionSum".toList

/-- `"IndexDispersionSum"`, `base_dispersion.py:417`. -/
def idxTitle : Text := "IndexDispersionSum".toList

/-- `DispersionSum.__repr__`, `base_dispersion.py:370-376`, and `IndexDispersionSum.__repr__`, `base_dispersion.py:415-421`; both
underline with 13 characters. -/
def sumRepr (txt : V → Text) (title : Text) (ts : List (Term V)) : Text :=
  title ++ ['\n'] ++ List.replicate 13 '=' ++ ['\n', '\n'] ++ join ['\n', '\n'] (ts.map (Term.repr txt))

/-- `repr(dispersion)`. -/
def Obj.repr (txt : V → Text) : Obj V → Text
  | .term t => t.repr txt
  | .epsSum ts => sumRepr txt epsTitle ts
  | .idxSum ts => sumRepr txt idxTitle ts

/-- `as_index()` of a dispersion or `DispersionSum` (`base_dispersion.py:234-259`); other objects do not have the method. -/
def Obj.asIndex : Obj V → Except PyErr (Obj V)
  | .term (.leaf d) => .ok (.term (.view d))
  | .epsSum ts => .ok (.term (.viewSum (ts.map Term.shown)))
  | _ => .error .attributeError

end PyElli.Print
