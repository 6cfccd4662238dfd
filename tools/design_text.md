# Design: a machine-checked model of pyElli

Source: `/repo/src/elli` (read as text, never executed). Model and proofs: `/verif/lean/Verif`.
This file is written by `tools/design.py`; `MANIFEST.json` and `lean/Verif.lean` by `tools/manifest.py`.

## Conventions

* `Verif/Model/*.lean` – definitions that follow the Python source function by function. Every definition cites the file and the
  lines it models and states its simplifications.
* `Verif/Spec/*.lean` – small independent specifications (Maxwell's equations with curls, interface conditions, printed formulas,
  decision tables, multisets of measurements, …) used in the statements.
* `Verif/Lemmas/*.lean` – helper lemmas.
* `Verif/Props/*.lean` – the property theorems, named `Cnn_…`. `Cnn_…_refuted`: the code does *not* do what the property claims; the
  theorem is the negation, with a witness. `Cnn_…_partial`: only part of the property. Each theorem is followed by an `example` that
  meets its hypotheses in a non-trivial case.
* A property is **partial** when the code violates it somewhere (the refutation says where) or when part of it is not modelled. The
  remaining theorems then say exactly what does hold.
* Python exceptions are values (`Except PyErr _`); a NaN or infinity from a division by zero that a caller can reach is `none` where a
  property depends on it. Solver denominators are listed in `Regular2x2`, `Regular4x4`; theorems derive or assume them.
* Objects that share references (dispersions and sums, parameter dictionaries, fit histories, experiments) are modelled in an explicit
  memory, so that aliasing is visible.

## Trusted base

* Lean 4.33.0's kernel, and the axioms `propext`, `Classical.choice`, `Quot.sound`. No other axiom, no `sorry`, no compiler trust.
* The hand translation Python → Lean. In particular:
  * floating point numbers are exact reals and complex numbers: no rounding, no signed zeros, no overflow; NaN and infinities only
    where stated. The exceptions are C134 to C136, where the wrapping of delta, the slicing of layers and the unit conversions are followed
    rounding by rounding, for every rounding to a nearest double (`Model/Rounding.lean`; doubles without infinities, numpy's remainder and
    `linspace` as recalled);
  * `numpy.lib.scimath.sqrt` is the principal complex square root. `scimath.arcsin` is a parameter of which only `sin (asin z) = z` is
    assumed, so the theorems hold for every branch. `scipy.linalg.expm` / `torch.linalg.matrix_exp` is the matrix exponential,
    `np.linalg.inv` the matrix inverse, `np.linalg.eig` an arbitrary diagonalisation;
  * arrays over wavelengths are point-wise in the files about one wavelength, unless an array operation itself is the subject
    (Kramers-Kronig sums, formulas, result lists, residuals). For materials, structures, both solvers and results this is not an
    assumption: C103, C104 and C105 model the arrays themselves and prove that every entry is the result of one wavelength. What is recalled there is
    numpy's meaning of each single array operation (`Model/NdArray.lean`);
  * third-party behaviour is recalled, not read (the libraries are not installed):
    lmfit `Parameters` (`update`, `add`, copy, deepcopy; minimises the sum of squares of the flattened residual);
    lark (LALR parser returns the tree of the derivation; exceptions arrive as `VisitError`);
    numpy `logical_or` on columns with missing values, `squeeze`, `mean`, broadcasting, `iscomplex`;
    pandas `groupby().sum()`, `stack`, `sort_index`, `read_csv`, `iloc`/`loc`;
    rapidfuzz `extract` (an arbitrary ranking function); scipy `interp1d`;
    Python `re` (language of a pattern), `copy.deepcopy` (copies every reachable object), `ipywidgets` (events call the callbacks).

## Properties: what is modelled and how it is proved

@TABLE@

## Which code is modelled

A function counts as modelled when a definition or theorem comment cites lines of it. Nested functions are listed with their parent.

@COVERAGE@

## Not modelled

* Drawing (plotly, matplotlib, widgets' layout), logging, warnings, file access and decoding (the warnings of `Solver2x2` are modelled, C120); YAML, HDF5 and CSV are given as the values
  the parsers return.
* Rounding other than in C134 to C136, performance, memory use.
* The choice of an eigenvector phase by LAPACK (the theorems quantify over it).
* Lark itself: C97 models the terminals, their priorities and the contextual lexer as lark documents them; that lark's LALR tables accept the grammar of C58 is taken from the library.
* matplotlib: C99 takes `step(where="post")` and `pcolormesh` as the piecewise constant functions they document.
