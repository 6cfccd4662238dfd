# Design: a machine-checked model of pyElli

Source: `/repo/src/elli` (read as text, never executed). Model and proofs: `/verif/lean/Verif`.
This file is written by `tools/design.py`; `MANIFEST.json` and `lean/Verif.lean` by `tools/manifest.py`.

## Conventions

* `Verif/Model/*.lean` – definitions that follow the Python source function by function. Every definition cites the file and the
  lines it models and states its simplifications.
* `Verif/Spec/*.lean` – small independent specifications (Maxwell's equations with curls, interface conditions, printed formulas,
  decision tables, multisets of measurements, …) used in the statements.
* `Verif/Lemmas/*.lean` – helper lemmas.
* `Verif/Props/*.lean` – the property theorems, named `Cnn_…`. `Cnn_…_refuted`: the code does *not* do what the property claims; the
  theorem is the negation, with a witness. `Cnn_…_partial`: only part of the property. Each theorem is followed by an `example` that
  meets its hypotheses in a non-trivial case.
* A property is **partial** when the code violates it somewhere (the refutation says where) or when part of it is not modelled. The
  remaining theorems then say exactly what does hold.
* Python exceptions are values (`Except PyErr _`); a NaN or infinity from a division by zero that a caller can reach is `none` where a
  property depends on it. Solver denominators are listed in `Regular2x2`, `Regular4x4`; theorems derive or assume them.
* Objects that share references (dispersions and sums, parameter dictionaries, fit histories, experiments) are modelled in an explicit
  memory, so that aliasing is visible.

## Trusted base

* Lean 4.33.0's kernel, and the axioms `propext`, `Classical.choice`, `Quot.sound`. No other axiom, no `sorry`, no compiler trust.
* The hand translation Python → Lean. In particular:
  * floating point numbers are exact reals and complex numbers: no rounding, no signed zeros, no overflow; NaN and infinities only
    where stated. The exceptions are C134 to C136, where the wrapping of delta, the slicing of layers and the unit conversions are followed
    rounding by rounding, for every rounding to a nearest double (`Model/Rounding.lean`; doubles without infinities, numpy's remainder and
    `linspace` as recalled);
  * `numpy.lib.scimath.sqrt` is the principal complex square root. `scimath.arcsin` is a parameter of which only `sin (asin z) = z` is
    assumed, so the theorems hold for every branch. `scipy.linalg.expm` / `torch.linalg.matrix_exp` is the matrix exponential,
    `np.linalg.inv` the matrix inverse, `np.linalg.eig` an arbitrary diagonalisation;
  * arrays over wavelengths are point-wise in the files about one wavelength, unless an array operation itself is the subject
    (Kramers-Kronig sums, formulas, result lists, residuals). For materials, structures, both solvers and results this is not an
    assumption: C103, C104 and C105 model the arrays themselves and prove that every entry is the result of one wavelength. What is recalled there is
    numpy's meaning of each single array operation (`Model/NdArray.lean`);
  * third-party behaviour is recalled, not read (the libraries are not installed):
    lmfit `Parameters` (`update`, `add`, copy, deepcopy; minimises the sum of squares of the flattened residual);
    lark (LALR parser returns the tree of the derivation; exceptions arrive as `VisitError`);
    numpy `logical_or` on columns with missing values, `squeeze`, `mean`, broadcasting, `iscomplex`;
    pandas `groupby().sum()`, `stack`, `sort_index`, `read_csv`, `iloc`/`loc`;
    rapidfuzz `extract` (an arbitrary ranking function); scipy `interp1d`;
    Python `re` (language of a pattern), `copy.deepcopy` (copies every reachable object), `ipywidgets` (events call the callbacks).

## Properties: what is modelled and how it is proved

| Id | Property | Model | Proof | Status and findings | Props |
|---|---|---|---|---|---|
| C01 | Delta range acceptance | `DeltaRange.__post_init__` over int/float/other values | case analysis; decision logic stated outright | **proved**. Decision logic of DeltaRange stated outright. The documented TypeError as soon as either bound is not an int is refuted: DeltaRange(0, 360.0) is accepted (C01_type_error_documentation_refuted). | Angles |
| C02 | Delta conversion keeps the angle | `convert_delta_range` with `np.mod` over ℝ | floor arithmetic, congruences modulo 360 | **partial**. Refuted: the code shifts by 2*lower (convert_delta_range adds lower instead of subtracting it). C02_convert_same_angle_iff characterises exactly when the angle survives (lower a multiple of 180). | Angles |
| C03 | Psi/Delta reproduce rho | `Result.rho/psi/delta`, `calc_rho` | polar form of complex numbers | **partial**. Refuted for windows whose lower end is not a multiple of 180, e.g. (-90, 270); exact factor and an iff are proved; holds for the default window. | Angles |
| C04 | Psi and Delta windows | same | bounds of arctan and floor | **partial**. psi/delta windows proved; delta_matrix is refuted (it ignores the folding used by delta for windows of width 180). | Angles |
| C05 | Stokes vector of a Jones vector | `Experiment.set_vector` | algebra over ℂ | **proved**.  | Polarisation |
| C06 | Stokes to Jones round trip | same | algebra, half-angle formulas | **proved**.  | Polarisation |
| C07 | Jones to Stokes to Jones round trip | same | uniqueness of the phase | **proved**. Up to a global phase, the only freedom a Stokes vector leaves. | Polarisation |
| C08 | Unpolarised light is accepted | same, with `none` for 0/0 | exact condition for finite output | **partial**. Refuted: Stokes vectors with p = 0 (or a vanishing amplitude, as characterised by C08_finite_iff) divide by zero. | Polarisation |
| C09 | Vectors of other shapes | same, over vectors of any length | case analysis | **proved**.  | Polarisation |
| C10 | Mueller matrix is normalised and bounded | `mueller_matrix` with Kronecker product and the matrix A | Cauchy-Schwarz | **proved**.  | Mueller |
| C11 | Mueller matrix acts like the Jones matrix | same | bilinear algebra against an independent Stokes vector | **proved**.  | Mueller |
| C12 | Mueller matrix of isotropic samples | same | polar form | **proved**. Default delta window; sign convention rho = tan(psi) exp(-i delta). | Mueller |
| C13 | Psi/Delta to Mueller conversion agrees | `convert_psi_delta_to_isotropic_mueller_matrix` | witness; entrywise comparison | **partial**. Refuted: no conversion from degrees and C = S = sin 2psi cos 2delta. C13_converter_partial covers the entries that are right. | Mueller |
| C14 | Circular basis conserves power | `jones_matrix_rc/tc`, `calculate4x4` at normal incidence | unitary change of basis; entries are intensities behind circular analysers (`C14_circular_meaning`); for whole samples that look the same after a turn: the azimuth law C80 multiplies the co-polarised entries by a factor other than one (`C14_symmetric_sample`, `C14_normal_axis`) | **proved**.  | Circular, Mueller |
| C15 | Rotated tensors stay physical | materials' `get_tensor`, `set_rotation` | matrix algebra, Hermitian forms | **proved**. C15_principal_axes states which permittivity acts along which axis, before and after a rotation. | Rotation |
| C16 | Isotropic materials ignore rotation | same | commuting scalars | **proved**. Includes that a second set_rotation replaces the first (rotations do not compose). | Rotation |
| C17 | Euler rotations | `rotation_euler` | product of plane rotations, orthogonality | **proved**.  | Rotation |
| C18 | Axis rotations | `rotation_v`, `rotation_v_theta` | exponential of a skew matrix; derivative argument for Rodrigues' formula | **proved**. rotation_v uses the matrix exponential; Rodrigues' formula is proved to equal it. | Rotation |
| C19 | Mixture fraction guard | mixture constructors | decision logic | **proved**.  | Materials |
| C20 | Mixture limits | the four mixing rules on entries | field algebra, branch of the square root | **partial**. Proved for VCA and Looyenga. Refuted for Maxwell-Garnett (host entry 0, guest entry not 0, fraction 1 gives NaN) and Bruggeman (opposite-sign real permittivities pick the wrong root; a zero entry gives NaN); C20_limits_bruggeman_iff is the exact condition. | Materials |
| C21 | Bruggeman self-consistency | Bruggeman | quadratic equation | **proved**.  | Materials |
| C22 | Mixtures stay between their constituents | mixing rules on positive reals | inequalities | **proved**.  | Materials |
| C23 | Mixtures of passive materials are passive | mixing rules on ℂ | sign of imaginary parts, Möbius maps | **proved**. Per tensor entry (the mixing rules act entrywise). | Materials |
| C24 | Mixing commutes with rotation | mixtures of rotated materials | linearity; witnesses | **partial**. Holds for VCA only; refuted for the three non-linear rules, which mix tensor entries one by one. | Materials |
| C25 | Repeated layers unroll | `RepeatedLayers` | induction on the count | **proved**. For before/after up to one period; larger values are silently capped (C25_before_capped_refuted) and count slices rather than layers (C25_before_counts_slices). | Structure |
| C26 | Structure profile order | `Structure.get_permittivity_profile`, nested layers | induction over nested lists | **proved**. Thickness sum for arbitrarily nested layers without partial periods (C26_total_thickness); the slice thicknesses for every layer list, partial periods included (C26_heights). | Heights, Structure |
| C27 | Inhomogeneous slicing | `InhomogeneousLayer` | sums over slices | **proved**.  | Structure |
| C28 | Twisted layers | `TwistedLayer` | rotation by an angle proportional to depth | **partial**. Proved for thickness other than 0; refuted for the accepted thickness 0, where 0/0 makes every slice NaN. | Structure |
| C29 | Varying mixture layers | `VaryingMixtureLayer` | mixture at the slice centre | **partial**. Proved for thickness other than 0; refuted for the accepted thickness 0. | Structure |
| C30 | Setters validate | setters as a state machine | invariant by induction over call sequences | **partial**. Invariant over arbitrary call sequences, exact refusal conditions; NaN thickness is accepted (C30_nan_thickness_refuted). | Structure |
| C31 | Front half space is isotropic | `Structure` setters | type lattice | **partial**. Refuted: set_front_material accepts anisotropic materials. Only the Material type check holds. | Structure |
| C32 | Bare substrate gives Fresnel | both solvers, empty stack | uniqueness of the interface conditions (`Spec/Optics`) | **proved**. Solver4x4 and Solver2x2 give the solution of the interface conditions (Spec.InterfaceS/P), which is unique. | Energy |
| C33 | Zero-thickness layers do not matter | both solvers | transfer matrices; exp 0 = 1 | **proved**. 4x4 for any anisotropic slice and any exit medium; 2x2 whenever neither calculation divides by zero. | SolverLaws |
| C34 | Layers can be split | both solvers | exp(a+b) for commuting matrices | **proved**. Exponential propagator (any material) and 2x2. C34_linear_refuted: the linear propagator is not multiplicative, by design. | SolverLaws |
| C35 | Energy conservation | both solvers | conserved Poynting form through the stack | **partial**. Proved for both solvers when the exit medium is an IsotropicMaterial (all layers anisotropic or not, total reflection included). C35_mixture_exit_refuted: for a lossless exit medium given as a mixture the 4x4 solver applies no power correction and R + T is 5/9 instead of 1; C35_exit_by_class: only the class of the exit material decides. | Energy, MixtureExit |
| C36 | No gain from passive stacks | both solvers | monotone Poynting form, Hermitian positivity | **proved**. R + T <= 1 for every incident polarisation, any passive anisotropic slices, isotropic half spaces. | Energy |
| C37 | The two solvers agree | both solvers | transfer-matrix equivalence, independence of the arcsine branch | **proved**. For every branch of the complex arcsine, away from zero denominators of the 2x2 method. | Energy |
| C38 | No cross polarisation for isotropic stacks | both solvers | block structure | **proved**.  | Energy |
| C39 | Repetition is a power | 4x4 stacks with repeats | power of the unit matrix | **proved**. For any propagator, also at the level of structures containing RepeatedLayers. | SolverLaws |
| C40 | Propagators agree | `PropagatorEig`, `PropagatorExpm` | exp of a diagonalisable matrix | **proved**.  | SolverLaws |
| C41 | Reflection does not depend on the exit eigenbasis | `get_k_z`/eigenvector selection of the exit medium | change of basis of the half-space solution | **partial**. Reflection is independent of the eigenvectors chosen when the normalisation constant is not zero; refuted for transmission (power depends on eigenvector phases) and for the no-op guard of a vanishing constant (NaN). | ExitBasis |
| C42 | Pseudo dielectric function inverts a bulk sample | `calc_pseudo_diel`, bare substrate | Fresnel algebra | **proved**. Proved for every front index n0 (result is eps/n0^2, because the formula assumes vacuum) and, for n0 = 1, exactly eps. | ThinFilm |
| C43 | Classical thin film facts | solvers on thin films | Fresnel and phase identities | **proved**. Brewster (iff), total reflection for any lossless stack, half-wave layer in any stack, quarter-wave antireflection. | ThinFilm |
| C44 | Scale invariance | both solvers | phases depend on d/λ only | **proved**. Both solvers, exponential and linear propagators. | SolverLaws |
| C45 | Evaluation takes a snapshot | heap of objects with `deepcopy` | frame property by induction over operations | **proved**. Object memory model; deepcopy is modelled as copying every object to a fresh address with references shifted. | Snapshot |
| C46 | Dispersion parameter filling | parameter dictionaries in a memory | induction over argument lists | **proved**. Templates, positional and keyword arguments as lists; parameter values of any type. | Params |
| C47 | Adding oscillators | `add` and repeated parameters | induction, permutation | **proved**. History of add calls by induction; permutation of the parameter sets leaves every repeated-parameter model unchanged. | Dispersion, Params |
| C48 | Dispersion models agree | dispersion formulas on ℝ/ℂ | field algebra, limits | **partial**. All documented identities between models proved except two that the code violates: the infrared pole of Poles has the opposite sign (C48_poles_refuted), and DrudeEnergy is not the zero-frequency limit of LorentzEnergy with the documented factors (C48_drude_limit_refuted, corrected form in C48_drude_limit_partial). A TaucLorentz model with Eg = 0 plus 1 is the LorentzEnergy model with amplitudes A*E, for every damping but the critical one (C48_tauc_no_gap). | Dispersion, TaucNoGap |
| C49 | Dispersion models are passive | dispersion formulas; `Model/Tanguy.lean` with Gamma, digamma and the principal root | sign analysis; for Tanguy: the cotangent formula is a real multiple of `xi^(1-2a) Γ(a-xi)/Γ(1-a-xi)` (reflection formula), whose argument is controlled by the infinite product of Gamma (`Lemmas/GammaRatio.lean`), and the second difference of a function that maps the upper half plane to itself is handled by the Phragmén-Lindelöf principle (`Lemmas/Herglotz.lean`) | **partial**. Proved for Lorentz (both), Drude (both), Gaussian, Tauc-Lorentz with C < 2E away from the gap, and the complete Cody-Lorentz dispersion (value, wavelength range, sign of the imaginary part). Tauc-Lorentz with C > 2E or exactly at the gap violates the claim (refutations). Tanguy proved for all dimensionalities 1 < d <= 3, nonnegative amplitude, positive broadening and a lowest exciton of positive energy (C49_tanguy). | Cody, Passivity, Tanguy |
| C50 | Dispersion sums add values | dispersion objects in a heap, `+` with Python dispatch | invariant over all histories, induction over expressions | **proved**. Memory model of dispersion objects, invariant over all histories; whole expressions over non-sum objects by induction. Where a sum object is mentioned several times see C51. | DispSum |
| C51 | Addition does not change its operands | same | frame theorem; witness for sums | **partial**. Refuted for operands that are sums; the partial theorem says exactly which single object can change. | DispSum |
| C52 | Index and dielectric views are consistent | `get_refractive_index`, `as_index`, tables | square of the principal root | **partial**. The square relation holds for every object; as_index() raises InvalidParameters for TableEpsilon and PseudoDielectricFunction (refuted there). | DispSum |
| C53 | Tabulated data interpolate | `Table`, `TableEpsilon`, interpolation | sorted lists, chord formula | **proved**. Linear interpolation of complex data; scipy's interp1d is modelled from its documentation. Distinct wavelengths and at least two rows are assumed for values. | Table |
| C54 | Adding a number to tabulated dispersions | `__add__` of tables | dispatch | **partial**. Holds for TableEpsilon; Table + number always raises InvalidParameters (refuted). | DispSum |
| C55 | Kramers-Kronig transform laws | `_calc_kkr` and the four transforms | finite sums | **proved**. Maclaurin sums over lists of points; linearity, parity, scaling and the reciprocal variant. | Kkr |
| C56 | Kramers-Kronig integration weight | same | weights of the Maclaurin sum | **partial**. Weight 2·Δ on every second point proved from the second point on; at the first point the weight is x0 - h (h the spacing seen there) instead of 2·Δ, so the sum differs (refuted for the first point). | Cody, Kkr |
| C57 | Formula dispersions sum over repeated parameters | formula evaluator on arrays | induction over expressions | **partial**. Proved for every parsed formula whose names are known, without heaviside, and whose brackets mention the axis; construction and the length check proved. Refuted for brackets without the axis, heaviside and parameter sets added after construction. | Formula |
| C58 | Formula grammar is unambiguous | grammar as derivations over tokens | induction; unique parse, print/parse round trip | **partial**. Unambiguity, left association, no chaining of ** and print/parse round trip proved for all token sequences. The usual precedence is refuted for signed numbers (-2**2 is read as (-2)**2). The lexer is the subject of C97. | Grammar |
| C59 | Result attribute names | `Result.__getattr__` on strings | decision logic for every string | **partial**. Element, whole-matrix, transmission, unknown, malformed and out-of-range names decided for every name; the documented direction of r_sp and the circular names are refuted (C59_direction_refuted, C59_circular_refuted). | Lookup |
| C60 | Result.get | `Result.get` | evaluation | **partial**. Refuted: get always raises TypeError (C60_get_refuted). | Lookup |
| C61 | Averaged results | `ResultList.mean`, nd-arrays with `squeeze` | list sums, shapes | **partial**. Mean value and shape proved for at least two results and wavelengths; squeeze breaks one result or one wavelength (C61_one_result_refuted, C61_one_wavelength_refuted). | Lookup |
| C62 | Parameter history is bounded | `ParamsHist` as heap and list | invariant over operation sequences | **proved**. Length bound (C62_bound) and the exact content of the history for every sequence of operations whose objects exist, including revert, pop, clear_history, changes of the maximal length and operations that raise (C62_recent). C62_recent_values says the same in terms of stored values without revert; that revert makes later changes write through to an entry is the subject of C64. | Hist, HistRecent |
| C63 | Undo restores | same | round trip | **partial**. pop restores committed values; refuted for parameters added after the commit. | Hist |
| C64 | History entries are immutable | same | frame property; aliasing witness | **partial**. Committed entries stay unchanged without revert; refuted with revert, which aliases the entry. | Hist |
| C65 | Revert guard | same | decision logic | **partial**. revert restores the indexed entry; the documented index guard is refuted. | Hist |
| C66 | Fit residual | residuals, cost, labels of the fit classes | list lemmas | **partial**. Residuals, cost, angle handling and Mueller labels as stated; labels are wrong for column orders other than SpectraRay order (refuted). | Fit |
| C67 | refractiveindex.info formulas | `RII.get_dispersion` formulas 1-5 and tables | finite sums | **proved**. Formulas 1-5, tables, several entries and unknown types. | Rii, RiiSum |
| C68 | Catalog search | `RII.search`, `get_dispersion` lookup | filters, ranking | **partial**. Exact and approximate search, column and wavelength handling, loading proved. Refuted where numpy passes missing truth values on (a row with an empty cell in another searched column is lost) and for rows with empty shelf name. | Catalog |
| C69 | Unit conversions invert | unit conversions of `utils.py` | field algebra | **proved**. All conversions map to the same photon, are self-inverse on nonzero values and undefined at zero. | Units |
| C70 | Importers classify numbers correctly | `is_float` with its pattern | language of the regular expression | **partial**. The pattern matches exactly the numerals (C70_pattern), but it is searched anywhere in the text: true exactly when a digit occurs: all numerals are accepted, but so is every label with a digit (refuted). | Importer |
| C71 | Importers keep measurements | Accurion/other readers, `groupby().sum()` | multisets of measurements | **partial**. Exact for distinct (angle, wavelength); repeated measurements are added (refuted). | Frames |
| C72 | NeXus materials | `read_nexus_materials.get_material` | decision table | **partial**. Complete decision table; x and y without z gives KeyError (refuted). | Importer |
| C73 | One Undo per action | buttons of the fit widget as a state machine | induction over button sequences | **partial**. One undo per edit and per fit; a second Undo after a fit does nothing, Set initial cannot be undone, Redo has one level and stays armed after a new edit (refuted). | Gui |
| C74 | Fitted parameters keep the fit result | fit button and edits in the heap | aliasing analysis | **partial**. Right after Fit the fitted parameters hold the values found; a later edit changes them too (C74_edit_refuted). | Gui |
| C75 | Display options are optional | display options | evaluation | **partial**. All three options given works; leaving one out raises AttributeError (refuted). | Fit |
| C76 | Woollam tables are read completely | Woollam readers on lines | filters, list induction | **partial**. Exact characterisation of what is read; refuted for CompleteEASE files whose first rows have negative delta and for files starting with the table. | Importer |
| C77 | SpectraRay psi/delta tables keep every measurement | SpectraRay psi/delta reader | multisets, sorted output | **proved**. Header, stacking, sorting and delta window; the pandas operations are library assumptions. | Frames |
| C78 | Reciprocity of reflection | 4x4 solver | transposition symmetry of the Berreman matrix | **proved**. For every passive stack (PassiveStack: positive real front permittivity, isotropic exit medium, passive layers) with symmetric tensors, under PropagatorExpm. C78_every_structure: all stacks the package builds have symmetric tensors. | Symmetry |
| C79 | Half-turn and mirror symmetry | 4x4 solver | conjugation by diagonal matrices | **proved**. The half turn holds for every propagator function, mirror and absence of cross polarisation for PropagatorExpm. Isotropic exit medium. | Symmetry |
| C80 | Azimuth at normal incidence | 4x4 solver at normal incidence | rotation of the field vector | **proved**. PropagatorExpm, isotropic exit medium, non-zero front index. | Symmetry |
| C81 | Transmission is the same from both sides | 4x4 solver on the reversed stack | Lorentz reciprocity form | **proved**. PropagatorExpm. C81_amplitudes holds for absorbing media too; C81_transmittance for transparent media without total reflection. | Symmetry |
| C82 | Index-matched layers | 4x4 solver | explicit exponential of an index-matched layer | **proved**. PropagatorExpm, isotropic front and exit media; C82_beer_lambert at normal incidence. | Symmetry |
| C83 | Results are the solution of Maxwell's equations | 4x4 and 2x2 solvers against `Spec/Maxwell` | fields of Maxwell's equations ↔ solution of the Berreman ODE; uniqueness | **proved**. PropagatorExpm; the exit medium is isotropic (class IsotropicMaterial); the angle is below 90 degrees. The scattering problem is stated with curls in Spec/Maxwell.lean, independent of the solver matrices. For Solver2x2 the conditions of C37 apply. | Maxwell |
| C84 | Dispersions compute the formula of their documentation | dispersion formulas against `Spec/DispersionDoc` | field algebra; witnesses where code and text differ | **partial**. Cauchy, CauchyCustom, CauchyUrbach, Constant, EpsilonInf, DrudeEnergy, Poles, Polynomial, Sellmeier and SellmeierCustom compute the printed formula. LorentzEnergy (opposite sign of the sum), LorentzLambda (complex conjugate), DrudeResistivity and Gaussian (printed width) differ from the printed formula: refutations, with the formula actually computed as the partial theorem. PseudoDielectricFunction's printed formula lacks the square of the last factor (C84_pseudo_refuted). | DispersionDoc, Pseudo |
| C85 | Slicing converges to the continuous medium | 4x4 solver on slices against `Spec/Graded` | linear ODE with continuous coefficients, Grönwall bounds, limit of products of exponentials | **proved**. Jones matrices converge to the amplitudes of the Maxwell solution of the continuously varying sample (Spec/Graded.lean) when the divisions grow; existence and uniqueness of that solution is part of the theorem. Plain, twisted and varying layers; RepeatedLayers are covered through the list form C85_slicing_converges. C85_plain_ok, C85_twisted_ok and C85_vca_ok show which layers meet the conditions. | Slicing |
| C86 | The linear propagator converges to the exact one | 4x4 solver with `PropagatorLinear` | limit of products 1 + hM | **proved**. PropagatorLinear on k equal slices per layer tends to the Maxwell solution and to the PropagatorExpm result as k grows, for every passive layered or graded sample. | Slicing |
| C87 | Results depend continuously and differentiably on the sample | 4x4 solver with `PropagatorExpm`, half spaces, power factor | continuity of the principal root on the closed upper half plane, of exp and of the inverse at invertible matrices | **proved**. jr, jt and the power factor are continuous in all parameters at every passive sample (critical angle included); entries are differentiable in thicknesses, tensors and wavelength for fixed half spaces and angle. | Continuity |
| C88 | R and T are the values for unpolarised light | `Result.R`, `Result.T`, 4x4 solver | trace of J*J over an orthonormal pair; explicit half-wave plate | **partial**. False in general: R = (R_pp + R_ss)/2 leaves out the cross-polarised power. Exact condition proved (agreement iff no cross polarisation), counterexample: a half-wave plate at 45 degrees gives R = T = 0 although everything is transmitted; true for isotropic layers. | Unpolarised |
| C89 | The Kramers-Kronig sums converge to the principal value integrals | `_calc_kkr` with the four kernels | error of the Maclaurin sum: the odd kernel 1/(x-w) cancels in pairs over the alternating grid, the rest is a Riemann sum of the slope | **partial**. Convergence to the principal value proved for all four transforms, of first order in the step for smooth spectra (C89_rate); the order is sharp because the two ends of the axis carry full weights (C89_rate_sharp). The formula in the docstring of im2re_reciprocal is refuted: it has x Im(x) where the code (correctly, for a wavelength axis) has Im(x)/x. | KkrLimit, KkrRate |
| C90 | re2im and im2re are the two halves of the Kramers-Kronig relation of one causal response | `_calc_kkr`; any integrable response function, its susceptibility as a Fourier integral | Fubini on the two sides of the excluded interval, sine integral bounds (Dirichlet), dominated convergence in a -> 0, b -> infinity, delta -> 0 | **partial**. The im2re half is proved for every response. The re2im half is false for every response: re2im and re2im_reciprocal give minus the imaginary part (the formula needs a minus sign). | KkrCausal |
| C91 | The oscillator models are Kramers-Kronig consistent | the dispersion formulas and `_calc_kkr` | partial fractions and complex logarithms (Lorentz), explicit antiderivatives of the gapped line (Tauc-Lorentz), Gaussian Fourier integral from its differential equation, then C89; for Tanguy a general Kramers-Kronig theorem for functions analytic in the upper half plane with crossing symmetry and decay (subtraction of two oscillators, then Cauchy on rectangles) | **partial**. Proved for Lorentz (energy and wavelength, all damping), Gaussian (dawsn taken as Dawson's integral), Tauc-Lorentz with C < 2E, Tauc-Lorentz without a gap for all C other than 2E, and Tanguy in every dimension 1 < d <= 3 with the bound state below the gap above zero (its background term a / (b - E**2) is real and is left out). CodyLorentz obtains its real part numerically from im2re_reciprocal, see C49 and C56. False for both Drude models: their real part has the wrong sign, the transform of their imaginary part is minus it. False for a Tauc-Lorentz oscillator with a gap and C > 2E: the real part is the transform of the documented absorption, but the complex arctangents add a second term to the imaginary part. At C = 2E the formula divides by zero at every wavelength. | KkrDispersion, KkrTanguy, KkrTauc |
| C92 | A thick absorbing layer hides what is behind it | `Solver4x4.calculate`, `PropagatorExpm`, isotropic half-spaces | the layer acts as a diagonal matrix of a growing and a decaying wave; the energy flux makes the amplitudes of the growing waves behind it an invertible matrix; first order expansion of the reflection block | **proved**. Exact arithmetic: the floating point overflow of the matrix exponential for very thick layers is not modelled. | ThickLayer |
| C93 | Stop bands and pass bands of a periodic stack | `Solver4x4.calculate` with `PropagatorExpm` on isotropic lossless layers | eigenvalues of the period matrix of determinant one; a flux carrying vector has a component on the growing eigenvector; energy conservation (C35); diagonal period matrix for quarter-wave layers | **proved**. RepeatedLayers is reduced to the written-out list by C39. | Bragg |
| C94 | Single films and total reflection in closed form | `Solver4x4.calculate` with one or no isotropic layer | factorisation of the transfer matrix into interface and phase matrices; a number over its conjugate is a phase | **proved**.  | Airy |
| C95 | Materials of NeXus files carry the sum of their dispersion groups | `read_nexus_materials` over files with formula, table and other groups, on the object memory of the dispersion model | invariant of the reading loop: the object built so far evaluates to the sum of the groups read so far | **partial**. Proved for every file the reader accepts, with an exact description of the accepted ones. Refuted: tables over energy raise TypeError, a formula without wavelength_identifier and energy_identifier raises KeyError, and whether two tables and a formula are accepted depends on the names of the groups. | Nexus |
| C96 | Imported wavelength axes are in nanometres and every measurement is kept | `scale_to_nm`, the row filters of both Woollam layouts, `read_nexus_psi_delta` over HDF5 paths and nested arrays | induction over rows and angles | **partial**. Proved for length units (Woollam) and angstrom (NeXus, both layouts). Refuted: axes in energy are multiplied by the conversion factor instead of inverted, the unit of NeXus wavelengths is ignored, a renamed sample group is not found. | MeasFile |
| C97 | Formulas are read as they are written | lark's contextual lexer (terminals, priorities, blanks) in front of the grammar of C58 | one lemma per terminal; induction over the text; the modes follow the derivation | **partial**. Proved for all formulas whose names do not begin with the name of a function or constant. Refuted exactly for the others: FUNC and BUILTIN have priority and no word boundary, so c1, height, pix or since are never accepted, and a parameter called like a constant is read as the constant. | Lexer |
| C98 | The pseudo dielectric dispersion of a bulk measurement is the sample's dielectric function | PseudoDielectricFunction over an interpolation that meets its nodes | C42 and C03 at each node; induction over the table | **proved**. scipy's cubic spline is any interpolation through the nodes. The whole chain is covered: 4x4 solver, psi and delta, calc_rho, calc_pseudo_diel, table. | Pseudo |
| C99 | Drawings of a structure show the index at every depth | profiles, positions and values handed to matplotlib; step and pcolormesh as a piecewise constant function | induction over the slabs; the index along v in closed form | **partial**. Drawings proved for both methods, before clipping: the graph then cuts its axis at index 1, so that media of smaller real index run outside the axes. The index profile is right for the default direction x; refuted for all others, even in isotropic media: the elementwise product gives sqrt(v_x^2 eps_xx), that is n\|v_x\| instead of n. | Plot |
| C100 | Fit windows show the model at the current parameters in the chosen quantity | `Model/FitWindow.lean`: windows, events, figures of `FitRho` and `FitMuellerMatrix` on top of `Model/Hist.lean`; ipywidgets and plotly as described in the file | invariant over event sequences (objects not shared, boxes in step, figure correct for the present values); curves stated by name in `Spec/FitWindow.lean`; refutation by one measured point | **partial**. Proved for all event sequences (C100_psi_delta, C100_mueller) and for FitRho.plot and FitRho.plot_rho (C100_plot, C100_plot_rho). Refuted part: the residual of delta is 360 degrees although the ratio is reproduced, when the measured delta lies in 180..360 and the model uses -180..180 (C100_delta_residual_refuted). FitRho shows measured minus modelled, FitMuellerMatrix modelled minus measured. Plain lmfit Parameters (where the fit button raises AttributeError) are outside the model. | FitWindow |
| C101 | Number boxes of fit windows show and accept the parameter values | `Model/FitWindow.lean`: `rhoBox`, `mmBox`, typed values and `update_widgets` | clamping is the nearest point of the interval; boxes in step with the values by the invariant of C100; the missing lower bound is replaced by `floatMin` > 0 | **partial**. Proved for FitMuellerMatrix (C101_mueller_box, C101_mueller_window) and for FitRho parameters with a lower bound (C101_rho_box_partial, C101_rho_window). False for every FitRho parameter without a lower bound: sys.float_info.min is the smallest positive number, so zero and negative values are shown and read as 2^-1022, and with an upper bound that is not positive the window cannot be made (C101_lower_bound_refuted). | FitBoxes |
| C102 | get_model_data and to_csv give the model at the fitted or given parameters | `Model/FitWindow.lean`: `rhoModelData`, `rhoToCsv`, `mmModelData`, `mmToCsv` | case analysis; look-up by label in joined frames | **partial**. Proved for FitRho.get_model_data (C102_rho_data) and for both methods of FitMuellerMatrix (C102_mueller_csv). FitRho.to_csv raises ValueError for all arguments, because append_exp_data is handed over in the place of repr (C102_rho_csv_refuted). | FitBoxes |
| C103 | A spectrum is its points | `Model/NdArray.lean`, `Model/ArraySolver.lean`: numpy arrays as shape and entries, every line of the solvers, materials and layers as array operations | every array expression is shown to act at each wavelength by a program for one wavelength (`Lemmas/Nd*.lean`, `Lemmas/Array*.lean`); both sides of the claim are that program | **proved**. Arrays with shapes, broadcasting, indexing, einsum, moveaxis, sorting and masked assignment are modelled over an arbitrary arithmetic (a type with the operations used by the code, about which nothing is assumed). That dispersions are elementwise (constant ones return a number) is proved for all classes except formulas in C113_array_solver. Assumed: numpy.linalg acts on each matrix by itself, and all arrays are complex (scimath functions choose the type of a real array by looking at all its entries). | Spectra |
| C104 | The arrays of a spectrum contain the results for single wavelengths | `Model/ArrayExact.lean`: exact complex arithmetic; which array objects are objects of `Model/Structure.lean` | the program for one wavelength of C103 with exact arithmetic is the function of `Model/Solver.lean` (`Lemmas/ArrayExact*.lean`), including the sorting of modes and the loops | **proved**. Refinement between the two models: arrays (Model/ArraySolver.lean with the exact arithmetic of Model/ArrayExact.lean) and one wavelength (Model/Solver.lean, Materials.lean, Structure.lean). It is stated at wavelengths where no tensor contains NaN. The thicknesses, rotation matrices and fractions of slices are those of Model/Structure.lean. | SpectraExact |
| C105 | All quantities of a result are computed wavelength by wavelength | `Model/ArrayResult.lean`: the properties of `Result` as array operations (einsum, reshape, dot, broadcasting over `[:, None, None]`) | each expression acts at each wavelength by a program for one wavelength (`Lemmas/ArrayResult.lean`); with exact numbers that is the function of `Model/Result.lean` found under the same name in `Model/Lookup.lean`; energy laws of C35 and C36 are transferred to the arrays | **proved**. The array expressions of result.py over an arbitrary arithmetic. For the part with any arithmetic np.linalg.inv must invert the three constant matrices (with exact numbers they are proved invertible). Division by zero (no reflection of s light) is NaN in the code and 0 in the exact arithmetic, as in Model/Result.lean. | ResultArrays |
| C106 | The Tanguy model depends continuously on the dimensionality | `Model/Tanguy.lean` | derivatives of the Gamma quotient in `a` at 1 and 1/2, slope of the sine, growth of the logarithm for short wavelengths (`Lemmas/TanguyLimit.lean`) | **partial**. Proved for all d except 2 (C106_continuous_partial). At d = 2 the code violates it: the general formula tends to the exciton term divided by pi (C106_limit_two), so the value jumps at d = 2 at all sufficiently short wavelengths, whatever the parameters (C106_two_refuted). | TanguyLimit |
| C107 | Exciton lines of the Tanguy model | `Model/Tanguy.lean` | poles of Gamma and digamma by induction, the root at real energies, symmetry under conjugation | **proved**. Both directions: C107_resonance and C107_transparent. | TanguyLimit |
| C108 | Material files of SpectraRay | `Model/SpectraRayTable.lean` (scan for markers and units, `read_csv`, conversion, `TableEpsilon`) | induction over the lines of the file; witnesses for the refuted parts | **partial**. Proved for well-formed files in photon energies (C108_energy_partial, C108_value). The code violates the rest: every file in wavelengths raises ValueError because a column name is given to iloc (C108_wavelength_refuted); 'Units=Wavelength' without a comma is read as energies (C108_no_comma_refuted); a blank line inside the array is a TypeError (C108_blank_refuted); a file whose array comes before the units line is an UnboundLocalError (C108_units_first_refuted). | SpectraRayTable |
| C109 | Integer wavelengths | `Model/IntLambda.lean` (integers modulo `2^w` and floats, powers as numpy computes them) | balanced remainder `Int.bmod` is the identity on the range; growth of powers; witnesses | **partial**. Proved where the powers fit into the integer type (C109_cauchy_partial, C109_powers_partial, C109_lorentz_partial) and for floats (C109_float). The code violates it beyond: the fourth power in the Cauchy model wraps from 216 nm (32 bits) or 55109 nm (64 bits) on (C109_cauchy_wrong_refuted, C109_cauchy_widths), is 0 at multiples of 256 nm with 32 bits (NaN or infinity, C109_cauchy_nan_refuted), and a negative integer exponent raises ValueError (C109_negative_exponent_refuted). | IntLambda |
| C110 | Data frames of dispersions | `Model/DataFrames.lean` on top of `Model/DispSum.lean` and `Model/Table.lean` | induction over the wavelengths; interpolation at nodes (C53_node) | **partial**. Rows, exceptions, conjugation, both round trips and the default range of single dispersions are proved. The code violates the last part for sums: the sum of a table that does not cover 200 to 1000 nm and anything raises an exception without wavelengths, because sums do not take over the range of their parts (C110_sum_default_refuted). | DataFrames |
| C111 | The dispersion factory | `Model/Factory.lean` (attributes of the package) | case distinction over the attributes | **partial**. Proved for all models (C111_models) and all names that are no attribute of the package (C111_others_partial). The code violates the rest: names of submodules such as 'cauchy' raise TypeError and 'TableSpectraRay' gives an object that is not a dispersion (C111_others_refuted). | Factory |
| C112 | Thick absorbing layers and the range of double precision | `Model/Overflow.lean` (both solvers with values outside the range of doubles as `none`) | induction over the layers: absorbing `none` for the refutation, size bound for the finite case; C92 for the exact limit | **partial**. The range of doubles is modelled, rounding is not. Proved: finite results are exact (C112_range_2x2, C112_range_4x4), and Solver2x2 is finite and exact as long as a product of sizes over the layers stays below 2^1024 (C112_finite_2x2, C112_finite_passive_2x2), likewise Solver4x4 with PropagatorExpm for any symmetry (C112_finite_4x4, C112_transmission_4x4). The code violates the rest: an absorbing layer with 2 pi d Im(kz)/lbda above 711 (ten micrometres of a metal at 500 nm) makes the reflection coefficients of both solvers NaN, with expm and with the eigen propagator, although the exact reflection converges to that of the bare absorber (C112_thick_layer_refuted). | Overflow, Overflow4 |
| C113 | Dispersions act on every wavelength separately | `Model/DispArray.lean` (each class as array code over an arbitrary arithmetic), `Model/Formula.lean` (check of the axis) | closure of entry-by-entry evaluation under the array operations, induction over repeated parameters and nested sums; refinement of the array code to the scalar formulas | **partial**. Proved for every class and sum: entry by entry evaluation with the exact description of the shape (C113_point_by_point), entries equal to the formulas of Model/Dispersion.lean and Model/Tanguy.lean (C113_values, C113_sums), and the assumption about dispersions made by the array solver of C103 and C104 (C113_array_solver). Two parts of the claim are violated by the code: constants and dispersions without oscillators return one number for an array (C113_shape_refuted), and formulas raise TypeError for a number (C113_formula_number_refuted). | DispArray, DispLink, DispValues |
| C114 | Mueller matrix files and files read as rho | `Model/MuellerFile.lean`: header tokens and lines of cells; `read_csv` fills short lines with NaN and takes the first column as index; `iloc[:, -17:-1]`; names; `calc_rho` on the frames of C77 and C96 | closed form of the reader for every file (`C114_read`), then position arithmetic in the concatenated matrices; C66 for the fit; ellipsometric equation is invariant under full turns of delta | **partial**. Full statement: every file shows the matrix of its first angle under the right labels. Proved for one angle and the header written by SpectraRay (two words before the tokens of the columns), with the consequence for fits. False otherwise: with several angles the last one is read (C114_first_angle_refuted), with one header token for each column a file with one angle is refused and one with two angles is read shifted by one element (C114_plain_header_refuted). The readers of rho are proved in full for the files C77 and C96 cover. | MuellerFile |
| C115 | Psi and delta are the polarisation of the reflected light | `Model/Result.lean`, `Model/Experiment.lean` | Stokes parameters as intensities behind analysers; the ratio of the reduced matrix is the ratio of the amplitudes; C03, C06, C11 | **partial**. Proved for all delta ranges that start at a multiple of 180 degrees, including the default; for (0, 180) without the handedness (C115_folded). False for other ranges because delta is shifted by twice the lower bound (C115_range_refuted, the cause is that of C02 and C03). Partially polarised light: the angles are those of its polarised part (C115_stokes). | ReflectedLight |
| C116 | Stacks on anisotropic exit media never reflect more than the incident power | `Model/Solver.lean` (`buildDelta`, `eigSorted`, `eigPhased`, `eigHalf`, `calculate4x4`) | energy flux as an indefinite form: in a passive medium a combination of decaying waves has non-negative flux and there is no three-dimensional such space; definiteness of the quadratic form inside the wave-vector surface (Cauchy-Schwarz for uniaxial tensors); orthogonality of waves of a lossless medium under the flux form | **partial**. Proved for passive exit media in which no wave is totally reflected, for absorbing media, and for transparent ones with an evanescent wave and no coinciding undamped waves; every transparent uniaxial crystal off its critical angles is of this kind (C116_uniaxial). False for biaxial crystals near their critical angle: C116_biaxial_refuted gives a transparent crystal where both selected waves are p waves and the matrix is singular. Not robust against rounding for transparent media (C116_rounding_refuted): the code sorts by Im first, so arbitrarily small imaginary parts of the eigenvalues select backward waves; damped media are robust (C116_rounding_damped). False also for lossless media with a negative principal value (C116_hyperbolic_refuted): the reflectance exceeds one. | CrystalExit, CrystalFresnel |
| C117 | Bare crystals reflect by the closed formulas of crystal optics | `Model/Solver.lean` (`buildDelta`, `eigSorted`, `eigPhased`, `eigHalf`, `isoHalf`, `isoHalfInv`, `calculate4x4`) | the reflection matrix depends only on the space spanned by the two selected eigenvectors, which is the invariant space of the first two wave numbers; explicit eigenvectors and field algebra | **proved**. The wave numbers are assumed to be separated as the code sorts them (first decay, then real part); C116 states for which media this selects the waves running away. | CrystalFresnel |
| C118 | Stacks of many thin layers act like a homogeneous crystal | `Model/Structure.lean` (`repeatedSlices`), `Model/Solver.lean` (`buildDelta`, `propExpm`, `calculate4x4`) | Lie's product formula for any number of matrices; the delta matrix of the homogeneous tensor is the mean of the delta matrices; energy of the mean field is the mean of the energies; continuity of the Jones matrices | **proved**. Exact arithmetic, matrix exponential as propagator. | Homogenise |
| C119 | An experiment keeps what was set last | Model/ExpState: attributes as references into a memory of arrays, np.asarray returning arrays themselves, setters, the constructor and Structure.evaluate | Props/ExpState: refinement of the memory model to settings by value, by induction over programs with the invariant that held arrays exist; last call per attribute; the same-light invariant with the Stokes parameters of the specification; witness with shared arrays | **partial**. Proved for all programs in which the caller does not write into an array the experiment currently holds. The unrestricted claim is false: set_vector and set_lbda store the array passed without a copy, so writing into it changes the experiment and leaves the other vector stale (C119_alias_refuted). | ExpState |
| C120 | Solver2x2 warns about samples it does not treat | Model/Choices: n_list and the loop with the two warnings | Props/Choices: quadrant of the principal root; silence gives passivity, then C37; a crystal at normal incidence as witness | **partial**. Proved: exactly one active-medium warning per medium with negative imaginary part, no other warning, and silent isotropic samples agree with Solver4x4. False: the second warning can never fire, a medium with n < 0 and k > 0 is reported as active (C120_negative_index_refuted); anisotropic samples are treated as isotropic without a warning (C120_anisotropic_refuted). | Choices |
| C121 | Choice of the matrix exponential | Model/Choices: the if-chain of PropagatorExpm.__init__ and calculate_propagation with the chosen function | Props/Choices: case analysis; equality of the propagators | **proved**. Assumes that torch.linalg.matrix_exp and scipy.linalg.expm both compute the matrix exponential. | Choices |
| C122 | Crystals symmetric to the plane of incidence act on s and p light separately | Model/Solver (buildDelta, propExpm, calculate4x4, calculate2x2) | Props/PlaneStack: the delta matrix splits into two blocks, the exponential and the product of the layers too; the s block depends on eps_yy only; passivity of the Schur complement | **proved**. Exact arithmetic, matrix exponential as propagator, isotropic exit medium. | PlaneStack |
| C123 | Drawings of Mueller matrices | Model/MmPlot: plot_mmatrix with both loops, cycling lists and exceptions; plot and plot_residual | Props/MmPlot: induction over the loops in both directions (success exactly under the conditions; curves as a list comprehension) | **partial**. Proved as stated except: full_scale has no effect in a single plot (C123_full_scale_refuted); with the standard names the third frame carries the names of the first (C123_names_refuted). | MmPlot |
| C124 | Printed dispersions | `Model/Print.lean`: `_dict_to_str`, the three `__repr__` methods and what `as_index` leaves for them, on texts as lists of characters; number format as a parameter | the text is a list of lines; an empty line followed by another line than the title of the oscillators ends a term, so the lines can be parsed back (induction over terms, oscillators and separators) | **partial**. The printed text determines class, parameters, oscillators and the order of the terms, for every number format that tells numbers apart (C124_determines_partial), and every parameter appears as `name = value` (C124_every_parameter_partial). The code violates the claim: as_index() of a sum prints no term at all (C124_as_index_refuted), and interpolation kind of tables, formula, axis and unit of formula dispersions are not printed (C124_other_refuted). Arrays as parameter values (tables, pseudo dielectric functions) are outside of the number format: numpy abbreviates them. | Print |
| C125 | Lists of results | `Model/ResultLists.lean`: memory of results, Python lists and ResultList objects; operations, attribute access with recursion limit, copy | invariant (the list of a fresh ResultList has no other name) by induction over programs; row-major arithmetic for the rows; induction over the recursion limit for copies | **partial**. C125_appended_partial (any program without a second name for the list), C125_rows_partial (two or more results) and C125_mean_follows are proved. The code violates the rest: a list given to the constructor stays shared (C125_shared_refuted), as_delta_range changes results already in a list (C125_delta_range_refuted), with one result the rows are wavelengths (C125_one_result_refuted), and no ResultList can be copied or unpickled because __getattr__ recurses before `results` exists (C125_copy_refuted). | ResultLists |
| C126 | Far from their resonances the oscillator models behave as the f-sum rule and their static values demand | Model/Dispersion.lean (the formulas of the dispersion classes); Spec/DispLimits.lean (limits of computations that may fail, free electrons, absorption sum) | Asymptotics in the variable 1/E; the absorption integrals by an arctangent after the substitution E -> E0^2/E (Lorentz), by parity (Gaussian) and by an explicit primitive (Tauc-Lorentz); Dawson's integral bounded between two comparison functions; the static value of Tanguy by Cauchy on rectangles after subtraction of a Debye relaxator | **partial**. Proved for any number of Lorentz oscillators (both kinds, all damping regimes), Sellmeier terms (no absorption: the approach to vacuum only), Gaussian oscillators (dawsn being Dawson's integral) and Tauc-Lorentz oscillators below critical damping, or without a gap and not at critical damping (there with the closed values W = sum A E and static value sum A/E). False for the Drude models: their absorption sums to A but they approach the limit as -A, so the real part has the wrong sign (see C91). False for Poles: the infrared pole enters with the opposite sign. Tanguy approaches vacuum and its real static value obeys the sum rule 2/pi integral Im eps / E; its absorption falls off too slowly for an f-sum. CodyLorentz is not covered; Tauc-Lorentz above critical damping gains a spurious imaginary part (C91). | DispLimits, StaticLimits, StaticTanguy, SumRules, TaucNoGap |
| C127 | Light of any polarisation keeps its power, and lossless samples reflect the same from both sides | Solver4x4 of Model/Solver.lean with the exact propagator; specification Spec/BothSides.lean (power of a Jones vector, set of reflectances over all polarisations) and upsideDown of Spec/Symmetry.lean | flux balance for an arbitrary exit vector gives the Gram matrices of reflection and transmission; reciprocity (C81) relates the transmissions of both sides, equal characteristic polynomials and the spectral theorem give the same reflectances; witness film with Airy's formula | **proved**. C127_every_polarisation and C127_no_gain give the balance for every Jones vector; C127_both_sides, C127_unpolarised and C127_isotropic compare the two sides; C127_absorbing_refuted shows that the lossless hypothesis is needed. | BothSides |
| C128 | Twisted layers are helices: exact optics along the axis, selective reflection, and handedness | TwistedLayer and RepeatedLayers of Model/Structure.lean, Solver4x4 of Model/Solver.lean with the exact propagator, circular matrices of Model/Result.lean; specification Spec/Helix.lean (turning frame, generator, slab) | the slices telescope to (U P U)^n U' with half turns U; the power of a curve through 1 converges to the exponential of its derivative; uniqueness of limits identifies the matrix of C85; determinant for the quartic; eigenvalues of an exponential by an invariant eigenspace; mutual induction over nested layers and C79_mirror for handedness | **proved**. C128_helix is the limit (with the Maxwell problem of C85), C128_modes the dispersion relation, C128_band the band of selective reflection, C128_handedness the mirror symmetry of whole structures. | Handedness, Helix |
| C129 | Averaged results and depolarisation | `AveragedResultList.__getattr__` with the arrays of `Result.mueller_matrix`, `delta`, `rho` (Model/Lookup, Model/Result); Spec/Mixture: light, Cloude's condition, incoherent mixture | Mueller matrices as Pauli traces: their Frobenius inner product is |tr J*K|²; the Stokes metric is multiplied by |det J|²; variance identity for the means; pure Stokes vectors span | **partial**. C129_single: Σ M² = 4, Cloude's condition, polarised light stays polarised, for every Jones matrix. C129_mean_partial: the mean of the Mueller matrices has M00 = 1, meets Cloude's condition, maps light to light, Σ M² ≤ 4 with equality exactly if all results have the same Mueller matrix, and is the matrix of the mixture if all reflect the same power. C129_two: for two results it is the matrix of the mixture exactly if the reflected powers or the Mueller matrices are equal. C129_mixture_refuted: the matrices are normalised before averaging, so it is not in general. C129_delta_refuted: psi, delta, rho are averaged as numbers and contradict the averaged Mueller matrix. | Mixture |
| C130 | Birefringent plates between polarisers | `Struct.stack`, `SingleMaterial.setRotation`, `rotationVTheta`, `calculate4x4`, `Result.TMatrix`, `jonesTc` | Azimuth law C80 applied to stacks without cross polarisation (C79); half waves through C122 and C43; Malus as a polynomial identity | **proved**. The structures are built with set_rotation and evaluated by the model of Structure. C130_polarisers also states what the attribute T gives: it leaves out the crossed terms (see C88), so it is smaller by T_ps than that of the unturned plates. | Plate |
| C131 | Ultra-thin films: Drude's law and what ellipsometry can tell about them | `calculate4x4 propExpm`, `Result.rho`, `psi`, `delta`, `pseudoEps` | Derivative of the product of characteristic matrices at zero thickness, sandwiched between the media; Drude's algebra with q0^2 = ea-kx^2, qb^2 = eb-kx^2; chain rule for arctan and the phase | **proved**. C131_coefficients, C131_drude, C131_indistinguishable, C131_transparent and C131_pseudo use the matrix-exponential propagator. The pseudo-dielectric function is in units of the front permittivity, as the code computes it (eb/n0^2 at d = 0). Brewster's angle is left out of C131_transparent because psi is not differentiable there. | UltraThin |
| C132 | Accuracy of the slices of inhomogeneous layers | `LayerObj.profile`, `inhomogeneousProfile`, `calculate4x4` with `propExpm` and `propLinear`; Maxwell's equations in Spec/Graded.lean | Local error of the midpoint exponential is of third order (the term of second order is even about the middle and cancels), local errors add up, Jones matrices are rational in the transfer matrix; Bernoulli's inequality for the exact linear values | **proved**. C132_second_order (any passive layers), C132_structures (structure objects with set_divisions), C132_smooth (which layers meet the hypothesis), C132_linear_first_order, C132_linear_sharp (exact values for a matched layer, n times the missing power tends to phi^2). | SliceError |
| C133 | Film thickness from one pair of ellipsometric angles | `calculate4x4` with `propExpm` on one layer, `Result.psi`, `Result.delta`, `calcRho` | Airy's formulas (C94) make the equation for the thickness a quadratic in the phase factor exp(4 pi i q d/lambda); its coefficients vanish together only in the listed cases; phase factors separate the thicknesses | **proved**. C133_period, C133_absorbing (at most two thicknesses), C133_blind (the exceptional samples, as an equivalence), C133_two_attained. | FilmThickness |
| C134 | Wrapping of delta in double precision | `Rounding.convertDeltaRange` on `Rounding.mod`: addition, numpy's remainder and addition, each rounded | rounding is monotone and fixes the integer bounds, so the closed window survives; the error of each step is half a unit in the last place; the witnesses are located on the grid of doubles | **partial**. C134_closed_window and C134_accuracy are proved; the half-open window (C134_open_window_refuted) and the invariance inside the window (C134_fixed_refuted) are false for the code in double precision; C134_fixed_partial keeps the ranges that start at 0. | Rounding |
| C135 | Slices of inhomogeneous layers in double precision | `Rounding.getSlices` (numpy's linspace), `diffs`, `midpoints`, `fraction` | monotonicity of rounding; (div-1)(1+2^-53) <= div keeps the last computed position below the end; differences of doubles have a relative error even in the subnormal range, so the sum telescopes; twice a double is a double | **proved**. C135_slices, C135_positions, C135_thicknesses, C135_each_thickness, C135_midpoints. | RoundedSlices |
| C136 | Unit conversions in double precision | `Rounding.wavelengthEnergy`, `frequency2Energy`, `energy2Frequency`, `wavelengthFrequency`, `wavelengthWavenumber` | each rounding multiplies by 1 + d with |d| <= 2^-53 between powers of two; products and quotients of such factors | **proved**. C136_wavelength_energy, _round_trip, C136_wavelength_frequency, C136_wavelength_wavenumber, C136_energy_frequency, C136_monotone, C136_exact_round_trip_refuted (why the round trip is stated with a tolerance). | RoundedUnits |
| C137 | Effective media keep to the bounds of the theory of composites | the four entry formulas (Model/Materials.lean); Spec/MixtureBounds.lean for the bounds | all values are written as (1-f)h + fg - f(1-f)(g-h)^2/D and ordered by D (for Bruggeman D = 2e + (1-f)g + fh, for Looyenga a quotient of polynomials in the cube roots with non-negative differences); phases by rotating the constituents to the edge of the upper half plane and C23 | **proved**. Entry by entry, as the classes compute; the bounds are about transparent isotropic constituents. The phase theorem takes constituents with Im >= 0 that are not zero and a result that is not zero (a result of zero has no phase). | MixtureBounds, MixtureSector |
| C138 | Rounding errors of Solver2x2 stay within the conditioning of the stack | Model/RoundedSolver.lean: solver2x2.py:74-102, 117-140 over the operations of a machine; Spec/Conditioning.lean for the sizes | numbers are followed as x' = x + error with |error| <= (g - 1) P and |x| <= P; g multiplies along products, denominators and exponentials become factors near one; induction over the layers | **proved**. Starts from the arrays n_list and th_list as the code has them (their own rounding is not followed). Overflow and underflow are excluded (C112 treats overflow). Sums and products of complex numbers follow numpy; quotient, cosine and exponential are taken to have a relative error of the same order, as the hypothesis Accurate says. | RoundedSolver, RoundedSolverDouble |
| C139 | Ellipsometric angles of a bulk sample | calculate4x4, Result.psi, Result.delta | (1 - rho)/(1 + rho) = cos sqrt(eps - n0^2 sin^2)/(n0 sin^2) lies in the first quadrant (bulk_ratio, kz_exit); its Cayley transform gives the window; the principal angle is a root of a quartic in sin^2 shown to change sign once | **proved**. Exact arithmetic, the default delta range (-180, 180). The incident light is (a, a) with a not zero, which every default experiment has (default_jones). | BulkAngles |
| C140 | Cody-Lorentz in double precision | Model/CodyDouble.lean: doubles as number, infinity or NaN; eps2, im2re_reciprocal, np.interp and the complex sum step by step | exp overflows above 710, infinity times the step 0 is NaN, NaN spreads through the alternating sums to all nodes of the other parity and through the chords; conversely power-of-ten bounds of every intermediate result keep everything a number | **partial**. The code returns NaN for narrow tails (C140_narrow_tail_refuted, C140_absorption_refuted); C140_wide_tail_partial covers wide tails. Tails between 1/710 and 1/600 of the distance are left open: there it depends on the other parameters. Only the range of doubles and the IEEE rules for infinities and NaN are modelled, not the rounding. | CodyDouble, CodyRange |
| C141 | Errors in the amplitudes and rounding change psi and delta by a bounded amount | Model/RoundedResult.lean: result.py:58-118 over the operations of a machine; Model/Result.lean for the exact values; Model/RoundedSolver.lean | the sine of the change of psi is a determinant over two lengths (Cauchy-Schwarz), the sine of the change of an argument is the relative change; the rounded amplitudes are followed as in C138, and the shift of delta keeps whole turns apart | **proved**. C141_psi, C141_delta and C141_delta_folded are about exact arithmetic, so a and b may come from anywhere (noise, other models). C141_rounded_delta and C141_double leave out the range (0, 180). The angle of a number next to the negative real axis may be rounded to either side, hence up to a turn. Overflow and underflow are excluded, as in C138; arctan, rad2deg, angle and mod are taken to have a small relative error, as the hypothesis AccurateAngles says; C141_machine shows that rounding every result meets it. | AngleErrors, RoundedAngles, RoundedResult |
| C142 | The refractiveindex.info catalog holds the pages, comments and wavelength ranges of its file | Model/CatalogFile.lean: refractive_index_info.py:95-201, 425-451, the pattern as the list of all its matches in the order in which re tries them | the first match of each part is found by showing that every longer choice of a greedy part fails and that the chosen one goes through; rows by induction over the file | **partial**. Two kinds of names are kept with a wrong range: of a name listing separate ranges for n and k only the last range is kept (C142_two_ranges_refuted), so the filter leaves out wavelengths listed for n (C142_filter_refuted); a single wavelength with decimals is split at the point, '10.6 µm' becomes 10 µm to 6 µm (C142_single_refuted), a range that covers nothing. C142_name therefore asks for one dash range in front of the last 'µm'. Only ASCII digits count as digits; word characters, pd.to_numeric and path joining are parameters; the YAML reader and yaml tags are not modelled. | CatalogFile |
| C143 | Rounding errors of Solver4x4 stay within the conditioning of the stack | Model/RoundedSolver4.lean: solver4x4.py:46-117, 150-200, 270-304, 330-374 on a machine with its own operations and library routines | a disturbed exponential by Duhamel's formula and Gronwall's inequality; relative errors multiply along the product of the layers; the inverse from its residual and a Neumann bound | **proved**. k_x, n_x, cos_phi and the exit matrix of an anisotropic half-space are taken as the numbers the code has at that point, so their own errors are not included. expm is assumed exact for a matrix within a relative distance eta of its argument, inv to leave a residual A X - 1 of at most theta \|A\| \|X\| for A with theta \|A\| \|A^-1\| below one, sums of products to be accurate in some order; C143_machine shows that rounding every real operation meets the conditions. PropagatorEig, overflow and underflow are not covered. | RoundedSolver4, RoundedSolver4Double |
| C144 | Normal dispersion in the transparent range | Model/Dispersion.lean: the closed formulas of the models | one comparison x/(x² + g²(q-x)) for all oscillators; TaucLorentz through the Kramers-Kronig integral of its absorption (C91), which grows with the photon energy below the gap | **partial**. Fails for the models whose sign is wrong: DrudeEnergy and DrudeResistivity rise with the wavelength everywhere (C144_drude_refuted, C144_drude_resistivity_refuted), and so does the infrared pole of Poles (C144_poles_refuted); Poles falls when that amplitude is not positive (C144_poles_partial). TaucLorentz below critical damping (C < 2E). Gaussian, Tanguy and CodyLorentz absorb at all energies or are computed numerically and are not covered; exact real arithmetic. | NormalDispersion |
| C145 | Errors in the layer data reach the results in proportion | Model/Solver.lean (calculate4x4 with propExpm; two stacks with paired layers) | Duhamel bound for the matrix exponential of each layer (Lemmas/ExpPerturb.lean), relative errors of products by induction over the layers, inverse of a nearby matrix; the first-order form from exp e <= 1 + 17/15 e; passive samples by the invertibility that follows from the energy balance (Lemmas/Balance.lean) | **proved**. Norm: largest sum of a row. Exact arithmetic; the rounding errors of the same calculation are C143. | DataErrors |
| C146 | Set initial gives back the starting values | Model/Hist.lean (objects in a heap; the actions Undo, Redo, edit, Fit, Set initial) | invariant over all action sequences: the objects of initial_params are disjoint from those of params, of the history and of last_params, and keep their values | **proved**. Values; the checkbox for vary changes the initial parameters on purpose (decorator.py:118-120) and is not one of the actions. | GuiReset |
| C147 | Reflectance and psi against the angle of incidence | Model/Solver.lean (calculate4x4), Model/Angles.lean (psi), Model/Result.lean (R_matrix) | closed forms of r_s and r_p from the transition matrices; 1 - |r_s|^2 as a function of w = sqrt(e - (n sin)^2), whose real part falls and stays in the first quadrant; Cayley maps |1-v|/|1+v| for the p and psi parts, Brewster's angle as v = 1; |w|^2 >= |e - n^2| - (n cos)^2 near grazing | **proved**. Exact arithmetic, Solver4x4 with isotropic half spaces and no layers (BulkSample); psi for 0 < angle. | AngleReflect |
| C148 | Which samples Solver2x2 treats correctly | Model/Solver.lean (calculate2x2, with an arbitrary principal arcsine; calculate4x4) | n cos(theta) has no negative real part in any passive medium although the angle of inner layers is not corrected; Re(w/eps) has the sign of Re w, so Fresnel denominators vanish only between two lossless media beyond total reflection; sides of the cut agree for all layers; induction along the layers; then C37 | **proved**. Exact arithmetic. C148_exit_layer shows that the condition at the exit cannot be dropped; in double precision the two cosines differ by rounding and the quotient is large instead of infinite, so no NaN is claimed. | Defined2x2 |
| C149 | The check boxes of the fit window say what a fit varies | Model/VaryBoxes.lean: parameter objects with value and vary in the heap of Model/Hist.lean, set_vary_param, the typed value, the fit button (lmfit changes the varied parameters only), the boxes. Bounds and expressions of lmfit are not modelled. | Invariant over all action sequences: no object is shared between present, starting, saved and last parameters; the starting parameters carry the flags of the boxes; so do the present ones and, until a box is changed, the saved ones. | **partial**. Holds for every sequence in which Undo and Redo are pressed only while no box was changed since the start or the last Set initial (C149_agree_partial, C149_fit_partial), and after Set initial for every sequence (C149_set_initial). The code violates the full statement: the history keeps the flags of its time and update_widgets does not touch the check boxes, so after typing a value, unticking the box and Undo the box is unticked and the parameter is varied by the next fit (C149_undo_refuted; the same with Redo, C149_redo_refuted). | VaryBoxes |
| C150 | Reflectance of a transparent film and its thickness | Model/Solver.lean (calculate4x4), Model/Result.lean (RMatrix, TMatrix) | C94 gives the Jones elements in Airy form; their squared norm is rewritten with real admittances; R is then 1 - 4uwv^2/D with D affine in sin^2 of the phase thickness; T from C35 and C38 | **proved**. Exact arithmetic, exact propagator (PropagatorExpm). Wavelengths inside the film are measured along the normal: half a wavelength is lambda/(2 sqrt(e1 - kx^2)). The formulas hold for Solver2x2 as well (C150_solver2x2, any principal arcsine). C150_structure: the stack is that of a Structure object with one Layer between isotropic materials. | Coating, CoatingSolver2 |
| C151 | Light tunnels through a film beyond total reflection | Model/Solver.lean (calculate4x4), Model/Result.lean (RMatrix, TMatrix) | the Airy form of C94 with an imaginary admittance and an imaginary phase; T from energy conservation (C35, C38); sinh is strictly monotone; limit of the exponentials | **proved**. Exact arithmetic, exact propagator. The range of double precision is the subject of C112. The formulas hold for Solver2x2 as well (C151_solver2x2, any principal arcsine). | CoatingSolver2, Tunnelling |
| C152 | What the reflectance of a bulk sample tells about its complex index | Model/Solver.lean (calculate4x4), Model/Result.lean (RMatrix) | the amplitudes of C147 written with the real and imaginary part of the root; the condition R = const is linear in |w|^2 and Re w, two media give two independent equations | **proved**. Exact arithmetic. A permittivity equal to that of the medium is excluded (there is then no interface). | BulkIndex |
| C153 | The ellipsometric angles of a bulk sample fix its reflectance | Model/Result.lean (rho, psi, delta, RMatrix, R), Model/Solver.lean (calculate4x4) | eliminates the wave vector component from the amplitudes of C147 and the rho of C139; rho = tan(psi) exp(-i delta) is C03 | **proved**. Exact arithmetic, default delta range and light (a, a). | BulkAbsolute |
| C154 | The fraction of a mixture can be read from its permittivity | Model/Materials.lean (EmaKind.entry, mkMixture, getTensor) | solves the balance of each rule for f; cube roots of passive constants lie in a convex sector where cubing is injective; monotone and onto by the same equations | **proved**. Exact arithmetic. The formulas for the fraction are a separate specification (Spec/MixtureFraction.lean). Equal NaN (MaxwellGarnettEMA with a vanishing denominator) also determine the fraction. | MixtureFraction, MixtureMeasured |
| C155 | Absorption edges of the Tauc-Lorentz and Cody-Lorentz models | Model/Dispersion.lean (codyEps2, taucEps1, taucLorentz) | the value of eps1 of C91 with the logarithms collected: the coefficient of log|E-Eg| is (E-Eg)^2; x log x is continuous | **proved**. Exact arithmetic. The NaN exactly at the gap is C49_tauc_at_gap_refuted. The real part of CodyLorentz is a sum on a grid (C56, C140) and not part of this claim. | AbsorptionEdge |
| C156 | Coatings of quarter-wave layers | Model/Utils.lean (qwpThickness), Model/Solver.lean (calculate4x4) | induction over the layers: the fields in front of the coating are a multiple of (1, -Y) and (1, Y) | **proved**. Exact arithmetic, real indices, normal incidence; Solver4x4 with the exponential propagator and Solver2x2 with a principal arcsine (C156_solver2x2). C93 is the case of equal pairs; the layers here are arbitrary. | QuarterWavePower, QuarterWaves |
| C157 | The refractive index tensor of a material | Model/IndexTensor.lean (refractiveIndex), Model/Materials.lean (SingleMaterial.getTensor), Model/Utils.lean (qwpThickness) | the diagonal of the square of the entrywise root of a symmetric tensor is the sum of its rows; C122 gives the index the light sees | **partial**. Proved for materials that are not rotated (C157_unrotated_partial). The code takes the root of each entry, so that the claim holds exactly for materials whose permittivity tensor is diagonal (C157_diagonal_iff) and fails for every tilted uniaxial crystal (C157_tilted_refuted); the tensor asked for exists (C157_wanted). The thickness of get_qwp_thickness is too small for every crystal tilted in the plane of incidence (C157_quarter_wave_refuted); for isotropic materials it is right (C93, C156). | IndexTensor |
| C158 | Symmetric multilayers act like one layer | Model/Solver.lean (calculate4x4) | swapping the diagonal of 2x2 matrices reverses products and fixes layers, so that a symmetric sequence has equal diagonal entries and determinant one; such a matrix is the matrix of a layer | **proved**. Exact arithmetic, exponential propagator, real indices, normal incidence. Pass band: the first entry of the real characteristic matrix of Spec/Equivalent.lean lies in (-1, 1). | Equivalent |
| C159 | PropagatorEig can replace PropagatorExpm | Model/Solver.lean (buildDelta, propEig, propExpm, calculate4x4), Model/Materials.lean (getTensor) | explicit eigenvectors; with a basis of eigenvectors a vector killed by the square of a matrix is killed by the matrix; the energy of the fields is a positive definite form and the matrix of a layer is the flux matrix times it, so it has a basis of eigenvectors (spectral theorem twice); C40 for each layer | **partial**. Exact arithmetic. np.linalg.eig is any function that returns an invertible matrix of eigenvectors where there is one. What floating-point inversion of a nearly singular matrix gives is not modelled. C159_agree_partial needs a basis of eigenvectors; C159_inside, C159_uniaxial and C159_crystal give one for lossless crystals in any orientation below the critical angles, C159_aligned_iff characterises the crystals with axes along x, y, z, absorbing ones included. C159_critical_refuted (isotropic layer at its critical angle) and C159_voigt_refuted (turned absorbing biaxial crystal, normal incidence) are the failures. | EigCrystals, EigLayers, EigVoigt |
| C160 | What PropagatorLinear does to the energy balance | Model/Solver.lean (propLinear, buildDelta, calculate4x4) | one linear step multiplies the energy flux by its factor, induction over the layers; the flux is incident minus reflected power in front and transmitted power behind; 1 + x ≤ exp x for slices | **proved**. Exact arithmetic. C160_balance is the identity, C160_loss and C160_slices the consequences below the critical angles, C160_gain_refuted the created power beyond (so energy conservation, C35, does not hold for this propagator). Layers are isotropic and lossless; the exit permittivity is real and not zero. | LinearEnergy |
| C161 | Which orientations the rotation functions reach, and which of them look the same | Model/Rotation.lean (rotationEuler), Model/Materials.lean (SingleMaterial.setRotation, getTensor) | the third column gives p and n, the rest fixes z and is a rotation about it; for tensors, the product of one rotation with the inverse of the other commutes with the diagonal matrix | **proved**. Exact arithmetic. C161_euler_all is surjectivity, C161_euler_unique uniqueness, C161_axis_all and C161_axis_unique the same for axis and angle, C161_uniaxial and C161_biaxial say when two orientations have one tensor. | AxisAngle, Orientation |
| C162 | The parameters of a dispersion can be read from its values | Model/Dispersion.lean (sellmeier, lorentzEnergy, lorentzLambda, cauchyIndex, drudeEnergy, cauchyUrbachIndex) | partial fractions: the common numerator is a polynomial with more zeros than its degree, and each denominator has a zero that the others lack; values at negative energies are conjugates, which halves the number of wavelengths | **proved**. Exact arithmetic. C162_sellmeier, C162_lorentz and C162_lorentz_lambda are equivalences, C162_order turns equal total amplitudes into equal lists, C162_cauchy and C162_drude treat the other models. C162_overdamped_refuted shows why the bound on gamma is needed, C162_urbach_refuted the superfluous parameter of CauchyUrbach. | Identify |
| C163 | What a Mueller matrix tells about the sample | Model/Result.lean (muellerMatrix, rhoMatrix, Result) | the lower right entry of rho_matrix is one, so the products of the entries with its conjugate are the entries; they are sums of four Mueller entries; for the converse the minors of the coherency matrix are nonnegative and add up to zero, so it is a square | **proved**. Exact arithmetic, one wavelength. C163_recover are the formulas, C163_iff the equivalence, C163_angles the consequences, C163_physical the matrices that occur, C163_power two samples with equal Mueller matrices and different reflectance. C163_average: averages of samples that differ have no Jones matrix (see also C129). C163_polariser and C163_unpolarised: what the matrix does to unpolarised light. | MuellerInverse, MuellerPhysical, Polariser |
| C164 | Symmetries of the sample seen in its Mueller matrix | Model/Result.lean (muellerMatrix, RMatrix, RcMatrix, R), Model/Solver.lean (calculate4x4) | the laws for the Jones matrices (C78-C80), carried over entry by entry; the converses by the formulas of C163_recover | **proved**. Exact arithmetic, Solver4x4 with the exponential propagator, isotropic exit medium. C164_reciprocal, C164_normal, C164_mirror, C164_turn, C164_power and C164_normal_power for samples; C164_diagonal, C164_symmetric and C164_antisymmetric for single Jones matrices. Every structure of the package's materials has symmetric tensors (C78_every_structure). | MuellerSymmetry, Reversal |

## Which code is modelled

A function counts as modelled when a definition or theorem comment cites lines of it. Nested functions are listed with their parent.

| File | Functions with a cited counterpart | Functions without |
|---|---|---|
| database/refractive_index_info.py | RII.__init__, RII.search, RII.get_dispersion, RII.get_reference, RII.get_comment, RII._open_file | RII.get_mat |
| dispersions/base_dispersion.py | BaseDispersion._guard_invalid_params, BaseDispersion._fill_params_dict, BaseDispersion.__init__, BaseDispersion.add, BaseDispersion.get_dielectric, BaseDispersion.get_refractive_index, BaseDispersion.get_dielectric_df, BaseDispersion.get_refractive_index_df, BaseDispersion.__repr__, BaseDispersion.__repr__._dict_to_str, Dispersion.__radd__, Dispersion.__add__, Dispersion.as_index, IndexDispersion.__radd__, IndexDispersion.__add__, IndexDispersion.dielectric_function, DispersionFactory.get_dispersion, DispersionSum.__init__, DispersionSum.__add__, DispersionSum.dielectric_function, DispersionSum.__repr__, IndexDispersionSum.__init__, IndexDispersionSum.__add__, IndexDispersionSum.refractive_index, IndexDispersionSum.__repr__ | BaseDispersion.single_params_template, BaseDispersion.rep_params_template, BaseDispersion.dielectric_function, BaseDispersion.get_mat, Dispersion._check_valid_operand, IndexDispersion.refractive_index, IndexDispersion._check_valid_operand |
| dispersions/cauchy.py | Cauchy.refractive_index | – |
| dispersions/cauchy_custom.py | CauchyCustomExponent.refractive_index | – |
| dispersions/cauchy_urbach.py | CauchyUrbach.refractive_index | – |
| dispersions/cody_lorentz.py | CodyLorentz.eps2, CodyLorentz.eps2.G, CodyLorentz.eps2.L, CodyLorentz.dielectric_function | – |
| dispersions/constant_refractive_index.py | ConstantRefractiveIndex.refractive_index | – |
| dispersions/drude_energy.py | DrudeEnergy.dielectric_function | – |
| dispersions/drude_resistivity.py | DrudeResistivity.dielectric_function | – |
| dispersions/epsilon_inf.py | EpsilonInf.dielectric_function | – |
| dispersions/formula.py | FormulaParser.__init__, FormulaParser._set_unit_conversion, FormulaParser._check_repr, FormulaParser.__dispersion_function, Formula.dielectric_function, FormulaIndex.refractive_index | FormulaParser.single_params_template, FormulaParser.rep_params_template |
| dispersions/gaussian.py | Gaussian.dielectric_function | – |
| dispersions/lorentz_energy.py | LorentzEnergy.dielectric_function | – |
| dispersions/lorentz_lambda.py | LorentzLambda.dielectric_function | – |
| dispersions/poles.py | Poles.dielectric_function | – |
| dispersions/polynomial.py | Polynomial.dielectric_function | – |
| dispersions/pseudo_dielectric.py | PseudoDielectricFunction.__init__, PseudoDielectricFunction.__add__, PseudoDielectricFunction.dielectric_function | – |
| dispersions/sellmeier.py | Sellmeier.dielectric_function | – |
| dispersions/sellmeier_custom.py | SellmeierCustomExponent.dielectric_function | – |
| dispersions/table_epsilon.py | TableEpsilon.__init__, TableEpsilon.__add__, TableEpsilon.dielectric_function | – |
| dispersions/table_index.py | Table.__init__, Table.__add__, Table.refractive_index | – |
| dispersions/table_spectraray.py | TableSpectraRay.__init__, TableSpectraRay.load_dispersion_table | – |
| dispersions/tanguy.py | Tanguy.dielectric_function, Tanguy.xsi, Tanguy.g | – |
| dispersions/tauc_lorentz.py | TaucLorentz.eps1, TaucLorentz.dielectric_function | – |
| experiment.py | Experiment.__init__, Experiment.set_structure, Experiment.set_vector, Experiment.set_theta, Experiment.set_lbda, Experiment.evaluate | – |
| fitting/decorator.py | FitDecorator.__init__, FitDecorator.to_csv, FitDecorator.set_vary_param, FitDecorator.fit_button_clicked, FitDecorator.re_undo_button_clicked, FitDecorator.reset_to_init_params, FitDecorator.update_params, FitDecorator.update_widgets | is_in_notebook, FitDecorator.get_model_data, FitDecorator.fit, FitDecorator.update_selection |
| fitting/decorator_mmatrix.py | mmatrix_to_dataframe, FitMuellerMatrix.update_selection, FitMuellerMatrix.update_residual, FitMuellerMatrix.create_widgets, FitMuellerMatrix.fit_function, FitMuellerMatrix.fit, FitMuellerMatrix.get_model_data, FitMuellerMatrix.plot, FitMuellerMatrix.plot_residual, FitMuellerMatrix.__init__ | fit_mueller_matrix |
| fitting/decorator_psi_delta.py | FitRho.set_psi_delta, FitRho.set_rho, FitRho.set_residual, FitRho.set_pseudo_diel, FitRho.update_selection, FitRho.create_widgets, FitRho.fit_function, FitRho.fit, FitRho.plot, FitRho.plot_rho, FitRho.get_model_data, FitRho.__init__ | fit |
| fitting/params_hist.py | ParamsHist.__init__, ParamsHist.clear_history, ParamsHist.max_history_len, ParamsHist.revert, ParamsHist.pop, ParamsHist.update_value, ParamsHist.update_params, ParamsHist.tracked_add, ParamsHist.commit | ParamsHist.history, ParamsHist.history_len, ParamsHist.max_history_len |
| formula_parser/parser.py | FormulaTransformer._check_and_set, FormulaTransformer._check_and_set_single, FormulaTransformer.__init__, FormulaTransformer.eps, FormulaTransformer.n, FormulaTransformer.kkr_term, FormulaTransformer.func, FormulaTransformer.builtin, FormulaTransformer.sum_expr, FormulaTransformer.single_param_name, FormulaTransformer.param_name, parse_formula | – |
| importer/accurion.py | read_accurion_psi_delta | – |
| importer/nexus.py | NexusGroupNames.full_instrument_path, NexusGroupNames.full_sample_path, read_nexus_psi_delta, read_nexus_psi_delta.read_data, read_nexus_psi_delta.read_legacy, read_nexus_psi_delta.read_nx_opt_def, read_nexus_rho, read_nexus_materials, read_nexus_materials.get_dispersion_function, read_nexus_materials.get_dispersion_function.get_params, read_nexus_materials.get_dispersion_table, read_nexus_materials.get_dispersion, read_nexus_materials.get_material | – |
| importer/spectraray.py | read_spectraray_psi_delta, read_spectraray_mmatrix, read_spectraray_rho | – |
| importer/woollam.py | is_float, _is_wvase_tabular, _is_complete_ease_tabular, _is_tan_cos_format, scale_to_nm, _read_wvase_dataframe, _read_complete_ease_dataframe, read_woollam_psi_delta, read_woollam_rho | – |
| kkr/kkr.py | _calc_kkr, re2im, im2re, re2im_reciprocal, im2re_reciprocal | _integrate_im, _integrate_im_reciprocal, _integrate_re, _integrate_re_reciprocal |
| materials.py | Material.get_tensor, Material.get_refractive_index, SingleMaterial.set_dispersion, SingleMaterial.set_rotation, SingleMaterial.get_tensor, IsotropicMaterial.__init__, IsotropicMaterial.set_dispersion, UniaxialMaterial.__init__, UniaxialMaterial.set_dispersion, BiaxialMaterial.__init__, BiaxialMaterial.set_dispersion, MixtureMaterial.__init__, MixtureMaterial.set_constituents, MixtureMaterial.set_fraction, MixtureMaterial.get_tensor_fraction, MixtureMaterial.get_tensor, VCAMaterial.get_tensor_fraction, LooyengaEMA.get_tensor_fraction, MaxwellGarnettEMA.get_tensor_fraction, BruggemanEMA.get_tensor_fraction | – |
| plot/mueller_matrix.py | plot_mmatrix | – |
| plot/structure.py | get_permittivity_profile, get_index_profile, draw_structure, _draw_structure_graph, _draw_structure_section | – |
| result.py | _convert_index, Result.rho, Result.rho_t, Result.psi, Result.psi_t, Result.delta, Result.delta_t, Result.rho_matrix, Result.rho_matrix_t, Result.psi_matrix, Result.psi_matrix_t, Result.delta_matrix, Result.delta_matrix_t, Result.mueller_matrix, Result.jones_matrix_r, Result.jones_matrix_t, Result.jones_matrix_rc, Result.jones_matrix_tc, Result.R, Result.R_matrix, Result.T, Result.T_matrix, Result.Rc_matrix, Result.Tc_matrix, Result.__init__, Result.get, Result.__getattr__, Result.as_delta_range, ResultList.__init__, ResultList.append, ResultList.__len__, ResultList.__getattr__, AveragedResultList.__getattr__ | – |
| solver.py | Solver.__init__ | Solver.calculate |
| solver2x2.py | Solver2x2.list_snell, Solver2x2.calculate, Solver2x2.fresnel, Solver2x2.is_forward_angle | – |
| solver4x4.py | PropagatorLinear.calculate_propagation, PropagatorExpm.__init__, PropagatorExpm.calculate_propagation, PropagatorEig.calculate_propagation, Solver4x4.build_delta_matrix, Solver4x4.transition_matrix_halfspace, Solver4x4.transition_matrix_iso_halfspace, Solver4x4.get_k_z, Solver4x4.calculate | Propagator.calculate_propagation, Solver4x4.__init__ |
| structure.py | AbstractLayer.get_permittivity_profile, RepeatedLayers.__init__, RepeatedLayers.set_repetitions, RepeatedLayers.set_layers, RepeatedLayers.get_permittivity_profile, Layer.__init__, Layer.set_thickness, Layer.set_material, Layer.get_permittivity_profile, InhomogeneousLayer.set_thickness, InhomogeneousLayer.set_material, InhomogeneousLayer.set_divisions, InhomogeneousLayer.get_slices, InhomogeneousLayer.get_tensor, InhomogeneousLayer.get_permittivity_profile, TwistedLayer.__init__, TwistedLayer.set_angle, TwistedLayer.get_tensor, VaryingMixtureLayer.__init__, VaryingMixtureLayer.set_material, VaryingMixtureLayer.set_fraction_modulation, VaryingMixtureLayer.get_tensor, Structure.__init__, Structure.set_front_material, Structure.set_back_material, Structure.set_layers, Structure.get_permittivity_profile, Structure.evaluate | – |
| utils.py | DeltaRange.__post_init__, convert_delta_range, calc_pseudo_diel, calc_rho, convert_psi_delta_to_isotropic_mueller_matrix, get_qwp_thickness, conversion_wavelength_energy, conversion_frequency2energy, conversion_energy2frequency, conversion_wavelength_frequency, conversion_wavelength_wavenumber, rotation_euler, rotation_v, rotation_v_theta | detect_encoding |

## Not modelled

* Drawing (plotly, matplotlib, widgets' layout), logging, warnings, file access and decoding (the warnings of `Solver2x2` are modelled, C120); YAML, HDF5 and CSV are given as the values
  the parsers return.
* Rounding other than in C134 to C136, performance, memory use.
* The choice of an eigenvector phase by LAPACK (the theorems quantify over it).
* Lark itself: C97 models the terminals, their priorities and the contextual lexer as lark documents them; that lark's LALR tables accept the grammar of C58 is taken from the library.
* matplotlib: C99 takes `step(where="post")` and `pcolormesh` as the piecewise constant functions they document.
