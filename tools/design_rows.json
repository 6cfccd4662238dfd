{
 "C01": [
  "`DeltaRange.__post_init__` over int/float/other values",
  "case analysis; decision logic stated outright"
 ],
 "C02": [
  "`convert_delta_range` with `np.mod` over ℝ",
  "floor arithmetic, congruences modulo 360"
 ],
 "C03": [
  "`Result.rho/psi/delta`, `calc_rho`",
  "polar form of complex numbers"
 ],
 "C04": [
  "same",
  "bounds of arctan and floor"
 ],
 "C05": [
  "`Experiment.set_vector`",
  "algebra over ℂ"
 ],
 "C06": [
  "same",
  "algebra, half-angle formulas"
 ],
 "C07": [
  "same",
  "uniqueness of the phase"
 ],
 "C08": [
  "same, with `none` for 0/0",
  "exact condition for finite output"
 ],
 "C09": [
  "same, over vectors of any length",
  "case analysis"
 ],
 "C10": [
  "`mueller_matrix` with Kronecker product and the matrix A",
  "Cauchy-Schwarz"
 ],
 "C11": [
  "same",
  "bilinear algebra against an independent Stokes vector"
 ],
 "C12": [
  "same",
  "polar form"
 ],
 "C13": [
  "`convert_psi_delta_to_isotropic_mueller_matrix`",
  "witness; entrywise comparison"
 ],
 "C14": [
  "`jones_matrix_rc/tc`, `calculate4x4` at normal incidence",
  "unitary change of basis; entries are intensities behind circular analysers (`C14_circular_meaning`); for whole samples that look the same after a turn: the azimuth law C80 multiplies the co-polarised entries by a factor other than one (`C14_symmetric_sample`, `C14_normal_axis`)"
 ],
 "C15": [
  "materials' `get_tensor`, `set_rotation`",
  "matrix algebra, Hermitian forms"
 ],
 "C16": [
  "same",
  "commuting scalars"
 ],
 "C17": [
  "`rotation_euler`",
  "product of plane rotations, orthogonality"
 ],
 "C18": [
  "`rotation_v`, `rotation_v_theta`",
  "exponential of a skew matrix; derivative argument for Rodrigues' formula"
 ],
 "C19": [
  "mixture constructors",
  "decision logic"
 ],
 "C20": [
  "the four mixing rules on entries",
  "field algebra, branch of the square root"
 ],
 "C21": [
  "Bruggeman",
  "quadratic equation"
 ],
 "C22": [
  "mixing rules on positive reals",
  "inequalities"
 ],
 "C23": [
  "mixing rules on ℂ",
  "sign of imaginary parts, Möbius maps"
 ],
 "C24": [
  "mixtures of rotated materials",
  "linearity; witnesses"
 ],
 "C25": [
  "`RepeatedLayers`",
  "induction on the count"
 ],
 "C26": [
  "`Structure.get_permittivity_profile`, nested layers",
  "induction over nested lists"
 ],
 "C27": [
  "`InhomogeneousLayer`",
  "sums over slices"
 ],
 "C28": [
  "`TwistedLayer`",
  "rotation by an angle proportional to depth"
 ],
 "C29": [
  "`VaryingMixtureLayer`",
  "mixture at the slice centre"
 ],
 "C30": [
  "setters as a state machine",
  "invariant by induction over call sequences"
 ],
 "C31": [
  "`Structure` setters",
  "type lattice"
 ],
 "C32": [
  "both solvers, empty stack",
  "uniqueness of the interface conditions (`Spec/Optics`)"
 ],
 "C33": [
  "both solvers",
  "transfer matrices; exp 0 = 1"
 ],
 "C34": [
  "both solvers",
  "exp(a+b) for commuting matrices"
 ],
 "C35": [
  "both solvers",
  "conserved Poynting form through the stack"
 ],
 "C36": [
  "both solvers",
  "monotone Poynting form, Hermitian positivity"
 ],
 "C37": [
  "both solvers",
  "transfer-matrix equivalence, independence of the arcsine branch"
 ],
 "C38": [
  "both solvers",
  "block structure"
 ],
 "C39": [
  "4x4 stacks with repeats",
  "power of the unit matrix"
 ],
 "C40": [
  "`PropagatorEig`, `PropagatorExpm`",
  "exp of a diagonalisable matrix"
 ],
 "C41": [
  "`get_k_z`/eigenvector selection of the exit medium",
  "change of basis of the half-space solution"
 ],
 "C42": [
  "`calc_pseudo_diel`, bare substrate",
  "Fresnel algebra"
 ],
 "C43": [
  "solvers on thin films",
  "Fresnel and phase identities"
 ],
 "C44": [
  "both solvers",
  "phases depend on d/λ only"
 ],
 "C45": [
  "heap of objects with `deepcopy`",
  "frame property by induction over operations"
 ],
 "C46": [
  "parameter dictionaries in a memory",
  "induction over argument lists"
 ],
 "C47": [
  "`add` and repeated parameters",
  "induction, permutation"
 ],
 "C48": [
  "dispersion formulas on ℝ/ℂ",
  "field algebra, limits"
 ],
 "C49": [
  "dispersion formulas; `Model/Tanguy.lean` with Gamma, digamma and the principal root",
  "sign analysis; for Tanguy: the cotangent formula is a real multiple of `xi^(1-2a) Γ(a-xi)/Γ(1-a-xi)` (reflection formula), whose argument is controlled by the infinite product of Gamma (`Lemmas/GammaRatio.lean`), and the second difference of a function that maps the upper half plane to itself is handled by the Phragmén-Lindelöf principle (`Lemmas/Herglotz.lean`)"
 ],
 "C50": [
  "dispersion objects in a heap, `+` with Python dispatch",
  "invariant over all histories, induction over expressions"
 ],
 "C51": [
  "same",
  "frame theorem; witness for sums"
 ],
 "C52": [
  "`get_refractive_index`, `as_index`, tables",
  "square of the principal root"
 ],
 "C53": [
  "`Table`, `TableEpsilon`, interpolation",
  "sorted lists, chord formula"
 ],
 "C54": [
  "`__add__` of tables",
  "dispatch"
 ],
 "C55": [
  "`_calc_kkr` and the four transforms",
  "finite sums"
 ],
 "C56": [
  "same",
  "weights of the Maclaurin sum"
 ],
 "C57": [
  "formula evaluator on arrays",
  "induction over expressions"
 ],
 "C58": [
  "grammar as derivations over tokens",
  "induction; unique parse, print/parse round trip"
 ],
 "C59": [
  "`Result.__getattr__` on strings",
  "decision logic for every string"
 ],
 "C60": [
  "`Result.get`",
  "evaluation"
 ],
 "C61": [
  "`ResultList.mean`, nd-arrays with `squeeze`",
  "list sums, shapes"
 ],
 "C62": [
  "`ParamsHist` as heap and list",
  "invariant over operation sequences"
 ],
 "C63": [
  "same",
  "round trip"
 ],
 "C64": [
  "same",
  "frame property; aliasing witness"
 ],
 "C65": [
  "same",
  "decision logic"
 ],
 "C66": [
  "residuals, cost, labels of the fit classes",
  "list lemmas"
 ],
 "C67": [
  "`RII.get_dispersion` formulas 1-5 and tables",
  "finite sums"
 ],
 "C68": [
  "`RII.search`, `get_dispersion` lookup",
  "filters, ranking"
 ],
 "C69": [
  "unit conversions of `utils.py`",
  "field algebra"
 ],
 "C70": [
  "`is_float` with its pattern",
  "language of the regular expression"
 ],
 "C71": [
  "Accurion/other readers, `groupby().sum()`",
  "multisets of measurements"
 ],
 "C72": [
  "`read_nexus_materials.get_material`",
  "decision table"
 ],
 "C73": [
  "buttons of the fit widget as a state machine",
  "induction over button sequences"
 ],
 "C74": [
  "fit button and edits in the heap",
  "aliasing analysis"
 ],
 "C75": [
  "display options",
  "evaluation"
 ],
 "C76": [
  "Woollam readers on lines",
  "filters, list induction"
 ],
 "C77": [
  "SpectraRay psi/delta reader",
  "multisets, sorted output"
 ],
 "C78": [
  "4x4 solver",
  "transposition symmetry of the Berreman matrix"
 ],
 "C79": [
  "4x4 solver",
  "conjugation by diagonal matrices"
 ],
 "C80": [
  "4x4 solver at normal incidence",
  "rotation of the field vector"
 ],
 "C81": [
  "4x4 solver on the reversed stack",
  "Lorentz reciprocity form"
 ],
 "C82": [
  "4x4 solver",
  "explicit exponential of an index-matched layer"
 ],
 "C83": [
  "4x4 and 2x2 solvers against `Spec/Maxwell`",
  "fields of Maxwell's equations ↔ solution of the Berreman ODE; uniqueness"
 ],
 "C84": [
  "dispersion formulas against `Spec/DispersionDoc`",
  "field algebra; witnesses where code and text differ"
 ],
 "C85": [
  "4x4 solver on slices against `Spec/Graded`",
  "linear ODE with continuous coefficients, Grönwall bounds, limit of products of exponentials"
 ],
 "C86": [
  "4x4 solver with `PropagatorLinear`",
  "limit of products 1 + hM"
 ],
 "C87": [
  "4x4 solver with `PropagatorExpm`, half spaces, power factor",
  "continuity of the principal root on the closed upper half plane, of exp and of the inverse at invertible matrices"
 ],
 "C88": [
  "`Result.R`, `Result.T`, 4x4 solver",
  "trace of J*J over an orthonormal pair; explicit half-wave plate"
 ],
 "C89": [
  "`_calc_kkr` with the four kernels",
  "error of the Maclaurin sum: the odd kernel 1/(x-w) cancels in pairs over the alternating grid, the rest is a Riemann sum of the slope"
 ],
 "C90": [
  "`_calc_kkr`; any integrable response function, its susceptibility as a Fourier integral",
  "Fubini on the two sides of the excluded interval, sine integral bounds (Dirichlet), dominated convergence in a -> 0, b -> infinity, delta -> 0"
 ],
 "C91": [
  "the dispersion formulas and `_calc_kkr`",
  "partial fractions and complex logarithms (Lorentz), explicit antiderivatives of the gapped line (Tauc-Lorentz), Gaussian Fourier integral from its differential equation, then C89; for Tanguy a general Kramers-Kronig theorem for functions analytic in the upper half plane with crossing symmetry and decay (subtraction of two oscillators, then Cauchy on rectangles)"
 ],
 "C92": [
  "`Solver4x4.calculate`, `PropagatorExpm`, isotropic half-spaces",
  "the layer acts as a diagonal matrix of a growing and a decaying wave; the energy flux makes the amplitudes of the growing waves behind it an invertible matrix; first order expansion of the reflection block"
 ],
 "C93": [
  "`Solver4x4.calculate` with `PropagatorExpm` on isotropic lossless layers",
  "eigenvalues of the period matrix of determinant one; a flux carrying vector has a component on the growing eigenvector; energy conservation (C35); diagonal period matrix for quarter-wave layers"
 ],
 "C94": [
  "`Solver4x4.calculate` with one or no isotropic layer",
  "factorisation of the transfer matrix into interface and phase matrices; a number over its conjugate is a phase"
 ],
 "C95": [
  "`read_nexus_materials` over files with formula, table and other groups, on the object memory of the dispersion model",
  "invariant of the reading loop: the object built so far evaluates to the sum of the groups read so far"
 ],
 "C96": [
  "`scale_to_nm`, the row filters of both Woollam layouts, `read_nexus_psi_delta` over HDF5 paths and nested arrays",
  "induction over rows and angles"
 ],
 "C97": [
  "lark's contextual lexer (terminals, priorities, blanks) in front of the grammar of C58",
  "one lemma per terminal; induction over the text; the modes follow the derivation"
 ],
 "C98": [
  "PseudoDielectricFunction over an interpolation that meets its nodes",
  "C42 and C03 at each node; induction over the table"
 ],
 "C99": [
  "profiles, positions and values handed to matplotlib; step and pcolormesh as a piecewise constant function",
  "induction over the slabs; the index along v in closed form"
 ],
 "C100": [
  "`Model/FitWindow.lean`: windows, events, figures of `FitRho` and `FitMuellerMatrix` on top of `Model/Hist.lean`; ipywidgets and plotly as described in the file",
  "invariant over event sequences (objects not shared, boxes in step, figure correct for the present values); curves stated by name in `Spec/FitWindow.lean`; refutation by one measured point"
 ],
 "C101": [
  "`Model/FitWindow.lean`: `rhoBox`, `mmBox`, typed values and `update_widgets`",
  "clamping is the nearest point of the interval; boxes in step with the values by the invariant of C100; the missing lower bound is replaced by `floatMin` > 0"
 ],
 "C102": [
  "`Model/FitWindow.lean`: `rhoModelData`, `rhoToCsv`, `mmModelData`, `mmToCsv`",
  "case analysis; look-up by label in joined frames"
 ],
 "C103": [
  "`Model/NdArray.lean`, `Model/ArraySolver.lean`: numpy arrays as shape and entries, every line of the solvers, materials and layers as array operations",
  "every array expression is shown to act at each wavelength by a program for one wavelength (`Lemmas/Nd*.lean`, `Lemmas/Array*.lean`); both sides of the claim are that program"
 ],
 "C104": [
  "`Model/ArrayExact.lean`: exact complex arithmetic; which array objects are objects of `Model/Structure.lean`",
  "the program for one wavelength of C103 with exact arithmetic is the function of `Model/Solver.lean` (`Lemmas/ArrayExact*.lean`), including the sorting of modes and the loops"
 ],
 "C105": [
  "`Model/ArrayResult.lean`: the properties of `Result` as array operations (einsum, reshape, dot, broadcasting over `[:, None, None]`)",
  "each expression acts at each wavelength by a program for one wavelength (`Lemmas/ArrayResult.lean`); with exact numbers that is the function of `Model/Result.lean` found under the same name in `Model/Lookup.lean`; energy laws of C35 and C36 are transferred to the arrays"
 ],
 "C106": [
  "`Model/Tanguy.lean`",
  "derivatives of the Gamma quotient in `a` at 1 and 1/2, slope of the sine, growth of the logarithm for short wavelengths (`Lemmas/TanguyLimit.lean`)"
 ],
 "C107": [
  "`Model/Tanguy.lean`",
  "poles of Gamma and digamma by induction, the root at real energies, symmetry under conjugation"
 ],
 "C108": [
  "`Model/SpectraRayTable.lean` (scan for markers and units, `read_csv`, conversion, `TableEpsilon`)",
  "induction over the lines of the file; witnesses for the refuted parts"
 ],
 "C109": [
  "`Model/IntLambda.lean` (integers modulo `2^w` and floats, powers as numpy computes them)",
  "balanced remainder `Int.bmod` is the identity on the range; growth of powers; witnesses"
 ],
 "C110": [
  "`Model/DataFrames.lean` on top of `Model/DispSum.lean` and `Model/Table.lean`",
  "induction over the wavelengths; interpolation at nodes (C53_node)"
 ],
 "C111": [
  "`Model/Factory.lean` (attributes of the package)",
  "case distinction over the attributes"
 ],
 "C112": [
  "`Model/Overflow.lean` (both solvers with values outside the range of doubles as `none`)",
  "induction over the layers: absorbing `none` for the refutation, size bound for the finite case; C92 for the exact limit"
 ],
 "C113": [
  "`Model/DispArray.lean` (each class as array code over an arbitrary arithmetic), `Model/Formula.lean` (check of the axis)",
  "closure of entry-by-entry evaluation under the array operations, induction over repeated parameters and nested sums; refinement of the array code to the scalar formulas"
 ],
 "C114": [
  "`Model/MuellerFile.lean`: header tokens and lines of cells; `read_csv` fills short lines with NaN and takes the first column as index; `iloc[:, -17:-1]`; names; `calc_rho` on the frames of C77 and C96",
  "closed form of the reader for every file (`C114_read`), then position arithmetic in the concatenated matrices; C66 for the fit; ellipsometric equation is invariant under full turns of delta"
 ],
 "C115": [
  "`Model/Result.lean`, `Model/Experiment.lean`",
  "Stokes parameters as intensities behind analysers; the ratio of the reduced matrix is the ratio of the amplitudes; C03, C06, C11"
 ],
 "C116": [
  "`Model/Solver.lean` (`buildDelta`, `eigSorted`, `eigPhased`, `eigHalf`, `calculate4x4`)",
  "energy flux as an indefinite form: in a passive medium a combination of decaying waves has non-negative flux and there is no three-dimensional such space; definiteness of the quadratic form inside the wave-vector surface (Cauchy-Schwarz for uniaxial tensors); orthogonality of waves of a lossless medium under the flux form"
 ],
 "C117": [
  "`Model/Solver.lean` (`buildDelta`, `eigSorted`, `eigPhased`, `eigHalf`, `isoHalf`, `isoHalfInv`, `calculate4x4`)",
  "the reflection matrix depends only on the space spanned by the two selected eigenvectors, which is the invariant space of the first two wave numbers; explicit eigenvectors and field algebra"
 ],
 "C118": [
  "`Model/Structure.lean` (`repeatedSlices`), `Model/Solver.lean` (`buildDelta`, `propExpm`, `calculate4x4`)",
  "Lie's product formula for any number of matrices; the delta matrix of the homogeneous tensor is the mean of the delta matrices; energy of the mean field is the mean of the energies; continuity of the Jones matrices"
 ],
 "C119": [
  "Model/ExpState: attributes as references into a memory of arrays, np.asarray returning arrays themselves, setters, the constructor and Structure.evaluate",
  "Props/ExpState: refinement of the memory model to settings by value, by induction over programs with the invariant that held arrays exist; last call per attribute; the same-light invariant with the Stokes parameters of the specification; witness with shared arrays"
 ],
 "C120": [
  "Model/Choices: n_list and the loop with the two warnings",
  "Props/Choices: quadrant of the principal root; silence gives passivity, then C37; a crystal at normal incidence as witness"
 ],
 "C121": [
  "Model/Choices: the if-chain of PropagatorExpm.__init__ and calculate_propagation with the chosen function",
  "Props/Choices: case analysis; equality of the propagators"
 ],
 "C122": [
  "Model/Solver (buildDelta, propExpm, calculate4x4, calculate2x2)",
  "Props/PlaneStack: the delta matrix splits into two blocks, the exponential and the product of the layers too; the s block depends on eps_yy only; passivity of the Schur complement"
 ],
 "C123": [
  "Model/MmPlot: plot_mmatrix with both loops, cycling lists and exceptions; plot and plot_residual",
  "Props/MmPlot: induction over the loops in both directions (success exactly under the conditions; curves as a list comprehension)"
 ],
 "C124": [
  "`Model/Print.lean`: `_dict_to_str`, the three `__repr__` methods and what `as_index` leaves for them, on texts as lists of characters; number format as a parameter",
  "the text is a list of lines; an empty line followed by another line than the title of the oscillators ends a term, so the lines can be parsed back (induction over terms, oscillators and separators)"
 ],
 "C125": [
  "`Model/ResultLists.lean`: memory of results, Python lists and ResultList objects; operations, attribute access with recursion limit, copy",
  "invariant (the list of a fresh ResultList has no other name) by induction over programs; row-major arithmetic for the rows; induction over the recursion limit for copies"
 ],
 "C126": [
  "Model/Dispersion.lean (the formulas of the dispersion classes); Spec/DispLimits.lean (limits of computations that may fail, free electrons, absorption sum)",
  "Asymptotics in the variable 1/E; the absorption integrals by an arctangent after the substitution E -> E0^2/E (Lorentz), by parity (Gaussian) and by an explicit primitive (Tauc-Lorentz); Dawson's integral bounded between two comparison functions; the static value of Tanguy by Cauchy on rectangles after subtraction of a Debye relaxator"
 ],
 "C127": [
  "Solver4x4 of Model/Solver.lean with the exact propagator; specification Spec/BothSides.lean (power of a Jones vector, set of reflectances over all polarisations) and upsideDown of Spec/Symmetry.lean",
  "flux balance for an arbitrary exit vector gives the Gram matrices of reflection and transmission; reciprocity (C81) relates the transmissions of both sides, equal characteristic polynomials and the spectral theorem give the same reflectances; witness film with Airy's formula"
 ],
 "C128": [
  "TwistedLayer and RepeatedLayers of Model/Structure.lean, Solver4x4 of Model/Solver.lean with the exact propagator, circular matrices of Model/Result.lean; specification Spec/Helix.lean (turning frame, generator, slab)",
  "the slices telescope to (U P U)^n U' with half turns U; the power of a curve through 1 converges to the exponential of its derivative; uniqueness of limits identifies the matrix of C85; determinant for the quartic; eigenvalues of an exponential by an invariant eigenspace; mutual induction over nested layers and C79_mirror for handedness"
 ],
 "C129": [
  "`AveragedResultList.__getattr__` with the arrays of `Result.mueller_matrix`, `delta`, `rho` (Model/Lookup, Model/Result); Spec/Mixture: light, Cloude's condition, incoherent mixture",
  "Mueller matrices as Pauli traces: their Frobenius inner product is |tr J*K|²; the Stokes metric is multiplied by |det J|²; variance identity for the means; pure Stokes vectors span"
 ],
 "C130": [
  "`Struct.stack`, `SingleMaterial.setRotation`, `rotationVTheta`, `calculate4x4`, `Result.TMatrix`, `jonesTc`",
  "Azimuth law C80 applied to stacks without cross polarisation (C79); half waves through C122 and C43; Malus as a polynomial identity"
 ],
 "C131": [
  "`calculate4x4 propExpm`, `Result.rho`, `psi`, `delta`, `pseudoEps`",
  "Derivative of the product of characteristic matrices at zero thickness, sandwiched between the media; Drude's algebra with q0^2 = ea-kx^2, qb^2 = eb-kx^2; chain rule for arctan and the phase"
 ],
 "C132": [
  "`LayerObj.profile`, `inhomogeneousProfile`, `calculate4x4` with `propExpm` and `propLinear`; Maxwell's equations in Spec/Graded.lean",
  "Local error of the midpoint exponential is of third order (the term of second order is even about the middle and cancels), local errors add up, Jones matrices are rational in the transfer matrix; Bernoulli's inequality for the exact linear values"
 ],
 "C133": [
  "`calculate4x4` with `propExpm` on one layer, `Result.psi`, `Result.delta`, `calcRho`",
  "Airy's formulas (C94) make the equation for the thickness a quadratic in the phase factor exp(4 pi i q d/lambda); its coefficients vanish together only in the listed cases; phase factors separate the thicknesses"
 ],
 "C134": [
  "`Rounding.convertDeltaRange` on `Rounding.mod`: addition, numpy's remainder and addition, each rounded",
  "rounding is monotone and fixes the integer bounds, so the closed window survives; the error of each step is half a unit in the last place; the witnesses are located on the grid of doubles"
 ],
 "C135": [
  "`Rounding.getSlices` (numpy's linspace), `diffs`, `midpoints`, `fraction`",
  "monotonicity of rounding; (div-1)(1+2^-53) <= div keeps the last computed position below the end; differences of doubles have a relative error even in the subnormal range, so the sum telescopes; twice a double is a double"
 ],
 "C136": [
  "`Rounding.wavelengthEnergy`, `frequency2Energy`, `energy2Frequency`, `wavelengthFrequency`, `wavelengthWavenumber`",
  "each rounding multiplies by 1 + d with |d| <= 2^-53 between powers of two; products and quotients of such factors"
 ],
 "C137": [
  "the four entry formulas (Model/Materials.lean); Spec/MixtureBounds.lean for the bounds",
  "all values are written as (1-f)h + fg - f(1-f)(g-h)^2/D and ordered by D (for Bruggeman D = 2e + (1-f)g + fh, for Looyenga a quotient of polynomials in the cube roots with non-negative differences); phases by rotating the constituents to the edge of the upper half plane and C23"
 ],
 "C138": [
  "Model/RoundedSolver.lean: solver2x2.py:74-102, 117-140 over the operations of a machine; Spec/Conditioning.lean for the sizes",
  "numbers are followed as x' = x + error with |error| <= (g - 1) P and |x| <= P; g multiplies along products, denominators and exponentials become factors near one; induction over the layers"
 ],
 "C139": [
  "calculate4x4, Result.psi, Result.delta",
  "(1 - rho)/(1 + rho) = cos sqrt(eps - n0^2 sin^2)/(n0 sin^2) lies in the first quadrant (bulk_ratio, kz_exit); its Cayley transform gives the window; the principal angle is a root of a quartic in sin^2 shown to change sign once"
 ],
 "C140": [
  "Model/CodyDouble.lean: doubles as number, infinity or NaN; eps2, im2re_reciprocal, np.interp and the complex sum step by step",
  "exp overflows above 710, infinity times the step 0 is NaN, NaN spreads through the alternating sums to all nodes of the other parity and through the chords; conversely power-of-ten bounds of every intermediate result keep everything a number"
 ],
 "C141": [
  "Model/RoundedResult.lean: result.py:58-118 over the operations of a machine; Model/Result.lean for the exact values; Model/RoundedSolver.lean",
  "the sine of the change of psi is a determinant over two lengths (Cauchy-Schwarz), the sine of the change of an argument is the relative change; the rounded amplitudes are followed as in C138, and the shift of delta keeps whole turns apart"
 ],
 "C142": [
  "Model/CatalogFile.lean: refractive_index_info.py:95-201, 425-451, the pattern as the list of all its matches in the order in which re tries them",
  "the first match of each part is found by showing that every longer choice of a greedy part fails and that the chosen one goes through; rows by induction over the file"
 ],
 "C143": [
  "Model/RoundedSolver4.lean: solver4x4.py:46-117, 150-200, 270-304, 330-374 on a machine with its own operations and library routines",
  "a disturbed exponential by Duhamel's formula and Gronwall's inequality; relative errors multiply along the product of the layers; the inverse from its residual and a Neumann bound"
 ],
 "C144": [
  "Model/Dispersion.lean: the closed formulas of the models",
  "one comparison x/(x² + g²(q-x)) for all oscillators; TaucLorentz through the Kramers-Kronig integral of its absorption (C91), which grows with the photon energy below the gap"
 ],
 "C145": [
  "Model/Solver.lean (calculate4x4 with propExpm; two stacks with paired layers)",
  "Duhamel bound for the matrix exponential of each layer (Lemmas/ExpPerturb.lean), relative errors of products by induction over the layers, inverse of a nearby matrix; the first-order form from exp e <= 1 + 17/15 e; passive samples by the invertibility that follows from the energy balance (Lemmas/Balance.lean)"
 ],
 "C146": [
  "Model/Hist.lean (objects in a heap; the actions Undo, Redo, edit, Fit, Set initial)",
  "invariant over all action sequences: the objects of initial_params are disjoint from those of params, of the history and of last_params, and keep their values"
 ],
 "C147": [
  "Model/Solver.lean (calculate4x4), Model/Angles.lean (psi), Model/Result.lean (R_matrix)",
  "closed forms of r_s and r_p from the transition matrices; 1 - |r_s|^2 as a function of w = sqrt(e - (n sin)^2), whose real part falls and stays in the first quadrant; Cayley maps |1-v|/|1+v| for the p and psi parts, Brewster's angle as v = 1; |w|^2 >= |e - n^2| - (n cos)^2 near grazing"
 ],
 "C148": [
  "Model/Solver.lean (calculate2x2, with an arbitrary principal arcsine; calculate4x4)",
  "n cos(theta) has no negative real part in any passive medium although the angle of inner layers is not corrected; Re(w/eps) has the sign of Re w, so Fresnel denominators vanish only between two lossless media beyond total reflection; sides of the cut agree for all layers; induction along the layers; then C37"
 ],
 "C149": [
  "Model/VaryBoxes.lean: parameter objects with value and vary in the heap of Model/Hist.lean, set_vary_param, the typed value, the fit button (lmfit changes the varied parameters only), the boxes. Bounds and expressions of lmfit are not modelled.",
  "Invariant over all action sequences: no object is shared between present, starting, saved and last parameters; the starting parameters carry the flags of the boxes; so do the present ones and, until a box is changed, the saved ones."
 ],
 "C150": [
  "Model/Solver.lean (calculate4x4), Model/Result.lean (RMatrix, TMatrix)",
  "C94 gives the Jones elements in Airy form; their squared norm is rewritten with real admittances; R is then 1 - 4uwv^2/D with D affine in sin^2 of the phase thickness; T from C35 and C38"
 ],
 "C151": [
  "Model/Solver.lean (calculate4x4), Model/Result.lean (RMatrix, TMatrix)",
  "the Airy form of C94 with an imaginary admittance and an imaginary phase; T from energy conservation (C35, C38); sinh is strictly monotone; limit of the exponentials"
 ],
 "C152": [
  "Model/Solver.lean (calculate4x4), Model/Result.lean (RMatrix)",
  "the amplitudes of C147 written with the real and imaginary part of the root; the condition R = const is linear in |w|^2 and Re w, two media give two independent equations"
 ],
 "C153": [
  "Model/Result.lean (rho, psi, delta, RMatrix, R), Model/Solver.lean (calculate4x4)",
  "eliminates the wave vector component from the amplitudes of C147 and the rho of C139; rho = tan(psi) exp(-i delta) is C03"
 ],
 "C154": [
  "Model/Materials.lean (EmaKind.entry, mkMixture, getTensor)",
  "solves the balance of each rule for f; cube roots of passive constants lie in a convex sector where cubing is injective; monotone and onto by the same equations"
 ],
 "C155": [
  "Model/Dispersion.lean (codyEps2, taucEps1, taucLorentz)",
  "the value of eps1 of C91 with the logarithms collected: the coefficient of log|E-Eg| is (E-Eg)^2; x log x is continuous"
 ],
 "C156": [
  "Model/Utils.lean (qwpThickness), Model/Solver.lean (calculate4x4)",
  "induction over the layers: the fields in front of the coating are a multiple of (1, -Y) and (1, Y)"
 ],
 "C157": [
  "Model/IndexTensor.lean (refractiveIndex), Model/Materials.lean (SingleMaterial.getTensor), Model/Utils.lean (qwpThickness)",
  "the diagonal of the square of the entrywise root of a symmetric tensor is the sum of its rows; C122 gives the index the light sees"
 ],
 "C158": [
  "Model/Solver.lean (calculate4x4)",
  "swapping the diagonal of 2x2 matrices reverses products and fixes layers, so that a symmetric sequence has equal diagonal entries and determinant one; such a matrix is the matrix of a layer"
 ],
 "C159": [
  "Model/Solver.lean (buildDelta, propEig, propExpm, calculate4x4), Model/Materials.lean (getTensor)",
  "explicit eigenvectors; with a basis of eigenvectors a vector killed by the square of a matrix is killed by the matrix; the energy of the fields is a positive definite form and the matrix of a layer is the flux matrix times it, so it has a basis of eigenvectors (spectral theorem twice); C40 for each layer"
 ],
 "C160": [
  "Model/Solver.lean (propLinear, buildDelta, calculate4x4)",
  "one linear step multiplies the energy flux by its factor, induction over the layers; the flux is incident minus reflected power in front and transmitted power behind; 1 + x ≤ exp x for slices"
 ],
 "C161": [
  "Model/Rotation.lean (rotationEuler), Model/Materials.lean (SingleMaterial.setRotation, getTensor)",
  "the third column gives p and n, the rest fixes z and is a rotation about it; for tensors, the product of one rotation with the inverse of the other commutes with the diagonal matrix"
 ],
 "C162": [
  "Model/Dispersion.lean (sellmeier, lorentzEnergy, lorentzLambda, cauchyIndex, drudeEnergy, cauchyUrbachIndex)",
  "partial fractions: the common numerator is a polynomial with more zeros than its degree, and each denominator has a zero that the others lack; values at negative energies are conjugates, which halves the number of wavelengths"
 ],
 "C163": [
  "Model/Result.lean (muellerMatrix, rhoMatrix, Result)",
  "the lower right entry of rho_matrix is one, so the products of the entries with its conjugate are the entries; they are sums of four Mueller entries; for the converse the minors of the coherency matrix are nonnegative and add up to zero, so it is a square"
 ],
 "C164": [
  "Model/Result.lean (muellerMatrix, RMatrix, RcMatrix, R), Model/Solver.lean (calculate4x4)",
  "the laws for the Jones matrices (C78-C80), carried over entry by entry; the converses by the formulas of C163_recover"
 ]
}