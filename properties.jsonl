{"id": "C01", "title": "Delta range acceptance", "statement": "DeltaRange(lower, upper) is accepted exactly when at least one bound is an int, both are numbers, -360 <= lower <= 0 <= upper <= 360 and (lower, upper) is (0, 180) or spans exactly 360 degrees; otherwise it raises TypeError or ValueError. Every accepted range has integer-valued bounds.", "quantifier": "all pairs of Python values (ints, floats, non-numbers)", "why_tests_cant": "Two unbounded continuous inputs; a test list cannot show that nothing else is accepted.", "anchors": ["src/elli/utils.py: DeltaRange.__post_init__"]}
{"id": "C02", "title": "Delta conversion keeps the angle", "statement": "convert_delta_range(delta, lower, upper) returns a value in [lower, lower+360) that is the same angle as delta (differs by a multiple of 360 degrees).", "quantifier": "every real delta and every valid delta range", "why_tests_cant": "Congruence must hold for every real angle and each of the 361 windows; the existing tests only check the window, not the angle.", "anchors": ["src/elli/utils.py: convert_delta_range"]}
{"id": "C03", "title": "Psi/Delta reproduce rho", "statement": "For every measured ratio rho, calc_rho(result.psi, result.delta) equals result.rho, for every delta range chosen with as_delta_range.", "quantifier": "every complex rho (every sample) and every valid delta range", "why_tests_cant": "Holds for a continuum of complex values including branch cuts and zero.", "anchors": ["src/elli/result.py: Result.rho, Result.psi, Result.delta, Result.as_delta_range", "src/elli/utils.py: calc_rho"]}
{"id": "C04", "title": "Psi and Delta windows", "statement": "result.psi lies in [0, 90), result.delta lies in [lower, lower+360), and with the (0, 180) range in [0, 180] with psi unchanged; delta_matrix uses the same window as delta.", "quantifier": "every complex rho / rho matrix and every delta range", "why_tests_cant": "Range claims over all complex numbers.", "anchors": ["src/elli/result.py: Result.psi, Result.delta, Result.delta_matrix"]}
{"id": "C05", "title": "Stokes vector of a Jones vector", "statement": "Giving a Jones vector sets the Stokes vector to a fully polarised state S0^2 = S1^2+S2^2+S3^2, S0 = |a|^2+|b|^2 > 0, which does not depend on the global phase of the Jones vector and keeps the Jones vector itself.", "quantifier": "every nonzero complex 2-vector and every phase", "why_tests_cant": "Continuum of inputs.", "anchors": ["src/elli/experiment.py: Experiment.set_vector"]}
{"id": "C06", "title": "Stokes to Jones round trip", "statement": "Giving a Stokes vector of polarised light sets a Jones vector whose own Stokes vector is the normalised polarised part (1, S1, S2, S3/|(S1,S2,S3)|) of the input; the stored Stokes vector is the input unchanged.", "quantifier": "every real 4-vector with S0 != 0 and nonzero polarised part", "why_tests_cant": "Includes the special-cased pole Q = -1 and its neighbourhood; needs algebra, not samples.", "anchors": ["src/elli/experiment.py: Experiment.set_vector"]}
{"id": "C07", "title": "Jones to Stokes to Jones round trip", "statement": "Feeding the Stokes vector of a Jones vector back returns the same polarisation state: the new Jones vector is a complex multiple of the old one.", "quantifier": "every nonzero complex 2-vector", "why_tests_cant": "Continuum of inputs with two branches.", "anchors": ["src/elli/experiment.py: Experiment.set_vector"]}
{"id": "C08", "title": "Unpolarised light is accepted", "statement": "A Stokes vector describing unpolarised light (S1=S2=S3=0, the example in the documentation) sets a well defined (finite) Jones vector.", "quantifier": "every S0 > 0", "why_tests_cant": "Universally quantified; the corresponding division happens only on the measure-zero set tests do not visit.", "anchors": ["src/elli/experiment.py: Experiment.set_vector"]}
{"id": "C09", "title": "Vectors of other shapes", "statement": "set_vector with an array that is neither a 2-vector nor a 4-vector leaves the polarisation state untouched; None resets to 45 degrees linear light. Any sequence of set_vector calls ends in the state of the last effective call.", "quantifier": "all sequences of set_vector calls", "why_tests_cant": "Quantifies over all call histories.", "anchors": ["src/elli/experiment.py: Experiment.set_vector"]}
{"id": "C10", "title": "Mueller matrix is normalised and bounded", "statement": "For every Jones reflection matrix with r_ss != 0, result.mueller_matrix is real, has M11 = 1 and every element lies in [-1, 1].", "quantifier": "every complex 2x2 reflection matrix with r_ss != 0", "why_tests_cant": "Continuum; the discarded imaginary part must vanish for all inputs.", "anchors": ["src/elli/result.py: Result.mueller_matrix, Result.rho_matrix"]}
{"id": "C11", "title": "Mueller matrix acts like the Jones matrix", "statement": "Multiplying the Mueller matrix with the Stokes vector of any Jones vector gives (up to the M11 normalisation) the Stokes vector of the reflected Jones vector, in the same sign convention that set_vector uses.", "quantifier": "every Jones reflection matrix and every incident Jones vector", "why_tests_cant": "Must hold for all pairs.", "anchors": ["src/elli/result.py: Result.mueller_matrix", "src/elli/experiment.py: Experiment.set_vector"]}
{"id": "C12", "title": "Mueller matrix of isotropic samples", "statement": "For a sample without cross polarisation the Mueller matrix has the N/C/S block form with N = cos 2psi, C = sin 2psi cos delta, S = sin 2psi sin delta computed from the same result's psi and delta.", "quantifier": "all diagonal reflection matrices with r_ss != 0", "why_tests_cant": "Continuum.", "anchors": ["src/elli/result.py: Result.mueller_matrix, Result.psi, Result.delta"]}
{"id": "C13", "title": "Psi/Delta to Mueller conversion agrees", "statement": "convert_psi_delta_to_isotropic_mueller_matrix(psi, delta) returns the Mueller matrix of an isotropic sample with these psi, delta values in degrees.", "quantifier": "every psi, delta", "why_tests_cant": "Continuum; the existing test compares against stored output only.", "anchors": ["src/elli/utils.py: convert_psi_delta_to_isotropic_mueller_matrix"]}
{"id": "C14", "title": "Circular basis conserves power", "statement": "The sum of the four circular reflectances equals the sum of the four linear ones (same for transmittances); an isotropic mirror-like sample at normal incidence only shows handedness-changing reflection.", "quantifier": "every complex 2x2 Jones matrix", "why_tests_cant": "Continuum.", "anchors": ["src/elli/result.py: Result.jones_matrix_rc, Result.jones_matrix_tc, Result.Rc_matrix, Result.Tc_matrix"]}
{"id": "C15", "title": "Rotated tensors stay physical", "statement": "Rotating a material keeps its permittivity tensor symmetric and keeps trace and determinant, for every rotation produced by rotation_euler, rotation_v and rotation_v_theta.", "quantifier": "all principal permittivities and all rotation parameters", "why_tests_cant": "Continuum of angles and tensors.", "anchors": ["src/elli/materials.py: SingleMaterial.get_tensor", "src/elli/utils.py: rotation_euler, rotation_v, rotation_v_theta"]}
{"id": "C16", "title": "Isotropic materials ignore rotation", "statement": "set_rotation with any rotation leaves the tensor of an isotropic material unchanged; of several rotations the last one wins.", "quantifier": "all permittivities, all rotations, all sequences of set_rotation", "why_tests_cant": "Continuum and histories.", "anchors": ["src/elli/materials.py: IsotropicMaterial, Material.set_rotation, SingleMaterial.get_tensor"]}
{"id": "C17", "title": "Euler rotations", "statement": "rotation_euler(p, n, r) is a proper rotation, equals Rz(p) Rx(n) Rz(r), and is undone by rotation_euler(-r, -n, -p).", "quantifier": "all angles", "why_tests_cant": "Continuum.", "anchors": ["src/elli/utils.py: rotation_euler"]}
{"id": "C18", "title": "Axis rotations", "statement": "rotation_v_theta(v, theta) for a unit axis is a proper rotation that fixes v, adds angles under composition, and equals rotation_v(v * theta in radians); rotation_v(-v) undoes rotation_v(v).", "quantifier": "all unit axes and all angles", "why_tests_cant": "Requires the matrix exponential identity for all inputs.", "anchors": ["src/elli/utils.py: rotation_v, rotation_v_theta"]}
{"id": "C19", "title": "Mixture fraction guard", "statement": "Constructing a mixture or calling set_fraction with a fraction outside [0, 1] raises ValueError and leaves an existing mixture unchanged; any sequence of successful calls keeps the fraction in [0, 1].", "quantifier": "all reals and all call sequences", "why_tests_cant": "Histories and continuum.", "anchors": ["src/elli/materials.py: MixtureMaterial.set_fraction"]}
{"id": "C20", "title": "Mixture limits", "statement": "Every effective medium model returns the host tensor at fraction 0 and the guest tensor at fraction 1, and returns the common tensor when host and guest are equal.", "quantifier": "all host and guest tensors (complex)", "why_tests_cant": "Continuum with complex branch cuts; tests use one pair of constants.", "anchors": ["src/elli/materials.py: VCAMaterial, LooyengaEMA, MaxwellGarnettEMA, BruggemanEMA: get_tensor_fraction"]}
{"id": "C21", "title": "Bruggeman self-consistency", "statement": "The Bruggeman value e satisfies f (g-e)/(g+2e) + (1-f)(h-e)/(h+2e) = 0.", "quantifier": "all complex host/guest permittivities and all fractions for which the formula is defined", "why_tests_cant": "Continuum of complex values.", "anchors": ["src/elli/materials.py: BruggemanEMA.get_tensor_fraction"]}
{"id": "C22", "title": "Mixtures stay between their constituents", "statement": "For positive real host and guest permittivities and fraction in [0,1] every effective medium model yields a real value between host and guest.", "quantifier": "all positive h, g and f in [0,1]", "why_tests_cant": "Continuum.", "anchors": ["src/elli/materials.py: VCAMaterial, LooyengaEMA, MaxwellGarnettEMA, BruggemanEMA"]}
{"id": "C23", "title": "Mixtures of passive materials are passive", "statement": "If host and guest permittivity have nonnegative imaginary part, so has the mixture.", "quantifier": "all complex h, g with Im >= 0, f in [0,1]", "why_tests_cant": "Continuum with square/cube root branches.", "anchors": ["src/elli/materials.py: VCAMaterial, LooyengaEMA, MaxwellGarnettEMA, BruggemanEMA"]}
{"id": "C24", "title": "Mixing commutes with rotation", "statement": "Rotating both constituents by the same rotation rotates the mixture.", "quantifier": "all tensors and rotations", "why_tests_cant": "Continuum.", "anchors": ["src/elli/materials.py: VCAMaterial.get_tensor_fraction, LooyengaEMA.get_tensor_fraction"]}
{"id": "C25", "title": "Repeated layers unroll", "statement": "RepeatedLayers(layers, n, before, after) yields the last `before` slices, then n full periods, then the first `after` slices; counts and total thickness follow; invalid counts raise ValueError.", "quantifier": "all layer lists, all counts", "why_tests_cant": "Unbounded lists and counts.", "anchors": ["src/elli/structure.py: RepeatedLayers.get_permittivity_profile, set_repetitions"]}
{"id": "C26", "title": "Structure profile order", "statement": "The profile of a structure is front (infinite), then every layer's slices in order, then back (infinite); total finite thickness is the sum of layer thicknesses, also for nested repeated and inhomogeneous layers.", "quantifier": "all finite nested layer lists", "why_tests_cant": "Recursive structures of unbounded depth.", "anchors": ["src/elli/structure.py: Structure.get_permittivity_profile", "src/elli/plot/structure.py: get_permittivity_profile"]}
{"id": "C27", "title": "Inhomogeneous slicing", "statement": "An inhomogeneous layer is cut in `div` slices of equal thickness that sum to the layer thickness, evaluated at the slice mid-points; div < 1 is rejected.", "quantifier": "all thicknesses and all div", "why_tests_cant": "Unbounded div.", "anchors": ["src/elli/structure.py: InhomogeneousLayer.get_slices, set_divisions"]}
{"id": "C28", "title": "Twisted layers", "statement": "Slice k of a twisted layer has the base tensor rotated about z by angle*(k+1/2)/div; zero twist gives the plain material; defined for every accepted thickness including 0.", "quantifier": "all base tensors, angles, thicknesses, div", "why_tests_cant": "Unbounded div and continuum.", "anchors": ["src/elli/structure.py: TwistedLayer.get_tensor"]}
{"id": "C29", "title": "Varying mixture layers", "statement": "Slice k of a varying mixture layer has the mixture tensor at fraction modulation((k+1/2)/div); defined for every accepted thickness including 0.", "quantifier": "all modulation functions, thicknesses, div", "why_tests_cant": "Quantifies over functions.", "anchors": ["src/elli/structure.py: VaryingMixtureLayer.get_tensor"]}
{"id": "C30", "title": "Setters validate", "statement": "Layer thickness < 0, repetitions < 1, before/after < 0, div < 1, non-layer objects and non-material objects are rejected, and after any sequence of accepted and rejected setter calls the structure objects still satisfy these limits.", "quantifier": "all call sequences", "why_tests_cant": "Histories.", "anchors": ["src/elli/structure.py: Layer.set_thickness, RepeatedLayers.set_repetitions, InhomogeneousLayer.set_divisions, Structure.set_layers"]}
{"id": "C31", "title": "Front half space is isotropic", "statement": "Structure rejects a front material that is not isotropic, as documented.", "quantifier": "all materials", "why_tests_cant": "Class-level claim over every material.", "anchors": ["src/elli/structure.py: Structure.set_front_material"]}
{"id": "C32", "title": "Bare substrate gives Fresnel", "statement": "For a structure without layers both solvers return the Fresnel coefficients of the front/back interface.", "quantifier": "all complex permittivities and angles away from singular denominators", "why_tests_cant": "Continuum.", "anchors": ["src/elli/solver2x2.py: Solver2x2.calculate", "src/elli/solver4x4.py: Solver4x4.calculate"]}
{"id": "C33", "title": "Zero-thickness layers do not matter", "statement": "Inserting a layer of thickness 0 of any isotropic material anywhere in any stack does not change the Jones matrices of Solver2x2; for Solver4x4 with the exact propagator this holds for any anisotropic material.", "quantifier": "all stacks, all positions, all materials", "why_tests_cant": "Unbounded stacks.", "anchors": ["src/elli/solver2x2.py: Solver2x2.calculate", "src/elli/solver4x4.py: Solver4x4.calculate"]}
{"id": "C34", "title": "Layers can be split", "statement": "Replacing a layer by two layers of the same material with the same total thickness anywhere in any stack does not change the Jones matrices (Solver2x2; Solver4x4 with exact propagator).", "quantifier": "all stacks, positions, thicknesses", "why_tests_cant": "Unbounded stacks and continuum.", "anchors": ["src/elli/solver2x2.py: Solver2x2.calculate", "src/elli/solver4x4.py: Solver4x4.calculate, PropagatorExpm"]}
{"id": "C35", "title": "Energy conservation", "statement": "For lossless stacks between lossless half spaces, reflectance plus transmittance is one for each incident polarisation (summed over the outgoing polarisations), for both solvers, including evanescent layers, anisotropic layers and total reflection.", "quantifier": "all lossless stacks, angles, wavelengths", "why_tests_cant": "Unbounded stacks, continuum.", "anchors": ["src/elli/solver4x4.py: Solver4x4.calculate", "src/elli/solver2x2.py: Solver2x2.calculate", "src/elli/result.py: Result.R_matrix, Result.T_matrix"]}
{"id": "C36", "title": "No gain from passive stacks", "statement": "For stacks of passive (absorbing) possibly anisotropic materials, reflectance plus transmittance does not exceed one for each incident polarisation.", "quantifier": "all passive stacks, angles, wavelengths", "why_tests_cant": "Unbounded stacks, continuum.", "anchors": ["src/elli/solver4x4.py: Solver4x4.calculate", "src/elli/result.py: Result.R_matrix, Result.T_matrix"]}
{"id": "C37", "title": "The two solvers agree", "statement": "For isotropic stacks Solver2x2 and Solver4x4 (exact propagator) return the same reflection and transmission Jones matrices and the same power correction.", "quantifier": "all isotropic stacks, angles, wavelengths away from singular interfaces", "why_tests_cant": "Unbounded stacks; tests compare a few structures numerically.", "anchors": ["src/elli/solver2x2.py: Solver2x2.calculate", "src/elli/solver4x4.py: Solver4x4.calculate"]}
{"id": "C38", "title": "No cross polarisation for isotropic stacks", "statement": "Solver4x4 returns diagonal Jones matrices for every isotropic stack.", "quantifier": "all isotropic stacks", "why_tests_cant": "Unbounded stacks.", "anchors": ["src/elli/solver4x4.py: Solver4x4.calculate, build_delta_matrix"]}
{"id": "C39", "title": "Repetition is a power", "statement": "A RepeatedLayers block contributes the n-th power of the period's transfer matrix.", "quantifier": "all periods and all n", "why_tests_cant": "Unbounded n.", "anchors": ["src/elli/structure.py: RepeatedLayers.get_permittivity_profile", "src/elli/solver4x4.py: Solver4x4.calculate"]}
{"id": "C40", "title": "Propagators agree", "statement": "The eigenvalue propagator equals the exponential propagator whenever the eigen-decomposition exists, independent of eigenvalue ordering; the exponential one is multiplicative in thickness; the linear one is its first-order expansion.", "quantifier": "all delta matrices, thicknesses, wavelengths", "why_tests_cant": "Continuum.", "anchors": ["src/elli/solver4x4.py: PropagatorLinear, PropagatorExpm, PropagatorEig"]}
{"id": "C41", "title": "Reflection does not depend on the exit eigenbasis", "statement": "The reflection Jones matrix for an anisotropic exit half space does not depend on scaling, phase or mixing of the transmitted eigenmodes returned by the eigenvalue routine.", "quantifier": "all invertible recombinations of the two forward modes", "why_tests_cant": "Eigenvector output is only determined up to such choices; a test sees one of them.", "anchors": ["src/elli/solver4x4.py: transition_matrix_halfspace, Solver4x4.calculate"]}
{"id": "C42", "title": "Pseudo dielectric function inverts a bulk sample", "statement": "calc_pseudo_diel(rho, theta) of an air/bulk sample evaluated by the solver returns the permittivity of the bulk.", "quantifier": "all complex permittivities and angles strictly between 0 and 90 degrees", "why_tests_cant": "Continuum.", "anchors": ["src/elli/utils.py: calc_pseudo_diel", "src/elli/solver2x2.py: Solver2x2.fresnel"]}
{"id": "C43", "title": "Classical thin film facts", "statement": "At the Brewster angle r_pp = 0; beyond the critical angle reflection is total; a half-wave layer is invisible; a quarter-wave layer (get_qwp_thickness) of index sqrt(n0 ns) removes the reflection at normal incidence.", "quantifier": "all refractive indices", "why_tests_cant": "Continuum.", "anchors": ["src/elli/solver2x2.py: Solver2x2", "src/elli/utils.py: get_qwp_thickness"]}
{"id": "C44", "title": "Scale invariance", "statement": "Scaling the wavelength and all thicknesses by the same positive factor leaves the Jones matrices of both solvers unchanged (dispersionless materials).", "quantifier": "all stacks and factors", "why_tests_cant": "Unbounded stacks.", "anchors": ["src/elli/solver2x2.py: Solver2x2.calculate", "src/elli/solver4x4.py: Solver4x4.calculate"]}
{"id": "C45", "title": "Evaluation takes a snapshot", "statement": "Changing the experiment or its structure after evaluate() does not change an existing result, and evaluate() does not change the experiment.", "quantifier": "all later sequences of setter calls", "why_tests_cant": "Histories.", "anchors": ["src/elli/solver.py: Solver.__init__", "src/elli/experiment.py: Experiment.evaluate"]}
{"id": "C46", "title": "Dispersion parameter filling", "statement": "Positional and keyword parameters fill the parameter template as documented: positional i goes to the i-th name, keywords to their names, everything else keeps its default; unknown names, too many values and double assignment raise InvalidParameters; templates are never modified.", "quantifier": "all templates, argument lists and keyword sets", "why_tests_cant": "Unbounded argument lists.", "anchors": ["src/elli/dispersions/base_dispersion.py: BaseDispersion._fill_params_dict, _guard_invalid_params, __init__"]}
{"id": "C47", "title": "Adding oscillators", "statement": "add() appends one parameter set; the dielectric function only depends on the collection of added sets, not on their order; failed add() calls change nothing.", "quantifier": "all call sequences and permutations", "why_tests_cant": "Histories and permutations.", "anchors": ["src/elli/dispersions/base_dispersion.py: BaseDispersion.add", "src/elli/dispersions/lorentz_energy.py", "src/elli/dispersions/sellmeier.py"]}
{"id": "C48", "title": "Dispersion models agree", "statement": "Equivalent parametrisations give equal dielectric functions: DrudeResistivity/DrudeEnergy, LorentzLambda/LorentzEnergy, Sellmeier/SellmeierCustomExponent/LorentzLambda without damping, Cauchy/CauchyCustomExponent, Poles/Lorentz, TaucLorentz without a gap/LorentzEnergy; Drude is the zero-resonance limit of Lorentz.", "quantifier": "all parameters and wavelengths", "why_tests_cant": "Continuum.", "anchors": ["src/elli/dispersions/drude_energy.py", "src/elli/dispersions/drude_resistivity.py", "src/elli/dispersions/lorentz_energy.py", "src/elli/dispersions/lorentz_lambda.py", "src/elli/dispersions/sellmeier.py", "src/elli/dispersions/cauchy.py", "src/elli/dispersions/poles.py"]}
{"id": "C49", "title": "Dispersion models are passive", "statement": "With nonnegative amplitudes and broadenings the Lorentz, Drude, Gaussian, Tauc-Lorentz and Cody-Lorentz models have Im(eps) >= 0 for every photon energy; Tauc-Lorentz and Cody-Lorentz are transparent below the gap as documented.", "quantifier": "all admissible parameters and energies", "why_tests_cant": "Continuum.", "anchors": ["src/elli/dispersions/lorentz_energy.py", "src/elli/dispersions/drude_energy.py", "src/elli/dispersions/gaussian.py", "src/elli/dispersions/tauc_lorentz.py", "src/elli/dispersions/cody_lorentz.py"]}
{"id": "C50", "title": "Dispersion sums add values", "statement": "Where a + b is allowed its dielectric function (or index) is the sum of the operands' at every wavelength; sums are flat; mixing index and dielectric dispersions raises TypeError.", "quantifier": "all expressions built with + from all dispersion kinds and numbers", "why_tests_cant": "Unbounded expression trees over mutable objects.", "anchors": ["src/elli/dispersions/base_dispersion.py: Dispersion.__add__, IndexDispersion.__add__, DispersionSum, IndexDispersionSum"]}
{"id": "C51", "title": "Addition does not change its operands", "statement": "Evaluating a + b leaves the dielectric functions of a and b unchanged.", "quantifier": "all dispersion objects in all histories", "why_tests_cant": "Aliasing only shows in particular histories.", "anchors": ["src/elli/dispersions/base_dispersion.py: DispersionSum.__add__, Dispersion.__add__"]}
{"id": "C52", "title": "Index and dielectric views are consistent", "statement": "For every dispersion the dielectric function is the square of its refractive index, and as_index() keeps the dielectric function.", "quantifier": "all dispersions and wavelengths", "why_tests_cant": "Continuum and all dispersion classes.", "anchors": ["src/elli/dispersions/base_dispersion.py: get_refractive_index, get_dielectric, as_index"]}
{"id": "C53", "title": "Tabulated data interpolate", "statement": "A tabulated dispersion returns the tabulated value at every node, values on the chord in between, and raises ValueError outside the range, independent of the order of the input rows.", "quantifier": "all tables and wavelengths", "why_tests_cant": "Unbounded tables.", "anchors": ["src/elli/dispersions/table_index.py", "src/elli/dispersions/table_epsilon.py"]}
{"id": "C54", "title": "Adding a number to tabulated dispersions", "statement": "table + number and number + table give the table shifted by the number.", "quantifier": "all tables and numbers", "why_tests_cant": "Universally quantified.", "anchors": ["src/elli/dispersions/table_index.py: Table.__add__", "src/elli/dispersions/table_epsilon.py: TableEpsilon.__add__"]}
{"id": "C55", "title": "Kramers-Kronig transform laws", "statement": "im2re, re2im and the reciprocal variants are linear in the data, reject unequal lengths, the value at a point does not depend on the data at points of equal parity, and rescaling the axis leaves the result unchanged.", "quantifier": "all data arrays, axes, lengths", "why_tests_cant": "Unbounded arrays.", "anchors": ["src/elli/kkr/kkr.py: _calc_kkr, im2re, re2im, im2re_reciprocal, re2im_reciprocal"]}
{"id": "C56", "title": "Kramers-Kronig integration weight", "statement": "On an equidistant axis every output point uses the grid spacing as integration weight.", "quantifier": "all equidistant axes", "why_tests_cant": "Unbounded arrays; tests look at the curve, not the first point.", "anchors": ["src/elli/kkr/kkr.py: _calc_kkr"]}
{"id": "C57", "title": "Formula dispersions sum over repeated parameters", "statement": "A formula with sum[...] evaluates at each wavelength to the sum over the parameter sets of the bracketed expression; parameters are looked up as documented; mismatching lengths raise ValueError.", "quantifier": "all expressions, parameter sets and wavelengths", "why_tests_cant": "Recursive expressions of unbounded size.", "anchors": ["src/elli/dispersions/formula.py", "src/elli/formula_parser/parser.py: FormulaTransformer"]}
{"id": "C58", "title": "Formula grammar is unambiguous", "statement": "Every accepted formula has one reading: usual precedence, + - * / associate to the left, ** does not chain, and printing an expression and parsing it gives the expression back.", "quantifier": "all token sequences / expressions", "why_tests_cant": "Unbounded inputs.", "anchors": ["src/elli/formula_parser/dispersion_function_grammar.lark", "src/elli/formula_parser/parser.py"]}
{"id": "C59", "title": "Result attribute names", "statement": "result.<quantity>_<ij> returns the matrix element documented (p/s, R/L, 1..4 indices, Greek aliases), unknown names raise AttributeError, malformed indices ValueError.", "quantifier": "all attribute strings", "why_tests_cant": "All strings.", "anchors": ["src/elli/result.py: Result.__getattr__, Result._convert_index"]}
{"id": "C60", "title": "Result.get", "statement": "result.get(name) returns the same value as the attribute result.name.", "quantifier": "all names", "why_tests_cant": "All strings.", "anchors": ["src/elli/result.py: Result.get"]}
{"id": "C61", "title": "Averaged results", "statement": "ResultList.mean.<name> is the element-wise mean over the results with the shape of a single result's <name>.", "quantifier": "all non-empty lists of results and all shapes", "why_tests_cant": "Unbounded lists and shapes.", "anchors": ["src/elli/result.py: ResultList.__getattr__, AveragedResultList.__getattr__"]}
{"id": "C62", "title": "Parameter history is bounded", "statement": "After any sequence of operations the history never exceeds max_history_len and contains the most recent commits in order.", "quantifier": "all operation sequences", "why_tests_cant": "Histories.", "anchors": ["src/elli/fitting/params_hist.py: ParamsHist"]}
{"id": "C63", "title": "Undo restores", "statement": "pop() after commit() plus any value changes restores the committed values and returns a copy of the values before; undo followed by redo is the identity on values.", "quantifier": "all parameter sets and edits", "why_tests_cant": "Histories.", "anchors": ["src/elli/fitting/params_hist.py: ParamsHist.pop, commit", "src/elli/fitting/decorator.py: FitDecorator.re_undo_button_clicked"]}
{"id": "C64", "title": "History entries are immutable", "statement": "Stored history entries do not change through later edits of the current parameters.", "quantifier": "all operation sequences", "why_tests_cant": "Aliasing shows only in particular histories.", "anchors": ["src/elli/fitting/params_hist.py: ParamsHist.revert, update_value, update_params"]}
{"id": "C65", "title": "Revert guard", "statement": "revert(i) raises the documented error for positions that do not exist and otherwise restores entry i and keeps the history.", "quantifier": "all positions and histories", "why_tests_cant": "Histories.", "anchors": ["src/elli/fitting/params_hist.py: ParamsHist.revert"]}
{"id": "C66", "title": "Fit residual", "statement": "The residual vector handed to the optimiser is zero exactly when the model reproduces the measured rho (Mueller matrix) at every point, and its length does not depend on parameters.", "quantifier": "all measured and modelled spectra", "why_tests_cant": "Unbounded arrays.", "anchors": ["src/elli/fitting/decorator_psi_delta.py: fit_function", "src/elli/fitting/decorator_mmatrix.py: fit_function, mmatrix_to_dataframe"]}
{"id": "C67", "title": "refractiveindex.info formulas", "statement": "Loading formula 1-5 entries gives the dispersion formula documented on refractiveindex.info in micrometres, for any number of coefficients.", "quantifier": "all coefficient lists and wavelengths", "why_tests_cant": "Unbounded coefficient lists.", "anchors": ["src/elli/database/refractive_index_info.py: RII.get_dispersion"]}
{"id": "C68", "title": "Catalog search", "statement": "search returns exactly the catalog rows matching the query in the selected field, in order, whose wavelength range contains every requested wavelength; loading needs exactly one match.", "quantifier": "all catalogs and queries", "why_tests_cant": "Unbounded catalogs.", "anchors": ["src/elli/database/refractive_index_info.py: RII.search, RII._open_file"]}
{"id": "C69", "title": "Unit conversions invert", "statement": "conversion_wavelength_energy, _frequency and _wavenumber are self-inverse and frequency/energy conversions are mutually inverse and consistent with each other.", "quantifier": "all nonzero values", "why_tests_cant": "Continuum.", "anchors": ["src/elli/utils.py: conversion_* / convert functions"]}
{"id": "C70", "title": "Importers classify numbers correctly", "statement": "is_float(s) is true exactly for strings that denote a number, so non-numeric lines are not read as data.", "quantifier": "all strings", "why_tests_cant": "All strings.", "anchors": ["src/elli/importer/woollam.py: is_float"]}
{"id": "C71", "title": "Importers keep measurements", "statement": "Rows with the same angle and wavelength are not merged into a wrong value when reading a data file.", "quantifier": "all measurement tables", "why_tests_cant": "Unbounded tables.", "anchors": ["src/elli/importer/accurion.py"]}
{"id": "C72", "title": "NeXus materials", "statement": "A NeXus file with two dispersions gives a uniaxial material whatever axes are present, three give biaxial, one isotropic.", "quantifier": "all combinations of axes", "why_tests_cant": "Combinatorial decision logic.", "anchors": ["src/elli/importer/nexus.py: get_material"]}
{"id": "C73", "title": "One Undo per action", "statement": "In the fitting widgets, one Undo after editing a value, pressing Fit or pressing Set initial restores the parameter values before that action, and a further Undo goes back one more action.", "quantifier": "all widget states, parameter names and values", "why_tests_cant": "Histories of user actions; the widgets are not tested at all.", "anchors": ["src/elli/fitting/decorator.py: fit_button_clicked, re_undo_button_clicked, reset_to_init_params, update_params"]}
{"id": "C74", "title": "Fitted parameters keep the fit result", "statement": "fitted_params hold the values found by the fit until the next fit, so get_model_data() without arguments describes the fit.", "quantifier": "all widget states and later edits", "why_tests_cant": "Aliasing shows only in particular sequences of actions.", "anchors": ["src/elli/fitting/decorator.py: fit_button_clicked, update_params", "src/elli/fitting/decorator_psi_delta.py: fit, get_model_data"]}
{"id": "C75", "title": "Display options are optional", "statement": "A Mueller-matrix fit widget can be made with any subset of the display options display_single, sharex and full_scale.", "quantifier": "all subsets of the options and all values given for them", "why_tests_cant": "The widget is not tested; the defect needs a particular combination of missing keywords.", "anchors": ["src/elli/fitting/decorator_mmatrix.py: FitMuellerMatrix.__init__, fit_mueller_matrix"]}
{"id": "C76", "title": "Woollam tables are read completely", "statement": "read_woollam_psi_delta reads every data line: the table starts at the first data line and the line before it names the unit; tan/cos files and files without table are refused.", "quantifier": "all sequences of lines", "why_tests_cant": "Three sample files are read; which lines a regular expression rejects shows only on other files.", "anchors": ["src/elli/importer/woollam.py: read_woollam_psi_delta, _is_wvase_tabular, _is_complete_ease_tabular, _is_tan_cos_format"]}
{"id": "C77", "title": "SpectraRay psi/delta tables keep every measurement", "statement": "read_spectraray_psi_delta returns, for each angle in the header and each wavelength, the psi and delta of the file, delta in the window -180 to 180, sorted by angle and wavelength; a column number that does not fit is refused.", "quantifier": "all distinct angles, distinct wavelengths and values", "why_tests_cant": "The only test reads one file and checks nothing but the absence of errors.", "anchors": ["src/elli/importer/spectraray.py: read_spectraray_psi_delta"]}
{"id": "C78", "title": "Reciprocity of reflection", "statement": "For a sample whose permittivity tensors are symmetric (every structure built with the package's materials), reversing the angle of incidence transposes the reflection matrix with the sign of the cross terms flipped: r_pp and r_ss are even in theta, r_ps(theta) = -r_sp(-theta).", "quantifier": "all passive structures, thicknesses, tilted anisotropic layers, angles and wavelengths", "why_tests_cant": "Reciprocity relates two different calculations on a continuum of anisotropic samples; no reference data covers it.", "anchors": ["src/elli/solver4x4.py: Solver4x4.calculate, get_k_x, build_delta_matrix", "src/elli/structure.py: Structure.get_permittivity_profile"]}
{"id": "C79", "title": "Half-turn and mirror symmetry", "statement": "Turning the sample by 180 degrees about its normal is the same as reversing the angle of incidence; the mirror image of a sample in the plane of incidence has the same co-polarised and opposite cross-polarised amplitudes, so a sample symmetric under this mirror shows no cross polarisation.", "quantifier": "all structures, angles, wavelengths; half turn for every propagator", "why_tests_cant": "The statement compares pairs of samples; tests compare single samples with stored numbers.", "anchors": ["src/elli/solver4x4.py: Solver4x4.calculate, build_delta_matrix"]}
{"id": "C80", "title": "Azimuth at normal incidence", "statement": "At normal incidence, turning the sample about its normal by phi turns the Jones matrices with it: t' = R t R^-1 and, with the package's sign convention for the reflected p wave, r' = R^-1 r R^-1.", "quantifier": "all structures, azimuths and wavelengths", "why_tests_cant": "A continuum of azimuths and anisotropic samples.", "anchors": ["src/elli/solver4x4.py: Solver4x4.calculate", "src/elli/utils.py: rotation_v_theta"]}
{"id": "C81", "title": "Transmission is the same from both sides", "statement": "Turning a sample with symmetric tensors upside down, with the angle chosen by Snell's law, transposes the transmission Jones matrix up to the factor of the two media; between transparent media the transmittance matrix entries are exchanged accordingly.", "quantifier": "all layers with symmetric tensors, all angles without total reflection, all wavelengths", "why_tests_cant": "Two calculations with different media are compared; no test turns a sample upside down.", "anchors": ["src/elli/solver4x4.py: Solver4x4.calculate, get_transmittance_correction"]}
{"id": "C82", "title": "Index-matched layers", "statement": "A layer of the exit material in front of the exit medium leaves the reflection unchanged and multiplies the transmission by its phase (Beer-Lambert attenuation for absorbing media); a layer of the entry material adds the phase twice to the reflection and once to the transmission.", "quantifier": "all structures, thicknesses, angles and wavelengths", "why_tests_cant": "Thickness, angle and wavelength are continuous; tests use a handful of stacks.", "anchors": ["src/elli/solver4x4.py: Solver4x4.calculate, PropagatorExpm", "src/elli/structure.py: Layer.get_permittivity_profile"]}
{"id": "C83", "title": "Results are the solution of Maxwell's equations", "statement": "For a plane wave on a layered sample (transparent incidence medium, passive layers of any anisotropy, passive isotropic exit medium) there is a solution of Maxwell's equations with continuous tangential fields and an outgoing wave behind the sample, its reflected and transmitted amplitudes are unique, and they are the Jones matrices returned by Solver4x4 applied to the incident amplitudes (likewise Solver2x2 for isotropic samples).", "quantifier": "all samples, angles below 90 degrees, wavelengths and incident polarisations", "why_tests_cant": "Maxwell's equations are a condition at every point of space; tests compare a few numbers with other programs that use the same matrix method.", "anchors": ["src/elli/solver4x4.py: Solver4x4.calculate, build_delta_matrix, transition_matrix_iso_halfspace", "src/elli/solver2x2.py: Solver2x2.calculate"]}
{"id": "C84", "title": "Dispersions compute the formula of their documentation", "statement": "The value returned by each dispersion class is the formula printed in its docstring, evaluated at the wavelength (or at the photon energy of the wavelength) with the parameters given.", "quantifier": "all parameters, any number of repeated parameter sets, all wavelengths where no denominator vanishes", "why_tests_cant": "Tests compare against stored numbers for the default parameters; a wrong sign, factor or exponent that vanishes there is invisible, and the number of repeated terms is unbounded.", "anchors": ["src/elli/dispersions/*.py: dielectric_function, refractive_index and class docstrings"]}
{"id": "C85", "title": "Slicing converges to the continuous medium", "statement": "For a sample with twisted or graded layers, the Jones matrices computed by Solver4x4 converge, as the number of divisions of the inhomogeneous layers grows, to the reflection and transmission amplitudes of the unique solution of Maxwell's equations in the continuously varying medium.", "quantifier": "all stacks of passive plain, twisted and graded layers with differentiable profiles, all angles below 90 degrees, wavelengths and sequences of divisions tending to infinity", "why_tests_cant": "A limit over unboundedly fine slicing of a continuum of profiles; tests compare a few divisions with each other.", "anchors": ["src/elli/structure.py: InhomogeneousLayer.get_permittivity_profile, TwistedLayer.get_tensor, VaryingMixtureLayer.get_tensor", "src/elli/solver4x4.py: Solver4x4.calculate"]}
{"id": "C86", "title": "The linear propagator converges to the exact one", "statement": "Computing a sample with PropagatorLinear, with every layer cut into more and more equal slices, gives Jones matrices that converge to those of PropagatorExpm (and hence to the solution of Maxwell's equations): for homogeneous layers cut by hand, and for graded layers whose number of divisions grows.", "quantifier": "all stacks of passive layers (any finite number, tensors with nonzero zz entry, differentiable profiles for graded layers, nonnegative thicknesses), lossless isotropic entry, passive isotropic exit, every positive wavelength and every angle below 90 degrees", "why_tests_cant": "A test compares a few slice counts for one sample; convergence is a statement about a limit for every sample.", "anchors": ["src/elli/solver4x4.py:46-62 PropagatorLinear", "src/elli/solver4x4.py Solver4x4.calculate"]}
{"id": "C87", "title": "Results depend continuously and differentiably on the sample", "statement": "The Jones matrices computed by Solver4x4, and the power factor behind T, change continuously with the front index, the layer thicknesses and tensors, the exit permittivity, the angle and the wavelength, also through the critical angle and at degenerate modes where the selection of modes switches; for fixed half spaces they are differentiable in thicknesses, layer tensors and wavelength, so least-squares fitting of these parameters is well posed.", "quantifier": "every passive sample (any number of layers, anisotropic tensors), angles below 90 degrees, positive wavelengths, parameters in any topological (normed) space", "why_tests_cant": "Continuity at every point is a statement about all neighbourhoods; a test compares finitely many neighbouring values and misses the switching points.", "anchors": ["src/elli/solver4x4.py: Solver4x4.calculate, get_k_z, transition_matrix_iso_halfspace", "src/elli/fitting/params_hist.py"]}
{"id": "C88", "title": "R and T are the values for unpolarised light", "statement": "The attributes R and T of a result, documented as the absolute reflectance and transmittance for unpolarized light, equal the power reflected and transmitted for an equal incoherent mixture of any two orthogonal polarisations.", "quantifier": "all results, all orthonormal pairs of Jones vectors", "why_tests_cant": "The definition quantifies over every decomposition of unpolarised light and every sample; the shipped tests only use isotropic samples, where the wrong formula is right.", "anchors": ["src/elli/result.py:291-315 Result.R, R_matrix, T, T_matrix"]}
{"id": "C89", "title": "The Kramers-Kronig sums converge to the principal value integrals", "statement": "On finer and finer equidistant axes over a fixed interval, the values of re2im, im2re, re2im_reciprocal and im2re_reciprocal at a fixed grid point converge to 2/pi times the Cauchy principal value of the documented integrand over that interval; the reciprocal variants give the same integral over the reciprocal axis. For twice continuously differentiable spectra the error is at most a constant times the step of the axis, with one constant for all axes over the interval; first order cannot be improved.", "quantifier": "every spectrum continuous on the interval and differentiable at the point, every interval 0 < a < w < b, every refining family of axes containing w (even and odd positions alike)", "why_tests_cant": "The principal value is a limit and so is the claim; the shipped tests compare one spectrum at one resolution with a tolerance.", "anchors": ["src/elli/kkr/kkr.py:101-144 _calc_kkr", "src/elli/kkr/kkr.py:147-234 re2im, im2re, re2im_reciprocal, im2re_reciprocal"]}
{"id": "C90", "title": "re2im and im2re are the two halves of the Kramers-Kronig relation of one causal response", "statement": "For the susceptibility of a causal response, im2re applied to its imaginary part gives its real part and re2im applied to its real part gives its imaginary part, in the limit of a fine and wide axis, on a frequency axis and with the reciprocal functions on a wavelength axis.", "quantifier": "every real response phi(t), t > 0, with phi(t) and t phi(t) integrable, all positive frequencies", "why_tests_cant": "It is a statement about a limit in range and resolution for an infinite class of spectra; a numerical check has truncation error and cannot separate a wrong sign convention from it for all responses.", "anchors": ["src/elli/kkr/kkr.py:147-234 re2im, im2re, re2im_reciprocal, im2re_reciprocal"]}
{"id": "C91", "title": "The oscillator models are Kramers-Kronig consistent", "statement": "The real and imaginary part computed by LorentzEnergy, LorentzLambda, Gaussian, TaucLorentz, Tanguy, DrudeEnergy and DrudeResistivity belong to one causal response: im2re_reciprocal applied to the imaginary part over the wavelength gives, on wide and fine axes, the real part (less the 1 the Lorentz and Tanguy models add, and the real background term of Tanguy).", "quantifier": "all lists of oscillators, all wavelengths; Lorentz in all damping regimes, Tauc-Lorentz for C < 2E away from the gap energy, Gaussian for positive widths, Tanguy for 1 < d <= 3 with positive broadening", "why_tests_cant": "It relates two closed formulas through an improper principal value integral over all photon energies, for all oscillator parameters; a numerical check truncates the range.", "anchors": ["src/elli/dispersions/lorentz_energy.py:32-37", "src/elli/dispersions/lorentz_lambda.py:33-39", "src/elli/dispersions/gaussian.py:54-73", "src/elli/dispersions/tauc_lorentz.py:33-72", "src/elli/dispersions/tanguy.py:54-87", "src/elli/dispersions/drude_energy.py:32-36", "src/elli/dispersions/drude_resistivity.py:38-47", "src/elli/kkr/kkr.py:215-237 im2re_reciprocal"]}
{"id": "C92", "title": "A thick absorbing layer hides what is behind it", "statement": "If one isotropic absorbing layer of a stack is made thicker, the reflection Jones matrix of Solver4x4 converges exponentially, with the rate of the double pass through the layer, to that of the stack in which this layer is the exit half-space, and the transmission Jones matrix decays exactly like one pass through the layer.", "quantifier": "all passive stacks, any anisotropic passive layers before and behind, every isotropic layer material with positive imaginary part, all angles below 90 degrees, all wavelengths", "why_tests_cant": "It is an asymptotic statement with a rate for all stacks; a test fixes the stack and the thickness, and a growing wave in the wrong place shows up only for thick layers.", "anchors": ["src/elli/solver4x4.py:330-389 Solver4x4.calculate", "src/elli/solver4x4.py:100-117 PropagatorExpm", "src/elli/solver4x4.py:262-304 half-space transition matrices"]}
{"id": "C93", "title": "Stop bands and pass bands of a periodic stack", "statement": "If cos(K L) of the Bloch wave of a period of two lossless layers lies outside [-1, 1], adding periods makes the transmittance of this polarisation decay exponentially and the reflectance tend to one, whatever lossless layers surround the periods; inside the band the transmittance stays above a positive bound. N quarter-wave pairs with the thicknesses of get_qwp_thickness reflect like one interface to a medium of index n_s (n_1/n_2)^(2N).", "quantifier": "all numbers of periods, all thicknesses and real permittivities of the two layers above the total reflection limit, all lossless isotropic layers before and after, all angles below 90 degrees, both polarisations", "why_tests_cant": "It is a statement about all numbers of periods; a test fixes N and a stack, and the rate depends on the eigenvalues of the period.", "anchors": ["src/elli/solver4x4.py:330-389 Solver4x4.calculate", "src/elli/structure.py:53-144 RepeatedLayers", "src/elli/utils.py:181-192 get_qwp_thickness"]}
{"id": "C94", "title": "Single films and total reflection in closed form", "statement": "The reflection and transmission coefficients of a film on a substrate are Airy's sums of multiple reflections; beyond the critical angle the two reflection coefficients of an interface are the Fresnel phases, so rho has modulus one and the phase of the Fresnel rhomb.", "quantifier": "all passive isotropic film and substrate materials, all thicknesses, wavelengths and angles below 90 degrees (film wave vector not zero, no lossless surface plasmon for p); total reflection: all transparent media and angles beyond the critical one", "why_tests_cant": "It compares a matrix exponential and a matrix inverse with a closed formula including complex square root branches for all parameters.", "anchors": ["src/elli/solver4x4.py:330-389 Solver4x4.calculate", "src/elli/solver4x4.py:262-304 half-space transition matrices", "src/elli/solver4x4.py:100-117 PropagatorExpm"]}
{"id": "C95", "title": "Materials of NeXus files carry the sum of their dispersion groups", "statement": "Reading a NeXus dispersion file gives for every entry a material whose permittivity along each axis is the sum of what the formulas and tables stored for that axis mean, at every wavelength, in any order of the groups.", "quantifier": "all files: any number of entries, axes, groups, parameters and formulas, all wavelengths", "why_tests_cant": "The number and kind of groups, the formula language and the wavelengths are unbounded; tests read a handful of files.", "anchors": ["src/elli/importer/nexus.py:160-273 read_nexus_materials", "src/elli/dispersions/base_dispersion.py:181-233 addition of dispersions"]}
{"id": "C96", "title": "Imported wavelength axes are in nanometres and every measurement is kept", "statement": "A Woollam or NeXus measurement is imported with every ellipsometry line or array element as one row under its angle and its wavelength in nanometres, whatever unit the file states.", "quantifier": "all tables and arrays of any size, all stated units, all group names", "why_tests_cant": "Sizes, units and group names are unbounded; the example files of the tests are in nm and angstrom only.", "anchors": ["src/elli/importer/woollam.py:77-211 scale_to_nm, read_woollam_psi_delta", "src/elli/importer/nexus.py:47-142 read_nexus_psi_delta"]}
{"id": "C97", "title": "Formulas are read as they are written", "statement": "Every dispersion formula can be written as text with any blanks between its words, or none, and the text is read as that formula and no other; every identifier can be used as the name of a parameter.", "quantifier": "all formulas, all spellings with blanks and tabs, all identifiers and numerals", "why_tests_cant": "Formulas, blanks and names are unbounded; how text is cut into words depends on the parser state.", "anchors": ["src/elli/formula_parser/dispersion_function_grammar.lark:1-51", "src/elli/formula_parser/parser.py:162-185 parse_formula"]}
{"id": "C98", "title": "The pseudo dielectric dispersion of a bulk measurement is the sample's dielectric function", "statement": "PseudoDielectricFunction built from angle, wavelengths, psi and delta of a bulk isotropic sample in air returns the dielectric function of the sample at every wavelength of the table, interpolates between them, raises ValueError outside the table, and refuses tables of fewer than four rows, unequal columns or repeated wavelengths.", "quantifier": "all angles between 0 and 90 degrees, all tables, all complex permittivities other than 0 and 1, all polarisations with both components", "why_tests_cant": "The permittivity, the angle and the table are arbitrary.", "anchors": ["src/elli/dispersions/pseudo_dielectric.py:46-67 PseudoDielectricFunction", "src/elli/utils.py:calc_pseudo_diel"]}
{"id": "C99", "title": "Drawings of a structure show the index at every depth", "statement": "draw_structure shows at every depth the real part of the refractive index of the medium at that depth: incidence medium, layers in order with their thicknesses, exit medium; get_index_profile gives the index in the direction v.", "quantifier": "all structures with non-negative thicknesses, all margins, all depths in the drawn range, all unit vectors", "why_tests_cant": "Structures, depths and directions are unbounded, and a drawing has no value a test could compare.", "anchors": ["src/elli/plot/structure.py:17-63 get_permittivity_profile, get_index_profile, draw_structure", "src/elli/plot/structure.py:66-101"]}
{"id": "C100", "title": "Fit windows show the model at the current parameters in the chosen quantity", "statement": "A FitRho or FitMuellerMatrix window, after any sequence of typed values, fits, Undo, Redo, Set initial and changes of the selector (or of the residual check box), shows for the current parameters exactly the curves of the selected quantity: measured and modelled Psi/Delta, rho, pseudo dielectric function, or measured minus modelled, each under its name at the measured wavelengths; for Mueller matrices the 32 curves of the elements Mij in row i, column j of the grid. No such sequence raises an exception. A curve of residuals vanishes where the model reproduces the measured ratio.", "quantifier": "all measurements, models with one value per wavelength, parameter sets, boxes and finite sequences of events", "why_tests_cant": "The figures are built by notebook widgets; tests neither drive sequences of widget events nor compare the traces with the model for all parameters.", "anchors": ["src/elli/fitting/decorator.py:122-191", "src/elli/fitting/decorator_psi_delta.py:34-154", "src/elli/fitting/decorator_psi_delta.py:367-425", "src/elli/fitting/decorator_mmatrix.py:64-96", "src/elli/plot/mueller_matrix.py:32-107"]}
{"id": "C101", "title": "Number boxes of fit windows show and accept the parameter values", "statement": "The box of a parameter shows its value whenever it lies between the bounds of the parameter, replaces other numbers by the nearest allowed one, and a number typed into a box becomes the value of that parameter and of no other, after any sequence of events.", "quantifier": "all bounds (also infinite), values, windows and event sequences", "why_tests_cant": "Bounds and values are arbitrary numbers, and the boxes only act inside a notebook.", "anchors": ["src/elli/fitting/decorator_psi_delta.py:176-190", "src/elli/fitting/decorator_mmatrix.py:110-116", "src/elli/fitting/decorator.py:166-191"]}
{"id": "C102", "title": "get_model_data and to_csv give the model at the fitted or given parameters", "statement": "get_model_data returns, under names ending in fit or model, the modelled values at the fitted or the given parameters in the chosen representation, after the measured columns if wanted; another representation is refused with ValueError; to_csv writes that data.", "quantifier": "all measurements, models, parameters and arguments", "why_tests_cant": "A test of one call sees one frame; the claim is about all parameters, wavelengths, representations and both classes.", "anchors": ["src/elli/fitting/decorator.py:73-95", "src/elli/fitting/decorator_psi_delta.py:315-365", "src/elli/fitting/decorator_mmatrix.py:203-242"]}
{"id": "C103", "title": "A spectrum is its points", "statement": "Evaluating a structure or a material for an array of wavelengths gives, entry by entry, what it gives for each wavelength alone, bit by bit: the Jones matrices and the power correction of Solver4x4 (with each of the three propagators) and of Solver2x2, the tensors of materials and the slices of layers. No wavelength influences another one and no axis is mistaken for another one, also if the number of wavelengths equals the number of layers, 2, 3 or 4. The evaluation raises exactly if it raises for one of the wavelengths alone.", "quantifier": "all structures (with nested mixtures, rotated materials, inhomogeneous and repeated layers), angles, lists of wavelengths of any length, and all arithmetics (rounding, NaN and infinities included)", "why_tests_cant": "Tests use a few fixed numbers of wavelengths; a confused axis shows up only for particular lengths, and the numpy broadcasting rules accept many wrong shapes silently.", "anchors": ["src/elli/solver4x4.py:46-62", "src/elli/solver4x4.py:100-152", "src/elli/solver4x4.py:159-392", "src/elli/solver2x2.py:19-147", "src/elli/materials.py:53-115", "src/elli/materials.py:295-469", "src/elli/structure.py:124-392", "src/elli/structure.py:468-486"]}
{"id": "C104", "title": "The arrays of a spectrum contain the results for single wavelengths", "statement": "With exact numbers, the arrays returned by Solver4x4 and Solver2x2 for a list of wavelengths contain at position k the Jones matrices and power correction of the wavelength number k as described for one wavelength, so all laws proved for one wavelength hold for every entry of the arrays. If the permittivities can be computed, Solver2x2 never raises, and Solver4x4 raises exactly if for one of the wavelengths the matrix between incident and transmitted waves is singular or PropagatorEig meets a layer whose matrix of eigenvectors is singular.", "quantifier": "all structures, angles, lists of wavelengths, answers of the eigenvalue routine and branches of the arcsine", "why_tests_cant": "It relates the vectorised code to the physics for all lengths and all structures; a test compares a few spectra numerically.", "anchors": ["src/elli/solver4x4.py:159-392", "src/elli/solver2x2.py:19-147", "src/elli/materials.py:86-115", "src/elli/materials.py:330-469", "src/elli/structure.py:124-392", "src/elli/structure.py:468-486"]}
{"id": "C105", "title": "All quantities of a result are computed wavelength by wavelength", "statement": "Every data attribute of a Result (rho, psi, delta, R, T, their matrices, the Mueller matrix, the Jones matrices for linear and circular polarisation, in reflection and transmission) of a spectrum has a leading wavelength axis with one number, 2x2 or 4x4 matrix for each wavelength, and its entries are those of the results for the single wavelengths, bit by bit. With exact numbers they are the quantities defined for one wavelength under the same name; so for a passive structure a spectrum is returned for any wavelengths and R + T is at most one (one without absorption) at each of them.", "quantifier": "all structures, solvers, propagators, angles, lists of wavelengths, Jones vectors and delta ranges, and all arithmetics for the first part", "why_tests_cant": "Mixing of axes by einsum, reshape or broadcasting is silent for particular lengths of the spectrum; tests check single spectra.", "anchors": ["src/elli/result.py:57-342", "src/elli/result.py:344-368", "src/elli/result.py:413-440"]}
{"id": "C106", "title": "The Tanguy model depends continuously on the dimensionality", "statement": "The dielectric function of the Tanguy exciton model depends continuously on the dimensionality d for 1 < d <= 3: the special formulas used for d = 2 and d = 3 are the limits of the general formula, so a fit may vary d.", "quantifier": "all amplitudes, broadenings, binding energies, gaps with a positive lowest exciton energy, backgrounds, wavelengths and dimensionalities", "why_tests_cant": "The general formula is 0/0 at d = 2 and d = 3; a wrong constant in a special case is only seen by comparing limits.", "anchors": ["src/elli/dispersions/tanguy.py:55-97"]}
{"id": "C107", "title": "Exciton lines of the Tanguy model", "statement": "Below the gap and for vanishing broadening the Tanguy model has its resonances exactly at the exciton energies Eg - R/((d-1)/2 + m)^2, m = 0, 1, 2, ...: there the dielectric function grows without bound, and at all other energies below the gap it tends to a real number (no absorption).", "quantifier": "all amplitudes (not 0 for the resonances), binding energies, gaps with a positive lowest exciton energy, dimensionalities 1 < d <= 3, orders m, backgrounds and wavelengths", "why_tests_cant": "It is a statement about limits and about infinitely many lines; tests evaluate finitely many points at one broadening.", "anchors": ["src/elli/dispersions/tanguy.py:55-97"]}
{"id": "C108", "title": "Material files of SpectraRay", "statement": "TableSpectraRay(path).load_dispersion_table(file) loads a SpectraRay material file as a TableEpsilon with the tabulated dielectric function: files in wavelengths are used as they are, files in photon energies are converted to wavelengths, and files that are not in either unit are refused.", "quantifier": "all files (any header lines, any number of rows, both units, blank lines anywhere)", "why_tests_cant": "The file formats that a user may have cannot be enumerated; the repository ships no file with wavelengths, so this branch is never executed by a test.", "anchors": ["src/elli/dispersions/table_spectraray.py:13-66"]}
{"id": "C109", "title": "Integer wavelengths", "statement": "A dispersion evaluated at integer wavelengths (e.g. np.arange(400, 800)) gives the same values as at the same wavelengths as floats.", "quantifier": "all integer wavelengths, integer widths of 32 and 64 bits, all parameters of the Cauchy, power-law and Lorentz (wavelength) models", "why_tests_cant": "Overflow happens silently at particular wavelengths only and depends on the platform's default integer; tests use linspace.", "anchors": ["src/elli/experiment.py:141-150", "src/elli/dispersions/cauchy.py:35-46", "src/elli/dispersions/cauchy_custom.py:28-31", "src/elli/dispersions/polynomial.py:28-31", "src/elli/dispersions/lorentz_lambda.py:33-39", "src/elli/dispersions/base_dispersion.py:112-125"]}
{"id": "C110", "title": "Data frames of dispersions", "statement": "get_dielectric_df and get_refractive_index_df return one row per wavelength with the real and imaginary part of the dielectric function or of the refractive index there (negated imaginary part with conjugate=True); a TableEpsilon or Table made of such a frame reproduces it; without wavelengths a range is used in which the dispersion is defined.", "quantifier": "all dispersions (as functions of the wavelength with exceptions and missing values), all wavelength arrays, both conventions", "why_tests_cant": "The round trip must hold for all dispersions and wavelength arrays, in particular for unordered wavelengths and nodes at the ends of the table.", "anchors": ["src/elli/dispersions/base_dispersion.py:26", "src/elli/dispersions/base_dispersion.py:112-179", "src/elli/dispersions/table_epsilon.py:34-55", "src/elli/dispersions/table_index.py:35-54"]}
{"id": "C111", "title": "The dispersion factory", "statement": "DispersionFactory.get_dispersion(name, ...) gives the same as calling the dispersion class of that name, and raises ValueError for every other name, in particular for base classes and sums.", "quantifier": "all names and arguments", "why_tests_cant": "Tests can try a few names; the lookup goes through the attributes of a package, which also contains its submodules.", "anchors": ["src/elli/dispersions/base_dispersion.py:313-333", "src/elli/dispersions/__init__.py:2-23"]}
{"id": "C112", "title": "Thick absorbing layers and the range of double precision", "statement": "Layers of any thickness give finite results: a result that is finite is the exact one up to rounding, and making a layer thicker never turns the reflection coefficients into NaN.", "quantifier": "all stacks, thicknesses, angles and wavelengths, both solvers, any arcsine branch, any eigen decomposition", "why_tests_cant": "Whether intermediate numbers stay in range depends on all thicknesses, materials and wavelengths at once; tests use thin layers.", "anchors": ["src/elli/solver2x2.py:82-102", "src/elli/solver4x4.py:100-152", "src/elli/solver4x4.py:351-374"]}
{"id": "C113", "title": "Dispersions act on every wavelength separately", "statement": "get_dielectric(lbda) and get_refractive_index(lbda) accept a number or an array of wavelengths of any shape; the result has that shape, and each entry is what the call with that one wavelength gives, namely the documented formula of the class. If one wavelength raises, the call raises.", "quantifier": "all dispersion classes and their sums, all parameters and numbers of oscillators, arrays of any shape, any floating-point arithmetic (values: any arithmetic that is exact on complex numbers)", "why_tests_cant": "Tests evaluate a few classes on one array; broadcasting over all shapes, empty oscillator lists and sums is not covered by samples.", "anchors": ["src/elli/dispersions/base_dispersion.py:112-125", "src/elli/dispersions/base_dispersion.py:310-311", "src/elli/dispersions/base_dispersion.py:364-368", "src/elli/dispersions/base_dispersion.py:407-411", "src/elli/dispersions/tauc_lorentz.py:33-72", "src/elli/dispersions/tanguy.py:55-97", "src/elli/formula_parser/parser.py:71-72"]}
{"id": "C114", "title": "Mueller matrix files and files read as rho", "statement": "read_spectraray_mmatrix shows each number of the file at its wavelength under the label of its matrix element, so that a fit to the frame has a zero residual exactly when the model gives the matrices of the file; of a file with several angles it reads the first one, as documented. read_spectraray_rho and read_nexus_rho give for each angle and wavelength the ratio that satisfies the ellipsometric equation with the psi and delta written in the file.", "quantifier": "all files (any number of wavelengths, angles and header tokens, any values), all models", "why_tests_cant": "The columns are picked by counting from the end of the line, which depends on the number of words in the header, on the number of angles and on the cells pandas adds; the only test file has one angle and one header form. The ratio has to be right for every value and every range in which delta may be written.", "anchors": ["src/elli/importer/spectraray.py:70-129", "src/elli/importer/nexus.py:145-157", "src/elli/utils.py:87-105"]}
{"id": "C115", "title": "Psi and delta are the polarisation of the reflected light", "statement": "For every sample (with or without cross polarisation) and every incident polarisation, psi and delta are the angles of the polarisation ellipse of the reflected light: the intensities behind analysers are those of an ellipse with tan(psi) exp(-i delta) = E_p/E_s, the Mueller matrix of the same result applied to the incident Stokes vector gives that ellipse, and a rotating analyser sees the textbook signal. They depend only on the state of polarisation, not on amplitude and phase of the vector. The same holds for psi_t and delta_t and the transmitted light.", "quantifier": "all Jones matrices with r_ss different from zero, all incident Jones and Stokes vectors whose reflection has an s component, all delta ranges, all analyser angles", "why_tests_cant": "Tests compare psi and delta of isotropic samples in diagonal light with stored numbers; the sign conventions of Jones vector, Stokes vector, Mueller matrix and delta have to fit together for every sample, light and range.", "anchors": ["src/elli/result.py:57-132", "src/elli/result.py:222-235", "src/elli/experiment.py:65-131"]}
{"id": "C116", "title": "Stacks on anisotropic exit media never reflect more than the incident power", "statement": "If the exit medium is treated by the eigenvector route (transition_matrix_halfspace), Solver4x4 selects the two waves that leave the stack: the fields it puts into the exit medium never carry energy towards the stack, the matrix it inverts is not singular, and for either incident polarisation the reflectances R_ss + R_ps and R_sp + R_pp do not exceed one; if all layers are transparent and all waves of the exit medium evanescent they are one. Small rounding errors of the eigenvalues do not change this.", "quantifier": "all transparent front media, angles below 90 degrees, wavelengths, passive slices of any number and orientation, passive exit media, and all correct answers of np.linalg.eig with a non-vanishing normalisation", "why_tests_cant": "Tests compare a few anisotropic samples with stored numbers; which of the four waves is chosen depends on the order of complex numbers with zero imaginary parts, on orientation and angle, and goes wrong only in special regions of the parameters.", "anchors": ["src/elli/solver4x4.py:205-259", "src/elli/solver4x4.py:330-389", "src/elli/solver4x4.py:158-203"]}
{"id": "C117", "title": "Bare crystals reflect by the closed formulas of crystal optics", "statement": "For a bare exit medium handled by the eigenvector route whose tensor has the plane of incidence as a plane of symmetry, Solver4x4 returns a diagonal reflection matrix with r_s = (n c - q_s)/(n c + q_s) and r_p = (y c - b n)/(y c + b n), y = eps_zz q_p + k_x eps_zx, b = eps_zz - k_x^2, where q_s and q_p are the wave numbers of the waves running away: whatever eigenvectors np.linalg.eig returns. For axes along the coordinates q_s^2 = eps_y - k_x^2 and eps_z q_p^2 = eps_x (eps_z - k_x^2); p light is not reflected exactly when sin^2(theta) (eps_x eps_z - n^4) = eps_z (eps_x - n^2). An isotropic medium passed through this route reflects as by the route for isotropic media, under any layers.", "quantifier": "all front media, angles below 90 degrees, wavelengths, propagators, exit tensors with that symmetry (real or complex), and all answers of np.linalg.eig with a non-vanishing normalisation; for the last sentence any number of layers of any kind", "why_tests_cant": "A test compares single samples; the eigenvectors returned for degenerate wave numbers are arbitrary and the formulas have to hold for each choice, tensor and angle.", "anchors": ["src/elli/solver4x4.py:205-259", "src/elli/solver4x4.py:158-203", "src/elli/solver4x4.py:261-306", "src/elli/solver4x4.py:330-389"]}
{"id": "C118", "title": "Stacks of many thin layers act like a homogeneous crystal", "statement": "If the layers of a RepeatedLayers are made k times thinner and repeated k times, the reflection and transmission matrices of Solver4x4 approach, for k to infinity, those of one layer of the total thickness whose tensor connects the mean displacement with the mean field when the tangential field and the normal displacement are the same in all layers. This tensor is unique and passive if the layers are. For isotropic layers it is uniaxial with the axis across the layers, the mean of the permittivities as ordinary and the inverse of the mean inverse as extraordinary value, the latter never larger for positive permittivities.", "quantifier": "all passive samples with any layers of any orientation before, in and behind the repeated part, all angles below 90 degrees and wavelengths; the mean of 1/eps_zz over the period must not vanish", "why_tests_cant": "The statement is a limit over all repetition numbers and holds for every period; a test compares one stack with one number.", "anchors": ["src/elli/structure.py:76-144", "src/elli/solver4x4.py:158-203", "src/elli/solver4x4.py:330-389"]}
{"id": "C119", "title": "An experiment keeps what was set last", "statement": "An Experiment sees, for every sequence of set_structure, set_vector, set_theta and set_lbda, exactly the values given in the last call of each setter, and its Jones and Stokes vectors describe the same light. Structure.evaluate equals the evaluation of an Experiment with light polarised at 45 degrees.", "quantifier": "all sequences of setter calls with lists, numbers, None or arrays, interleaved with the caller making arrays and writing into arrays", "why_tests_cant": "the state depends on arbitrarily long call sequences and on which arrays caller and experiment share; tests look at single calls with fresh lists", "anchors": ["src/elli/experiment.py:36-150", "src/elli/structure.py:488-507", "src/elli/solver.py:29-35"]}
{"id": "C120", "title": "Solver2x2 warns about samples it does not treat", "statement": "Solver2x2 raises its warning for active media exactly for the media whose permittivity has a negative imaginary part at some wavelength, and its warning for n < 0, k > 0 exactly for media with such an index; samples outside its scope (anisotropic) do not get a wrong result silently. An isotropic sample without a warning gets the result of Solver4x4.", "quantifier": "all samples, any number of media and wavelengths", "why_tests_cant": "which branch fires depends on the quadrant of a square root for every permittivity; tests check single samples", "anchors": ["src/elli/solver2x2.py:35-114"]}
{"id": "C121", "title": "Choice of the matrix exponential", "statement": "PropagatorExpm uses PyTorch exactly when it is installed and requested or left automatic, SciPy when requested or when PyTorch is missing and the choice is automatic; it raises ImportError exactly for a requested but missing PyTorch and ValueError exactly for unknown names. The default propagator of Solver4x4 always exists, and every accepted choice gives the same results.", "quantifier": "all names, both states of the installation, all samples, angles and wavelengths", "why_tests_cant": "a test runs on one installation, and compares single samples", "anchors": ["src/elli/solver4x4.py:9-14", "src/elli/solver4x4.py:68-117", "src/elli/solver4x4.py:324-328"]}
{"id": "C122", "title": "Crystals symmetric to the plane of incidence act on s and p light separately", "statement": "If the optical axes of all layers lie along y or in the plane of incidence, s light is reflected and transmitted as by isotropic layers with the permittivity along y (Solver4x4, and Solver2x2 for these layers), and p light depends only on the tensor entries in the xz plane; at normal incidence as isotropic layers with eps_xx - eps_xz eps_zx / eps_zz.", "quantifier": "all passive stacks with any number of such layers, all angles below 90 degrees, wavelengths and thicknesses", "why_tests_cant": "an equality of matrix exponentials for all tensors of this form; a test compares one sample", "anchors": ["src/elli/solver4x4.py:159-203", "src/elli/solver4x4.py:330-389", "src/elli/solver2x2.py:35-114"]}
{"id": "C123", "title": "Drawings of Mueller matrices", "statement": "plot_mmatrix draws, for every frame and every column of the first frame, one curve of the values over the index with a name that tells the frame, the colour of the column and the dashes of the frame, in the grid at row i//4+1 and column i%4+1; full_scale sets the y range to [-1, 1]; it fails only for no frames, empty style lists, missing columns or more columns than the grid has places. FitMuellerMatrix.plot draws measured and fitted elements, plot_residual fitted minus measured, with the options of the call before those of the object.", "quantifier": "all lists of frames, columns, colours, dashes, names and options", "why_tests_cant": "the drawing loops over arbitrary numbers of frames and columns with cycling styles; tests look at one figure, if any", "anchors": ["src/elli/plot/mueller_matrix.py:32-107", "src/elli/fitting/decorator_mmatrix.py:244-312"]}
{"id": "C124", "title": "Printed dispersions", "statement": "What print() shows of a dispersion determines it: class, every parameter with its value and every oscillator can be read off the text, for sums the terms in order; two dispersions print alike only if they are the same.", "quantifier": "all dispersions, sums, parameter names and values, all number formats that tell numbers apart", "why_tests_cant": "Whether a text format is unambiguous is a statement about all pairs of dispersions of arbitrary length.", "anchors": ["src/elli/dispersions/base_dispersion.py:181-198", "src/elli/dispersions/base_dispersion.py:370-376", "src/elli/dispersions/base_dispersion.py:415-421"]}
{"id": "C125", "title": "Lists of results", "statement": "A ResultList holds exactly the appended results in order and len() counts them; row k of each attribute is the attribute of result k; its mean follows it. Other objects and other lists do not change it, and it can be copied and pickled.", "quantifier": "all programs that create and change results, lists and ResultLists; all attributes and array shapes; all recursion limits", "why_tests_cant": "It is a statement about all interleavings of operations on shared objects, and about recursion without end.", "anchors": ["src/elli/result.py:458-512", "src/elli/result.py:441-455"]}
{"id": "C126", "title": "Far from their resonances the oscillator models behave as the f-sum rule and their static values demand", "statement": "For light of shorter and shorter wavelength the dielectric function of any LorentzEnergy, LorentzLambda, Sellmeier, Gaussian or TaucLorentz model approaches its vacuum value (1 for the models that contain the vacuum, 0 for those to which EpsilonInf is added), and it does so like free electrons, as z - W/E^2. W is tied to the absorption at all photon energies by the f-sum rule W = 2/pi * integral of E Im eps(E) dE: the sum of the amplitudes for LorentzEnergy (any damping), amplitude times squared resonance energy for LorentzLambda, A E sigma / sqrt(pi ln 2) for Gaussian. For light of longer and longer wavelength the models approach the static values 1 + sum A/E^2 (LorentzEnergy), 1 + sum A (LorentzLambda, Sellmeier), n0 + i k0 (Cauchy), 1 + a/b + 2/pi * integral of Im eps(E)/E dE (Tanguy), and the Drude model grows without bound. The same sum rule should hold for the Drude models and Poles.", "quantifier": "for all lists of oscillators, all parameters in the stated ranges, all wavelengths in the limit, all values of the physical constants", "why_tests_cant": "Limits and integrals over all photon energies concern infinitely many wavelengths; a test samples a finite grid and cannot distinguish W/E^2 from a slower or faster decay.", "anchors": ["src/elli/dispersions/lorentz_energy.py:32-37", "src/elli/dispersions/lorentz_lambda.py:33-39", "src/elli/dispersions/sellmeier.py:30-34", "src/elli/dispersions/gaussian.py:54-73", "src/elli/dispersions/tauc_lorentz.py:33-72", "src/elli/dispersions/drude_energy.py:32-36", "src/elli/dispersions/drude_resistivity.py:38-47", "src/elli/dispersions/poles.py:31-35", "src/elli/dispersions/cauchy.py:35-46", "src/elli/dispersions/tanguy.py:54-87"]}
{"id": "C127", "title": "Light of any polarisation keeps its power, and lossless samples reflect the same from both sides", "statement": "For a stack of lossless layers (Hermitian tensors, any anisotropy) between transparent half spaces, Solver4x4 returns Jones matrices that conserve the power of every incident Jones vector: reflected plus transmitted power equals incident power; for absorbing layers it is never larger. Turning a lossless non-gyrotropic sample upside down (light from the other half space at the angle given by Snell's law) changes neither the set of reflectances over all polarisations nor the reflectance of unpolarised light; for isotropic layers the reflectances of s and p waves and the attribute R are separately equal. For absorbing samples this is not so.", "quantifier": "for all stacks of any number of passive (lossless) layers, all angles, wavelengths and incident Jones vectors", "why_tests_cant": "Tests check the two basis polarisations of a few stacks from one side; the claims quantify over all polarisations, all lossless stacks and both sides.", "anchors": ["src/elli/solver4x4.py:330-389", "src/elli/result.py:290-327"]}
{"id": "C128", "title": "Twisted layers are helices: exact optics along the axis, selective reflection, and handedness", "statement": "At normal incidence, with growing numbers of divisions, Solver4x4 for a structure of plain layers and TwistedLayers between an isotropic transparent and an isotropic passive half space converges to the exact solution for helical media: the tangential fields in front are the product of the de Vries matrices exp(-d (i k Delta - q J)) R(-q d) of the layers times the fields behind, and these are the amplitudes of Maxwell's equations in the continuously turning media. In a helix of a transparent biaxial material the waves are the roots of the de Vries quartic, and over half a turn of either sign some wave grows or decays exactly when the wavelength lies between the two in-plane indices times the pitch (selective reflection). Reversing the sign of every twist angle of a structure whose materials have an axis along y (also inside RepeatedLayers) exchanges left and right in Rc_matrix and Tc_matrix and keeps R_matrix and T_matrix, for every angle, wavelength and number of divisions.", "quantifier": "for all structures of plain, twisted (and, for handedness, varying and nested repeated) layers, all materials, thicknesses, twist angles and wavelengths; handedness for all angles of incidence", "why_tests_cant": "Tests compare one cholesteric spectrum with a stored one; the limit, the band edges and the exchange of handedness are statements over all twist angles, materials and divisions.", "anchors": ["src/elli/structure.py:259-317", "src/elli/solver4x4.py:330-389", "src/elli/result.py:260-288"]}
{"id": "C129", "title": "Averaged results and depolarisation", "statement": "The Mueller matrix of a single result is that of a sample which does not depolarise. An averaged result list stands for a sample of which equal areas have the structures of the results (for example a thickness inhomogeneity): its Mueller matrix is physically realisable, depolarises exactly if the results differ, and is the Mueller matrix of the mixture; psi, delta and rho of the average agree with it.", "quantifier": "all Jones matrices with r_ss ≠ 0, all incident Stokes vectors, all lists of two or more results over any number of wavelengths other than one", "why_tests_cant": "Realisability is a condition on all vectors and depolarisation an inequality over all lists of results; a test compares the averages of a few samples.", "anchors": ["src/elli/result.py:206-234", "src/elli/result.py:458-544"]}
{"id": "C130", "title": "Birefringent plates between polarisers", "statement": "At normal incidence a stack of crystal plates turned with set_rotation by an azimuth acts as the textbook retarder: its Jones matrices are those of the plates with their axes along x and y, turned; crossed polarisers let sin²(2φ)|a-b|²/4 pass; the total transmitted power follows Malus' law; circular light keeps its handedness with the mean amplitude at every azimuth and changes it with the phase 2φ; quarter-wave plates at 45° make circular light; plates of whole half waves mirror linear light at their axis without changing the reflection.", "quantifier": "all front, exit and plate dispersions (with absorption), all lists of plates and isotropic coatings, all azimuths, wavelengths and orders, any eigenvector routine", "why_tests_cant": "The laws hold for every azimuth and every layer sequence at once; tests compare single plates at a few angles.", "anchors": ["src/elli/materials.py:78-86", "src/elli/structure.py:468-486", "src/elli/solver4x4.py:330-369", "src/elli/result.py:275-288", "src/elli/result.py:308-324"]}
{"id": "C131", "title": "Ultra-thin films: Drude's law and what ellipsometry can tell about them", "statement": "For a layer sequence whose thicknesses are scaled by d, the reflection coefficients are differentiable at d = 0 with the textbook slopes. For isotropic films, rho changes to first order by Drude's formula, through the single sum of d_i (eb-e_i)(e_i-ea)/e_i; two film stacks are indistinguishable in rho to first order exactly when these sums agree. A transparent film on a transparent substrate leaves psi unchanged to first order and moves only delta; the pseudo-dielectric function starts at eb/ea and moves by Aspnes' formula.", "quantifier": "all front indices, angles below 90 degrees, wavelengths, lists of passive layers (in-plane symmetric tensors for the coefficients, isotropic for rho), absorbing substrates and incoming polarisations; any eigenvector routine", "why_tests_cant": "A first-order law is a statement about a limit of thicknesses for every layer sequence; a test evaluates one thickness and cannot separate the slope from rounding and higher orders.", "anchors": ["src/elli/solver4x4.py:330-369", "src/elli/result.py:58-118", "src/elli/utils.py:56-84", "src/elli/structure.py:147-203"]}
{"id": "C132", "title": "Accuracy of the slices of inhomogeneous layers", "statement": "With n divisions per inhomogeneous layer, the Jones matrices differ from those of the continuously varying sample (Maxwell's equations) by at most a constant times 1/n^2, because the slices are taken at their middles: doubling div divides the error by four. With PropagatorLinear the error is at most a constant times 1/n, and this order cannot be improved: a layer of the surrounding medium cut into n slices transmits exactly (1+phi^2/n^2)^(-n) instead of 1.", "quantifier": "all samples of plain layers, twisted layers, and mixtures with a twice continuously differentiable modulation (or any passive anisotropic layers with twice continuously differentiable permittivity), all angles below 90 degrees, wavelengths and refinements", "why_tests_cant": "An order of convergence is a statement about all n and about the distance to a solution of differential equations that no test has at hand.", "anchors": ["src/elli/structure.py:236-274", "src/elli/structure.py:305-317", "src/elli/structure.py:379-396", "src/elli/solver4x4.py:46-62", "src/elli/solver4x4.py:330-369"]}
{"id": "C133", "title": "Film thickness from one pair of ellipsometric angles", "statement": "For a film on a substrate, at most two thicknesses within one period lambda/(2 Re q) of the interference give a measured pair (Psi, Delta), and for an absorbing film at most two thicknesses altogether. Two are attained. The exceptions, where rho does not depend on the thickness at all, are exactly: normal incidence, a film of the material of the ambient or of the substrate, and a film between two equal media at its Brewster angle.", "quantifier": "all passive isotropic films and substrates, ambient indices, angles below 90 degrees, wavelengths, polarisation states with both components, measured pairs (Psi, Delta); films that absorb or are denser than the evanescence limit", "why_tests_cant": "Uniqueness quantifies over all thicknesses and all measured values; a fit run in a test finds one solution and says nothing about others.", "anchors": ["src/elli/solver4x4.py:330-369", "src/elli/result.py:58-132", "src/elli/utils.py:87-110"]}
{"id": "C134", "title": "Wrapping of delta in double precision", "statement": "Computed in double precision, a converted delta lies in the closed window [lower, lower + 360] and agrees with the exact formula up to multiples of 360 degrees and 3*2^-44 degrees. The documented half-open window and the invariance of angles already inside the window do not survive rounding: a delta of -2^-60 is converted to exactly 360 in the range (0, 360), and -90 + 2^-46 is converted to -90 in the default range. With lower end 0 angles inside the window are unchanged.", "quantifier": "all roundings to a nearest double (any tie rule), all accepted ranges, all deltas (accuracy: |delta| <= 1024 degrees)", "why_tests_cant": "The boundary is missed only by arguments within rounding distance of it, a set no sampled test hits; accuracy quantifies over all doubles.", "anchors": ["src/elli/utils.py:39-53", "src/elli/result.py:105-133"]}
{"id": "C135", "title": "Slices of inhomogeneous layers in double precision", "statement": "The slice positions of an inhomogeneous layer computed in double precision are div + 1 doubles in rising order, the first exactly 0 and the last exactly the thickness, each right up to 3*2^-53 of the thickness. The slice thicknesses are never negative, positive for up to 2^50 divisions, equal to the nominal thickness up to 7*2^-53 of the layer's, and add up to it within one relative rounding. Every midpoint lies in its own slice and the modulation function of a mixture layer only receives numbers from 0 to 1.", "quantifier": "all roundings to a nearest double, all double thicknesses not below div*2^-1022, all divisions from 1 to 2^53", "why_tests_cant": "Whether a rounded position can pass the end of the layer depends on every pair of thickness and division count; tests try a few.", "anchors": ["src/elli/structure.py:247-271", "src/elli/structure.py:378-398"]}
{"id": "C136", "title": "Unit conversions in double precision", "statement": "In double precision the conversions between wavelength, energy, frequency and wavenumber are right up to 4, 3, 1 and 1 relative roundings of 2^-53, going back and forth returns the value up to 5, 5, 3 and 3 of them, nothing overflows or underflows, and longer wavelengths never get larger energies, frequencies or wavenumbers. The round trip is not exact: 490 nm come back as 490 - 2^-44.", "quantifier": "all roundings to a nearest double, all constants between 2^-64 and 2^64, all values between 2^-400 and 2^400", "why_tests_cant": "Error bounds quantify over all doubles; approximate equality in a test fixes neither the bound nor the order.", "anchors": ["src/elli/utils.py:201-274"]}
{"id": "C137", "title": "Effective media keep to the bounds of the theory of composites", "statement": "For two transparent materials every mixture class returns a value between the harmonic and the arithmetic mean (Wiener). LooyengaEMA, MaxwellGarnettEMA and BruggemanEMA also stay between the two bounds of Hashin and Shtrikman; MaxwellGarnettEMA is exactly the bound with the host outside, while linear mixing (VCAMaterial) exceeds both. For weak contrast the three agree with each other and with h + f d - f(1-f) d^2/(3h) up to third order in d = g - h. A few inclusions act as single polarisable spheres in MaxwellGarnettEMA and BruggemanEMA. For absorbing constituents the phase of the mixture lies between the phases of the constituents, in all four classes.", "quantifier": "for all positive (respectively passive, non-zero) constituents, all fractions in [0, 1], all four classes where stated", "why_tests_cant": "The bounds are inequalities between rational and irrational functions of three continuous parameters that become sharp in limits; a test compares a few triples.", "anchors": ["src/elli/materials.py:330-334", "src/elli/materials.py:366-370", "src/elli/materials.py:401-418", "src/elli/materials.py:452-469"]}
{"id": "C138", "title": "Rounding errors of Solver2x2 stay within the conditioning of the stack", "statement": "Run in computer arithmetic, Solver2x2 returns coefficients that differ from the exact ones for the same indices, angles, thicknesses and wavelength by at most 4 e (1 + K) K' (reflection) and a relative 4 e (1 + K) (transmission). Here e is the unit roundoff times 12 Q + 15 for each interface and seven for each radian of phase, Q bounds the conditioning of the interfaces, and K, K' compare the product of the moduli of the factors with the transfer matrix. With 53 bits, up to 99 layers and a total phase of ten thousand, this is 2e-10 (1 + K) K'. A bare interface has K = 1; passive media with both terms in the first quadrant have Q = 2.", "quantifier": "for all stacks, indices, angles, thicknesses and wavelengths, all machines whose complex operations have a small relative error, both polarisations", "why_tests_cant": "A test compares two floating-point programs on a few stacks with a chosen tolerance; that the tolerance is right for every stack is a statement about every rounding in every loop step.", "anchors": ["src/elli/solver2x2.py:74-102", "src/elli/solver2x2.py:117-140"]}
{"id": "C139", "title": "Ellipsometric angles of a bulk sample", "statement": "For a sample without layers under a transparent medium, simulated with Solver4x4 at angles between 0 and 90 degrees: psi never exceeds 45, delta lies in [0, 180) or is reported as -180. Absorbing samples have 0 < psi < 45 and 0 < delta < 180, and delta passes 90 exactly where cos^2 |eps - n0^2 sin^2| = n0^2 sin^4. If Re eps <= 0 or n0^2 <= 3 Re eps there is exactly one such principal angle, delta is larger at all smaller angles and smaller at all larger ones; near eps = 0 there can be three. Transparent samples have delta = -180 (that is 180) below and 0 from Brewster's angle on, where psi is 0. In total reflection psi is 45 and delta is 2 arctan(cos sqrt(n0^2 sin^2 - nb^2) / (n0 sin^2)).", "quantifier": "for all passive permittivities other than zero and that of the front medium, all real front indices, angles strictly between 0 and 90, wavelengths, and linear light at 45 degrees of any amplitude", "why_tests_cant": "Signs and windows of delta for every material and the uniqueness of a root in a continuous range are not settled by comparing spectra of a few materials.", "anchors": ["src/elli/result.py:58-118", "src/elli/solver4x4.py:331-389"]}
{"id": "C140", "title": "Cody-Lorentz in double precision", "statement": "A CodyLorentz dispersion with positive parameters returns numbers, not NaN, at every wavelength it accepts (50 nm to 10 um), and in double precision gives what exact arithmetic gives. This fails for narrow Urbach tails: the tail is computed at all energies and multiplied by a step function afterwards, so at photon energies more than 710 Eu above Et the product is infinity times zero. As soon as this happens at 50 nm (24.8 eV), for instance with Et = 1.8 eV and Eu = 30 meV, the Kramers-Kronig sum on the internal grid turns the real part into NaN at every wavelength that is not an even node of that grid; with Eu = 20 meV at every wavelength. For tails of at least (E(50 nm) - Et)/600 nothing leaves the range of doubles.", "quantifier": "for all wavelengths between 50 nm and 10 um; failure: all parameters with Et >= 0, Eu > 0 and Et + 710 Eu below the photon energy at 50 nm; success: all parameters of ordinary size and tails of at least a six-hundredth of the distance", "why_tests_cant": "A test computes one parameter set, usually the template with Eu = 50 meV; the overflow threshold, and that it spoils the whole spectrum rather than the far ultraviolet, concern all parameters.", "anchors": ["src/elli/dispersions/cody_lorentz.py:49-79", "src/elli/kkr/kkr.py:52-67"]}
{"id": "C141", "title": "Errors in the amplitudes and rounding change psi and delta by a bounded amount", "statement": "If the reflected amplitudes p and s of two samples differ by at most a and b, psi differs by at most 90 sqrt(a^2+b^2)/sqrt(|p|^2+|s|^2) degrees, and delta by at most 90 (a/|p| + b/|s|) degrees: up to a whole turn for ranges other than (0, 180), without turns for (0, 180). Turns do occur for the default range, at any distance. In computer arithmetic psi and delta add a few roundoffs, times the cancellation in p and s. Through Solver2x2 and Result in double precision, with up to 99 layers and a total phase of ten thousand, the coefficients count with the errors of C138 and the angles add at most 1e-12 (psi) and 1e-11 (delta) degrees.", "quantifier": "for all Jones matrices with r_ss not zero, incoming light, delta ranges with a lower limit within 360 degrees (rounded delta), machines with small relative errors, and stacks within the bounds of C138", "why_tests_cant": "A test picks a tolerance for a few samples; how far an error in the amplitudes can move the angles, including next to the jump of delta and where p vanishes, is a statement about all pairs of samples.", "anchors": ["src/elli/result.py:58-118", "src/elli/result.py:147-148", "src/elli/solver2x2.py:117-140"]}
{"id": "C142", "title": "The refractiveindex.info catalog holds the pages, comments and wavelength ranges of its file", "statement": "Reading the catalog file gives one row per page, in file order, each with its own shelf and book and with the last divider before the book and before the page. A page name 'authors year: quantities range µm; comment' is split into exactly these parts, and the wavelength filter of search keeps the page for the wavelengths of its range, in nanometres. A name without a colon is kept as the comment and is found at no wavelength. get_reference and get_comment return the entry of the file of the only matching page. They raise KeyError exactly if that file has no such entry, and ValueError exactly if no page or more than one page matches.", "quantifier": "for all catalog files, page names, number readers and notions of a word character in which the dash of a range is none", "why_tests_cant": "The splitting rests on a backtracking regular expression with greedy and lazy groups; a test looks at a few names, while the claim is about which of all possible matches comes first for every name of the given form.", "anchors": ["src/elli/database/refractive_index_info.py:95-201", "src/elli/database/refractive_index_info.py:203-265", "src/elli/database/refractive_index_info.py:425-451"]}
{"id": "C143", "title": "Rounding errors of Solver4x4 stay within the conditioning of the stack", "statement": "With PropagatorExpm or PropagatorLinear the Jones matrices that Solver4x4 computes in floating point differ from the exact ones by at most the unit roundoff times a count that is linear in the number of layers and in their phases, times the conditioning: sizes of the entry matrix, the layer propagators, the exit matrix and the inverse of the transmission block. For layers with independent eigenwaves the size of a propagator is the conditioning of these waves times the growth of the fastest growing wave. With routines accurate to 1e-14, up to 99 layers and a total weighted phase of 10000 the error of the reflection matrix is at most 3.1e-9 (1+K) K for a conditioning K up to 2e8; no LinAlgError is raised.", "quantifier": "for all stacks, wavelengths, tangential wave vectors, machines with accurate operations, orders of summation, and exponentials that are exact for a nearby matrix", "why_tests_cant": "A test compares two rounded results for a few stacks; the claim bounds the distance to the exact value for every stack and shows what the error depends on.", "anchors": ["src/elli/solver4x4.py:46-117", "src/elli/solver4x4.py:150-200", "src/elli/solver4x4.py:270-304", "src/elli/solver4x4.py:330-374"]}
{"id": "C144", "title": "Normal dispersion in the transparent range", "statement": "Away from their resonances the dispersion models show normal dispersion: the real part of the index (Cauchy, CauchyUrbach with non-negative coefficients) or of the dielectric function (Sellmeier, LorentzEnergy, LorentzLambda, TaucLorentz, Poles with positive amplitudes) falls strictly as the wavelength grows. Sellmeier: in every interval without a resonance. Lorentz oscillators: in every interval further than gamma E0 from each resonance in the squared photon energy, and the opposite where all resonances are nearer. TaucLorentz: at all wavelengths beyond the gap, where it is real and positive. Where the dielectric function is real, positive and falls, so does the refractive index.", "quantifier": "all numbers of oscillators, all positive amplitudes, resonances and broadenings, all pairs of wavelengths of the interval", "why_tests_cant": "Monotonicity is a statement about every pair of wavelengths for every parameter set; a sampled curve shows neither the exact turning points nor the other parameters. For TaucLorentz the closed formula with logarithms and arctangents does not show it at all.", "anchors": ["src/elli/dispersions/cauchy.py:35-46", "src/elli/dispersions/cauchy_urbach.py:39-50", "src/elli/dispersions/sellmeier.py:30-34", "src/elli/dispersions/lorentz_energy.py:32-37", "src/elli/dispersions/lorentz_lambda.py:33-39", "src/elli/dispersions/tauc_lorentz.py:33-72", "src/elli/dispersions/drude_energy.py:32-36", "src/elli/dispersions/poles.py:31-35"]}
{"id": "C145", "title": "Errors in the layer data reach the results in proportion", "statement": "If the thicknesses or dielectric tensors of the layers handed to Solver4x4 (PropagatorExpm) are slightly wrong, the Jones matrices are wrong by at most an amount that is computed from the data alone: with e the sum over the layers of (2 pi / wavelength) times the change of thickness times delta matrix, weighted by the size of the layer's propagation matrix, and K the conditioning of the true stack, the reflected Jones matrix changes by at most 3 e (1 + K) K and the transmitted one by at most the fraction 2 e K, as soon as e <= 1/8 and 4 e K <= 1. For thicknesses alone e is explicit in |d' - d|, for isotropic layers in |d' - d| and |eps' - eps|. The general bound also allows changed halfspaces and angles. Every passive sample meets the conditions for all changes of the thicknesses below a positive limit.", "quantifier": "all stacks of arbitrary anisotropic layers whose matrix T_it is invertible, all numbers of layers, all wavelengths and angles, all changes of the data", "why_tests_cant": "A test compares two results for one change of one sample; the bound speaks about every sample and every change, and its constants come from the norms of the layer matrices.", "anchors": ["src/elli/solver4x4.py:100-117", "src/elli/solver4x4.py:155-215", "src/elli/solver4x4.py:330-389"]}
{"id": "C146", "title": "Set initial gives back the starting values", "statement": "Whatever sequence of edits, fits, Undo, Redo and Set initial a user of the fitting widgets goes through, pressing Set initial gives back exactly the parameter names and values the widget was started with, and an empty history. A ParamsHist object whose max_history_len is never set keeps 50 entries at most.", "quantifier": "all starting parameters, all finite sequences of actions, all values edited or fitted", "why_tests_cant": "The starting values would be lost by aliasing between parameter objects, which only particular sequences of actions show; the widgets are not tested.", "anchors": ["src/elli/fitting/decorator.py:122-177", "src/elli/fitting/decorator_psi_delta.py:391-401", "src/elli/fitting/params_hist.py:21-24"]}
{"id": "C147", "title": "Reflectance and psi against the angle of incidence", "statement": "For a bulk sample under a transparent front medium, R_matrix[1,1] (s-polarised light) grows strictly with the angle of incidence until total reflection sets in, and is exactly 1 from there on. If the sample is transparent too and the angle is below that of total reflection, R_matrix[0,0] (p-polarised light) and psi fall strictly until Brewster's angle arctan(n_b/n_f) and grow strictly after it. For every bulk sample, 1 - R of both polarisations is at most a constant times the cosine of the angle, so the sample becomes a mirror at grazing incidence.", "quantifier": "all passive isotropic bulk samples whose permittivity differs from 0 and from that of the front medium, all pairs of angles in [0, 90), all wavelengths", "why_tests_cant": "Monotonicity over a continuum of angles and permittivities; tests evaluate single angles and a sign or branch error may only show beyond the critical angle or for absorbing samples.", "anchors": ["src/elli/solver4x4.py:330-389", "src/elli/solver4x4.py:261-310", "src/elli/result.py:291-306", "src/elli/result.py:84-93"]}
{"id": "C148", "title": "Which samples Solver2x2 treats correctly", "statement": "For passive stacks of isotropic layers under a transparent front medium, Solver2x2 gives exactly the Jones matrices and power correction of Solver4x4 (so every law proved for that solver holds for it) whenever no layer is exactly at its critical angle, the exit medium is not at its critical angle or within 1e-20 of squared index beyond it, and no two neighbouring media are both lossless and beyond total reflection, except for two layers which are both dielectrics or both metals and a metal layer on a metal. In particular this holds at every angle when each layer and the exit medium either absorb or have at least the index of the front medium. The condition at the exit is needed: with a layer of the exit material beyond total reflection a denominator of the method vanishes.", "quantifier": "all passive isotropic stacks with any number of layers, all angles below 90 degrees, all wavelengths, any principal branch of the complex arcsine (either side of the cuts)", "why_tests_cant": "The conditions concern signs of square roots and the branch cut of the complex arcsine in every layer; tests compare the solvers for a handful of samples in air.", "anchors": ["src/elli/solver2x2.py:19-33", "src/elli/solver2x2.py:70-114", "src/elli/solver2x2.py:116-147"]}
{"id": "C149", "title": "The check boxes of the fit window say what a fit varies", "statement": "In the window of FitRho or FitMuellerMatrix the check box next to a parameter tells whether the fit varies it: at every moment a parameter has vary set exactly if its box is ticked, the fit button leaves the value of a parameter with an unticked box as it is, and Set initial brings back the starting values with the flags of the boxes.", "quantifier": "All ParamsHist objects with different names and an empty history, all sequences of ticking and unticking boxes, typed values, fits with any result, Undo, Redo and Set initial.", "why_tests_cant": "The flags live in objects that are copied to and taken back from the history, so whether they agree with the boxes depends on the whole sequence of events; there are unboundedly many.", "anchors": ["src/elli/fitting/decorator.py:118-120", "src/elli/fitting/decorator.py:122-191", "src/elli/fitting/params_hist.py:87-127", "src/elli/fitting/decorator_psi_delta.py:168-175", "src/elli/fitting/decorator_mmatrix.py:102-109"]}
{"id": "C150", "title": "Reflectance of a transparent film and its thickness", "statement": "For a transparent isotropic film of any thickness on a transparent substrate, below total reflection, R of Solver4x4 is for s and p light the classical thin-film formula in the admittances of the three media, and T = 1 - R. The film lowers the reflectance of the bare substrate exactly if its admittance lies strictly between those of its neighbours and its thickness is no multiple of half a wavelength; it raises it exactly if the admittance lies strictly outside and the thickness is no such multiple. R always lies between the value without film and the value of the quarter-wave film, and is strictly monotone in the thickness up to a quarter wave. If the admittance differs from both neighbours, two thicknesses give the same R exactly if their sum or difference is a multiple of half a wavelength. R = 0 exactly for an odd number of quarter waves with v^2 = uw, or between equal media if the film is matched or a multiple of half a wavelength. Two neighbouring wavelengths l2 < l1 at which a film of constant index has no effect determine its thickness as l1*l2/(2q(l1-l2)), q the normal component of its index.", "quantifier": "all indices and angles for which film and substrate carry propagating waves, both polarisations, all wavelengths and thicknesses", "why_tests_cant": "The statements compare infinitely many thicknesses and characterise exactly when equality or zero occurs; tests compare a few films with stored numbers.", "anchors": ["src/elli/solver4x4.py:330-389 Solver4x4.calculate", "src/elli/solver4x4.py:100-117 PropagatorExpm", "src/elli/result.py:299-325 Result.R_matrix, Result.T_matrix"]}
{"id": "C151", "title": "Light tunnels through a film beyond total reflection", "statement": "For a lossless isotropic film in which the light is evanescent (an air gap under a prism beyond the critical angle, or a lossless metal at any angle) on a transparent substrate, T of Solver4x4 is for s and p light the tunnelling formula in the admittances and the decay constant, and R = 1 - T. T is positive for every thickness and falls strictly with the thickness, so that the thickness follows from it. For thick films T falls off like exp(-4 pi kappa d / lambda) with the known prefactor, and R tends to 1.", "quantifier": "all indices, angles and permittivities (positive or negative) with an evanescent wave in the film and a propagating one in the substrate, both polarisations, all wavelengths and thicknesses", "why_tests_cant": "The statements compare all pairs of thicknesses and describe a limit; tests evaluate a few films of moderate thickness.", "anchors": ["src/elli/solver4x4.py:330-389 Solver4x4.calculate", "src/elli/solver4x4.py:100-117 PropagatorExpm", "src/elli/result.py:299-325 Result.R_matrix, Result.T_matrix"]}
{"id": "C152", "title": "What the reflectance of a bulk sample tells about its complex index", "statement": "For a bulk isotropic sample of index n + ik in a medium of index n0, R_s and R_p of Solver4x4 at normal incidence are both ((n-n0)^2+k^2)/((n+n0)^2+k^2). At equal n > 0 the sample with the larger k reflects more. Of two transparent samples with indices at or above n0 the one with the larger index reflects more, and two transparent indices give the same R exactly if they are equal or their product is n0^2. At any angle below 90 degrees a value R < 1 of R_s holds exactly for the normal wave vector components sqrt(eps - n0^2 sin^2 theta) on the circle with centre n0 cos(theta) (1+R)/(1-R) and radius 2 n0 cos(theta) sqrt(R)/(1-R), so one value never fixes n and k. The values of R at normal incidence in two different media determine n + ik if n > 0.", "quantifier": "all passive non-zero permittivities different from the medium, all media, wavelengths; the circle for all angles in [0, 90) and all R in [0, 1)", "why_tests_cant": "Equivalences and uniqueness over all complex indices; a test evaluates single samples.", "anchors": ["src/elli/solver4x4.py:330-389 Solver4x4.calculate", "src/elli/result.py:299-325 Result.R_matrix, Result.T_matrix"]}
{"id": "C153", "title": "The ellipsometric angles of a bulk sample fix its reflectance", "statement": "For a bulk isotropic sample, psi and delta of a result fix the absolute reflectances of the same result, whatever the indices of the sample and the medium: with t = tan(psi) and c = cos(2 theta), R_s = (t^2 + 2 c t cos(delta) + c^2)/(1 + 2 c t cos(delta) + c^2 t^2), R_p = t^2 R_s and R is their mean. At 45 degrees r_p = r_s^2, so R_p = R_s^2 and R_s = tan(psi)^2.", "quantifier": "all passive non-zero permittivities different from the medium, all media, wavelengths and angles of incidence between 0 and 90 degrees", "why_tests_cant": "A relation between three outputs for every material and angle; a test evaluates single samples.", "anchors": ["src/elli/result.py:58-121 Result.rho, Result.psi, Result.delta", "src/elli/result.py:299-325 Result.R_matrix", "src/elli/solver4x4.py:330-389 Solver4x4.calculate"]}
{"id": "C154", "title": "The fraction of a mixture can be read from its permittivity", "statement": "In each of the four mixture classes two different fractions of two different passive materials never give the same permittivity, so a fit of the fraction has one answer: the fraction is the way of the permittivity (VCAMaterial) or of its cube root (LooyengaEMA) from host to guest, the ratio of the polarisabilities of mixture and guest in the host (MaxwellGarnettEMA), or the ratio given by the polarisabilities of host and guest in the mixture (BruggemanEMA). The only exception is MaxwellGarnettEMA at the resonance e_g = -2 e_h of the inclusions, where the fraction has no effect. For transparent materials the permittivity moves strictly towards that of the guest with the fraction, and every value between host and guest belongs to exactly one fraction. Exchanging host and guest together with f and 1 - f changes nothing in three classes and always changes MaxwellGarnettEMA for transparent materials and 0 < f < 1. For a bulk sample of such a mixture one pair (psi, delta), at any angle between 0 and 90 degrees and one wavelength, determines the fraction.", "quantifier": "all passive non-zero constituents that differ, all fractions from 0 to 1, all wavelengths and places of the tensors", "why_tests_cant": "Injectivity over all fractions and complex permittivities, including the branches of cube and square roots; a test compares finitely many mixtures.", "anchors": ["src/elli/materials.py:305-469 VCAMaterial, LooyengaEMA, MaxwellGarnettEMA, BruggemanEMA", "src/elli/materials.py:241-302 MixtureMaterial", "src/elli/result.py:58-121 Result.rho, Result.psi, Result.delta"]}
{"id": "C155", "title": "Absorption edges of the Tauc-Lorentz and Cody-Lorentz models", "statement": "The absorption of CodyLorentz is continuous in the photon energy, also at Et where the tail is joined to the model; below Et, E*eps2 falls exponentially with the Urbach energy, E*eps2(E) = Et*eps2(Et)*exp((E-Et)/Eu), and above Et eps2 is the Cody edge times the Lorentz line. The real and imaginary part of TaucLorentz have no step and no divergence at the gap: the two logarithms that diverge there cancel, so that filling in one value (the code gives NaN exactly at the gap) makes the dielectric function continuous at all wavelengths. Above the gap the absorption begins by Tauc's law: E*eps2/(E-Eg)^2 tends to the sum of A E0 C/((Eg^2-E0^2)^2+C^2 Eg^2) over the oscillators.", "quantifier": "all gaps and energies, all amplitudes, all numbers of Tauc-Lorentz oscillators with 0 < C < 2E, all Cody-Lorentz parameters with Et > 0 and non-zero widths", "why_tests_cant": "Continuity and a limit at a point where the formula itself is undefined; a test evaluates near the edge and cannot tell a small step or a weak divergence.", "anchors": ["src/elli/dispersions/cody_lorentz.py:49-67 CodyLorentz.eps2", "src/elli/dispersions/tauc_lorentz.py:33-72 TaucLorentz"]}
{"id": "C156", "title": "Coatings of quarter-wave layers", "statement": "A structure whose layers all have the thickness get_qwp_thickness gives for their material, evaluated with either solver at normal incidence and the same wavelength, reflects like a single interface to a medium of index Y, where Y is the index of the substrate without layers and each layer in front turns Y into n^2/Y: the Jones matrix is diag(-r, r) with r = (n0-Y)/(n0+Y), R = r^2 and T = 4 n0 Y/(n0+Y)^2. So the reflection vanishes exactly if Y = n0 (one layer: n1^2 = n0 ns; two: n1^2 ns = n2^2 n0; three: n1 n3 = n2 sqrt(n0 ns)), two equal layers in a row anywhere in the coating change nothing, and each further pair with the higher index in front raises the reflectance once Y is at least n0.", "quantifier": "all numbers of layers, all positive indices of the layers, of the medium in front and of the substrate, all wavelengths", "why_tests_cant": "Any number of layers with any indices, exact zeros and strict inequalities; a test looks at one design.", "anchors": ["src/elli/utils.py:181-192 get_qwp_thickness", "src/elli/solver4x4.py Solver4x4.calculate", "src/elli/solver2x2.py Solver2x2.calculate", "src/elli/result.py Result.R"]}
{"id": "C157", "title": "The refractive index tensor of a material", "statement": "material.get_refractive_index(lbda) is the refractive index tensor: its square is the permittivity tensor of get_tensor, with n >= 0 (and k >= 0 for media that do not amplify) along the axes; for a rotated material it is the rotated index tensor. get_qwp_thickness(material, lbda) is a quarter of the wave in the material.", "quantifier": "all isotropic, uniaxial and biaxial materials, all rotation matrices, all wavelengths", "why_tests_cant": "All rotations and dielectric functions; existing tests only look at single entries of materials in standard orientation.", "anchors": ["src/elli/materials.py:53-62 Material.get_refractive_index", "src/elli/materials.py:86-115 SingleMaterial.get_tensor", "src/elli/utils.py:181-192 get_qwp_thickness"]}
{"id": "C158", "title": "Symmetric multilayers act like one layer", "statement": "At normal incidence a symmetric sequence of transparent layers (equal to its reverse) in its pass band can be replaced, at the wavelength considered, by one layer of some index and thickness without changing anything Solver4x4 returns, in every sample, whatever layers (crystals included) are in front and behind. The replacement with optical thickness below the wavelength is unique unless it is a half-wave layer; in the stop band no transparent layer does it. More generally two sequences of transparent layers that reflect and transmit s light alike in air can be exchanged for each other in every sample.", "quantifier": "all numbers of layers, indices and thicknesses, all surrounding stacks, all wavelengths", "why_tests_cant": "The equivalence quantifies over every sample that contains the layers and over every sequence length.", "anchors": ["src/elli/solver4x4.py Solver4x4.calculate", "src/elli/structure.py RepeatedLayers, Structure"]}
{"id": "C159", "title": "PropagatorEig can replace PropagatorExpm", "statement": "Solver4x4 with PropagatorEig gives the result of Solver4x4 with PropagatorExpm for every sample and angle. (True whenever the matrix of every layer has a basis of eigenvectors. Lossless crystals in any orientation have one as long as no wave in them is totally reflected or at its critical angle, so samples denser than the medium in front are treated alike at every angle. For crystals with axes along x, y and z, isotropic layers included, there is one exactly if kx^2 differs from eps_y and eps_z: at every angle if they absorb, otherwise at all but the critical angles. False at the critical angle of an isotropic layer, for example an air gap under a prism, and for some turned absorbing crystals even at normal incidence (Voigt waves): every matrix of eigenvectors is then singular and cannot be inverted as PropagatorEig does, while PropagatorExpm has no such restriction.)", "quantifier": "all samples, angles, wavelengths, all routines that return eigenvectors", "why_tests_cant": "The exceptional angles are single points which a test meets only if it aims at them, and the agreement elsewhere is over a continuum of samples.", "anchors": ["src/elli/solver4x4.py PropagatorEig.calculate_propagation", "src/elli/solver4x4.py Solver4x4.build_delta_matrix"]}
{"id": "C160", "title": "What PropagatorLinear does to the energy balance", "statement": "With PropagatorLinear, for transparent isotropic layers between transparent half spaces, the reflected power plus the transmitted power times the product over the layers of 1 + (2 pi d / wavelength)^2 (eps - kx^2) equals the incident power, for every polarisation, as long as this product is positive. Below the critical angles of the layers the sample therefore seems to absorb: no power is gained, and with every layer cut into N equal slices the missing part is at most the sum of the squared phases of the layers divided by N. Beyond a critical angle power is created: a gap of air between two prisms returns and transmits more light than was sent in.", "quantifier": "all numbers of layers and slices, thicknesses, permittivities, angles below 90 degrees, wavelengths and Jones vectors", "why_tests_cant": "The law is an identity over a continuum of samples of any length; tests can only compare single spectra within tolerances.", "anchors": ["src/elli/solver4x4.py PropagatorLinear.calculate_propagation", "src/elli/solver4x4.py Solver4x4.calculate"]}
{"id": "C161", "title": "Which orientations the rotation functions reach, and which of them look the same", "statement": "rotation_euler with p and r from 0 to 360 degrees and n from 0 to 180 degrees, as documented, reaches every orientation of a crystal, and unless the z axis stays on its line the three angles are unique. rotation_v_theta reaches every orientation with a unit axis and an angle from 0 to 180 degrees, and rotation_v with a vector no longer than pi; for angles strictly between 0 and 180 degrees axis and angle are unique. For a rotated UniaxialMaterial the tensor is eps_o 1 + (eps_e - eps_o) c c^T with c the image of the z axis, so two rotations give the same tensor exactly if they send the z axis to the same line, and the third Euler angle never matters. For a rotated BiaxialMaterial with three different permittivities two rotations give the same tensor exactly if they agree up to the signs of the axes, which leaves four orientations that no measurement can tell apart.", "quantifier": "all rotation matrices, angles, wavelengths and complex permittivities", "why_tests_cant": "Surjectivity and uniqueness over the whole group of rotations are statements about all matrices; tests only convert single triples of angles.", "anchors": ["src/elli/utils.py rotation_euler", "src/elli/utils.py rotation_v", "src/elli/utils.py rotation_v_theta", "src/elli/materials.py SingleMaterial.set_rotation", "src/elli/materials.py SingleMaterial.get_tensor"]}
{"id": "C162", "title": "The parameters of a dispersion can be read from its values", "statement": "Two Sellmeier dispersions with n and m terms that agree at n + m different wavelengths (none of them a resonance) agree at all, and have the same total amplitude at every resonance. The same holds for LorentzEnergy with oscillators below critical damping (0 < gamma < 2 E), where a resonance is the pair of E and gamma, and for LorentzLambda with 0 < gamma < 2 lambda_r. If no resonance is used twice and no amplitude is zero, the two dispersions then have the same oscillators up to their order. The six coefficients of Cauchy follow from the complex index at three wavelengths, the two parameters of DrudeEnergy (amplitude not zero) from one. Above critical damping Lorentz oscillators are not determined: those with (A, E, gamma) = (3, 2, 5) and (5, 6, 13) together equal the single one with (8, 3, 10) at all wavelengths. CauchyUrbach has one parameter too many: with D multiplied by exp(t/Eu) and Eg raised by t the index stays the same, so D and Eg cannot both be fitted.", "quantifier": "all numbers of oscillators, all amplitudes of either sign, all resonances and wavelengths", "why_tests_cant": "Uniqueness is a statement about all pairs of parameter sets of any size; tests compare single sets.", "anchors": ["src/elli/dispersions/sellmeier.py Sellmeier.dielectric_function", "src/elli/dispersions/lorentz_energy.py LorentzEnergy.dielectric_function", "src/elli/dispersions/cauchy.py Cauchy.refractive_index", "src/elli/dispersions/lorentz_lambda.py LorentzLambda.dielectric_function", "src/elli/dispersions/drude_energy.py DrudeEnergy.dielectric_function", "src/elli/dispersions/cauchy_urbach.py CauchyUrbach.refractive_index"]}
{"id": "C163", "title": "What a Mueller matrix tells about the sample", "statement": "For results with r_ss not zero, the entries of rho_matrix follow from mueller_matrix by r_pp/r_ss = (M33 + M44 + i (M34 - M43))/D, r_ps/r_ss = (M31 - M32 - i (M41 - M42))/D and r_sp/r_ss = (M13 - M23 + i (M14 - M24))/D with D = M11 - M12 - M21 + M22 > 0 (r_ps and r_sp the upper right and lower left entries of the Jones matrix). So two results have the same Mueller matrix exactly if their Jones matrices differ by a common complex factor, and then rho, psi, delta, psi_matrix and delta_matrix agree for every incident polarisation. The reflectance is not determined, because the Mueller matrix is normalised. Conversely a real 4x4 matrix is the mueller_matrix of a result with r_ss not zero exactly if its first entry is one, the squares of its entries add up to four, its coherency matrix is positive semidefinite (Cloude's condition) and D > 0. The mueller_matrix of an averaged result list is one of these exactly if the Jones matrices of all results agree up to complex factors. All reflected light is fully polarised, that from unpolarised light included, exactly if the determinant of the Jones matrix is zero, and unpolarised light stays unpolarised exactly if the Jones matrix is a multiple of a unitary matrix.", "quantifier": "all complex 2x2 reflection matrices with r_ss not zero, all incident polarisations and delta ranges, all real 4x4 matrices for the converse, all lists of two or more results over any number of wavelengths other than one", "why_tests_cant": "That nothing is lost is a statement about all pairs of Jones matrices; tests compare single matrices.", "anchors": ["src/elli/result.py Result.mueller_matrix", "src/elli/result.py Result.rho_matrix", "src/elli/result.py Result.psi", "src/elli/result.py Result.delta"]}
{"id": "C164", "title": "Symmetries of the sample seen in its Mueller matrix", "statement": "Reversing the angle of incidence or turning the sample (non-gyrotropic layers of any orientation between isotropic half spaces) by 180 degrees about its normal transposes mueller_matrix and changes the signs of the third row and column (the entry M33 keeps its sign); at normal incidence mueller_matrix has this symmetry itself. R_matrix and Rc_matrix are transposed too and R does not change, so that at normal incidence s and p light, and the two circular polarisations, are converted into each other with equal power. Mirroring the sample at the plane of incidence changes the signs of the two off-diagonal 2x2 blocks. Turning the sample by phi about its normal at normal incidence multiplies mueller_matrix from both sides with the rotation of the Stokes vector by 2 phi. Conversely the off-diagonal blocks vanish exactly if the sample has no cross polarisation, the matrix is symmetric up to the sign of the fourth component exactly if r_sp = r_ps, and up to the sign of the third component exactly if r_sp = -r_ps.", "quantifier": "all passive stacks of anisotropic layers with symmetric tensors, all angles, wavelengths and azimuths; the converses for all complex 2x2 reflection matrices; r_ss not zero wherever mueller_matrix is meant", "why_tests_cant": "The laws relate separate calculations for all samples; tests compare stored matrices of a few samples.", "anchors": ["src/elli/result.py Result.mueller_matrix", "src/elli/solver4x4.py Solver4x4.calculate", "src/elli/materials.py SingleMaterial.get_tensor", "src/elli/result.py Result.R_matrix", "src/elli/result.py Result.Rc_matrix", "src/elli/result.py Result.R"]}
