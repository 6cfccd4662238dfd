{
 "C01": [
  "proved",
  "Decision logic of DeltaRange stated outright. The documented TypeError as soon as either bound is not an int is refuted: DeltaRange(0, 360.0) is accepted (C01_type_error_documentation_refuted)."
 ],
 "C02": [
  "partial",
  "Refuted: the code shifts by 2*lower (convert_delta_range adds lower instead of subtracting it). C02_convert_same_angle_iff characterises exactly when the angle survives (lower a multiple of 180)."
 ],
 "C03": [
  "partial",
  "Refuted for windows whose lower end is not a multiple of 180, e.g. (-90, 270); exact factor and an iff are proved; holds for the default window."
 ],
 "C04": [
  "partial",
  "psi/delta windows proved; delta_matrix is refuted (it ignores the folding used by delta for windows of width 180)."
 ],
 "C05": [
  "proved",
  ""
 ],
 "C06": [
  "proved",
  ""
 ],
 "C07": [
  "proved",
  "Up to a global phase, the only freedom a Stokes vector leaves."
 ],
 "C08": [
  "partial",
  "Refuted: Stokes vectors with p = 0 (or a vanishing amplitude, as characterised by C08_finite_iff) divide by zero."
 ],
 "C09": [
  "proved",
  ""
 ],
 "C10": [
  "proved",
  ""
 ],
 "C11": [
  "proved",
  ""
 ],
 "C12": [
  "proved",
  "Default delta window; sign convention rho = tan(psi) exp(-i delta)."
 ],
 "C13": [
  "partial",
  "Refuted: no conversion from degrees and C = S = sin 2psi cos 2delta. C13_converter_partial covers the entries that are right."
 ],
 "C14": [
  "proved",
  ""
 ],
 "C15": [
  "proved",
  " C15_principal_axes states which permittivity acts along which axis, before and after a rotation."
 ],
 "C16": [
  "proved",
  "Includes that a second set_rotation replaces the first (rotations do not compose)."
 ],
 "C17": [
  "proved",
  ""
 ],
 "C18": [
  "proved",
  "rotation_v uses the matrix exponential; Rodrigues' formula is proved to equal it."
 ],
 "C19": [
  "proved",
  ""
 ],
 "C20": [
  "partial",
  "Proved for VCA and Looyenga. Refuted for Maxwell-Garnett (host entry 0, guest entry not 0, fraction 1 gives NaN) and Bruggeman (opposite-sign real permittivities pick the wrong root; a zero entry gives NaN); C20_limits_bruggeman_iff is the exact condition."
 ],
 "C21": [
  "proved",
  ""
 ],
 "C22": [
  "proved",
  ""
 ],
 "C23": [
  "proved",
  "Per tensor entry (the mixing rules act entrywise)."
 ],
 "C24": [
  "partial",
  "Holds for VCA only; refuted for the three non-linear rules, which mix tensor entries one by one."
 ],
 "C25": [
  "proved",
  "For before/after up to one period; larger values are silently capped (C25_before_capped_refuted) and count slices rather than layers (C25_before_counts_slices)."
 ],
 "C26": [
  "proved",
  "Thickness sum for arbitrarily nested layers without partial periods (C26_total_thickness); the slice thicknesses for every layer list, partial periods included (C26_heights)."
 ],
 "C27": [
  "proved",
  ""
 ],
 "C28": [
  "partial",
  "Proved for thickness other than 0; refuted for the accepted thickness 0, where 0/0 makes every slice NaN."
 ],
 "C29": [
  "partial",
  "Proved for thickness other than 0; refuted for the accepted thickness 0."
 ],
 "C30": [
  "partial",
  "Invariant over arbitrary call sequences, exact refusal conditions; NaN thickness is accepted (C30_nan_thickness_refuted)."
 ],
 "C31": [
  "partial",
  "Refuted: set_front_material accepts anisotropic materials. Only the Material type check holds."
 ],
 "C32": [
  "proved",
  "Solver4x4 and Solver2x2 give the solution of the interface conditions (Spec.InterfaceS/P), which is unique."
 ],
 "C33": [
  "proved",
  "4x4 for any anisotropic slice and any exit medium; 2x2 whenever neither calculation divides by zero."
 ],
 "C34": [
  "proved",
  "Exponential propagator (any material) and 2x2. C34_linear_refuted: the linear propagator is not multiplicative, by design."
 ],
 "C35": [
  "partial",
  "Proved for both solvers when the exit medium is an IsotropicMaterial (all layers anisotropic or not, total reflection included). C35_mixture_exit_refuted: for a lossless exit medium given as a mixture the 4x4 solver applies no power correction and R + T is 5/9 instead of 1; C35_exit_by_class: only the class of the exit material decides."
 ],
 "C36": [
  "proved",
  "R + T <= 1 for every incident polarisation, any passive anisotropic slices, isotropic half spaces."
 ],
 "C37": [
  "proved",
  "For every branch of the complex arcsine, away from zero denominators of the 2x2 method."
 ],
 "C38": [
  "proved",
  ""
 ],
 "C39": [
  "proved",
  "For any propagator, also at the level of structures containing RepeatedLayers."
 ],
 "C40": [
  "proved",
  ""
 ],
 "C41": [
  "partial",
  "Reflection is independent of the eigenvectors chosen when the normalisation constant is not zero; refuted for transmission (power depends on eigenvector phases) and for the no-op guard of a vanishing constant (NaN)."
 ],
 "C44": [
  "proved",
  "Both solvers, exponential and linear propagators."
 ],
 "C42": [
  "proved",
  "Proved for every front index n0 (result is eps/n0^2, because the formula assumes vacuum) and, for n0 = 1, exactly eps."
 ],
 "C43": [
  "proved",
  "Brewster (iff), total reflection for any lossless stack, half-wave layer in any stack, quarter-wave antireflection."
 ],
 "C45": [
  "proved",
  "Object memory model; deepcopy is modelled as copying every object to a fresh address with references shifted."
 ],
 "C46": [
  "proved",
  "Templates, positional and keyword arguments as lists; parameter values of any type."
 ],
 "C47": [
  "proved",
  "History of add calls by induction; permutation of the parameter sets leaves every repeated-parameter model unchanged."
 ],
 "C48": [
  "partial",
  "All documented identities between models proved except two that the code violates: the infrared pole of Poles has the opposite sign (C48_poles_refuted), and DrudeEnergy is not the zero-frequency limit of LorentzEnergy with the documented factors (C48_drude_limit_refuted, corrected form in C48_drude_limit_partial). A TaucLorentz model with Eg = 0 plus 1 is the LorentzEnergy model with amplitudes A*E, for every damping but the critical one (C48_tauc_no_gap)."
 ],
 "C49": [
  "partial",
  "Proved for Lorentz (both), Drude (both), Gaussian, Tauc-Lorentz with C < 2E away from the gap, and the complete Cody-Lorentz dispersion (value, wavelength range, sign of the imaginary part). Tauc-Lorentz with C > 2E or exactly at the gap violates the claim (refutations). Tanguy proved for all dimensionalities 1 < d <= 3, nonnegative amplitude, positive broadening and a lowest exciton of positive energy (C49_tanguy)."
 ],
 "C50": [
  "proved",
  "Memory model of dispersion objects, invariant over all histories; whole expressions over non-sum objects by induction. Where a sum object is mentioned several times see C51."
 ],
 "C51": [
  "partial",
  "Refuted for operands that are sums; the partial theorem says exactly which single object can change."
 ],
 "C52": [
  "partial",
  "The square relation holds for every object; as_index() raises InvalidParameters for TableEpsilon and PseudoDielectricFunction (refuted there)."
 ],
 "C53": [
  "proved",
  "Linear interpolation of complex data; scipy's interp1d is modelled from its documentation. Distinct wavelengths and at least two rows are assumed for values."
 ],
 "C54": [
  "partial",
  "Holds for TableEpsilon; Table + number always raises InvalidParameters (refuted)."
 ],
 "C55": [
  "proved",
  "Maclaurin sums over lists of points; linearity, parity, scaling and the reciprocal variant."
 ],
 "C56": [
  "partial",
  "Weight 2·Δ on every second point proved from the second point on; at the first point the weight is x0 - h (h the spacing seen there) instead of 2·Δ, so the sum differs (refuted for the first point)."
 ],
 "C57": [
  "partial",
  "Proved for every parsed formula whose names are known, without heaviside, and whose brackets mention the axis; construction and the length check proved. Refuted for brackets without the axis, heaviside and parameter sets added after construction."
 ],
 "C58": [
  "partial",
  "Unambiguity, left association, no chaining of ** and print/parse round trip proved for all token sequences. The usual precedence is refuted for signed numbers (-2**2 is read as (-2)**2). The lexer is the subject of C97."
 ],
 "C59": [
  "partial",
  "Element, whole-matrix, transmission, unknown, malformed and out-of-range names decided for every name; the documented direction of r_sp and the circular names are refuted (C59_direction_refuted, C59_circular_refuted)."
 ],
 "C60": [
  "partial",
  "Refuted: get always raises TypeError (C60_get_refuted)."
 ],
 "C61": [
  "partial",
  "Mean value and shape proved for at least two results and wavelengths; squeeze breaks one result or one wavelength (C61_one_result_refuted, C61_one_wavelength_refuted)."
 ],
 "C62": [
  "proved",
  "Length bound (C62_bound) and the exact content of the history for every sequence of operations whose objects exist, including revert, pop, clear_history, changes of the maximal length and operations that raise (C62_recent). C62_recent_values says the same in terms of stored values without revert; that revert makes later changes write through to an entry is the subject of C64."
 ],
 "C63": [
  "partial",
  "pop restores committed values; refuted for parameters added after the commit."
 ],
 "C64": [
  "partial",
  "Committed entries stay unchanged without revert; refuted with revert, which aliases the entry."
 ],
 "C65": [
  "partial",
  "revert restores the indexed entry; the documented index guard is refuted."
 ],
 "C73": [
  "partial",
  "One undo per edit and per fit; a second Undo after a fit does nothing, Set initial cannot be undone, Redo has one level and stays armed after a new edit (refuted)."
 ],
 "C74": [
  "partial",
  "Right after Fit the fitted parameters hold the values found; a later edit changes them too (C74_edit_refuted)."
 ],
 "C66": [
  "partial",
  "Residuals, cost, angle handling and Mueller labels as stated; labels are wrong for column orders other than SpectraRay order (refuted)."
 ],
 "C67": [
  "proved",
  "Formulas 1-5, tables, several entries and unknown types."
 ],
 "C75": [
  "partial",
  "All three options given works; leaving one out raises AttributeError (refuted)."
 ],
 "C68": [
  "partial",
  "Exact and approximate search, column and wavelength handling, loading proved. Refuted where numpy passes missing truth values on (a row with an empty cell in another searched column is lost) and for rows with empty shelf name."
 ],
 "C69": [
  "proved",
  "All conversions map to the same photon, are self-inverse on nonzero values and undefined at zero."
 ],
 "C70": [
  "partial",
  "The pattern matches exactly the numerals (C70_pattern), but it is searched anywhere in the text: true exactly when a digit occurs: all numerals are accepted, but so is every label with a digit (refuted)."
 ],
 "C71": [
  "partial",
  "Exact for distinct (angle, wavelength); repeated measurements are added (refuted)."
 ],
 "C72": [
  "partial",
  "Complete decision table; x and y without z gives KeyError (refuted)."
 ],
 "C76": [
  "partial",
  "Exact characterisation of what is read; refuted for CompleteEASE files whose first rows have negative delta and for files starting with the table."
 ],
 "C77": [
  "proved",
  "Header, stacking, sorting and delta window; the pandas operations are library assumptions."
 ],
 "C78": [
  "proved",
  "For every passive stack (PassiveStack: positive real front permittivity, isotropic exit medium, passive layers) with symmetric tensors, under PropagatorExpm. C78_every_structure: all stacks the package builds have symmetric tensors."
 ],
 "C79": [
  "proved",
  "The half turn holds for every propagator function, mirror and absence of cross polarisation for PropagatorExpm. Isotropic exit medium."
 ],
 "C80": [
  "proved",
  "PropagatorExpm, isotropic exit medium, non-zero front index."
 ],
 "C81": [
  "proved",
  "PropagatorExpm. C81_amplitudes holds for absorbing media too; C81_transmittance for transparent media without total reflection."
 ],
 "C82": [
  "proved",
  "PropagatorExpm, isotropic front and exit media; C82_beer_lambert at normal incidence."
 ],
 "C83": [
  "proved",
  "PropagatorExpm; the exit medium is isotropic (class IsotropicMaterial); the angle is below 90 degrees. The scattering problem is stated with curls in Spec/Maxwell.lean, independent of the solver matrices. For Solver2x2 the conditions of C37 apply."
 ],
 "C84": [
  "partial",
  "Cauchy, CauchyCustom, CauchyUrbach, Constant, EpsilonInf, DrudeEnergy, Poles, Polynomial, Sellmeier and SellmeierCustom compute the printed formula. LorentzEnergy (opposite sign of the sum), LorentzLambda (complex conjugate), DrudeResistivity and Gaussian (printed width) differ from the printed formula: refutations, with the formula actually computed as the partial theorem. PseudoDielectricFunction's printed formula lacks the square of the last factor (C84_pseudo_refuted)."
 ],
 "C85": [
  "proved",
  "Jones matrices converge to the amplitudes of the Maxwell solution of the continuously varying sample (Spec/Graded.lean) when the divisions grow; existence and uniqueness of that solution is part of the theorem. Plain, twisted and varying layers; RepeatedLayers are covered through the list form C85_slicing_converges. C85_plain_ok, C85_twisted_ok and C85_vca_ok show which layers meet the conditions."
 ],
 "C86": [
  "proved",
  "PropagatorLinear on k equal slices per layer tends to the Maxwell solution and to the PropagatorExpm result as k grows, for every passive layered or graded sample."
 ],
 "C87": [
  "proved",
  "jr, jt and the power factor are continuous in all parameters at every passive sample (critical angle included); entries are differentiable in thicknesses, tensors and wavelength for fixed half spaces and angle."
 ],
 "C88": [
  "partial",
  "False in general: R = (R_pp + R_ss)/2 leaves out the cross-polarised power. Exact condition proved (agreement iff no cross polarisation), counterexample: a half-wave plate at 45 degrees gives R = T = 0 although everything is transmitted; true for isotropic layers."
 ],
 "C89": [
  "partial",
  "Convergence to the principal value proved for all four transforms, of first order in the step for smooth spectra (C89_rate); the order is sharp because the two ends of the axis carry full weights (C89_rate_sharp). The formula in the docstring of im2re_reciprocal is refuted: it has x Im(x) where the code (correctly, for a wavelength axis) has Im(x)/x."
 ],
 "C90": [
  "partial",
  "The im2re half is proved for every response. The re2im half is false for every response: re2im and re2im_reciprocal give minus the imaginary part (the formula needs a minus sign)."
 ],
 "C91": [
  "partial",
  "Proved for Lorentz (energy and wavelength, all damping), Gaussian (dawsn taken as Dawson's integral), Tauc-Lorentz with C < 2E, Tauc-Lorentz without a gap for all C other than 2E, and Tanguy in every dimension 1 < d <= 3 with the bound state below the gap above zero (its background term a / (b - E**2) is real and is left out). CodyLorentz obtains its real part numerically from im2re_reciprocal, see C49 and C56. False for both Drude models: their real part has the wrong sign, the transform of their imaginary part is minus it. False for a Tauc-Lorentz oscillator with a gap and C > 2E: the real part is the transform of the documented absorption, but the complex arctangents add a second term to the imaginary part. At C = 2E the formula divides by zero at every wavelength."
 ],
 "C92": [
  "proved",
  "Exact arithmetic: the floating point overflow of the matrix exponential for very thick layers is not modelled."
 ],
 "C93": [
  "proved",
  "RepeatedLayers is reduced to the written-out list by C39."
 ],
 "C94": [
  "proved",
  ""
 ],
 "C95": [
  "partial",
  "Proved for every file the reader accepts, with an exact description of the accepted ones. Refuted: tables over energy raise TypeError, a formula without wavelength_identifier and energy_identifier raises KeyError, and whether two tables and a formula are accepted depends on the names of the groups."
 ],
 "C96": [
  "partial",
  "Proved for length units (Woollam) and angstrom (NeXus, both layouts). Refuted: axes in energy are multiplied by the conversion factor instead of inverted, the unit of NeXus wavelengths is ignored, a renamed sample group is not found."
 ],
 "C97": [
  "partial",
  "Proved for all formulas whose names do not begin with the name of a function or constant. Refuted exactly for the others: FUNC and BUILTIN have priority and no word boundary, so c1, height, pix or since are never accepted, and a parameter called like a constant is read as the constant."
 ],
 "C98": [
  "proved",
  "scipy's cubic spline is any interpolation through the nodes. The whole chain is covered: 4x4 solver, psi and delta, calc_rho, calc_pseudo_diel, table."
 ],
 "C99": [
  "partial",
  "Drawings proved for both methods, before clipping: the graph then cuts its axis at index 1, so that media of smaller real index run outside the axes. The index profile is right for the default direction x; refuted for all others, even in isotropic media: the elementwise product gives sqrt(v_x^2 eps_xx), that is n|v_x| instead of n."
 ],
 "C100": [
  "partial",
  "Proved for all event sequences (C100_psi_delta, C100_mueller) and for FitRho.plot and FitRho.plot_rho (C100_plot, C100_plot_rho). Refuted part: the residual of delta is 360 degrees although the ratio is reproduced, when the measured delta lies in 180..360 and the model uses -180..180 (C100_delta_residual_refuted). FitRho shows measured minus modelled, FitMuellerMatrix modelled minus measured. Plain lmfit Parameters (where the fit button raises AttributeError) are outside the model."
 ],
 "C101": [
  "partial",
  "Proved for FitMuellerMatrix (C101_mueller_box, C101_mueller_window) and for FitRho parameters with a lower bound (C101_rho_box_partial, C101_rho_window). False for every FitRho parameter without a lower bound: sys.float_info.min is the smallest positive number, so zero and negative values are shown and read as 2^-1022, and with an upper bound that is not positive the window cannot be made (C101_lower_bound_refuted)."
 ],
 "C102": [
  "partial",
  "Proved for FitRho.get_model_data (C102_rho_data) and for both methods of FitMuellerMatrix (C102_mueller_csv). FitRho.to_csv raises ValueError for all arguments, because append_exp_data is handed over in the place of repr (C102_rho_csv_refuted)."
 ],
 "C103": [
  "proved",
  "Arrays with shapes, broadcasting, indexing, einsum, moveaxis, sorting and masked assignment are modelled over an arbitrary arithmetic (a type with the operations used by the code, about which nothing is assumed). That dispersions are elementwise (constant ones return a number) is proved for all classes except formulas in C113_array_solver. Assumed: numpy.linalg acts on each matrix by itself, and all arrays are complex (scimath functions choose the type of a real array by looking at all its entries)."
 ],
 "C104": [
  "proved",
  "Refinement between the two models: arrays (Model/ArraySolver.lean with the exact arithmetic of Model/ArrayExact.lean) and one wavelength (Model/Solver.lean, Materials.lean, Structure.lean). It is stated at wavelengths where no tensor contains NaN. The thicknesses, rotation matrices and fractions of slices are those of Model/Structure.lean."
 ],
 "C105": [
  "proved",
  "The array expressions of result.py over an arbitrary arithmetic. For the part with any arithmetic np.linalg.inv must invert the three constant matrices (with exact numbers they are proved invertible). Division by zero (no reflection of s light) is NaN in the code and 0 in the exact arithmetic, as in Model/Result.lean."
 ],
 "C106": [
  "partial",
  "Proved for all d except 2 (C106_continuous_partial). At d = 2 the code violates it: the general formula tends to the exciton term divided by pi (C106_limit_two), so the value jumps at d = 2 at all sufficiently short wavelengths, whatever the parameters (C106_two_refuted)."
 ],
 "C107": [
  "proved",
  "Both directions: C107_resonance and C107_transparent."
 ],
 "C108": [
  "partial",
  "Proved for well-formed files in photon energies (C108_energy_partial, C108_value). The code violates the rest: every file in wavelengths raises ValueError because a column name is given to iloc (C108_wavelength_refuted); 'Units=Wavelength' without a comma is read as energies (C108_no_comma_refuted); a blank line inside the array is a TypeError (C108_blank_refuted); a file whose array comes before the units line is an UnboundLocalError (C108_units_first_refuted)."
 ],
 "C109": [
  "partial",
  "Proved where the powers fit into the integer type (C109_cauchy_partial, C109_powers_partial, C109_lorentz_partial) and for floats (C109_float). The code violates it beyond: the fourth power in the Cauchy model wraps from 216 nm (32 bits) or 55109 nm (64 bits) on (C109_cauchy_wrong_refuted, C109_cauchy_widths), is 0 at multiples of 256 nm with 32 bits (NaN or infinity, C109_cauchy_nan_refuted), and a negative integer exponent raises ValueError (C109_negative_exponent_refuted)."
 ],
 "C110": [
  "partial",
  "Rows, exceptions, conjugation, both round trips and the default range of single dispersions are proved. The code violates the last part for sums: the sum of a table that does not cover 200 to 1000 nm and anything raises an exception without wavelengths, because sums do not take over the range of their parts (C110_sum_default_refuted)."
 ],
 "C111": [
  "partial",
  "Proved for all models (C111_models) and all names that are no attribute of the package (C111_others_partial). The code violates the rest: names of submodules such as 'cauchy' raise TypeError and 'TableSpectraRay' gives an object that is not a dispersion (C111_others_refuted)."
 ],
 "C112": [
  "partial",
  "The range of doubles is modelled, rounding is not. Proved: finite results are exact (C112_range_2x2, C112_range_4x4), and Solver2x2 is finite and exact as long as a product of sizes over the layers stays below 2^1024 (C112_finite_2x2, C112_finite_passive_2x2), likewise Solver4x4 with PropagatorExpm for any symmetry (C112_finite_4x4, C112_transmission_4x4). The code violates the rest: an absorbing layer with 2 pi d Im(kz)/lbda above 711 (ten micrometres of a metal at 500 nm) makes the reflection coefficients of both solvers NaN, with expm and with the eigen propagator, although the exact reflection converges to that of the bare absorber (C112_thick_layer_refuted)."
 ],
 "C113": [
  "partial",
  "Proved for every class and sum: entry by entry evaluation with the exact description of the shape (C113_point_by_point), entries equal to the formulas of Model/Dispersion.lean and Model/Tanguy.lean (C113_values, C113_sums), and the assumption about dispersions made by the array solver of C103 and C104 (C113_array_solver). Two parts of the claim are violated by the code: constants and dispersions without oscillators return one number for an array (C113_shape_refuted), and formulas raise TypeError for a number (C113_formula_number_refuted)."
 ],
 "C114": [
  "partial",
  "Full statement: every file shows the matrix of its first angle under the right labels. Proved for one angle and the header written by SpectraRay (two words before the tokens of the columns), with the consequence for fits. False otherwise: with several angles the last one is read (C114_first_angle_refuted), with one header token for each column a file with one angle is refused and one with two angles is read shifted by one element (C114_plain_header_refuted). The readers of rho are proved in full for the files C77 and C96 cover."
 ],
 "C115": [
  "partial",
  "Proved for all delta ranges that start at a multiple of 180 degrees, including the default; for (0, 180) without the handedness (C115_folded). False for other ranges because delta is shifted by twice the lower bound (C115_range_refuted, the cause is that of C02 and C03). Partially polarised light: the angles are those of its polarised part (C115_stokes)."
 ],
 "C116": [
  "partial",
  "Proved for passive exit media in which no wave is totally reflected, for absorbing media, and for transparent ones with an evanescent wave and no coinciding undamped waves; every transparent uniaxial crystal off its critical angles is of this kind (C116_uniaxial). False for biaxial crystals near their critical angle: C116_biaxial_refuted gives a transparent crystal where both selected waves are p waves and the matrix is singular. Not robust against rounding for transparent media (C116_rounding_refuted): the code sorts by Im first, so arbitrarily small imaginary parts of the eigenvalues select backward waves; damped media are robust (C116_rounding_damped). False also for lossless media with a negative principal value (C116_hyperbolic_refuted): the reflectance exceeds one."
 ],
 "C117": [
  "proved",
  "The wave numbers are assumed to be separated as the code sorts them (first decay, then real part); C116 states for which media this selects the waves running away."
 ],
 "C118": [
  "proved",
  "Exact arithmetic, matrix exponential as propagator."
 ],
 "C119": [
  "partial",
  "Proved for all programs in which the caller does not write into an array the experiment currently holds. The unrestricted claim is false: set_vector and set_lbda store the array passed without a copy, so writing into it changes the experiment and leaves the other vector stale (C119_alias_refuted)."
 ],
 "C120": [
  "partial",
  "Proved: exactly one active-medium warning per medium with negative imaginary part, no other warning, and silent isotropic samples agree with Solver4x4. False: the second warning can never fire, a medium with n < 0 and k > 0 is reported as active (C120_negative_index_refuted); anisotropic samples are treated as isotropic without a warning (C120_anisotropic_refuted)."
 ],
 "C121": [
  "proved",
  "Assumes that torch.linalg.matrix_exp and scipy.linalg.expm both compute the matrix exponential."
 ],
 "C122": [
  "proved",
  "Exact arithmetic, matrix exponential as propagator, isotropic exit medium."
 ],
 "C123": [
  "partial",
  "Proved as stated except: full_scale has no effect in a single plot (C123_full_scale_refuted); with the standard names the third frame carries the names of the first (C123_names_refuted)."
 ],
 "C124": [
  "partial",
  "The printed text determines class, parameters, oscillators and the order of the terms, for every number format that tells numbers apart (C124_determines_partial), and every parameter appears as `name = value` (C124_every_parameter_partial). The code violates the claim: as_index() of a sum prints no term at all (C124_as_index_refuted), and interpolation kind of tables, formula, axis and unit of formula dispersions are not printed (C124_other_refuted). Arrays as parameter values (tables, pseudo dielectric functions) are outside of the number format: numpy abbreviates them."
 ],
 "C125": [
  "partial",
  "C125_appended_partial (any program without a second name for the list), C125_rows_partial (two or more results) and C125_mean_follows are proved. The code violates the rest: a list given to the constructor stays shared (C125_shared_refuted), as_delta_range changes results already in a list (C125_delta_range_refuted), with one result the rows are wavelengths (C125_one_result_refuted), and no ResultList can be copied or unpickled because __getattr__ recurses before `results` exists (C125_copy_refuted)."
 ],
 "C126": [
  "partial",
  "Proved for any number of Lorentz oscillators (both kinds, all damping regimes), Sellmeier terms (no absorption: the approach to vacuum only), Gaussian oscillators (dawsn being Dawson's integral) and Tauc-Lorentz oscillators below critical damping, or without a gap and not at critical damping (there with the closed values W = sum A E and static value sum A/E). False for the Drude models: their absorption sums to A but they approach the limit as -A, so the real part has the wrong sign (see C91). False for Poles: the infrared pole enters with the opposite sign. Tanguy approaches vacuum and its real static value obeys the sum rule 2/pi integral Im eps / E; its absorption falls off too slowly for an f-sum. CodyLorentz is not covered; Tauc-Lorentz above critical damping gains a spurious imaginary part (C91)."
 ],
 "C127": [
  "proved",
  "C127_every_polarisation and C127_no_gain give the balance for every Jones vector; C127_both_sides, C127_unpolarised and C127_isotropic compare the two sides; C127_absorbing_refuted shows that the lossless hypothesis is needed."
 ],
 "C128": [
  "proved",
  "C128_helix is the limit (with the Maxwell problem of C85), C128_modes the dispersion relation, C128_band the band of selective reflection, C128_handedness the mirror symmetry of whole structures."
 ],
 "C129": [
  "partial",
  "C129_single: Σ M² = 4, Cloude's condition, polarised light stays polarised, for every Jones matrix. C129_mean_partial: the mean of the Mueller matrices has M00 = 1, meets Cloude's condition, maps light to light, Σ M² ≤ 4 with equality exactly if all results have the same Mueller matrix, and is the matrix of the mixture if all reflect the same power. C129_two: for two results it is the matrix of the mixture exactly if the reflected powers or the Mueller matrices are equal. C129_mixture_refuted: the matrices are normalised before averaging, so it is not in general. C129_delta_refuted: psi, delta, rho are averaged as numbers and contradict the averaged Mueller matrix."
 ],
 "C130": [
  "proved",
  "The structures are built with set_rotation and evaluated by the model of Structure. C130_polarisers also states what the attribute T gives: it leaves out the crossed terms (see C88), so it is smaller by T_ps than that of the unturned plates."
 ],
 "C131": [
  "proved",
  "C131_coefficients, C131_drude, C131_indistinguishable, C131_transparent and C131_pseudo use the matrix-exponential propagator. The pseudo-dielectric function is in units of the front permittivity, as the code computes it (eb/n0^2 at d = 0). Brewster's angle is left out of C131_transparent because psi is not differentiable there."
 ],
 "C132": [
  "proved",
  "C132_second_order (any passive layers), C132_structures (structure objects with set_divisions), C132_smooth (which layers meet the hypothesis), C132_linear_first_order, C132_linear_sharp (exact values for a matched layer, n times the missing power tends to phi^2)."
 ],
 "C133": [
  "proved",
  "C133_period, C133_absorbing (at most two thicknesses), C133_blind (the exceptional samples, as an equivalence), C133_two_attained."
 ],
 "C134": [
  "partial",
  "C134_closed_window and C134_accuracy are proved; the half-open window (C134_open_window_refuted) and the invariance inside the window (C134_fixed_refuted) are false for the code in double precision; C134_fixed_partial keeps the ranges that start at 0."
 ],
 "C135": [
  "proved",
  "C135_slices, C135_positions, C135_thicknesses, C135_each_thickness, C135_midpoints."
 ],
 "C136": [
  "proved",
  "C136_wavelength_energy, _round_trip, C136_wavelength_frequency, C136_wavelength_wavenumber, C136_energy_frequency, C136_monotone, C136_exact_round_trip_refuted (why the round trip is stated with a tolerance)."
 ],
 "C137": [
  "proved",
  "Entry by entry, as the classes compute; the bounds are about transparent isotropic constituents. The phase theorem takes constituents with Im >= 0 that are not zero and a result that is not zero (a result of zero has no phase)."
 ],
 "C138": [
  "proved",
  "Starts from the arrays n_list and th_list as the code has them (their own rounding is not followed). Overflow and underflow are excluded (C112 treats overflow). Sums and products of complex numbers follow numpy; quotient, cosine and exponential are taken to have a relative error of the same order, as the hypothesis Accurate says."
 ],
 "C139": [
  "proved",
  "Exact arithmetic, the default delta range (-180, 180). The incident light is (a, a) with a not zero, which every default experiment has (default_jones)."
 ],
 "C140": [
  "partial",
  "The code returns NaN for narrow tails (C140_narrow_tail_refuted, C140_absorption_refuted); C140_wide_tail_partial covers wide tails. Tails between 1/710 and 1/600 of the distance are left open: there it depends on the other parameters. Only the range of doubles and the IEEE rules for infinities and NaN are modelled, not the rounding."
 ],
 "C141": [
  "proved",
  "C141_psi, C141_delta and C141_delta_folded are about exact arithmetic, so a and b may come from anywhere (noise, other models). C141_rounded_delta and C141_double leave out the range (0, 180). The angle of a number next to the negative real axis may be rounded to either side, hence up to a turn. Overflow and underflow are excluded, as in C138; arctan, rad2deg, angle and mod are taken to have a small relative error, as the hypothesis AccurateAngles says; C141_machine shows that rounding every result meets it."
 ],
 "C142": [
  "partial",
  "Two kinds of names are kept with a wrong range: of a name listing separate ranges for n and k only the last range is kept (C142_two_ranges_refuted), so the filter leaves out wavelengths listed for n (C142_filter_refuted); a single wavelength with decimals is split at the point, '10.6 µm' becomes 10 µm to 6 µm (C142_single_refuted), a range that covers nothing. C142_name therefore asks for one dash range in front of the last 'µm'. Only ASCII digits count as digits; word characters, pd.to_numeric and path joining are parameters; the YAML reader and yaml tags are not modelled."
 ],
 "C143": [
  "proved",
  "k_x, n_x, cos_phi and the exit matrix of an anisotropic half-space are taken as the numbers the code has at that point, so their own errors are not included. expm is assumed exact for a matrix within a relative distance eta of its argument, inv to leave a residual A X - 1 of at most theta |A| |X| for A with theta |A| |A^-1| below one, sums of products to be accurate in some order; C143_machine shows that rounding every real operation meets the conditions. PropagatorEig, overflow and underflow are not covered."
 ],
 "C144": [
  "partial",
  "Fails for the models whose sign is wrong: DrudeEnergy and DrudeResistivity rise with the wavelength everywhere (C144_drude_refuted, C144_drude_resistivity_refuted), and so does the infrared pole of Poles (C144_poles_refuted); Poles falls when that amplitude is not positive (C144_poles_partial). TaucLorentz below critical damping (C < 2E). Gaussian, Tanguy and CodyLorentz absorb at all energies or are computed numerically and are not covered; exact real arithmetic."
 ],
 "C145": [
  "proved",
  "Norm: largest sum of a row. Exact arithmetic; the rounding errors of the same calculation are C143."
 ],
 "C146": [
  "proved",
  "Values; the checkbox for vary changes the initial parameters on purpose (decorator.py:118-120) and is not one of the actions."
 ],
 "C147": [
  "proved",
  "Exact arithmetic, Solver4x4 with isotropic half spaces and no layers (BulkSample); psi for 0 < angle."
 ],
 "C148": [
  "proved",
  "Exact arithmetic. C148_exit_layer shows that the condition at the exit cannot be dropped; in double precision the two cosines differ by rounding and the quotient is large instead of infinite, so no NaN is claimed."
 ],
 "C149": [
  "partial",
  "Holds for every sequence in which Undo and Redo are pressed only while no box was changed since the start or the last Set initial (C149_agree_partial, C149_fit_partial), and after Set initial for every sequence (C149_set_initial). The code violates the full statement: the history keeps the flags of its time and update_widgets does not touch the check boxes, so after typing a value, unticking the box and Undo the box is unticked and the parameter is varied by the next fit (C149_undo_refuted; the same with Redo, C149_redo_refuted)."
 ],
 "C150": [
  "proved",
  "Exact arithmetic, exact propagator (PropagatorExpm). Wavelengths inside the film are measured along the normal: half a wavelength is lambda/(2 sqrt(e1 - kx^2)). The formulas hold for Solver2x2 as well (C150_solver2x2, any principal arcsine). C150_structure: the stack is that of a Structure object with one Layer between isotropic materials."
 ],
 "C151": [
  "proved",
  "Exact arithmetic, exact propagator. The range of double precision is the subject of C112. The formulas hold for Solver2x2 as well (C151_solver2x2, any principal arcsine)."
 ],
 "C152": [
  "proved",
  "Exact arithmetic. A permittivity equal to that of the medium is excluded (there is then no interface)."
 ],
 "C153": [
  "proved",
  "Exact arithmetic, default delta range and light (a, a)."
 ],
 "C154": [
  "proved",
  "Exact arithmetic. The formulas for the fraction are a separate specification (Spec/MixtureFraction.lean). Equal NaN (MaxwellGarnettEMA with a vanishing denominator) also determine the fraction."
 ],
 "C155": [
  "proved",
  "Exact arithmetic. The NaN exactly at the gap is C49_tauc_at_gap_refuted. The real part of CodyLorentz is a sum on a grid (C56, C140) and not part of this claim."
 ],
 "C156": [
  "proved",
  "Exact arithmetic, real indices, normal incidence; Solver4x4 with the exponential propagator and Solver2x2 with a principal arcsine (C156_solver2x2). C93 is the case of equal pairs; the layers here are arbitrary."
 ],
 "C157": [
  "partial",
  "Proved for materials that are not rotated (C157_unrotated_partial). The code takes the root of each entry, so that the claim holds exactly for materials whose permittivity tensor is diagonal (C157_diagonal_iff) and fails for every tilted uniaxial crystal (C157_tilted_refuted); the tensor asked for exists (C157_wanted). The thickness of get_qwp_thickness is too small for every crystal tilted in the plane of incidence (C157_quarter_wave_refuted); for isotropic materials it is right (C93, C156)."
 ],
 "C158": [
  "proved",
  "Exact arithmetic, exponential propagator, real indices, normal incidence. Pass band: the first entry of the real characteristic matrix of Spec/Equivalent.lean lies in (-1, 1)."
 ],
 "C159": [
  "partial",
  "Exact arithmetic. np.linalg.eig is any function that returns an invertible matrix of eigenvectors where there is one. What floating-point inversion of a nearly singular matrix gives is not modelled. C159_agree_partial needs a basis of eigenvectors; C159_inside, C159_uniaxial and C159_crystal give one for lossless crystals in any orientation below the critical angles, C159_aligned_iff characterises the crystals with axes along x, y, z, absorbing ones included. C159_critical_refuted (isotropic layer at its critical angle) and C159_voigt_refuted (turned absorbing biaxial crystal, normal incidence) are the failures."
 ],
 "C160": [
  "proved",
  "Exact arithmetic. C160_balance is the identity, C160_loss and C160_slices the consequences below the critical angles, C160_gain_refuted the created power beyond (so energy conservation, C35, does not hold for this propagator). Layers are isotropic and lossless; the exit permittivity is real and not zero."
 ],
 "C161": [
  "proved",
  "Exact arithmetic. C161_euler_all is surjectivity, C161_euler_unique uniqueness, C161_axis_all and C161_axis_unique the same for axis and angle, C161_uniaxial and C161_biaxial say when two orientations have one tensor."
 ],
 "C162": [
  "proved",
  "Exact arithmetic. C162_sellmeier, C162_lorentz and C162_lorentz_lambda are equivalences, C162_order turns equal total amplitudes into equal lists, C162_cauchy and C162_drude treat the other models. C162_overdamped_refuted shows why the bound on gamma is needed, C162_urbach_refuted the superfluous parameter of CauchyUrbach."
 ],
 "C163": [
  "proved",
  "Exact arithmetic, one wavelength. C163_recover are the formulas, C163_iff the equivalence, C163_angles the consequences, C163_physical the matrices that occur, C163_power two samples with equal Mueller matrices and different reflectance. C163_average: averages of samples that differ have no Jones matrix (see also C129). C163_polariser and C163_unpolarised: what the matrix does to unpolarised light."
 ],
 "C164": [
  "proved",
  "Exact arithmetic, Solver4x4 with the exponential propagator, isotropic exit medium. C164_reciprocal, C164_normal, C164_mirror, C164_turn, C164_power and C164_normal_power for samples; C164_diagonal, C164_symmetric and C164_antisymmetric for single Jones matrices. Every structure of the package's materials has symmetric tensors (C78_every_structure)."
 ]
}