{
 "claims": [
  {
   "property": "C01",
   "status": "proved",
   "theorems": [
    "PyElli.C01_delta_range_accepts_iff",
    "PyElli.C01_accepted_bounds_are_integers",
    "PyElli.C01_delta_range_type_error_iff",
    "PyElli.C01_delta_range_error_kinds",
    "PyElli.C01_type_error_documentation_refuted"
   ],
   "note": "Decision logic of DeltaRange stated outright. The documented TypeError as soon as either bound is not an int is refuted: DeltaRange(0, 360.0) is accepted (C01_type_error_documentation_refuted)."
  },
  {
   "property": "C02",
   "status": "partial",
   "theorems": [
    "PyElli.C02_convert_errors",
    "PyElli.C02_convert_in_window",
    "PyElli.C02_convert_shift",
    "PyElli.C02_convert_same_angle_iff",
    "PyElli.C02_convert_same_angle_partial",
    "PyElli.C02_convert_same_angle_refuted"
   ],
   "note": "Refuted: the code shifts by 2*lower (convert_delta_range adds lower instead of subtracting it). C02_convert_same_angle_iff characterises exactly when the angle survives (lower a multiple of 180)."
  },
  {
   "property": "C03",
   "status": "partial",
   "theorems": [
    "PyElli.C03_calc_rho_spec",
    "PyElli.C03_round_trip_factor",
    "PyElli.C03_round_trip_partial",
    "PyElli.C03_round_trip_default",
    "PyElli.C03_round_trip_iff",
    "PyElli.C03_round_trip_refuted"
   ],
   "note": "Refuted for windows whose lower end is not a multiple of 180, e.g. (-90, 270); exact factor and an iff are proved; holds for the default window."
  },
  {
   "property": "C04",
   "status": "partial",
   "theorems": [
    "PyElli.C04_psi_window",
    "PyElli.C04_delta_window",
    "PyElli.C04_delta_folded",
    "PyElli.C04_psi_independent_of_range",
    "PyElli.C04_matrix_ss",
    "PyElli.C04_matrix_windows_partial",
    "PyElli.C04_delta_matrix_refuted"
   ],
   "note": "psi/delta windows proved; delta_matrix is refuted (it ignores the folding used by delta for windows of width 180)."
  },
  {
   "property": "C05",
   "status": "proved",
   "theorems": [
    "PyElli.C05_jones_sets_stokes",
    "PyElli.C05_jones_fully_polarised",
    "PyElli.C05_phase_invariant"
   ],
   "note": ""
  },
  {
   "property": "C06",
   "status": "proved",
   "theorems": [
    "PyElli.C06_stokes_round_trip",
    "PyElli.C06_unit_stokes_round_trip"
   ],
   "note": ""
  },
  {
   "property": "C07",
   "status": "proved",
   "theorems": [
    "PyElli.C07_jones_round_trip"
   ],
   "note": "Up to a global phase, the only freedom a Stokes vector leaves."
  },
  {
   "property": "C08",
   "status": "partial",
   "theorems": [
    "PyElli.C08_finite_iff",
    "PyElli.C08_unpolarised_refuted"
   ],
   "note": "Refuted: Stokes vectors with p = 0 (or a vanishing amplitude, as characterised by C08_finite_iff) divide by zero."
  },
  {
   "property": "C09",
   "status": "proved",
   "theorems": [
    "PyElli.C09_last_call_wins",
    "PyElli.C09_other_shape_ignored",
    "PyElli.C09_other_shape_at_construction",
    "PyElli.C09_none_is_diagonal"
   ],
   "note": ""
  },
  {
   "property": "C10",
   "status": "proved",
   "theorems": [
    "PyElli.C10_mueller_normalised"
   ],
   "note": ""
  },
  {
   "property": "C11",
   "status": "proved",
   "theorems": [
    "PyElli.C11_mueller_acts",
    "PyElli.C11_mueller_matches_set_vector"
   ],
   "note": ""
  },
  {
   "property": "C12",
   "status": "proved",
   "theorems": [
    "PyElli.C12_isotropic_mueller"
   ],
   "note": "Default delta window; sign convention rho = tan(psi) exp(-i delta)."
  },
  {
   "property": "C13",
   "status": "partial",
   "theorems": [
    "PyElli.C13_converter_refuted",
    "PyElli.C13_converter_partial"
   ],
   "note": "Refuted: no conversion from degrees and C = S = sin 2psi cos 2delta. C13_converter_partial covers the entries that are right."
  },
  {
   "property": "C14",
   "status": "proved",
   "theorems": [
    "PyElli.C14_circular_meaning",
    "PyElli.C14_symmetric_sample",
    "PyElli.C14_normal_axis",
    "PyElli.C14_circular_power",
    "PyElli.C14_mirror_flips_handedness",
    "PyElli.C14_window_keeps_handedness"
   ],
   "note": ""
  },
  {
   "property": "C15",
   "status": "proved",
   "theorems": [
    "PyElli.C15_rotated_tensor",
    "PyElli.C15_principal_axes"
   ],
   "note": " C15_principal_axes states which permittivity acts along which axis, before and after a rotation."
  },
  {
   "property": "C16",
   "status": "proved",
   "theorems": [
    "PyElli.C16_isotropic_ignores_rotation",
    "PyElli.C16_last_rotation_wins",
    "PyElli.C16_rotations_do_not_compose"
   ],
   "note": "Includes that a second set_rotation replaces the first (rotations do not compose)."
  },
  {
   "property": "C17",
   "status": "proved",
   "theorems": [
    "PyElli.C17_euler_product",
    "PyElli.C17_euler_inverse",
    "PyElli.C17_euler_proper"
   ],
   "note": ""
  },
  {
   "property": "C18",
   "status": "proved",
   "theorems": [
    "PyElli.C18_axis_proper",
    "PyElli.C18_axis_fixed",
    "PyElli.C18_axis_angle",
    "PyElli.C18_axis_add",
    "PyElli.C18_axis_inverse",
    "PyElli.C18_axis_vector_agree",
    "PyElli.C18_vector_proper",
    "PyElli.C18_vector_inverse"
   ],
   "note": "rotation_v uses the matrix exponential; Rodrigues' formula is proved to equal it."
  },
  {
   "property": "C19",
   "status": "proved",
   "theorems": [
    "PyElli.C19_construct",
    "PyElli.C19_set_fraction",
    "PyElli.C19_fraction_invariant"
   ],
   "note": ""
  },
  {
   "property": "C20",
   "status": "partial",
   "theorems": [
    "PyElli.C20_limits_vca_looyenga",
    "PyElli.C20_limits_maxwell_garnett",
    "PyElli.C20_maxwell_garnett_refuted",
    "PyElli.C20_limits_bruggeman_iff",
    "PyElli.C20_limits_bruggeman_partial",
    "PyElli.C20_bruggeman_refuted"
   ],
   "note": "Proved for VCA and Looyenga. Refuted for Maxwell-Garnett (host entry 0, guest entry not 0, fraction 1 gives NaN) and Bruggeman (opposite-sign real permittivities pick the wrong root; a zero entry gives NaN); C20_limits_bruggeman_iff is the exact condition."
  },
  {
   "property": "C21",
   "status": "proved",
   "theorems": [
    "PyElli.C21_bruggeman_equation",
    "PyElli.C21_bruggeman_self_consistent"
   ],
   "note": ""
  },
  {
   "property": "C22",
   "status": "proved",
   "theorems": [
    "PyElli.C22_between"
   ],
   "note": ""
  },
  {
   "property": "C23",
   "status": "proved",
   "theorems": [
    "PyElli.C23_passive"
   ],
   "note": "Per tensor entry (the mixing rules act entrywise)."
  },
  {
   "property": "C24",
   "status": "partial",
   "theorems": [
    "PyElli.C24_vca_partial",
    "PyElli.C24_rotation_refuted"
   ],
   "note": "Holds for VCA only; refuted for the three non-linear rules, which mix tensor entries one by one."
  },
  {
   "property": "C25",
   "status": "proved",
   "theorems": [
    "PyElli.C25_decomposition",
    "PyElli.C25_periodic",
    "PyElli.C25_count",
    "PyElli.C25_before_capped_refuted",
    "PyElli.C25_repeated_profile",
    "PyElli.C25_before_counts_slices",
    "PyElli.C25_thickness"
   ],
   "note": "For before/after up to one period; larger values are silently capped (C25_before_capped_refuted) and count slices rather than layers (C25_before_counts_slices)."
  },
  {
   "property": "C26",
   "status": "proved",
   "theorems": [
    "PyElli.C26_heights",
    "PyElli.C26_profile_order",
    "PyElli.C26_concat",
    "PyElli.C26_total_thickness"
   ],
   "note": "Thickness sum for arbitrarily nested layers without partial periods (C26_total_thickness); the slice thicknesses for every layer list, partial periods included (C26_heights)."
  },
  {
   "property": "C27",
   "status": "proved",
   "theorems": [
    "PyElli.C27_slicing",
    "PyElli.C27_divisions_guard"
   ],
   "note": ""
  },
  {
   "property": "C28",
   "status": "partial",
   "theorems": [
    "PyElli.C28_twisted_slice_partial",
    "PyElli.C28_zero_twist",
    "PyElli.C28_twist_isotropic",
    "PyElli.C28_zero_thickness_refuted"
   ],
   "note": "Proved for thickness other than 0; refuted for the accepted thickness 0, where 0/0 makes every slice NaN."
  },
  {
   "property": "C29",
   "status": "partial",
   "theorems": [
    "PyElli.C29_varying_slice_partial",
    "PyElli.C29_constant_modulation",
    "PyElli.C29_linear_profile_range",
    "PyElli.C29_zero_thickness_refuted"
   ],
   "note": "Proved for thickness other than 0; refuted for the accepted thickness 0."
  },
  {
   "property": "C30",
   "status": "partial",
   "theorems": [
    "PyElli.C30_invariant",
    "PyElli.C30_refused_keeps_state",
    "PyElli.C30_refusals",
    "PyElli.C30_nan_thickness_refuted"
   ],
   "note": "Invariant over arbitrary call sequences, exact refusal conditions; NaN thickness is accepted (C30_nan_thickness_refuted)."
  },
  {
   "property": "C31",
   "status": "partial",
   "theorems": [
    "PyElli.C31_front_isotropic_refuted",
    "PyElli.C31_front_material_partial"
   ],
   "note": "Refuted: set_front_material accepts anisotropic materials. Only the Material type check holds."
  },
  {
   "property": "C32",
   "status": "proved",
   "theorems": [
    "PyElli.C32_fresnel_4x4",
    "PyElli.C32_interface_unique",
    "PyElli.C32_fresnel_2x2"
   ],
   "note": "Solver4x4 and Solver2x2 give the solution of the interface conditions (Spec.InterfaceS/P), which is unique."
  },
  {
   "property": "C33",
   "status": "proved",
   "theorems": [
    "PyElli.C33_zero_thickness_4x4",
    "PyElli.C33_zero_thickness_2x2"
   ],
   "note": "4x4 for any anisotropic slice and any exit medium; 2x2 whenever neither calculation divides by zero."
  },
  {
   "property": "C34",
   "status": "proved",
   "theorems": [
    "PyElli.C34_split_4x4",
    "PyElli.C34_linear_refuted",
    "PyElli.C34_split_2x2"
   ],
   "note": "Exponential propagator (any material) and 2x2. C34_linear_refuted: the linear propagator is not multiplicative, by design."
  },
  {
   "property": "C35",
   "status": "partial",
   "theorems": [
    "PyElli.C35_energy_conservation",
    "PyElli.C35_R_plus_T",
    "PyElli.C35_energy_conservation_2x2",
    "PyElli.C35_material_lossless",
    "PyElli.C35_exit_by_class",
    "PyElli.C35_mixture_exit_refuted"
   ],
   "note": "Proved for both solvers when the exit medium is an IsotropicMaterial (all layers anisotropic or not, total reflection included). C35_mixture_exit_refuted: for a lossless exit medium given as a mixture the 4x4 solver applies no power correction and R + T is 5/9 instead of 1; C35_exit_by_class: only the class of the exit material decides."
  },
  {
   "property": "C36",
   "status": "proved",
   "theorems": [
    "PyElli.C36_no_gain",
    "PyElli.C36_R_plus_T_le",
    "PyElli.C36_no_gain_2x2",
    "PyElli.C36_material_passive"
   ],
   "note": "R + T <= 1 for every incident polarisation, any passive anisotropic slices, isotropic half spaces."
  },
  {
   "property": "C37",
   "status": "proved",
   "theorems": [
    "PyElli.C37_solvers_agree",
    "PyElli.C37_solvers_agree_passive"
   ],
   "note": "For every branch of the complex arcsine, away from zero denominators of the 2x2 method."
  },
  {
   "property": "C38",
   "status": "proved",
   "theorems": [
    "PyElli.C38_no_cross_polarisation"
   ],
   "note": ""
  },
  {
   "property": "C39",
   "status": "proved",
   "theorems": [
    "PyElli.C39_repetition_power",
    "PyElli.C39_repeated_layers"
   ],
   "note": "For any propagator, also at the level of structures containing RepeatedLayers."
  },
  {
   "property": "C40",
   "status": "proved",
   "theorems": [
    "PyElli.C40_expm_group",
    "PyElli.C40_eig_eq_expm",
    "PyElli.C40_linear_first_order"
   ],
   "note": ""
  },
  {
   "property": "C41",
   "status": "partial",
   "theorems": [
    "PyElli.C41_reflection_exit_basis_partial",
    "PyElli.C41_transmission_refuted",
    "PyElli.C41_normalisation_refuted"
   ],
   "note": "Reflection is independent of the eigenvectors chosen when the normalisation constant is not zero; refuted for transmission (power depends on eigenvector phases) and for the no-op guard of a vanishing constant (NaN)."
  },
  {
   "property": "C42",
   "status": "proved",
   "theorems": [
    "PyElli.C42_pseudo_dielectric_relative",
    "PyElli.C42_pseudo_dielectric"
   ],
   "note": "Proved for every front index n0 (result is eps/n0^2, because the formula assumes vacuum) and, for n0 = 1, exactly eps."
  },
  {
   "property": "C43",
   "status": "proved",
   "theorems": [
    "PyElli.C43_brewster",
    "PyElli.C43_total_reflection",
    "PyElli.C43_half_wave",
    "PyElli.C43_quarter_wave"
   ],
   "note": "Brewster (iff), total reflection for any lossless stack, half-wave layer in any stack, quarter-wave antireflection."
  },
  {
   "property": "C44",
   "status": "proved",
   "theorems": [
    "PyElli.C44_scale_4x4",
    "PyElli.C44_scale_2x2"
   ],
   "note": "Both solvers, exponential and linear propagators."
  },
  {
   "property": "C45",
   "status": "proved",
   "theorems": [
    "PyElli.C45_evaluate_pure",
    "PyElli.C45_snapshot"
   ],
   "note": "Object memory model; deepcopy is modelled as copying every object to a fresh address with references shifted."
  },
  {
   "property": "C46",
   "status": "proved",
   "theorems": [
    "PyElli.C46_fill_accepted",
    "PyElli.C46_fill_refused",
    "PyElli.C46_init"
   ],
   "note": "Templates, positional and keyword arguments as lists; parameter values of any type."
  },
  {
   "property": "C47",
   "status": "proved",
   "theorems": [
    "PyElli.C47_order",
    "PyElli.C47_history_order",
    "PyElli.C47_add_history"
   ],
   "note": "History of add calls by induction; permutation of the parameter sets leaves every repeated-parameter model unchanged."
  },
  {
   "property": "C48",
   "status": "partial",
   "theorems": [
    "PyElli.C48_drude",
    "PyElli.C48_lorentz",
    "PyElli.C48_sellmeier_lorentz",
    "PyElli.C48_sellmeier_custom",
    "PyElli.C48_cauchy",
    "PyElli.C48_poles",
    "PyElli.C48_poles_refuted",
    "PyElli.C48_drude_limit_refuted",
    "PyElli.C48_drude_limit_partial",
    "PyElli.C48_tauc_no_gap"
   ],
   "note": "All documented identities between models proved except two that the code violates: the infrared pole of Poles has the opposite sign (C48_poles_refuted), and DrudeEnergy is not the zero-frequency limit of LorentzEnergy with the documented factors (C48_drude_limit_refuted, corrected form in C48_drude_limit_partial). A TaucLorentz model with Eg = 0 plus 1 is the LorentzEnergy model with amplitudes A*E, for every damping but the critical one (C48_tauc_no_gap)."
  },
  {
   "property": "C49",
   "status": "partial",
   "theorems": [
    "PyElli.C49_cody_lorentz",
    "PyElli.C49_cauchy_urbach",
    "PyElli.C49_lorentz_energy",
    "PyElli.C49_lorentz_lambda",
    "PyElli.C49_drude_energy",
    "PyElli.C49_drude_resistivity",
    "PyElli.C49_gaussian",
    "PyElli.C49_tauc_lorentz",
    "PyElli.C49_tauc_overdamped_refuted",
    "PyElli.C49_tauc_at_gap_refuted",
    "PyElli.C49_cody_eps2",
    "PyElli.C49_cody_joins",
    "PyElli.C49_tanguy"
   ],
   "note": "Proved for Lorentz (both), Drude (both), Gaussian, Tauc-Lorentz with C < 2E away from the gap, and the complete Cody-Lorentz dispersion (value, wavelength range, sign of the imaginary part). Tauc-Lorentz with C > 2E or exactly at the gap violates the claim (refutations). Tanguy proved for all dimensionalities 1 < d <= 3, nonnegative amplitude, positive broadening and a lowest exciton of positive energy (C49_tanguy)."
  },
  {
   "property": "C50",
   "status": "proved",
   "theorems": [
    "PyElli.Disp.C50_value",
    "PyElli.Disp.C50_accepts",
    "PyElli.Disp.C50_number",
    "PyElli.Disp.C50_expressions"
   ],
   "note": "Memory model of dispersion objects, invariant over all histories; whole expressions over non-sum objects by induction. Where a sum object is mentioned several times see C51."
  },
  {
   "property": "C51",
   "status": "partial",
   "theorems": [
    "PyElli.Disp.C51_operands_partial",
    "PyElli.Disp.C51_left_refuted",
    "PyElli.Disp.C51_right_refuted",
    "PyElli.Disp.C51_expression_refuted"
   ],
   "note": "Refuted for operands that are sums; the partial theorem says exactly which single object can change."
  },
  {
   "property": "C52",
   "status": "partial",
   "theorems": [
    "PyElli.Disp.C52_square",
    "PyElli.Disp.C52_as_index",
    "PyElli.Disp.C52_as_index_table_refuted"
   ],
   "note": "The square relation holds for every object; as_index() raises InvalidParameters for TableEpsilon and PseudoDielectricFunction (refuted there)."
  },
  {
   "property": "C53",
   "status": "proved",
   "theorems": [
    "PyElli.C53_constructor",
    "PyElli.C53_range",
    "PyElli.C53_chord",
    "PyElli.C53_node",
    "PyElli.C53_row_order"
   ],
   "note": "Linear interpolation of complex data; scipy's interp1d is modelled from its documentation. Distinct wavelengths and at least two rows are assumed for values."
  },
  {
   "property": "C54",
   "status": "partial",
   "theorems": [
    "PyElli.Disp.C54_table_epsilon_partial",
    "PyElli.Disp.C54_index_table_refuted"
   ],
   "note": "Holds for TableEpsilon; Table + number always raises InvalidParameters (refuted)."
  },
  {
   "property": "C55",
   "status": "proved",
   "theorems": [
    "PyElli.C55_lengths",
    "PyElli.C55_linear",
    "PyElli.C55_parity",
    "PyElli.C55_axis_scale",
    "PyElli.C55_reciprocal"
   ],
   "note": "Maclaurin sums over lists of points; linearity, parity, scaling and the reciprocal variant."
  },
  {
   "property": "C56",
   "status": "partial",
   "theorems": [
    "PyElli.C56_cody_lorentz",
    "PyElli.C56_weight_partial",
    "PyElli.C56_first_point_refuted",
    "PyElli.C56_witness_refuted"
   ],
   "note": "Weight 2\u00b7\u0394 on every second point proved from the second point on; at the first point the weight is x0 - h (h the spacing seen there) instead of 2\u00b7\u0394, so the sum differs (refuted for the first point)."
  },
  {
   "property": "C57",
   "status": "partial",
   "theorems": [
    "PyElli.Formula.C57_length_mismatch",
    "PyElli.Formula.C57_init",
    "PyElli.Formula.C57_value",
    "PyElli.Formula.C57_value_single",
    "PyElli.Formula.C57_units",
    "PyElli.Formula.C57_constant_bracket_refuted",
    "PyElli.Formula.C57_heaviside_refuted",
    "PyElli.Formula.C57_late_add_refuted",
    "PyElli.Formula.C57_late_add_witness_refuted"
   ],
   "note": "Proved for every parsed formula whose names are known, without heaviside, and whose brackets mention the axis; construction and the length check proved. Refuted for brackets without the axis, heaviside and parameter sets added after construction."
  },
  {
   "property": "C58",
   "status": "partial",
   "theorems": [
    "PyElli.Formula.C58_unambiguous",
    "PyElli.Formula.C58_formula_unambiguous",
    "PyElli.Formula.C58_print_parse",
    "PyElli.Formula.C58_trees",
    "PyElli.Formula.C58_sum_left",
    "PyElli.Formula.C58_product_left",
    "PyElli.Formula.C58_power_no_chain",
    "PyElli.Formula.C58_signed_power_refuted"
   ],
   "note": "Unambiguity, left association, no chaining of ** and print/parse round trip proved for all token sequences. The usual precedence is refuted for signed numbers (-2**2 is read as (-2)**2). The lexer is the subject of C97."
  },
  {
   "property": "C59",
   "status": "partial",
   "theorems": [
    "PyElli.Lookup.C59_element",
    "PyElli.Lookup.C59_mueller",
    "PyElli.Lookup.C59_whole",
    "PyElli.Lookup.C59_unknown",
    "PyElli.Lookup.C59_malformed",
    "PyElli.Lookup.C59_out_of_range",
    "PyElli.Lookup.C59_transmission_values",
    "PyElli.Lookup.C59_transmission_angles",
    "PyElli.Lookup.C59_first_index_outgoing",
    "PyElli.Lookup.C59_direction_refuted",
    "PyElli.Lookup.C59_circular_refuted"
   ],
   "note": "Element, whole-matrix, transmission, unknown, malformed and out-of-range names decided for every name; the documented direction of r_sp and the circular names are refuted (C59_direction_refuted, C59_circular_refuted)."
  },
  {
   "property": "C60",
   "status": "partial",
   "theorems": [
    "PyElli.Lookup.C60_get_refuted"
   ],
   "note": "Refuted: get always raises TypeError (C60_get_refuted)."
  },
  {
   "property": "C61",
   "status": "partial",
   "theorems": [
    "PyElli.Lookup.C61_mean",
    "PyElli.Lookup.C61_mean_shape",
    "PyElli.Lookup.C61_mean_psi",
    "PyElli.Lookup.C61_one_result_refuted",
    "PyElli.Lookup.C61_one_wavelength_refuted",
    "PyElli.Lookup.C61_errors"
   ],
   "note": "Mean value and shape proved for at least two results and wavelengths; squeeze breaks one result or one wavelength (C61_one_result_refuted, C61_one_wavelength_refuted)."
  },
  {
   "property": "C62",
   "status": "proved",
   "theorems": [
    "PyElli.Hist.C62_bound",
    "PyElli.Hist.C62_recent_values",
    "PyElli.Hist.C62_recent"
   ],
   "note": "Length bound (C62_bound) and the exact content of the history for every sequence of operations whose objects exist, including revert, pop, clear_history, changes of the maximal length and operations that raise (C62_recent). C62_recent_values says the same in terms of stored values without revert; that revert makes later changes write through to an entry is the subject of C64."
  },
  {
   "property": "C63",
   "status": "partial",
   "theorems": [
    "PyElli.Hist.C63_pop_restores",
    "PyElli.Hist.C63_added_parameter_refuted",
    "PyElli.Hist.C63_undo_redo",
    "PyElli.Hist.C63_undo_empty"
   ],
   "note": "pop restores committed values; refuted for parameters added after the commit."
  },
  {
   "property": "C64",
   "status": "partial",
   "theorems": [
    "PyElli.Hist.C64_step_partial",
    "PyElli.Hist.C64_immutable_partial",
    "PyElli.Hist.C64_revert_refuted"
   ],
   "note": "Committed entries stay unchanged without revert; refuted with revert, which aliases the entry."
  },
  {
   "property": "C65",
   "status": "partial",
   "theorems": [
    "PyElli.Hist.C65_revert",
    "PyElli.Hist.C65_guard_refuted"
   ],
   "note": "revert restores the indexed entry; the documented index guard is refuted."
  },
  {
   "property": "C66",
   "status": "partial",
   "theorems": [
    "PyElli.Fit.C66_rho_zero",
    "PyElli.Fit.C66_shape_error",
    "PyElli.Fit.C66_broadcast",
    "PyElli.Fit.C66_cost",
    "PyElli.Fit.C66_angles",
    "PyElli.Fit.C66_mueller_zero",
    "PyElli.Fit.C66_spectraray_columns",
    "PyElli.Fit.C66_mueller_labels_partial",
    "PyElli.Fit.C66_mueller_labels_refuted",
    "PyElli.Fit.C66_frame",
    "PyElli.Fit.C66_frame_identifier"
   ],
   "note": "Residuals, cost, angle handling and Mueller labels as stated; labels are wrong for column orders other than SpectraRay order (refuted)."
  },
  {
   "property": "C67",
   "status": "proved",
   "theorems": [
    "PyElli.Rii.C67_formula1",
    "PyElli.Rii.C67_formula2",
    "PyElli.Rii.C67_formula3",
    "PyElli.Rii.C67_formula4",
    "PyElli.Rii.C67_formula5",
    "PyElli.Rii.C67_unknown",
    "PyElli.Rii.C67_several",
    "PyElli.Rii.C67_table_nk",
    "PyElli.Rii.C67_table_n",
    "PyElli.Rii.C67_table_k"
   ],
   "note": "Formulas 1-5, tables, several entries and unknown types."
  },
  {
   "property": "C68",
   "status": "partial",
   "theorems": [
    "PyElli.Catalog.C68_exact_partial",
    "PyElli.Catalog.C68_fuzzy_partial",
    "PyElli.Catalog.C68_all",
    "PyElli.Catalog.C68_choices",
    "PyElli.Catalog.C68_errors",
    "PyElli.Catalog.C68_missing_refuted",
    "PyElli.Catalog.C68_empty_shelf_refuted",
    "PyElli.Catalog.C68_open"
   ],
   "note": "Exact and approximate search, column and wavelength handling, loading proved. Refuted where numpy passes missing truth values on (a row with an empty cell in another searched column is lost) and for rows with empty shelf name."
  },
  {
   "property": "C69",
   "status": "proved",
   "theorems": [
    "PyElli.C69_photon",
    "PyElli.C69_back",
    "PyElli.C69_energy_frequency",
    "PyElli.C69_self_inverse",
    "PyElli.C69_zero"
   ],
   "note": "All conversions map to the same photon, are self-inverse on nonzero values and undefined at zero."
  },
  {
   "property": "C70",
   "status": "partial",
   "theorems": [
    "PyElli.Importer.C70_digit",
    "PyElli.Importer.C70_numeral_partial",
    "PyElli.Importer.C70_pattern",
    "PyElli.Importer.C70_refuted"
   ],
   "note": "The pattern matches exactly the numerals (C70_pattern), but it is searched anywhere in the text: true exactly when a digit occurs: all numerals are accepted, but so is every label with a digit (refuted)."
  },
  {
   "property": "C71",
   "status": "partial",
   "theorems": [
    "PyElli.Importer.C71_sums",
    "PyElli.Importer.C71_distinct_partial",
    "PyElli.Importer.C71_refuted"
   ],
   "note": "Exact for distinct (angle, wavelength); repeated measurements are added (refuted)."
  },
  {
   "property": "C72",
   "status": "partial",
   "theorems": [
    "PyElli.Importer.C72_table",
    "PyElli.Importer.C72_uniaxial_partial",
    "PyElli.Importer.C72_two_axes_refuted",
    "PyElli.Importer.C72_unknown"
   ],
   "note": "Complete decision table; x and y without z gives KeyError (refuted)."
  },
  {
   "property": "C73",
   "status": "partial",
   "theorems": [
    "PyElli.Hist.C73_edit_undo",
    "PyElli.Hist.C73_fit_undo",
    "PyElli.Hist.C73_fit_second_undo_refuted",
    "PyElli.Hist.C73_redo_once",
    "PyElli.Hist.C73_redo_levels_refuted",
    "PyElli.Hist.C73_stale_redo_refuted",
    "PyElli.Hist.C73_reset_refuted"
   ],
   "note": "One undo per edit and per fit; a second Undo after a fit does nothing, Set initial cannot be undone, Redo has one level and stays armed after a new edit (refuted)."
  },
  {
   "property": "C74",
   "status": "partial",
   "theorems": [
    "PyElli.Hist.C74_fit_partial",
    "PyElli.Hist.C74_edit_refuted"
   ],
   "note": "Right after Fit the fitted parameters hold the values found; a later edit changes them too (C74_edit_refuted)."
  },
  {
   "property": "C75",
   "status": "partial",
   "theorems": [
    "PyElli.Fit.C75_options_refuted",
    "PyElli.Fit.C75_options_partial"
   ],
   "note": "All three options given works; leaving one out raises AttributeError (refuted)."
  },
  {
   "property": "C76",
   "status": "partial",
   "theorems": [
    "PyElli.Importer.C76_table_partial",
    "PyElli.Importer.C76_refused",
    "PyElli.Importer.C76_first_line_refuted",
    "PyElli.Importer.C76_complete_ease_layout",
    "PyElli.Importer.C76_negative_delta_refuted"
   ],
   "note": "Exact characterisation of what is read; refuted for CompleteEASE files whose first rows have negative delta and for files starting with the table."
  },
  {
   "property": "C77",
   "status": "proved",
   "theorems": [
    "PyElli.Importer.C77_spectraray",
    "PyElli.Importer.C77_columns"
   ],
   "note": "Header, stacking, sorting and delta window; the pandas operations are library assumptions."
  },
  {
   "property": "C78",
   "status": "proved",
   "theorems": [
    "PyElli.C78_reciprocity",
    "PyElli.C78_half_turn",
    "PyElli.C78_every_structure"
   ],
   "note": "For every passive stack (PassiveStack: positive real front permittivity, isotropic exit medium, passive layers) with symmetric tensors, under PropagatorExpm. C78_every_structure: all stacks the package builds have symmetric tensors."
  },
  {
   "property": "C79",
   "status": "proved",
   "theorems": [
    "PyElli.C79_half_turn",
    "PyElli.C79_mirror",
    "PyElli.C79_no_cross_polarisation"
   ],
   "note": "The half turn holds for every propagator function, mirror and absence of cross polarisation for PropagatorExpm. Isotropic exit medium."
  },
  {
   "property": "C80",
   "status": "proved",
   "theorems": [
    "PyElli.C80_azimuth"
   ],
   "note": "PropagatorExpm, isotropic exit medium, non-zero front index."
  },
  {
   "property": "C81",
   "status": "proved",
   "theorems": [
    "PyElli.C81_amplitudes",
    "PyElli.C81_transmittance"
   ],
   "note": "PropagatorExpm. C81_amplitudes holds for absorbing media too; C81_transmittance for transparent media without total reflection."
  },
  {
   "property": "C82",
   "status": "proved",
   "theorems": [
    "PyElli.C82_exit_side",
    "PyElli.C82_front_side",
    "PyElli.C82_beer_lambert"
   ],
   "note": "PropagatorExpm, isotropic front and exit media; C82_beer_lambert at normal incidence."
  },
  {
   "property": "C83",
   "status": "proved",
   "theorems": [
    "PyElli.C83_maxwell_unique",
    "PyElli.C83_maxwell_exists",
    "PyElli.C83_maxwell_iff",
    "PyElli.C83_maxwell_2x2"
   ],
   "note": "PropagatorExpm; the exit medium is isotropic (class IsotropicMaterial); the angle is below 90 degrees. The scattering problem is stated with curls in Spec/Maxwell.lean, independent of the solver matrices. For Solver2x2 the conditions of C37 apply."
  },
  {
   "property": "C84",
   "status": "partial",
   "theorems": [
    "PyElli.C84_cauchy",
    "PyElli.C84_cauchy_urbach",
    "PyElli.C84_powers",
    "PyElli.C84_constants",
    "PyElli.C84_drude_energy",
    "PyElli.C84_drude_resistivity_partial",
    "PyElli.C84_drude_resistivity_refuted",
    "PyElli.C84_poles",
    "PyElli.C84_sellmeier",
    "PyElli.C84_sellmeier_custom",
    "PyElli.C84_lorentz_energy_partial",
    "PyElli.C84_lorentz_energy_refuted",
    "PyElli.C84_lorentz_lambda_partial",
    "PyElli.C84_lorentz_lambda_refuted",
    "PyElli.C84_gaussian_partial",
    "PyElli.C84_gaussian_refuted",
    "PyElli.C84_pseudo_refuted"
   ],
   "note": "Cauchy, CauchyCustom, CauchyUrbach, Constant, EpsilonInf, DrudeEnergy, Poles, Polynomial, Sellmeier and SellmeierCustom compute the printed formula. LorentzEnergy (opposite sign of the sum), LorentzLambda (complex conjugate), DrudeResistivity and Gaussian (printed width) differ from the printed formula: refutations, with the formula actually computed as the partial theorem. PseudoDielectricFunction's printed formula lacks the square of the last factor (C84_pseudo_refuted)."
  },
  {
   "property": "C85",
   "status": "proved",
   "theorems": [
    "PyElli.C85_slicing_converges",
    "PyElli.C85_structures_converge",
    "PyElli.C85_plain_ok",
    "PyElli.C85_twisted_ok",
    "PyElli.C85_vca_ok"
   ],
   "note": "Jones matrices converge to the amplitudes of the Maxwell solution of the continuously varying sample (Spec/Graded.lean) when the divisions grow; existence and uniqueness of that solution is part of the theorem. Plain, twisted and varying layers; RepeatedLayers are covered through the list form C85_slicing_converges. C85_plain_ok, C85_twisted_ok and C85_vca_ok show which layers meet the conditions."
  },
  {
   "property": "C86",
   "status": "proved",
   "theorems": [
    "PyElli.C86_linear_converges",
    "PyElli.C86_linear_to_expm"
   ],
   "note": "PropagatorLinear on k equal slices per layer tends to the Maxwell solution and to the PropagatorExpm result as k grows, for every passive layered or graded sample."
  },
  {
   "property": "C87",
   "status": "proved",
   "theorems": [
    "PyElli.C87_continuous",
    "PyElli.C87_differentiable"
   ],
   "note": "jr, jt and the power factor are continuous in all parameters at every passive sample (critical angle included); entries are differentiable in thicknesses, tensors and wavelength for fixed half spaces and angle."
  },
  {
   "property": "C88",
   "status": "partial",
   "theorems": [
    "PyElli.C88_R_partial",
    "PyElli.C88_half_wave_plate_refuted",
    "PyElli.C88_isotropic"
   ],
   "note": "False in general: R = (R_pp + R_ss)/2 leaves out the cross-polarised power. Exact condition proved (agreement iff no cross polarisation), counterexample: a half-wave plate at 45 degrees gives R = T = 0 although everything is transmitted; true for isotropic layers."
  },
  {
   "property": "C89",
   "status": "partial",
   "theorems": [
    "PyElli.C89_limit",
    "PyElli.C89_reciprocal_docstring_refuted",
    "PyElli.C89_rate",
    "PyElli.C89_rate_sharp"
   ],
   "note": "Convergence to the principal value proved for all four transforms, of first order in the step for smooth spectra (C89_rate); the order is sharp because the two ends of the axis carry full weights (C89_rate_sharp). The formula in the docstring of im2re_reciprocal is refuted: it has x Im(x) where the code (correctly, for a wavelength axis) has Im(x)/x."
  },
  {
   "property": "C90",
   "status": "partial",
   "theorems": [
    "PyElli.C90_im2re_partial",
    "PyElli.C90_re2im_sign_refuted"
   ],
   "note": "The im2re half is proved for every response. The re2im half is false for every response: re2im and re2im_reciprocal give minus the imaginary part (the formula needs a minus sign)."
  },
  {
   "property": "C91",
   "status": "partial",
   "theorems": [
    "PyElli.C91_lorentz_energy",
    "PyElli.C91_lorentz_lambda",
    "PyElli.C91_drude_refuted",
    "PyElli.C91_drude_resistivity_refuted",
    "PyElli.C91_tauc_lorentz",
    "PyElli.C91_gaussian",
    "PyElli.C91_tanguy",
    "PyElli.C91_tauc_overdamped_refuted",
    "PyElli.C91_tauc_no_gap",
    "PyElli.C91_tauc_critical_refuted"
   ],
   "note": "Proved for Lorentz (energy and wavelength, all damping), Gaussian (dawsn taken as Dawson's integral), Tauc-Lorentz with C < 2E, Tauc-Lorentz without a gap for all C other than 2E, and Tanguy in every dimension 1 < d <= 3 with the bound state below the gap above zero (its background term a / (b - E**2) is real and is left out). CodyLorentz obtains its real part numerically from im2re_reciprocal, see C49 and C56. False for both Drude models: their real part has the wrong sign, the transform of their imaginary part is minus it. False for a Tauc-Lorentz oscillator with a gap and C > 2E: the real part is the transform of the documented absorption, but the complex arctangents add a second term to the imaginary part. At C = 2E the formula divides by zero at every wavelength."
  },
  {
   "property": "C92",
   "status": "proved",
   "theorems": [
    "PyElli.C92_opaque_layer",
    "PyElli.C92_opaque_limit"
   ],
   "note": "Exact arithmetic: the floating point overflow of the matrix exponential for very thick layers is not modelled."
  },
  {
   "property": "C93",
   "status": "proved",
   "theorems": [
    "PyElli.C93_stop_band",
    "PyElli.C93_pass_band",
    "PyElli.C93_quarter_wave_mirror"
   ],
   "note": "RepeatedLayers is reduced to the written-out list by C39."
  },
  {
   "property": "C94",
   "status": "proved",
   "theorems": [
    "PyElli.C94_airy",
    "PyElli.C94_total_reflection_phase"
   ],
   "note": ""
  },
  {
   "property": "C95",
   "status": "partial",
   "theorems": [
    "PyElli.Nexus.C95_accepts",
    "PyElli.Nexus.C95_value",
    "PyElli.Nexus.C95_materials",
    "PyElli.Nexus.C95_parameters",
    "PyElli.Nexus.C95_formula",
    "PyElli.Nexus.C95_table",
    "PyElli.Nexus.C95_energy_table_refuted",
    "PyElli.Nexus.C95_constant_refuted",
    "PyElli.Nexus.C95_function_errors",
    "PyElli.Nexus.C95_kind_mismatch",
    "PyElli.Nexus.C95_order_refuted"
   ],
   "note": "Proved for every file the reader accepts, with an exact description of the accepted ones. Refuted: tables over energy raise TypeError, a formula without wavelength_identifier and energy_identifier raises KeyError, and whether two tables and a formula are accepted depends on the names of the groups."
  },
  {
   "property": "C96",
   "status": "partial",
   "theorems": [
    "PyElli.Importer.C96_woollam_length_partial",
    "PyElli.Importer.C96_woollam_energy_refuted",
    "PyElli.Importer.C96_woollam_unknown_unit",
    "PyElli.Importer.C96_wvase_other_lines",
    "PyElli.Importer.C96_nexus_partial",
    "PyElli.Importer.C96_nexus_lengths",
    "PyElli.Importer.C96_nexus_rows",
    "PyElli.Importer.C96_nexus_units_refuted",
    "PyElli.Importer.C96_nexus_sample_refuted",
    "PyElli.Importer.C96_nexus_refused"
   ],
   "note": "Proved for length units (Woollam) and angstrom (NeXus, both layouts). Refuted: axes in energy are multiplied by the conversion factor instead of inverted, the unit of NeXus wavelengths is ignored, a renamed sample group is not found."
  },
  {
   "property": "C97",
   "status": "partial",
   "theorems": [
    "PyElli.FormulaText.C97_unique",
    "PyElli.FormulaText.C97_text_partial",
    "PyElli.FormulaText.C97_print_partial",
    "PyElli.FormulaText.C97_names_refuted",
    "PyElli.FormulaText.C97_constant_name_refuted",
    "PyElli.FormulaText.C97_signs"
   ],
   "note": "Proved for all formulas whose names do not begin with the name of a function or constant. Refuted exactly for the others: FUNC and BUILTIN have priority and no word boundary, so c1, height, pix or since are never accepted, and a parameter called like a constant is read as the constant."
  },
  {
   "property": "C98",
   "status": "proved",
   "theorems": [
    "PyElli.C98_bulk",
    "PyElli.C98_refused"
   ],
   "note": "scipy's cubic spline is any interpolation through the nodes. The whole chain is covered: 4x4 solver, psi and delta, calc_rho, calc_pseudo_diel, table."
  },
  {
   "property": "C99",
   "status": "partial",
   "theorems": [
    "PyElli.Plot.C99_profile",
    "PyElli.Plot.C99_index_profile",
    "PyElli.Plot.C99_drawing",
    "PyElli.Plot.C99_index_partial",
    "PyElli.Plot.C99_direction_refuted"
   ],
   "note": "Drawings proved for both methods, before clipping: the graph then cuts its axis at index 1, so that media of smaller real index run outside the axes. The index profile is right for the default direction x; refuted for all others, even in isotropic media: the elementwise product gives sqrt(v_x^2 eps_xx), that is n|v_x| instead of n."
  },
  {
   "property": "C100",
   "status": "partial",
   "theorems": [
    "PyElli.FitWindow.C100_psi_delta",
    "PyElli.FitWindow.C100_plot",
    "PyElli.FitWindow.C100_plot_rho",
    "PyElli.FitWindow.C100_delta_residual_refuted",
    "PyElli.FitWindow.C100_mueller"
   ],
   "note": "Proved for all event sequences (C100_psi_delta, C100_mueller) and for FitRho.plot and FitRho.plot_rho (C100_plot, C100_plot_rho). Refuted part: the residual of delta is 360 degrees although the ratio is reproduced, when the measured delta lies in 180..360 and the model uses -180..180 (C100_delta_residual_refuted). FitRho shows measured minus modelled, FitMuellerMatrix modelled minus measured. Plain lmfit Parameters (where the fit button raises AttributeError) are outside the model."
  },
  {
   "property": "C101",
   "status": "partial",
   "theorems": [
    "PyElli.FitWindow.C101_mueller_box",
    "PyElli.FitWindow.C101_rho_box_partial",
    "PyElli.FitWindow.C101_lower_bound_refuted",
    "PyElli.FitWindow.C101_rho_window",
    "PyElli.FitWindow.C101_mueller_window"
   ],
   "note": "Proved for FitMuellerMatrix (C101_mueller_box, C101_mueller_window) and for FitRho parameters with a lower bound (C101_rho_box_partial, C101_rho_window). False for every FitRho parameter without a lower bound: sys.float_info.min is the smallest positive number, so zero and negative values are shown and read as 2^-1022, and with an upper bound that is not positive the window cannot be made (C101_lower_bound_refuted)."
  },
  {
   "property": "C102",
   "status": "partial",
   "theorems": [
    "PyElli.FitWindow.C102_rho_data",
    "PyElli.FitWindow.C102_rho_csv_refuted",
    "PyElli.FitWindow.C102_mueller_csv"
   ],
   "note": "Proved for FitRho.get_model_data (C102_rho_data) and for both methods of FitMuellerMatrix (C102_mueller_csv). FitRho.to_csv raises ValueError for all arguments, because append_exp_data is handed over in the place of repr (C102_rho_csv_refuted)."
  },
  {
   "property": "C103",
   "status": "proved",
   "theorems": [
    "PyElli.Nd.C103_solver4x4",
    "PyElli.Nd.C103_solver2x2",
    "PyElli.Nd.C103_tensor",
    "PyElli.Nd.C103_profile"
   ],
   "note": "Arrays with shapes, broadcasting, indexing, einsum, moveaxis, sorting and masked assignment are modelled over an arbitrary arithmetic (a type with the operations used by the code, about which nothing is assumed). That dispersions are elementwise (constant ones return a number) is proved for all classes except formulas in C113_array_solver. Assumed: numpy.linalg acts on each matrix by itself, and all arrays are complex (scimath functions choose the type of a real array by looking at all its entries)."
  },
  {
   "property": "C104",
   "status": "proved",
   "theorems": [
    "PyElli.Nd.C104_solver4x4",
    "PyElli.Nd.C104_solver2x2",
    "PyElli.Nd.C104_tensor",
    "PyElli.Nd.C104_solver4x4_raises",
    "PyElli.Nd.C104_solver2x2_raises"
   ],
   "note": "Refinement between the two models: arrays (Model/ArraySolver.lean with the exact arithmetic of Model/ArrayExact.lean) and one wavelength (Model/Solver.lean, Materials.lean, Structure.lean). It is stated at wavelengths where no tensor contains NaN. The thicknesses, rotation matrices and fractions of slices are those of Model/Structure.lean."
  },
  {
   "property": "C105",
   "status": "proved",
   "theorems": [
    "PyElli.Nd.C105_point_by_point",
    "PyElli.Nd.C105_entries",
    "PyElli.Nd.C105_attributes",
    "PyElli.Nd.C105_complete",
    "PyElli.Nd.C105_solver",
    "PyElli.Nd.C105_passive_returns",
    "PyElli.Nd.C105_R_plus_T"
   ],
   "note": "The array expressions of result.py over an arbitrary arithmetic. For the part with any arithmetic np.linalg.inv must invert the three constant matrices (with exact numbers they are proved invertible). Division by zero (no reflection of s light) is NaN in the code and 0 in the exact arithmetic, as in Model/Result.lean."
  },
  {
   "property": "C106",
   "status": "partial",
   "theorems": [
    "PyElli.C106_continuous_partial",
    "PyElli.C106_limit_two",
    "PyElli.C106_two_refuted"
   ],
   "note": "Proved for all d except 2 (C106_continuous_partial). At d = 2 the code violates it: the general formula tends to the exciton term divided by pi (C106_limit_two), so the value jumps at d = 2 at all sufficiently short wavelengths, whatever the parameters (C106_two_refuted)."
  },
  {
   "property": "C107",
   "status": "proved",
   "theorems": [
    "PyElli.C107_resonance",
    "PyElli.C107_transparent"
   ],
   "note": "Both directions: C107_resonance and C107_transparent."
  },
  {
   "property": "C108",
   "status": "partial",
   "theorems": [
    "PyElli.SpectraRay.C108_energy_partial",
    "PyElli.SpectraRay.C108_value",
    "PyElli.SpectraRay.C108_wavelength_refuted",
    "PyElli.SpectraRay.C108_no_comma_refuted",
    "PyElli.SpectraRay.C108_blank_refuted",
    "PyElli.SpectraRay.C108_units_first_refuted"
   ],
   "note": "Proved for well-formed files in photon energies (C108_energy_partial, C108_value). The code violates the rest: every file in wavelengths raises ValueError because a column name is given to iloc (C108_wavelength_refuted); 'Units=Wavelength' without a comma is read as energies (C108_no_comma_refuted); a blank line inside the array is a TypeError (C108_blank_refuted); a file whose array comes before the units line is an UnboundLocalError (C108_units_first_refuted)."
  },
  {
   "property": "C109",
   "status": "partial",
   "theorems": [
    "PyElli.C109_cauchy_partial",
    "PyElli.C109_cauchy_wrong_refuted",
    "PyElli.C109_cauchy_widths",
    "PyElli.C109_cauchy_nan_refuted",
    "PyElli.C109_powers_partial",
    "PyElli.C109_negative_exponent_refuted",
    "PyElli.C109_lorentz_partial",
    "PyElli.C109_float"
   ],
   "note": "Proved where the powers fit into the integer type (C109_cauchy_partial, C109_powers_partial, C109_lorentz_partial) and for floats (C109_float). The code violates it beyond: the fourth power in the Cauchy model wraps from 216 nm (32 bits) or 55109 nm (64 bits) on (C109_cauchy_wrong_refuted, C109_cauchy_widths), is 0 at multiples of 256 nm with 32 bits (NaN or infinity, C109_cauchy_nan_refuted), and a negative integer exponent raises ValueError (C109_negative_exponent_refuted)."
  },
  {
   "property": "C110",
   "status": "partial",
   "theorems": [
    "PyElli.Disp.C110_rows",
    "PyElli.Disp.C110_index",
    "PyElli.Disp.C110_raises",
    "PyElli.Disp.C110_conjugate",
    "PyElli.Disp.C110_round_trip",
    "PyElli.Disp.C110_round_trip_index",
    "PyElli.Disp.C110_default",
    "PyElli.Disp.C110_sum_default_refuted"
   ],
   "note": "Rows, exceptions, conjugation, both round trips and the default range of single dispersions are proved. The code violates the last part for sums: the sum of a table that does not cover 200 to 1000 nm and anything raises an exception without wavelengths, because sums do not take over the range of their parts (C110_sum_default_refuted)."
  },
  {
   "property": "C111",
   "status": "partial",
   "theorems": [
    "PyElli.Factory.C111_models",
    "PyElli.Factory.C111_others_partial",
    "PyElli.Factory.C111_others_refuted"
   ],
   "note": "Proved for all models (C111_models) and all names that are no attribute of the package (C111_others_partial). The code violates the rest: names of submodules such as 'cauchy' raise TypeError and 'TableSpectraRay' gives an object that is not a dispersion (C111_others_refuted)."
  },
  {
   "property": "C112",
   "status": "partial",
   "theorems": [
    "PyElli.C112_range_2x2",
    "PyElli.C112_thick_2x2_refuted",
    "PyElli.C112_thick_expm_refuted",
    "PyElli.C112_thick_eig_refuted",
    "PyElli.C112_range_4x4",
    "PyElli.C112_transmission_4x4",
    "PyElli.C112_thick_layer_refuted",
    "PyElli.C112_finite_2x2",
    "PyElli.C112_finite_passive_2x2",
    "PyElli.C112_finite_4x4"
   ],
   "note": "The range of doubles is modelled, rounding is not. Proved: finite results are exact (C112_range_2x2, C112_range_4x4), and Solver2x2 is finite and exact as long as a product of sizes over the layers stays below 2^1024 (C112_finite_2x2, C112_finite_passive_2x2), likewise Solver4x4 with PropagatorExpm for any symmetry (C112_finite_4x4, C112_transmission_4x4). The code violates the rest: an absorbing layer with 2 pi d Im(kz)/lbda above 711 (ten micrometres of a metal at 500 nm) makes the reflection coefficients of both solvers NaN, with expm and with the eigen propagator, although the exact reflection converges to that of the bare absorber (C112_thick_layer_refuted)."
  },
  {
   "property": "C113",
   "status": "partial",
   "theorems": [
    "PyElli.Nd.C113_point_by_point",
    "PyElli.Nd.C113_sums",
    "PyElli.Nd.C113_array_solver",
    "PyElli.Nd.C113_shape_refuted",
    "PyElli.Nd.C113_formula_number_refuted",
    "PyElli.Nd.C113_values"
   ],
   "note": "Proved for every class and sum: entry by entry evaluation with the exact description of the shape (C113_point_by_point), entries equal to the formulas of Model/Dispersion.lean and Model/Tanguy.lean (C113_values, C113_sums), and the assumption about dispersions made by the array solver of C103 and C104 (C113_array_solver). Two parts of the claim are violated by the code: constants and dispersions without oscillators return one number for an array (C113_shape_refuted), and formulas raise TypeError for a number (C113_formula_number_refuted)."
  },
  {
   "property": "C114",
   "status": "partial",
   "theorems": [
    "PyElli.Importer.C114_read",
    "PyElli.Importer.C114_last_angle",
    "PyElli.Importer.C114_one_angle_partial",
    "PyElli.Importer.C114_first_angle_refuted",
    "PyElli.Importer.C114_plain_header_refuted",
    "PyElli.Importer.C114_fit",
    "PyElli.Importer.C114_spectraray_rho",
    "PyElli.Importer.C114_nexus_rho"
   ],
   "note": "Full statement: every file shows the matrix of its first angle under the right labels. Proved for one angle and the header written by SpectraRay (two words before the tokens of the columns), with the consequence for fits. False otherwise: with several angles the last one is read (C114_first_angle_refuted), with one header token for each column a file with one angle is refused and one with two angles is read shifted by one element (C114_plain_header_refuted). The readers of rho are proved in full for the files C77 and C96 cover."
  },
  {
   "property": "C115",
   "status": "partial",
   "theorems": [
    "PyElli.C115_reflected_partial",
    "PyElli.C115_transmitted_partial",
    "PyElli.C115_folded",
    "PyElli.C115_mueller",
    "PyElli.C115_stokes",
    "PyElli.C115_rotating_analyser",
    "PyElli.C115_same_state",
    "PyElli.C115_isotropic",
    "PyElli.C115_range_refuted"
   ],
   "note": "Proved for all delta ranges that start at a multiple of 180 degrees, including the default; for (0, 180) without the handedness (C115_folded). False for other ranges because delta is shifted by twice the lower bound (C115_range_refuted, the cause is that of C02 and C03). Partially polarised light: the angles are those of its polarised part (C115_stokes)."
  },
  {
   "property": "C116",
   "status": "partial",
   "theorems": [
    "PyElli.C116_forward_partial",
    "PyElli.C116_no_gain_partial",
    "PyElli.C116_total_reflection",
    "PyElli.C116_uniaxial",
    "PyElli.C116_biaxial_refuted",
    "PyElli.C116_rounding_refuted",
    "PyElli.C116_rounding_damped",
    "PyElli.C116_hyperbolic_refuted"
   ],
   "note": "Proved for passive exit media in which no wave is totally reflected, for absorbing media, and for transparent ones with an evanescent wave and no coinciding undamped waves; every transparent uniaxial crystal off its critical angles is of this kind (C116_uniaxial). False for biaxial crystals near their critical angle: C116_biaxial_refuted gives a transparent crystal where both selected waves are p waves and the matrix is singular. Not robust against rounding for transparent media (C116_rounding_refuted): the code sorts by Im first, so arbitrarily small imaginary parts of the eigenvalues select backward waves; damped media are robust (C116_rounding_damped). False also for lossless media with a negative principal value (C116_hyperbolic_refuted): the reflectance exceeds one."
  },
  {
   "property": "C117",
   "status": "proved",
   "theorems": [
    "PyElli.C117_fresnel",
    "PyElli.C117_aligned",
    "PyElli.C117_brewster",
    "PyElli.C117_isotropic_exit"
   ],
   "note": "The wave numbers are assumed to be separated as the code sorts them (first decay, then real part); C116 states for which media this selects the waves running away."
  },
  {
   "property": "C118",
   "status": "proved",
   "theorems": [
    "PyElli.C118_homogenised",
    "PyElli.C118_passive",
    "PyElli.C118_effective_medium",
    "PyElli.C118_form_birefringence",
    "PyElli.C118_negative"
   ],
   "note": "Exact arithmetic, matrix exponential as propagator."
  },
  {
   "property": "C119",
   "status": "partial",
   "theorems": [
    "PyElli.Exp.C119_settings_partial",
    "PyElli.Exp.C119_last_call_partial",
    "PyElli.Exp.C119_new",
    "PyElli.Exp.C119_same_light_partial",
    "PyElli.Exp.C119_structure_evaluate",
    "PyElli.Exp.C119_alias_refuted"
   ],
   "note": "Proved for all programs in which the caller does not write into an array the experiment currently holds. The unrestricted claim is false: set_vector and set_lbda store the array passed without a copy, so writing into it changes the experiment and leaves the other vector stale (C119_alias_refuted)."
  },
  {
   "property": "C120",
   "status": "partial",
   "theorems": [
    "PyElli.C120_warns_iff_partial",
    "PyElli.C120_silent_agree_partial",
    "PyElli.C120_negative_index_refuted",
    "PyElli.C120_anisotropic_refuted"
   ],
   "note": "Proved: exactly one active-medium warning per medium with negative imaginary part, no other warning, and silent isotropic samples agree with Solver4x4. False: the second warning can never fire, a medium with n < 0 and k > 0 is reported as active (C120_negative_index_refuted); anisotropic samples are treated as isotropic without a warning (C120_anisotropic_refuted)."
  },
  {
   "property": "C121",
   "status": "proved",
   "theorems": [
    "PyElli.C121_backend",
    "PyElli.C121_same_result"
   ],
   "note": "Assumes that torch.linalg.matrix_exp and scipy.linalg.expm both compute the matrix exponential."
  },
  {
   "property": "C122",
   "status": "proved",
   "theorems": [
    "PyElli.C122_s_light",
    "PyElli.C122_p_light",
    "PyElli.C122_p_normal",
    "PyElli.C122_solver2x2_s"
   ],
   "note": "Exact arithmetic, matrix exponential as propagator, isotropic exit medium."
  },
  {
   "property": "C123",
   "status": "partial",
   "theorems": [
    "PyElli.MmPlot.C123_curves_partial",
    "PyElli.MmPlot.C123_full_scale_refuted",
    "PyElli.MmPlot.C123_names_refuted",
    "PyElli.MmPlot.C123_fit_partial"
   ],
   "note": "Proved as stated except: full_scale has no effect in a single plot (C123_full_scale_refuted); with the standard names the third frame carries the names of the first (C123_names_refuted)."
  },
  {
   "property": "C124",
   "status": "partial",
   "theorems": [
    "PyElli.Print.C124_layout",
    "PyElli.Print.C124_determines_partial",
    "PyElli.Print.C124_every_parameter_partial",
    "PyElli.Print.C124_as_index_refuted",
    "PyElli.Print.C124_other_refuted"
   ],
   "note": "The printed text determines class, parameters, oscillators and the order of the terms, for every number format that tells numbers apart (C124_determines_partial), and every parameter appears as `name = value` (C124_every_parameter_partial). The code violates the claim: as_index() of a sum prints no term at all (C124_as_index_refuted), and interpolation kind of tables, formula, axis and unit of formula dispersions are not printed (C124_other_refuted). Arrays as parameter values (tables, pseudo dielectric functions) are outside of the number format: numpy abbreviates them."
  },
  {
   "property": "C125",
   "status": "partial",
   "theorems": [
    "PyElli.RList.C125_appended_partial",
    "PyElli.RList.C125_rows_partial",
    "PyElli.RList.C125_attr_partial",
    "PyElli.RList.C125_one_result_refuted",
    "PyElli.RList.C125_mean_follows",
    "PyElli.RList.C125_shared_refuted",
    "PyElli.RList.C125_copy_refuted",
    "PyElli.RList.C125_delta_range_refuted"
   ],
   "note": "C125_appended_partial (any program without a second name for the list), C125_rows_partial (two or more results) and C125_mean_follows are proved. The code violates the rest: a list given to the constructor stays shared (C125_shared_refuted), as_delta_range changes results already in a list (C125_delta_range_refuted), with one result the rows are wavelengths (C125_one_result_refuted), and no ResultList can be copied or unpickled because __getattr__ recurses before `results` exists (C125_copy_refuted)."
  },
  {
   "property": "C126",
   "status": "partial",
   "theorems": [
    "PyElli.C126_lorentz_energy",
    "PyElli.C126_lorentz_lambda",
    "PyElli.C126_sellmeier",
    "PyElli.C126_drude_refuted",
    "PyElli.C126_drude_resistivity_refuted",
    "PyElli.C126_poles_refuted",
    "PyElli.C126_static_lorentz_energy",
    "PyElli.C126_static_lorentz_lambda",
    "PyElli.C126_static_sellmeier",
    "PyElli.C126_static_cauchy",
    "PyElli.C126_static_gaussian",
    "PyElli.C126_conductor",
    "PyElli.C126_static_tanguy",
    "PyElli.C126_sum_rule_lorentz_energy",
    "PyElli.C126_sum_rule_lorentz_lambda",
    "PyElli.C126_sum_rule_drude_refuted",
    "PyElli.C126_sum_rule_gaussian",
    "PyElli.C126_sum_rule_tauc_lorentz",
    "PyElli.C126_sum_rule_tauc_no_gap",
    "PyElli.C126_static_tauc_no_gap"
   ],
   "note": "Proved for any number of Lorentz oscillators (both kinds, all damping regimes), Sellmeier terms (no absorption: the approach to vacuum only), Gaussian oscillators (dawsn being Dawson's integral) and Tauc-Lorentz oscillators below critical damping, or without a gap and not at critical damping (there with the closed values W = sum A E and static value sum A/E). False for the Drude models: their absorption sums to A but they approach the limit as -A, so the real part has the wrong sign (see C91). False for Poles: the infrared pole enters with the opposite sign. Tanguy approaches vacuum and its real static value obeys the sum rule 2/pi integral Im eps / E; its absorption falls off too slowly for an f-sum. CodyLorentz is not covered; Tauc-Lorentz above critical damping gains a spurious imaginary part (C91)."
  },
  {
   "property": "C127",
   "status": "proved",
   "theorems": [
    "PyElli.C127_every_polarisation",
    "PyElli.C127_no_gain",
    "PyElli.C127_both_sides",
    "PyElli.C127_unpolarised",
    "PyElli.C127_isotropic",
    "PyElli.C127_absorbing_refuted"
   ],
   "note": "C127_every_polarisation and C127_no_gain give the balance for every Jones vector; C127_both_sides, C127_unpolarised and C127_isotropic compare the two sides; C127_absorbing_refuted shows that the lossless hypothesis is needed."
  },
  {
   "property": "C128",
   "status": "proved",
   "theorems": [
    "PyElli.C128_handedness",
    "PyElli.C128_helix",
    "PyElli.C128_modes",
    "PyElli.C128_band"
   ],
   "note": "C128_helix is the limit (with the Maxwell problem of C85), C128_modes the dispersion relation, C128_band the band of selective reflection, C128_handedness the mirror symmetry of whole structures."
  },
  {
   "property": "C129",
   "status": "partial",
   "theorems": [
    "PyElli.C129_single",
    "PyElli.Lookup.C129_mean_partial",
    "PyElli.Lookup.C129_two",
    "PyElli.Lookup.C129_mixture_refuted",
    "PyElli.Lookup.C129_delta_refuted"
   ],
   "note": "C129_single: \u03a3 M\u00b2 = 4, Cloude's condition, polarised light stays polarised, for every Jones matrix. C129_mean_partial: the mean of the Mueller matrices has M00 = 1, meets Cloude's condition, maps light to light, \u03a3 M\u00b2 \u2264 4 with equality exactly if all results have the same Mueller matrix, and is the matrix of the mixture if all reflect the same power. C129_two: for two results it is the matrix of the mixture exactly if the reflected powers or the Mueller matrices are equal. C129_mixture_refuted: the matrices are normalised before averaging, so it is not in general. C129_delta_refuted: psi, delta, rho are averaged as numbers and contradict the averaged Mueller matrix."
  },
  {
   "property": "C130",
   "status": "proved",
   "theorems": [
    "PyElli.C130_azimuth",
    "PyElli.C130_polarisers",
    "PyElli.C130_circular",
    "PyElli.C130_quarter_wave",
    "PyElli.C130_half_wave"
   ],
   "note": "The structures are built with set_rotation and evaluated by the model of Structure. C130_polarisers also states what the attribute T gives: it leaves out the crossed terms (see C88), so it is smaller by T_ps than that of the unturned plates."
  },
  {
   "property": "C131",
   "status": "proved",
   "theorems": [
    "PyElli.C131_coefficients",
    "PyElli.C131_drude",
    "PyElli.C131_indistinguishable",
    "PyElli.C131_transparent",
    "PyElli.C131_pseudo"
   ],
   "note": "C131_coefficients, C131_drude, C131_indistinguishable, C131_transparent and C131_pseudo use the matrix-exponential propagator. The pseudo-dielectric function is in units of the front permittivity, as the code computes it (eb/n0^2 at d = 0). Brewster's angle is left out of C131_transparent because psi is not differentiable there."
  },
  {
   "property": "C132",
   "status": "proved",
   "theorems": [
    "PyElli.C132_second_order",
    "PyElli.C132_structures",
    "PyElli.C132_smooth",
    "PyElli.C132_linear_first_order",
    "PyElli.C132_linear_sharp"
   ],
   "note": "C132_second_order (any passive layers), C132_structures (structure objects with set_divisions), C132_smooth (which layers meet the hypothesis), C132_linear_first_order, C132_linear_sharp (exact values for a matched layer, n times the missing power tends to phi^2)."
  },
  {
   "property": "C133",
   "status": "proved",
   "theorems": [
    "PyElli.C133_period",
    "PyElli.C133_absorbing",
    "PyElli.C133_blind",
    "PyElli.C133_two_attained"
   ],
   "note": "C133_period, C133_absorbing (at most two thicknesses), C133_blind (the exceptional samples, as an equivalence), C133_two_attained."
  },
  {
   "property": "C134",
   "status": "partial",
   "theorems": [
    "PyElli.C134_closed_window",
    "PyElli.C134_accuracy",
    "PyElli.C134_open_window_refuted",
    "PyElli.C134_fixed_refuted",
    "PyElli.C134_fixed_partial"
   ],
   "note": "C134_closed_window and C134_accuracy are proved; the half-open window (C134_open_window_refuted) and the invariance inside the window (C134_fixed_refuted) are false for the code in double precision; C134_fixed_partial keeps the ranges that start at 0."
  },
  {
   "property": "C135",
   "status": "proved",
   "theorems": [
    "PyElli.C135_slices",
    "PyElli.C135_positions",
    "PyElli.C135_thicknesses",
    "PyElli.C135_each_thickness",
    "PyElli.C135_midpoints"
   ],
   "note": "C135_slices, C135_positions, C135_thicknesses, C135_each_thickness, C135_midpoints."
  },
  {
   "property": "C136",
   "status": "proved",
   "theorems": [
    "PyElli.C136_wavelength_energy",
    "PyElli.C136_wavelength_energy_round_trip",
    "PyElli.C136_wavelength_frequency",
    "PyElli.C136_wavelength_wavenumber",
    "PyElli.C136_energy_frequency",
    "PyElli.C136_monotone",
    "PyElli.C136_exact_round_trip_refuted"
   ],
   "note": "C136_wavelength_energy, _round_trip, C136_wavelength_frequency, C136_wavelength_wavenumber, C136_energy_frequency, C136_monotone, C136_exact_round_trip_refuted (why the round trip is stated with a tolerance)."
  },
  {
   "property": "C137",
   "status": "proved",
   "theorems": [
    "PyElli.C137_wiener",
    "PyElli.C137_coated_spheres",
    "PyElli.C137_hashin_shtrikman",
    "PyElli.C137_linear_mixing",
    "PyElli.C137_weak_contrast",
    "PyElli.C137_dilute",
    "PyElli.C137_phase"
   ],
   "note": "Entry by entry, as the classes compute; the bounds are about transparent isotropic constituents. The phase theorem takes constituents with Im >= 0 that are not zero and a result that is not zero (a result of zero has no phase)."
  },
  {
   "property": "C138",
   "status": "proved",
   "theorems": [
    "PyElli.C138_s_polarisation",
    "PyElli.C138_p_polarisation",
    "PyElli.C138_first_order",
    "PyElli.C138_machine",
    "PyElli.C138_double",
    "PyElli.C138_quadrant",
    "PyElli.C138_interface"
   ],
   "note": "Starts from the arrays n_list and th_list as the code has them (their own rounding is not followed). Overflow and underflow are excluded (C112 treats overflow). Sums and products of complex numbers follow numpy; quotient, cosine and exponential are taken to have a relative error of the same order, as the hypothesis Accurate says."
  },
  {
   "property": "C139",
   "status": "proved",
   "theorems": [
    "PyElli.C139_window",
    "PyElli.C139_absorbing",
    "PyElli.C139_transparent",
    "PyElli.C139_total_reflection",
    "PyElli.C139_principal_angle",
    "PyElli.C139_three_principal_angles"
   ],
   "note": "Exact arithmetic, the default delta range (-180, 180). The incident light is (a, a) with a not zero, which every default experiment has (default_jones)."
  },
  {
   "property": "C140",
   "status": "partial",
   "theorems": [
    "PyElli.C140_narrow_tail_refuted",
    "PyElli.C140_absorption_refuted",
    "PyElli.C140_wide_tail_partial"
   ],
   "note": "The code returns NaN for narrow tails (C140_narrow_tail_refuted, C140_absorption_refuted); C140_wide_tail_partial covers wide tails. Tails between 1/710 and 1/600 of the distance are left open: there it depends on the other parameters. Only the range of doubles and the IEEE rules for infinities and NaN are modelled, not the rounding."
  },
  {
   "property": "C141",
   "status": "proved",
   "theorems": [
    "PyElli.C141_psi",
    "PyElli.C141_delta",
    "PyElli.C141_delta_folded",
    "PyElli.C141_turns",
    "PyElli.C141_isotropic",
    "PyElli.C141_machine",
    "PyElli.C141_double",
    "PyElli.C141_rounded_psi",
    "PyElli.C141_rounded_delta"
   ],
   "note": "C141_psi, C141_delta and C141_delta_folded are about exact arithmetic, so a and b may come from anywhere (noise, other models). C141_rounded_delta and C141_double leave out the range (0, 180). The angle of a number next to the negative real axis may be rounded to either side, hence up to a turn. Overflow and underflow are excluded, as in C138; arctan, rad2deg, angle and mod are taken to have a small relative error, as the hypothesis AccurateAngles says; C141_machine shows that rounding every result meets it."
  },
  {
   "property": "C142",
   "status": "partial",
   "theorems": [
    "PyElli.Catalog.C142_name",
    "PyElli.Catalog.C142_filter",
    "PyElli.Catalog.C142_two_ranges_refuted",
    "PyElli.Catalog.C142_rows",
    "PyElli.Catalog.C142_other_names",
    "PyElli.Catalog.C142_texts",
    "PyElli.Catalog.C142_texts_errors",
    "PyElli.Catalog.C142_single_refuted",
    "PyElli.Catalog.C142_filter_refuted"
   ],
   "note": "Two kinds of names are kept with a wrong range: of a name listing separate ranges for n and k only the last range is kept (C142_two_ranges_refuted), so the filter leaves out wavelengths listed for n (C142_filter_refuted); a single wavelength with decimals is split at the point, '10.6 \u00b5m' becomes 10 \u00b5m to 6 \u00b5m (C142_single_refuted), a range that covers nothing. C142_name therefore asks for one dash range in front of the last '\u00b5m'. Only ASCII digits count as digits; word characters, pd.to_numeric and path joining are parameters; the YAML reader and yaml tags are not modelled."
  },
  {
   "property": "C143",
   "status": "proved",
   "theorems": [
    "PyElli.C143_exact",
    "PyElli.C143_expm",
    "PyElli.C143_linear",
    "PyElli.C143_sizes",
    "PyElli.C143_first_order",
    "PyElli.C143_machine",
    "PyElli.C143_double"
   ],
   "note": "k_x, n_x, cos_phi and the exit matrix of an anisotropic half-space are taken as the numbers the code has at that point, so their own errors are not included. expm is assumed exact for a matrix within a relative distance eta of its argument, inv to leave a residual A X - 1 of at most theta |A| |X| for A with theta |A| |A^-1| below one, sums of products to be accurate in some order; C143_machine shows that rounding every real operation meets the conditions. PropagatorEig, overflow and underflow are not covered."
  },
  {
   "property": "C144",
   "status": "partial",
   "theorems": [
    "PyElli.C144_cauchy",
    "PyElli.C144_cauchy_urbach",
    "PyElli.C144_sellmeier",
    "PyElli.C144_lorentz_energy",
    "PyElli.C144_lorentz_lambda",
    "PyElli.C144_tauc_lorentz",
    "PyElli.C144_index",
    "PyElli.C144_drude_refuted",
    "PyElli.C144_drude_resistivity_refuted",
    "PyElli.C144_poles_refuted",
    "PyElli.C144_poles_partial"
   ],
   "note": "Fails for the models whose sign is wrong: DrudeEnergy and DrudeResistivity rise with the wavelength everywhere (C144_drude_refuted, C144_drude_resistivity_refuted), and so does the infrared pole of Poles (C144_poles_refuted); Poles falls when that amplitude is not positive (C144_poles_partial). TaucLorentz below critical damping (C < 2E). Gaussian, Tanguy and CodyLorentz absorb at all energies or are computed numerically and are not covered; exact real arithmetic."
  },
  {
   "property": "C145",
   "status": "proved",
   "theorems": [
    "PyElli.C145_stack",
    "PyElli.C145_thickness",
    "PyElli.C145_isotropic",
    "PyElli.C145_passive"
   ],
   "note": "Norm: largest sum of a row. Exact arithmetic; the rounding errors of the same calculation are C143."
  },
  {
   "property": "C146",
   "status": "proved",
   "theorems": [
    "PyElli.Hist.C146_reset",
    "PyElli.Hist.C146_default_length"
   ],
   "note": "Values; the checkbox for vary changes the initial parameters on purpose (decorator.py:118-120) and is not one of the actions."
  },
  {
   "property": "C147",
   "status": "proved",
   "theorems": [
    "PyElli.C147_s",
    "PyElli.C147_p",
    "PyElli.C147_psi",
    "PyElli.C147_grazing"
   ],
   "note": "Exact arithmetic, Solver4x4 with isotropic half spaces and no layers (BulkSample); psi for 0 < angle."
  },
  {
   "property": "C148",
   "status": "proved",
   "theorems": [
    "PyElli.C148_defined",
    "PyElli.C148_below_critical",
    "PyElli.C148_from_outside",
    "PyElli.C148_exit_layer"
   ],
   "note": "Exact arithmetic. C148_exit_layer shows that the condition at the exit cannot be dropped; in double precision the two cosines differ by rounding and the quotient is large instead of infinite, so no NaN is claimed."
  },
  {
   "property": "C149",
   "status": "partial",
   "theorems": [
    "PyElli.Vary.C149_set_initial",
    "PyElli.Vary.C149_agree_partial",
    "PyElli.Vary.C149_fit_partial",
    "PyElli.Vary.C149_undo_refuted",
    "PyElli.Vary.C149_redo_refuted"
   ],
   "note": "Holds for every sequence in which Undo and Redo are pressed only while no box was changed since the start or the last Set initial (C149_agree_partial, C149_fit_partial), and after Set initial for every sequence (C149_set_initial). The code violates the full statement: the history keeps the flags of its time and update_widgets does not touch the check boxes, so after typing a value, unticking the box and Undo the box is unticked and the parameter is varied by the next fit (C149_undo_refuted; the same with Redo, C149_redo_refuted)."
  },
  {
   "property": "C150",
   "status": "proved",
   "theorems": [
    "PyElli.C150_formula",
    "PyElli.C150_effect",
    "PyElli.C150_range",
    "PyElli.C150_monotone",
    "PyElli.C150_thickness",
    "PyElli.C150_zero",
    "PyElli.C150_fringes",
    "PyElli.C150_solver2x2",
    "PyElli.C150_structure"
   ],
   "note": "Exact arithmetic, exact propagator (PropagatorExpm). Wavelengths inside the film are measured along the normal: half a wavelength is lambda/(2 sqrt(e1 - kx^2)). The formulas hold for Solver2x2 as well (C150_solver2x2, any principal arcsine). C150_structure: the stack is that of a Structure object with one Layer between isotropic materials."
  },
  {
   "property": "C151",
   "status": "proved",
   "theorems": [
    "PyElli.C151_solver2x2",
    "PyElli.C151_formula",
    "PyElli.C151_falls",
    "PyElli.C151_thick"
   ],
   "note": "Exact arithmetic, exact propagator. The range of double precision is the subject of C112. The formulas hold for Solver2x2 as well (C151_solver2x2, any principal arcsine)."
  },
  {
   "property": "C152",
   "status": "proved",
   "theorems": [
    "PyElli.C152_normal",
    "PyElli.C152_absorption",
    "PyElli.C152_transparent",
    "PyElli.C152_circle",
    "PyElli.C152_two_media"
   ],
   "note": "Exact arithmetic. A permittivity equal to that of the medium is excluded (there is then no interface)."
  },
  {
   "property": "C153",
   "status": "proved",
   "theorems": [
    "PyElli.C153_absolute",
    "PyElli.C153_abeles"
   ],
   "note": "Exact arithmetic, default delta range and light (a, a)."
  },
  {
   "property": "C154",
   "status": "proved",
   "theorems": [
    "PyElli.C154_fraction",
    "PyElli.C154_determined",
    "PyElli.C154_tensor",
    "PyElli.C154_monotone",
    "PyElli.C154_attained",
    "PyElli.C154_exchange",
    "PyElli.C154_exchange_maxwell_garnett",
    "PyElli.C154_measured"
   ],
   "note": "Exact arithmetic. The formulas for the fraction are a separate specification (Spec/MixtureFraction.lean). Equal NaN (MaxwellGarnettEMA with a vanishing denominator) also determine the fraction."
  },
  {
   "property": "C155",
   "status": "proved",
   "theorems": [
    "PyElli.C155_cody",
    "PyElli.C155_tauc"
   ],
   "note": "Exact arithmetic. The NaN exactly at the gap is C49_tauc_at_gap_refuted. The real part of CodyLorentz is a sum on a grid (C56, C140) and not part of this claim."
  },
  {
   "property": "C156",
   "status": "proved",
   "theorems": [
    "PyElli.C156_transmittance",
    "PyElli.C156_solver2x2",
    "PyElli.C156_admittance",
    "PyElli.C156_reflectance",
    "PyElli.C156_antireflection",
    "PyElli.C156_one_two_three",
    "PyElli.C156_half_wave",
    "PyElli.C156_pairs"
   ],
   "note": "Exact arithmetic, real indices, normal incidence; Solver4x4 with the exponential propagator and Solver2x2 with a principal arcsine (C156_solver2x2). C93 is the case of equal pairs; the layers here are arbitrary."
  },
  {
   "property": "C157",
   "status": "partial",
   "theorems": [
    "PyElli.C157_unrotated_partial",
    "PyElli.C157_diagonal_iff",
    "PyElli.C157_wanted",
    "PyElli.C157_tilted_refuted",
    "PyElli.C157_quarter_wave_refuted"
   ],
   "note": "Proved for materials that are not rotated (C157_unrotated_partial). The code takes the root of each entry, so that the claim holds exactly for materials whose permittivity tensor is diagonal (C157_diagonal_iff) and fails for every tilted uniaxial crystal (C157_tilted_refuted); the tensor asked for exists (C157_wanted). The thickness of get_qwp_thickness is too small for every crystal tilted in the plane of incidence (C157_quarter_wave_refuted); for isotropic materials it is right (C93, C156)."
  },
  {
   "property": "C158",
   "status": "proved",
   "theorems": [
    "PyElli.C158_equivalent",
    "PyElli.C158_determined",
    "PyElli.C158_unique",
    "PyElli.C158_stop_band"
   ],
   "note": "Exact arithmetic, exponential propagator, real indices, normal incidence. Pass band: the first entry of the real characteristic matrix of Spec/Equivalent.lean lies in (-1, 1)."
  },
  {
   "property": "C159",
   "status": "partial",
   "theorems": [
    "PyElli.C159_inside",
    "PyElli.C159_uniaxial",
    "PyElli.C159_crystal",
    "PyElli.C159_crystals_partial",
    "PyElli.C159_aligned_iff",
    "PyElli.C159_agree_partial",
    "PyElli.C159_aligned_partial",
    "PyElli.C159_critical_refuted",
    "PyElli.C159_voigt_refuted"
   ],
   "note": "Exact arithmetic. np.linalg.eig is any function that returns an invertible matrix of eigenvectors where there is one. What floating-point inversion of a nearly singular matrix gives is not modelled. C159_agree_partial needs a basis of eigenvectors; C159_inside, C159_uniaxial and C159_crystal give one for lossless crystals in any orientation below the critical angles, C159_aligned_iff characterises the crystals with axes along x, y, z, absorbing ones included. C159_critical_refuted (isotropic layer at its critical angle) and C159_voigt_refuted (turned absorbing biaxial crystal, normal incidence) are the failures."
  },
  {
   "property": "C160",
   "status": "proved",
   "theorems": [
    "PyElli.C160_balance",
    "PyElli.C160_loss",
    "PyElli.C160_slices",
    "PyElli.C160_gain_refuted"
   ],
   "note": "Exact arithmetic. C160_balance is the identity, C160_loss and C160_slices the consequences below the critical angles, C160_gain_refuted the created power beyond (so energy conservation, C35, does not hold for this propagator). Layers are isotropic and lossless; the exit permittivity is real and not zero."
  },
  {
   "property": "C161",
   "status": "proved",
   "theorems": [
    "PyElli.C161_axis_all",
    "PyElli.C161_axis_unique",
    "PyElli.C161_euler_all",
    "PyElli.C161_euler_unique",
    "PyElli.C161_uniaxial",
    "PyElli.C161_biaxial"
   ],
   "note": "Exact arithmetic. C161_euler_all is surjectivity, C161_euler_unique uniqueness, C161_axis_all and C161_axis_unique the same for axis and angle, C161_uniaxial and C161_biaxial say when two orientations have one tensor."
  },
  {
   "property": "C162",
   "status": "proved",
   "theorems": [
    "PyElli.C162_sellmeier",
    "PyElli.C162_lorentz",
    "PyElli.C162_lorentz_lambda",
    "PyElli.C162_drude",
    "PyElli.C162_urbach_refuted",
    "PyElli.C162_overdamped_refuted",
    "PyElli.C162_order",
    "PyElli.C162_cauchy"
   ],
   "note": "Exact arithmetic. C162_sellmeier, C162_lorentz and C162_lorentz_lambda are equivalences, C162_order turns equal total amplitudes into equal lists, C162_cauchy and C162_drude treat the other models. C162_overdamped_refuted shows why the bound on gamma is needed, C162_urbach_refuted the superfluous parameter of CauchyUrbach."
  },
  {
   "property": "C163",
   "status": "proved",
   "theorems": [
    "PyElli.C163_recover",
    "PyElli.C163_iff",
    "PyElli.C163_angles",
    "PyElli.C163_power",
    "PyElli.C163_physical",
    "PyElli.Lookup.C163_average",
    "PyElli.C163_polariser",
    "PyElli.C163_unpolarised"
   ],
   "note": "Exact arithmetic, one wavelength. C163_recover are the formulas, C163_iff the equivalence, C163_angles the consequences, C163_physical the matrices that occur, C163_power two samples with equal Mueller matrices and different reflectance. C163_average: averages of samples that differ have no Jones matrix (see also C129). C163_polariser and C163_unpolarised: what the matrix does to unpolarised light."
  },
  {
   "property": "C164",
   "status": "proved",
   "theorems": [
    "PyElli.C164_diagonal",
    "PyElli.C164_symmetric",
    "PyElli.C164_antisymmetric",
    "PyElli.C164_reciprocal",
    "PyElli.C164_normal",
    "PyElli.C164_mirror",
    "PyElli.C164_turn",
    "PyElli.C164_power",
    "PyElli.C164_normal_power"
   ],
   "note": "Exact arithmetic, Solver4x4 with the exponential propagator, isotropic exit medium. C164_reciprocal, C164_normal, C164_mirror, C164_turn, C164_power and C164_normal_power for samples; C164_diagonal, C164_symmetric and C164_antisymmetric for single Jones matrices. Every structure of the package's materials has symmetric tensors (C78_every_structure)."
  }
 ]
}