c("C07", "proved", q("Turning", "C07_findextrema_monotone C07_findextrema_short"), "")
c("C08", "partial", q("Turning", "C08_findtp_alternates_partial C08_refuted C08_findtp_total"), "False when the signal starts with a plateau followed by a drop, refuted by a witness; proved otherwise.")
c("C09", "proved", q("Turning", "C09_findtp_total_variation"), "")
c("C10", "partial", q("Turning", "C10_findtp_waves C10_findtp_negative_h"), "Proved for signals that do not start with a plateau followed by a drop, where the turning points alternate.")
c("C11", "proved", q("Turning", "C11_findtc_extremes C11_findtc_waves C11_findtc_few"), "")
c("C12", "proved", q("RfcFilter", "C12_no_valueError"), "All signals and all thresholds, methods 0 and 1.")
c("C13", "proved", q("RfcFilter", "C13_increasing C13_rfcfilter_ok C13_overflow_at_zero C13_constant_repeats"), "Positive thresholds, and zero for method 1 on non-constant signals; the excluded cases overflow or repeat an index, shown by witnesses.")
c("C14", "proved", q("RfcFilter", "C14_heights C14_alternate"), "")
c("C15", "partial", q("RfcFilter", "C15_no_cycle_lost_partial C15_first_stretch C15_tail C15_refuted"), "False before the second kept point, refuted by a witness; proved for all other stretches and after the last kept point.")
c("C16", "partial", q("RfcFilter", "C16_zigzag_unchanged C16_idempotent_method1 C16_idempotent_method0_partial C16_refuted"), "Method 1 proved; method 0 false at a final swing of exactly h, proved otherwise.")
c("C17", "partial", q("RfcCount", "C17_odd_reads_inside_partial C17_refuted C17_result_independent_of_memory C17_two_turning_points"), "False for every even number of turning points (the element after the last is read); proved for odd numbers; the value read never influences the result.")
c("C18", "proved", q("RfcCount", "C18_rainflow_cycles C18_minimum_unique C18_findrfc_reports C18_leading_maximum"), "")
c("C19", "proved", q("RfcCount", "C19_pairs_high_enough"), "")
c("C91", "proved", q("RfcCount", "C91_findrfc_increasing"), "")
c("C20", "partial", q("Astm", "C20_nothing_cut C20_astm_accounts_partial C20_refuted"), "Proved for turning points (alternating); false if only equal neighbours are excluded, refuted by a witness.")
c("C21", "proved", q("Astm", "C21_total_variation C21_needs_turning_points"), "")
c("C22", "proved", q("Astm", "C22_cycles_inside C22_within_bounds"), "Zero padding rows excluded; they only occur for signals that are not turning points, see C20.")
c("C23", "proved", q("Astm", "C23_times_agree C23_times_exact C23_period_positive"), "")
c("C24", "proved", q("Cycles", "C24_min2max C24_max2min C24_too_short"), "")
c("C25", "proved", q("Cycles", "C25_value C25_nonneg C25_zero_iff C25_additive C25_order C25_direction C25_linear_K C25_scaling C25_mean_level"), "")
c("C26", "partial", q("Cycles", "C26_u_rejected C26_names_partial C26_uM_misses_maxima C26_other"), "Refuted: the name table is off by one, 'u' is rejected for every input; the theorems say what each name selects.")
c("C27", "partial", q("Cycles", "C27_counts_partial C27_minima_partial C27_swapped C27_mixed C27_refuted"), "Proved unless all extremes are negative and two coincide; in that case a spurious level 0 is reported (witness).")
c("C28", "proved", q("Cycles", "C28_indices C28_total C28_upper C28_bad_ddef"), "For grids with at least two levels.")
c("C29", "partial", q("Cycles", "C29_upward_partial C29_nearest_partial C29_exact_partial C29_reverse_partial C29_refuted C29_nearest_refuted C29_order_refuted"), "Refuted: indices are one too large for every grid; the part about projecting upwards holds.")
c("C30", "proved", q("Markov", "C30_counting_distribution C30_variants_agree C30_other_kinds"), "")
c("C31", "proved", q("Markov", "C31_roundtrip C31_inverse C31_inverse_nt"), "")
c("C32", "partial", q("Markov", "C32_right_iff_partial C32_refuted"), "Refuted: a mistyped slice uses the last column; exact characterisation of the entries that are right.")
c("C33", "partial", q("Markov", "C33_refuted"), "Refuted for all inputs: the function always raises. Nothing of the property holds.")
c("C34", "proved", q("Bits", "C34_getbit_range C34_getbit_digit C34_setbit_same C34_setbit_other C34_setbit_own"), "")
c("C35", "proved", q("Bits", "C35_set_get C35_get_set"), "")
c("C36", "proved", q("Select", "C36_lfind"), "")
c("C37", "proved", q("Select", "C37_piecewise C37_wrong_length"), "")
c("C38", "partial", q("Select", "C38_last_wins C38_disjoint_partial C38_refuted"), "Refuted: the last true condition wins, unlike numpy.select; proved for mutually exclusive conditions.")
c("C39", "proved", q("Select", "C39_lazywhere C39_lazy C39_arguments"), "")
c("C40", "proved", q("Select", "C40_sub_dict_select C40_parse_kwargs"), "")
c("C41", "partial", q("Series", "C41_partition_partial C41_single C41_short C41_refuted"), "Proved unless exactly one index is collected; then that sample is reported both spurious and good (proved for every such input, with a witness).")
c("C42", "partial", q("Series", "C42_values_partial C42_linear_partial C42_refuted C42_detrend C42_bad_window"), "Refuted for general series (wrong denominator and window); proved at the first window, for straight lines, for short series, and the exact recursion the code computes.")
c("C43", "proved", q("Geometry", "C43_spaceline C43_midpoint"), "")
c("C44", "proved", q("Geometry", "C44_factors C44_orthogonal C44_proper C44_rotate_length C44_rotate_distance C44_rotate_zero C44_heading_add C44_pitch_add C44_roll_add C44_rotate2d"), "")
c("C45", "proved", q("Geometry", "C45_cart_polar_cart C45_polar_cart_polar C45_range"), "Signed zeros are not modelled.")
c("C46", "proved", q("Geometry", "C46_sub_index_sub C46_index_sub_index C46_outside"), "numpy's ravel_multi_index and unravel_index modelled from their documentation.")
c("C47", "proved", q("Geometry", "C47_nextpow2 C47_nonneg C47_zero_and_sequence"), "")
c("C90", "proved", q("Geometry", "C90_bounds C90_symmetry C90_values"), "")
c("C48", "proved", q("Discretize", "C48_linear C48_adaptive C48_discretize C48_one_point"), "For at least two initial points and, in the adaptive method, a non-negative tolerance; the interpolation used for the error estimate is left arbitrary.")
c("C49", "partial", q("Tran", "C49_grid_partial C49_lower_refuted C49_lower_values C49_values_refuted C49_duplicates"), "Refuted for every request below the data (gap or no cover); proved when no lower extrapolation is asked for. The points added below lie on the line through the first two grid points. Extrapolated values refuted by witnesses.")
c("C50", "partial", q("Tran", "C50_chain_rule_partial C50_fourth_refuted C50_value_partial C50_outside_refuted C50_left_end_refuted"), "First three formulas proved to be the derivatives of the composition; the fourth is wrong (exact error term proved). Values proved inside a uniform grid, refuted outside.")
c("C51", "proved", q("Tran", "C51_range C51_covers_data C51_default_number"), "For data that are not all equal.")
c("C52", "partial", q("Grid", "C52_gridcount_mass_partial C52_gridcount_size_partial C52_weights_rejected C52_refuted_nonuniform"), "Proved for equidistant grids and data below the last grid point; refuted for a grid with unequal steps.")
c("C53", "proved", q("Grid", "C53_gridcount_mean"), "For data below the last grid point (see C54 for the edge).")
c("C54", "partial", q("Grid", "C54_upper_edge_raises C54_outside_rejected_partial"), "The claim is false: a datum on the last grid point always raises IndexError. Proved that data outside the range is rejected with ValueError.")
c("C92", "proved", q("Grid", "C92_gridcountNd_mass_mean"), "Flat array before the final reshape and axis swap.")
c("C93", "partial", q("Grid", "C93_upper_edge_wrong_mass"), "Refuted by a witness; C92 covers data off the upper edge.")
c("C55", "proved", q("Poly", "C55_polyder_polyint C55_default_constants C55_errors"), "")
c("C56", "proved", q("Poly", "C56_polyder"), "")
c("C57", "partial", q("Poly", "C57_reloc_rescl_partial C57_integer_refuted"), "Proved for floating point coefficients; refuted for integer coefficient arrays, where polyreloc truncates.")
c("C58", "proved", q("Poly", "C58_polyshift C58_interval_maps"), "")
c("C59", "proved", q("Poly", "C59_polytrim"), "")
c("C60", "partial", q("Poly", "C60_poly2hstr_partial C60_trailing_zeros C60_square_refuted"), "Proved for at most one trailing zero (and the zero polynomial); with more trailing zeros the exponent is lost.")
c("C61", "proved", q("Cheb", "C61_chebval"), "")
c("C62", "proved", q("Cheb", "C62_cheb2poly"), "")
c("C63", "partial", q("Cheb", "C63_chebder_partial C63_refuted C63_short_raises"), "The returned series minus half its constant coefficient is the derivative: the constant term is doubled; lists of at most two coefficients raise IndexError.")
c("C64", "partial", q("Cheb", "C64_chebint_refuted C64_constant_refuted"), "Refuted: the result is not an antiderivative for any series with nonzero leading coefficient.")
c("C94", "partial", q("Cheb", "C94_fill_partial C94_integer_fill_refuted"), "Proved for floating point fill values; an integer fill truncates all values.")
c("C95", "proved", q("Cheb", "C95_chebroot C95_chebextr"), "")
c("C96", "proved", q("Cheb", "C96_chebfit_interpolates C96_chebfit_exact C96_poly2cheb"), "")
c("C65", "proved", q("Ortho", "C65_ortho2poly"), "")
c("C66", "proved", q("Ortho", "C66_orthofit"), "")
c("C67", "partial", q("PP", "C67_call_partial C67_continuous C67_refuted C67_integer_refuted"),
  "Evaluation is total, selects piece i for breaks[i] < x <= breaks[i+1] and fill outside. Missing: the documented convention at interior breaks of a discontinuous form (refuted: the left piece is used); continuous forms satisfy it (C67_continuous). Integer points truncate the result (refuted).")
c("C68", "proved", q("PP", "C68_integrate C68_derivative_integrate"),
  "Over the reals: integrate() evaluated at x is the Lebesgue integral of the form from the first break; differentiating it returns the coefficients.")
c("C69", "partial", q("PP", "C69_linear_extrapolate_partial C69_integer_refuted"),
  "Proved for float coefficients (unchanged inside, straight line with end value and end slope outside). Integer coefficient arrays are truncated (refuted).")
c("C97", "partial", q("PP", "C97_derivative_partial C97_refuted"),
  "Between breaks derivative() is the derivative; beyond the added breaks derivative() and integrate() return the fill value (refuted).")
c("C70", "proved", q("Slopes", "C70_pchip C70_names"), "Over the reals, for every function that is a cubic Hermite interpolant of the data and the returned slopes.")
c("C71", "partial", q("Slopes", "C71_monotone_partial C71_pchip C71_parabola_refuted C71_steffen_refuted C71_neighbours_refuted"),
  "Proved when the method's slopes have the direction of the data and no two neighbouring intervals are adjusted; refuted for 'parabola' (negative end slope), 'steffen' with falling data, and neighbouring adjusted intervals.")
c("C98", "partial", q("Slopes", "C98_lines_partial C98_refuted C98_akima_refuted"),
  "Proved for three or more points and all methods except 'steffen' with a falling line; refuted for two points with 'parabola', 'stineman', 'akima'.")
c("C72", "proved", q("Stine", "C72_stineman C72_errors"), "Also outside the data; over any ordered field.")
c("C99", "partial", q("Stine", "C99_slopes_partial C99_refuted"),
  "One-sided derivatives at the data points equal the given slopes unless exactly one end slope of the segment equals the chord slope; refuted there.")
c("C100", "partial", q("Stine", "C100_convex C100_monotone_partial C100_refuted"),
  "Convexity/concavity is preserved for all data with at least three points; monotonicity when the flatter end chord is not horizontal, refuted otherwise.")
c("C101", "partial", q("Slopes", "C101_units_partial C101_scaled_units C101_scale_neutral C101_refuted"),
  "Holds for every method except the default 'stineman' without scaling, where it is refuted.")
c("C102", "proved", q("Astm", "C102_half_cycles"), "")
c("C103", "proved", q("Astm", "C103_largest_cycle"), "")
c("C89", "partial", q("Savgol", "C89_pieces_partial C89_refuted"),
  "Pieces, monotonicity and separate smoothing proved; refuted: IndexError when the last piece is a single sample, and a leading plateau followed by a rise is cut though x never turns.")
c("C104", "partial", q("Savgol", "C104_formula_partial C104_smoothing C104_refuted C104_errors C104_negative"),
  "Exact for deriv=0; deriv! times the result is (-1)**deriv times the derivative, so first derivatives have the wrong sign and second derivatives are halved.")
c("C105", "proved", q("Savgol", "C105_least_squares"), "")
c("C106", "partial", q("Savgol", "C106_rising_partial C106_falling_refuted C106_length_partial"),
  "Proved for lines that do not fall and signals longer than half a window; falling lines are changed at the ends, a single sample returns window_size values.")
c("C73", "partial", q("Stats", "C73_one_offender_partial C73_separated_partial C73_refuted C73_decluster C73_short_times"),
  "Separation proved for at most one group of close exceedances; for any number one index meets every pair that is too close; refuted for two groups.")
c("C74", "partial", q("Stats", "C74_covered_partial C74_isolated_kept C74_refuted"),
  "Proved for at most two groups of close exceedances; a third group is lost completely.")
c("C75", "proved", q("Stats", "C75_abscissae C75_positions C75_probabilities C75_argument C75_argument_refuted"),
  "Also shown: an array argument is sorted in place.")
c("C76", "proved", q("Stats", "C76_unit_interval C76_empty C76_declustering C76_real_refuted"),
  "For integer times as stated; with real times both claims fail.")
c("C77", "partial", q("Stats", "C77_sf_rp C77_rp_sf C77_invalid C77_one_event C77_no_events C77_vectors C77_scalar_refuted"),
  "Proved for vectors; scalar arguments raise TypeError.")
c("C78", "proved", q("Trf", "C78_dat_gauss_dat C78_gauss_dat_gauss C78_standardized"), "")
c("C79", "proved", q("Trf", "C79_dat_gauss_dat C79_gauss_dat_gauss C79_increasing C79_no_skew"), "")
c("C80", "partial", q("Trf", "C80_bracket C80_equations_partial C80_mean_refuted C80_rejected"),
  "Two of the three equations and the sign change are proved; the equation for mean2 fails for every non-zero skewness.")
c("C81", "partial", q("Trf", "C81_inverse_partial C81_hardening_formula C81_hardening_increasing C81_softening1988 C81_quadratic_partial C81_beyond_refuted"),
  "Both inverses proved for all data when the polynomial has no critical point; for the parabola on its rising branch; on the other branch the mirrored value is returned.")
c("C107", "partial", q("Trf", "C107_refreshed_partial C107_skew_refuted"), "A new skewness is ignored.")
c("C108", "partial", q("Trf", "C108_check_partial C108_scale_refuted"),
  "Proved for standardized data; for kurt <= 3 the limit is compared on the wrong scale otherwise.")
c("C109", "partial", q("Trf", "C109_nonmonotone_refuted C109_constructed"),
  "Refuted: a cubic with two critical points raises TypeError; exact condition given.")
c("C110", "proved", q("Trf", "C110_distance C110_distance_at C110_offset"), "")
c("C82", "proved", q("Disp", "C82_round_trip C82_nonneg C82_relation C82_converse C82_current"), "")
c("C83", "proved", q("Disp", "C83_fixed_point C83_unique C83_wave_numbers C83_iterations C83_two_constants C83_odd"),
  "Convergence of the iteration within count_limit steps is not claimed; without a warning the last update is below tolerance.")
c("C111", "proved", q("Disp", "C111_elementwise"), "")
c("C84", "proved", q("Plot", "C84_plotscale C84_negative C84_plottype"), "")
c("C85", "partial", q("Plot", "C85_round_trip_partial C85_refuted"), "Holds exactly for digits 0-4 and 6; 5 and 7 raise KeyError, 8 and 9 IndexError.")
c("C86", "proved", q("Plot", "C86_to_cdf"), "")
c("C112", "partial", q("Plot", "C112_additive C112_cdf C112_default C112_outside C112_reversed_refuted"), "Exchanged limits ignore the data in between.")
c("C87", "partial", q("Ship", "C87_length_partial C87_beam_partial C87_draught_partial C87_speed_partial C87_propeller_partial C87_deadweight_refuted C87_value_refuted C87_rejected"),
  "The given value is returned rounded; max_deadweight gets a misspelled extra key and keeps a non-zero deviation.")
c("C88", "partial", q("ChebNd", "C88_refuted C88_square C88_constant_refuted"), "Refuted for every number of samples different from the number of coefficients; wrong coefficients otherwise.")
c("C113", "partial", q("Quad", "C113_exact_partial C113_error_zero C113_errors C113_negative_error_refuted"), "Exactness proved for callables; a table of samples always raises ValueError and the error estimate is negative for b < a.")
c("C114", "partial", q("Quad", "C114_result C114_table_partial C114_linear C114_type_error_refuted"), "Table proved exact; on ordinary intervals (length between 8e-9 and 1.07, or reversed limits) the table limit is computed as a non-integer and the call raises TypeError.")
c("C115", "partial", q("Quad", "C115_expand_partial C115_one_refuted"), "n = 1 repeats the node.")
c("C116", "proved", q("Quad", "C116_closed"), "")
c("C117", "partial", q("Quad", "C117_sqrt_partial"), "Assumes that the Newton iterations of p_roots have converged to the exact roots (existence of such values proved).")
c("C118", "partial", q("Quad", "C118_exact_partial C118_three_points_refuted"), "Other numbers of points than 4m+1 silently give wrong values.")
c("C119", "partial", q("Quad", "C119_polynomial_partial C119_reverse C119_stopping C119_no_uncomputed C119_change_of_variable C119_infinite_partial C119_richardson"), "The tabulated base rule is a parameter with its exactness as hypothesis (the decimals of the table are rounded); dtype truncation of integer-valued integrands not modelled; exactness on (-inf, inf) not stated.")
c("C120", "partial", q("Quad", "C120_qrule_partial C120_polynomial_partial C120_stopping C120_orientation_refuted C120_reverse_refuted C120_unknown C120_cache C120_cache_injective C120_cache_refuted"), "Exponents exchanged for wfun 4, descending limits keep the sign for wfun 5 and 6, cache key keeps six digits.  Newton iterations assumed converged.")
c("C121", "partial", q("Quad", "C121_converged_exists C121_methods_agree C121_exact_partial C121_one_refuted"), "Newton iterations assumed converged; n = 1 doubles the integral.")
c("C122", "partial", q("Quad", "C122_exact_partial C122_one_refuted"), "Newton iterations assumed converged; n = 1 doubles the integral.")
c("C123", "partial", q("Quad", "C123_exact_partial"), "Newton iterations assumed converged.")
c("C124", "partial", q("Quad", "C124_exact_partial C124_orientation_refuted"), "Newton iterations assumed converged; qrule's documented orientation is exchanged.")
c("C125", "partial", q("Kde", "C125_density C125_names C125_table C125_gauss_radius_refuted"), "Proved for the eleven named kernels; the Gaussian class normalises wrongly for other radii.")
c("C126", "partial", q("Kde", "C126_default_partial C126_default_refuted"), "Triangular and logistic kernel raise TypeError.")
c("C127", "partial", q("Kde", "C127_stats C127_triweight_refuted"), "Every finite number is right; Rdd of the triweight kernel is 35, not infinity.  The other infinities are not examined.")
c("C128", "proved", q("Kde", "C128_derivatives C128_count C128_psi"), "")
c("C129", "proved", q("Kde", "C129_amise C129_units C129_getG C129_spread"), "")
c("C130", "partial", q("Kde", "C130_density C130_density_matrix C130_rejected C130_shapes C130_integer_refuted"), "Integer vectors with entries to be replaced are truncated.  Default bandwidths are assumed positive.")
c("C131", "proved", q("Kde", "C131_loops C131_pointwise C131_value"), "")
c("C132", "proved", q("Kde", "C132_adaptive"), "")
c("C133", "partial", q("Kde", "C133_density C133_power_partial C133_power_refuted C133_inverse C133_integer_refuted C133_single_refuted"), "One dimension.  Mass is lost for powers, integer data are truncated, a single point raises ValueError.")
c("C134", "partial", q("Kde", "C134_mean C134_line C134_line_gauss C134_plane_refuted C134_negative_refuted C134_transform_refuted"), "Planes are not reproduced in two dimensions; the fast evaluation loses negative responses and, with a transformation, all responses.")
c("C135", "proved", q("Kde", "C135_wilson C135_wilson_bounds C135_credible"), "The quantile function of the beta distribution is a parameter.")
c("C136", "partial", q("Kde", "C136_best C136_outside_refuted"), "The start value, 0.1 above the last candidate, can be returned.")
c("C137", "proved", q("Kde", "C137_binned C137_on_grid C137_psi"), "One dimension; the Fourier transforms are replaced by the exact circular convolution.")
c("C138", "partial", q("Kde", "C138_constants_refuted"), "psi8 is right, psi12 is too small by the factor 12.")
c("C139", "proved", q("Kde", "C139_grid C139_probability"), "")
c("C140", "proved", q("Dct", "C140_roundtrip C140_roundtrip' C140_energy C140_empty_axis"), "Type 2, norm='ortho' (the defaults); the one dimensional transforms of scipy are given by their formulas.")
c("C141", "partial", q("Dct", "C141_one_axis C141_compose C141_default C141_shape C141_shape_length C141_negative_refuted C141_negative_witness C141_bad_axis"), "Negative axes are accepted but silently not transformed.")
c("C142", "partial", q("Dct", "C142_rotate C142_add C142_period C142_none_partial C142_none_refuted C142_negative"), "When all axes are singletons none is removed.")
c("C143", "partial", q("Dct", "C143_roundtrip C143_empty C143_length_refuted"), "With n different from len(x) the result is scaled by the wrong length.")
c("C144", "proved", q("Spec", "C144_moments C144_energy C144_peak C144_formula C144_periods C144_rejected"), "")
c("C145", "partial", q("Spec", "C145_peakfact_range C145_peakfact_monotone C145_peakfact_jump_refuted C145_gamma_one C145_gamma_one_ok"), "The peakedness jumps from 1.018 to 1 at Tp/sqrt(Hm0) = 5.14.")
c("C146", "partial", q("Spec", "C146_energy_to_cutoff C146_energy_refuted C146_energy C146_peak C146_normalisation_positive C146_default"), "Normalised by integration the area up to the cut-off is Hm0^2/16, so that the whole area is larger. Quadrature is taken to be exact.")
c("C147", "partial", q("Spec", "C147_rejected C147_method C147_parametric_partial C147_parametric_refuted"), "The limits for M and gamma are ignored if N is in range (operator precedence).")
c("C148", "partial", q("Spec", "C148_scaling C148_positive C148_fetch C148_energy_refuted"), "Ag is Phillips' constant but is used as normalisation, so that the documented use gives a spectrum with too little energy.")
c("C149", "partial", q("Spec", "C149_range C149_monotone C149_zero C149_negative_refuted"), "For a wave number solver that solves the dispersion relation exactly. The factor is odd in w.")
c("C150", "partial", q("Spec", "C150_call C150_bounds C150_energy C150_height_refuted"), "In finite depth the significant wave height is smaller than Hm0.")
c("C151", "partial", q("Spec", "C151_split C151_energy C151_cutoff_refuted C151_zero_refuted C151_ok"), "wnc has no effect; Hm0 = 0 raises ZeroDivisionError; the energy of a peaked component is Hm0^2/16 only up to six times the peak frequency.")
c("C152", "partial", q("Spec", "C152_energy_partial C152_energy_refuted C152_rejected C152_unchecked_refuted"), "The energy is within half a percent of Hm0^2/16, never equal.")
c("C153", "partial", q("Spec", "C153_formula C153_period C153_crossing_refuted C153_zero_refuted"), "Tz is the energy period of the spectrum, not the zero-crossing period.")
c("C154", "proved", q("Spec", "C154_energy C154_five"), "For Hm0/Lp < 2/pi.")
c("C155", "partial", q("Spread", "C155_density_partial C155_sech2_refuted"), "wrapped-normal is C160; sech-2 with spread parameter zero (default at frequency zero) is zero in all directions. Equations for the distribution parameters are taken to be solved exactly.")
c("C156", "partial", q("Spread", "C156_sine C156_first_partial C156_sech2_refuted"), "The documented equation for sech-2 is the one on the whole line, so the coefficient differs.")
c("C157", "proved", q("Spread", "C157_shape C157_turn C157_periodic"), "C157_shape: all kinds except wrapped-normal, where the claim is C160.")
c("C158", "partial", q("Spread", "C158_parameter_partial C158_default C158_limits_refuted C158_negative C158_directions"), "At the limits themselves the parameter is not the documented one.")
c("C159", "partial", q("Spread", "C159_first C159_documented_refuted C159_method C159_roundtrip_refuted C159_donelan_refuted"), "'Box-car', 'Poisson' raise KeyError; 'donelan', 'banner' raise AttributeError; the reported name 'frequency_independent' is rejected.")
c("C160", "partial", q("Spread", "C160_entries C160_grid C160_total C160_endpoint_refuted C160_empty"), "Only the first angle is looked at: right for equally spaced angles without end point, wrong for those tospecdata2d makes.")
c("C161", "proved", q("Spread", "C161_spectrum C161_theta C161_r1"), "All kinds except wrapped-normal, see C160.")
c("C162", "proved", q("Waves", "C162_waves C162_none C162_rate"), "Field arithmetic; Stineman interpolation is a parameter.")
c("C163", "proved", q("Waves", "C163_steepness C163_kinds"), "An unknown number fails with UnboundLocalError, an unknown name with KeyError.")
c("C164", "partial", q("Waves", "C164_up_first_partial C164_down_first C164_refuted"), "Holds when the first crossing is an up-crossing; otherwise the directions are exchanged.")
c("C165", "partial", q("Waves", "C165_elevations C165_refuted"), "The result is a difference of data values, not of times.")
c("C166", "partial", q("Waves", "C166_origin C166_refuted C166_failures"), "u2c, d2t, c2d and t2u subtract a time from a data value or the other way round.")
c("C167", "partial", q("Waves", "C167_period C167_short C167_default C167_range_refuted"), "Without times TimeSeries fails, and the range it puts for empty times makes wave_parameters fail.")
c("C168", "proved", q("LevelX", "C168_increasing C168_sample C168_counts C168_none"), "Without a level above the threshold an IndexError is raised.")
c("C169", "partial", q("LevelX", "C169_result C169_counts C169_levels C169_jump C169_default C169_top_refuted"), "The fit is a parameter. At the thresholds the result has one crossing more than observed; if the highest level is above the default threshold an IndexError is raised.")
c("C170", "partial", q("LevelX", "C170_gauss C170_units C170_intensity C170_given C170_short_refuted C170_between_refuted"), "Holds for at least 22 levels one of which is the mean; otherwise TypeError or another standard deviation.")
c("C171", "partial", q("LevelX", "C171_irregularity C171_process C171_start_refuted"), "The second starting value is scaled with sqrt(1 - r2**2) instead of sqrt(1 - r1**2). The ratio uses the arccos formula for Gaussian sequences, which is not proved here.")
c("C172", "partial", q("Cov", "C172_estimate C172_documented_partial C172_documented_refuted C172_mirror C172_maximum"), "The estimate is circular: documented values hold for lags up to nfft - n only. scipy windows are a parameter, the fast Fourier transform is its defining sum.")
c("C173", "partial", q("Cov", "C173_unbiased_refuted C173_normalized"), "The unbiased estimate always raises a ValueError.")
c("C174", "partial", q("Cov", "C174_mean_partial C174_missing C174_missing_refuted C174_first_missing_refuted"), "Holds without missing values; with missing values another mean is subtracted.")
c("C175", "proved", q("Cov", "C175_default_lag"), "Series without missing values and with positive variance.")
c("C176", "partial", q("Cov", "C176_covariance C176_sizes C176_energy C176_step_partial C176_step_refuted C176_rejected C176_negative_refuted"), "The documented step of the lags holds for 2**m + 1 frequencies only; negative first frequencies are accepted.")
c("C177", "proved", q("Cov", "C177_derivatives"), "All derivatives, not only the four that the method names.")
c("C178", "partial", q("Cov", "C178_density C178_frequencies C178_energy C178_energy_refuted C178_nugget_refuted"), "method='fft'. The energy is kept if the density is not negative; the nugget is added to the object itself.")
c("C179", "partial", q("Cov", "C179_roundtrip_partial C179_roundtrip_refuted"), "Exact for 2**m + 1 frequencies.")
c("C180", "partial", q("Cov", "C180_exact_partial C180_zero_refuted C180_rejected C180_default_refuted C180_step_refuted C180_derivative_refuted"), "Exact if the last covariance is not zero and the spectral density stays above 1e-5 of its maximum. Second moments only; normality of linear combinations is not modelled.")
c("C181", "partial", q("Cov", "C181_exact_partial C181_approx_partial C181_lag C181_short_refuted C181_long_refuted C181_overwritten_refuted C181_changed_refuted C181_trivial"), "Proved for series between one and 10/3 (exact) or two (approximate) lengths of the covariance function; the drawn sample is not modelled.")
c("C182", "proved", q("SpecD", "C182_moments C182_hertz C182_even C182_names"), "Simpson's rule is a parameter; for hertz any weighted sum whose weights scale with the points.")
c("C183", "partial", q("SpecD", "C183_freqtype C183_ignored_refuted"), "Proved between hertz and rad/s; refuted for wave numbers: the assignment is silently ignored.")
c("C184", "partial", q("SpecD", "C184_normalize C184_gravity C184_twice C184_hertz_refuted C184_wavenumber_refuted"), "Proved for rad/s; refuted for hertz (m2 becomes 1/(2 pi)^2) and for wave numbers (nothing is changed).")
c("C185", "partial", q("SpecD", "C185_range C185_scale C185_units C185_names C185_default_refuted C185_eps4_refuted"), "Values, ranges and invariance proved; refuted: the default argument raises TypeError and the name eps4 gives Qp.")
c("C186", "proved", q("SpecD", "C186_selection C186_names C186_values C186_bandwidth C186_peak"), "numpy.interp in Rs is a parameter; Ka, Rs, Tp1 are only modelled.")
c("C187", "partial", q("SpecD", "C187_variances C187_places_refuted C187_symmetric C187_missing"), "The variances are those of the delta method; refuted: the covariances of Hm0 with Tm01 and Tm02 stand one column too far to the right.")
c("C188", "partial", q("SpecD", "C188_units_partial C188_hertz_refuted"), "Proved for Hm0, Tm01, Tm02, Tm24, Ss, Alpha, Eps2, Eps4, Qp; refuted for Tm_10, Tp, Tp1 and Sp.")
c("C189", "partial", q("SpecD", "C189_dt_refuted C189_cov_refuted"), "Refuted: both messages raise TypeError when formatted; proved exactly when.")
c("C190", "partial", q("SpecD", "C190_covariance C190_grid C190_mean C190_odd_refuted C190_derivative_refuted C190_ends_refuted"), "Covariances, mean and times proved; refuted: an odd number of points is raised by one, the derivative always fails, the first and the last value of the spectrum are ignored.")
c("C191", "partial", q("SpecD", "C191_exact C191_method C191_covariance_partial"), "Same restrictions on the covariances as C180: the density of the covariances must be positive and not small, and the last covariance not zero.")
c("C192", "partial", q("SpecD", "C192_values_partial C192_names C192_unbound_refuted C192_types_refuted C192_myt_refuted C192_hertz_refuted"), "Proved for all moments but myt, which uses the cosine; refuted: y and t without x, wave number spectra, spectra in hertz.")
c("C193", "partial", q("SpecD", "C193_turn_partial C193_offset_refuted C193_layout_refuted C193_types"), "Proved for a list of arguments with angles first that start at -pi; refuted for other starts and for the layout of tospecdata2d.")
c("C194", "partial", q("SpecD", "C194_grid_partial C194_closed_refuted"), "Proved for open grids that start at -pi; refuted for closed grids: the call raises an error.")
c("C195", "partial", q("SpecD", "C195_grid C195_dense_partial C195_dense_refuted C195_default_refuted C195_nmax_refuted"), "Grid, sampling interval, signs and kept values proved for any sound interpolation; refuted: fineness for spectra that start above zero, Nmax, and that only zero padding happens by default.")
c("C196", "partial", q("SpecD", "C196_matrix C196_total C196_rows_refuted"), "Entries proved whenever a matrix is returned, and that one is returned for few rows; refuted: the default number of rows can exceed what the resampled spectrum gives (ValueError).")
c("C197", "proved", q("Padua", "C197_points C197_zero"), "For every degree and rectangle.")
c("C198", "partial", q("Padua", "C198_interpolates C198_zero_refuted"), "Proved for every degree from one on and every function; refuted for degree zero (IndexError).")
c("C199", "proved", q("Padua", "C199_recovers C199_polynomial"), "For every degree from one on, every proper rectangle and every polynomial of total degree at most n.")
c("C200", "proved", q("Padua", "C200_cubature C200_polynomial"), "For every square coefficient matrix and rectangle.")
c("C201", "partial", q("Padua", "C201_estimate C201_bound_refuted"), "The estimate is characterized; refuted as a bound for the error.")
c("C202", "partial", q("Padua", "C202_mesh C202_clipped C202_outside_refuted"), "Meshgrid and clipping proved; refuted: a reproduced polynomial is not reproduced outside the rectangle.")
c("C203", "proved", q("Osc", "C203_exact"), "For every solver of nonsingular systems.")
c("C204", "proved", q("Osc", "C204_linear"), "Nonsingularity and exactness for all distinct nodes.")
c("C205", "proved", q("Osc", "C205_bisection C205_composite"), "Invariant of the bisection by induction.")
c("C206", "partial", q("Osc", "C206_linear C206_maxiter_refuted"), "Proved for maxiter from two on; refuted for maxiter 0 and 1, which always fail.")
c("C207", "proved", q("Osc", "C207_estimate C207_stops"), "For every extrapolation function; nan values are not modelled.")
c("C208", "proved", q("Osc", "C208_derivative C208_up C208_down C208_line C208_line_limit"), "Equivalence of convergence on half lines; on the line, convergence of the halves gives convergence of the transformed integral.")
c("C209", "proved", q("Osc", "C209_exact C209_linear"), "Derivatives are exact; rows with infinite values are not modelled.")
c("C210", "proved", q("Osc", "C210_limits C210_sum C210_levin C210_ew"), "For different limits.")
c("C211", "partial", q("Osc", "C211_roots C211_extrema C211_extrema_one_refuted C211_loop C211_loop_refuted C211_levin C211_levin_refuted C211_points C211_num C211_quadOsc"), "Proved for odd numbers of points and positive delta; refuted for chebyshev_extrema(1), for even numbers in adaptive_levin_points and for delta = 0.")
c("C212", "proved", q("Theory", "C212_ratio C212_sign C212_pole"), "Over the reals; an infinite value is modelled as none.")
c("C213", "partial", q("Theory", "C213_ids C213_outside C213_names C213_known C213_unknown_refuted C213_number_refuted C213_case_refuted"), "Round trips proved; refuted: sensor_type of a list with nan is a TypeError, TransferFunction with a sensor number and with the name 'N' is a KeyError in tran.")
c("C214", "partial", q("Theory", "C214_returns C214_water C214_negative_refuted C214_negative_cases C214_deep_refuted C214_deep_limit C214_igam C214_elevation"), "Proved in water of finite depth; refuted: a negative Hw is an IndexError, and for infinite depth Hw is 0 for all sensors below the surface while the limit of the pressure is rho g exp(k z).")
c("C215", "proved", q("Theory", "C215_time C215_slopes"), "For the complete transfer function Hw * Gwt.")
c("C216", "partial", q("Theory", "C216_continuity C216_irrotational C216_down_refuted"), "Proved for z measured upwards; for igam=2 the velocity in z-direction points upwards and the sum is not 0.")
c("C217", "partial", q("Theory", "C217_motion C217_gravity_refuted C217_bottom C217_surface"), "Equations of motion and boundary conditions proved; refuted for the wave numbers tran computes itself, which belong to gravity 9.81.")
c("C218", "partial", q("Theory", "C218_axes C218_from C218_period C218_same_refuted"), "Proved for axes at a right angle; thetax and thetay are read differently: equal axes have opposite slopes.")
c("C219", "proved", q("Theory", "C219_pressure C219_transfer"), "The peak factor and w2k are parameters, with a positive wave number.")
c("C220", "partial", q("Peaks", "C220_vector_partial C220_few_refuted C220_one_row_refuted C220_matrix"),
  "vector case with min_h = 0; fewer than two turning points and one-row matrices end in errors (refuted)")
c("C221", "proved", q("Thresh", "C221_default C221_conditional"), "")
c("C222", "partial", q("Thresh", "C222_mean C222_slope C222_units C222_thresholds_partial C222_given_limits C222_nmin_refuted C222_short"),
  "at the last default threshold fewer than nmin data remain (refuted); Student quantiles are a parameter")
c("C223", "partial", q("Thresh", "C223_total C223_index C223_times C223_monotone C223_threshold C223_result C223_divisor_refuted"),
  "all but the divisor of the variance: M instead of the M - 1 that the documented limits are for (refuted); chi-square quantiles are a parameter")
c("C224", "partial", q("Gam", "C224_stirlerr C224_betaloge C224_binomln C224_choose C224_binomln_refuted"),
  "exact arithmetic; for real w > z binomln is -inf though the coefficient is not zero, and the documented formula lacks the +1 (refuted)")
c("C225", "partial", q("Fourier", "C225_coefficients_partial C225_series C225_mutation_refuted"),
  "the coefficients are those of the sum times q T / (2 pi), right only for one period of 2 pi; the array t of the caller is reshaped (refuted)")
c("C226", "partial", q("Fourier", "C226_neg_partial C226_large_refuted"), "numerators up to the limit; large negative numerators are not limited (refuted)")
c("C227", "proved", q("Gauss", "C227_cdflomax C227_mono"), "exact arithmetic; erfc is the integral it is documented to be")
c("C228", "proved", q("Gauss", "C228_error C228_bound C228_zero"),
  "exact arithmetic; twopi is taken as 2 pi; the size of the quadrature error itself is not bounded")
c("C229", "proved", q("Gauss", "C229_perfect C229_values"), "exact arithmetic")
c("C230", "proved", q("Gauss", "C230_error"), "exact arithmetic; the size of the quadrature error itself is not bounded")
c("C231", "partial", q("Gauss", "C231_comm C231_reflect_partial C231_spec C231_not_reflect"),
  "exchange for all inputs; reflection below 0.3 and from 0.925 on; between, negative correlations use the 6 point rule and the identity fails (negation proved)")
c("C232", "partial", q("Gauss", "C232_elementwise_partial C232_scalar C232_not_elementwise"),
  "one correlation for all points, and arrays with the high correlations first; otherwise line 904 rescales the wrong elements (negation proved)")
c("C233", "partial", q("Gauss", "C233_rectangle_partial C233_not_strip"),
  "all rectangles but the strips, for which the function returns one (negation proved)")
c("C234", "proved", q("Gauss", "C234_tables C234_positive C234_choice"), "the tables as decimal fractions")
c("C235", "proved", q("Est", "C235_expon C235_weibull_min C235_index"), "")
c("C236", "partial", q("Est", "C236_genpareto_partial C236_genpareto_loc_refuted C236_genextreme_partial C236_gumbel_partial C236_gumbel_loc_refuted C236_genextreme_loc_refuted"),
  "shape and scale; the location branches are wrong (negations proved)")
c("C237", "partial", q("Est", "C237_loc_partial C237_scale_refuted C237_lookup_refuted"),
  "location; the scale branches and the registered name are wrong (negations proved)")
c("C238", "partial", q("Est", "C238_shape_partial C238_burr_refuted C238_exponweib_refuted C238_genexpon_refuted"),
  "the branches that are right; for the others negations are proved")
c("C239", "partial", q("Est", "C239_indexes_partial C239_default C239_default_refuted"),
  "given indexes; the default is the last estimated parameter, not the first (negation proved)")
c("C240", "proved", q("Est", "C240_search"), "the optimiser is an arbitrary function of call number and point")
c("C241", "proved", q("Est", "C241_sublist C241_contiguous"), "infinite profile values are not modelled")
c("C242", "proved", q("Est", "C242_bounds C242_one_sided"), "")
c("C243", "partial", q("Est", "C243_grid_partial C243_count_refuted C243_few_refuted"),
  "four points or more, up to n + 1 points; the documented maximum and smaller n are refuted")
c("C244", "proved", q("Est", "C244_symmetric C244_quadratic C244_covariance C244_information"), "pinv is a parameter")
c("C245", "proved", q("Est", "C245_staircase"), "")
c("C246", "proved", q("Est", "C246_grid C246_equal"), "")
c("C247", "partial", q("Est", "C247_names C247_reduced C247_start C247_none_refuted"),
  "all but None for location and scale, which fixes them at None (negation proved)")
c("C248", "partial", q("Est", "C248_bound_partial C248_attained C248_tails C248_ties_refuted"),
  "data without ties; with ties the bound fails (negation proved)")
c("C249", "proved", q("Est", "C249_invariance"), "")
c("C250", "partial", q("Est", "C250_rows_partial C250_default_refuted"),
  "all but the default index, for which a negation is proved")
c("C251", "proved", q("Dist", "C251_expon C251_weibull_min C251_weibull_max C251_exponweib C251_exponpow C251_rayleigh C251_truncrayleigh C251_gompertz C251_invweibull C251_truncexpon C251_genexpon"), "")
c("C252", "proved", q("Dist", "C252_gumbel_r C252_gumbel_l C252_genpareto C252_genextreme"), "")
c("C253", "proved", q("Dist", "C253_uniform C253_pareto C253_lomax C253_powerlaw C253_reciprocal C253_bradford C253_burr C253_fisk C253_burr12 C253_mielke C253_kappa3"), "")
c("C254", "proved", q("Dist", "C254_logistic C254_genlogistic C254_halflogistic C254_genhalflogistic C254_hypsecant C254_laplace C254_loglaplace"), "")
c("C255", "proved", q("Dist", "C255_anglit C255_arcsine C255_cosine C255_cauchy C255_halfcauchy C255_foldcauchy C255_semicircular"), "")
c("C256", "proved", q("Dist", "C256_triang C256_trapz C256_dweibull"), "")
c("C257", "partial", q("Dist", "C257_kappa4 C257_ppf_partial C257_ppf_refuted"),
  "the quantile function for k = 0 and h < 0 is always nan (negation proved)")
c("C258", "proved", q("Dist", "C258_gamma C258_chi2 C258_chi C258_maxwell C258_nakagami C258_gengamma C258_invgamma C258_halfgennorm C258_dgamma C258_gennorm"), "")
c("C259", "proved", q("Dist", "C259_inverse_transform C259_chi C259_maxwell C259_rayleigh C259_dgamma C259_dweibull C259_foldcauchy C259_semicircular"), "")
c("C260", "partial", q("Dist", "C260_gamma C260_chi2 C260_chi C260_maxwell C260_rayleigh C260_nakagami C260_gengamma_partial C260_gengamma_no_mean C260_invgamma C260_weibull_min C260_weibull_max C260_dweibull C260_expon C260_laplace C260_dgamma C260_gennorm C260_invweibull_partial C260_invweibull_no_moment"),
  "gengamma and invweibull report finite numbers for moments which do not exist (negations proved)")
c("C261", "partial", q("Dist", "C261_uniform C261_powerlaw C261_pareto C261_genpareto_munp C261_genpareto C261_lomax C261_reciprocal C261_bradford C261_triang C261_truncexpon C261_anglit C261_cosine C261_arcsine C261_semicircular C261_loglaplace_partial C261_loglaplace_no_moment C261_cauchy C261_halfcauchy C261_truncrayleigh_partial C261_truncrayleigh_no_mean"),
  "loglaplace reports finite numbers for moments which do not exist, truncrayleigh ignores its parameter (negations proved)")
c("C262", "partial", q("Dist", "C262_expon C262_weibull_min C262_weibull_max C262_invweibull C262_gumbel_r C262_gumbel_l C262_rayleigh C262_genextreme C262_uniform C262_pareto C262_lomax C262_genpareto C262_powerlaw C262_fisk C262_logistic C262_halflogistic C262_genhalflogistic C262_gamma C262_gengamma C262_invgamma C262_halfgennorm C262_gennorm C262_maxwell C262_anglit C262_cauchy C262_halfcauchy C262_hypsecant C262_reciprocal C262_bradford C262_truncexpon C262_laplace C262_loglaplace C262_triang C262_cosine C262_gompertz C262_truncrayleigh_partial C262_truncrayleigh_wrong"), "proved for all parameters of 35 classes; refuted for the truncated Rayleigh distribution with c = 3 and proved there for c = 0; the decimal constants of arcsine and semicircular are not modelled")
c("C263", "proved", q("Dist", "C263_norm C263_lognorm C263_gilbrat C263_halfnorm C263_foldnorm C263_alpha C263_fatiguelife C263_johnsonsb C263_johnsonsu C263_levy C263_levy_l C263_moyal C263_powernorm C263_powerlognorm C263_invgauss C263_recipinvgauss C263_exponnorm C263_crystalball C263_skewnorm"), "ndtri, erfcinv and quad are parameters, assumed to be the inverse functions and the integral")
c("C264", "proved", q("Dist", "C264_norm C264_lognorm C264_gilbrat C264_foldnorm C264_halfnorm C264_fatiguelife C264_recipinvgauss C264_moyal C264_exponnorm C264_skewnorm"), "Laws are measures with densities; the basic draws of numpy's generator (normal, exponential, gamma, Wald) are taken to have their exact laws, two draws to be independent.")
c("C265", "proved", q("Dist", "C267_moyal_stats C265_norm C265_lognorm C265_lognorm_raw C265_gilbrat C265_foldnorm C265_halfnorm C265_fatiguelife C265_exponnorm C265_skewnorm C265_invgauss C265_levy C265_levy_l C265_alpha C265_moyal_mean_partial"), "levy_l reports its mean as plus infinity although the variable is negative; the theorem shows both facts.")
c("C266", "proved", q("Dist", "C266_norm C266_halfnorm C266_lognorm C266_gilbrat"), "Closed forms against the integral of the density times its logarithm.")

c("C267", "proved", q("Dist", "C267_loggamma C267_loggamma_rvs C267_loggamma_stats C267_gumbel_l_stats C267_gumbel_r_stats C267_moyal_stats C267_moyal_munp C267_genlogistic_stats C267_logistic_stats C267_halflogistic_munp"), "The zeta and polygamma functions of scipy are the mathematical functions.")
c("C268", "proved", q("Dist", "C268_beta C268_betaprime C268_f C268_rdist C268_t"), "Inverses of the incomplete beta function are parameters; theorems show that they exist.")
c("C269", "partial", q("Dist", "C269_beta_stats C269_betaprime_munp C269_betaprime_orders C269_f_stats C269_t_stats C269_t_mean_refuted"), "The mean of t is reported as inf for df <= 1, where it is undefined; HasStats? reads inf as not existing.")
c("C270", "partial", q("Dist", "C270_burr_munp C270_burr_stats C270_fisk C270_burr12_munp_partial C270_burr12_munp_refuted C270_rdist_munp C270_rdist_rvs C270_betaprime_rvs C270_hypsecant_stats"), "burr12 reports finite numbers for moments which do not exist (refuted); its existing moments are proved.")
c("C271", "proved", q("Dist", "C271_truncnorm"), "The Newton iteration _norm_ilogcdf and brentq are parameters (an inverse of the logarithm of the distribution function, a root in a bracket); theorems show that they exist.")
c("C272", "proved", q("Dist", "C272_truncnorm_munp C272_truncnorm_stats"), "")
c("C273", "partial", q("Dist", "C273_cdf C273_ppf C273_munp C273_entropy C273_bins_partial C273_bins_refuted C273_error"), "With bins of different width the probability of a bin is not its relative content (refuted); it is for equal widths.")
c("C274", "proved", q("Dist", "C274_wrapcauchy C274_wrapcauchy_entropy TukeyLambda.C274_tukeylambda TukeyLambda.C274_tukeylambda_entropy"), "tklmbda of scipy is a parameter, a monotone inverse of the quantiles, whose existence is a theorem; the quadrature of the Tukey entropy is the integral.")
c("C275", "partial", q("Dist", "C275_genextreme_munp_partial C275_genextreme_munp_refuted C275_genextreme_stats_partial C275_genextreme_mean_close C275_genextreme_skew_array_partial C275_genextreme_skew_array_refuted"), "Exact for c = 0 and beyond the distance at which the code stops to use the limit at zero; the mean is within 1e-12 there, variance, skewness and kurtosis of tiny nonzero c are not treated. munp is nan at c = 0 (refuted). The skewness of an array with an element below -1/3 is wrong or an error (refuted).")
c("C276", "proved", q("Dist", "C276_crystalball C276_crystalball_sign_refuted"), "The moment where it exists and infinity where it does not, for all orders; the sign of the infinity is wrong for odd orders (_refuted)")
c("C277", "partial", q("Pbinom", "C277_init C277_pbinom_partial C277_local C277_total_refuted"), "Exact up to the rounding unit that the code adds to every probability; therefore the probabilities never add up to one (_refuted)")
c("C278", "proved", q("Pbinom", "C278_stats"), "All four statistics by induction over the trials")
c("C279", "partial", q("Dist", "C279_genpareto_partial C279_genpareto_refuted"), "With the shape negated the returned location and scale reproduce mean and variance; with the shape as returned the mean is that of the data only if the shape is 0.")
c("C280", "partial", q("Dist", "C280_genextreme C280_sorts_refuted"), "The start values solve the equations of the probability weighted moments of order 0 and 1 exactly. The caller's array is sorted in place. The rational approximation of the shape is not assessed.")
c("C281", "partial", q("Dist", "C281_weibull_min C281_lognorm_partial C281_lognorm_refuted C281_bradford C281_f_partial C281_chi C281_ncx2_partial C281_ncx2_refuted"), "lognorm: the scale is the standard deviation of the data, so the mean of the logarithm is wrong. ncx2: the non-centrality is half of what matches the variance. f: exact when the formulas give integers.")
c("C282", "partial", q("Mctp", "C282_blocks_partial C282_margins_partial C282_total C282_column_refuted"),
  "Block sums, triangle, margins and existence are proved; not proved is that the block sums are those of the rainflow count of a simulated chain. The bound of the first column by the minima of the lowest class fails: the sum leaves out one row.")
c("C283", "proved", q("Mctp", "C283_iter C283_fixed"), "")
c("C284", "proved", q("Mctp", "C284_raises_refuted C284_returns C284_argument_refuted C284_mc2rfc_refuted"),
  "The results of the linear solvers are parameters; the failures come from shapes.")
c("C285", "proved", q("Mctp", "C285_mktestmat C285_diagonal_refuted"), "np.linalg.pinv is a parameter which inverts regular matrices.")
c("C286", "partial", q("Spline", "C286_smoothing_partial"),
  "Full statement for points in increasing order, one data set, three or more points, including existence and uniqueness of the solution of the linear equation. Two points and data out of order: see C288. Several data sets at once are not modelled.")
c("C287", "proved", q("Spline", "C287_default C286_smoothing_partial"),
  "C286_smoothing_partial states that the parameter used is effectiveP, the caller's or the default of the specification; C287_default its range.")
c("C288", "partial", q("Spline", "C288_sorted C288_two_points_refuted C288_variance_refuted"),
  "Points and values are put in order whatever the order given; the variances are not, and two points always raise IndexError.")
c("C289", "partial", q("Cheb1d", "C289_value C289_iff C289_refuted"),
  "Holds exactly when the coefficient of degree zero is not zero (C289_iff); otherwise the trailing zeros are dropped and all degrees move down.")
c("C290", "partial", q("Cheb1d", "C290_items C290_extend_refuted"),
  "Items behave as stated as a list; as a series, extending the list moves all degrees, so assigning the 0 that is read changes the function.")
c("C291", "partial", q("Cheb1d", "C291_list_partial C291_extend_partial C291_copy_refuted C291_array_refuted"),
  "True for objects made from lists and for assignments beyond the order; copies and arrays share memory.")
c("C292", "partial", q("Cheb1d", "C292_arithmetic_refuted C292_len"),
  "Every arithmetic operation raises; len is the order and raises for the zero series.")
c("C293", "partial", q("Cheb1d", "C293_equality_partial C293_broadcast_refuted"),
  "True for the same number of coefficients; a single coefficient is broadcast against the other list.")
c("C294", "proved", q("Logit", "C294_likelihood"), "")
c("C295", "proved", q("Logit", "C295_derivatives"), "")
c("C296", "proved", q("Logit", "C296_semidefinite C296_maximum"), "")
c("C297", "proved", q("Logit", "C297_null_model"), "The solver is a parameter that maps 0 to 0.")
c("C298", "partial", q("Logit", "C298_step_partial C298_start_refuted C298_raises_refuted"),
  "A pass raises exactly when the step improves the likelihood and goes beyond the maximum on its line; start values raise except for two categories and one covariate.")
c("C299", "partial", q("Logit", "C299_eta_partial C299_several_refuted"),
  "True for at most one covariate; otherwise ValueError or a predictor with one covariate for each threshold.")
c("C300", "partial", q("Logit", "C300_probabilities C300_limits C300_negative_refuted"),
  "Everything holds except that the lower limit can be negative.")
c("C301", "partial", q("Logit", "C301_variance_partial C301_variance_refuted"),
  "Right for two categories, never too large, too small for more.")
c("C302", "partial", q("Logit", "C302_first_partial C302_columns_refuted"),
  "The right number of covariates is kept, but always the first ones.")
c("C303", "partial", q("Pade", "C303_points_partial C303_rational_partial"),
  "Whenever a pair is returned it is the right one; that the later passes do not raise is not proved.")
c("C304", "proved", q("Pade", "C304_best"),
  "For fitPoints, the loop after the points are chosen.")
c("C305", "partial", q("Pade", "C305_length_partial C305_length_refuted"),
  "Only arrays of exactly 8(m+k+1) values work.")
c("C306", "partial", q("Pade", "C306_pade_partial C306_zero_refuted C306_default_refuted"),
  "Relative to the defining property of scipy's pade; m = 0 and the default order for poly1d are wrong.")
c("C307", "partial", q("Tran", "C50_general_partial C307_monotone_partial C307_table_refuted C307_outside_refuted"),
  "Monotone between the end points; tables with unequal steps are not reproduced.")
c("C308", "proved", q("Tran", "C308_linear"), "Exact arithmetic; the table may have up to nmax points.")
c("C309", "proved", q("QLev", "C309_encloses"), "For one row of data.")
c("C310", "partial", q("QLev", "C310_positions_partial C310_midpoint_refuted"), "Methods 1, 3 and 4; method 2 is refuted.")
c("C311", "partial", q("QLev", "C311_levels_partial C311_low_refuted C311_context_refuted"),
  "For percentages between the share of the largest cell and 100 n/(n+1.5e-8); wrong outside.")
c("C312", "partial", q("QLev", "C312_single_refuted"), "Refuted.")
c("C313", "proved", q("Disufq", "C313_deep C313_finite"), "Wavenumbers nondecreasing for deep water; frequencies and wavenumbers not zero for finite depth.")
c("C314", "partial", q("Disufq", "C314_in_bounds C314_out_of_bounds"), "Writes outside the arrays for nmax above (n+1)/2.")
c("C315", "proved", q("Disufq", "C315_sum C315_difference"), "For k*h < 300, where the code cuts off its last term.")
c("C316", "proved", q("Disufq", "C316_sum C316_difference C316_mean"), "For wavenumbers satisfying the deep water dispersion relation.")
c("C317", "proved", q("Disufq", "C317_infinite C317_diagonal C317_langley_difference"), "The additions of _TINY are left out.")
c("C318", "partial", q("Disufq", "C318_depth_one C318_limit_refuted C318_units C318_units_refuted"), "Refuted; right at depth one.")
c("C319", "partial", q("Disufq", "C319_langley_sum C319_langley_sum_refuted C319_not_symmetric"), "Refuted, with the exact error.")
c("C320", "proved", q("Disufq", "C320_deep C320_factor C320_setdown C320_finite"), "")
c("C321", "partial", q("SimNl", "C321_window_partial C321_top_refuted C321_top_is_last C321_low_refuted C321_zero_refuted C321_memory"), "Refuted: the window is shifted by one component.")
c("C322", "proved", q("SimNl", "C322_deep"), "The variance by Simpson's rule and its root are arguments.")
c("C323", "partial", q("SimNl", "C323_order C323_selection C323_eigenvalue_refuted"), "The documented method 'eigenvalue' is refuted.")
c("C324", "proved", q("Kalman", "C324_gain_is_optimal C324_trace_and_decrease"), "")
c("C325", "proved", q("Kalman", "C325_covariance_invariant"), "")
c("C326", "proved", q("Kalman", "C326_exact_on_clean_data"), "")
c("C327", "partial", q("Kalman", "C327_reset_has_no_effect"), "Refuted: reset has no effect on any later call.")
c("C328", "proved", q("Kalman", "C328_first_observation C328_is_infinite_prior"), "")
c("C329", "proved", q("Kalman", "C329_default_filter_is_the_mean"), "")
c("C330", "partial", q("Kalman", "C330_scalar_R_refuted C330_scalar_R_one_observation_partial"), "Refuted for two or more observed quantities.")
c("C331", "partial", q("Kalman", "C331_singular_H C331_start_not_the_observation_refuted"), "Refuted: the observation is taken for the state.")
c("C332", "proved", q("Hp", "C332_minimises C332_unique C332_exists"), "")
c("C333", "proved", q("Hp", "C333_moments C333_lines_and_zero C333_linear"), "")
c("C334", "proved", q("Hp", "C334_tends_to_line"), "")
c("C335", "partial", q("Hp", "C335_short_series_partial C335_three_values_refuted"), "Three values are returned unchanged: refuted.")
c("C336", "proved", q("Hampel", "C336_result C336_within_bounds"), "")
c("C337", "proved", q("Hampel", "C337_t_zero_is_median C337_majority"), "")
c("C338", "proved", q("Hampel", "C338_affine"), "")
c("C339", "partial", q("Hampel", "C339_default_window C339_single_value_refuted"), "A single value with the default window fails: refuted.")
c("C340", "partial", q("Hampel", "C340_search_ends_partial C340_index_error_refuted C340_half_is_never_exceeded"), "IndexError for small dx: refuted in general, proved when (n-1)*dx spans the data.")
c("C341", "proved", q("Smooth", "C341_leverage_limits"), "All leverages in (0, 1], every number of dimensions; reals for floats.")
c("C342", "proved", q("Smooth", "C342_penalized_least_squares"), "One dimension, s given, robust=False; the search for s (gcv, fminbound) is not modelled.")
c("C343", "proved", q("Smooth", "C343_monotone C343_limit_is_mean"), "One dimension, complete data; as C342.")
c("C344", "proved", q("Smooth", "C344_weights C344_descent C344_total_change C344_not_worse C344_fixed_points"), "One dimension, s given, one robust step; convergence is C348.")
c("C345", "partial", q("Smooth", "C345_caller_changed C345_second_call C345_partial"), "Refuted: missing values in the array of the caller are overwritten with 0, and a second call takes them for data. Proved for data without missing values.")
c("C346", "partial", q("Smooth", "C346_weights_partial C346_majority_equal C346_data_ignored"), "Proved for a positive denominator. Refuted otherwise: when more than half of the residuals are equal all weights are 0 and the following steps ignore the data.")
c("C347", "partial", q("Smooth", "C347_initial_fill C347_partial"), "Refuted with missing values: known values are replaced by the distance 0. Proved without missing values.")
c("C348", "proved", q("Smooth", "C348_converges_to_minimiser C348_loop_converges"), "One dimension, s given; real arithmetic.")
c("C349", "proved", q("Evar", "C349_between_zero_and_variance C349_zero_iff_constant C349_shift C349_scale"), "One dimension; fminbound is any function of the score.")
c("C350", "partial", q("Evar", "C350_not_the_spline C350_membrane_partial"), "Refuted: the eigenvalues are not squared, for three values no pair of parameters agrees for all data. What is computed belongs to the smoothing that penalizes first differences.")
c("C351", "partial", q("Sg", "C351_is_smooth_before_last_partial C351_derivative_sign C351_last_value_error"), "Refuted: the default k=1 belongs to the last value but one, k=0 is an error, and derivatives have the opposite sign. Proved for symmetric coefficients and the value k places before the last, with the window inside the signal; coefficients given, one dimension.")
c("C352", "partial", q("Sg", "C352_rising_line_partial C352_falling_line_refuted"), "Proved for lines that do not fall; refuted for falling lines by a signal of five values, the extension uses absolute differences.")
c("C353", "proved", q("WaveModels", "C353_period_density C353_total_mass"), "Real arithmetic, the default transformation as the linear function; total mass as the integral over the half periods of the integral over the amplitudes.")
c("C354", "partial", q("WaveModels", "C354_wrong_moments_refuted C354_partial"), "Refuted: the root of a negative number is NaN, which is real for numpy, so all values but the first column are NaN; with m0*m2 = m1**2 they are NaN too. Proved for moments with m0*m2 > m1**2.")
c("C355", "proved", q("WaveModels", "C355_change_of_variables"), "Real arithmetic, the default transformation as the linear function, columns other than the first.")
c("C356", "partial", q("WaveModels", "C356_first_column_refuted C356_first_column_cav76_refuted C354_partial C355_change_of_variables"), "Refuted for the first period, whose column is zero although the density there is positive; the other columns hold the density.")
c("C357", "proved", q("WaveModels", "C357_period_density C357_total_mass"), "Real arithmetic, the default transformation as the linear function, columns other than the first; total mass as the integral over the half periods of the integral over the amplitudes.")
