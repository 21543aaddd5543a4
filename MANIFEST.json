{
 "claims": [
  {
   "property": "C01",
   "status": "proved",
   "theorems": [
    "Wafo.Cross.C01_findcross_exact",
    "Wafo.Cross.C01_findcross_empty"
   ],
   "note": "Full equivalence; the empty signal is an out-of-bounds read, shown separately."
  },
  {
   "property": "C02",
   "status": "proved",
   "theorems": [
    "Wafo.Cross.C02_findcross_ordered",
    "Wafo.Cross.C02_findcross_fits"
   ],
   "note": ""
  },
  {
   "property": "C03",
   "status": "proved",
   "theorems": [
    "Wafo.Cross.C03_findcross_du"
   ],
   "note": ""
  },
  {
   "property": "C04",
   "status": "proved",
   "theorems": [
    "Wafo.Cross.C04_findcross_waves"
   ],
   "note": ""
  },
  {
   "property": "C05",
   "status": "partial",
   "theorems": [
    "Wafo.Cross.C05_unknown_kind_partial",
    "Wafo.Cross.C05_known_kind_ok",
    "Wafo.Cross.C05_refuted"
   ],
   "note": "False for signals without crossings: the kind is not checked there; refutation proved."
  },
  {
   "property": "C06",
   "status": "proved",
   "theorems": [
    "Wafo.Cross.C06_ecross_interpolates"
   ],
   "note": ""
  },
  {
   "property": "C07",
   "status": "proved",
   "theorems": [
    "Wafo.Turning.C07_findextrema_monotone",
    "Wafo.Turning.C07_findextrema_short"
   ],
   "note": ""
  },
  {
   "property": "C08",
   "status": "partial",
   "theorems": [
    "Wafo.Turning.C08_findtp_alternates_partial",
    "Wafo.Turning.C08_refuted",
    "Wafo.Turning.C08_findtp_total"
   ],
   "note": "False when the signal starts with a plateau followed by a drop, refuted by a witness; proved otherwise."
  },
  {
   "property": "C09",
   "status": "proved",
   "theorems": [
    "Wafo.Turning.C09_findtp_total_variation"
   ],
   "note": ""
  },
  {
   "property": "C10",
   "status": "partial",
   "theorems": [
    "Wafo.Turning.C10_findtp_waves",
    "Wafo.Turning.C10_findtp_negative_h"
   ],
   "note": "Proved for signals that do not start with a plateau followed by a drop, where the turning points alternate."
  },
  {
   "property": "C11",
   "status": "proved",
   "theorems": [
    "Wafo.Turning.C11_findtc_extremes",
    "Wafo.Turning.C11_findtc_waves",
    "Wafo.Turning.C11_findtc_few"
   ],
   "note": ""
  },
  {
   "property": "C12",
   "status": "proved",
   "theorems": [
    "Wafo.RfcFilter.C12_no_valueError"
   ],
   "note": "All signals and all thresholds, methods 0 and 1."
  },
  {
   "property": "C13",
   "status": "proved",
   "theorems": [
    "Wafo.RfcFilter.C13_increasing",
    "Wafo.RfcFilter.C13_rfcfilter_ok",
    "Wafo.RfcFilter.C13_overflow_at_zero",
    "Wafo.RfcFilter.C13_constant_repeats"
   ],
   "note": "Positive thresholds, and zero for method 1 on non-constant signals; the excluded cases overflow or repeat an index, shown by witnesses."
  },
  {
   "property": "C14",
   "status": "proved",
   "theorems": [
    "Wafo.RfcFilter.C14_heights",
    "Wafo.RfcFilter.C14_alternate"
   ],
   "note": ""
  },
  {
   "property": "C15",
   "status": "partial",
   "theorems": [
    "Wafo.RfcFilter.C15_no_cycle_lost_partial",
    "Wafo.RfcFilter.C15_first_stretch",
    "Wafo.RfcFilter.C15_tail",
    "Wafo.RfcFilter.C15_refuted"
   ],
   "note": "False before the second kept point, refuted by a witness; proved for all other stretches and after the last kept point."
  },
  {
   "property": "C16",
   "status": "partial",
   "theorems": [
    "Wafo.RfcFilter.C16_zigzag_unchanged",
    "Wafo.RfcFilter.C16_idempotent_method1",
    "Wafo.RfcFilter.C16_idempotent_method0_partial",
    "Wafo.RfcFilter.C16_refuted"
   ],
   "note": "Method 1 proved; method 0 false at a final swing of exactly h, proved otherwise."
  },
  {
   "property": "C17",
   "status": "partial",
   "theorems": [
    "Wafo.RfcCount.C17_odd_reads_inside_partial",
    "Wafo.RfcCount.C17_refuted",
    "Wafo.RfcCount.C17_result_independent_of_memory",
    "Wafo.RfcCount.C17_two_turning_points"
   ],
   "note": "False for every even number of turning points (the element after the last is read); proved for odd numbers; the value read never influences the result."
  },
  {
   "property": "C18",
   "status": "proved",
   "theorems": [
    "Wafo.RfcCount.C18_rainflow_cycles",
    "Wafo.RfcCount.C18_minimum_unique",
    "Wafo.RfcCount.C18_findrfc_reports",
    "Wafo.RfcCount.C18_leading_maximum"
   ],
   "note": ""
  },
  {
   "property": "C19",
   "status": "proved",
   "theorems": [
    "Wafo.RfcCount.C19_pairs_high_enough"
   ],
   "note": ""
  },
  {
   "property": "C20",
   "status": "partial",
   "theorems": [
    "Wafo.Astm.C20_nothing_cut",
    "Wafo.Astm.C20_astm_accounts_partial",
    "Wafo.Astm.C20_refuted"
   ],
   "note": "Proved for turning points (alternating); false if only equal neighbours are excluded, refuted by a witness."
  },
  {
   "property": "C21",
   "status": "proved",
   "theorems": [
    "Wafo.Astm.C21_total_variation",
    "Wafo.Astm.C21_needs_turning_points"
   ],
   "note": ""
  },
  {
   "property": "C22",
   "status": "proved",
   "theorems": [
    "Wafo.Astm.C22_cycles_inside",
    "Wafo.Astm.C22_within_bounds"
   ],
   "note": "Zero padding rows excluded; they only occur for signals that are not turning points, see C20."
  },
  {
   "property": "C23",
   "status": "proved",
   "theorems": [
    "Wafo.Astm.C23_times_agree",
    "Wafo.Astm.C23_times_exact",
    "Wafo.Astm.C23_period_positive"
   ],
   "note": ""
  },
  {
   "property": "C24",
   "status": "proved",
   "theorems": [
    "Wafo.Cycles.C24_min2max",
    "Wafo.Cycles.C24_max2min",
    "Wafo.Cycles.C24_too_short"
   ],
   "note": ""
  },
  {
   "property": "C25",
   "status": "proved",
   "theorems": [
    "Wafo.Cycles.C25_value",
    "Wafo.Cycles.C25_nonneg",
    "Wafo.Cycles.C25_zero_iff",
    "Wafo.Cycles.C25_additive",
    "Wafo.Cycles.C25_order",
    "Wafo.Cycles.C25_direction",
    "Wafo.Cycles.C25_linear_K",
    "Wafo.Cycles.C25_scaling",
    "Wafo.Cycles.C25_mean_level"
   ],
   "note": ""
  },
  {
   "property": "C26",
   "status": "partial",
   "theorems": [
    "Wafo.Cycles.C26_u_rejected",
    "Wafo.Cycles.C26_names_partial",
    "Wafo.Cycles.C26_uM_misses_maxima",
    "Wafo.Cycles.C26_other"
   ],
   "note": "Refuted: the name table is off by one, 'u' is rejected for every input; the theorems say what each name selects."
  },
  {
   "property": "C27",
   "status": "partial",
   "theorems": [
    "Wafo.Cycles.C27_counts_partial",
    "Wafo.Cycles.C27_minima_partial",
    "Wafo.Cycles.C27_swapped",
    "Wafo.Cycles.C27_mixed",
    "Wafo.Cycles.C27_refuted"
   ],
   "note": "Proved unless all extremes are negative and two coincide; in that case a spurious level 0 is reported (witness)."
  },
  {
   "property": "C28",
   "status": "proved",
   "theorems": [
    "Wafo.Cycles.C28_indices",
    "Wafo.Cycles.C28_total",
    "Wafo.Cycles.C28_upper",
    "Wafo.Cycles.C28_bad_ddef"
   ],
   "note": "For grids with at least two levels."
  },
  {
   "property": "C29",
   "status": "partial",
   "theorems": [
    "Wafo.Cycles.C29_upward_partial",
    "Wafo.Cycles.C29_nearest_partial",
    "Wafo.Cycles.C29_exact_partial",
    "Wafo.Cycles.C29_reverse_partial",
    "Wafo.Cycles.C29_refuted",
    "Wafo.Cycles.C29_nearest_refuted",
    "Wafo.Cycles.C29_order_refuted"
   ],
   "note": "Refuted: indices are one too large for every grid; the part about projecting upwards holds."
  },
  {
   "property": "C30",
   "status": "proved",
   "theorems": [
    "Wafo.Markov.C30_counting_distribution",
    "Wafo.Markov.C30_variants_agree",
    "Wafo.Markov.C30_other_kinds"
   ],
   "note": ""
  },
  {
   "property": "C31",
   "status": "proved",
   "theorems": [
    "Wafo.Markov.C31_roundtrip",
    "Wafo.Markov.C31_inverse",
    "Wafo.Markov.C31_inverse_nt"
   ],
   "note": ""
  },
  {
   "property": "C32",
   "status": "partial",
   "theorems": [
    "Wafo.Markov.C32_right_iff_partial",
    "Wafo.Markov.C32_refuted"
   ],
   "note": "Refuted: a mistyped slice uses the last column; exact characterisation of the entries that are right."
  },
  {
   "property": "C33",
   "status": "partial",
   "theorems": [
    "Wafo.Markov.C33_refuted"
   ],
   "note": "Refuted for all inputs: the function always raises. Nothing of the property holds."
  },
  {
   "property": "C34",
   "status": "proved",
   "theorems": [
    "Wafo.Bits.C34_getbit_range",
    "Wafo.Bits.C34_getbit_digit",
    "Wafo.Bits.C34_setbit_same",
    "Wafo.Bits.C34_setbit_other",
    "Wafo.Bits.C34_setbit_own"
   ],
   "note": ""
  },
  {
   "property": "C35",
   "status": "proved",
   "theorems": [
    "Wafo.Bits.C35_set_get",
    "Wafo.Bits.C35_get_set"
   ],
   "note": ""
  },
  {
   "property": "C36",
   "status": "proved",
   "theorems": [
    "Wafo.Select.C36_lfind"
   ],
   "note": ""
  },
  {
   "property": "C37",
   "status": "proved",
   "theorems": [
    "Wafo.Select.C37_piecewise",
    "Wafo.Select.C37_wrong_length"
   ],
   "note": ""
  },
  {
   "property": "C38",
   "status": "partial",
   "theorems": [
    "Wafo.Select.C38_last_wins",
    "Wafo.Select.C38_disjoint_partial",
    "Wafo.Select.C38_refuted"
   ],
   "note": "Refuted: the last true condition wins, unlike numpy.select; proved for mutually exclusive conditions."
  },
  {
   "property": "C39",
   "status": "proved",
   "theorems": [
    "Wafo.Select.C39_lazywhere",
    "Wafo.Select.C39_lazy",
    "Wafo.Select.C39_arguments"
   ],
   "note": ""
  },
  {
   "property": "C40",
   "status": "proved",
   "theorems": [
    "Wafo.Select.C40_sub_dict_select",
    "Wafo.Select.C40_parse_kwargs"
   ],
   "note": ""
  },
  {
   "property": "C41",
   "status": "partial",
   "theorems": [
    "Wafo.Series.C41_partition_partial",
    "Wafo.Series.C41_single",
    "Wafo.Series.C41_short",
    "Wafo.Series.C41_refuted"
   ],
   "note": "Proved unless exactly one index is collected; then that sample is reported both spurious and good (proved for every such input, with a witness)."
  },
  {
   "property": "C42",
   "status": "partial",
   "theorems": [
    "Wafo.Series.C42_values_partial",
    "Wafo.Series.C42_linear_partial",
    "Wafo.Series.C42_refuted",
    "Wafo.Series.C42_detrend",
    "Wafo.Series.C42_bad_window"
   ],
   "note": "Refuted for general series (wrong denominator and window); proved at the first window, for straight lines, for short series, and the exact recursion the code computes."
  },
  {
   "property": "C43",
   "status": "proved",
   "theorems": [
    "Wafo.Geometry.C43_spaceline",
    "Wafo.Geometry.C43_midpoint"
   ],
   "note": ""
  },
  {
   "property": "C44",
   "status": "proved",
   "theorems": [
    "Wafo.Geometry.C44_factors",
    "Wafo.Geometry.C44_orthogonal",
    "Wafo.Geometry.C44_proper",
    "Wafo.Geometry.C44_rotate_length",
    "Wafo.Geometry.C44_rotate_distance",
    "Wafo.Geometry.C44_rotate_zero",
    "Wafo.Geometry.C44_heading_add",
    "Wafo.Geometry.C44_pitch_add",
    "Wafo.Geometry.C44_roll_add",
    "Wafo.Geometry.C44_rotate2d"
   ],
   "note": ""
  },
  {
   "property": "C45",
   "status": "proved",
   "theorems": [
    "Wafo.Geometry.C45_cart_polar_cart",
    "Wafo.Geometry.C45_polar_cart_polar",
    "Wafo.Geometry.C45_range"
   ],
   "note": "Signed zeros are not modelled."
  },
  {
   "property": "C46",
   "status": "proved",
   "theorems": [
    "Wafo.Geometry.C46_sub_index_sub",
    "Wafo.Geometry.C46_index_sub_index",
    "Wafo.Geometry.C46_outside"
   ],
   "note": "numpy's ravel_multi_index and unravel_index modelled from their documentation."
  },
  {
   "property": "C47",
   "status": "proved",
   "theorems": [
    "Wafo.Geometry.C47_nextpow2",
    "Wafo.Geometry.C47_nonneg",
    "Wafo.Geometry.C47_zero_and_sequence"
   ],
   "note": ""
  },
  {
   "property": "C48",
   "status": "proved",
   "theorems": [
    "Wafo.Discretize.C48_linear",
    "Wafo.Discretize.C48_adaptive",
    "Wafo.Discretize.C48_discretize",
    "Wafo.Discretize.C48_one_point"
   ],
   "note": "For at least two initial points and, in the adaptive method, a non-negative tolerance; the interpolation used for the error estimate is left arbitrary."
  },
  {
   "property": "C49",
   "status": "partial",
   "theorems": [
    "Wafo.Tran.C49_grid_partial",
    "Wafo.Tran.C49_lower_refuted",
    "Wafo.Tran.C49_lower_values",
    "Wafo.Tran.C49_values_refuted",
    "Wafo.Tran.C49_duplicates"
   ],
   "note": "Refuted for every request below the data (gap or no cover); proved when no lower extrapolation is asked for. The points added below lie on the line through the first two grid points. Extrapolated values refuted by witnesses."
  },
  {
   "property": "C50",
   "status": "partial",
   "theorems": [
    "Wafo.Tran.C50_chain_rule_partial",
    "Wafo.Tran.C50_fourth_refuted",
    "Wafo.Tran.C50_value_partial",
    "Wafo.Tran.C50_outside_refuted",
    "Wafo.Tran.C50_left_end_refuted"
   ],
   "note": "First three formulas proved to be the derivatives of the composition; the fourth is wrong (exact error term proved). Values proved inside a uniform grid, refuted outside."
  },
  {
   "property": "C51",
   "status": "proved",
   "theorems": [
    "Wafo.Tran.C51_range",
    "Wafo.Tran.C51_covers_data",
    "Wafo.Tran.C51_default_number"
   ],
   "note": "For data that are not all equal."
  },
  {
   "property": "C52",
   "status": "partial",
   "theorems": [
    "Wafo.Grid.C52_gridcount_mass_partial",
    "Wafo.Grid.C52_gridcount_size_partial",
    "Wafo.Grid.C52_weights_rejected",
    "Wafo.Grid.C52_refuted_nonuniform"
   ],
   "note": "Proved for equidistant grids and data below the last grid point; refuted for a grid with unequal steps."
  },
  {
   "property": "C53",
   "status": "proved",
   "theorems": [
    "Wafo.Grid.C53_gridcount_mean"
   ],
   "note": "For data below the last grid point (see C54 for the edge)."
  },
  {
   "property": "C54",
   "status": "partial",
   "theorems": [
    "Wafo.Grid.C54_upper_edge_raises",
    "Wafo.Grid.C54_outside_rejected_partial"
   ],
   "note": "The claim is false: a datum on the last grid point always raises IndexError. Proved that data outside the range is rejected with ValueError."
  },
  {
   "property": "C55",
   "status": "proved",
   "theorems": [
    "Wafo.Poly.C55_polyder_polyint",
    "Wafo.Poly.C55_default_constants",
    "Wafo.Poly.C55_errors"
   ],
   "note": ""
  },
  {
   "property": "C56",
   "status": "proved",
   "theorems": [
    "Wafo.Poly.C56_polyder"
   ],
   "note": ""
  },
  {
   "property": "C57",
   "status": "partial",
   "theorems": [
    "Wafo.Poly.C57_reloc_rescl_partial",
    "Wafo.Poly.C57_integer_refuted"
   ],
   "note": "Proved for floating point coefficients; refuted for integer coefficient arrays, where polyreloc truncates."
  },
  {
   "property": "C58",
   "status": "proved",
   "theorems": [
    "Wafo.Poly.C58_polyshift",
    "Wafo.Poly.C58_interval_maps"
   ],
   "note": ""
  },
  {
   "property": "C59",
   "status": "proved",
   "theorems": [
    "Wafo.Poly.C59_polytrim"
   ],
   "note": ""
  },
  {
   "property": "C60",
   "status": "partial",
   "theorems": [
    "Wafo.Poly.C60_poly2hstr_partial",
    "Wafo.Poly.C60_trailing_zeros",
    "Wafo.Poly.C60_square_refuted"
   ],
   "note": "Proved for at most one trailing zero (and the zero polynomial); with more trailing zeros the exponent is lost."
  },
  {
   "property": "C61",
   "status": "proved",
   "theorems": [
    "Wafo.Cheb.C61_chebval"
   ],
   "note": ""
  },
  {
   "property": "C62",
   "status": "proved",
   "theorems": [
    "Wafo.Cheb.C62_cheb2poly"
   ],
   "note": ""
  },
  {
   "property": "C63",
   "status": "partial",
   "theorems": [
    "Wafo.Cheb.C63_chebder_partial",
    "Wafo.Cheb.C63_refuted",
    "Wafo.Cheb.C63_short_raises"
   ],
   "note": "The returned series minus half its constant coefficient is the derivative: the constant term is doubled; lists of at most two coefficients raise IndexError."
  },
  {
   "property": "C64",
   "status": "partial",
   "theorems": [
    "Wafo.Cheb.C64_chebint_refuted",
    "Wafo.Cheb.C64_constant_refuted"
   ],
   "note": "Refuted: the result is not an antiderivative for any series with nonzero leading coefficient."
  },
  {
   "property": "C65",
   "status": "proved",
   "theorems": [
    "Wafo.Ortho.C65_ortho2poly"
   ],
   "note": ""
  },
  {
   "property": "C66",
   "status": "proved",
   "theorems": [
    "Wafo.Ortho.C66_orthofit"
   ],
   "note": ""
  },
  {
   "property": "C67",
   "status": "partial",
   "theorems": [
    "Wafo.PP.C67_call_partial",
    "Wafo.PP.C67_continuous",
    "Wafo.PP.C67_refuted",
    "Wafo.PP.C67_integer_refuted"
   ],
   "note": "Evaluation is total, selects piece i for breaks[i] < x <= breaks[i+1] and fill outside. Missing: the documented convention at interior breaks of a discontinuous form (refuted: the left piece is used); continuous forms satisfy it (C67_continuous). Integer points truncate the result (refuted)."
  },
  {
   "property": "C68",
   "status": "proved",
   "theorems": [
    "Wafo.PP.C68_integrate",
    "Wafo.PP.C68_derivative_integrate"
   ],
   "note": "Over the reals: integrate() evaluated at x is the Lebesgue integral of the form from the first break; differentiating it returns the coefficients."
  },
  {
   "property": "C69",
   "status": "partial",
   "theorems": [
    "Wafo.PP.C69_linear_extrapolate_partial",
    "Wafo.PP.C69_integer_refuted"
   ],
   "note": "Proved for float coefficients (unchanged inside, straight line with end value and end slope outside). Integer coefficient arrays are truncated (refuted)."
  },
  {
   "property": "C70",
   "status": "proved",
   "theorems": [
    "Wafo.Slopes.C70_pchip",
    "Wafo.Slopes.C70_names"
   ],
   "note": "Over the reals, for every function that is a cubic Hermite interpolant of the data and the returned slopes."
  },
  {
   "property": "C71",
   "status": "partial",
   "theorems": [
    "Wafo.Slopes.C71_monotone_partial",
    "Wafo.Slopes.C71_pchip",
    "Wafo.Slopes.C71_parabola_refuted",
    "Wafo.Slopes.C71_steffen_refuted",
    "Wafo.Slopes.C71_neighbours_refuted"
   ],
   "note": "Proved when the method's slopes have the direction of the data and no two neighbouring intervals are adjusted; refuted for 'parabola' (negative end slope), 'steffen' with falling data, and neighbouring adjusted intervals."
  },
  {
   "property": "C72",
   "status": "proved",
   "theorems": [
    "Wafo.Stine.C72_stineman",
    "Wafo.Stine.C72_errors"
   ],
   "note": "Also outside the data; over any ordered field."
  },
  {
   "property": "C73",
   "status": "partial",
   "theorems": [
    "Wafo.Stats.C73_one_offender_partial",
    "Wafo.Stats.C73_separated_partial",
    "Wafo.Stats.C73_refuted",
    "Wafo.Stats.C73_decluster",
    "Wafo.Stats.C73_short_times"
   ],
   "note": "Separation proved for at most one group of close exceedances; for any number one index meets every pair that is too close; refuted for two groups."
  },
  {
   "property": "C74",
   "status": "partial",
   "theorems": [
    "Wafo.Stats.C74_covered_partial",
    "Wafo.Stats.C74_isolated_kept",
    "Wafo.Stats.C74_refuted"
   ],
   "note": "Proved for at most two groups of close exceedances; a third group is lost completely."
  },
  {
   "property": "C75",
   "status": "proved",
   "theorems": [
    "Wafo.Stats.C75_abscissae",
    "Wafo.Stats.C75_positions",
    "Wafo.Stats.C75_probabilities",
    "Wafo.Stats.C75_argument",
    "Wafo.Stats.C75_argument_refuted"
   ],
   "note": "Also shown: an array argument is sorted in place."
  },
  {
   "property": "C76",
   "status": "proved",
   "theorems": [
    "Wafo.Stats.C76_unit_interval",
    "Wafo.Stats.C76_empty",
    "Wafo.Stats.C76_declustering",
    "Wafo.Stats.C76_real_refuted"
   ],
   "note": "For integer times as stated; with real times both claims fail."
  },
  {
   "property": "C77",
   "status": "partial",
   "theorems": [
    "Wafo.Stats.C77_sf_rp",
    "Wafo.Stats.C77_rp_sf",
    "Wafo.Stats.C77_invalid",
    "Wafo.Stats.C77_one_event",
    "Wafo.Stats.C77_no_events",
    "Wafo.Stats.C77_vectors",
    "Wafo.Stats.C77_scalar_refuted"
   ],
   "note": "Proved for vectors; scalar arguments raise TypeError."
  },
  {
   "property": "C78",
   "status": "proved",
   "theorems": [
    "Wafo.Trf.C78_dat_gauss_dat",
    "Wafo.Trf.C78_gauss_dat_gauss",
    "Wafo.Trf.C78_standardized"
   ],
   "note": ""
  },
  {
   "property": "C79",
   "status": "proved",
   "theorems": [
    "Wafo.Trf.C79_dat_gauss_dat",
    "Wafo.Trf.C79_gauss_dat_gauss",
    "Wafo.Trf.C79_increasing",
    "Wafo.Trf.C79_no_skew"
   ],
   "note": ""
  },
  {
   "property": "C80",
   "status": "partial",
   "theorems": [
    "Wafo.Trf.C80_bracket",
    "Wafo.Trf.C80_equations_partial",
    "Wafo.Trf.C80_mean_refuted",
    "Wafo.Trf.C80_rejected"
   ],
   "note": "Two of the three equations and the sign change are proved; the equation for mean2 fails for every non-zero skewness."
  },
  {
   "property": "C81",
   "status": "partial",
   "theorems": [
    "Wafo.Trf.C81_inverse_partial",
    "Wafo.Trf.C81_hardening_formula",
    "Wafo.Trf.C81_hardening_increasing",
    "Wafo.Trf.C81_softening1988",
    "Wafo.Trf.C81_quadratic_partial",
    "Wafo.Trf.C81_beyond_refuted"
   ],
   "note": "Both inverses proved for all data when the polynomial has no critical point; for the parabola on its rising branch; on the other branch the mirrored value is returned."
  },
  {
   "property": "C82",
   "status": "proved",
   "theorems": [
    "Wafo.Disp.C82_round_trip",
    "Wafo.Disp.C82_nonneg",
    "Wafo.Disp.C82_relation",
    "Wafo.Disp.C82_converse",
    "Wafo.Disp.C82_current"
   ],
   "note": ""
  },
  {
   "property": "C83",
   "status": "proved",
   "theorems": [
    "Wafo.Disp.C83_fixed_point",
    "Wafo.Disp.C83_unique",
    "Wafo.Disp.C83_wave_numbers",
    "Wafo.Disp.C83_iterations",
    "Wafo.Disp.C83_two_constants",
    "Wafo.Disp.C83_odd"
   ],
   "note": "Convergence of the iteration within count_limit steps is not claimed; without a warning the last update is below tolerance."
  },
  {
   "property": "C84",
   "status": "proved",
   "theorems": [
    "Wafo.Plot.C84_plotscale",
    "Wafo.Plot.C84_negative",
    "Wafo.Plot.C84_plottype"
   ],
   "note": ""
  },
  {
   "property": "C85",
   "status": "partial",
   "theorems": [
    "Wafo.Plot.C85_round_trip_partial",
    "Wafo.Plot.C85_refuted"
   ],
   "note": "Holds exactly for digits 0-4 and 6; 5 and 7 raise KeyError, 8 and 9 IndexError."
  },
  {
   "property": "C86",
   "status": "proved",
   "theorems": [
    "Wafo.Plot.C86_to_cdf"
   ],
   "note": ""
  },
  {
   "property": "C87",
   "status": "partial",
   "theorems": [
    "Wafo.Ship.C87_length_partial",
    "Wafo.Ship.C87_beam_partial",
    "Wafo.Ship.C87_draught_partial",
    "Wafo.Ship.C87_speed_partial",
    "Wafo.Ship.C87_propeller_partial",
    "Wafo.Ship.C87_deadweight_refuted",
    "Wafo.Ship.C87_value_refuted",
    "Wafo.Ship.C87_rejected"
   ],
   "note": "The given value is returned rounded; max_deadweight gets a misspelled extra key and keeps a non-zero deviation."
  },
  {
   "property": "C88",
   "status": "partial",
   "theorems": [
    "Wafo.ChebNd.C88_refuted",
    "Wafo.ChebNd.C88_square",
    "Wafo.ChebNd.C88_constant_refuted"
   ],
   "note": "Refuted for every number of samples different from the number of coefficients; wrong coefficients otherwise."
  },
  {
   "property": "C89",
   "status": "partial",
   "theorems": [
    "Wafo.Savgol.C89_pieces_partial",
    "Wafo.Savgol.C89_refuted"
   ],
   "note": "Pieces, monotonicity and separate smoothing proved; refuted: IndexError when the last piece is a single sample, and a leading plateau followed by a rise is cut though x never turns."
  },
  {
   "property": "C90",
   "status": "proved",
   "theorems": [
    "Wafo.Geometry.C90_bounds",
    "Wafo.Geometry.C90_symmetry",
    "Wafo.Geometry.C90_values"
   ],
   "note": ""
  },
  {
   "property": "C91",
   "status": "proved",
   "theorems": [
    "Wafo.RfcCount.C91_findrfc_increasing"
   ],
   "note": ""
  },
  {
   "property": "C92",
   "status": "proved",
   "theorems": [
    "Wafo.Grid.C92_gridcountNd_mass_mean"
   ],
   "note": "Flat array before the final reshape and axis swap."
  },
  {
   "property": "C93",
   "status": "partial",
   "theorems": [
    "Wafo.Grid.C93_upper_edge_wrong_mass"
   ],
   "note": "Refuted by a witness; C92 covers data off the upper edge."
  },
  {
   "property": "C94",
   "status": "partial",
   "theorems": [
    "Wafo.Cheb.C94_fill_partial",
    "Wafo.Cheb.C94_integer_fill_refuted"
   ],
   "note": "Proved for floating point fill values; an integer fill truncates all values."
  },
  {
   "property": "C95",
   "status": "proved",
   "theorems": [
    "Wafo.Cheb.C95_chebroot",
    "Wafo.Cheb.C95_chebextr"
   ],
   "note": ""
  },
  {
   "property": "C96",
   "status": "proved",
   "theorems": [
    "Wafo.Cheb.C96_chebfit_interpolates",
    "Wafo.Cheb.C96_chebfit_exact",
    "Wafo.Cheb.C96_poly2cheb"
   ],
   "note": ""
  },
  {
   "property": "C97",
   "status": "partial",
   "theorems": [
    "Wafo.PP.C97_derivative_partial",
    "Wafo.PP.C97_refuted"
   ],
   "note": "Between breaks derivative() is the derivative; beyond the added breaks derivative() and integrate() return the fill value (refuted)."
  },
  {
   "property": "C98",
   "status": "partial",
   "theorems": [
    "Wafo.Slopes.C98_lines_partial",
    "Wafo.Slopes.C98_refuted",
    "Wafo.Slopes.C98_akima_refuted"
   ],
   "note": "Proved for three or more points and all methods except 'steffen' with a falling line; refuted for two points with 'parabola', 'stineman', 'akima'."
  },
  {
   "property": "C99",
   "status": "partial",
   "theorems": [
    "Wafo.Stine.C99_slopes_partial",
    "Wafo.Stine.C99_refuted"
   ],
   "note": "One-sided derivatives at the data points equal the given slopes unless exactly one end slope of the segment equals the chord slope; refuted there."
  },
  {
   "property": "C100",
   "status": "partial",
   "theorems": [
    "Wafo.Stine.C100_convex",
    "Wafo.Stine.C100_monotone_partial",
    "Wafo.Stine.C100_refuted"
   ],
   "note": "Convexity/concavity is preserved for all data with at least three points; monotonicity when the flatter end chord is not horizontal, refuted otherwise."
  },
  {
   "property": "C101",
   "status": "partial",
   "theorems": [
    "Wafo.Slopes.C101_units_partial",
    "Wafo.Slopes.C101_scaled_units",
    "Wafo.Slopes.C101_scale_neutral",
    "Wafo.Slopes.C101_refuted"
   ],
   "note": "Holds for every method except the default 'stineman' without scaling, where it is refuted."
  },
  {
   "property": "C102",
   "status": "proved",
   "theorems": [
    "Wafo.Astm.C102_half_cycles"
   ],
   "note": ""
  },
  {
   "property": "C103",
   "status": "proved",
   "theorems": [
    "Wafo.Astm.C103_largest_cycle"
   ],
   "note": ""
  },
  {
   "property": "C104",
   "status": "partial",
   "theorems": [
    "Wafo.Savgol.C104_formula_partial",
    "Wafo.Savgol.C104_smoothing",
    "Wafo.Savgol.C104_refuted",
    "Wafo.Savgol.C104_errors",
    "Wafo.Savgol.C104_negative"
   ],
   "note": "Exact for deriv=0; deriv! times the result is (-1)**deriv times the derivative, so first derivatives have the wrong sign and second derivatives are halved."
  },
  {
   "property": "C105",
   "status": "proved",
   "theorems": [
    "Wafo.Savgol.C105_least_squares"
   ],
   "note": ""
  },
  {
   "property": "C106",
   "status": "partial",
   "theorems": [
    "Wafo.Savgol.C106_rising_partial",
    "Wafo.Savgol.C106_falling_refuted",
    "Wafo.Savgol.C106_length_partial"
   ],
   "note": "Proved for lines that do not fall and signals longer than half a window; falling lines are changed at the ends, a single sample returns window_size values."
  },
  {
   "property": "C107",
   "status": "partial",
   "theorems": [
    "Wafo.Trf.C107_refreshed_partial",
    "Wafo.Trf.C107_skew_refuted"
   ],
   "note": "A new skewness is ignored."
  },
  {
   "property": "C108",
   "status": "partial",
   "theorems": [
    "Wafo.Trf.C108_check_partial",
    "Wafo.Trf.C108_scale_refuted"
   ],
   "note": "Proved for standardized data; for kurt <= 3 the limit is compared on the wrong scale otherwise."
  },
  {
   "property": "C109",
   "status": "partial",
   "theorems": [
    "Wafo.Trf.C109_nonmonotone_refuted",
    "Wafo.Trf.C109_constructed"
   ],
   "note": "Refuted: a cubic with two critical points raises TypeError; exact condition given."
  },
  {
   "property": "C110",
   "status": "proved",
   "theorems": [
    "Wafo.Trf.C110_distance",
    "Wafo.Trf.C110_distance_at",
    "Wafo.Trf.C110_offset"
   ],
   "note": ""
  },
  {
   "property": "C111",
   "status": "proved",
   "theorems": [
    "Wafo.Disp.C111_elementwise"
   ],
   "note": ""
  },
  {
   "property": "C112",
   "status": "partial",
   "theorems": [
    "Wafo.Plot.C112_additive",
    "Wafo.Plot.C112_cdf",
    "Wafo.Plot.C112_default",
    "Wafo.Plot.C112_outside",
    "Wafo.Plot.C112_reversed_refuted"
   ],
   "note": "Exchanged limits ignore the data in between."
  },
  {
   "property": "C113",
   "status": "partial",
   "theorems": [
    "Wafo.Quad.C113_exact_partial",
    "Wafo.Quad.C113_error_zero",
    "Wafo.Quad.C113_errors",
    "Wafo.Quad.C113_negative_error_refuted"
   ],
   "note": "Exactness proved for callables; a table of samples always raises ValueError and the error estimate is negative for b < a."
  },
  {
   "property": "C114",
   "status": "partial",
   "theorems": [
    "Wafo.Quad.C114_result",
    "Wafo.Quad.C114_table_partial",
    "Wafo.Quad.C114_linear",
    "Wafo.Quad.C114_type_error_refuted"
   ],
   "note": "Table proved exact; on ordinary intervals (length between 8e-9 and 1.07, or reversed limits) the table limit is computed as a non-integer and the call raises TypeError."
  },
  {
   "property": "C115",
   "status": "partial",
   "theorems": [
    "Wafo.Quad.C115_expand_partial",
    "Wafo.Quad.C115_one_refuted"
   ],
   "note": "n = 1 repeats the node."
  },
  {
   "property": "C116",
   "status": "proved",
   "theorems": [
    "Wafo.Quad.C116_closed"
   ],
   "note": ""
  },
  {
   "property": "C117",
   "status": "partial",
   "theorems": [
    "Wafo.Quad.C117_sqrt_partial"
   ],
   "note": "Assumes that the Newton iterations of p_roots have converged to the exact roots (existence of such values proved)."
  },
  {
   "property": "C118",
   "status": "partial",
   "theorems": [
    "Wafo.Quad.C118_exact_partial",
    "Wafo.Quad.C118_three_points_refuted"
   ],
   "note": "Other numbers of points than 4m+1 silently give wrong values."
  },
  {
   "property": "C119",
   "status": "partial",
   "theorems": [
    "Wafo.Quad.C119_polynomial_partial",
    "Wafo.Quad.C119_reverse",
    "Wafo.Quad.C119_stopping",
    "Wafo.Quad.C119_no_uncomputed",
    "Wafo.Quad.C119_change_of_variable",
    "Wafo.Quad.C119_infinite_partial",
    "Wafo.Quad.C119_richardson"
   ],
   "note": "The tabulated base rule is a parameter with its exactness as hypothesis (the decimals of the table are rounded); dtype truncation of integer-valued integrands not modelled; exactness on (-inf, inf) not stated."
  },
  {
   "property": "C120",
   "status": "partial",
   "theorems": [
    "Wafo.Quad.C120_qrule_partial",
    "Wafo.Quad.C120_polynomial_partial",
    "Wafo.Quad.C120_stopping",
    "Wafo.Quad.C120_orientation_refuted",
    "Wafo.Quad.C120_reverse_refuted",
    "Wafo.Quad.C120_unknown",
    "Wafo.Quad.C120_cache",
    "Wafo.Quad.C120_cache_injective",
    "Wafo.Quad.C120_cache_refuted"
   ],
   "note": "Exponents exchanged for wfun 4, descending limits keep the sign for wfun 5 and 6, cache key keeps six digits.  Newton iterations assumed converged."
  },
  {
   "property": "C121",
   "status": "partial",
   "theorems": [
    "Wafo.Quad.C121_converged_exists",
    "Wafo.Quad.C121_methods_agree",
    "Wafo.Quad.C121_exact_partial",
    "Wafo.Quad.C121_one_refuted"
   ],
   "note": "Newton iterations assumed converged; n = 1 doubles the integral."
  },
  {
   "property": "C122",
   "status": "partial",
   "theorems": [
    "Wafo.Quad.C122_exact_partial",
    "Wafo.Quad.C122_one_refuted"
   ],
   "note": "Newton iterations assumed converged; n = 1 doubles the integral."
  },
  {
   "property": "C123",
   "status": "partial",
   "theorems": [
    "Wafo.Quad.C123_exact_partial"
   ],
   "note": "Newton iterations assumed converged."
  },
  {
   "property": "C124",
   "status": "partial",
   "theorems": [
    "Wafo.Quad.C124_exact_partial",
    "Wafo.Quad.C124_orientation_refuted"
   ],
   "note": "Newton iterations assumed converged; qrule's documented orientation is exchanged."
  },
  {
   "property": "C125",
   "status": "partial",
   "theorems": [
    "Wafo.Kde.C125_density",
    "Wafo.Kde.C125_names",
    "Wafo.Kde.C125_table",
    "Wafo.Kde.C125_gauss_radius_refuted"
   ],
   "note": "Proved for the eleven named kernels; the Gaussian class normalises wrongly for other radii."
  },
  {
   "property": "C126",
   "status": "partial",
   "theorems": [
    "Wafo.Kde.C126_default_partial",
    "Wafo.Kde.C126_default_refuted"
   ],
   "note": "Triangular and logistic kernel raise TypeError."
  },
  {
   "property": "C127",
   "status": "partial",
   "theorems": [
    "Wafo.Kde.C127_stats",
    "Wafo.Kde.C127_triweight_refuted"
   ],
   "note": "Every finite number is right; Rdd of the triweight kernel is 35, not infinity.  The other infinities are not examined."
  },
  {
   "property": "C128",
   "status": "proved",
   "theorems": [
    "Wafo.Kde.C128_derivatives",
    "Wafo.Kde.C128_count",
    "Wafo.Kde.C128_psi"
   ],
   "note": ""
  },
  {
   "property": "C129",
   "status": "proved",
   "theorems": [
    "Wafo.Kde.C129_amise",
    "Wafo.Kde.C129_units",
    "Wafo.Kde.C129_getG",
    "Wafo.Kde.C129_spread"
   ],
   "note": ""
  },
  {
   "property": "C130",
   "status": "partial",
   "theorems": [
    "Wafo.Kde.C130_density",
    "Wafo.Kde.C130_density_matrix",
    "Wafo.Kde.C130_rejected",
    "Wafo.Kde.C130_shapes",
    "Wafo.Kde.C130_integer_refuted"
   ],
   "note": "Integer vectors with entries to be replaced are truncated.  Default bandwidths are assumed positive."
  },
  {
   "property": "C131",
   "status": "proved",
   "theorems": [
    "Wafo.Kde.C131_loops",
    "Wafo.Kde.C131_pointwise",
    "Wafo.Kde.C131_value"
   ],
   "note": ""
  },
  {
   "property": "C132",
   "status": "proved",
   "theorems": [
    "Wafo.Kde.C132_adaptive"
   ],
   "note": ""
  },
  {
   "property": "C133",
   "status": "partial",
   "theorems": [
    "Wafo.Kde.C133_density",
    "Wafo.Kde.C133_power_partial",
    "Wafo.Kde.C133_power_refuted",
    "Wafo.Kde.C133_inverse",
    "Wafo.Kde.C133_integer_refuted",
    "Wafo.Kde.C133_single_refuted"
   ],
   "note": "One dimension.  Mass is lost for powers, integer data are truncated, a single point raises ValueError."
  },
  {
   "property": "C134",
   "status": "partial",
   "theorems": [
    "Wafo.Kde.C134_mean",
    "Wafo.Kde.C134_line",
    "Wafo.Kde.C134_line_gauss",
    "Wafo.Kde.C134_plane_refuted",
    "Wafo.Kde.C134_negative_refuted",
    "Wafo.Kde.C134_transform_refuted"
   ],
   "note": "Planes are not reproduced in two dimensions; the fast evaluation loses negative responses and, with a transformation, all responses."
  },
  {
   "property": "C135",
   "status": "proved",
   "theorems": [
    "Wafo.Kde.C135_wilson",
    "Wafo.Kde.C135_wilson_bounds",
    "Wafo.Kde.C135_credible"
   ],
   "note": "The quantile function of the beta distribution is a parameter."
  },
  {
   "property": "C136",
   "status": "partial",
   "theorems": [
    "Wafo.Kde.C136_best",
    "Wafo.Kde.C136_outside_refuted"
   ],
   "note": "The start value, 0.1 above the last candidate, can be returned."
  },
  {
   "property": "C137",
   "status": "proved",
   "theorems": [
    "Wafo.Kde.C137_binned",
    "Wafo.Kde.C137_on_grid",
    "Wafo.Kde.C137_psi"
   ],
   "note": "One dimension; the Fourier transforms are replaced by the exact circular convolution."
  },
  {
   "property": "C138",
   "status": "partial",
   "theorems": [
    "Wafo.Kde.C138_constants_refuted"
   ],
   "note": "psi8 is right, psi12 is too small by the factor 12."
  },
  {
   "property": "C139",
   "status": "proved",
   "theorems": [
    "Wafo.Kde.C139_grid",
    "Wafo.Kde.C139_probability"
   ],
   "note": ""
  },
  {
   "property": "C140",
   "status": "proved",
   "theorems": [
    "Wafo.Dct.C140_roundtrip",
    "Wafo.Dct.C140_roundtrip'",
    "Wafo.Dct.C140_energy",
    "Wafo.Dct.C140_empty_axis"
   ],
   "note": "Type 2, norm='ortho' (the defaults); the one dimensional transforms of scipy are given by their formulas."
  },
  {
   "property": "C141",
   "status": "partial",
   "theorems": [
    "Wafo.Dct.C141_one_axis",
    "Wafo.Dct.C141_compose",
    "Wafo.Dct.C141_default",
    "Wafo.Dct.C141_shape",
    "Wafo.Dct.C141_shape_length",
    "Wafo.Dct.C141_negative_refuted",
    "Wafo.Dct.C141_negative_witness",
    "Wafo.Dct.C141_bad_axis"
   ],
   "note": "Negative axes are accepted but silently not transformed."
  },
  {
   "property": "C142",
   "status": "partial",
   "theorems": [
    "Wafo.Dct.C142_rotate",
    "Wafo.Dct.C142_add",
    "Wafo.Dct.C142_period",
    "Wafo.Dct.C142_none_partial",
    "Wafo.Dct.C142_none_refuted",
    "Wafo.Dct.C142_negative"
   ],
   "note": "When all axes are singletons none is removed."
  },
  {
   "property": "C143",
   "status": "partial",
   "theorems": [
    "Wafo.Dct.C143_roundtrip",
    "Wafo.Dct.C143_empty",
    "Wafo.Dct.C143_length_refuted"
   ],
   "note": "With n different from len(x) the result is scaled by the wrong length."
  },
  {
   "property": "C144",
   "status": "proved",
   "theorems": [
    "Wafo.Spec.C144_moments",
    "Wafo.Spec.C144_energy",
    "Wafo.Spec.C144_peak",
    "Wafo.Spec.C144_formula",
    "Wafo.Spec.C144_periods",
    "Wafo.Spec.C144_rejected"
   ],
   "note": ""
  },
  {
   "property": "C145",
   "status": "partial",
   "theorems": [
    "Wafo.Spec.C145_peakfact_range",
    "Wafo.Spec.C145_peakfact_monotone",
    "Wafo.Spec.C145_peakfact_jump_refuted",
    "Wafo.Spec.C145_gamma_one",
    "Wafo.Spec.C145_gamma_one_ok"
   ],
   "note": "The peakedness jumps from 1.018 to 1 at Tp/sqrt(Hm0) = 5.14."
  },
  {
   "property": "C146",
   "status": "partial",
   "theorems": [
    "Wafo.Spec.C146_energy_to_cutoff",
    "Wafo.Spec.C146_energy_refuted",
    "Wafo.Spec.C146_energy",
    "Wafo.Spec.C146_peak",
    "Wafo.Spec.C146_normalisation_positive",
    "Wafo.Spec.C146_default"
   ],
   "note": "Normalised by integration the area up to the cut-off is Hm0^2/16, so that the whole area is larger. Quadrature is taken to be exact."
  },
  {
   "property": "C147",
   "status": "partial",
   "theorems": [
    "Wafo.Spec.C147_rejected",
    "Wafo.Spec.C147_method",
    "Wafo.Spec.C147_parametric_partial",
    "Wafo.Spec.C147_parametric_refuted"
   ],
   "note": "The limits for M and gamma are ignored if N is in range (operator precedence)."
  },
  {
   "property": "C148",
   "status": "partial",
   "theorems": [
    "Wafo.Spec.C148_scaling",
    "Wafo.Spec.C148_positive",
    "Wafo.Spec.C148_fetch",
    "Wafo.Spec.C148_energy_refuted"
   ],
   "note": "Ag is Phillips' constant but is used as normalisation, so that the documented use gives a spectrum with too little energy."
  },
  {
   "property": "C149",
   "status": "partial",
   "theorems": [
    "Wafo.Spec.C149_range",
    "Wafo.Spec.C149_monotone",
    "Wafo.Spec.C149_zero",
    "Wafo.Spec.C149_negative_refuted"
   ],
   "note": "For a wave number solver that solves the dispersion relation exactly. The factor is odd in w."
  },
  {
   "property": "C150",
   "status": "partial",
   "theorems": [
    "Wafo.Spec.C150_call",
    "Wafo.Spec.C150_bounds",
    "Wafo.Spec.C150_energy",
    "Wafo.Spec.C150_height_refuted"
   ],
   "note": "In finite depth the significant wave height is smaller than Hm0."
  },
  {
   "property": "C151",
   "status": "partial",
   "theorems": [
    "Wafo.Spec.C151_split",
    "Wafo.Spec.C151_energy",
    "Wafo.Spec.C151_cutoff_refuted",
    "Wafo.Spec.C151_zero_refuted",
    "Wafo.Spec.C151_ok"
   ],
   "note": "wnc has no effect; Hm0 = 0 raises ZeroDivisionError; the energy of a peaked component is Hm0^2/16 only up to six times the peak frequency."
  },
  {
   "property": "C152",
   "status": "partial",
   "theorems": [
    "Wafo.Spec.C152_energy_partial",
    "Wafo.Spec.C152_energy_refuted",
    "Wafo.Spec.C152_rejected",
    "Wafo.Spec.C152_unchecked_refuted"
   ],
   "note": "The energy is within half a percent of Hm0^2/16, never equal."
  },
  {
   "property": "C153",
   "status": "partial",
   "theorems": [
    "Wafo.Spec.C153_formula",
    "Wafo.Spec.C153_period",
    "Wafo.Spec.C153_crossing_refuted",
    "Wafo.Spec.C153_zero_refuted"
   ],
   "note": "Tz is the energy period of the spectrum, not the zero-crossing period."
  },
  {
   "property": "C154",
   "status": "proved",
   "theorems": [
    "Wafo.Spec.C154_energy",
    "Wafo.Spec.C154_five"
   ],
   "note": "For Hm0/Lp < 2/pi."
  },
  {
   "property": "C155",
   "status": "partial",
   "theorems": [
    "Wafo.Spread.C155_density_partial",
    "Wafo.Spread.C155_sech2_refuted"
   ],
   "note": "wrapped-normal is C160; sech-2 with spread parameter zero (default at frequency zero) is zero in all directions. Equations for the distribution parameters are taken to be solved exactly."
  },
  {
   "property": "C156",
   "status": "partial",
   "theorems": [
    "Wafo.Spread.C156_sine",
    "Wafo.Spread.C156_first_partial",
    "Wafo.Spread.C156_sech2_refuted"
   ],
   "note": "The documented equation for sech-2 is the one on the whole line, so the coefficient differs."
  },
  {
   "property": "C157",
   "status": "proved",
   "theorems": [
    "Wafo.Spread.C157_shape",
    "Wafo.Spread.C157_turn",
    "Wafo.Spread.C157_periodic"
   ],
   "note": "C157_shape: all kinds except wrapped-normal, where the claim is C160."
  },
  {
   "property": "C158",
   "status": "partial",
   "theorems": [
    "Wafo.Spread.C158_parameter_partial",
    "Wafo.Spread.C158_default",
    "Wafo.Spread.C158_limits_refuted",
    "Wafo.Spread.C158_negative",
    "Wafo.Spread.C158_directions"
   ],
   "note": "At the limits themselves the parameter is not the documented one."
  },
  {
   "property": "C159",
   "status": "partial",
   "theorems": [
    "Wafo.Spread.C159_first",
    "Wafo.Spread.C159_documented_refuted",
    "Wafo.Spread.C159_method",
    "Wafo.Spread.C159_roundtrip_refuted",
    "Wafo.Spread.C159_donelan_refuted"
   ],
   "note": "'Box-car', 'Poisson' raise KeyError; 'donelan', 'banner' raise AttributeError; the reported name 'frequency_independent' is rejected."
  },
  {
   "property": "C160",
   "status": "partial",
   "theorems": [
    "Wafo.Spread.C160_entries",
    "Wafo.Spread.C160_grid",
    "Wafo.Spread.C160_total",
    "Wafo.Spread.C160_endpoint_refuted",
    "Wafo.Spread.C160_empty"
   ],
   "note": "Only the first angle is looked at: right for equally spaced angles without end point, wrong for those tospecdata2d makes."
  },
  {
   "property": "C161",
   "status": "proved",
   "theorems": [
    "Wafo.Spread.C161_spectrum",
    "Wafo.Spread.C161_theta",
    "Wafo.Spread.C161_r1"
   ],
   "note": "All kinds except wrapped-normal, see C160."
  },
  {
   "property": "C162",
   "status": "proved",
   "theorems": [
    "Wafo.Waves.C162_waves",
    "Wafo.Waves.C162_none",
    "Wafo.Waves.C162_rate"
   ],
   "note": "Field arithmetic; Stineman interpolation is a parameter."
  },
  {
   "property": "C163",
   "status": "proved",
   "theorems": [
    "Wafo.Waves.C163_steepness",
    "Wafo.Waves.C163_kinds"
   ],
   "note": "An unknown number fails with UnboundLocalError, an unknown name with KeyError."
  },
  {
   "property": "C164",
   "status": "partial",
   "theorems": [
    "Wafo.Waves.C164_up_first_partial",
    "Wafo.Waves.C164_down_first",
    "Wafo.Waves.C164_refuted"
   ],
   "note": "Holds when the first crossing is an up-crossing; otherwise the directions are exchanged."
  },
  {
   "property": "C165",
   "status": "partial",
   "theorems": [
    "Wafo.Waves.C165_elevations",
    "Wafo.Waves.C165_refuted"
   ],
   "note": "The result is a difference of data values, not of times."
  },
  {
   "property": "C166",
   "status": "partial",
   "theorems": [
    "Wafo.Waves.C166_origin",
    "Wafo.Waves.C166_refuted",
    "Wafo.Waves.C166_failures"
   ],
   "note": "u2c, d2t, c2d and t2u subtract a time from a data value or the other way round."
  },
  {
   "property": "C167",
   "status": "partial",
   "theorems": [
    "Wafo.Waves.C167_period",
    "Wafo.Waves.C167_short",
    "Wafo.Waves.C167_default",
    "Wafo.Waves.C167_range_refuted"
   ],
   "note": "Without times TimeSeries fails, and the range it puts for empty times makes wave_parameters fail."
  },
  {
   "property": "C168",
   "status": "proved",
   "theorems": [
    "Wafo.LevelX.C168_increasing",
    "Wafo.LevelX.C168_sample",
    "Wafo.LevelX.C168_counts",
    "Wafo.LevelX.C168_none"
   ],
   "note": "Without a level above the threshold an IndexError is raised."
  },
  {
   "property": "C169",
   "status": "partial",
   "theorems": [
    "Wafo.LevelX.C169_result",
    "Wafo.LevelX.C169_counts",
    "Wafo.LevelX.C169_levels",
    "Wafo.LevelX.C169_jump",
    "Wafo.LevelX.C169_default",
    "Wafo.LevelX.C169_top_refuted"
   ],
   "note": "The fit is a parameter. At the thresholds the result has one crossing more than observed; if the highest level is above the default threshold an IndexError is raised."
  },
  {
   "property": "C170",
   "status": "partial",
   "theorems": [
    "Wafo.LevelX.C170_gauss",
    "Wafo.LevelX.C170_units",
    "Wafo.LevelX.C170_intensity",
    "Wafo.LevelX.C170_given",
    "Wafo.LevelX.C170_short_refuted",
    "Wafo.LevelX.C170_between_refuted"
   ],
   "note": "Holds for at least 22 levels one of which is the mean; otherwise TypeError or another standard deviation."
  },
  {
   "property": "C171",
   "status": "partial",
   "theorems": [
    "Wafo.LevelX.C171_irregularity",
    "Wafo.LevelX.C171_process",
    "Wafo.LevelX.C171_start_refuted"
   ],
   "note": "The second starting value is scaled with sqrt(1 - r2**2) instead of sqrt(1 - r1**2). The ratio uses the arccos formula for Gaussian sequences, which is not proved here."
  },
  {
   "property": "C172",
   "status": "partial",
   "theorems": [
    "Wafo.Cov.C172_estimate",
    "Wafo.Cov.C172_documented_partial",
    "Wafo.Cov.C172_documented_refuted",
    "Wafo.Cov.C172_mirror",
    "Wafo.Cov.C172_maximum"
   ],
   "note": "The estimate is circular: documented values hold for lags up to nfft - n only. scipy windows are a parameter, the fast Fourier transform is its defining sum."
  },
  {
   "property": "C173",
   "status": "partial",
   "theorems": [
    "Wafo.Cov.C173_unbiased_refuted",
    "Wafo.Cov.C173_normalized"
   ],
   "note": "The unbiased estimate always raises a ValueError."
  },
  {
   "property": "C174",
   "status": "partial",
   "theorems": [
    "Wafo.Cov.C174_mean_partial",
    "Wafo.Cov.C174_missing",
    "Wafo.Cov.C174_missing_refuted",
    "Wafo.Cov.C174_first_missing_refuted"
   ],
   "note": "Holds without missing values; with missing values another mean is subtracted."
  },
  {
   "property": "C175",
   "status": "proved",
   "theorems": [
    "Wafo.Cov.C175_default_lag"
   ],
   "note": "Series without missing values and with positive variance."
  },
  {
   "property": "C176",
   "status": "partial",
   "theorems": [
    "Wafo.Cov.C176_covariance",
    "Wafo.Cov.C176_sizes",
    "Wafo.Cov.C176_energy",
    "Wafo.Cov.C176_step_partial",
    "Wafo.Cov.C176_step_refuted",
    "Wafo.Cov.C176_rejected",
    "Wafo.Cov.C176_negative_refuted"
   ],
   "note": "The documented step of the lags holds for 2**m + 1 frequencies only; negative first frequencies are accepted."
  },
  {
   "property": "C177",
   "status": "proved",
   "theorems": [
    "Wafo.Cov.C177_derivatives"
   ],
   "note": "All derivatives, not only the four that the method names."
  },
  {
   "property": "C178",
   "status": "partial",
   "theorems": [
    "Wafo.Cov.C178_density",
    "Wafo.Cov.C178_frequencies",
    "Wafo.Cov.C178_energy",
    "Wafo.Cov.C178_energy_refuted",
    "Wafo.Cov.C178_nugget_refuted"
   ],
   "note": "method='fft'. The energy is kept if the density is not negative; the nugget is added to the object itself."
  },
  {
   "property": "C179",
   "status": "partial",
   "theorems": [
    "Wafo.Cov.C179_roundtrip_partial",
    "Wafo.Cov.C179_roundtrip_refuted"
   ],
   "note": "Exact for 2**m + 1 frequencies."
  },
  {
   "property": "C180",
   "status": "partial",
   "theorems": [
    "Wafo.Cov.C180_exact_partial",
    "Wafo.Cov.C180_zero_refuted",
    "Wafo.Cov.C180_rejected",
    "Wafo.Cov.C180_default_refuted",
    "Wafo.Cov.C180_step_refuted",
    "Wafo.Cov.C180_derivative_refuted"
   ],
   "note": "Exact if the last covariance is not zero and the spectral density stays above 1e-5 of its maximum. Second moments only; normality of linear combinations is not modelled."
  },
  {
   "property": "C181",
   "status": "partial",
   "theorems": [
    "Wafo.Cov.C181_exact_partial",
    "Wafo.Cov.C181_approx_partial",
    "Wafo.Cov.C181_lag",
    "Wafo.Cov.C181_short_refuted",
    "Wafo.Cov.C181_long_refuted",
    "Wafo.Cov.C181_overwritten_refuted",
    "Wafo.Cov.C181_changed_refuted",
    "Wafo.Cov.C181_trivial"
   ],
   "note": "Proved for series between one and 10/3 (exact) or two (approximate) lengths of the covariance function; the drawn sample is not modelled."
  },
  {
   "property": "C182",
   "status": "proved",
   "theorems": [
    "Wafo.SpecD.C182_moments",
    "Wafo.SpecD.C182_hertz",
    "Wafo.SpecD.C182_even",
    "Wafo.SpecD.C182_names"
   ],
   "note": "Simpson's rule is a parameter; for hertz any weighted sum whose weights scale with the points."
  },
  {
   "property": "C183",
   "status": "partial",
   "theorems": [
    "Wafo.SpecD.C183_freqtype",
    "Wafo.SpecD.C183_ignored_refuted"
   ],
   "note": "Proved between hertz and rad/s; refuted for wave numbers: the assignment is silently ignored."
  },
  {
   "property": "C184",
   "status": "partial",
   "theorems": [
    "Wafo.SpecD.C184_normalize",
    "Wafo.SpecD.C184_gravity",
    "Wafo.SpecD.C184_twice",
    "Wafo.SpecD.C184_hertz_refuted",
    "Wafo.SpecD.C184_wavenumber_refuted"
   ],
   "note": "Proved for rad/s; refuted for hertz (m2 becomes 1/(2 pi)^2) and for wave numbers (nothing is changed)."
  },
  {
   "property": "C185",
   "status": "partial",
   "theorems": [
    "Wafo.SpecD.C185_range",
    "Wafo.SpecD.C185_scale",
    "Wafo.SpecD.C185_units",
    "Wafo.SpecD.C185_names",
    "Wafo.SpecD.C185_default_refuted",
    "Wafo.SpecD.C185_eps4_refuted"
   ],
   "note": "Values, ranges and invariance proved; refuted: the default argument raises TypeError and the name eps4 gives Qp."
  },
  {
   "property": "C186",
   "status": "proved",
   "theorems": [
    "Wafo.SpecD.C186_selection",
    "Wafo.SpecD.C186_names",
    "Wafo.SpecD.C186_values",
    "Wafo.SpecD.C186_bandwidth",
    "Wafo.SpecD.C186_peak"
   ],
   "note": "numpy.interp in Rs is a parameter; Ka, Rs, Tp1 are only modelled."
  },
  {
   "property": "C187",
   "status": "partial",
   "theorems": [
    "Wafo.SpecD.C187_variances",
    "Wafo.SpecD.C187_places_refuted",
    "Wafo.SpecD.C187_symmetric",
    "Wafo.SpecD.C187_missing"
   ],
   "note": "The variances are those of the delta method; refuted: the covariances of Hm0 with Tm01 and Tm02 stand one column too far to the right."
  },
  {
   "property": "C188",
   "status": "partial",
   "theorems": [
    "Wafo.SpecD.C188_units_partial",
    "Wafo.SpecD.C188_hertz_refuted"
   ],
   "note": "Proved for Hm0, Tm01, Tm02, Tm24, Ss, Alpha, Eps2, Eps4, Qp; refuted for Tm_10, Tp, Tp1 and Sp."
  },
  {
   "property": "C189",
   "status": "partial",
   "theorems": [
    "Wafo.SpecD.C189_dt_refuted",
    "Wafo.SpecD.C189_cov_refuted"
   ],
   "note": "Refuted: both messages raise TypeError when formatted; proved exactly when."
  },
  {
   "property": "C190",
   "status": "partial",
   "theorems": [
    "Wafo.SpecD.C190_covariance",
    "Wafo.SpecD.C190_grid",
    "Wafo.SpecD.C190_mean",
    "Wafo.SpecD.C190_odd_refuted",
    "Wafo.SpecD.C190_derivative_refuted",
    "Wafo.SpecD.C190_ends_refuted"
   ],
   "note": "Covariances, mean and times proved; refuted: an odd number of points is raised by one, the derivative always fails, the first and the last value of the spectrum are ignored."
  },
  {
   "property": "C191",
   "status": "partial",
   "theorems": [
    "Wafo.SpecD.C191_exact",
    "Wafo.SpecD.C191_method",
    "Wafo.SpecD.C191_covariance_partial"
   ],
   "note": "Same restrictions on the covariances as C180: the density of the covariances must be positive and not small, and the last covariance not zero."
  },
  {
   "property": "C192",
   "status": "partial",
   "theorems": [
    "Wafo.SpecD.C192_values_partial",
    "Wafo.SpecD.C192_names",
    "Wafo.SpecD.C192_unbound_refuted",
    "Wafo.SpecD.C192_types_refuted",
    "Wafo.SpecD.C192_myt_refuted",
    "Wafo.SpecD.C192_hertz_refuted"
   ],
   "note": "Proved for all moments but myt, which uses the cosine; refuted: y and t without x, wave number spectra, spectra in hertz."
  },
  {
   "property": "C193",
   "status": "partial",
   "theorems": [
    "Wafo.SpecD.C193_turn_partial",
    "Wafo.SpecD.C193_offset_refuted",
    "Wafo.SpecD.C193_layout_refuted",
    "Wafo.SpecD.C193_types"
   ],
   "note": "Proved for a list of arguments with angles first that start at -pi; refuted for other starts and for the layout of tospecdata2d."
  },
  {
   "property": "C194",
   "status": "partial",
   "theorems": [
    "Wafo.SpecD.C194_grid_partial",
    "Wafo.SpecD.C194_closed_refuted"
   ],
   "note": "Proved for open grids that start at -pi; refuted for closed grids: the call raises an error."
  },
  {
   "property": "C195",
   "status": "partial",
   "theorems": [
    "Wafo.SpecD.C195_grid",
    "Wafo.SpecD.C195_dense_partial",
    "Wafo.SpecD.C195_dense_refuted",
    "Wafo.SpecD.C195_default_refuted",
    "Wafo.SpecD.C195_nmax_refuted"
   ],
   "note": "Grid, sampling interval, signs and kept values proved for any sound interpolation; refuted: fineness for spectra that start above zero, Nmax, and that only zero padding happens by default."
  },
  {
   "property": "C196",
   "status": "partial",
   "theorems": [
    "Wafo.SpecD.C196_matrix",
    "Wafo.SpecD.C196_total",
    "Wafo.SpecD.C196_rows_refuted"
   ],
   "note": "Entries proved whenever a matrix is returned, and that one is returned for few rows; refuted: the default number of rows can exceed what the resampled spectrum gives (ValueError)."
  },
  {
   "property": "C197",
   "status": "proved",
   "theorems": [
    "Wafo.Padua.C197_points",
    "Wafo.Padua.C197_zero"
   ],
   "note": "For every degree and rectangle."
  },
  {
   "property": "C198",
   "status": "partial",
   "theorems": [
    "Wafo.Padua.C198_interpolates",
    "Wafo.Padua.C198_zero_refuted"
   ],
   "note": "Proved for every degree from one on and every function; refuted for degree zero (IndexError)."
  },
  {
   "property": "C199",
   "status": "proved",
   "theorems": [
    "Wafo.Padua.C199_recovers",
    "Wafo.Padua.C199_polynomial"
   ],
   "note": "For every degree from one on, every proper rectangle and every polynomial of total degree at most n."
  },
  {
   "property": "C200",
   "status": "proved",
   "theorems": [
    "Wafo.Padua.C200_cubature",
    "Wafo.Padua.C200_polynomial"
   ],
   "note": "For every square coefficient matrix and rectangle."
  },
  {
   "property": "C201",
   "status": "partial",
   "theorems": [
    "Wafo.Padua.C201_estimate",
    "Wafo.Padua.C201_bound_refuted"
   ],
   "note": "The estimate is characterized; refuted as a bound for the error."
  },
  {
   "property": "C202",
   "status": "partial",
   "theorems": [
    "Wafo.Padua.C202_mesh",
    "Wafo.Padua.C202_clipped",
    "Wafo.Padua.C202_outside_refuted"
   ],
   "note": "Meshgrid and clipping proved; refuted: a reproduced polynomial is not reproduced outside the rectangle."
  },
  {
   "property": "C203",
   "status": "proved",
   "theorems": [
    "Wafo.Osc.C203_exact"
   ],
   "note": "For every solver of nonsingular systems."
  },
  {
   "property": "C204",
   "status": "proved",
   "theorems": [
    "Wafo.Osc.C204_linear"
   ],
   "note": "Nonsingularity and exactness for all distinct nodes."
  },
  {
   "property": "C205",
   "status": "proved",
   "theorems": [
    "Wafo.Osc.C205_bisection",
    "Wafo.Osc.C205_composite"
   ],
   "note": "Invariant of the bisection by induction."
  },
  {
   "property": "C206",
   "status": "partial",
   "theorems": [
    "Wafo.Osc.C206_linear",
    "Wafo.Osc.C206_maxiter_refuted"
   ],
   "note": "Proved for maxiter from two on; refuted for maxiter 0 and 1, which always fail."
  },
  {
   "property": "C207",
   "status": "proved",
   "theorems": [
    "Wafo.Osc.C207_estimate",
    "Wafo.Osc.C207_stops"
   ],
   "note": "For every extrapolation function; nan values are not modelled."
  },
  {
   "property": "C208",
   "status": "proved",
   "theorems": [
    "Wafo.Osc.C208_derivative",
    "Wafo.Osc.C208_up",
    "Wafo.Osc.C208_down",
    "Wafo.Osc.C208_line",
    "Wafo.Osc.C208_line_limit"
   ],
   "note": "Equivalence of convergence on half lines; on the line, convergence of the halves gives convergence of the transformed integral."
  },
  {
   "property": "C209",
   "status": "proved",
   "theorems": [
    "Wafo.Osc.C209_exact",
    "Wafo.Osc.C209_linear"
   ],
   "note": "Derivatives are exact; rows with infinite values are not modelled."
  },
  {
   "property": "C210",
   "status": "proved",
   "theorems": [
    "Wafo.Osc.C210_limits",
    "Wafo.Osc.C210_sum",
    "Wafo.Osc.C210_levin",
    "Wafo.Osc.C210_ew"
   ],
   "note": "For different limits."
  },
  {
   "property": "C211",
   "status": "partial",
   "theorems": [
    "Wafo.Osc.C211_roots",
    "Wafo.Osc.C211_extrema",
    "Wafo.Osc.C211_extrema_one_refuted",
    "Wafo.Osc.C211_loop",
    "Wafo.Osc.C211_loop_refuted",
    "Wafo.Osc.C211_levin",
    "Wafo.Osc.C211_levin_refuted",
    "Wafo.Osc.C211_points",
    "Wafo.Osc.C211_num",
    "Wafo.Osc.C211_quadOsc"
   ],
   "note": "Proved for odd numbers of points and positive delta; refuted for chebyshev_extrema(1), for even numbers in adaptive_levin_points and for delta = 0."
  },
  {
   "property": "C212",
   "status": "proved",
   "theorems": [
    "Wafo.Theory.C212_ratio",
    "Wafo.Theory.C212_sign",
    "Wafo.Theory.C212_pole"
   ],
   "note": "Over the reals; an infinite value is modelled as none."
  },
  {
   "property": "C213",
   "status": "partial",
   "theorems": [
    "Wafo.Theory.C213_ids",
    "Wafo.Theory.C213_outside",
    "Wafo.Theory.C213_names",
    "Wafo.Theory.C213_known",
    "Wafo.Theory.C213_unknown_refuted",
    "Wafo.Theory.C213_number_refuted",
    "Wafo.Theory.C213_case_refuted"
   ],
   "note": "Round trips proved; refuted: sensor_type of a list with nan is a TypeError, TransferFunction with a sensor number and with the name 'N' is a KeyError in tran."
  },
  {
   "property": "C214",
   "status": "partial",
   "theorems": [
    "Wafo.Theory.C214_returns",
    "Wafo.Theory.C214_water",
    "Wafo.Theory.C214_negative_refuted",
    "Wafo.Theory.C214_negative_cases",
    "Wafo.Theory.C214_deep_refuted",
    "Wafo.Theory.C214_deep_limit",
    "Wafo.Theory.C214_igam",
    "Wafo.Theory.C214_elevation"
   ],
   "note": "Proved in water of finite depth; refuted: a negative Hw is an IndexError, and for infinite depth Hw is 0 for all sensors below the surface while the limit of the pressure is rho g exp(k z)."
  },
  {
   "property": "C215",
   "status": "proved",
   "theorems": [
    "Wafo.Theory.C215_time",
    "Wafo.Theory.C215_slopes"
   ],
   "note": "For the complete transfer function Hw * Gwt."
  },
  {
   "property": "C216",
   "status": "partial",
   "theorems": [
    "Wafo.Theory.C216_continuity",
    "Wafo.Theory.C216_irrotational",
    "Wafo.Theory.C216_down_refuted"
   ],
   "note": "Proved for z measured upwards; for igam=2 the velocity in z-direction points upwards and the sum is not 0."
  },
  {
   "property": "C217",
   "status": "partial",
   "theorems": [
    "Wafo.Theory.C217_motion",
    "Wafo.Theory.C217_gravity_refuted",
    "Wafo.Theory.C217_bottom",
    "Wafo.Theory.C217_surface"
   ],
   "note": "Equations of motion and boundary conditions proved; refuted for the wave numbers tran computes itself, which belong to gravity 9.81."
  },
  {
   "property": "C218",
   "status": "partial",
   "theorems": [
    "Wafo.Theory.C218_axes",
    "Wafo.Theory.C218_from",
    "Wafo.Theory.C218_period",
    "Wafo.Theory.C218_same_refuted"
   ],
   "note": "Proved for axes at a right angle; thetax and thetay are read differently: equal axes have opposite slopes."
  },
  {
   "property": "C219",
   "status": "proved",
   "theorems": [
    "Wafo.Theory.C219_pressure",
    "Wafo.Theory.C219_transfer"
   ],
   "note": "The peak factor and w2k are parameters, with a positive wave number."
  },
  {
   "property": "C220",
   "status": "partial",
   "theorems": [
    "Wafo.Peaks.C220_vector_partial",
    "Wafo.Peaks.C220_few_refuted",
    "Wafo.Peaks.C220_one_row_refuted",
    "Wafo.Peaks.C220_matrix"
   ],
   "note": "vector case with min_h = 0; fewer than two turning points and one-row matrices end in errors (refuted)"
  },
  {
   "property": "C221",
   "status": "proved",
   "theorems": [
    "Wafo.Thresh.C221_default",
    "Wafo.Thresh.C221_conditional"
   ],
   "note": ""
  },
  {
   "property": "C222",
   "status": "partial",
   "theorems": [
    "Wafo.Thresh.C222_mean",
    "Wafo.Thresh.C222_slope",
    "Wafo.Thresh.C222_units",
    "Wafo.Thresh.C222_thresholds_partial",
    "Wafo.Thresh.C222_given_limits",
    "Wafo.Thresh.C222_nmin_refuted",
    "Wafo.Thresh.C222_short"
   ],
   "note": "at the last default threshold fewer than nmin data remain (refuted); Student quantiles are a parameter"
  },
  {
   "property": "C223",
   "status": "partial",
   "theorems": [
    "Wafo.Thresh.C223_total",
    "Wafo.Thresh.C223_index",
    "Wafo.Thresh.C223_times",
    "Wafo.Thresh.C223_monotone",
    "Wafo.Thresh.C223_threshold",
    "Wafo.Thresh.C223_result",
    "Wafo.Thresh.C223_divisor_refuted"
   ],
   "note": "all but the divisor of the variance: M instead of the M - 1 that the documented limits are for (refuted); chi-square quantiles are a parameter"
  },
  {
   "property": "C224",
   "status": "partial",
   "theorems": [
    "Wafo.Gam.C224_stirlerr",
    "Wafo.Gam.C224_betaloge",
    "Wafo.Gam.C224_binomln",
    "Wafo.Gam.C224_choose",
    "Wafo.Gam.C224_binomln_refuted"
   ],
   "note": "exact arithmetic; for real w > z binomln is -inf though the coefficient is not zero, and the documented formula lacks the +1 (refuted)"
  },
  {
   "property": "C225",
   "status": "partial",
   "theorems": [
    "Wafo.Fourier.C225_coefficients_partial",
    "Wafo.Fourier.C225_series",
    "Wafo.Fourier.C225_mutation_refuted"
   ],
   "note": "the coefficients are those of the sum times q T / (2 pi), right only for one period of 2 pi; the array t of the caller is reshaped (refuted)"
  },
  {
   "property": "C226",
   "status": "partial",
   "theorems": [
    "Wafo.Fourier.C226_neg_partial",
    "Wafo.Fourier.C226_large_refuted"
   ],
   "note": "numerators up to the limit; large negative numerators are not limited (refuted)"
  },
  {
   "property": "C227",
   "status": "proved",
   "theorems": [
    "Wafo.Gauss.C227_cdflomax",
    "Wafo.Gauss.C227_mono"
   ],
   "note": "exact arithmetic; erfc is the integral it is documented to be"
  },
  {
   "property": "C228",
   "status": "proved",
   "theorems": [
    "Wafo.Gauss.C228_error",
    "Wafo.Gauss.C228_bound",
    "Wafo.Gauss.C228_zero"
   ],
   "note": "exact arithmetic; twopi is taken as 2 pi; the size of the quadrature error itself is not bounded"
  },
  {
   "property": "C229",
   "status": "proved",
   "theorems": [
    "Wafo.Gauss.C229_perfect",
    "Wafo.Gauss.C229_values"
   ],
   "note": "exact arithmetic"
  },
  {
   "property": "C230",
   "status": "proved",
   "theorems": [
    "Wafo.Gauss.C230_error"
   ],
   "note": "exact arithmetic; the size of the quadrature error itself is not bounded"
  },
  {
   "property": "C231",
   "status": "partial",
   "theorems": [
    "Wafo.Gauss.C231_comm",
    "Wafo.Gauss.C231_reflect_partial",
    "Wafo.Gauss.C231_spec",
    "Wafo.Gauss.C231_not_reflect"
   ],
   "note": "exchange for all inputs; reflection below 0.3 and from 0.925 on; between, negative correlations use the 6 point rule and the identity fails (negation proved)"
  },
  {
   "property": "C232",
   "status": "partial",
   "theorems": [
    "Wafo.Gauss.C232_elementwise_partial",
    "Wafo.Gauss.C232_scalar",
    "Wafo.Gauss.C232_not_elementwise"
   ],
   "note": "one correlation for all points, and arrays with the high correlations first; otherwise line 904 rescales the wrong elements (negation proved)"
  },
  {
   "property": "C233",
   "status": "partial",
   "theorems": [
    "Wafo.Gauss.C233_rectangle_partial",
    "Wafo.Gauss.C233_not_strip"
   ],
   "note": "all rectangles but the strips, for which the function returns one (negation proved)"
  },
  {
   "property": "C234",
   "status": "proved",
   "theorems": [
    "Wafo.Gauss.C234_tables",
    "Wafo.Gauss.C234_positive",
    "Wafo.Gauss.C234_choice"
   ],
   "note": "the tables as decimal fractions"
  },
  {
   "property": "C235",
   "status": "proved",
   "theorems": [
    "Wafo.Est.C235_expon",
    "Wafo.Est.C235_weibull_min",
    "Wafo.Est.C235_index"
   ],
   "note": ""
  },
  {
   "property": "C236",
   "status": "partial",
   "theorems": [
    "Wafo.Est.C236_genpareto_partial",
    "Wafo.Est.C236_genpareto_loc_refuted",
    "Wafo.Est.C236_genextreme_partial",
    "Wafo.Est.C236_gumbel_partial",
    "Wafo.Est.C236_gumbel_loc_refuted",
    "Wafo.Est.C236_genextreme_loc_refuted"
   ],
   "note": "shape and scale; the location branches are wrong (negations proved)"
  },
  {
   "property": "C237",
   "status": "partial",
   "theorems": [
    "Wafo.Est.C237_loc_partial",
    "Wafo.Est.C237_scale_refuted",
    "Wafo.Est.C237_lookup_refuted"
   ],
   "note": "location; the scale branches and the registered name are wrong (negations proved)"
  },
  {
   "property": "C238",
   "status": "partial",
   "theorems": [
    "Wafo.Est.C238_shape_partial",
    "Wafo.Est.C238_burr_refuted",
    "Wafo.Est.C238_exponweib_refuted",
    "Wafo.Est.C238_genexpon_refuted"
   ],
   "note": "the branches that are right; for the others negations are proved"
  },
  {
   "property": "C239",
   "status": "partial",
   "theorems": [
    "Wafo.Est.C239_indexes_partial",
    "Wafo.Est.C239_default",
    "Wafo.Est.C239_default_refuted"
   ],
   "note": "given indexes; the default is the last estimated parameter, not the first (negation proved)"
  },
  {
   "property": "C240",
   "status": "proved",
   "theorems": [
    "Wafo.Est.C240_search"
   ],
   "note": "the optimiser is an arbitrary function of call number and point"
  },
  {
   "property": "C241",
   "status": "proved",
   "theorems": [
    "Wafo.Est.C241_sublist",
    "Wafo.Est.C241_contiguous"
   ],
   "note": "infinite profile values are not modelled"
  },
  {
   "property": "C242",
   "status": "proved",
   "theorems": [
    "Wafo.Est.C242_bounds",
    "Wafo.Est.C242_one_sided"
   ],
   "note": ""
  },
  {
   "property": "C243",
   "status": "partial",
   "theorems": [
    "Wafo.Est.C243_grid_partial",
    "Wafo.Est.C243_count_refuted",
    "Wafo.Est.C243_few_refuted"
   ],
   "note": "four points or more, up to n + 1 points; the documented maximum and smaller n are refuted"
  },
  {
   "property": "C244",
   "status": "proved",
   "theorems": [
    "Wafo.Est.C244_symmetric",
    "Wafo.Est.C244_quadratic",
    "Wafo.Est.C244_covariance",
    "Wafo.Est.C244_information"
   ],
   "note": "pinv is a parameter"
  },
  {
   "property": "C245",
   "status": "proved",
   "theorems": [
    "Wafo.Est.C245_staircase"
   ],
   "note": ""
  },
  {
   "property": "C246",
   "status": "proved",
   "theorems": [
    "Wafo.Est.C246_grid",
    "Wafo.Est.C246_equal"
   ],
   "note": ""
  },
  {
   "property": "C247",
   "status": "partial",
   "theorems": [
    "Wafo.Est.C247_names",
    "Wafo.Est.C247_reduced",
    "Wafo.Est.C247_start",
    "Wafo.Est.C247_none_refuted"
   ],
   "note": "all but None for location and scale, which fixes them at None (negation proved)"
  },
  {
   "property": "C248",
   "status": "partial",
   "theorems": [
    "Wafo.Est.C248_bound_partial",
    "Wafo.Est.C248_attained",
    "Wafo.Est.C248_tails",
    "Wafo.Est.C248_ties_refuted"
   ],
   "note": "data without ties; with ties the bound fails (negation proved)"
  },
  {
   "property": "C249",
   "status": "proved",
   "theorems": [
    "Wafo.Est.C249_invariance"
   ],
   "note": ""
  },
  {
   "property": "C250",
   "status": "partial",
   "theorems": [
    "Wafo.Est.C250_rows_partial",
    "Wafo.Est.C250_default_refuted"
   ],
   "note": "all but the default index, for which a negation is proved"
  },
  {
   "property": "C251",
   "status": "proved",
   "theorems": [
    "Wafo.Dist.C251_expon",
    "Wafo.Dist.C251_weibull_min",
    "Wafo.Dist.C251_weibull_max",
    "Wafo.Dist.C251_exponweib",
    "Wafo.Dist.C251_exponpow",
    "Wafo.Dist.C251_rayleigh",
    "Wafo.Dist.C251_truncrayleigh",
    "Wafo.Dist.C251_gompertz",
    "Wafo.Dist.C251_invweibull",
    "Wafo.Dist.C251_truncexpon",
    "Wafo.Dist.C251_genexpon"
   ],
   "note": ""
  },
  {
   "property": "C252",
   "status": "proved",
   "theorems": [
    "Wafo.Dist.C252_gumbel_r",
    "Wafo.Dist.C252_gumbel_l",
    "Wafo.Dist.C252_genpareto",
    "Wafo.Dist.C252_genextreme"
   ],
   "note": ""
  },
  {
   "property": "C253",
   "status": "proved",
   "theorems": [
    "Wafo.Dist.C253_uniform",
    "Wafo.Dist.C253_pareto",
    "Wafo.Dist.C253_lomax",
    "Wafo.Dist.C253_powerlaw",
    "Wafo.Dist.C253_reciprocal",
    "Wafo.Dist.C253_bradford",
    "Wafo.Dist.C253_burr",
    "Wafo.Dist.C253_fisk",
    "Wafo.Dist.C253_burr12",
    "Wafo.Dist.C253_mielke",
    "Wafo.Dist.C253_kappa3"
   ],
   "note": ""
  },
  {
   "property": "C254",
   "status": "proved",
   "theorems": [
    "Wafo.Dist.C254_logistic",
    "Wafo.Dist.C254_genlogistic",
    "Wafo.Dist.C254_halflogistic",
    "Wafo.Dist.C254_genhalflogistic",
    "Wafo.Dist.C254_hypsecant",
    "Wafo.Dist.C254_laplace",
    "Wafo.Dist.C254_loglaplace"
   ],
   "note": ""
  },
  {
   "property": "C255",
   "status": "proved",
   "theorems": [
    "Wafo.Dist.C255_anglit",
    "Wafo.Dist.C255_arcsine",
    "Wafo.Dist.C255_cosine",
    "Wafo.Dist.C255_cauchy",
    "Wafo.Dist.C255_halfcauchy",
    "Wafo.Dist.C255_foldcauchy",
    "Wafo.Dist.C255_semicircular"
   ],
   "note": ""
  },
  {
   "property": "C256",
   "status": "proved",
   "theorems": [
    "Wafo.Dist.C256_triang",
    "Wafo.Dist.C256_trapz",
    "Wafo.Dist.C256_dweibull"
   ],
   "note": ""
  },
  {
   "property": "C257",
   "status": "partial",
   "theorems": [
    "Wafo.Dist.C257_kappa4",
    "Wafo.Dist.C257_ppf_partial",
    "Wafo.Dist.C257_ppf_refuted"
   ],
   "note": "the quantile function for k = 0 and h < 0 is always nan (negation proved)"
  },
  {
   "property": "C258",
   "status": "proved",
   "theorems": [
    "Wafo.Dist.C258_gamma",
    "Wafo.Dist.C258_chi2",
    "Wafo.Dist.C258_chi",
    "Wafo.Dist.C258_maxwell",
    "Wafo.Dist.C258_nakagami",
    "Wafo.Dist.C258_gengamma",
    "Wafo.Dist.C258_invgamma",
    "Wafo.Dist.C258_halfgennorm",
    "Wafo.Dist.C258_dgamma",
    "Wafo.Dist.C258_gennorm"
   ],
   "note": ""
  },
  {
   "property": "C259",
   "status": "proved",
   "theorems": [
    "Wafo.Dist.C259_inverse_transform",
    "Wafo.Dist.C259_chi",
    "Wafo.Dist.C259_maxwell",
    "Wafo.Dist.C259_rayleigh",
    "Wafo.Dist.C259_dgamma",
    "Wafo.Dist.C259_dweibull",
    "Wafo.Dist.C259_foldcauchy",
    "Wafo.Dist.C259_semicircular"
   ],
   "note": ""
  },
  {
   "property": "C260",
   "status": "partial",
   "theorems": [
    "Wafo.Dist.C260_gamma",
    "Wafo.Dist.C260_chi2",
    "Wafo.Dist.C260_chi",
    "Wafo.Dist.C260_maxwell",
    "Wafo.Dist.C260_rayleigh",
    "Wafo.Dist.C260_nakagami",
    "Wafo.Dist.C260_gengamma_partial",
    "Wafo.Dist.C260_gengamma_no_mean",
    "Wafo.Dist.C260_invgamma",
    "Wafo.Dist.C260_weibull_min",
    "Wafo.Dist.C260_weibull_max",
    "Wafo.Dist.C260_dweibull",
    "Wafo.Dist.C260_expon",
    "Wafo.Dist.C260_laplace",
    "Wafo.Dist.C260_dgamma",
    "Wafo.Dist.C260_gennorm",
    "Wafo.Dist.C260_invweibull_partial",
    "Wafo.Dist.C260_invweibull_no_moment"
   ],
   "note": "gengamma and invweibull report finite numbers for moments which do not exist (negations proved)"
  },
  {
   "property": "C261",
   "status": "partial",
   "theorems": [
    "Wafo.Dist.C261_uniform",
    "Wafo.Dist.C261_powerlaw",
    "Wafo.Dist.C261_pareto",
    "Wafo.Dist.C261_genpareto_munp",
    "Wafo.Dist.C261_genpareto",
    "Wafo.Dist.C261_lomax",
    "Wafo.Dist.C261_reciprocal",
    "Wafo.Dist.C261_bradford",
    "Wafo.Dist.C261_triang",
    "Wafo.Dist.C261_truncexpon",
    "Wafo.Dist.C261_anglit",
    "Wafo.Dist.C261_cosine",
    "Wafo.Dist.C261_arcsine",
    "Wafo.Dist.C261_semicircular",
    "Wafo.Dist.C261_loglaplace_partial",
    "Wafo.Dist.C261_loglaplace_no_moment",
    "Wafo.Dist.C261_cauchy",
    "Wafo.Dist.C261_halfcauchy",
    "Wafo.Dist.C261_truncrayleigh_partial",
    "Wafo.Dist.C261_truncrayleigh_no_mean"
   ],
   "note": "loglaplace reports finite numbers for moments which do not exist, truncrayleigh ignores its parameter (negations proved)"
  },
  {
   "property": "C262",
   "status": "partial",
   "theorems": [
    "Wafo.Dist.C262_expon",
    "Wafo.Dist.C262_weibull_min",
    "Wafo.Dist.C262_weibull_max",
    "Wafo.Dist.C262_invweibull",
    "Wafo.Dist.C262_gumbel_r",
    "Wafo.Dist.C262_gumbel_l",
    "Wafo.Dist.C262_rayleigh",
    "Wafo.Dist.C262_genextreme",
    "Wafo.Dist.C262_uniform",
    "Wafo.Dist.C262_pareto",
    "Wafo.Dist.C262_lomax",
    "Wafo.Dist.C262_genpareto",
    "Wafo.Dist.C262_powerlaw",
    "Wafo.Dist.C262_fisk",
    "Wafo.Dist.C262_logistic",
    "Wafo.Dist.C262_halflogistic",
    "Wafo.Dist.C262_genhalflogistic",
    "Wafo.Dist.C262_gamma",
    "Wafo.Dist.C262_gengamma",
    "Wafo.Dist.C262_invgamma",
    "Wafo.Dist.C262_halfgennorm",
    "Wafo.Dist.C262_gennorm",
    "Wafo.Dist.C262_maxwell",
    "Wafo.Dist.C262_anglit",
    "Wafo.Dist.C262_cauchy",
    "Wafo.Dist.C262_halfcauchy",
    "Wafo.Dist.C262_hypsecant",
    "Wafo.Dist.C262_reciprocal",
    "Wafo.Dist.C262_bradford",
    "Wafo.Dist.C262_truncexpon",
    "Wafo.Dist.C262_laplace",
    "Wafo.Dist.C262_loglaplace",
    "Wafo.Dist.C262_triang",
    "Wafo.Dist.C262_cosine",
    "Wafo.Dist.C262_gompertz",
    "Wafo.Dist.C262_truncrayleigh_partial",
    "Wafo.Dist.C262_truncrayleigh_wrong"
   ],
   "note": "proved for all parameters of 35 classes; refuted for the truncated Rayleigh distribution with c = 3 and proved there for c = 0; the decimal constants of arcsine and semicircular are not modelled"
  },
  {
   "property": "C263",
   "status": "proved",
   "theorems": [
    "Wafo.Dist.C263_norm",
    "Wafo.Dist.C263_lognorm",
    "Wafo.Dist.C263_gilbrat",
    "Wafo.Dist.C263_halfnorm",
    "Wafo.Dist.C263_foldnorm",
    "Wafo.Dist.C263_alpha",
    "Wafo.Dist.C263_fatiguelife",
    "Wafo.Dist.C263_johnsonsb",
    "Wafo.Dist.C263_johnsonsu",
    "Wafo.Dist.C263_levy",
    "Wafo.Dist.C263_levy_l",
    "Wafo.Dist.C263_moyal",
    "Wafo.Dist.C263_powernorm",
    "Wafo.Dist.C263_powerlognorm",
    "Wafo.Dist.C263_invgauss",
    "Wafo.Dist.C263_recipinvgauss",
    "Wafo.Dist.C263_exponnorm",
    "Wafo.Dist.C263_crystalball",
    "Wafo.Dist.C263_skewnorm"
   ],
   "note": "ndtri, erfcinv and quad are parameters, assumed to be the inverse functions and the integral"
  },
  {
   "property": "C264",
   "status": "proved",
   "theorems": [
    "Wafo.Dist.C264_norm",
    "Wafo.Dist.C264_lognorm",
    "Wafo.Dist.C264_gilbrat",
    "Wafo.Dist.C264_foldnorm",
    "Wafo.Dist.C264_halfnorm",
    "Wafo.Dist.C264_fatiguelife",
    "Wafo.Dist.C264_recipinvgauss",
    "Wafo.Dist.C264_moyal",
    "Wafo.Dist.C264_exponnorm",
    "Wafo.Dist.C264_skewnorm"
   ],
   "note": "Laws are measures with densities; the basic draws of numpy's generator (normal, exponential, gamma, Wald) are taken to have their exact laws, two draws to be independent."
  },
  {
   "property": "C265",
   "status": "proved",
   "theorems": [
    "Wafo.Dist.C267_moyal_stats",
    "Wafo.Dist.C265_norm",
    "Wafo.Dist.C265_lognorm",
    "Wafo.Dist.C265_lognorm_raw",
    "Wafo.Dist.C265_gilbrat",
    "Wafo.Dist.C265_foldnorm",
    "Wafo.Dist.C265_halfnorm",
    "Wafo.Dist.C265_fatiguelife",
    "Wafo.Dist.C265_exponnorm",
    "Wafo.Dist.C265_skewnorm",
    "Wafo.Dist.C265_invgauss",
    "Wafo.Dist.C265_levy",
    "Wafo.Dist.C265_levy_l",
    "Wafo.Dist.C265_alpha",
    "Wafo.Dist.C265_moyal_mean_partial"
   ],
   "note": "levy_l reports its mean as plus infinity although the variable is negative; the theorem shows both facts."
  },
  {
   "property": "C266",
   "status": "proved",
   "theorems": [
    "Wafo.Dist.C266_norm",
    "Wafo.Dist.C266_halfnorm",
    "Wafo.Dist.C266_lognorm",
    "Wafo.Dist.C266_gilbrat"
   ],
   "note": "Closed forms against the integral of the density times its logarithm."
  },
  {
   "property": "C267",
   "status": "proved",
   "theorems": [
    "Wafo.Dist.C267_loggamma",
    "Wafo.Dist.C267_loggamma_rvs",
    "Wafo.Dist.C267_loggamma_stats",
    "Wafo.Dist.C267_gumbel_l_stats",
    "Wafo.Dist.C267_gumbel_r_stats",
    "Wafo.Dist.C267_moyal_stats",
    "Wafo.Dist.C267_moyal_munp",
    "Wafo.Dist.C267_genlogistic_stats",
    "Wafo.Dist.C267_logistic_stats",
    "Wafo.Dist.C267_halflogistic_munp"
   ],
   "note": "The zeta and polygamma functions of scipy are the mathematical functions."
  },
  {
   "property": "C268",
   "status": "proved",
   "theorems": [
    "Wafo.Dist.C268_beta",
    "Wafo.Dist.C268_betaprime",
    "Wafo.Dist.C268_f",
    "Wafo.Dist.C268_rdist",
    "Wafo.Dist.C268_t"
   ],
   "note": "Inverses of the incomplete beta function are parameters; theorems show that they exist."
  },
  {
   "property": "C269",
   "status": "partial",
   "theorems": [
    "Wafo.Dist.C269_beta_stats",
    "Wafo.Dist.C269_betaprime_munp",
    "Wafo.Dist.C269_betaprime_orders",
    "Wafo.Dist.C269_f_stats",
    "Wafo.Dist.C269_t_stats",
    "Wafo.Dist.C269_t_mean_refuted"
   ],
   "note": "The mean of t is reported as inf for df <= 1, where it is undefined; HasStats? reads inf as not existing."
  },
  {
   "property": "C270",
   "status": "partial",
   "theorems": [
    "Wafo.Dist.C270_burr_munp",
    "Wafo.Dist.C270_burr_stats",
    "Wafo.Dist.C270_fisk",
    "Wafo.Dist.C270_burr12_munp_partial",
    "Wafo.Dist.C270_burr12_munp_refuted",
    "Wafo.Dist.C270_rdist_munp",
    "Wafo.Dist.C270_rdist_rvs",
    "Wafo.Dist.C270_betaprime_rvs",
    "Wafo.Dist.C270_hypsecant_stats"
   ],
   "note": "burr12 reports finite numbers for moments which do not exist (refuted); its existing moments are proved."
  },
  {
   "property": "C271",
   "status": "proved",
   "theorems": [
    "Wafo.Dist.C271_truncnorm"
   ],
   "note": "The Newton iteration _norm_ilogcdf and brentq are parameters (an inverse of the logarithm of the distribution function, a root in a bracket); theorems show that they exist."
  },
  {
   "property": "C272",
   "status": "proved",
   "theorems": [
    "Wafo.Dist.C272_truncnorm_munp",
    "Wafo.Dist.C272_truncnorm_stats"
   ],
   "note": ""
  },
  {
   "property": "C273",
   "status": "partial",
   "theorems": [
    "Wafo.Dist.C273_cdf",
    "Wafo.Dist.C273_ppf",
    "Wafo.Dist.C273_munp",
    "Wafo.Dist.C273_entropy",
    "Wafo.Dist.C273_bins_partial",
    "Wafo.Dist.C273_bins_refuted",
    "Wafo.Dist.C273_error"
   ],
   "note": "With bins of different width the probability of a bin is not its relative content (refuted); it is for equal widths."
  },
  {
   "property": "C274",
   "status": "proved",
   "theorems": [
    "Wafo.Dist.C274_wrapcauchy",
    "Wafo.Dist.C274_wrapcauchy_entropy",
    "Wafo.Dist.TukeyLambda.C274_tukeylambda",
    "Wafo.Dist.TukeyLambda.C274_tukeylambda_entropy"
   ],
   "note": "tklmbda of scipy is a parameter, a monotone inverse of the quantiles, whose existence is a theorem; the quadrature of the Tukey entropy is the integral."
  },
  {
   "property": "C275",
   "status": "partial",
   "theorems": [
    "Wafo.Dist.C275_genextreme_munp_partial",
    "Wafo.Dist.C275_genextreme_munp_refuted",
    "Wafo.Dist.C275_genextreme_stats_partial",
    "Wafo.Dist.C275_genextreme_mean_close",
    "Wafo.Dist.C275_genextreme_skew_array_partial",
    "Wafo.Dist.C275_genextreme_skew_array_refuted"
   ],
   "note": "Exact for c = 0 and beyond the distance at which the code stops to use the limit at zero; the mean is within 1e-12 there, variance, skewness and kurtosis of tiny nonzero c are not treated. munp is nan at c = 0 (refuted). The skewness of an array with an element below -1/3 is wrong or an error (refuted)."
  },
  {
   "property": "C276",
   "status": "proved",
   "theorems": [
    "Wafo.Dist.C276_crystalball",
    "Wafo.Dist.C276_crystalball_sign_refuted"
   ],
   "note": "The moment where it exists and infinity where it does not, for all orders; the sign of the infinity is wrong for odd orders (_refuted)"
  },
  {
   "property": "C277",
   "status": "partial",
   "theorems": [
    "Wafo.Pbinom.C277_init",
    "Wafo.Pbinom.C277_pbinom_partial",
    "Wafo.Pbinom.C277_local",
    "Wafo.Pbinom.C277_total_refuted"
   ],
   "note": "Exact up to the rounding unit that the code adds to every probability; therefore the probabilities never add up to one (_refuted)"
  },
  {
   "property": "C278",
   "status": "proved",
   "theorems": [
    "Wafo.Pbinom.C278_stats"
   ],
   "note": "All four statistics by induction over the trials"
  },
  {
   "property": "C279",
   "status": "partial",
   "theorems": [
    "Wafo.Dist.C279_genpareto_partial",
    "Wafo.Dist.C279_genpareto_refuted"
   ],
   "note": "With the shape negated the returned location and scale reproduce mean and variance; with the shape as returned the mean is that of the data only if the shape is 0."
  },
  {
   "property": "C280",
   "status": "partial",
   "theorems": [
    "Wafo.Dist.C280_genextreme",
    "Wafo.Dist.C280_sorts_refuted"
   ],
   "note": "The start values solve the equations of the probability weighted moments of order 0 and 1 exactly. The caller's array is sorted in place. The rational approximation of the shape is not assessed."
  },
  {
   "property": "C281",
   "status": "partial",
   "theorems": [
    "Wafo.Dist.C281_weibull_min",
    "Wafo.Dist.C281_lognorm_partial",
    "Wafo.Dist.C281_lognorm_refuted",
    "Wafo.Dist.C281_bradford",
    "Wafo.Dist.C281_f_partial",
    "Wafo.Dist.C281_chi",
    "Wafo.Dist.C281_ncx2_partial",
    "Wafo.Dist.C281_ncx2_refuted"
   ],
   "note": "lognorm: the scale is the standard deviation of the data, so the mean of the logarithm is wrong. ncx2: the non-centrality is half of what matches the variance. f: exact when the formulas give integers."
  },
  {
   "property": "C282",
   "status": "partial",
   "theorems": [
    "Wafo.Mctp.C282_blocks_partial",
    "Wafo.Mctp.C282_margins_partial",
    "Wafo.Mctp.C282_total",
    "Wafo.Mctp.C282_column_refuted"
   ],
   "note": "Block sums, triangle, margins and existence are proved; not proved is that the block sums are those of the rainflow count of a simulated chain. The bound of the first column by the minima of the lowest class fails: the sum leaves out one row."
  },
  {
   "property": "C283",
   "status": "proved",
   "theorems": [
    "Wafo.Mctp.C283_iter",
    "Wafo.Mctp.C283_fixed"
   ],
   "note": ""
  },
  {
   "property": "C284",
   "status": "proved",
   "theorems": [
    "Wafo.Mctp.C284_raises_refuted",
    "Wafo.Mctp.C284_returns",
    "Wafo.Mctp.C284_argument_refuted",
    "Wafo.Mctp.C284_mc2rfc_refuted"
   ],
   "note": "The results of the linear solvers are parameters; the failures come from shapes."
  },
  {
   "property": "C285",
   "status": "proved",
   "theorems": [
    "Wafo.Mctp.C285_mktestmat",
    "Wafo.Mctp.C285_diagonal_refuted"
   ],
   "note": "np.linalg.pinv is a parameter which inverts regular matrices."
  },
  {
   "property": "C286",
   "status": "partial",
   "theorems": [
    "Wafo.Spline.C286_smoothing_partial"
   ],
   "note": "Full statement for points in increasing order, one data set, three or more points, including existence and uniqueness of the solution of the linear equation. Two points and data out of order: see C288. Several data sets at once are not modelled."
  },
  {
   "property": "C287",
   "status": "proved",
   "theorems": [
    "Wafo.Spline.C287_default",
    "Wafo.Spline.C286_smoothing_partial"
   ],
   "note": "C286_smoothing_partial states that the parameter used is effectiveP, the caller's or the default of the specification; C287_default its range."
  },
  {
   "property": "C288",
   "status": "partial",
   "theorems": [
    "Wafo.Spline.C288_sorted",
    "Wafo.Spline.C288_two_points_refuted",
    "Wafo.Spline.C288_variance_refuted"
   ],
   "note": "Points and values are put in order whatever the order given; the variances are not, and two points always raise IndexError."
  },
  {
   "property": "C289",
   "status": "partial",
   "theorems": [
    "Wafo.Cheb1d.C289_value",
    "Wafo.Cheb1d.C289_iff",
    "Wafo.Cheb1d.C289_refuted"
   ],
   "note": "Holds exactly when the coefficient of degree zero is not zero (C289_iff); otherwise the trailing zeros are dropped and all degrees move down."
  },
  {
   "property": "C290",
   "status": "partial",
   "theorems": [
    "Wafo.Cheb1d.C290_items",
    "Wafo.Cheb1d.C290_extend_refuted"
   ],
   "note": "Items behave as stated as a list; as a series, extending the list moves all degrees, so assigning the 0 that is read changes the function."
  },
  {
   "property": "C291",
   "status": "partial",
   "theorems": [
    "Wafo.Cheb1d.C291_list_partial",
    "Wafo.Cheb1d.C291_extend_partial",
    "Wafo.Cheb1d.C291_copy_refuted",
    "Wafo.Cheb1d.C291_array_refuted"
   ],
   "note": "True for objects made from lists and for assignments beyond the order; copies and arrays share memory."
  },
  {
   "property": "C292",
   "status": "partial",
   "theorems": [
    "Wafo.Cheb1d.C292_arithmetic_refuted",
    "Wafo.Cheb1d.C292_len"
   ],
   "note": "Every arithmetic operation raises; len is the order and raises for the zero series."
  },
  {
   "property": "C293",
   "status": "partial",
   "theorems": [
    "Wafo.Cheb1d.C293_equality_partial",
    "Wafo.Cheb1d.C293_broadcast_refuted"
   ],
   "note": "True for the same number of coefficients; a single coefficient is broadcast against the other list."
  },
  {
   "property": "C294",
   "status": "proved",
   "theorems": [
    "Wafo.Logit.C294_likelihood"
   ],
   "note": ""
  },
  {
   "property": "C295",
   "status": "proved",
   "theorems": [
    "Wafo.Logit.C295_derivatives"
   ],
   "note": ""
  },
  {
   "property": "C296",
   "status": "proved",
   "theorems": [
    "Wafo.Logit.C296_semidefinite",
    "Wafo.Logit.C296_maximum"
   ],
   "note": ""
  },
  {
   "property": "C297",
   "status": "proved",
   "theorems": [
    "Wafo.Logit.C297_null_model"
   ],
   "note": "The solver is a parameter that maps 0 to 0."
  },
  {
   "property": "C298",
   "status": "partial",
   "theorems": [
    "Wafo.Logit.C298_step_partial",
    "Wafo.Logit.C298_start_refuted",
    "Wafo.Logit.C298_raises_refuted"
   ],
   "note": "A pass raises exactly when the step improves the likelihood and goes beyond the maximum on its line; start values raise except for two categories and one covariate."
  },
  {
   "property": "C299",
   "status": "partial",
   "theorems": [
    "Wafo.Logit.C299_eta_partial",
    "Wafo.Logit.C299_several_refuted"
   ],
   "note": "True for at most one covariate; otherwise ValueError or a predictor with one covariate for each threshold."
  },
  {
   "property": "C300",
   "status": "partial",
   "theorems": [
    "Wafo.Logit.C300_probabilities",
    "Wafo.Logit.C300_limits",
    "Wafo.Logit.C300_negative_refuted"
   ],
   "note": "Everything holds except that the lower limit can be negative."
  },
  {
   "property": "C301",
   "status": "partial",
   "theorems": [
    "Wafo.Logit.C301_variance_partial",
    "Wafo.Logit.C301_variance_refuted"
   ],
   "note": "Right for two categories, never too large, too small for more."
  },
  {
   "property": "C302",
   "status": "partial",
   "theorems": [
    "Wafo.Logit.C302_first_partial",
    "Wafo.Logit.C302_columns_refuted"
   ],
   "note": "The right number of covariates is kept, but always the first ones."
  },
  {
   "property": "C303",
   "status": "partial",
   "theorems": [
    "Wafo.Pade.C303_points_partial",
    "Wafo.Pade.C303_rational_partial"
   ],
   "note": "Whenever a pair is returned it is the right one; that the later passes do not raise is not proved."
  },
  {
   "property": "C304",
   "status": "proved",
   "theorems": [
    "Wafo.Pade.C304_best"
   ],
   "note": "For fitPoints, the loop after the points are chosen."
  },
  {
   "property": "C305",
   "status": "partial",
   "theorems": [
    "Wafo.Pade.C305_length_partial",
    "Wafo.Pade.C305_length_refuted"
   ],
   "note": "Only arrays of exactly 8(m+k+1) values work."
  },
  {
   "property": "C306",
   "status": "partial",
   "theorems": [
    "Wafo.Pade.C306_pade_partial",
    "Wafo.Pade.C306_zero_refuted",
    "Wafo.Pade.C306_default_refuted"
   ],
   "note": "Relative to the defining property of scipy's pade; m = 0 and the default order for poly1d are wrong."
  },
  {
   "property": "C307",
   "status": "partial",
   "theorems": [
    "Wafo.Tran.C50_general_partial",
    "Wafo.Tran.C307_monotone_partial",
    "Wafo.Tran.C307_table_refuted",
    "Wafo.Tran.C307_outside_refuted"
   ],
   "note": "Monotone between the end points; tables with unequal steps are not reproduced."
  },
  {
   "property": "C308",
   "status": "proved",
   "theorems": [
    "Wafo.Tran.C308_linear"
   ],
   "note": "Exact arithmetic; the table may have up to nmax points."
  },
  {
   "property": "C309",
   "status": "proved",
   "theorems": [
    "Wafo.QLev.C309_encloses"
   ],
   "note": "For one row of data."
  },
  {
   "property": "C310",
   "status": "partial",
   "theorems": [
    "Wafo.QLev.C310_positions_partial",
    "Wafo.QLev.C310_midpoint_refuted"
   ],
   "note": "Methods 1, 3 and 4; method 2 is refuted."
  },
  {
   "property": "C311",
   "status": "partial",
   "theorems": [
    "Wafo.QLev.C311_levels_partial",
    "Wafo.QLev.C311_low_refuted",
    "Wafo.QLev.C311_context_refuted"
   ],
   "note": "For percentages between the share of the largest cell and 100 n/(n+1.5e-8); wrong outside."
  },
  {
   "property": "C312",
   "status": "partial",
   "theorems": [
    "Wafo.QLev.C312_single_refuted"
   ],
   "note": "Refuted."
  },
  {
   "property": "C313",
   "status": "proved",
   "theorems": [
    "Wafo.Disufq.C313_deep",
    "Wafo.Disufq.C313_finite"
   ],
   "note": "Wavenumbers nondecreasing for deep water; frequencies and wavenumbers not zero for finite depth."
  },
  {
   "property": "C314",
   "status": "partial",
   "theorems": [
    "Wafo.Disufq.C314_in_bounds",
    "Wafo.Disufq.C314_out_of_bounds"
   ],
   "note": "Writes outside the arrays for nmax above (n+1)/2."
  },
  {
   "property": "C315",
   "status": "proved",
   "theorems": [
    "Wafo.Disufq.C315_sum",
    "Wafo.Disufq.C315_difference"
   ],
   "note": "For k*h < 300, where the code cuts off its last term."
  },
  {
   "property": "C316",
   "status": "proved",
   "theorems": [
    "Wafo.Disufq.C316_sum",
    "Wafo.Disufq.C316_difference",
    "Wafo.Disufq.C316_mean"
   ],
   "note": "For wavenumbers satisfying the deep water dispersion relation."
  },
  {
   "property": "C317",
   "status": "proved",
   "theorems": [
    "Wafo.Disufq.C317_infinite",
    "Wafo.Disufq.C317_diagonal",
    "Wafo.Disufq.C317_langley_difference"
   ],
   "note": "The additions of _TINY are left out."
  },
  {
   "property": "C318",
   "status": "partial",
   "theorems": [
    "Wafo.Disufq.C318_depth_one",
    "Wafo.Disufq.C318_limit_refuted",
    "Wafo.Disufq.C318_units",
    "Wafo.Disufq.C318_units_refuted"
   ],
   "note": "Refuted; right at depth one."
  },
  {
   "property": "C319",
   "status": "partial",
   "theorems": [
    "Wafo.Disufq.C319_langley_sum",
    "Wafo.Disufq.C319_langley_sum_refuted",
    "Wafo.Disufq.C319_not_symmetric"
   ],
   "note": "Refuted, with the exact error."
  },
  {
   "property": "C320",
   "status": "proved",
   "theorems": [
    "Wafo.Disufq.C320_deep",
    "Wafo.Disufq.C320_factor",
    "Wafo.Disufq.C320_setdown",
    "Wafo.Disufq.C320_finite"
   ],
   "note": ""
  },
  {
   "property": "C321",
   "status": "partial",
   "theorems": [
    "Wafo.SimNl.C321_window_partial",
    "Wafo.SimNl.C321_top_refuted",
    "Wafo.SimNl.C321_top_is_last",
    "Wafo.SimNl.C321_low_refuted",
    "Wafo.SimNl.C321_zero_refuted",
    "Wafo.SimNl.C321_memory"
   ],
   "note": "Refuted: the window is shifted by one component."
  },
  {
   "property": "C322",
   "status": "proved",
   "theorems": [
    "Wafo.SimNl.C322_deep"
   ],
   "note": "The variance by Simpson's rule and its root are arguments."
  },
  {
   "property": "C323",
   "status": "partial",
   "theorems": [
    "Wafo.SimNl.C323_order",
    "Wafo.SimNl.C323_selection",
    "Wafo.SimNl.C323_eigenvalue_refuted"
   ],
   "note": "The documented method 'eigenvalue' is refuted."
  },
  {
   "property": "C324",
   "status": "proved",
   "theorems": [
    "Wafo.Kalman.C324_gain_is_optimal",
    "Wafo.Kalman.C324_trace_and_decrease"
   ],
   "note": ""
  },
  {
   "property": "C325",
   "status": "proved",
   "theorems": [
    "Wafo.Kalman.C325_covariance_invariant"
   ],
   "note": ""
  },
  {
   "property": "C326",
   "status": "proved",
   "theorems": [
    "Wafo.Kalman.C326_exact_on_clean_data"
   ],
   "note": ""
  },
  {
   "property": "C327",
   "status": "partial",
   "theorems": [
    "Wafo.Kalman.C327_reset_has_no_effect"
   ],
   "note": "Refuted: reset has no effect on any later call."
  },
  {
   "property": "C328",
   "status": "proved",
   "theorems": [
    "Wafo.Kalman.C328_first_observation",
    "Wafo.Kalman.C328_is_infinite_prior"
   ],
   "note": ""
  },
  {
   "property": "C329",
   "status": "proved",
   "theorems": [
    "Wafo.Kalman.C329_default_filter_is_the_mean"
   ],
   "note": ""
  },
  {
   "property": "C330",
   "status": "partial",
   "theorems": [
    "Wafo.Kalman.C330_scalar_R_refuted",
    "Wafo.Kalman.C330_scalar_R_one_observation_partial"
   ],
   "note": "Refuted for two or more observed quantities."
  },
  {
   "property": "C331",
   "status": "partial",
   "theorems": [
    "Wafo.Kalman.C331_singular_H",
    "Wafo.Kalman.C331_start_not_the_observation_refuted"
   ],
   "note": "Refuted: the observation is taken for the state."
  },
  {
   "property": "C332",
   "status": "proved",
   "theorems": [
    "Wafo.Hp.C332_minimises",
    "Wafo.Hp.C332_unique",
    "Wafo.Hp.C332_exists"
   ],
   "note": ""
  },
  {
   "property": "C333",
   "status": "proved",
   "theorems": [
    "Wafo.Hp.C333_moments",
    "Wafo.Hp.C333_lines_and_zero",
    "Wafo.Hp.C333_linear"
   ],
   "note": ""
  },
  {
   "property": "C334",
   "status": "proved",
   "theorems": [
    "Wafo.Hp.C334_tends_to_line"
   ],
   "note": ""
  },
  {
   "property": "C335",
   "status": "partial",
   "theorems": [
    "Wafo.Hp.C335_short_series_partial",
    "Wafo.Hp.C335_three_values_refuted"
   ],
   "note": "Three values are returned unchanged: refuted."
  },
  {
   "property": "C336",
   "status": "proved",
   "theorems": [
    "Wafo.Hampel.C336_result",
    "Wafo.Hampel.C336_within_bounds"
   ],
   "note": ""
  },
  {
   "property": "C337",
   "status": "proved",
   "theorems": [
    "Wafo.Hampel.C337_t_zero_is_median",
    "Wafo.Hampel.C337_majority"
   ],
   "note": ""
  },
  {
   "property": "C338",
   "status": "proved",
   "theorems": [
    "Wafo.Hampel.C338_affine"
   ],
   "note": ""
  },
  {
   "property": "C339",
   "status": "partial",
   "theorems": [
    "Wafo.Hampel.C339_default_window",
    "Wafo.Hampel.C339_single_value_refuted"
   ],
   "note": "A single value with the default window fails: refuted."
  },
  {
   "property": "C340",
   "status": "partial",
   "theorems": [
    "Wafo.Hampel.C340_search_ends_partial",
    "Wafo.Hampel.C340_index_error_refuted",
    "Wafo.Hampel.C340_half_is_never_exceeded"
   ],
   "note": "IndexError for small dx: refuted in general, proved when (n-1)*dx spans the data."
  },
  {
   "property": "C341",
   "status": "proved",
   "theorems": [
    "Wafo.Smooth.C341_leverage_limits"
   ],
   "note": "All leverages in (0, 1], every number of dimensions; reals for floats."
  },
  {
   "property": "C342",
   "status": "proved",
   "theorems": [
    "Wafo.Smooth.C342_penalized_least_squares"
   ],
   "note": "One dimension, s given, robust=False; the search for s (gcv, fminbound) is not modelled."
  },
  {
   "property": "C343",
   "status": "proved",
   "theorems": [
    "Wafo.Smooth.C343_monotone",
    "Wafo.Smooth.C343_limit_is_mean"
   ],
   "note": "One dimension, complete data; as C342."
  },
  {
   "property": "C344",
   "status": "proved",
   "theorems": [
    "Wafo.Smooth.C344_weights",
    "Wafo.Smooth.C344_descent",
    "Wafo.Smooth.C344_total_change",
    "Wafo.Smooth.C344_not_worse",
    "Wafo.Smooth.C344_fixed_points"
   ],
   "note": "One dimension, s given, one robust step; convergence is C348."
  },
  {
   "property": "C345",
   "status": "partial",
   "theorems": [
    "Wafo.Smooth.C345_caller_changed",
    "Wafo.Smooth.C345_second_call",
    "Wafo.Smooth.C345_partial"
   ],
   "note": "Refuted: missing values in the array of the caller are overwritten with 0, and a second call takes them for data. Proved for data without missing values."
  },
  {
   "property": "C346",
   "status": "partial",
   "theorems": [
    "Wafo.Smooth.C346_weights_partial",
    "Wafo.Smooth.C346_majority_equal",
    "Wafo.Smooth.C346_data_ignored"
   ],
   "note": "Proved for a positive denominator. Refuted otherwise: when more than half of the residuals are equal all weights are 0 and the following steps ignore the data."
  },
  {
   "property": "C347",
   "status": "partial",
   "theorems": [
    "Wafo.Smooth.C347_initial_fill",
    "Wafo.Smooth.C347_partial"
   ],
   "note": "Refuted with missing values: known values are replaced by the distance 0. Proved without missing values."
  },
  {
   "property": "C348",
   "status": "proved",
   "theorems": [
    "Wafo.Smooth.C348_converges_to_minimiser",
    "Wafo.Smooth.C348_loop_converges"
   ],
   "note": "One dimension, s given; real arithmetic."
  },
  {
   "property": "C349",
   "status": "proved",
   "theorems": [
    "Wafo.Evar.C349_between_zero_and_variance",
    "Wafo.Evar.C349_zero_iff_constant",
    "Wafo.Evar.C349_shift",
    "Wafo.Evar.C349_scale"
   ],
   "note": "One dimension; fminbound is any function of the score."
  },
  {
   "property": "C350",
   "status": "partial",
   "theorems": [
    "Wafo.Evar.C350_not_the_spline",
    "Wafo.Evar.C350_membrane_partial"
   ],
   "note": "Refuted: the eigenvalues are not squared, for three values no pair of parameters agrees for all data. What is computed belongs to the smoothing that penalizes first differences."
  },
  {
   "property": "C351",
   "status": "partial",
   "theorems": [
    "Wafo.Sg.C351_is_smooth_before_last_partial",
    "Wafo.Sg.C351_derivative_sign",
    "Wafo.Sg.C351_last_value_error"
   ],
   "note": "Refuted: the default k=1 belongs to the last value but one, k=0 is an error, and derivatives have the opposite sign. Proved for symmetric coefficients and the value k places before the last, with the window inside the signal; coefficients given, one dimension."
  },
  {
   "property": "C352",
   "status": "partial",
   "theorems": [
    "Wafo.Sg.C352_rising_line_partial",
    "Wafo.Sg.C352_falling_line_refuted"
   ],
   "note": "Proved for lines that do not fall; refuted for falling lines by a signal of five values, the extension uses absolute differences."
  },
  {
   "property": "C353",
   "status": "proved",
   "theorems": [
    "Wafo.WaveModels.C353_period_density",
    "Wafo.WaveModels.C353_total_mass"
   ],
   "note": "Real arithmetic, the default transformation as the linear function; total mass as the integral over the half periods of the integral over the amplitudes."
  },
  {
   "property": "C354",
   "status": "partial",
   "theorems": [
    "Wafo.WaveModels.C354_wrong_moments_refuted",
    "Wafo.WaveModels.C354_partial"
   ],
   "note": "Refuted: the root of a negative number is NaN, which is real for numpy, so all values but the first column are NaN; with m0*m2 = m1**2 they are NaN too. Proved for moments with m0*m2 > m1**2."
  },
  {
   "property": "C355",
   "status": "proved",
   "theorems": [
    "Wafo.WaveModels.C355_change_of_variables"
   ],
   "note": "Real arithmetic, the default transformation as the linear function, columns other than the first."
  },
  {
   "property": "C356",
   "status": "partial",
   "theorems": [
    "Wafo.WaveModels.C356_first_column_refuted",
    "Wafo.WaveModels.C356_first_column_cav76_refuted",
    "Wafo.WaveModels.C354_partial",
    "Wafo.WaveModels.C355_change_of_variables"
   ],
   "note": "Refuted for the first period, whose column is zero although the density there is positive; the other columns hold the density."
  },
  {
   "property": "C357",
   "status": "proved",
   "theorems": [
    "Wafo.WaveModels.C357_period_density",
    "Wafo.WaveModels.C357_total_mass"
   ],
   "note": "Real arithmetic, the default transformation as the linear function, columns other than the first; total mass as the integral over the half periods of the integral over the amplitudes."
  }
 ]
}