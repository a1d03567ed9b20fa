{
 "claims": [
  {
   "property": "C01",
   "status": "proved",
   "theorems": [
    "PyDyn.Filter.C01_estimate",
    "PyDyn.Filter.C01_estimate_indep"
   ],
   "note": "every successful call, all uncertainty arguments; existence of results is C08"
  },
  {
   "property": "C02",
   "status": "proved",
   "theorems": [
    "PyDyn.Filter.C02_covariance",
    "PyDyn.Filter.C02_describes_exists"
   ],
   "note": "exact covariance of the filtered random signal for every independent random signal/filter described by the arguments (float Utheta excluded, see C09)"
  },
  {
   "property": "C03",
   "status": "proved",
   "theorems": [
    "PyDyn.Filter.C03_fast_eq_full",
    "PyDyn.Filter.C03_routines"
   ],
   "note": "shift = 0 (see C07)"
  },
  {
   "property": "C04",
   "status": "proved",
   "theorems": [
    "PyDyn.Filter.C04_psd"
   ],
   "note": ""
  },
  {
   "property": "C05",
   "status": "proved",
   "theorems": [
    "PyDyn.Filter.C05_prolongation",
    "PyDyn.Filter.C05_empty"
   ],
   "note": "Empty matrices raise IndexError."
  },
  {
   "property": "C06",
   "status": "proved",
   "theorems": [
    "PyDyn.Filter.C06_lowpass_estimate",
    "PyDyn.Filter.C06_lowpass_eq_cascade",
    "PyDyn.Filter.C06_lowpass_covariance"
   ],
   "note": "Estimate for every accepted call with a low-pass; covariance for every covariance-capable call."
  },
  {
   "property": "C07",
   "status": "partial",
   "theorems": [
    "PyDyn.Filter.C07_estimate_shift_partial",
    "PyDyn.Filter.C07_fast_path_ignores_shift",
    "PyDyn.Filter.C07_fast_path_wrong",
    "PyDyn.Filter.C07_covariance_shift_wrong",
    "PyDyn.Filter.C07_covariance_shift_partial"
   ],
   "note": "Refuted in general: the fast path ignores shift, the covariance is rolled flattened. Proved: the estimate of the covariance path is moved circularly by -s."
  },
  {
   "property": "C08",
   "status": "partial",
   "theorems": [
    "PyDyn.Filter.C08_decision_table_partial",
    "PyDyn.Filter.C08_std_coefficients_with_full_covariance_rejected",
    "PyDyn.Filter.C08_high_dimensional_noise_not_value_error",
    "PyDyn.Filter.C08_initial_conditions",
    "PyDyn.Filter.C08_empty"
   ],
   "note": "Complete decision table; code rejects the documented 1-D Utheta with full covariance and raises UnboundLocalError for ndim>2 noise; an empty signal raises IndexError (C08_empty)."
  },
  {
   "property": "C09",
   "status": "partial",
   "theorems": [
    "PyDyn.Filter.C09_float_is_variance_partial",
    "PyDyn.Filter.C09_float_read_as_variance_wrong"
   ],
   "note": "Refuted: a float is read as a variance. Proved: float u acts exactly as the 1-D array of sqrt u."
  },
  {
   "property": "C10",
   "status": "proved",
   "theorems": [
    "PyDyn.Filter.C10_units"
   ],
   "note": ""
  },
  {
   "property": "C11",
   "status": "partial",
   "theorems": [
    "PyDyn.Filter.C11_iir_never_returns"
   ],
   "note": "Refuted: IIRuncFilter raises for every input (tf2ss is not imported)."
  },
  {
   "property": "C12",
   "status": "proved",
   "theorems": [
    "PyDyn.Conv.C12_numpy_modes"
   ],
   "note": "Both signals of length >= 2 (length 1 raises, see C16)."
  },
  {
   "property": "C13",
   "status": "proved",
   "theorems": [
    "PyDyn.Conv.C13_continuation",
    "PyDyn.Conv.C13_ndimage_modes"
   ],
   "note": "Every kernel of at least two elements, repeated reflection included; there is exactly one continuation of the signal (C13_continuation)."
  },
  {
   "property": "C14",
   "status": "proved",
   "theorems": [
    "PyDyn.Conv.C14_covariance",
    "PyDyn.Conv.C14_inputs_exist"
   ],
   "note": "All six modes; random vectors with the given moments exist (C14_inputs_exist)."
  },
  {
   "property": "C15",
   "status": "proved",
   "theorems": [
    "PyDyn.Conv.C15_commutative"
   ],
   "note": ""
  },
  {
   "property": "C16",
   "status": "partial",
   "theorems": [
    "PyDyn.Conv.C16_modes_partial",
    "PyDyn.Conv.C16_single_element_kernel_wrong"
   ],
   "note": "Refuted for kernels of length 1 (ValueError). Proved for unknown modes and for all kernels with at least two elements."
  },
  {
   "property": "C17",
   "status": "proved",
   "theorems": [
    "PyDyn.DFT.C17_covariance",
    "PyDyn.DFT.C17_covariance_default",
    "PyDyn.DFT.C17_variances"
   ],
   "note": "Exact covariance of the DFT of every random vector with the given covariance (general method, matrix and vector input)."
  },
  {
   "property": "C18",
   "status": "partial",
   "theorems": [
    "PyDyn.DFT.C18_zero_padding",
    "PyDyn.DFT.C18_too_short",
    "PyDyn.DFT.C18_window",
    "PyDyn.DFT.C18_window_float",
    "PyDyn.DFT.C18_window_vector_wrong"
   ],
   "note": "Zero padding, scalar + window and matrix + window as stated; a variance vector together with a window raises IndexError in the code (C18_window_vector_wrong)."
  },
  {
   "property": "C19",
   "status": "proved",
   "theorems": [
    "PyDyn.DFT.C19_scalar"
   ],
   "note": ""
  },
  {
   "property": "C20",
   "status": "proved",
   "theorems": [
    "PyDyn.DFT.C20_mask",
    "PyDyn.DFT.C20_mask_scalar"
   ],
   "note": ""
  },
  {
   "property": "C21",
   "status": "proved",
   "theorems": [
    "PyDyn.DFT.C21_psd"
   ],
   "note": ""
  },
  {
   "property": "C22",
   "status": "proved",
   "theorems": [
    "PyDyn.DFT.C22_round_trip",
    "PyDyn.DFT.C22_odd_length_shortened"
   ],
   "note": "Odd lengths are shortened by one sample (C22_odd_length_shortened), therefore the property is about even lengths."
  },
  {
   "property": "C23",
   "status": "partial",
   "theorems": [
    "PyDyn.DFT.C23_covariance_partial",
    "PyDyn.DFT.C23_variances",
    "PyDyn.DFT.C23_asymmetric_wrong"
   ],
   "note": "Estimate and variances are exact; off-diagonal entries are exact only up to symmetrisation: the code doubles one cross term instead of adding its transpose (C23_asymmetric_wrong)."
  },
  {
   "property": "C24",
   "status": "proved",
   "theorems": [
    "PyDyn.DFT.C24_covariance",
    "PyDyn.DFT.C24_vector_is_diagonal"
   ],
   "note": ""
  },
  {
   "property": "C25",
   "status": "partial",
   "theorems": [
    "PyDyn.DFT.C25_covariance",
    "PyDyn.DFT.C25_vector_is_diagonal",
    "PyDyn.DFT.C25_sparse_partial",
    "PyDyn.DFT.C25_sparse_wrong"
   ],
   "note": "Vectors and dense matrices: proved. Sparse input: exact only where A*cos(P)=sin(P) or the covariance of amplitude and phase vanishes (C25_sparse_partial); C25_sparse_wrong shows a counterexample (line 674)."
  },
  {
   "property": "C26",
   "status": "partial",
   "theorems": [
    "PyDyn.DFT.C26_polar_round_trip",
    "PyDyn.DFT.C26_cartesian_round_trip",
    "PyDyn.DFT.C26_sparse_wrong"
   ],
   "note": "Dense covariances: proved in both directions. A sparse covariance handed on is damaged by AmpPhase2DFT (C26_sparse_wrong)."
  },
  {
   "property": "C27",
   "status": "proved",
   "theorems": [
    "PyDyn.DFT.C27_composition",
    "PyDyn.DFT.C27_sparse"
   ],
   "note": "Equality of the symmetric parts; the code doubles the cross term instead of adding its transpose (see C23)."
  },
  {
   "property": "C28",
   "status": "partial",
   "theorems": [
    "PyDyn.DFT.C28_estimate",
    "PyDyn.DFT.C28_covariance_partial",
    "PyDyn.DFT.C28_exact_response",
    "PyDyn.DFT.C28_wrong"
   ],
   "note": "Estimate and exact response: proved. With uncertain response only if Im H = 0 or Im Y = Im H in every bin; otherwise the code is wrong (C28_wrong, iH*iH**2 in line 1007)."
  },
  {
   "property": "C29",
   "status": "partial",
   "theorems": [
    "PyDyn.DFT.C29_covariance",
    "PyDyn.DFT.C29_exact_factor",
    "PyDyn.DFT.C29_commutative",
    "PyDyn.DFT.C29_vector_shape_wrong",
    "PyDyn.DFT.C29_mixed_wrong",
    "PyDyn.DFT.C29_variances_exact_factor",
    "PyDyn.DFT.C29_variances",
    "PyDyn.DFT.C29_ignored_wrong"
   ],
   "note": "Dense matrices: proved. Variance vectors and numbers give the right variances and covariances, but stacked in an array with two rows (C29_variances, C29_vector_shape_wrong); vector plus matrix broadcasts (C29_mixed_wrong); a number or sparse matrix as UF is ignored (C29_ignored_wrong)."
  },
  {
   "property": "C30",
   "status": "proved",
   "theorems": [
    "PyDyn.DFT.C30_deconv_multiply",
    "PyDyn.DFT.C30_multiply_deconv",
    "PyDyn.DFT.C30_estimate"
   ],
   "note": ""
  },
  {
   "property": "C31",
   "status": "partial",
   "theorems": [
    "PyDyn.DFT.C31_ampPhase2DFT",
    "PyDyn.DFT.C31_ampPhase2DFT_succeeds",
    "PyDyn.DFT.C31_multiply",
    "PyDyn.DFT.C31_deconv",
    "PyDyn.DFT.C31_idft",
    "PyDyn.DFT.C31_ampPhase2Time",
    "PyDyn.DFT.C31_ampPhase2Time_succeeds",
    "PyDyn.DFT.C31_dft_exceptions",
    "PyDyn.DFT.C31_dft",
    "PyDyn.DFT.C31_deconv_types"
   ],
   "note": "The documented mismatches raise ValueError. Exact for AmpPhase2DFT, DFT_deconv (arrays) and GUM_iDFT (matching F and UF); for DFT_multiply, GUM_iDFT and AmpPhase2Time with other sizes, undocumented ValueErrors and IndexErrors and silent acceptance occur, characterised in C131."
  },
  {
   "property": "C32",
   "status": "proved",
   "theorems": [
    "PyDyn.DFT.C32_rows",
    "PyDyn.DFT.C32_selector_out_of_range",
    "PyDyn.DFT.C32_number"
   ],
   "note": "Float variances."
  },
  {
   "property": "C33",
   "status": "proved",
   "theorems": [
    "PyDyn.C33_nodes"
   ],
   "note": "For every successful call; C40_accepts tells when calls succeed, C39_sorts covers assume_sorted=False."
  },
  {
   "property": "C34",
   "status": "proved",
   "theorems": [
    "PyDyn.C34_segment_exists",
    "PyDyn.C34_sensitivities",
    "PyDyn.C34_matrix_form",
    "PyDyn.C34_variance"
   ],
   "note": ""
  },
  {
   "property": "C35",
   "status": "proved",
   "theorems": [
    "PyDyn.C35_returnC"
   ],
   "note": ""
  },
  {
   "property": "C36",
   "status": "proved",
   "theorems": [
    "PyDyn.C36_bounds"
   ],
   "note": ""
  },
  {
   "property": "C37",
   "status": "proved",
   "theorems": [
    "PyDyn.C37_previous",
    "PyDyn.C37_next",
    "PyDyn.C37_nearest"
   ],
   "note": ""
  },
  {
   "property": "C38",
   "status": "partial",
   "theorems": [
    "PyDyn.C38_extrapolate",
    "PyDyn.C38_fill",
    "PyDyn.C38_bounds_error",
    "PyDyn.C38_default_bounds_wrong",
    "PyDyn.C38_contradicting_request",
    "PyDyn.C38_int_fill_unc_wrong"
   ],
   "note": "As documented only for bounds_error=False/True; the documented default (None with extrapolate) raises ValueError (C38_default_bounds_wrong), an integer fill_unc raises TypeError in linear extrapolation (C38_int_fill_unc_wrong)."
  },
  {
   "property": "C39",
   "status": "proved",
   "theorems": [
    "PyDyn.C39_sorts",
    "PyDyn.C39_permute",
    "PyDyn.C39_query_order"
   ],
   "note": "Distinct nodes."
  },
  {
   "property": "C40",
   "status": "partial",
   "theorems": [
    "PyDyn.C40_lengths_partial",
    "PyDyn.C40_unsorted_truncates",
    "PyDyn.C40_unsorted_short",
    "PyDyn.C40_unknown_kind",
    "PyDyn.C40_spline_kinds",
    "PyDyn.C40_look_returnC",
    "PyDyn.C40_fill_returnC",
    "PyDyn.C40_empty_extrapolate",
    "PyDyn.C40_accepts"
   ],
   "note": "The length check is bypassed with assume_sorted=False (C40_unsorted_truncates). C40_spline_kinds determines the exception for scipy's kinds zero, slinear, quadratic, cubic and nearest-up."
  },
  {
   "property": "C41",
   "status": "proved",
   "theorems": [
    "PyDyn.C41_grid"
   ],
   "note": "Strictly increasing t as in the claim; exact arithmetic, so the overflow branch of np.arange never triggers."
  },
  {
   "property": "C42",
   "status": "proved",
   "theorems": [
    "PyDyn.MC.C42_mean"
   ],
   "note": "For any number of blocks, any callbacks and any delivery order."
  },
  {
   "property": "C43",
   "status": "partial",
   "theorems": [
    "PyDyn.MC.C43_covariance_formula",
    "PyDyn.MC.C43_covariance_partial",
    "PyDyn.MC.C43_covariance_wrong"
   ],
   "note": "Exact formula for every blocksize proved; it is the sample covariance for blocksize 1 and 2 and too large for every blocksize of 3 or more (the first block is not divided by n-1, yet multiplied by n-1 later), see C43_covariance_wrong."
  },
  {
   "property": "C44",
   "status": "partial",
   "theorems": [
    "PyDyn.MC.C44_schedule",
    "PyDyn.MC.C44_samples_partial",
    "PyDyn.MC.C44_samples_wrong"
   ],
   "note": "y, Uy and histograms are independent of the schedule; samples and results belong together for one CPU only (C44_samples_wrong)."
  },
  {
   "property": "C45",
   "status": "partial",
   "theorems": [
    "PyDyn.MC.C45_runs_partial",
    "PyDyn.MC.C45_runs_wrong",
    "PyDyn.MC.C45_return_samples_wrong",
    "PyDyn.MC.C45_no_initial_runs"
   ],
   "note": "Holds when blocksize divides runs; otherwise the runs are rounded up and return_samples raises ValueError."
  },
  {
   "property": "C46",
   "status": "partial",
   "theorems": [
    "PyDyn.MC.C46_histogram_partial",
    "PyDyn.MC.C46_upper_wrong"
   ],
   "note": "Counts, sums, monotone edges, lower edge proved; the upper edge does not cover all results (min instead of max)."
  },
  {
   "property": "C47",
   "status": "proved",
   "theorems": [
    "PyDyn.MC.C47_result",
    "PyDyn.MC.C47_single_wrong",
    "PyDyn.MC.C47_type",
    "PyDyn.MC.C47_shape",
    "PyDyn.MC.C47_signal_shape"
   ],
   "note": "For all draws, with numpy/scipy random numbers as arguments. With a single stable run a covariance does not exist; C47_single_wrong shows what is returned instead (numpy 1.x as pinned in requirements/)."
  },
  {
   "property": "C48",
   "status": "partial",
   "theorems": [
    "PyDyn.MC.C48_returns_wrong",
    "PyDyn.MC.C48_index_error",
    "PyDyn.MC.C48_coloured_error",
    "PyDyn.MC.C48_short_numerator",
    "PyDyn.MC.C48_empty_partial"
   ],
   "note": "Refuted: C48_returns_wrong shows that SMC raises an exception for every non-empty signal (x[index] with an index tuple pair); only the empty signal is returned."
  },
  {
   "property": "C49",
   "status": "proved",
   "theorems": [
    "PyDyn.MC.C49_filter",
    "PyDyn.MC.C49_unnormalised_wrong"
   ],
   "note": "For a[0] = 1 as the property demands; C49_unnormalised_wrong records that a[0] is ignored otherwise."
  },
  {
   "property": "C50",
   "status": "proved",
   "theorems": [
    "PyDyn.MC.C50_evaluate",
    "PyDyn.MC.C50_plain",
    "PyDyn.MC.C50_lowpass"
   ],
   "note": "Noise and uniform numbers are arguments."
  },
  {
   "property": "C51",
   "status": "proved",
   "theorems": [
    "PyDyn.MC.C51_numbers",
    "PyDyn.MC.C51_sizes",
    "PyDyn.MC.C51_rvs",
    "PyDyn.MC.C51_moments"
   ],
   "note": "Sizes, values, exceptions; mean and covariance of the draws for uncorrelated standard normal numbers."
  },
  {
   "property": "C52",
   "status": "proved",
   "theorems": [
    "PyDyn.Noise.C52_mean_std",
    "PyDyn.Noise.C52_both",
    "PyDyn.Noise.C52_neither",
    "PyDyn.Noise.C52_accepts",
    "PyDyn.Noise.C52_white"
   ],
   "note": ""
  },
  {
   "property": "C53",
   "status": "proved",
   "theorems": [
    "PyDyn.Noise.C53_names",
    "PyDyn.Noise.C53_others"
   ],
   "note": ""
  },
  {
   "property": "C54",
   "status": "proved",
   "theorems": [
    "PyDyn.Noise.C54_acf",
    "PyDyn.Noise.C54_white",
    "PyDyn.Noise.C54_short"
   ],
   "note": ""
  },
  {
   "property": "C55",
   "status": "partial",
   "theorems": [
    "PyDyn.Noise.C55_reversed",
    "PyDyn.Noise.C55_order_one_partial",
    "PyDyn.Noise.C55_reversed_late",
    "PyDyn.Noise.C55_ar_wrong",
    "PyDyn.Noise.C55_ma_wrong"
   ],
   "note": "Holds for at most one AR and one MA coefficient; for higher orders the code uses the coefficients in reversed order (C55_reversed, exact), so the claim is false (C55_ar_wrong, C55_ma_wrong)."
  },
  {
   "property": "C56",
   "status": "proved",
   "theorems": [
    "PyDyn.Tools.C56_moves",
    "PyDyn.Tools.C56_covariance",
    "PyDyn.Tools.C56_add",
    "PyDyn.Tools.C56_inverse",
    "PyDyn.Tools.C56_psd",
    "PyDyn.Tools.C56_raises"
   ],
   "note": ""
  },
  {
   "property": "C57",
   "status": "proved",
   "theorems": [
    "PyDyn.Tools.C57_trimOrPad"
   ],
   "note": ""
  },
  {
   "property": "C58",
   "status": "proved",
   "theorems": [
    "PyDyn.Tools.C58_result",
    "PyDyn.Tools.C58_not_square",
    "PyDyn.Tools.C58_small",
    "PyDyn.Tools.C58_no_iteration",
    "PyDyn.Tools.C58_dense_overshoots"
   ],
   "note": "Sparse matrices: for more than 7 rows, below that scipy's solver raises TypeError (modelled). Exact arithmetic; failing convergence of the eigenvalue solvers is not modelled."
  },
  {
   "property": "C59",
   "status": "proved",
   "theorems": [
    "PyDyn.Tools.C59_bar"
   ],
   "note": "Exact arithmetic for the quotient."
  },
  {
   "property": "C60",
   "status": "partial",
   "theorems": [
    "PyDyn.FS.C60_group_delay_partial",
    "PyDyn.FS.C60_raises",
    "PyDyn.FS.C60_symmetric",
    "PyDyn.FS.C60_pure_delay",
    "PyDyn.FS.C60_crop_wrong"
   ],
   "note": "Holds when the FFT is long enough for the filter, at bins where the response is not below the code's threshold; a filter longer than the FFT is cropped (C60_crop_wrong)."
  },
  {
   "property": "C61",
   "status": "proved",
   "theorems": [
    "PyDyn.FS.C61_inside",
    "PyDyn.FS.C61_modulus",
    "PyDyn.FS.C61_stable",
    "PyDyn.FS.C61_monic",
    "PyDyn.FS.C61_real",
    "PyDyn.FS.C61_idempotent",
    "PyDyn.FS.C61_isstable"
   ],
   "note": "Roots of complex polynomials taken exactly; also idempotent and accepted by isstable."
  },
  {
   "property": "C62",
   "status": "partial",
   "theorems": [
    "PyDyn.FS.C62_digital",
    "PyDyn.FS.C62_unknown",
    "PyDyn.FS.C62_analog_inverted",
    "PyDyn.FS.C62_analog_wrong"
   ],
   "note": "Digital and unknown types hold as stated; for analog filters the code tests the wrong half-plane (C62_analog_inverted, C62_analog_wrong)."
  },
  {
   "property": "C63",
   "status": "partial",
   "theorems": [
    "PyDyn.FS.C63_length_partial",
    "PyDyn.FS.C63_polynomial",
    "PyDyn.FS.C63_constant",
    "PyDyn.FS.C63_raises",
    "PyDyn.FS.C63_deriv_above_order",
    "PyDyn.FS.C63_short_wrong"
   ],
   "note": "Polynomials and derivatives exact; constants unchanged everywhere; the length claim fails for signals not longer than half the window (C63_short_wrong)."
  },
  {
   "property": "C64",
   "status": "proved",
   "theorems": [
    "PyDyn.SO.C64_transfer",
    "PyDyn.SO.C64_value",
    "PyDyn.SO.C64_columns",
    "PyDyn.SO.C64_lengths",
    "PyDyn.SO.C64_static_gain",
    "PyDyn.SO.C64_filter_rows"
   ],
   "note": "scalar call = explicit transfer function and = coefficients of sos_phys2filter; array call column by column; lengths that do not fit raise"
  },
  {
   "property": "C65",
   "status": "proved",
   "theorems": [
    "PyDyn.SO.C65_exact",
    "PyDyn.SO.C65_negative_gain",
    "PyDyn.SO.C65_weighting_unbound",
    "PyDyn.SO.C65_rejected",
    "PyDyn.SO.C65_zero_response",
    "PyDyn.SO.C65_exact_unc"
   ],
   "note": "no, unknown or positive weights; with uncertainties and linear propagation for positive definite weight matrices; for negative gain the sign of the damping is lost (C65_negative_gain); 'diag'/'cov' without UH raise UnboundLocalError"
  },
  {
   "property": "C66",
   "status": "partial",
   "theorems": [
    "PyDyn.SO.C66_weights",
    "PyDyn.SO.C66_formula_partial",
    "PyDyn.SO.C66_rows_partial",
    "PyDyn.SO.C66_damping_wrong",
    "PyDyn.SO.C66_damping_example_wrong",
    "PyDyn.SO.C66_damping_row"
   ],
   "note": "C L U L^T C^T form proved, rows of gain and resonance frequency of C proved to be the derivatives; the damping row is wrong in the code (|mu0+mu2| instead of |mu0*mu2|), characterised exactly"
  },
  {
   "property": "C67",
   "status": "proved",
   "theorems": [
    "PyDyn.Fit.C67_least",
    "PyDyn.Fit.C67_exact",
    "PyDyn.Fit.C67_recovered"
   ],
   "note": "Least-squares equation error fit for every delay; exact filters have error 0 and are recovered when the fit is unique."
  },
  {
   "property": "C68",
   "status": "proved",
   "theorems": [
    "PyDyn.Fit.C68_LSIIR",
    "PyDyn.Fit.C68_invLSIIR",
    "PyDyn.Fit.C68_lengths",
    "PyDyn.Fit.C68_first_stable",
    "PyDyn.Fit.C68_median"
   ],
   "note": "The delays of the refits, their number (at most 49) and the stop condition are characterised for LSIIR and invLSIIR."
  },
  {
   "property": "C69",
   "status": "partial",
   "theorems": [
    "PyDyn.Fit.C69_inv_least",
    "PyDyn.Fit.C69_weights_partial",
    "PyDyn.Fit.C69_inv_recovered",
    "PyDyn.Fit.C69_LSFIR_reciprocal",
    "PyDyn.Fit.C69_weights_wrong",
    "PyDyn.Fit.C69_LSFIR_wrong",
    "PyDyn.Fit.C69_matrix_weights",
    "PyDyn.Fit.C69_single_matrix_weight"
   ],
   "note": "Without weights invLSFIR is the least-squares fit to the reciprocal response (proved) and recovers exact filters. Wrong in the code: LSFIR fits the reciprocal too (C69_LSFIR_wrong), weights are not applied to the right-hand side (C69_weights_wrong), matrix weights fail (C69_matrix_weights)."
  },
  {
   "property": "C70",
   "status": "partial",
   "theorems": [
    "PyDyn.Fit.C70_stacked",
    "PyDyn.Fit.C70_fit",
    "PyDyn.Fit.C70_cov_conjugate",
    "PyDyn.Fit.C70_truncated",
    "PyDyn.Fit.C70_weights_wrong",
    "PyDyn.Fit.C70_cov_wrong"
   ],
   "note": "Coefficients equal those of invLSFIR, truncation characterised. Wrong in the code: covariance is that of fits to the reciprocal of the conjugate response (C70_cov_conjugate, C70_cov_wrong), weight arrays are always rejected (C70_weights_wrong)."
  },
  {
   "property": "C71",
   "status": "partial",
   "theorems": [
    "PyDyn.Sig.C71_lengths_partial",
    "PyDyn.Sig.C71_cov_size_wrong",
    "PyDyn.Sig.C71_rejected",
    "PyDyn.Sig.C71_single",
    "PyDyn.Sig.C71_rate_partial",
    "PyDyn.Sig.C71_equidistant",
    "PyDyn.Sig.C71_between",
    "PyDyn.Sig.C71_rate_wrong",
    "PyDyn.Sig.C71_row_or_column",
    "PyDyn.Sig.C71_uncertainty"
   ],
   "note": "Lengths, rejection, sampling interval and uncertainty exact for all arguments; wrong (proved) that Ts and Fs are known for every way of giving them, and that a covariance matrix must fit to the values."
  },
  {
   "property": "C72",
   "status": "partial",
   "theorems": [
    "PyDyn.Sig.C72_fir_partial",
    "PyDyn.Sig.C72_identity",
    "PyDyn.Sig.C72_std_wrong",
    "PyDyn.Sig.C72_fir_mc_wrong",
    "PyDyn.Sig.C72_iir_wrong",
    "PyDyn.Sig.C72_iir_partial"
   ],
   "note": "Exact result for FIR filters (uncertainty is that of an autocovariance, not of standard uncertainties: proved wrong) and for IIR filters with coefficient covariance; Monte Carlo for FIR filters always raises TypeError, IIR with given runs does nothing, IIR without filter uncertainty raises ValueError."
  },
  {
   "property": "C73",
   "status": "partial",
   "theorems": [
    "PyDyn.II.C73_exact",
    "PyDyn.II.C73_partial",
    "PyDyn.II.C73_early_wrong",
    "PyDyn.II.C73_first_sample",
    "PyDyn.II.C73_complex_wrong",
    "PyDyn.II.C73_multiple_wrong",
    "PyDyn.II.C73_improper",
    "PyDyn.II.C73_causal",
    "PyDyn.II.C73_filtered",
    "PyDyn.II.C73_laplace"
   ],
   "note": "Exact result for all real systems with simple poles; correct for real residues with sum not 0; proved wrong: one sample early if the residues sum to 0, first sample wrong for complex residues, multiple poles raise. impinvar_causal relative to impinvar proved."
  },
  {
   "property": "C74",
   "status": "partial",
   "theorems": [
    "PyDyn.TS.C74_rect",
    "PyDyn.TS.C74_rect_noise",
    "PyDyn.TS.C74_squarepulse_partial",
    "PyDyn.TS.C74_squarepulse_wrong"
   ],
   "note": "rect proved; squarepulse is exact for time axes that begin at 0, otherwise the start of the axis is ignored and pulses may be missing (C74_squarepulse_wrong)"
  },
  {
   "property": "C75",
   "status": "partial",
   "theorems": [
    "PyDyn.TS.C75_gaussian",
    "PyDyn.TS.C75_shock_partial",
    "PyDyn.TS.C75_shock_wrong",
    "PyDyn.TS.C75_sine_partial",
    "PyDyn.TS.C75_sine_wrong",
    "PyDyn.TS.C75_multi_sine_partial",
    "PyDyn.TS.C75_multi_sine_wrong"
   ],
   "note": "GaussianPulse proved; sine has period freq, not 1/freq (C75_sine_wrong); multi_sine takes angular frequencies and noise^2; shocklikeGaussian has its maximum at t0 - sigma and is 0 at t0"
  },
  {
   "property": "C76",
   "status": "partial",
   "theorems": [
    "PyDyn.TS.C76_process",
    "PyDyn.TS.C76_calc_cov_partial",
    "PyDyn.TS.C76_wrong",
    "PyDyn.TS.C76_order",
    "PyDyn.TS.C76_noise2_wrong"
   ],
   "note": "exact covariance of the process generated and exact result of calc_cov; they agree only for w = 0 (C76_wrong)"
  },
  {
   "property": "C77",
   "status": "proved",
   "theorems": [
    "PyDyn.DFT.C77_white_noise",
    "PyDyn.DFT.C77_float_round_trip"
   ],
   "note": ""
  },
  {
   "property": "C78",
   "status": "proved",
   "theorems": [
    "PyDyn.Noise.C78_acf_psd"
   ],
   "note": ""
  },
  {
   "property": "C79",
   "status": "partial",
   "theorems": [
    "PyDyn.Tools.C79_single_partial",
    "PyDyn.Tools.C79_raises",
    "PyDyn.Tools.C79_means_wrong"
   ],
   "note": "The covariance is right for every number of frequencies; the means are one number over all frequencies (np.mean without axis), so that part is proved for one frequency only and refuted for two (C79_means_wrong)."
  },
  {
   "property": "C80",
   "status": "proved",
   "theorems": [
    "PyDyn.Tools.C80_print"
   ],
   "note": "The number format is a parameter."
  },
  {
   "property": "C81",
   "status": "partial",
   "theorems": [
    "PyDyn.FS.C81_delay_partial",
    "PyDyn.FS.C81_shift_wrong"
   ],
   "note": "The delay is the returned shift minus one half; the returned value is never the delay nor an integer (C81_shift_wrong). firwin enters as a parameter of which length and symmetry are assumed."
  },
  {
   "property": "C82",
   "status": "proved",
   "theorems": [
    "PyDyn.FS.C82_ua",
    "PyDyn.Normal.C82_recovers"
   ],
   "note": ""
  },
  {
   "property": "C83",
   "status": "proved",
   "theorems": [
    "PyDyn.FS.C83_db"
   ],
   "note": ""
  },
  {
   "property": "C84",
   "status": "partial",
   "theorems": [
    "PyDyn.MC.C84_first_row_partial",
    "PyDyn.MC.C84_rows_wrong",
    "PyDyn.MC.C84_nbins_wrong",
    "PyDyn.MC.C84_none",
    "PyDyn.MC.C84_level"
   ],
   "note": "Refuted by C84_rows_wrong and C84_nbins_wrong (nbins is not passed to UMC_generic); the first row holds the quantiles of the 100-bin histogram."
  },
  {
   "property": "C85",
   "status": "proved",
   "theorems": [
    "PyDyn.MC.C85_quantile",
    "PyDyn.MC.C85_inside",
    "PyDyn.MC.C85_order"
   ],
   "note": "IsQuantile is stated without reference to the interpolation."
  },
  {
   "property": "C86",
   "status": "proved",
   "theorems": [
    "PyDyn.SO.C86_realimag",
    "PyDyn.SO.C86_absphase"
   ],
   "note": "all runs, draws as oracle"
  },
  {
   "property": "C87",
   "status": "proved",
   "theorems": [
    "PyDyn.SO.C87_monte_carlo",
    "PyDyn.SO.C87_draws",
    "PyDyn.SO.C87_exact",
    "PyDyn.SO.C87_scaling"
   ],
   "note": "draws as oracle; weight matrix regular"
  },
  {
   "property": "C88",
   "status": "partial",
   "theorems": [
    "PyDyn.Fit.C88_LSIIR",
    "PyDyn.Fit.C88_invLSIIR",
    "PyDyn.Fit.C88_justFit_wrong",
    "PyDyn.Fit.C88_fraction_wrong"
   ],
   "note": "Proved for integer initial delays without justFit; wrong with justFit=True for LSIIR (C88_justFit_wrong) and for fractional initial delays (C88_fraction_wrong)."
  },
  {
   "property": "C89",
   "status": "proved",
   "theorems": [
    "PyDyn.Fit.C89_FIR"
   ],
   "note": "All inputs without zero draws."
  },
  {
   "property": "C90",
   "status": "proved",
   "theorems": [
    "PyDyn.Fit.C90_IIR"
   ],
   "note": "All inputs without zero draws."
  },
  {
   "property": "C91",
   "status": "partial",
   "theorems": [
    "PyDyn.Sig.C91_labels",
    "PyDyn.Sig.C91_kept_wrong"
   ],
   "note": "Given labels are set and data unchanged; that other labels are kept is proved wrong (reset to defaults)."
  },
  {
   "property": "C92",
   "status": "proved",
   "theorems": [
    "PyDyn.Sig.C92_step",
    "PyDyn.Sig.C92_invariant",
    "PyDyn.Sig.C92_constructed"
   ],
   "note": "Induction over all sequences of operations; exceptions leave the object as it was."
  },
  {
   "property": "C93",
   "status": "partial",
   "theorems": [
    "PyDyn.II.C93_prepad",
    "PyDyn.II.C93_prepad_zero_wrong",
    "PyDyn.II.C93_h1_deriv"
   ],
   "note": "Proved for length > 0 and all n; prepad(v, 0) returns v (proved)."
  },
  {
   "property": "C94",
   "status": "proved",
   "theorems": [
    "PyDyn.TS.C94_order",
    "PyDyn.TS.C94_autocorr"
   ],
   "note": "correlation coefficients of parts that are not constant"
  },
  {
   "property": "C95",
   "status": "proved",
   "theorems": [
    "PyDyn.DFT.C95_dft",
    "PyDyn.DFT.C95_idft_default",
    "PyDyn.DFT.C95_idft"
   ],
   "note": ""
  },
  {
   "property": "C96",
   "status": "proved",
   "theorems": [
    "PyDyn.DFT.C96_frequencies",
    "PyDyn.DFT.C96_default",
    "PyDyn.DFT.C96_zero",
    "PyDyn.DFT.C96_oscillation"
   ],
   "note": ""
  },
  {
   "property": "C97",
   "status": "proved",
   "theorems": [
    "PyDyn.DFT.C97_estimate",
    "PyDyn.DFT.C97_deconv"
   ],
   "note": "estimates; the covariance is that of DFT_deconv, see C28"
  },
  {
   "property": "C98",
   "status": "proved",
   "theorems": [
    "PyDyn.DFT.C98_multiply",
    "PyDyn.DFT.C98_convolution",
    "PyDyn.DFT.C98_time_domain"
   ],
   "note": "The time-domain statement is for even transform lengths; GUM_iDFT returns an asymmetric matrix (C22), its symmetric part is compared."
  },
  {
   "property": "C99",
   "status": "proved",
   "theorems": [
    "PyDyn.DFT.C99_time2ampphase",
    "PyDyn.DFT.C99_round_trip"
   ],
   "note": "Round trip for even length; GUM_iDFT returns an asymmetric matrix (C22), its symmetric part is compared."
  },
  {
   "property": "C100",
   "status": "proved",
   "theorems": [
    "PyDyn.DFT.C100_parseval"
   ],
   "note": ""
  },
  {
   "property": "C101",
   "status": "proved",
   "theorems": [
    "PyDyn.TS.C101_power",
    "PyDyn.TS.C101_default",
    "PyDyn.TS.C101_white"
   ],
   "note": "Power identity, frequencies, sign and the expected density of white noise."
  },
  {
   "property": "C102",
   "status": "proved",
   "theorems": [
    "PyDyn.MC.C102_runs",
    "PyDyn.MC.C102_interval",
    "PyDyn.MC.C102_certain",
    "PyDyn.MC.C102_lowpass",
    "PyDyn.MC.C102_shape",
    "PyDyn.MC.C102_empty_lowpass"
   ],
   "note": "Whole UMC function; the covariance is stated with the factor of the first block that the code has (see C43)."
  },
  {
   "property": "C103",
   "status": "proved",
   "theorems": [
    "PyDyn.MC.C103_mc",
    "PyDyn.MC.C103_draws"
   ],
   "note": "Estimate and covariance, for all three kinds of Ux."
  },
  {
   "property": "C104",
   "status": "partial",
   "theorems": [
    "PyDyn.MC.C104_umc_partial",
    "PyDyn.MC.C104_umc_wrong"
   ],
   "note": "y is unbiased; the expected Uy is too large by the factor 1 + (blocksize-1)(blocksize-2)/(N-1), which C104_umc_partial states exactly and C104_umc_wrong shows to exceed 1 for block sizes of 3 and more."
  },
  {
   "property": "C105",
   "status": "proved",
   "theorems": [
    "PyDyn.Filter.C105_agree"
   ],
   "note": ""
  },
  {
   "property": "C106",
   "status": "proved",
   "theorems": [
    "PyDyn.Filter.C106_estimate",
    "PyDyn.Filter.C106_covariance",
    "PyDyn.Filter.C106_white",
    "PyDyn.Filter.C106_correlated_transient"
   ],
   "note": ""
  },
  {
   "property": "C107",
   "status": "proved",
   "theorems": [
    "PyDyn.Filter.C107_delay"
   ],
   "note": ""
  },
  {
   "property": "C108",
   "status": "proved",
   "theorems": [
    "PyDyn.Filter.C108_superposition",
    "PyDyn.Filter.C108_units",
    "PyDyn.Filter.C108_certain_coefficients"
   ],
   "note": ""
  },
  {
   "property": "C109",
   "status": "proved",
   "theorems": [
    "PyDyn.DFT.C109_delay",
    "PyDyn.DFT.C109_superposition",
    "PyDyn.DFT.C109_offset",
    "PyDyn.DFT.C109_redundant"
   ],
   "note": ""
  },
  {
   "property": "C110",
   "status": "proved",
   "theorems": [
    "PyDyn.C110_time",
    "PyDyn.C110_values"
   ],
   "note": ""
  },
  {
   "property": "C111",
   "status": "proved",
   "theorems": [
    "PyDyn.C111_equidistant"
   ],
   "note": ""
  },
  {
   "property": "C112",
   "status": "proved",
   "theorems": [
    "PyDyn.Conv.C112_units"
   ],
   "note": ""
  },
  {
   "property": "C113",
   "status": "proved",
   "theorems": [
    "PyDyn.Conv.C113_superposition_first",
    "PyDyn.Conv.C113_superposition_second"
   ],
   "note": ""
  },
  {
   "property": "C114",
   "status": "proved",
   "theorems": [
    "PyDyn.Conv.C114_psd"
   ],
   "note": ""
  },
  {
   "property": "C115",
   "status": "proved",
   "theorems": [
    "PyDyn.Conv.C115_delay",
    "PyDyn.Conv.C115_identity",
    "PyDyn.Conv.C115_constant"
   ],
   "note": ""
  },
  {
   "property": "C116",
   "status": "proved",
   "theorems": [
    "PyDyn.Conv.C116_associative"
   ],
   "note": ""
  },
  {
   "property": "C117",
   "status": "proved",
   "theorems": [
    "PyDyn.Deprecated.C117_deconvolution",
    "PyDyn.Deprecated.C117_others",
    "PyDyn.Deprecated.C117_defaults",
    "PyDyn.Deprecated.C117_reciprocal",
    "PyDyn.Deprecated.C117_second_order"
   ],
   "note": "Each deprecated wrapper equals its successor for all arguments; the default values are written out in C117_defaults."
  },
  {
   "property": "C118",
   "status": "partial",
   "theorems": [
    "PyDyn.SO.C118_frequency_units",
    "PyDyn.SO.C118_frequency_linear_partial",
    "PyDyn.SO.C118_damping_units_wrong"
   ],
   "note": "frequency units: full equality without uncertainty and with Monte Carlo; in the linear propagation all but the damping entries, which the code gets wrong (C118_damping_units_wrong)"
  },
  {
   "property": "C119",
   "status": "partial",
   "theorems": [
    "PyDyn.SO.C119_gain_units",
    "PyDyn.SO.C119_gain_linear_partial",
    "PyDyn.SO.C119_damping_units_wrong"
   ],
   "note": "gain units: as C118; the damping entries of the linear propagation depend on the unit (C119_damping_units_wrong)"
  },
  {
   "property": "C120",
   "status": "proved",
   "theorems": [
    "PyDyn.SO.C120_order"
   ],
   "note": "all modes"
  },
  {
   "property": "C121",
   "status": "proved",
   "theorems": [
    "PyDyn.Fit.C121_LSIIR",
    "PyDyn.Fit.C121_invLSIIR",
    "PyDyn.Fit.C121_FIR",
    "PyDyn.Fit.C121_invLSFIRunc",
    "PyDyn.Fit.C121_invLSFIRuncMC",
    "PyDyn.Fit.C121_invLSIIRunc"
   ],
   "note": ""
  },
  {
   "property": "C122",
   "status": "partial",
   "theorems": [
    "PyDyn.Fit.C122_invLSFIR",
    "PyDyn.Fit.C122_LSFIR_wrong",
    "PyDyn.Fit.C122_LSFIR_exact",
    "PyDyn.Fit.C122_invLSFIRunc",
    "PyDyn.Fit.C122_invLSFIRuncMC"
   ],
   "note": "LSFIR fits the reciprocal and divides by c (C122_LSFIR_wrong, C122_LSFIR_exact); proved for the inverse filters"
  },
  {
   "property": "C123",
   "status": "proved",
   "theorems": [
    "PyDyn.Fit.C123_FIR",
    "PyDyn.Fit.C123_LSIIR",
    "PyDyn.Fit.C123_invLSIIR",
    "PyDyn.Fit.C123_invLSIIRunc",
    "PyDyn.Fit.C123_invLSFIRuncMC"
   ],
   "note": ""
  },
  {
   "property": "C124",
   "status": "partial",
   "theorems": [
    "PyDyn.Fit.C124_grpdelay_partial",
    "PyDyn.Fit.C124_grpdelay_wrong",
    "PyDyn.Fit.C124_justFit",
    "PyDyn.Fit.C124_justFit_inverse",
    "PyDyn.Fit.C124_LSIIR_partial",
    "PyDyn.Fit.C124_invLSIIR_partial",
    "PyDyn.Fit.C124_LSIIR_wrong"
   ],
   "note": "grpdelay has the absolute tolerance 1e-12: for small units the refits do not converge to a stable filter (C124_LSIIR_wrong). Proved if no bin crosses the tolerance and the best filter is unique."
  },
  {
   "property": "C125",
   "status": "partial",
   "theorems": [
    "PyDyn.Ints.C125_exact",
    "PyDyn.Ints.C125_float",
    "PyDyn.Ints.C125_partial",
    "PyDyn.Ints.C125_estimate",
    "PyDyn.Ints.C125_no_noise_wrong",
    "PyDyn.Ints.C125_iff"
   ],
   "note": "Exact: in the fast computation a float sigma_noise is read as the root of the integer part of its square when y holds integers (C125_exact); agreement for white noise iff the variance is an integer (C125_iff); noise below one vanishes (C125_no_noise_wrong)."
  },
  {
   "property": "C126",
   "status": "partial",
   "theorems": [
    "PyDyn.Ints.C126_float",
    "PyDyn.Ints.C126_window_exact",
    "PyDyn.Ints.C126_window_partial",
    "PyDyn.Ints.C126_window_wrong",
    "PyDyn.Ints.C126_ampPhase_wrong",
    "PyDyn.Ints.C126_ampPhase2DFT_wrong",
    "PyDyn.Ints.C126_float_products",
    "PyDyn.Ints.C126_multiply_partial",
    "PyDyn.Ints.C126_deconv_partial",
    "PyDyn.Ints.C126_multiply_wrong",
    "PyDyn.Ints.C126_deconv_wrong"
   ],
   "note": "Holds without window and whenever all products are integers (for DFT_multiply: spectra of integers; for DFT_deconv: integer Y and bins of H among 1, -1, i, -i); with a window below one and unit variances, for DFT2AmpPhase/AmpPhase2DFT with entries up to one, for DFT_multiply with |Re F|, |Im F| < 1 and for DFT_deconv with |H| > 1 the uncertainty is lost."
  },
  {
   "property": "C127",
   "status": "partial",
   "theorems": [
    "PyDyn.Ints.C127_float",
    "PyDyn.Ints.C127_partial",
    "PyDyn.Ints.C127_wrong"
   ],
   "note": "Both raise TypeError at integer times."
  },
  {
   "property": "C128",
   "status": "partial",
   "theorems": [
    "PyDyn.Filter.C128_exact",
    "PyDyn.Filter.C128_coef_partial",
    "PyDyn.Filter.C128_coef_wrong",
    "PyDyn.Filter.C128_noise",
    "PyDyn.Filter.C128_noise_empty",
    "PyDyn.Filter.C128_noise_single",
    "PyDyn.Filter.C128_signal_cov",
    "PyDyn.Filter.C128_coef_cov"
   ],
   "note": "Exact condition proved (C128_exact, C128_signal_cov, C128_coef_cov). The code violates the claim: two other numbers of coefficient uncertainties are accepted (C128_coef_wrong). A single standard uncertainty of the noise is taken for all samples (C128_noise_single)."
  },
  {
   "property": "C129",
   "status": "partial",
   "theorems": [
    "PyDyn.Filter.C129_fir_partial",
    "PyDyn.Filter.C129_fir_std",
    "PyDyn.Filter.C129_fir_wrong",
    "PyDyn.Conv.C129_convolve",
    "PyDyn.DFT.C129_dft",
    "PyDyn.DFT.C129_idft",
    "PyDyn.DFT.C129_dft2amp",
    "PyDyn.DFT.C129_amp2dft",
    "PyDyn.DFT.C129_deconv",
    "PyDyn.DFT.C129_multiply",
    "PyDyn.Interp.C129_interp"
   ],
   "note": "Proved for convolve_unc, the DFT functions (symmetric part for GUM_iDFT), interp1d_unc and for FIRuncFilter with point-wise standard uncertainties; for FIRuncFilter with covariance matrices under the hypothesis that the prolongations into the past are ordered. Without it the claim fails (C129_fir_wrong): the stationary prolongation of a larger covariance can be smaller."
  },
  {
   "property": "C130",
   "status": "partial",
   "theorems": [
    "PyDyn.DFT.C130_dft",
    "PyDyn.DFT.C130_idft",
    "PyDyn.DFT.C130_dft2amp",
    "PyDyn.DFT.C130_time2amp",
    "PyDyn.DFT.C130_amp2dft_partial",
    "PyDyn.DFT.C130_amp2dft_sparse_exact",
    "PyDyn.DFT.C130_amp2dft_sparse_wrong",
    "PyDyn.DFT.C130_amp2time",
    "PyDyn.DFT.C130_multiply",
    "PyDyn.DFT.C130_deconv_partial",
    "PyDyn.DFT.C130_deconv_wrong"
   ],
   "note": "Proved for all arguments of GUM_DFT, GUM_iDFT, DFT2AmpPhase, Time2AmpPhase, AmpPhase2Time and DFT_multiply. Wrong for sparse uncertainties in AmpPhase2DFT (exact condition C130_amp2dft_sparse_exact) and for DFT_deconv if H is uncertain and complex and has another unit than Y (C130_deconv_wrong)."
  },
  {
   "property": "C131",
   "status": "partial",
   "theorems": [
    "PyDyn.DFT.C131_multiply_refines",
    "PyDyn.DFT.C131_multiply_vector",
    "PyDyn.DFT.C131_multiply_vector_wrong",
    "PyDyn.DFT.C131_multiply_vector_iff",
    "PyDyn.DFT.C131_multiply_matrix",
    "PyDyn.DFT.C131_multiply_matrix_wrong",
    "PyDyn.DFT.C131_multiply_odd",
    "PyDyn.DFT.C131_multiply_odd_wrong",
    "PyDyn.DFT.C131_multiply_second",
    "PyDyn.DFT.C131_idft_refines",
    "PyDyn.DFT.C131_idft_small",
    "PyDyn.DFT.C131_idft_estimate",
    "PyDyn.DFT.C131_idft_estimate_wrong",
    "PyDyn.DFT.C131_idft_matrix",
    "PyDyn.DFT.C131_idft_vector_wrong",
    "PyDyn.DFT.C131_ampPhase2Time_refines",
    "PyDyn.DFT.C131_ampPhase2Time_vector",
    "PyDyn.DFT.C131_ampPhase2Time_wrong",
    "PyDyn.DFT.C131_ampPhase_refines",
    "PyDyn.DFT.C131_ampPhase",
    "PyDyn.DFT.C131_ampPhase_wrong",
    "PyDyn.DFT.C131_ampPhase_odd",
    "PyDyn.DFT.C131_types"
   ],
   "note": "The claim is wrong: broadcasting accepts some mismatching sizes (C131_multiply_vector_wrong, C131_multiply_matrix_wrong, C131_multiply_odd_wrong, C131_idft_estimate_wrong, C131_idft_vector_wrong, C131_ampPhase2Time_wrong, C131_ampPhase_wrong). All other mismatches are rejected; the theorems say exactly which sizes are accepted and which exception is raised (vectors and square matrices, m >= 2 bins where stated)."
  },
  {
   "property": "C132",
   "status": "proved",
   "theorems": [
    "PyDyn.DFT.C132_circular",
    "PyDyn.DFT.C132_truncated",
    "PyDyn.DFT.C132_time_domain",
    "PyDyn.DFT.C132_solution"
   ],
   "note": "Composition of GUM_DFT, DFT_deconv and GUM_iDFT for an exact response. With an uncertain response the covariance of DFT_deconv is wrong (C28_wrong)."
  },
  {
   "property": "C133",
   "status": "proved",
   "theorems": [
    "PyDyn.Normal.C133_unwrap",
    "PyDyn.Normal.C133_semiposdef",
    "PyDyn.Normal.C133_trimOrPad"
   ],
   "note": "Unwrapping: unchanged if all steps are at most pi, idempotent without condition. make_semiposdef: any admissible size, dense or sparse. trimOrPad: default mode."
  },
  {
   "property": "C134",
   "status": "proved",
   "theorems": [
    "PyDyn.FS.C134_cascade",
    "PyDyn.FS.C134_inverse",
    "PyDyn.FS.C134_gain"
   ],
   "note": "At bins where neither response is below 1e-12 and with an FFT long enough for the cascaded filter."
  },
  {
   "property": "C135",
   "status": "proved",
   "theorems": [
    "PyDyn.Filter.C135_cascade",
    "PyDyn.Filter.C135_noise",
    "PyDyn.Filter.C135_exchange",
    "PyDyn.Filter.C135_short_wrong"
   ],
   "note": "The statement carries its condition (first sample uncorrelated with the last len(blow) - 1 samples); C135_noise shows that white noise, point-wise uncertainties and short autocovariances satisfy it if there are at least len(blow) samples. C135_short_wrong: without the condition the two calls differ (variance 4 instead of 6)."
  },
  {
   "property": "C136",
   "status": "partial",
   "theorems": [
    "PyDyn.SO.C136_gain_array",
    "PyDyn.SO.C136_number_gain_wrong",
    "PyDyn.SO.C136_number_gain_error_wrong",
    "PyDyn.SO.C136_filter_number_wrong"
   ],
   "note": "Proved if the static gain is an array (C64_columns, C136_gain_array: the others numbers, arrays of the same length or of length 1). Fails if the static gain is a number and the damping an array (C136_number_gain_wrong, C136_number_gain_error_wrong) and in sos_phys2filter if the resonance frequency is a number (C136_filter_number_wrong)."
  },
  {
   "property": "C137",
   "status": "partial",
   "theorems": [
    "PyDyn.SingleRun.C137_fit",
    "PyDyn.SingleRun.C137_weighting",
    "PyDyn.SingleRun.C137_som_wrong",
    "PyDyn.SingleRun.C137_realimag_wrong"
   ],
   "note": "The claim fails: C137_som_wrong, C137_realimag_wrong. C137_fit says exactly what fit_som returns: the parameters fitted to the drawn response and the variance of these three numbers; C137_weighting: the exceptions."
  },
  {
   "property": "C138",
   "status": "partial",
   "theorems": [
    "PyDyn.Interp.C138_two_steps",
    "PyDyn.Interp.C138_unc_wrong"
   ],
   "note": "Proved: the values agree, and the uncertainty of the two-step result is never larger than that of the direct interpolation. The claim about the uncertainties is false: inside every segment of the fine grid that is not itself a segment of the nodes the two-step uncertainty is strictly smaller (C138_two_steps, concrete instance C138_unc_wrong), because the second call treats the correlated values on the fine grid as uncorrelated."
  },
  {
   "property": "C139",
   "status": "proved",
   "theorems": [
    "PyDyn.DFT.C139_associative",
    "PyDyn.DFT.C139_order",
    "PyDyn.DFT.C139_neutral",
    "PyDyn.DFT.C139_deconv_twice",
    "PyDyn.DFT.C139_multiply_deconv"
   ],
   "note": "For matrix covariances. Variance vectors and sparse matrices are covered by C29 (exceptions there); division by an uncertain response is excluded because its sensitivities are wrong (C28)."
  },
  {
   "property": "C140",
   "status": "proved",
   "theorems": [
    "PyDyn.MC.C140_umc_generic",
    "PyDyn.MC.C140_mc",
    "PyDyn.MC.C140_umc"
   ],
   "note": "histograms are compared for positive factors; for MC the draw of a multivariate normal vector is a parameter that is required to scale with the mean and the standard deviations"
  },
  {
   "property": "C141",
   "status": "proved",
   "theorems": [
    "PyDyn.C141_select",
    "PyDyn.C141_accept",
    "PyDyn.C141_local"
   ],
   "note": "locality is stated for assume_sorted=True; C39_sorts reduces unsorted data to it"
  },
  {
   "property": "C142",
   "status": "proved",
   "theorems": [
    "PyDyn.DFT.C142_product",
    "PyDyn.DFT.C142_exact",
    "PyDyn.DFT.C142_deconv",
    "PyDyn.DFT.C142_deconv_uncertain_wrong"
   ],
   "note": "C142_product: two uncertain factors; C142_exact and C142_deconv: exactly known factor or response (division by an exactly known response as the claim says). C142_deconv_uncertain_wrong: with an uncertain response DFT_deconv violates the rule for phases because of its wrong derivative (C28)."
  },
  {
   "property": "C143",
   "status": "proved",
   "theorems": [
    "PyDyn.MC.C143_mc",
    "PyDyn.MC.C143_draws"
   ],
   "note": "C143_mc: expectations of MC equal FIRuncFilter (also the second-order term of signal and coefficient uncertainty); C143_draws: draws by way of any factors of the covariance matrices from independent standard numbers meet the conditions; example with normal numbers on an infinite product space."
  },
  {
   "property": "C144",
   "status": "partial",
   "theorems": [
    "PyDyn.FS.C144_units",
    "PyDyn.FS.C144_superposition_partial",
    "PyDyn.FS.C144_delta",
    "PyDyn.FS.C144_sign_wrong"
   ],
   "note": "Proved: C144_units (factor at least 0 and offset, all samples), C144_superposition_partial (all weights, samples whose window lies in the record), C144_delta. Missing because the code contradicts it: superposition at the ends of the record, where the padding takes absolute values (C144_sign_wrong)."
  },
  {
   "property": "C145",
   "status": "partial",
   "theorems": [
    "PyDyn.II.C145_poles",
    "PyDyn.II.C145_stable",
    "PyDyn.II.C145_time",
    "PyDyn.II.C145_time_tolerance_wrong",
    "PyDyn.II.C145_gain"
   ],
   "note": "C145_poles: roots of the returned denominator are exactly exp(p_i/fs); C145_stable: isstable of it is True iff no Re p_i > 0; C145_gain: factors; C145_time: independence of the unit of time provided both descriptions have poles that the tolerance tells apart. Partial because the tolerance is an absolute number: C145_time_tolerance_wrong (1/(s+1)+1/(s+2), converted at 1 Hz, raises ValueError when expressed in units of 10 microseconds)."
  },
  {
   "property": "C146",
   "status": "proved",
   "theorems": [
    "PyDyn.Fit.C146_fir_replace",
    "PyDyn.Fit.C146_fir_append",
    "PyDyn.Fit.C146_fir_zero_weight",
    "PyDyn.Fit.C146_iir_replace",
    "PyDyn.Fit.C146_iir_append"
   ],
   "note": "C146_fir_replace, C146_fir_append, C146_fir_zero_weight for LSFIR and invLSFIR; C146_iir_replace, C146_iir_append for LSIIR and invLSIIR with and without stabilisation."
  },
  {
   "property": "C147",
   "status": "proved",
   "theorems": [
    "PyDyn.DFT.C147_turns_DFT",
    "PyDyn.DFT.C147_turns_time",
    "PyDyn.DFT.C147_wrapped",
    "PyDyn.DFT.C147_negative",
    "PyDyn.DFT.C147_delay"
   ],
   "note": "C147_turns_DFT, C147_turns_time (equal results or exceptions for all arguments), C147_wrapped, C147_negative, C147_delay."
  },
  {
   "property": "C148",
   "status": "proved",
   "theorems": [
    "PyDyn.DFT.C148_forward",
    "PyDyn.DFT.C148_even",
    "PyDyn.DFT.C148_inverse"
   ],
   "note": "Covariance given as a matrix, no window of bins, no padding; the inverse for signals of even length (the length that GUM_iDFT assumes by default)."
  },
  {
   "property": "C149",
   "status": "proved",
   "theorems": [
    "PyDyn.Filter.C149_constant",
    "PyDyn.Filter.C149_common_error",
    "PyDyn.Filter.C149_white_noise",
    "PyDyn.Filter.C149_moving_average"
   ],
   "note": "Covariances of outputs at times i, j for a common error: once the memory is filled or if the lags needed for the prolongation lie within the record (in particular all variances if the record is not shorter than the filter)."
  },
  {
   "property": "C150",
   "status": "proved",
   "theorems": [
    "PyDyn.Tools.C150_modes",
    "PyDyn.Tools.C150_default",
    "PyDyn.Tools.C150_nested",
    "PyDyn.Tools.C150_rejected",
    "PyDyn.Tools.C150_negative_wrong"
   ],
   "note": "The modes of np.pad that compute new values (linear_ramp, maximum, mean, median, minimum, empty) are not modelled. C150_negative_wrong records what happens for negative lengths."
  },
  {
   "property": "C151",
   "status": "proved",
   "theorems": [
    "PyDyn.SO.C151_unbiased",
    "PyDyn.SO.C151_gain",
    "PyDyn.SO.C151_freqresp"
   ],
   "note": "The means returned by FreqResp2RealImag for more than one frequency are averages over frequencies (C79_means_wrong), so the claim about means is for one frequency there."
  },
  {
   "property": "C152",
   "status": "proved",
   "theorems": [
    "PyDyn.Conv.C152_reversal",
    "PyDyn.Conv.C152_symmetric",
    "PyDyn.Conv.C152_even_wrong"
   ],
   "note": "C152_even_wrong shows that the condition of odd length is necessary in the modes of scipy.ndimage."
  },
  {
   "property": "C153",
   "status": "proved",
   "theorems": [
    "PyDyn.SO.C153_negative_frequency",
    "PyDyn.SO.C153_standard"
   ],
   "note": "The draws are universally quantified; for a full covariance the draws of the mirrored response are assumed to be the mirrored draws."
  },
  {
   "property": "C154",
   "status": "proved",
   "theorems": [
    "PyDyn.Noise.C154_linear",
    "PyDyn.Noise.C154_beginning",
    "PyDyn.Noise.C154_white",
    "PyDyn.Noise.C154_order_one",
    "PyDyn.Noise.C154_mean",
    "PyDyn.Noise.C154_covariance",
    "PyDyn.Noise.C154_moving_average",
    "PyDyn.Noise.C154_autoregressive",
    "PyDyn.Noise.C154_stationary",
    "PyDyn.Noise.C154_coloured"
   ],
   "note": "C154_covariance and its corollaries are stated for order (1, 1), where the reversed order of coefficients (C55) makes no difference."
  },
  {
   "property": "C155",
   "status": "proved",
   "theorems": [
    "PyDyn.MC.C155_beginning",
    "PyDyn.MC.C155_white"
   ],
   "note": "For a full covariance matrix the draws for the beginning are assumed to be the beginnings of the draws. A single run is excluded, its uncertainty is the variance over time (C137)."
  },
  {
   "property": "C156",
   "status": "proved",
   "theorems": [
    "PyDyn.C156_reversal",
    "PyDyn.C156_accepted",
    "PyDyn.C156_tie"
   ],
   "note": "C156_reversal for every kind and requested time inside the range (nearest: without ties), C156_accepted for the mirrored call; C156_tie is the witness that the tie has to be excluded."
  },
  {
   "property": "C157",
   "status": "proved",
   "theorems": [
    "PyDyn.MC.C157_components",
    "PyDyn.MC.C157_causal"
   ],
   "note": "C157_components: any choice of components, for every result that UMC_generic returns; C157_causal: the whole UMC function. The order in which parallel processes deliver their results must not depend on the values."
  },
  {
   "property": "C158",
   "status": "proved",
   "theorems": [
    "PyDyn.C158_line",
    "PyDyn.C158_monotone",
    "PyDyn.C158_order"
   ],
   "note": "C158_line (linear), C158_monotone and C158_order (all four supported kinds), for every call that returns and all requested times inside the range."
  },
  {
   "property": "C159",
   "status": "proved",
   "theorems": [
    "PyDyn.FS.C159_rotation",
    "PyDyn.FS.C159_reversal",
    "PyDyn.FS.C159_ends_wrong"
   ],
   "note": "C159_rotation everywhere, C159_reversal at all points with a full window, as the property says; C159_ends_wrong is the witness that reversal alone fails at the ends."
  },
  {
   "property": "C160",
   "status": "proved",
   "theorems": [
    "PyDyn.FS.C160_order"
   ],
   "note": "C160_order, an equation between the two calls including exceptions."
  },
  {
   "property": "C161",
   "status": "proved",
   "theorems": [
    "PyDyn.FS.C161_white"
   ],
   "note": "C161_white (deriv = 0), stated with the covariance of random variables on any probability space."
  },
  {
   "property": "C162",
   "status": "proved",
   "theorems": [
    "PyDyn.FS.C162_local",
    "PyDyn.FS.C162_delay"
   ],
   "note": "C162_local for any two records and any derivative, C162_delay for a delayed record; points with a full window, as the property says."
  }
 ]
}
