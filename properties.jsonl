{"id": "C01", "title": "FIR estimate is the convolution with a constant past", "statement": "FIRuncFilter(y, sigma_noise, theta, ...) returns as estimate, for every output index n, the sum over k of theta[k]*y[n-k] where y before the start of the record is taken equal to y[0]; the estimate has the length of y and does not depend on the uncertainty arguments nor on return_full_covariance.", "quantifier": "all signals of any length >= 1, all filters of length >= 2, all accepted uncertainty arguments", "why_tests_cant": "The identity ranges over all lengths of signal and filter and all real values; tests compare a few random draws with lfilter.", "anchors": ["PyDynamic/uncertainty/propagate_filter.py: FIRuncFilter, _fir_filter, _fir_filter_diag"]}
{"id": "C02", "title": "FIR covariance is the exact covariance of the filtered random signal", "statement": "With return_full_covariance=True the returned matrix is the covariance matrix of sum_k Theta[k]*Y[n-k] for every pair of independent random vectors Y (mean y, covariance sigma_noise, prolonged into the past by stationarity) and Theta (mean theta, covariance Utheta).", "quantifier": "all probability spaces, all square-integrable independent Y, Theta, all lengths, all pairs of output indices", "why_tests_cant": "A test can only sample one distribution and compare with Monte Carlo tolerance; the claim is exact and for every distribution.", "anchors": ["PyDynamic/uncertainty/propagate_filter.py: _fir_filter, _stationary_prepend_covariance, FIRuncFilter"]}
{"id": "C03", "title": "Fast and full FIR uncertainty computations agree", "statement": "For noise given as a float or as point-wise uncertainties (kind='diag') and a filter covariance that is absent, calling FIRuncFilter with return_full_covariance=False returns the square roots of the diagonal of the matrix returned with return_full_covariance=True; the same holds for the diagonal/full pair of filter routines with diagonal Utheta.", "quantifier": "all signals, filters, noise levels, coefficient variances", "why_tests_cant": "Two separately maintained code paths must agree on every input, not only on tested sizes.", "anchors": ["PyDynamic/uncertainty/propagate_filter.py: _fir_filter, _fir_filter_diag, FIRuncFilter"]}
{"id": "C04", "title": "FIR output covariance is a covariance matrix", "statement": "Whenever the prolonged input covariance and the filter covariance are symmetric positive semidefinite, the covariance returned by the FIR routines is symmetric and positive semidefinite; hence the squared point-wise uncertainties equal its diagonal.", "quantifier": "all signals, filters and positive semidefinite input covariances", "why_tests_cant": "Positive semidefiniteness quantifies over all test vectors and all inputs.", "anchors": ["PyDynamic/uncertainty/propagate_filter.py: _fir_filter, FIRuncFilter"]}
{"id": "C05", "title": "Stationary prolongation of a covariance", "statement": "Prolonging a covariance U by n samples into the past leaves U unchanged as the lower right block, and every prolonged entry depends only on the time difference, taking the values of the first row and column of U (0 beyond the record); symmetry of U is preserved.", "quantifier": "all square matrices U of any size and all n", "why_tests_cant": "Index arithmetic must hold for all sizes.", "anchors": ["PyDynamic/uncertainty/propagate_filter.py: _stationary_prepend_covariance"]}
{"id": "C06", "title": "Low-pass followed by filter equals the cascaded filter", "statement": "With blow given, the estimate returned by FIRuncFilter equals the estimate returned without blow for the single filter obtained by convolving theta with blow; the returned covariance is that of the second stage fed with the covariance of the first.", "quantifier": "all signals, low-pass filters and filters", "why_tests_cant": "Ranges over all lengths and values.", "anchors": ["PyDynamic/uncertainty/propagate_filter.py: FIRuncFilter"]}
{"id": "C07", "title": "Shift delays estimate and uncertainty consistently", "statement": "With shift=s FIRuncFilter returns the estimate and the uncertainty obtained with shift=0, both moved by -s samples circularly, so that element i of the uncertainty (entry (i,j) of the covariance) still belongs to element i (elements i and j) of the estimate.", "quantifier": "all integer shifts, all signals and all accepted uncertainty arguments", "why_tests_cant": "Ranges over all shifts and sizes and both code paths.", "anchors": ["PyDynamic/uncertainty/propagate_filter.py: FIRuncFilter"]}
{"id": "C08", "title": "FIRuncFilter accepts or rejects by argument kind alone", "statement": "For every combination of the kinds of sigma_noise (None, float, 1-D, 2-D, other), Utheta (None, float, 1-D, 2-D), kind string, blow and return_full_covariance, FIRuncFilter either returns a result of the documented shape or raises the documented ValueError; unknown kind with 1-D noise and unsupported sigma_noise raise ValueError.", "quantifier": "all argument kinds and all strings", "why_tests_cant": "The decision table ranges over arbitrary strings and array sizes.", "anchors": ["PyDynamic/uncertainty/propagate_filter.py: FIRuncFilter"]}
{"id": "C09", "title": "Coefficient uncertainties are standard uncertainties", "statement": "An uncertainty of the filter given as a float u has the same effect as the 1-D array with every entry u, i.e. as coefficient-wise standard uncertainty u.", "quantifier": "all u, all signals and filters", "why_tests_cant": "Ranges over all values of u.", "anchors": ["PyDynamic/uncertainty/propagate_filter.py: FIRuncFilter"]}
{"id": "C10", "title": "Change of units in FIR filtering", "statement": "Multiplying the signal by c and its noise by |c| multiplies the FIR estimate by c, its point-wise uncertainties by |c| and its covariance by c^2 (certain filter or covariance-type Utheta).", "quantifier": "all real c, all inputs", "why_tests_cant": "Homogeneity is a universally quantified identity.", "anchors": ["PyDynamic/uncertainty/propagate_filter.py: FIRuncFilter"]}
{"id": "C11", "title": "IIR uncertainty propagation returns a result", "statement": "IIRuncFilter(x, noise, b, a, Uab) returns an estimate of the length of x together with point-wise uncertainties for every filter with len(b) <= len(a).", "quantifier": "all signals, filters and covariances", "why_tests_cant": "Totality over all inputs; the shipped test of this function is empty.", "anchors": ["PyDynamic/uncertainty/propagate_filter.py: IIRuncFilter"]}
{"id": "C12", "title": "convolve_unc estimate equals numpy convolution", "statement": "In modes full, valid and same, convolve_unc returns the sum over k of x1[i-k]*x2[k] at the indices numpy.convolve selects; the lengths are N+M-1, max-min+1 and max.", "quantifier": "all signals of any lengths (shorter one of length >= 2)", "why_tests_cant": "Index selection must be right for all parities and length relations.", "anchors": ["PyDynamic/uncertainty/propagate_convolution.py: convolve_unc"]}
{"id": "C13", "title": "convolve_unc estimate equals ndimage convolution with boundary handling", "statement": "In modes nearest, reflect and mirror, output i is sum over k of x2[k]*x1ext[i + M//2 - k], where x1ext continues x1 by its edge value, by reflection with repeated edge, or by reflection without repeated edge, repeated as often as the kernel reaches; the length is N.", "quantifier": "all signals (one element included), odd and even kernels of any length >= 2, also longer than the signal", "why_tests_cant": "All lengths and parities.", "anchors": ["PyDynamic/uncertainty/propagate_convolution.py: convolve_unc"]}
{"id": "C14", "title": "convolve_unc covariance is exact", "statement": "In every mode the returned matrix is the covariance matrix of the convolution of two independent random vectors with the given means and covariances (None meaning certain), with the boundary continuation applied to the random first signal.", "quantifier": "all probability spaces, independent square-integrable vectors, all modes and lengths", "why_tests_cant": "Exactness for every distribution.", "anchors": ["PyDynamic/uncertainty/propagate_convolution.py: convolve_unc", "PyDynamic/uncertainty/propagate_filter.py: _fir_filter"]}
{"id": "C15", "title": "convolve_unc is commutative", "statement": "In modes full, valid and same, exchanging the two signals together with their covariances leaves estimate and covariance unchanged.", "quantifier": "all pairs of signals, also of equal length, with symmetric covariances or None", "why_tests_cant": "Universally quantified equality.", "anchors": ["PyDynamic/uncertainty/propagate_convolution.py: convolve_unc"]}
{"id": "C16", "title": "convolve_unc rejects exactly the unsupported", "statement": "A mode string outside the six documented ones raises ValueError; the six documented modes succeed for every kernel length >= 1.", "quantifier": "all strings, all lengths", "why_tests_cant": "Ranges over all strings and sizes.", "anchors": ["PyDynamic/uncertainty/propagate_convolution.py: convolve_unc"]}
{"id": "C17", "title": "GUM_DFT propagates covariance exactly", "statement": "GUM_DFT(x, Ux) returns the stacked real and imaginary parts of the real DFT of x and, as UF, the covariance matrix of the stacked real and imaginary parts of the DFT of every random vector with covariance Ux.", "quantifier": "all lengths (odd and even), all covariance matrices or variance vectors, all probability spaces", "why_tests_cant": "Exactness for every size and distribution.", "anchors": ["PyDynamic/uncertainty/propagate_DFT.py: GUM_DFT"]}
{"id": "C18", "title": "GUM_DFT zero padding and window", "statement": "With N >= len(x) the result equals that for the zero-padded signal with zero-padded covariance; with a window it equals the result for x*window with covariance scaled entry-wise by window[i]*window[j]; N < len(x) raises ValueError.", "quantifier": "all lengths, windows, N", "why_tests_cant": "All sizes.", "anchors": ["PyDynamic/uncertainty/propagate_DFT.py: GUM_DFT, _apply_window, _prod"]}
{"id": "C19", "title": "GUM_DFT with a scalar variance", "statement": "A float Ux gives the diagonal of the covariance matrix that the general method gives for Ux times the identity.", "quantifier": "all lengths and variances", "why_tests_cant": "Two code paths agree on all inputs.", "anchors": ["PyDynamic/uncertainty/propagate_DFT.py: GUM_DFT"]}
{"id": "C20", "title": "GUM_DFT mask", "statement": "With a mask, estimate and covariance are the sub-vector and sub-matrix of the unmasked result at the selected frequencies, in both the scalar-variance and the general method.", "quantifier": "all masks of the right length", "why_tests_cant": "2^n masks for every n.", "anchors": ["PyDynamic/uncertainty/propagate_DFT.py: GUM_DFT"]}
{"id": "C21", "title": "GUM_DFT covariance is positive semidefinite", "statement": "UF is symmetric positive semidefinite whenever Ux is.", "quantifier": "all lengths, all positive semidefinite Ux", "why_tests_cant": "Quantifies over all vectors and matrices.", "anchors": ["PyDynamic/uncertainty/propagate_DFT.py: GUM_DFT"]}
{"id": "C22", "title": "DFT round trip", "statement": "For a signal of even length GUM_iDFT(*GUM_DFT(x, Ux)) returns x and point-wise variances equal to the diagonal of Ux.", "quantifier": "all even lengths, all symmetric Ux; signals of odd length are not recovered", "why_tests_cant": "All lengths; exact identity of trigonometric sums.", "anchors": ["PyDynamic/uncertainty/propagate_DFT.py: GUM_DFT, GUM_iDFT"]}
{"id": "C23", "title": "GUM_iDFT propagates covariance", "statement": "Ux returned by GUM_iDFT is the covariance matrix of the inverse DFT of a random vector with covariance UF; in particular it is symmetric.", "quantifier": "all even N, all symmetric UF (1-D or 2-D)", "why_tests_cant": "Exactness for all sizes.", "anchors": ["PyDynamic/uncertainty/propagate_DFT.py: GUM_iDFT"]}
{"id": "C24", "title": "Real/imaginary to amplitude/phase", "statement": "DFT2AmpPhase returns A=|F|, P=arg F and the covariance J UF J^T where J is the Jacobian of (R,I) -> (A,P) at F; a variance vector gives the same as the corresponding diagonal matrix.", "quantifier": "all F without zero bins, all UF", "why_tests_cant": "Derivatives and matrix identity for all sizes.", "anchors": ["PyDynamic/uncertainty/propagate_DFT.py: DFT2AmpPhase"]}
{"id": "C25", "title": "Amplitude/phase to real/imaginary", "statement": "AmpPhase2DFT returns (A cos P, A sin P) and the covariance J UAP J^T with J the Jacobian of that map; variance vector, dense and sparse inputs of the same covariance give the same result.", "quantifier": "all A, P, UAP", "why_tests_cant": "All sizes and storage formats.", "anchors": ["PyDynamic/uncertainty/propagate_DFT.py: AmpPhase2DFT"]}
{"id": "C26", "title": "Amplitude/phase round trip", "statement": "DFT2AmpPhase(AmpPhase2DFT(A,P,UAP)) returns A, P and UAP for positive A and P in (-pi, pi]; and conversely AmpPhase2DFT(DFT2AmpPhase(F,UF)) returns F and UF for F without zero bins.", "quantifier": "all sizes, values, covariances", "why_tests_cant": "Exact inverse relation on all inputs.", "anchors": ["PyDynamic/uncertainty/propagate_DFT.py: DFT2AmpPhase, AmpPhase2DFT"]}
{"id": "C27", "title": "AmpPhase2Time is the composition", "statement": "AmpPhase2Time(A,P,UAP) returns the same estimate and the same point-wise variances as GUM_iDFT applied to AmpPhase2DFT(A,P,UAP).", "quantifier": "all even N, all A, P, UAP", "why_tests_cant": "All sizes.", "anchors": ["PyDynamic/uncertainty/propagate_DFT.py: AmpPhase2Time, AmpPhase2DFT, GUM_iDFT"]}
{"id": "C28", "title": "Deconvolution in the frequency domain", "statement": "DFT_deconv(H,Y,UH,UY) returns X with X*H=Y (complex, bin-wise) and the covariance J_Y UY J_Y^T + J_H UH J_H^T with the Jacobians of Y/H with respect to Y and H.", "quantifier": "all H without zero bins, all Y and covariances", "why_tests_cant": "All sizes and values; the Jacobian must be right at every point.", "anchors": ["PyDynamic/uncertainty/propagate_DFT.py: DFT_deconv, _matprod"]}
{"id": "C29", "title": "Multiplication in the frequency domain", "statement": "DFT_multiply(Y,F,UY,UF) returns the bin-wise complex product and the covariance J_Y UY J_Y^T + J_F UF J_F^T; it is symmetric in the two factors; the result covariance is of shape (2M,2M) for UY given as vector too.", "quantifier": "all Y, F, UY, UF", "why_tests_cant": "All sizes and storage forms.", "anchors": ["PyDynamic/uncertainty/propagate_DFT.py: DFT_multiply"]}
{"id": "C30", "title": "Deconvolution inverts multiplication", "statement": "Deconvolving DFT_multiply(X,H) by H returns X; multiplying DFT_deconv(H,Y) by H returns Y; with certain H the covariance is also recovered.", "quantifier": "all H without zero bins", "why_tests_cant": "Inverse relation on all inputs.", "anchors": ["PyDynamic/uncertainty/propagate_DFT.py: DFT_deconv, DFT_multiply"]}
{"id": "C31", "title": "Frequency-domain routines reject mismatched shapes", "statement": "AmpPhase2DFT, AmpPhase2Time, DFT_deconv, DFT_multiply and GUM_iDFT raise ValueError exactly for the documented mismatches of dimensions.", "quantifier": "all shapes", "why_tests_cant": "Ranges over all shapes.", "anchors": ["PyDynamic/uncertainty/propagate_DFT.py: AmpPhase2DFT, AmpPhase2Time, DFT_deconv, DFT_multiply, GUM_iDFT"]}
{"id": "C32", "title": "Batch transformation equals the single one", "statement": "Row m of Time2AmpPhase_multi equals the selected entries of Time2AmpPhase for signal m (amplitude, phase, and the three diagonals).", "quantifier": "all numbers of signals, lengths, selectors", "why_tests_cant": "Independence of rows for every batch.", "anchors": ["PyDynamic/uncertainty/propagate_DFT.py: Time2AmpPhase_multi, Time2AmpPhase"]}
{"id": "C33", "title": "Interpolation reproduces nodes", "statement": "At every original timestamp interp1d_unc returns the original value and the original uncertainty, for kinds linear, previous, next and nearest.", "quantifier": "all strictly increasing t of length >= 2, all y, uy >= 0", "why_tests_cant": "All node sets.", "anchors": ["PyDynamic/uncertainty/interpolate.py: interp1d_unc"]}
{"id": "C34", "title": "Linear interpolation sensitivities", "statement": "Inside the original range the rows of C are non-negative, sum to 1, satisfy C y = y_new, and uy_new^2 is the diagonal of C diag(uy^2) C^T, i.e. the variance of the interpolated value for uncorrelated data.", "quantifier": "all nodes, values, query points", "why_tests_cant": "All reals.", "anchors": ["PyDynamic/uncertainty/interpolate.py: interp1d_unc"]}
{"id": "C35", "title": "returnC does not change the result", "statement": "interp1d_unc with returnC=True returns the same values and uncertainties as with returnC=False whenever both succeed.", "quantifier": "all inputs", "why_tests_cant": "Two code paths on all inputs.", "anchors": ["PyDynamic/uncertainty/interpolate.py: interp1d_unc"]}
{"id": "C36", "title": "Interpolated uncertainty is bounded by neighbours", "statement": "Inside the range the linear interpolated uncertainty is at most the larger of the two neighbouring uncertainties (and at least their minimum divided by sqrt 2), and the interpolated value lies between the neighbouring values.", "quantifier": "all inputs", "why_tests_cant": "Inequality over all reals.", "anchors": ["PyDynamic/uncertainty/interpolate.py: interp1d_unc"]}
{"id": "C37", "title": "Look-up interpolation kinds", "statement": "previous returns value and uncertainty at the last node <= t, next at the first node >= t, nearest at a node at minimal distance (midpoints go to the earlier node); value and uncertainty come from the same node.", "quantifier": "all strictly increasing nodes and query points in range", "why_tests_cant": "All reals; ties.", "anchors": ["PyDynamic/uncertainty/interpolate.py: interp1d_unc"]}
{"id": "C38", "title": "Extrapolation", "statement": "With bounds_error=False (or None, as documented: an error is raised unless fill_value='extrapolate') and fill_value=fill_unc='extrapolate', every query point outside the range gets value and uncertainty of the nearest end node, and with returnC the matching unit row; with bounds_error=True a ValueError is raised exactly if some query point is out of range.", "quantifier": "all inputs", "why_tests_cant": "All query sets.", "anchors": ["PyDynamic/uncertainty/interpolate.py: interp1d_unc"]}
{"id": "C39", "title": "Interpolation does not depend on the order of the data", "statement": "With assume_sorted=False permuting the triples (t,y,uy) does not change the result if the t are distinct; permuting t_new permutes the result.", "quantifier": "all permutations of all inputs", "why_tests_cant": "n! orders for every n.", "anchors": ["PyDynamic/uncertainty/interpolate.py: interp1d_unc"]}
{"id": "C40", "title": "Interpolation rejects exactly the unsupported requests", "statement": "interp1d_unc raises ValueError if y and uy differ in length, NotImplementedError for unknown kinds, for returnC with look-up kinds, and for returnC with bounds_error=False unless fill_unc='extrapolate'.", "quantifier": "all argument combinations", "why_tests_cant": "All strings and flags.", "anchors": ["PyDynamic/uncertainty/interpolate.py: interp1d_unc"]}
{"id": "C41", "title": "make_equidistant grid", "statement": "make_equidistant returns the timestamps min t + k dt, all in [min t, max t), as many as fit (the next one would reach max t), with the interpolated values and uncertainties at them; this succeeds for every strictly increasing t with at least two nodes and dt > 0.", "quantifier": "all t, y, uy, dt > 0", "why_tests_cant": "Grid size depends on real quotients.", "anchors": ["PyDynamic/uncertainty/interpolate.py: make_equidistant"]}
{"id": "C42", "title": "UMC_generic mean", "statement": "The y returned by UMC_generic is the arithmetic mean of all results evaluated in the main loop.", "quantifier": "all functions draw_samples/evaluate, all runs, block sizes, random histories", "why_tests_cant": "Induction over arbitrarily many blocks.", "anchors": ["PyDynamic/uncertainty/propagate_MonteCarlo.py: UMC_generic"]}
{"id": "C43", "title": "UMC_generic covariance", "statement": "The Uy returned by UMC_generic is the sample covariance (divisor n-1) of all results evaluated in the main loop.", "quantifier": "all functions, runs, block sizes, histories", "why_tests_cant": "Induction over blocks; tests use loose tolerances on random data.", "anchors": ["PyDynamic/uncertainty/propagate_MonteCarlo.py: UMC_generic"]}
{"id": "C44", "title": "UMC_generic does not depend on worker scheduling", "statement": "For every order in which the worker pool delivers the results of a block, y, Uy and the histogram are the same as for sequential evaluation; with return_samples each result row belongs to the sample row of the same index.", "quantifier": "all schedules of all blocks", "why_tests_cant": "All permutations of all blocks: a schedule property.", "anchors": ["PyDynamic/uncertainty/propagate_MonteCarlo.py: UMC_generic"]}
{"id": "C45", "title": "UMC_generic performs the requested number of runs", "statement": "UMC_generic evaluates exactly `runs` samples in its main loop for every runs and blocksize, and return_samples works for every runs.", "quantifier": "all runs and block sizes", "why_tests_cant": "Divisibility cases for all sizes.", "anchors": ["PyDynamic/uncertainty/propagate_MonteCarlo.py: UMC_generic"]}
{"id": "C46", "title": "UMC_generic histogram", "statement": "For every requested nbins and output component the bin counts are non-negative, their sum is the number of evaluated results that lie in the initial range, never more than the number of results; edges are nondecreasing; after post-processing the edges cover all results.", "quantifier": "all histories", "why_tests_cant": "Invariant over arbitrarily many blocks.", "anchors": ["PyDynamic/uncertainty/propagate_MonteCarlo.py: UMC_generic"]}
{"id": "C47", "title": "MC ignores unstable filters in mean and covariance", "statement": "If at least two drawn filters are stable, MC returns mean and covariance of exactly those runs whose drawn filter is stable, every stable run being the filter response (low-pass first) moved circularly by shift; with return_samples the unstable rows are zero.", "quantifier": "all draws (random histories), filters, signals, shifts", "why_tests_cant": "All random histories.", "anchors": ["PyDynamic/uncertainty/propagate_MonteCarlo.py: MC"]}
{"id": "C48", "title": "SMC returns a result", "statement": "SMC(x, noise_std, b, a, ...) returns the Monte Carlo mean and standard deviations for every non-empty signal.", "quantifier": "all signals and filters", "why_tests_cant": "Totality over all inputs.", "anchors": ["PyDynamic/uncertainty/propagate_MonteCarlo.py: SMC"]}
{"id": "C49", "title": "SMC state-space core equals direct filtering", "statement": "For each run the state recursion used by SMC produces the same output as lfilter(b, a, .) for every input sequence with len(b) >= len(a).", "quantifier": "all filters with len(b) >= len(a) and a[0] = 1, all input sequences", "why_tests_cant": "Induction over time.", "anchors": ["PyDynamic/uncertainty/propagate_MonteCarlo.py: SMC"]}
{"id": "C50", "title": "UMC model evaluation", "statement": "One UMC evaluation equals the response of the drawn IIR filter to the low-pass filtered sum of x and the ARMA noise, plus a term bounded by Delta; with Delta=0 and sigma=0 it is the plain filter response.", "quantifier": "all draws and inputs", "why_tests_cant": "All random histories.", "anchors": ["PyDynamic/uncertainty/propagate_MonteCarlo.py: _UMCevaluate, UMC"]}
{"id": "C51", "title": "Uncorrelated normal draws are well-shaped", "statement": "Normal_ZeroCorr extends a scalar or length-1 loc or scale to the size of the other and raises ValueError exactly when both have different sizes none of which is 1; rvs adds a multiple of scale to loc in each component.", "quantifier": "all loc, scale (arrays of at least one element)", "why_tests_cant": "All shapes.", "anchors": ["PyDynamic/uncertainty/propagate_MonteCarlo.py: Normal_ZeroCorr"]}
{"id": "C52", "title": "Coloured noise has the requested mean and standard deviation", "statement": "power_law_noise returns a signal whose sample mean is exactly `mean` and whose sample standard deviation is exactly |std| whenever the shaped noise is not constant; giving both N and w raises.", "quantifier": "all white noise inputs w, all colours, all lengths", "why_tests_cant": "All random histories and lengths.", "anchors": ["PyDynamic/misc/noise.py: power_law_noise, get_alpha"]}
{"id": "C53", "title": "Noise colour table", "statement": "get_alpha maps the six colour names to their exponents, passes numbers through, raises NotImplementedError for every other string and IOError for other types.", "quantifier": "all strings and numbers", "why_tests_cant": "All strings.", "anchors": ["PyDynamic/misc/noise.py: get_alpha"]}
{"id": "C54", "title": "Autocovariance of coloured noise", "statement": "power_law_acf returns N values, the zero-lag value is std^2, all other values are at most std^2 in modulus, and for white noise all other lags are 0.", "quantifier": "all N >= 2, colours, std", "why_tests_cant": "All lengths.", "anchors": ["PyDynamic/misc/noise.py: power_law_acf"]}
{"id": "C55", "title": "ARMA recursion", "statement": "ARMA returns e with e[n] = sum_{j=1}^{min(p,n)} phi_j e[n-j] + sum_{j=1}^{min(q,n)} theta_j w[n-j] + w[n].", "quantifier": "all orders, coefficients, noise draws, lengths", "why_tests_cant": "Recursion of unbounded length, all orders.", "anchors": ["PyDynamic/misc/noise.py: ARMA"]}
{"id": "C56", "title": "shift_uncertainty is a consistent relabelling", "statement": "shift_uncertainty moves estimate and uncertainty by the same circular shift: entry (i,j) of the returned covariance is the covariance of the elements now at i and j; shifting by -s undoes shifting by s; shifts add; symmetry and positive semidefiniteness are kept; wrong shapes or types raise.", "quantifier": "all sizes, all integer shifts (also larger than the length and negative)", "why_tests_cant": "All shifts and sizes.", "anchors": ["PyDynamic/misc/tools.py: shift_uncertainty"]}
{"id": "C57", "title": "trimOrPad", "statement": "trimOrPad returns an array of exactly the requested length that agrees with the input on the common prefix and is zero afterwards.", "quantifier": "all arrays and lengths >= 0", "why_tests_cant": "All lengths.", "anchors": ["PyDynamic/misc/tools.py: trimOrPad"]}
{"id": "C58", "title": "make_semiposdef", "statement": "make_semiposdef terminates for tol > 0 and returns a symmetric matrix whose eigenvalues are all >= tol (in particular positive semidefinite), that differs from the symmetric part of the input by a non-negative multiple of the identity, and that is unchanged if the symmetric part is already above tol; non-square input raises ValueError.", "quantifier": "all square matrices, all tol > 0, all maxiter >= 1, dense and sparse", "why_tests_cant": "Termination and all matrices.", "anchors": ["PyDynamic/misc/tools.py: make_semiposdef"]}
{"id": "C59", "title": "Progress bar width", "statement": "progress_bar writes a bar of exactly `width` cells for every 0 <= count < count_max, the filled part being monotone in count and complete at the last step.", "quantifier": "all counts and widths", "why_tests_cant": "All integers.", "anchors": ["PyDynamic/misc/tools.py: progress_bar"]}
{"id": "C60", "title": "Group delay", "statement": "grpdelay(b,a) is the group delay of b minus the group delay of a at every bin without zero or pole on it; a pure delay of d samples gives d, and every symmetric FIR filter of length L gives (L-1)/2.", "quantifier": "all coefficient vectors and FFT sizes", "why_tests_cant": "All coefficients.", "anchors": ["PyDynamic/misc/filterstuff.py: grpdelay"]}
{"id": "C61", "title": "mapinside stabilises a polynomial", "statement": "All roots of mapinside(a) lie in the closed unit disc; on the unit circle its modulus is a constant multiple of that of a; a polynomial that is already stable keeps its roots.", "quantifier": "all polynomials with non-zero leading and constant coefficient", "why_tests_cant": "All root configurations.", "anchors": ["PyDynamic/misc/filterstuff.py: mapinside"]}
{"id": "C62", "title": "isstable", "statement": "For digital filters isstable returns True iff no root of the denominator lies outside the unit circle; for analog filters True iff no root has positive real part; any other type raises ValueError.", "quantifier": "all denominators, all ftype strings", "why_tests_cant": "All root configurations and strings.", "anchors": ["PyDynamic/misc/filterstuff.py: isstable"]}
{"id": "C63", "title": "Savitzky-Golay reproduces polynomials", "statement": "savitzky_golay returns an array of the input's length and leaves every polynomial of degree <= order unchanged at interior points; it raises TypeError for even or too small windows.", "quantifier": "all odd windows, orders, polynomials, lengths", "why_tests_cant": "All polynomials and sizes.", "anchors": ["PyDynamic/misc/filterstuff.py: savitzky_golay"]}
{"id": "C64", "title": "Second-order system frequency response", "statement": "sos_FreqResp(S,d,f0,f) equals b/(a0 s^2+a1 s+a2) at s = 2 pi j f with (b,a)=sos_phys2filter(S,d,f0); vector parameters give column k equal to the scalar call with the k-th parameters; the static gain is S.", "quantifier": "all parameters and frequencies", "why_tests_cant": "All reals.", "anchors": ["PyDynamic/misc/SecondOrderSystem.py: sos_FreqResp, sos_phys2filter"]}
{"id": "C65", "title": "fit_som recovers an exact second-order system", "statement": "fit_som applied to the exact response of a second-order system with S, f0 > 0 returns exactly [S, d, f0] for every set of frequencies with full-rank design, every positive weighting and every scaling.", "quantifier": "all parameters with S, f0 > 0 and no undamped resonance at a given frequency, frequency sets with two different magnitudes, weights, scalings", "why_tests_cant": "All parameters.", "anchors": ["PyDynamic/model_estimation/fit_transfer.py: fit_som", "PyDynamic/misc/SecondOrderSystem.py: sos_FreqResp"]}
{"id": "C66", "title": "fit_som linear uncertainty propagation", "statement": "Without Monte Carlo, the covariance returned by fit_som is C Umu C^T where C is the Jacobian of mu -> [S0, delta, f0].", "quantifier": "all mu with mu0, mu2 of equal sign", "why_tests_cant": "Derivative at every point.", "anchors": ["PyDynamic/model_estimation/fit_transfer.py: fit_som"]}
{"id": "C67", "title": "IIR fit recovers an exact filter", "statement": "If the frequency response is exactly that of an IIR filter of the requested orders (with a delay tau), the equation-error fit behind LSIIR/invLSIIR returns its coefficients whenever the normal matrix is regular.", "quantifier": "all filters, frequency sets", "why_tests_cant": "All filters.", "anchors": ["PyDynamic/model_estimation/fit_filter.py: _fitIIR, LSIIR, invLSIIR"]}
{"id": "C68", "title": "LSIIR/invLSIIR terminate", "statement": "The stabilisation loops perform at most 49 refits for every input and stop as soon as the filter is stable; if the first fit is stable the result is that fit with the given delay.", "quantifier": "all behaviours of the fit, root finder and group delay", "why_tests_cant": "All histories of the loop.", "anchors": ["PyDynamic/model_estimation/fit_filter.py: LSIIR, invLSIIR"]}
{"id": "C69", "title": "FIR fits", "statement": "LSFIR returns the least-squares FIR filter for the given response; invLSFIR for its reciprocal: if the (reciprocal) response with delay tau is exactly that of an FIR filter of order N and the design has full rank, those coefficients are returned (also with weights).", "quantifier": "all responses, orders, frequency sets, weights", "why_tests_cant": "All filters.", "anchors": ["PyDynamic/model_estimation/fit_filter.py: LSFIR, invLSFIR"]}
{"id": "C70", "title": "invLSFIR_unc weights and propagated quantity", "statement": "invLSFIR_unc accepts an array of 2M weights, and the covariance of the coefficients is that of the coefficients fitted to the reciprocal response.", "quantifier": "all inputs", "why_tests_cant": "All inputs.", "anchors": ["PyDynamic/model_estimation/fit_filter.py: invLSFIR_unc"]}
{"id": "C71", "title": "Signal construction", "statement": "A constructed Signal has values, time and uncertainty of one common length, knows both Ts and Fs with Ts*Fs = 1 for every way of giving Ts or Fs, and rejects inconsistent lengths.", "quantifier": "all constructor arguments", "why_tests_cant": "All argument combinations.", "anchors": ["PyDynamic/signals.py: Signal.__init__"]}
{"id": "C72", "title": "Signal.apply_filter", "statement": "Signal.apply_filter replaces the values by the filtered values and the uncertainty by the propagated one (standard uncertainties read as such) for FIR and IIR filters, with and without Monte Carlo.", "quantifier": "all signals, filters, argument combinations", "why_tests_cant": "All states and arguments.", "anchors": ["PyDynamic/signals.py: Signal.apply_filter", "PyDynamic/uncertainty/propagate_filter.py: FIRuncFilter"]}
{"id": "C73", "title": "Impulse invariance", "statement": "impinvar maps H(s) with simple poles to a filter whose impulse response is ts times the sampled impulse response of H; impinvar_causal additionally makes the first sample 0 and keeps the others; repeated poles are handled.", "quantifier": "all pole/residue sets, sampling rates", "why_tests_cant": "All systems.", "anchors": ["PyDynamic/misc/impinvar.py: impinvar, z_res, to_real, impinvar_causal"]}
{"id": "C74", "title": "Rectangular and square pulse test signals", "statement": "rect(time,t0,t1,height) is height exactly for t0 < t <= t1 and 0 elsewhere; squarepulse is height on numpulse disjoint pulses inside the time range and 0 elsewhere; noise arrays are added or rejected by size.", "quantifier": "all time vectors (any start), parameters", "why_tests_cant": "All reals.", "anchors": ["PyDynamic/misc/testsignals.py: rect, squarepulse"]}
{"id": "C75", "title": "Periodic and Gaussian test signals", "statement": "sine(time, amp, freq) has frequency freq (period 1/freq) and is bounded by |amp|; GaussianPulse attains m0 at t0 as maximum; shocklikeGaussian attains the signal maximum m0.", "quantifier": "all parameters and times", "why_tests_cant": "All reals.", "anchors": ["PyDynamic/misc/testsignals.py: sine, multi_sine, GaussianPulse, shocklikeGaussian"]}
{"id": "C76", "title": "Correlated noise covariance", "statement": "corr_noise.calc_cov returns the covariance matrix of the noise process generated by calc_noise for the same w and sigma.", "quantifier": "all w, sigma, lengths", "why_tests_cant": "Identity for all w.", "anchors": ["PyDynamic/misc/testsignals.py: corr_noise.calc_noise, corr_noise.calc_cov"]}
{"id": "C77", "title": "White noise stays white", "statement": "For a signal of even length with equal uncorrelated variances u the covariance returned by GUM_DFT for the full matrix u*I is diagonal and equals the diagonal matrix of the variances returned for the float u; transforming back with GUM_iDFT returns exactly the signal and u*I.", "quantifier": "all signals of even length >= 2, all u", "why_tests_cant": "Orthogonality of all rows for every length.", "anchors": ["PyDynamic/uncertainty/propagate_DFT.py: GUM_DFT, GUM_iDFT"]}
{"id": "C78", "title": "Autocovariance of coloured noise gives a covariance matrix", "statement": "The symmetric Toeplitz matrix built from the values returned by power_law_acf is positive semidefinite, so it can be used as covariance of N consecutive samples.", "quantifier": "all N >= 2, all exponents, all std, all test vectors", "why_tests_cant": "Positive semidefiniteness for all lengths and real exponents.", "anchors": ["PyDynamic/misc/noise.py: power_law_acf"]}
{"id": "C79", "title": "FreqResp2RealImag", "statement": "FreqResp2RealImag returns for every frequency the mean of the drawn real and imaginary parts, together with their 2N x 2N sample covariance, which is symmetric and positive semidefinite; inconsistent lengths raise ValueError.", "quantifier": "all numbers of frequencies and runs, all draws, covariance given as vector or matrix", "why_tests_cant": "All sizes and random draws.", "anchors": ["PyDynamic/misc/tools.py: FreqResp2RealImag"]}
{"id": "C80", "title": "Printed matrices", "statement": "print_mat prints one line per row with the entries in order; vertical=True prints the transposed matrix.", "quantifier": "all matrices, all number formats", "why_tests_cant": "All sizes.", "anchors": ["PyDynamic/misc/tools.py: print_vec, print_mat"]}
{"id": "C81", "title": "Delay of the Kaiser low-pass", "statement": "kaiser_lowpass returns a filter together with its delay in samples: for every odd length L the returned shift is (L-1)/2, the group delay of the symmetric window design at every frequency where its response does not vanish.", "quantifier": "all lengths, cut-off frequencies, sampling frequencies and window parameters", "why_tests_cant": "All lengths and frequencies.", "anchors": ["PyDynamic/misc/filterstuff.py: kaiser_lowpass"]}
{"id": "C82", "title": "Unwrapped phase", "statement": "ua(vals) returns phase angles of the values, up to multiples of 2 pi, with consecutive differences of at most pi and the first one in (-pi, pi].", "quantifier": "all complex vectors", "why_tests_cant": "All vectors.", "anchors": ["PyDynamic/misc/filterstuff.py: ua"]}
{"id": "C83", "title": "Decibels", "statement": "db(vals) is 20 log10 of the modulus: a product of values gives the sum of their dB values.", "quantifier": "all non-zero complex values", "why_tests_cant": "All values.", "anchors": ["PyDynamic/misc/filterstuff.py: db"]}
{"id": "C84", "title": "UMC credible intervals for each number of bins", "statement": "UMC(..., nbins=[n1, n2, ...]) returns in row m of p025 and p975 the credible limits computed from the histogram with n_m bins.", "quantifier": "all lists nbins, all results of the runs", "why_tests_cant": "All lists and histories; the tests only look at shapes.", "anchors": ["PyDynamic/uncertainty/propagate_MonteCarlo.py: UMC"]}
{"id": "C85", "title": "Credible limits of UMC are quantiles of the histogram", "statement": "The limits that UMC interpolates from the cumulated bin counts are the (1-ci)/2 and (1+ci)/2 quantiles of the distribution that spreads the counts evenly over the bins; they lie between the outer edges and the lower limit is not above the upper one.", "quantifier": "all histograms with at least one count, 0 < ci < 1, both conventions of interp1d on flat parts", "why_tests_cant": "All histograms, including empty bins.", "anchors": ["PyDynamic/uncertainty/propagate_MonteCarlo.py: UMC"]}
{"id": "C86", "title": "Monte Carlo for the second-order response", "statement": "sos_realimag (sos_absphase) returns the means over the runs of real and imaginary parts (amplitudes and phases) of the responses for the drawn parameters, and their joint sample covariance ordered [first part, second part].", "quantifier": "all parameters, uncertainties, frequencies, numbers of runs, draws", "why_tests_cant": "All draws and all sizes.", "anchors": ["PyDynamic/misc/SecondOrderSystem.py: sos_realimag, sos_absphase"]}
{"id": "C87", "title": "fit_som with Monte Carlo", "statement": "fit_som with MCruns=n returns mean and sample covariance of the parameters fitted to each of the n drawn responses; if every drawn response is an exact second-order response these are mean and covariance of their parameters; scaling has no influence on the result.", "quantifier": "all inputs with regular weighted design, all draws, all scalings", "why_tests_cant": "All draws.", "anchors": ["PyDynamic/model_estimation/fit_transfer.py: fit_som"]}
{"id": "C88", "title": "Delay returned with an IIR fit", "statement": "The delay returned by LSIIR/invLSIIR is the delay for which the returned filter is the least-squares fit to the (reciprocal) response, for every initial delay and also with justFit=True.", "quantifier": "all responses, orders, frequency sets, initial delays", "why_tests_cant": "All histories of the stabilisation loop and all delays.", "anchors": ["PyDynamic/model_estimation/fit_filter.py: LSIIR, invLSIIR"]}
{"id": "C89", "title": "invLSFIR_uncMC", "statement": "invLSFIR_uncMC returns mean and sample covariance of the FIR filters that invLSFIR (same N, tau, f, Fs) returns for each of the drawn responses.", "quantifier": "all inputs of matching size, all draws without zeros", "why_tests_cant": "All draws.", "anchors": ["PyDynamic/model_estimation/fit_filter.py: invLSFIR_uncMC, invLSFIR"]}
{"id": "C90", "title": "invLSIIR_unc", "statement": "invLSIIR_unc returns the means of the filters and delays found by invLSIIR for each of the drawn responses, with a[0] = 1, and the sample covariance of the coefficients in the documented order [a[1:], b].", "quantifier": "all inputs of matching size, all draws without zeros", "why_tests_cant": "All draws and orders.", "anchors": ["PyDynamic/model_estimation/fit_filter.py: invLSIIR_unc, invLSIIR"]}
{"id": "C91", "title": "Signal labels", "statement": "Signal.set_labels sets the labels that are given and leaves the others, and the data, unchanged.", "quantifier": "all signals, all combinations of labels", "why_tests_cant": "All states.", "anchors": ["PyDynamic/signals.py: Signal.set_labels"]}
{"id": "C92", "title": "Signal invariant", "statement": "Whatever sequence of set_labels and apply_filter calls (successful or raising) a Signal constructed with uncertainty of matching size goes through, its time axis, Ts and Fs stay the same, it has one value per time and an uncertainty of matching size.", "quantifier": "all consistent constructor arguments, all finite sequences of operations, all random numbers", "why_tests_cant": "Unbounded sequences of operations.", "anchors": ["PyDynamic/signals.py: Signal"]}
{"id": "C93", "title": "Helpers of impulse invariance", "statement": "prepad(v, n, c) returns n values ending with the last values of v, filled up with c in front; h1_deriv(n) returns the coefficients of z^n (d/dz)^n z/(z-p) in powers of p/(z-p).", "quantifier": "all vectors, lengths, n>0, complex p and z", "why_tests_cant": "All n, p and z.", "anchors": ["PyDynamic/misc/impinvar.py: prepad, h1_deriv"]}
{"id": "C94", "title": "Autocorrelation of generated noise", "statement": "corr_noise.calc_autocorr(lag) returns lag values (at least one), the first is 1, the value at lag k is the sample correlation coefficient of noise[:-k] and noise[k:], and all are within [-1, 1].", "quantifier": "all noise vectors that are not constant, all lags smaller than the length minus one", "why_tests_cant": "All noise vectors.", "anchors": ["PyDynamic/misc/testsignals.py: corr_noise.calc_autocorr"]}
{"id": "C95", "title": "Reuse of sensitivity matrices in GUM_DFT and GUM_iDFT", "statement": "The sensitivities CxCos, CxSin returned by GUM_DFT(..., returnC=True) can be passed to further calls of GUM_DFT with signals of the same length and the same N, window and mask, and Cc, Cs returned by GUM_iDFT to further calls of GUM_iDFT with arguments of the same size (both or only one of them): the result, including exceptions, is that of a call without them.", "quantifier": "all signals and spectra, all covariances, all N, windows and masks", "why_tests_cant": "All arguments of both calls.", "anchors": ["PyDynamic/uncertainty/propagate_DFT.py: GUM_DFT, GUM_iDFT"]}
{"id": "C96", "title": "Frequencies of the DFT bins", "statement": "GUM_DFTfreq(N, dt) returns N//2+1 increasing frequencies k/(N dt) from 0 up to at most the Nyquist frequency (reached for even N only), and they are those of the bins of GUM_DFT: an oscillation of frequency f[k] sampled with step dt has bin k equal to N/2 (a - i b) and zero in all other bins.", "quantifier": "all N >= 1, dt > 0, all 0 < k < N/2, all amplitudes", "why_tests_cant": "All N, k and amplitudes.", "anchors": ["PyDynamic/uncertainty/propagate_DFT.py: GUM_DFTfreq, GUM_DFT"]}
{"id": "C97", "title": "Transfer function from input and output spectra", "statement": "DFT_transferfunction(X, Y, UX, UY) and GUMdeconv are DFT_deconv; the returned H satisfies H X = Y in every bin, DFT_multiply(X, H) returns Y and DFT_deconv(H, Y) returns X.", "quantifier": "all spectra without zero bins, all covariances", "why_tests_cant": "All spectra.", "anchors": ["PyDynamic/uncertainty/propagate_DFT.py: DFT_transferfunction, GUMdeconv, DFT_multiply, DFT_deconv"]}
{"id": "C98", "title": "Convolution theorem with uncertainties", "statement": "DFT_multiply of the GUM_DFT of two independent signals is the GUM_DFT of their circular convolution, with the linearly propagated covariance; GUM_iDFT of it is the circular convolution in the time domain; after zero padding to at least len(x)+len(g)-1 it agrees with convolve_unc(mode='full') up to the second-order term of the covariance.", "quantifier": "all signals, all symmetric covariances (time domain: even transform length)", "why_tests_cant": "All signals, lengths and covariances.", "anchors": ["PyDynamic/uncertainty/propagate_DFT.py: GUM_DFT, GUM_iDFT, DFT_multiply", "PyDynamic/uncertainty/propagate_convolution.py: convolve_unc"]}
{"id": "C99", "title": "Amplitude and phase of time series", "statement": "Time2AmpPhase returns modulus and argument of the DFT with the covariance of GUM_DFT propagated by the Jacobian of (modulus, argument); AmpPhase2Time after Time2AmpPhase returns the signal and its variances.", "quantifier": "all signals with spectra without zero bins, all symmetric covariances (round trip: even length)", "why_tests_cant": "All signals.", "anchors": ["PyDynamic/uncertainty/propagate_DFT.py: Time2AmpPhase, AmpPhase2Time"]}
{"id": "C100", "title": "Parseval's identity for estimates and variances of GUM_DFT", "statement": "With weight 1 for the bins at frequency 0 and the Nyquist frequency and weight 2 for the others, the weighted sum of squared moduli of GUM_DFT is N times the sum of squares of the signal, and the weighted sum of variances of real and imaginary parts is N times the sum of variances of the signal.", "quantifier": "all signals of any length, all symmetric covariances", "why_tests_cant": "All signals.", "anchors": ["PyDynamic/uncertainty/propagate_DFT.py: GUM_DFT"]}
{"id": "C101", "title": "calc_psd is a power spectral density", "statement": "corr_noise.calc_psd returns frequencies k Fs/N with a non-negative density that vanishes at frequency 0 and whose sum times the frequency step is the mean square deviation of the noise from its mean. For white noise of variance s^2 the expected density is 2 s^2/Fs at all inner frequencies and half of it at the Nyquist frequency. Without argument the noise last generated by the object is used.", "quantifier": "all noise vectors of any length, all sampling frequencies, all white noises", "why_tests_cant": "All vectors, and an expectation over a probability space.", "anchors": ["PyDynamic/misc/testsignals.py: corr_noise.calc_psd"]}
{"id": "C102", "title": "UMC as a whole", "statement": "Each run of UMC is the response of the filter with the drawn coefficients to the low-pass filtered input with the drawn noise; y is the mean of all runs and the first row of the credible limits consists of quantiles of the histogram of the runs. Without any uncertainty y is the plain filter response with zero covariance and credible intervals of zero length. Rescaling the low-pass filter changes nothing. A covariance of the wrong shape raises ValueError, an empty alow IndexError.", "quantifier": "all signals, filters, random draws, block sizes and orders of delivery of the parallel processes", "why_tests_cant": "All draws, all schedules of the process pool.", "anchors": ["PyDynamic/uncertainty/propagate_MonteCarlo.py: UMC"]}
{"id": "C103", "title": "MC is unbiased", "statement": "For a stable filter with certain coefficients the expectation of the estimate of MC is the filter response to the estimate of the input, and the expectation of its covariance is the exact covariance of the response, for any number of runs of at least 2.", "quantifier": "all signals, stable filters, low-pass filters, shifts, and all random inputs with the given mean and covariance that are uncorrelated between runs", "why_tests_cant": "Expectation over a probability space.", "anchors": ["PyDynamic/uncertainty/propagate_MonteCarlo.py: MC"]}
{"id": "C104", "title": "UMC_generic is unbiased", "statement": "For runs that are uncorrelated with common mean and covariance the expectations of y and Uy of UMC_generic are this mean and covariance.", "quantifier": "all models, block sizes, numbers of runs, orders of delivery", "why_tests_cant": "Expectation over a probability space.", "anchors": ["PyDynamic/uncertainty/propagate_MonteCarlo.py: UMC_generic"]}
{"id": "C105", "title": "FIRuncFilter agrees with convolve_unc once its memory is filled", "statement": "For a record of N samples and L <= N coefficients, FIRuncFilter and convolve_unc in mode 'valid' give the same result from sample L-1 on: the N-L+1 values and the whole covariance matrix of convolve_unc are the values and the covariance block of FIRuncFilter from index L-1, when both are given the same noise covariance (float, point-wise, autocovariance or matrix) and the same coefficient covariance.", "quantifier": "all records, filters of 2 <= L <= N coefficients, all kinds of noise and coefficient covariances (symmetric)", "why_tests_cant": "Tests compare the two functions, if at all, on a few random arrays with a tolerance; the equality has to hold for every length, kind of noise and entry of the covariance.", "anchors": ["PyDynamic/uncertainty/propagate_filter.py:FIRuncFilter", "PyDynamic/uncertainty/propagate_convolution.py:convolve_unc"]}
{"id": "C106", "title": "FIRuncFilter can be applied to the beginning of a record", "statement": "Filtering the first n samples gives the first n values of the result for the whole record, whatever the uncertainties. The covariances among the first n values are the same too for values past the transient, and for all values when the first sample is not correlated with the samples n..n+L-2 (white or point-wise noise); otherwise correlations with later samples change the transient.", "quantifier": "all records, n, filters and uncertainties", "why_tests_cant": "Causality concerns all later samples; a test fixes one continuation.", "anchors": ["PyDynamic/uncertainty/propagate_filter.py:FIRuncFilter"]}
{"id": "C107", "title": "FIRuncFilter is time invariant for stationary noise", "statement": "When d samples equal to the first value are put in front of the record and the noise is stationary (float, or an autocovariance of at most N lags), estimate and covariance are delayed by d samples and otherwise unchanged; during the first d samples the estimate is the first value times the sum of the coefficients.", "quantifier": "all records, delays d, filters, coefficient covariances, stationary noises", "why_tests_cant": "Needs all delays and all entries of the covariance, including the transient whose past is invented by the function.", "anchors": ["PyDynamic/uncertainty/propagate_filter.py:FIRuncFilter"]}
{"id": "C108", "title": "FIRuncFilter obeys superposition and changes of units", "statement": "The estimate for a*y1 + b*y2 is a*x1 + b*x2. Multiplying the signal by a (noise covariance by a^2) and the coefficients by b (their covariance by b^2) multiplies the estimate by a*b, the covariance by (a*b)^2 and standard uncertainties by |a*b|. For coefficients without uncertainty, the propagated uncertainty does not depend on the signal values.", "quantifier": "all records, filters, accepted uncertainties and real factors (also negative or 0)", "why_tests_cant": "Holds for all factors and all accepted combinations of arguments, fast path and covariance path.", "anchors": ["PyDynamic/uncertainty/propagate_filter.py:FIRuncFilter"]}
{"id": "C109", "title": "GUM_DFT obeys delay, offset and superposition, and marks redundant entries", "statement": "A circular delay by d samples multiplies bin k of GUM_DFT by exp(-2 pi i k d/N) and rotates the covariance accordingly. Adding a constant c to the signal adds N*c to the real part of bin 0 and changes no other value and no covariance. The spectrum of a*x+b*y is a*F(x)+b*F(y). The imaginary part of bin 0 (and of the last bin for even N) is exactly 0 with a zero row and column in the covariance.", "quantifier": "all signals, symmetric covariances, delays, constants", "why_tests_cant": "Identities over all lengths, delays and covariance entries; tests check one FFT at a tolerance.", "anchors": ["PyDynamic/uncertainty/propagate_DFT.py:GUM_DFT"]}
{"id": "C110", "title": "interp1d_unc does not depend on units and origins", "statement": "Replacing all timestamps by c*t+d with c>0 leaves the outcome of interp1d_unc (values, uncertainties, sensitivities or exception) exactly the same, for every kind and option. Replacing values by a*y+b and uncertainties by |a|*uy turns every interpolated value v into a*v+b and its uncertainty u into |a|*u and leaves the sensitivities unchanged.", "quantifier": "all timestamps, values, uncertainties, kinds, options, factors c>0, a, offsets b, d", "why_tests_cant": "Invariance under a continuous group of transformations, for all options and also for exceptions.", "anchors": ["PyDynamic/uncertainty/interpolate.py:interp1d_unc"]}
{"id": "C111", "title": "make_equidistant keeps data that are already equidistant", "statement": "For data equidistant with step dt, make_equidistant(t, y, uy, dt, kind) returns the samples unchanged, except for the last one, which is left out.", "quantifier": "all records of at least two samples, supported kinds, nonnegative uncertainties, dt>0", "why_tests_cant": "Depends on how arange, the comparison with the maximum and the interpolation at nodes work together for every length.", "anchors": ["PyDynamic/uncertainty/interpolate.py:make_equidistant"]}
{"id": "C112", "title": "convolve_unc is equivariant under changes of units", "statement": "Multiplying the two signals by c and d and their covariance matrices by c\u00b2 and d\u00b2 multiplies the result of convolve_unc by c\u00b7d and its covariance by (c\u00b7d)\u00b2, in every mode.", "quantifier": "all signals of at least two elements, symmetric covariances or None, all six modes, all factors", "why_tests_cant": "A statement over all factors, sizes and modes; floating point tests sample a few.", "anchors": ["PyDynamic/uncertainty/propagate_convolution.py: convolve_unc"]}
{"id": "C113", "title": "convolve_unc obeys superposition with independent errors", "statement": "If one of the signals is exact, convolving the sum of two signals with independent errors (their covariance matrices add) gives the sum of the two results, with the sum of the covariances; for either argument and every mode.", "quantifier": "all signals, covariances, modes", "why_tests_cant": "Linear laws quantify over all pairs of inputs.", "anchors": ["PyDynamic/uncertainty/propagate_convolution.py: convolve_unc"]}
{"id": "C114", "title": "convolve_unc returns a valid covariance matrix in every mode", "statement": "For positive semidefinite covariance matrices of the signals, the matrix returned by convolve_unc is symmetric and positive semidefinite, also in the modes that repeat or mirror boundary elements.", "quantifier": "all signals, PSD covariances, modes", "why_tests_cant": "Semidefiniteness for all inputs cannot be sampled.", "anchors": ["PyDynamic/uncertainty/propagate_convolution.py: convolve_unc"]}
{"id": "C115", "title": "Neutral kernels of convolve_unc", "statement": "In mode full an exact unit impulse at position d delays signal and covariance by d; in the length-keeping modes the impulse in the middle leaves both unchanged; in the modes nearest, reflect and mirror a constant is multiplied by the sum of the kernel without boundary effects.", "quantifier": "all signals, kernel lengths, positions and modes", "why_tests_cant": "The alignment has to be right for every kernel length, odd and even, and every mode.", "anchors": ["PyDynamic/uncertainty/propagate_convolution.py: convolve_unc"]}
{"id": "C116", "title": "Full convolution with uncertainties is associative", "statement": "Three uncertain signals may be convolved with convolve_unc in any grouping: conv(conv(x,a),b) and conv(x,conv(a,b)) give the same estimate and the same covariance matrix (mode full), even when all three signals are uncertain.", "quantifier": "all signals of at least two elements with symmetric covariances or None", "why_tests_cant": "Needs the second-order term of the covariance to be exact; holds or fails for all inputs at once.", "anchors": ["PyDynamic/uncertainty/propagate_convolution.py: convolve_unc"]}
{"id": "C117", "title": "Deprecated names give the results of their successors", "statement": "LSFIR, LSFIR_unc, LSFIR_uncMC, LSIIR and LSIIR_unc of PyDynamic.deconvolution, fit_sos of PyDynamic.identification and make_equidistant of PyDynamic.misc.tools return for all arguments exactly what invLSFIR, invLSFIR_unc, invLSFIR_uncMC, invLSIIR, invLSIIR_unc, fit_som and make_equidistant of the new modules return.", "quantifier": "all arguments", "why_tests_cant": "Forwarding with exchanged or dropped arguments shows up for particular arguments only.", "anchors": ["PyDynamic/deconvolution/fit_filter.py: LSFIR, LSFIR_unc, LSFIR_uncMC, LSIIR, LSIIR_unc", "PyDynamic/identification/fit_transfer.py: fit_sos", "PyDynamic/misc/tools.py: make_equidistant"]}
{"id": "C118", "title": "fit_som: units of frequency", "statement": "If all frequencies given to fit_som are multiplied by c > 0 (another unit), the estimated gain and damping stay the same and the estimated resonance frequency is multiplied by c, covariances accordingly, and exceptions are the same. Fails for the variance and covariances of the damping ratio in the linear propagation, which depend on the unit of frequency because the sensitivities add quantities of different dimension.", "quantifier": "all frequencies, responses, uncertainties, weightings, numbers of runs, scalings and c > 0", "why_tests_cant": "Covariance under a change of units is a statement about all pairs of calls; tests compare a fit with one reference in one unit.", "anchors": ["PyDynamic/model_estimation/fit_transfer.py: fit_som"]}
{"id": "C119", "title": "fit_som: units of the gain", "statement": "If the frequency response given to fit_som is multiplied by c > 0 and its uncertainty accordingly, the estimated gain is multiplied by c and damping and resonance frequency stay the same, covariances accordingly, and exceptions are the same, for each of the weightings. Fails for the variance and covariances of the damping ratio in the linear propagation.", "quantifier": "all frequencies, responses, uncertainties, weightings, numbers of runs, scalings and c > 0; draws that follow the units", "why_tests_cant": "Covariance under a change of units is a statement about all pairs of calls; tests compare a fit with one reference in one unit.", "anchors": ["PyDynamic/model_estimation/fit_transfer.py: fit_som"]}
{"id": "C120", "title": "fit_som: order of the frequencies", "statement": "Reordering the frequencies given to fit_som together with responses, uncertainties, weights and random draws does not change the result: estimates, covariance and exceptions, without uncertainties, with Monte Carlo and with linear propagation.", "quantifier": "all inputs of matching sizes and all permutations", "why_tests_cant": "There are too many permutations and inputs to test, and mixing up the halves of real and imaginary parts shows for unsymmetric data only.", "anchors": ["PyDynamic/model_estimation/fit_transfer.py: fit_som"]}
{"id": "C121", "title": "Filter fits: units of frequency", "statement": "Giving frequencies and sampling frequency in another unit (both multiplied by c) does not change any filter, delay or uncertainty returned by LSIIR, invLSIIR, LSFIR, invLSFIR, invLSFIR_unc, invLSFIR_uncMC and invLSIIR_unc.", "quantifier": "all responses, orders, frequencies, weights, draws, delays and factors c other than 0", "why_tests_cant": "tests use one unit", "anchors": ["PyDynamic/model_estimation/fit_filter.py:LSIIR", "PyDynamic/model_estimation/fit_filter.py:invLSIIR", "PyDynamic/model_estimation/fit_filter.py:LSFIR", "PyDynamic/model_estimation/fit_filter.py:invLSFIR", "PyDynamic/model_estimation/fit_filter.py:invLSFIR_unc", "PyDynamic/model_estimation/fit_filter.py:invLSFIR_uncMC", "PyDynamic/model_estimation/fit_filter.py:invLSIIR_unc"]}
{"id": "C122", "title": "FIR fits: units of the response", "statement": "If the response is given in another unit (numbers multiplied by c), the coefficients of the inverse FIR filter are divided by c and their covariances by c^2, for invLSFIR, invLSFIR_unc and invLSFIR_uncMC; LSFIR, which fits the response itself, multiplies the coefficients by c.", "quantifier": "all responses, weights, draws that scale with the response, and c other than 0", "why_tests_cant": "tests use one unit", "anchors": ["PyDynamic/model_estimation/fit_filter.py:LSFIR", "PyDynamic/model_estimation/fit_filter.py:invLSFIR", "PyDynamic/model_estimation/fit_filter.py:invLSFIR_unc", "PyDynamic/model_estimation/fit_filter.py:invLSFIR_uncMC"]}
{"id": "C123", "title": "Filter fits: order of the frequencies", "statement": "Reordering the frequencies together with responses, weights and random draws does not change the result of LSIIR, invLSIIR, LSFIR, invLSFIR, invLSFIR_uncMC and invLSIIR_unc.", "quantifier": "all permutations, responses, orders, weights and draws", "why_tests_cant": "tests use increasing frequencies", "anchors": ["PyDynamic/model_estimation/fit_filter.py:LSIIR", "PyDynamic/model_estimation/fit_filter.py:invLSIIR", "PyDynamic/model_estimation/fit_filter.py:LSFIR", "PyDynamic/model_estimation/fit_filter.py:invLSFIR", "PyDynamic/model_estimation/fit_filter.py:invLSFIR_unc", "PyDynamic/model_estimation/fit_filter.py:invLSFIR_uncMC", "PyDynamic/model_estimation/fit_filter.py:invLSIIR_unc"]}
{"id": "C124", "title": "IIR fits: units of the response", "statement": "If the response is given in another unit (numbers multiplied by c), LSIIR and invLSIIR return the same denominator and delay, and the numerator multiplied or divided by c; grpdelay does not depend on the gain of the filter.", "quantifier": "all responses with unique fits, orders, frequencies, delays and c other than 0", "why_tests_cant": "tests use responses of order 1; failures appear for small units, such as charge sensitivities in C/(m/s^2)", "anchors": ["PyDynamic/model_estimation/fit_filter.py:LSIIR", "PyDynamic/model_estimation/fit_filter.py:invLSIIR", "PyDynamic/misc/filterstuff.py:grpdelay"]}
{"id": "C125", "title": "FIRuncFilter: signals and coefficients given as integers", "statement": "FIRuncFilter gives the same estimate and uncertainty whether the signal y and the coefficients theta are stored as integers (e.g. digitiser counts) or as the equal floating-point numbers.", "quantifier": "all signals, coefficients, kinds of uncertainty, shifts, low-pass filters and array types (integer or float)", "why_tests_cant": "The code allocates with np.full_like(y, ...), so that the effect depends on the type of an array and on the fractional part of a real number; tests use float signals.", "anchors": ["PyDynamic/uncertainty/propagate_filter.py:340", "PyDynamic/uncertainty/propagate_filter.py:347", "PyDynamic/uncertainty/propagate_filter.py:235"]}
{"id": "C126", "title": "Frequency domain: covariance matrices given as integers", "statement": "GUM_DFT with a window, DFT2AmpPhase, AmpPhase2DFT, DFT_deconv and DFT_multiply give the same result whether a covariance matrix is stored as integers or as the equal floating-point numbers.", "quantifier": "all signals, spectra, windows, masks, covariance matrices of integers", "why_tests_cant": "_prod allocates with np.zeros_like of the matrix; whether entries are cut depends on all products of the matrix with real sensitivities.", "anchors": ["PyDynamic/uncertainty/propagate_DFT.py:93", "PyDynamic/uncertainty/propagate_DFT.py:58", "PyDynamic/uncertainty/propagate_DFT.py:481", "PyDynamic/uncertainty/propagate_DFT.py:598", "PyDynamic/uncertainty/propagate_DFT.py:923", "PyDynamic/uncertainty/propagate_DFT.py:1033"]}
{"id": "C127", "title": "Test signals at integer times", "statement": "squarepulse and multi_sine return the same signal for times stored as integers as for the equal floating-point times.", "quantifier": "all time axes, heights, numbers of pulses, amplitudes, frequencies and noise levels", "why_tests_cant": "The loop over pulses or sines adds in place to an array with the type of the time axis; the claim is about every number of iterations.", "anchors": ["PyDynamic/misc/testsignals.py:138", "PyDynamic/misc/testsignals.py:191"]}
{"id": "C128", "title": "FIRuncFilter rejects uncertainties whose number does not fit", "statement": "If the number of standard uncertainties of the noise or of the filter coefficients, or the size of a covariance matrix, does not fit to the signal or the coefficients, FIRuncFilter raises ValueError; it never returns another number of uncertainties than values.", "quantifier": "all signals, filters, uncertainties of any number, covariance matrices of any size", "why_tests_cant": "The code has no check of lengths; whether an exception occurs depends on an arithmetic relation between three lengths.", "anchors": ["PyDynamic/uncertainty/propagate_filter.py: FIRuncFilter", "PyDynamic/uncertainty/propagate_filter.py: _fir_filter", "PyDynamic/uncertainty/propagate_filter.py: _fir_filter_diag"]}
{"id": "C129", "title": "More input uncertainty never gives less output uncertainty", "statement": "If a covariance passed to FIRuncFilter, convolve_unc, GUM_DFT, GUM_iDFT, DFT2AmpPhase, AmpPhase2DFT, DFT_deconv, DFT_multiply or interp1d_unc is replaced by a larger one (the difference is positive semidefinite), the estimate stays the same and the reported covariance does not become smaller in the same sense; in particular no standard uncertainty decreases.", "quantifier": "all signals, responses, kernels, lengths, modes and all pairs of covariances with positive semidefinite difference", "why_tests_cant": "The order of covariances is a statement about all pairs of matrices and all linear combinations; it depends on products of covariances in the quadratic terms.", "anchors": ["PyDynamic/uncertainty/propagate_filter.py:FIRuncFilter", "PyDynamic/uncertainty/propagate_convolution.py:convolve_unc", "PyDynamic/uncertainty/propagate_DFT.py:GUM_DFT", "PyDynamic/uncertainty/propagate_DFT.py:GUM_iDFT", "PyDynamic/uncertainty/propagate_DFT.py:DFT2AmpPhase", "PyDynamic/uncertainty/propagate_DFT.py:AmpPhase2DFT", "PyDynamic/uncertainty/propagate_DFT.py:DFT_deconv", "PyDynamic/uncertainty/propagate_DFT.py:DFT_multiply", "PyDynamic/uncertainty/interpolate.py:interp1d_unc"]}
{"id": "C130", "title": "Frequency domain: results do not depend on the units", "statement": "If the signal or spectrum handed to GUM_DFT, GUM_iDFT, DFT2AmpPhase, AmpPhase2DFT, Time2AmpPhase, AmpPhase2Time, DFT_multiply, DFT_deconv or DFT_transferfunction is expressed in another unit (numbers times c, variances times c squared), all results including all variances and covariances are the same results in the corresponding unit; phases and their variances do not change.", "quantifier": "all signals, spectra, uncertainties in every accepted form, window, mask, zero padding and user-supplied sensitivities; all factors (positive ones where a phase is computed); rejected arguments are rejected in both units", "why_tests_cant": "A test can compare a few factors; that every term of every covariance formula has the right dimension for all inputs is a statement about all arguments. It fails for two formulas.", "anchors": ["PyDynamic/uncertainty/propagate_DFT.py:189-346", "PyDynamic/uncertainty/propagate_DFT.py:349-454", "PyDynamic/uncertainty/propagate_DFT.py:481-738", "PyDynamic/uncertainty/propagate_DFT.py:794-1130"]}
{"id": "C131", "title": "Frequency-domain arguments of sizes that do not fit", "statement": "DFT_multiply, DFT2AmpPhase, GUM_iDFT and AmpPhase2Time raise an exception for estimates and (co)variances whose sizes do not fit together (2m values need 2m variances or a 2m by 2m covariance), and never return a covariance whose number of rows differs from the number of returned values.", "quantifier": "all vectors and matrices of all sizes, all numbers of bins m >= 2", "why_tests_cant": "Unit tests try a few mismatches; numpy broadcasting accepts some mismatching sizes silently, and which ones depends on a case analysis over all sizes.", "anchors": ["PyDynamic/uncertainty/propagate_DFT.py:349-454", "PyDynamic/uncertainty/propagate_DFT.py:481-595", "PyDynamic/uncertainty/propagate_DFT.py:794-887", "PyDynamic/uncertainty/propagate_DFT.py:1033-1130"]}
{"id": "C132", "title": "Deconvolution by way of the frequency domain undoes convolution", "statement": "The documented workflow GUM_DFT (of the measured output and of the impulse response, zero-padded to a common even length), DFT_deconv, GUM_iDFT returns the input signal of a convolution together with its variances (and, after symmetrising, covariances) if the impulse response is known exactly and its transform has no zeros. In particular it undoes convolve_unc(x, U, g, None, 'full'). For an arbitrary measured output it returns the signal whose circular convolution with the impulse response is that output, with the covariance that maps to the given one.", "quantifier": "all signals and impulse responses with at least two samples, all symmetric covariance matrices, all even transform lengths that are long enough, all responses without spectral zeros", "why_tests_cant": "A test compares one simulated signal; that five routines with their scalings, paddings and covariance formulas cancel for every signal and covariance is an identity between them.", "anchors": ["PyDynamic/uncertainty/propagate_DFT.py:GUM_DFT", "PyDynamic/uncertainty/propagate_DFT.py:DFT_deconv", "PyDynamic/uncertainty/propagate_DFT.py:GUM_iDFT", "PyDynamic/uncertainty/propagate_convolution.py:convolve_unc"]}
{"id": "C133", "title": "Helpers that bring data into a normal form leave normalised data alone", "statement": "The unwrapping inside ua leaves a phase with steps of at most pi unchanged and unwrapping twice is unwrapping once; what make_semiposdef returned is returned unchanged by a further call with the same or a smaller tolerance; trimOrPad to the length the array already has returns the array and trimming or padding in two steps is the same as in one, unless the first step cuts off what the second needs.", "quantifier": "all vectors and matrices, all lengths", "why_tests_cant": "idempotence is a statement about all inputs; tests only see the data they were written with", "anchors": ["PyDynamic/misc/tools.py:76", "PyDynamic/misc/tools.py:167", "PyDynamic/misc/filterstuff.py:40"]}
{"id": "C134", "title": "Laws of the group delay", "statement": "grpdelay of two filters in series is the sum of their group delays; the group delay of the inverse filter is the negative; a gain factor has no effect. All this at the frequencies where the response is above the threshold 1e-12 and if the FFT is long enough.", "quantifier": "all coefficient vectors, sampling frequencies, numbers of points, all bins", "why_tests_cant": "needs the algebra of the responses for all filters; a test checks single filters", "anchors": ["PyDynamic/misc/filterstuff.py:45"]}
{"id": "C135", "title": "Low-pass and filter act like the cascaded filter", "statement": "For coefficients without uncertainty FIRuncFilter(y, sigma, theta, blow=b) returns the same estimate and the same (co)variance as FIRuncFilter(y, sigma, numpy.convolve(theta, b)); so low-pass and filter can be exchanged. This needs that the first sample is uncorrelated with the last len(b) - 1 samples (e.g. white noise or point-wise uncertainties with at least len(b) samples).", "quantifier": "all signals, noise arguments, filters and low-passes of at least two coefficients, both values of return_full_covariance", "why_tests_cant": "two different code paths have to agree for every input; the test suite never compares them", "anchors": ["PyDynamic/uncertainty/propagate_filter.py:385"]}
{"id": "C136", "title": "Numbers and arrays can be mixed as parameters of a second-order system", "statement": "sos_FreqResp with any mixture of numbers and arrays of K parameters returns one column for each parameter set, numbers being used for all sets; likewise sos_phys2filter returns one row for each set.", "quantifier": "all combinations of numbers and arrays, all lengths and frequencies", "why_tests_cant": "the branch depends only on the type of the first argument; tests use numbers only or arrays only", "anchors": ["PyDynamic/misc/SecondOrderSystem.py:26", "PyDynamic/misc/SecondOrderSystem.py:73"]}
{"id": "C137", "title": "One Monte Carlo run gives no uncertainty", "statement": "fit_som(.., MCruns=1) and FreqResp2RealImag(.., MCruns=1) do not return a number as uncertainty that has nothing to do with the uncertainty of the input.", "quantifier": "all responses, uncertainties, weightings", "why_tests_cant": "the number of runs in tests is large", "anchors": ["PyDynamic/model_estimation/fit_transfer.py:15", "PyDynamic/misc/tools.py:227"]}
{"id": "C138", "title": "Linear interpolation in two steps agrees with a direct interpolation", "statement": "If data are interpolated linearly by interp1d_unc to a finer grid, each segment of which lies in a segment of the original nodes, and the result is interpolated linearly again, then the values are those of a direct interpolation, and the uncertainties are those of the direct interpolation too.", "quantifier": "all nodes, values, uncertainties, fine grids refining the nodes, query times inside the fine grid, fill values, bounds_error and returnC settings", "why_tests_cant": "tests interpolate once; comparing chains of resampling for all grids needs a proof", "anchors": ["PyDynamic/uncertainty/interpolate.py:interp1d_unc"]}
{"id": "C139", "title": "Products and quotients of uncertain spectra obey the usual laws", "statement": "DFT_multiply is associative, including covariances: multiplying a spectrum by two uncertain transfer functions one after the other, in either order, gives the same spectrum and covariance as multiplying by their product; a factor one without uncertainty changes nothing; dividing by two exactly known transfer functions in turn with DFT_deconv equals dividing by their product; and multiplication by an uncertain factor may be exchanged with division by an exactly known one.", "quantifier": "all numbers of bins, spectra, symmetric covariance matrices, transfer functions without zeros where divided by", "why_tests_cant": "tests multiply once; laws relating chains of calls for all covariances need algebra", "anchors": ["PyDynamic/uncertainty/propagate_DFT.py:DFT_multiply", "PyDynamic/uncertainty/propagate_DFT.py:DFT_deconv"]}
{"id": "C140", "title": "Monte Carlo results do not depend on units and origins", "statement": "UMC_generic with an evaluate function whose results are given in other units and with other origins (every component multiplied by a factor and moved by an offset) and the same draws returns the estimate in the new units and origins, the covariance multiplied by the products of the factors and, for positive factors, histograms with the same counts over the converted edges; the samples are the converted samples, and an exception is raised for the same inputs. MC with signal and uncertainty multiplied by a positive factor returns estimate and covariance in the new units. UMC with signal, noise process and systematic deviation in other units returns estimate, covariance, credible limits and histogram edges in the new units.", "quantifier": "all numbers of runs, block sizes, numbers of workers, orders of delivery, draws, evaluate functions, factors and offsets", "why_tests_cant": "The random numbers differ from run to run, so that a test can compare results in two units only statistically; block sizes and bins multiply the cases.", "anchors": ["PyDynamic/uncertainty/propagate_MonteCarlo.py:UMC_generic", "PyDynamic/uncertainty/propagate_MonteCarlo.py:UMC", "PyDynamic/uncertainty/propagate_MonteCarlo.py:MC"]}
{"id": "C141", "title": "Interpolation treats every time by itself and uses the adjacent data only", "statement": "interp1d_unc for several times is accepted exactly if it is accepted for each of them, and every time gets the value, the uncertainty and the row of sensitivities that it gets when it is requested alone, whatever the order or repetition of the times. Value and uncertainty at a time depend only on the last datum that is not after it and the first one that is not before it: two records that agree in these data, however they differ elsewhere, give the same result, also outside the range of the nodes.", "quantifier": "all records of data, requested times, kinds (linear, previous, next, nearest), bounds_error, fill values, sorted or unsorted data, with or without returnC", "why_tests_cant": "A test fixes one set of times and one record; that no other time and no distant datum has any influence is a statement about all of them.", "anchors": ["PyDynamic/uncertainty/interpolate.py:interp1d_unc"]}
{"id": "C142", "title": "Amplitudes and phases of products and quotients of spectra", "statement": "For two uncertain spectra without zero bins, DFT2AmpPhase of the result of DFT_multiply has the products of the amplitudes and, up to whole turns, the sums of the phases; the covariances of the phases add, those of the amplitudes add after scaling with the amplitudes of the other factor (so relative variances add), and likewise between amplitudes and phases. Multiplying by, or dividing by, an exactly known response scales amplitudes by its amplitude and shifts phases by its phase while the phase covariance stays unchanged; a pure phase factor leaves the entire covariance of amplitudes and phases unchanged.", "quantifier": "all numbers of bins, spectra without zero bins, symmetric covariance matrices, both settings of keep_sparse", "why_tests_cant": "tests compare single spectra numerically and phases wrap; the covariance rule relates three calls for all spectra", "anchors": ["PyDynamic/uncertainty/propagate_DFT.py:DFT_multiply", "PyDynamic/uncertainty/propagate_DFT.py:DFT_deconv", "PyDynamic/uncertainty/propagate_DFT.py:DFT2AmpPhase"]}
{"id": "C143", "title": "Monte Carlo and closed formulae agree for FIR filters", "statement": "For a filter without feedback (a = [1]) with uncertain coefficients and an uncertain signal, the expectation of the estimate and of the covariance matrix that MC returns (any number of runs of at least 2) equals the estimate and covariance matrix returned by FIRuncFilter for the same uncertainties, at all times at which the filter memory is filled with recorded samples; before that the expected estimates differ exactly by the constant past that FIRuncFilter assumes.", "quantifier": "all signals, coefficients, covariance matrices, kinds of noise, numbers of runs, and all random draws with the given means and covariances that are independent between coefficients, signal and runs", "why_tests_cant": "a relation between an expectation over a probability space and the result of another module; tests can only compare single random runs loosely", "anchors": ["PyDynamic/uncertainty/propagate_MonteCarlo.py:MC", "PyDynamic/uncertainty/propagate_filter.py:FIRuncFilter"]}
{"id": "C144", "title": "savitzky_golay is linear", "statement": "savitzky_golay of a weighted sum of signals is the weighted sum of the results; a change of the unit and of the origin of the signal changes the smoothed signal in the same way (offsets vanish from derivatives); the sampling interval delta enters as division by delta^deriv.", "quantifier": "all signals, odd windows, orders, derivatives, weights, intervals", "why_tests_cant": "tests smooth a few signals; linearity concerns all signals, and it fails at the ends only", "anchors": ["PyDynamic/misc/filterstuff.py:savitzky_golay"]}
{"id": "C145", "title": "impinvar keeps stability and does not depend on the unit of time", "statement": "The poles of the filter returned by impinvar are exp(p/fs) for the poles p of the analogue system, so that isstable(a, 'digital') accepts it if and only if no pole of the analogue system has a positive real part. A factor of the analogue system is a factor of b and leaves a alone. The result does not depend on the unit in which times and frequencies are expressed.", "quantifier": "all real systems with simple poles, all sampling frequencies, factors and units", "why_tests_cant": "tests convert a few systems; which poles the filter has for every system, and that rescaling time changes nothing, are statements on all systems", "anchors": ["PyDynamic/misc/impinvar.py:impinvar", "PyDynamic/misc/filterstuff.py:isstable"]}
{"id": "C146", "title": "Filter fits: equivalent ways to state a response", "statement": "The response of a real digital filter at -f is the conjugate of that at f, and at f + k Fs it is the same. The filter fits respect this: replacing responses by equivalent ones (mirrored, conjugated, or aliased frequencies; the latter for delays of a whole number of samples), or adding to all responses an equivalent one (a two-sided spectrum, or each frequency given twice) does not change the filter returned by LSFIR, invLSFIR, LSIIR, invLSIIR; a response with weight 0 has no influence on the FIR fits.", "quantifier": "all responses, frequencies, orders, delays, weights, stabilisation loops included", "why_tests_cant": "tests fit a few one-sided responses; the equality concerns all data, and for IIR fits every pass of the stabilisation loop", "anchors": ["PyDynamic/model_estimation/fit_filter.py:LSFIR", "PyDynamic/model_estimation/fit_filter.py:invLSFIR", "PyDynamic/model_estimation/fit_filter.py:LSIIR", "PyDynamic/model_estimation/fit_filter.py:invLSIIR", "PyDynamic/model_estimation/fit_filter.py:_fitIIR"]}
{"id": "C147", "title": "Phases are angles and a linear phase is a delay", "statement": "Full turns added to phases change nothing in the results of AmpPhase2DFT and AmpPhase2Time; amplitude -A at phase P + pi is amplitude A at phase P (covariances with that amplitude changing sign); AmpPhase2DFT followed by DFT2AmpPhase returns the phases as angles in (-pi, pi] and the covariance unchanged; phases decreasing by 2 pi k s / N delay the signal and the covariance returned by AmpPhase2Time circularly by s samples and change nothing else.", "quantifier": "all amplitudes, phases, numbers of turns, delays, covariances (vector, matrix; sparse where applicable)", "why_tests_cant": "tests use a few phases, all of them within one turn; delays and turns of every bin and every covariance cannot be enumerated", "anchors": ["PyDynamic/uncertainty/propagate_DFT.py:AmpPhase2DFT", "PyDynamic/uncertainty/propagate_DFT.py:AmpPhase2Time", "PyDynamic/uncertainty/propagate_DFT.py:DFT2AmpPhase"]}
{"id": "C148", "title": "Reversal of time is conjugation of the spectrum", "statement": "GUM_DFT of the signal reversed in time (sample n becomes sample -n modulo N, and the covariance likewise) returns the complex conjugate of every bin, with the covariances between real and imaginary parts changing sign and all others kept; GUM_iDFT of the conjugate spectrum returns the signal and the covariance reversed in time; a signal that is even in time has a spectrum without imaginary part.", "quantifier": "all signals, lengths, symmetric covariance matrices, spectra of even length signals", "why_tests_cant": "symmetries of the sine and cosine tables must hold for every length, bin and covariance; tests use single signals", "anchors": ["PyDynamic/uncertainty/propagate_DFT.py:GUM_DFT", "PyDynamic/uncertainty/propagate_DFT.py:GUM_iDFT"]}
{"id": "C149", "title": "FIRuncFilter multiplies what is constant by the static gain", "statement": "For a constant signal c FIRuncFilter returns c times the sum g of the coefficients from the first sample on; an error common to all samples with variance s2 and coefficients with covariance V give the covariance g^2 s2 + c^2 w + s2 w, where w is the sum of all entries of V; white noise of standard deviation s gives the variance s^2 sum(theta^2) + c^2 w + s^2 trace(V). In particular a moving average over L samples keeps constants and common errors and divides the standard uncertainty by white noise by sqrt(L).", "quantifier": "all constants, record lengths, coefficients, covariances of the coefficients, numbers of averaged samples", "why_tests_cant": "holds at the start of the record only if estimate, noise and their prolongation into the past agree for every filter length; tests use single filters", "anchors": ["PyDynamic/uncertainty/propagate_filter.py:FIRuncFilter"]}
{"id": "C150", "title": "trimOrPad with the modes of np.pad", "statement": "trimOrPad(array, length, mode) with length >= 0 and mode constant, edge, wrap, reflect or symmetric returns an array of the requested length that begins with the record and goes on as the mode says (zeros; last value; period n; mirrored without or with repetition of the last value); trimming a longer result gives the result for the shorter length; it fails (ValueError) exactly if something must be padded and the mode is unknown or the record is empty and the mode is not constant; the default mode is zero padding. A negative length, for which the documented shape makes no sense, drops samples at the end.", "quantifier": "all records, lengths and modes", "why_tests_cant": "repeated mirroring and periods for lengths of many times the record are not tested", "anchors": ["PyDynamic/misc/tools.py:trimOrPad"]}
{"id": "C151", "title": "sos_realimag and FreqResp2RealImag are unbiased", "statement": "For draws with equal moments and no correlation between different runs the expected estimate of sos_realimag is the mean of the frequency response of the random second-order system and the expected covariance is its covariance, for every number of runs >= 2; if only the gain is uncertain these are the response of the given system and uS^2 times the products of real and imaginary parts at gain 1. The expected covariance returned by FreqResp2RealImag is the covariance of real and imaginary parts of A exp(iP); for one frequency the expected means are theirs.", "quantifier": "all systems, frequencies, uncertainties, numbers of runs >= 2 and distributions with finite variance", "why_tests_cant": "expectations over the draws cannot be observed in single runs; a wrong divisor or a bias is hidden by the scatter", "anchors": ["PyDynamic/misc/SecondOrderSystem.py:sos_realimag", "PyDynamic/misc/tools.py:FreqResp2RealImag"]}
{"id": "C152", "title": "convolve_unc prefers no direction of time", "statement": "Reversing both signals and their covariances reverses the result of convolve_unc and its covariance: always in the modes full and valid, in mode same if the shorter signal has odd length, in the modes nearest, reflect and mirror if the second signal (the kernel) has odd length. Symmetric data therefore give symmetric results. With kernels of even length the centre lies between two samples and the result is shifted to one side.", "quantifier": "all signals, lengths, covariances, modes", "why_tests_cant": "all boundary modes must be symmetric for every pair of lengths; tests use single examples", "anchors": ["PyDynamic/uncertainty/propagate_convolution.py:convolve_unc"]}
{"id": "C153", "title": "fit_som does not care whether a response value is stated at f or as its conjugate at -f", "statement": "Replacing any of the pairs (f_k, H_k) by (-f_k, conj H_k), together with the corresponding sign changes of the uncertainties and of the draws, leaves the result of fit_som (parameters, covariance, errors) unchanged, for every weighting, in the linear propagation and in the Monte Carlo propagation. Without uncertainties and for standard uncertainties nothing but the signs of the normal numbers changes.", "quantifier": "for all frequencies, responses, uncertainties (none, standard, covariance), weightings, numbers of runs, scalings and every choice of the frequencies that are mirrored", "why_tests_cant": "a test can try a few responses; the claim is about every set of data and every subset of mirrored frequencies, and needs the invariance of the normal equations under orthogonal sign changes", "anchors": ["PyDynamic/model_estimation/fit_transfer.py: fit_som"]}
{"id": "C154", "title": "Laws of the noise generators", "statement": "ARMA is linear in its noise (so std scales the series), its beginning depends on the beginning of the noise only, zero coefficients give the white noise itself, and noise of mean 0 gives a series of mean 0. For order (1, 1) the series is the moving average with coefficients 1, phi+theta, (phi+theta)phi, ...; for white noise this gives the covariances: a moving average of order 1 is stationary from its second value on, an autoregressive series of order 1 starts with the variance of the noise and tends to std^2/(1-phi^2). power_law_noise does not depend on the unit (a positive factor) and the origin of the white noise it is made from.", "quantifier": "for all coefficients, noises, lengths, colours; for every probability space and white noise of finite variance", "why_tests_cant": "the covariance of random series is a statement on all draws that a finite sample can only suggest; linearity and causality are about all noises", "anchors": ["PyDynamic/misc/noise.py: ARMA", "PyDynamic/misc/noise.py: power_law_noise"]}
{"id": "C155", "title": "MC is causal", "statement": "The result of MC for the beginning of a record (and of its uncertainties) is the beginning of the result for the whole record, with the same random numbers: the samples, and the mean and covariance of two or more stable runs, without shift.", "quantifier": "for all records, uncertainties (number, array, covariance), filters, low-passes, numbers of runs, random numbers and lengths of the beginning of at least two values", "why_tests_cant": "a test can compare a few records with a fixed seed; the claim is about all of them and needs the causality of the recursive filters of every run", "anchors": ["PyDynamic/uncertainty/propagate_MonteCarlo.py: MC"]}
{"id": "C156", "title": "Interpolation and the direction of time", "statement": "Mirroring the time axis (the nodes, the data and their uncertainties in the opposite order, the requested times mirrored) changes no interpolated value and no uncertainty inside the range: for linear interpolation, for previous and next exchanged, and for nearest unless the requested time lies in the middle of two nodes, where the earlier node wins in both directions. The mirrored call is accepted whenever the call is.", "quantifier": "for all data, uncertainties, kinds, centres of the mirror and requested times inside the range", "why_tests_cant": "a test compares single records; the two directions use different searches (left and right) and different formulas for the segments", "anchors": ["PyDynamic/uncertainty/interpolate.py: interp1d_unc"]}
{"id": "C157", "title": "UMC_generic treats every component of the output by itself and UMC is causal", "statement": "Leaving out, repeating or reordering components of the output of evaluate does the same to the mean, the covariance, the histograms and the samples that UMC_generic returns and changes nothing else. In particular UMC is causal: for the beginning of a record, with the same random numbers, it returns the beginning of the mean, covariance, credible limits and histograms.", "quantifier": "for all callbacks, components, numbers of runs and blocks, orders of delivery, signals, filters and lengths of the beginning", "why_tests_cant": "a test can drop single components with a fixed seed; the claim is about all models and schedules and needs an induction over the blocks", "anchors": ["PyDynamic/uncertainty/propagate_MonteCarlo.py: UMC_generic", "PyDynamic/uncertainty/propagate_MonteCarlo.py: UMC"]}
{"id": "C158", "title": "Interpolation preserves lines, monotonicity and order", "statement": "Linear interpolation by interp1d_unc reproduces straight lines exactly. For every kind, data that do not decrease give interpolated values that do not decrease with the requested time, and data that are nowhere smaller give interpolated values that are nowhere smaller (inside the range of the nodes).", "quantifier": "for all data, kinds, options and requested times inside the range", "why_tests_cant": "a test checks single grids; over all pairs of times the claim needs the segments of both times to be compared", "anchors": ["PyDynamic/uncertainty/interpolate.py: interp1d_unc"]}
{"id": "C159", "title": "savitzky_golay and the direction of time", "statement": "Reversing a signal reverses the result of savitzky_golay (odd derivatives change their sign) wherever the window does not reach beyond the ends of the record. Rotating the graph of the signal (reversing time and changing the sign) rotates the result everywhere, also at the ends; at the ends alone the reversal fails because the record is prolonged downwards before its beginning and upwards after its end.", "quantifier": "for all signals longer than half the window, windows, orders, derivatives and spacings that are accepted", "why_tests_cant": "the symmetry of the coefficients comes from a pseudoinverse; a test compares single windows numerically", "anchors": ["PyDynamic/misc/filterstuff.py: savitzky_golay"]}
{"id": "C160", "title": "savitzky_golay: neighbouring orders give the same result", "statement": "If the order of the derivative and the order of the polynomial are both even or both odd, savitzky_golay with the next higher order returns the same array (or raises the same exception): smoothing with lines is a moving average, cubic polynomials smooth like quadratic ones, and so on.", "quantifier": "for all signals, windows, spacings, orders and derivatives not above the order for which the higher order is accepted", "why_tests_cant": "the coefficients come from pseudoinverses of different matrices; equality for all windows and orders needs an argument about orthogonality and parity", "anchors": ["PyDynamic/misc/filterstuff.py: savitzky_golay"]}
{"id": "C161", "title": "savitzky_golay and white noise", "statement": "For uncorrelated samples of equal variance the variance of the signal smoothed by savitzky_golay, at every point with a full window, is that variance times the response at this point to a unit impulse there; this factor is positive and at most 1, so smoothing never amplifies white noise.", "quantifier": "for all distributions of the noise with finite variance, signals, windows, orders and points with a full window", "why_tests_cant": "a statement about probability distributions and all windows and orders; a test can only simulate", "anchors": ["PyDynamic/misc/filterstuff.py: savitzky_golay"]}
{"id": "C162", "title": "savitzky_golay is local and time invariant", "statement": "The value returned by savitzky_golay at a point with a full window depends only on the samples in that window: two records of any lengths that agree in the windows around two points give equal results there. In particular delaying a record delays the result by the same number of samples, away from the ends.", "quantifier": "for all pairs of signals and points with a full window, odd windows, orders, derivatives and deltas", "why_tests_cant": "relates two runs on records of arbitrary, different lengths", "anchors": ["PyDynamic/misc/filterstuff.py: savitzky_golay"]}
