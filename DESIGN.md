# Formal model of PyDynamic 1.8.0 in Lean 4

## 1. Trusted base

* Lean 4.33.0's kernel and the Mathlib definitions used in the statements.
* Axioms: every theorem depends on at most `propext`, `Classical.choice` and
  `Quot.sound` (Lean's standard axioms). No axiom is added, no `sorry`,
  `native_decide`, `bv_decide`, `implemented_by` or `unsafe` is used.
* The correspondence between the Python text in /repo and the Lean definitions in
  `lean/Verif/Model/*.lean`. This correspondence is by reading; each definition cites
  file and lines and says where it is simplified.
* The behaviour of numpy/scipy/multiprocessing calls is modelled from their
  documentation (section 3). numpy and scipy themselves are not verified.

## 2. What is modelled and how

* Numbers: Python floats are modelled by exact numbers of a field `K` (any field, or
  the reals where roots, exponentials, order or trigonometry are used). Rounding,
  overflow, NaN/inf are **not** modelled. Division by zero in Lean gives 0, so
  theorems that involve a division state the non-zero hypothesis.
* Arrays: `Vec K` (length + entries) and `Mat K` (rows, columns, entries); shapes are
  run-time data, so that shape errors can be expressed. Index arithmetic is on naturals.
  Arrays hold floats; `Model/Ints.lean` describes the places where the code allocates with
  `zeros_like`/`full_like` and the result depends on whether an array holds integers
  (`FIRuncFilter`, windows, amplitude/phase, products and quotients in the frequency domain, two test
  signals).
  Element-wise operations of arrays of different sizes: `Model/DFTShapes.lean` has numpy's broadcasting
  for the frequency domain routines that do not check sizes and proves that it refines `Model/DFT.lean`;
  elsewhere mismatching sizes without an explicit check are `unmodelled` or end in numpy's ValueError.
* Exceptions: functions return `Except PyErr a`; `PyErr` lists the Python exception
  classes. The extra constructor `unmodelled` marks inputs on which the model makes no
  claim (e.g. an uncertainty array with three dimensions).
* Dynamic typing: arguments whose Python type is inspected by the code are inductive
  types with one constructor per case the code distinguishes.
* Randomness: results of random draws are arguments of the modelled functions (a
  history); theorems quantify over all of them. Where the property is about
  distributions, it is stated with Mathlib's measure theory (`ProbabilityTheory.covariance`).
* Parallelism: the worker pool is modelled by an arbitrary permutation per block.
* Printed messages, warnings and plotting are not modelled (except `progress_bar`,
  `print_vec` and `print_mat`).

## 3. Library calls

* `scipy.signal.lfilter(b,a,x,zi)`: direct form II transposed recursion.
  `lfilter_zi`: the formula of scipy (companion matrix needs at least two coefficients,
  otherwise ValueError).
* `scipy.signal.convolve(mode="valid")`: the defining double sum.
* `numpy.fft.rfft/irfft/fft`: the defining trigonometric sums.
* `scipy.interpolate.interp1d`: the formulas of scipy's `_call_linear`,
  `_call_nearest`, `_call_previousnext` and `_check_bounds` in the regime used.
  Timestamps are not NaN; nodes must increase strictly. Array-valued fill values are
  not modelled. For scipy's spline kinds only the exception is modelled (`splineError`), as
  `interp1d_unc` never returns their values.
* `numpy.histogram`: half-open bins, last bin closed.
* `numpy.roots`, `numpy.linalg.solve/lstsq/pinv`, `eigvals`, `scipy.signal.residue`,
  `invres`: represented by their specification (roots of the polynomial with
  multiplicity, a solution of the system, ...), either through a Mathlib definition or
  as an argument with a hypothesis that states the specification.

## 4. Layout

* `Verif/Base.lean`: `Vec`, `Mat`, `PyErr`.
* `Verif/Model/*.lean`: model, one file per Python module, no theorems other than those
  needed to define.
* `Verif/Spec/*.lean`: independent specifications used in statements.
* `Verif/Lemmas/*.lean`: helper lemmas.
* `Verif/Props/*.lean`: the property theorems, with non-vacuity examples beside them.

How to read `seeded/LOG.jsonl`:

- `failed_first` lists the declarations whose proofs were reported as failing when the edited model was built.
- `failed`, in the lines that also have `failed_first`, is computed: the claim theorems that mention a failing declaration, directly or through other lemmas, found by name in the source text. They could not be built, but they were not each seen to fail.
- A failing proof shows that the proof depends on the edited code. It does not by itself show that the statement is false of the edited model.
- `claim` is derived from `failed` for the automatically generated edits (ids beginning with B).
- C158 to C162 were not tested against edits written for them.

## 5. Plan per property

Format: property - what is modelled - how it is proved. "Neg." means that reading the
code showed that the property is violated; then the negation is proved with a concrete
witness, together with the strongest true part (`_partial`).

| id | model | proof |
|----|-------|-------|
| C01 | `_fir_filter`, `_fir_filter_diag`, `FIRuncFilter` on top of lfilter recursion | induction on the DF2T recursion; closed form of lfilter_zi |
| C02 | same, `_stationary_prepend_covariance` | double-sum algebra, covariance of products of independent variables (Mathlib) |
| C03 | both FIR paths | sum manipulation |
| C04 | same | quadratic form decomposition (Schur-product argument) |
| C05 | `_stationary_prepend_covariance` | index arithmetic |
| C06 | `FIRuncFilter` with blow | associativity of convolution with constant past |
| C07 | `FIRuncFilter` shift. Neg. (fast path ignores shift; full path rolls the flattened matrix) | partial: estimate of the full path is rolled; witnesses |
| C08 | `FIRuncFilter` dispatch | case analysis |
| C09 | `FIRuncFilter` fast path. Neg. | witness; partial for u in {0,1} and 1-D arrays |
| C10 | `FIRuncFilter` | algebra |
| C11 | `IIRuncFilter`. Neg.: `tf2ss` is not imported, NameError | the model raises for all inputs |
| C12-C16 | `convolve_unc` | index arithmetic, C01/C02 |
| C17-C21 | `GUM_DFT` | linear algebra, bilinearity of covariance |
| C22 | `GUM_DFT`, `GUM_iDFT` | orthogonality of the real DFT |
| C23 | `GUM_iDFT`. Neg. for off-diagonal entries (cross term doubled instead of symmetrised) | partial: quadratic forms/diagonal and symmetric part |
| C24-C26 | `DFT2AmpPhase`, `AmpPhase2DFT`. Sparse path of the latter Neg. | Jacobians with HasDerivAt, matrix algebra |
| C27 | `AmpPhase2Time` | trigonometric identities |
| C28 | `DFT_deconv`. Neg. (one entry of the Jacobian is wrong) | partial: all other blocks; exact condition |
| C29 | `DFT_multiply`. 1-D covariance Neg. for shape | Jacobian |
| C30 | both | algebra |
| C31 | shape checks | case analysis |
| C32 | `Time2AmpPhase_multi` | fold over rows |
| C33-C40 | `interp1d_unc` | searchsorted spec, order reasoning |
| C41 | `make_equidistant` | ceil arithmetic |
| C42-C46 | `UMC_generic` | induction over blocks; permutation invariance of sums. C43, C45 Neg. |
| C47 | `MC` | list induction |
| C48 | `SMC` Neg. (IndexError on the first sample) | model |
| C49 | SMC state recursion | induction over time |
| C50-C51 | `_UMCevaluate`, `Normal_ZeroCorr` | algebra, case analysis |
| C52-C55 | `noise.py` | algebra; C55 Neg. for order >= 2 |
| C56-C59 | `tools.py` | modular arithmetic, matrix algebra, spectral theorem |
| C60-C63 | `filterstuff.py` | polynomial algebra; C62 analog Neg. |
| C64-C66 | `SecondOrderSystem.py`, `fit_transfer.py` | field algebra, normal equations; C66 Neg. |
| C67-C70 | `fit_filter.py` | normal equations; C69 (LSFIR), C70 Neg. |
| C71-C72 | `signals.py` | case analysis; Neg. for Fs only, FIR std, IIR + runs |
| C73 | `impinvar.py` | geometric series; repeated poles Neg. |
| C74-C76, C94 | `testsignals.py` | order reasoning, covariance of linear combinations, Cauchy-Schwarz; C74 (offset), C75 (frequency), C76 Neg. |
| C77 | `GUM_DFT`, `GUM_iDFT` on white noise | orthogonality of the real DFT |
| C78 | `power_law_acf` | positive type of the cosine sum |
| C79 | `FreqResp2RealImag`. Neg. for the means of several frequencies | sample covariance |
| C80 | `print_vec`, `print_mat`: arrangement of the numbers (the formatting of one number is a parameter) | list reasoning |
| C81-C83 | `kaiser_lowpass` (Neg.), `ua`, `db` | algebra |
| C84-C85 | credible intervals of `UMC`. C84 Neg. | quantiles of histograms |
| C86-C87 | `sos_realimag`, `sos_absphase`, `fit_som` with Monte Carlo | sample covariance, normal equations |
| C88-C90 | `LSIIR`, `invLSIIR`, `invLSFIR_uncMC`, `invLSIIR_unc` | loop invariant of the stabilisation |
| C91-C92 | `Signal.set_labels`, invariant of `Signal` objects | case analysis, induction over operations |
| C93 | `prepad`, `h1_deriv` | index arithmetic, derivatives |
| C95 | sensitivities given to `GUM_DFT`, `GUM_iDFT` | case analysis |
| C96-C97 | `GUM_DFTfreq`, `DFT_transferfunction`, `GUMdeconv` | geometric sums of exponentials, algebra |
| C98 | `DFT_multiply` of two `GUM_DFT`, compared with `convolve_unc` | circulant matrices, convolution theorem |
| C99-C100 | `Time2AmpPhase`, `AmpPhase2Time`, `GUM_DFT` | composition of C21-C27, Parseval |
| C101 | `corr_noise.calc_psd` (`scipy.signal.periodogram`, boxcar window, constant detrending, one-sided density, written out as sums) | Parseval, variance of linear combinations of uncorrelated variables |
| C102 | `UMC` composed from its parts | C42-C50, C84-C85; uniqueness of filter responses |
| C103 | `MC` | C47, linearity of filters, expectation of sample mean and covariance |
| C104 | `UMC_generic`. Neg: factor of the expected covariance | C42, C43, expectation of the scatter |
| C105 | FIRuncFilter, convolve_unc | closed forms of both, equal term by term |
| C106 | FIRuncFilter, _stationary_prepend_covariance | closed form; dependence of each entry on the record |
| C107 | FIRuncFilter | autocovariance of the prolonged noise depends only on the lag |
| C108 | FIRuncFilter | closed form, linearity |
| C109 | GUM_DFT | circulant of a unit pulse, sums of roots of unity |
| C110 | interp1d_unc | every step invariant; affine maps of the weights |
| C111 | make_equidistant, interp1d_unc | grid equals nodes, C33 |
| C112 | convolve_unc | closed form of all modes, algebra |
| C113 | convolve_unc | closed form, linearity of sums |
| C114 | convolve_unc | variance of a linear combination of the random vectors of C14 |
| C115 | convolve_unc | closed form |
| C116 | convolve_unc | second moments convolve in two dimensions; associativity of the 2-D convolution |
| C117 | deprecated wrappers | unfolding; C65 and C69 for the old names |
| C118 | fit_som | transformation of the normal equations under a change of the design matrix; counterexample for the damping |
| C119 | fit_som | transformation of the normal equations under scaling of data and weights; counterexample for the damping |
| C120 | fit_som | permutation of rows of the normal equations |
| C121 | LSIIR, invLSIIR, LSFIR, invLSFIR, invLSFIR_unc, invLSFIR_uncMC, invLSIIR_unc | only f/Fs enters; the delays of grpdelay do not depend on Fs (induction over the refits) |
| C122 | LSFIR, invLSFIR, invLSFIR_unc, invLSFIR_uncMC | linearity of the minimum-norm least-squares solution |
| C123 | LSIIR, invLSIIR, LSFIR, invLSFIR, invLSFIR_uncMC, invLSIIR_unc | invariance of least squares under row permutations |
| C124 | LSIIR, invLSIIR, grpdelay | uniqueness of the fit, induction over the refits; refuted by the absolute tolerance 1e-12 in grpdelay |
| C125 | FIRuncFilter with array types | refinement: exact reduction to the float model with the truncated variance, equivalence for white noise |
| C126 | _prod, _apply_window, GUM_DFT, DFT2AmpPhase, AmpPhase2DFT, DFT_deconv, DFT_multiply with matrix types | refinement to the float model; classes of inputs whose covariance vanishes |
| C127 | squarepulse, multi_sine with types | induction over pulses and sines |
| C128 | FIRuncFilter, _fir_filter, _fir_filter_diag | lengths of the three "valid" convolutions and of in-place addition |
| C129 | FIRuncFilter, convolve_unc, DFT functions, interp1d_unc | difference of two covariances as a sum of covariances of further calls, each positive semidefinite |
| C130 | gumDFT, gumIDFT, dft2AmpPhase, ampPhase2DFT, time2AmpPhase, ampPhase2Time, dftMultiply, dftDeconv | both calls are unfolded and every intermediate value is shown to be multiplied by the factor of its unit |
| C131 | `DFT_multiply`, `DFT2AmpPhase`, `GUM_iDFT`, `AmpPhase2Time` with numpy broadcasting | Neg; case analysis of broadcasting, refinement of the models in Model/DFT.lean |
| C132 | gumDFT, dftDeconv, gumIDFT, convolveUnc | composition of C98, C30 and C22; invertibility of the circulant matrix |
| C133 | ua, make_semiposdef, trimOrPad | direct |
| C134 | grpdelay | discrete convolution theorem, quotient rule |
| C135 | FIRuncFilter | closed forms of both calls, stationarity of the prolonged covariance |
| C136 | sos_FreqResp, sos_phys2filter | broadcasting modelled, both branches |
| C137 | fit_som, FreqResp2RealImag | relation to the fit without uncertainties; negation by witness |
| C138 | interp1d_unc twice | values proved equal; uncertainties of two steps are never larger and strictly smaller inside refined segments (correlations of the fine grid are dropped) |
| C139 | DFT_multiply, DFT_deconv chains | composition of the bin-wise Jacobians |
| C140 | UMC_generic, UMC, MC | invariant of the block recursion under affine maps; linearity of lfilter and ARMA |
| C141 | interp1d_unc | inversion of successful calls, adjacent nodes |
| C142 | DFT_multiply, DFT_deconv then DFT2AmpPhase | composition of the bin-wise Jacobians, argument of a product modulo whole turns |
| C143 | MC and FIRuncFilter | covariance of products of independent variables, unbiasedness of sample mean and covariance |
| C144 | savitzky_golay | element-wise form of the padding, linearity of the window sum |
| C145 | impinvar, isstable | poles from the factored denominator; the tolerance for multiple poles is absolute, so that units do matter (witness) |
| C146 | LSFIR, invLSFIR, LSIIR, invLSIIR | sums of squares agree up to factor and constant; induction over the stabilisation loop |
| C147 | AmpPhase2DFT, AmpPhase2Time, DFT2AmpPhase | periodicity of sine and cosine in the sensitivity matrices; rows of the sensitivities are permuted by a delay |
| C148 | `gumDFT`, `gumIDFT` | parity of the transform rows, reindexing of sums by the mirror |
| C149 | `FIRuncFilter` | closed form of the output covariance, sums over coefficients |
| C150 | `trimOrPadMode` | arithmetic of the source index |
| C151 | `realimag`, `freqResp2RealImag` | expectation of sample mean and sample covariance |
| C152 | `convolveUnc` | symmetry of the continued signal, reflection of sums |
| C153 | fit_som | invariance of the normal equations under conjugation with a matrix of signs |
| C154 | ARMA, power_law_noise | strong induction on time; covariance of linear combinations; orthogonality of the roots of unity |
| C155 | MC | strong induction on the difference equation; induction on the runs |
| C156 | `interp1d_unc` | previous node of x = next node of the mirrored x; adjacent nodes exchange roles |
| C157 | `UMC_generic`, `UMC` | induction over the blocks with a relation between the states; causality of the recursive filters and of ARMA |
| C158 | `interp1d_unc` | previous, next and nearest node are monotone in x; shares of adjacent nodes lie in [0, 1] |
| C159 | `savitzky_golay` | the Gram matrix commutes with the signs (-1)^i, hence its inverse; padded signals are mirror images |
| C160 | `savitzky_golay` | the difference of the coefficients lies in the span of the powers and is orthogonal to it |
| C161 | `savitzky_golay` | the squares of the coefficients add up to the central one (projection), bilinearity of the covariance |
| C162 | `savitzky_golay` | the padded record equals the record inside, both values are the same weighted sum |

Simplifications worth knowing: `np.linalg.lstsq` and `pinv` are exact (tolerance 0);
`scipy.signal.residue` is an argument and `invres` is modelled by its meaning for
separated poles; `np.int` in `savitzky_golay` is taken to exist; `sos_FreqResp` uses
angular frequencies where its docstring has f; constant arrays in `corrcoef` (NaN) are
excluded by hypothesis.

Not modelled: plotting, printing to the console, warnings, the examples, `Signal.plot*`, the values
of scipy's spline kinds in `interp1d_unc` (discarded by the code), the code of `IIRuncFilter` behind the statement that raises.

## 6. Where the code does not have the property

Found by reading the code and proved of the model; the name is that of the theorem.

* `C07_covariance_shift_wrong` (Filter2.lean): C07 fails on the covariance path: for white noise of standard deviation 1 and the identity filter, the covariance for shift 1 has zeros on the diagonal, although every element of the shifted estimate has variance 1.
* `C07_fast_path_ignores_shift` (Filter2.lean): C07, negative part: on the variance-only path the shift has no effect at all.
* `C07_fast_path_wrong` (Filter2.lean): C07 fails on the variance-only path: the estimate is not moved.
* `C08_std_coefficients_with_full_covariance_rejected` (Filter.lean): C08, negative part: the documented combination of coefficient-wise standard uncertainties (1-D `Utheta`) with `return_full_covariance=True` is always rejected.
* `C09_float_read_as_variance_wrong` (Filter2.lean): C09 fails: the float 4 and the array [4, 4] give different uncertainties.
* `C104_umc_wrong` (Unbiased.lean): C104 is wrong for `UMC_generic` with block sizes of at least 3 (the default is 8): there are runs, as described in `C104_umc_partial`, whose expected covariance is not that of the model, whatever the number of runs.
* `C118_damping_units_wrong` (FitSomUnits.lean): C118 fails for the variance of the damping ratio in the linear propagation: doubling the numbers of the frequencies (0 and 1/(2π), responses 1 and i) changes it by the factor 2/5, though the damping ratio has no unit.
* `C119_damping_units_wrong` (FitSomUnits.lean): C119 fails for the variance of the damping ratio in the linear propagation: multiplying the frequency response and its uncertainty by 4 divides it by 4, though the damping ratio does not depend on the unit of the gain.
* `C11_iir_never_returns` (Filter2.lean): C11 fails: `IIRuncFilter` never returns; for every filter with `len(b) ≤ len(a)` it raises NameError, for all others ValueError.
* `C122_LSFIR_wrong` (FitFilterUnits.lean): C122 is wrong for `LSFIR`: for twice the response the coefficients are halved instead of doubled.
* `C124_LSIIR_wrong` (FitFilterGain.lean): C124 is wrong for small units: for the response (1/3, -1) at the frequencies 0 and 1, `LSIIR` finds with a delay of one sample the stable filter ([1/2], [1, 1/2]); for the same response in units that make the numbers smaller by 1e-13 it returns the filter ([1e-13], [1, 2]) with a pole outside the unit circle.
* `C124_grpdelay_wrong` (FitFilterGain.lean): A pure delay by one sample: in other units the delay is returned as 0.
* `C125_no_noise_wrong` (Ints.lean): C125 fails: whatever the filter, a signal of integers with white noise of standard deviation below one comes out as free of uncertainty.
* `C126_ampPhase2DFT_wrong` (Ints.lean): C126 fails for `AmpPhase2DFT` in the same way.
* `C126_ampPhase_wrong` (Ints.lean): C126 fails for `DFT2AmpPhase`: with a covariance matrix of the integers -1, 0 and 1 and a spectrum whose real and imaginary parts do not vanish and whose amplitudes are at least one, amplitudes and phases come out as free of uncertainty.
* `C126_deconv_wrong` (Ints2.lean): C126 fails for `DFT_deconv`: if the modulus of every bin of `H` is above one and the entries of the integer matrix `UY` are at most one, the uncertainty of `Y` is ignored.
* `C126_multiply_wrong` (Ints2.lean): C126 fails for `DFT_multiply`: if the real and imaginary parts of all bins of `F` are below one (a low-pass, say) and the entries of the integer matrix `UY` are at most one, the uncertainty of `Y` is ignored: the result is that of a spectrum that is known exactly.
* `C126_window_wrong` (Ints.lean): C126 fails with a window: if the products of the integers with the window stay below one (e.g. unit variances and any window below one), the spectrum comes out as free of uncertainty.
* `C127_wrong` (Ints.lean): C127 fails: at integer times (e.g. `np.arange(100)`) `squarepulse` with at least one pulse and `multi_sine` raise TypeError.
* `C128_coef_wrong` (FilterShapes.lean): C128 is wrong: as many uncertainties of the coefficients as there are values of the prolonged signal are accepted, and all values get the same uncertainty, in which the uncertainties are combined with the samples in reversed order.
* `C129_fir_wrong` (Monotone.lean): C129 does not hold for arbitrary covariance matrices of the signal, because the stationary prolongation into the past of a positive semidefinite matrix need not be positive semidefinite: `[[2, 2], [2, 5]]` exceeds the identity by a positive semidefinite matrix, but the difference filter `[1, -1]` has standard uncertainty `√2` of its first output value for the identity, and 0 for the larger covariance.
* `C130_amp2dft_sparse_wrong` (DFTUnits.lean): C130 is wrong for sparse uncertainties: amplitude 1 at phase π/4 with covariance 1/2.
* `C130_deconv_wrong` (DFTUnits.lean): C130 is wrong for `DFT_deconv`: with `H = i`, variance 1 of `Im H`, and `Y = 1` known exactly, the variance of `Re (Y / H)` is reported as 1; expressing `Y` by twice the number leaves it at 1 instead of 4.
* `C131_ampPhase2Time_wrong` (DFTShapes2.lean): C131 Not rejected: five amplitudes and phases with variances for three. The signal has eight elements, its covariance four rows.
* `C131_ampPhase_wrong` (DFTShapes2.lean): C131 Not rejected: a vector with `m + 1` variances. The last one is used for all imaginary parts.
* `C131_idft_estimate_wrong` (DFTShapes2.lean): C131 Not rejected: a vector `F` with `h + 2` elements. Its last element is taken as imaginary part of all bins.
* `C131_idft_vector_wrong` (DFTShapes2.lean): C131 Not rejected: a vector of an odd number `2h + 3` of variances. The signal has `2h` elements, but the covariance has `2h + 1` rows.
* `C131_multiply_matrix_wrong` (DFTShapes.lean): C131 Not rejected: a covariance matrix with no or one row gives an empty covariance, one with `m + 1` rows gives one of the right size whose values come from broadcasting single rows and columns.
* `C131_multiply_odd_wrong` (DFTShapes.lean): C131 Factors of length three are not rejected: the "product" has four elements.
* `C131_multiply_vector_wrong` (DFTShapes.lean): C131 A vector with `m + 1` elements is not rejected: its last element is taken as the variance of all imaginary parts.
* `C135_short_wrong` (Lowpass.lean): C135 fails for records shorter than the low-pass: for one sample with unit variance and two times the filter `(1, 1)` the variance 4 is returned; that of the cascade `(1, 2, 1)` is 6.
* `C136_filter_number_wrong` (SecondOrder.lean): C136 fails for `sos_phys2filter` if the resonance frequency is a number: several static gains raise ValueError.
* `C136_number_gain_error_wrong` (SecondOrder.lean): C136 fails if the static gain is a number: any other number of dampings raises ValueError.
* `C136_number_gain_wrong` (SecondOrder.lean): C136 fails if the static gain is a number: as many dampings as frequencies give one value for each frequency, computed with another damping each time, instead of one column for each damping.
* `C137_realimag_wrong` (SingleRun.lean): C137 fails: the phase `0` and amplitude `1`, both known exactly, come out of one run of `FreqResp2RealImag` with the number 1/2 as uncertainty of real and imaginary part.
* `C137_som_wrong` (SingleRun.lean): C137 fails: for an exactly known response (all standard uncertainties zero) of the system with static gain 2, damping 1/2 and resonance frequency 1, one run of `fit_som` reports the uncertainty 7/12.
* `C138_unc_wrong` (InterpTwice.lean): C138, the exception (and a concrete instance): nodes 0, 1, 3 with uncertainties 1, 1, 2, the fine grid 0, 1/2, 1, 2, 3 and the query 1/4: both ways give the value 5/4, but the two steps give a smaller uncertainty than the direct interpolation, because the correlations on the fine grid are lost.
* `C142_deconv_uncertain_wrong` (PolarProducts.lean): For an uncertain response the rule for the phases fails: the phases of `Y = 1` and of `H = i` have no uncertainty here, the phase of the quotient gets the variance one, because `DFT_deconv` uses a wrong derivative by the imaginary part of `H` (see C28).
* `C144_sign_wrong` (SavGolLaws.lean): A change of sign, and so superposition, fails at the ends: the padding takes absolute values, which continues every signal downwards at the beginning and upwards at the end.
* `C145_time_tolerance_wrong` (ImpinvarLaws.lean): C145 With the default tolerance, an absolute number, the result does depend on the unit of time: `1/(s+1) + 1/(s+2)` sampled at 1 Hz is converted; in units of 10 µs, the very same system raises ValueError.
* `C150_negative_wrong` (Pad.lean): C150 The documented shape `(length,)` is not kept for negative lengths, which drop samples at the end.
* `C150_rejected` (Pad.lean): C150 An empty record can be padded by zeros only; unknown modes are refused whenever something has to be padded - and are not noticed otherwise.
* `C152_even_wrong` (ConvReversal.lean): C152 Kernels of even length in the modes of `scipy.ndimage` prefer a direction of time: the symmetric signal `0, 1, 0` with the symmetric kernel `1, 1` gives `1, 1, 0`.
* `C159_ends_wrong` (SavGolReversal.lean): C159 At the ends that is wrong: the moving average over three samples of 0, 1 is 0 at the beginning, that of 1, 0 is 2/3 at the end, because the signal is prolonged downwards before its beginning and upwards after its end.
* `C16_single_element_kernel_wrong` (Convolution.lean): C16, negative part: convolution with a single number raises ValueError in the modes full, valid and same, although `numpy.convolve` is defined for it.
* `C18_window_vector_wrong` (DFT.lean): C18 fails for a vector of variances with a window: although documented, `Ux` of shape `(M,)` always raises an exception (IndexError) together with a window of matching length.
* `C23_asymmetric_wrong` (DFT2.lean): C23 fails as stated: for a genuine (positive semidefinite) covariance matrix the returned matrix is not symmetric, hence not a covariance matrix.
* `C25_sparse_wrong` (DFT3.lean): C25 The code is wrong for sparse input: amplitude 2, phase 0 and the covariance matrix `[[1, 1/2], [1/2, 1]]` of amplitude and phase give another result than the dense matrix.
* `C26_sparse_wrong` (DFT3.lean): C26 The round trip through the sparse format loses the covariance: for the bin `3 + 4i` with variances 1 and 2, `AmpPhase2DFT(*DFT2AmpPhase(F, UF, keep_sparse=True))` returns another covariance than `UF` (consequence of `C25_sparse_wrong`).
* `C28_wrong` (DFT4.lean): C28 fails as stated: for `H = i`, `Y = 1` with variance 1 of `Im H` only, the real part of `Y / H` does not depend on `Im H` to first order, but the code reports variance 1 for it: the result differs from `J_Y UY J_Yᵀ + J_H UH J_Hᵀ` for the true Jacobians.
* `C29_ignored_wrong` (DFT9.lean): C29 fails for an uncertainty of the second factor given as a number or a sparse matrix: it is ignored, the result is the same as for an exact second factor.
* `C29_mixed_wrong` (DFT4.lean): C29 fails for a variance vector together with a matrix for the other factor: the vector is added to every row. For two bins `Y = F = (1, 1)`, unit variances of `Y` and exact `F` (as zero matrix) the real parts of the two results appear correlated.
* `C29_vector_shape_wrong` (DFT4.lean): C29 fails for a variance vector: the returned array has two rows, so that it is not a `(2M, 2M)` matrix for more than one bin.
* `C38_default_bounds_wrong` (Interp2.lean): C38, contradicted: the documentation of `bounds_error` says that by default (None) an error is raised unless `fill_value="extrapolate"`; in fact a ValueError is raised for every query point out of range, also with `fill_value = fill_unc = "extrapolate"` (scipy gets a pair instead).
* `C38_int_fill_unc_wrong` (Interp2.lean): C38, contradicted: an integer `fill_unc` (accepted for the look-up kinds and as `fill_value`) makes linear extrapolation fail with a TypeError.
* `C40_unsorted_short` (Interp2.lean): C40: a too short array raises IndexError with `assume_sorted=False`.
* `C40_unsorted_truncates` (Interp2.lean): C40: what `assume_sorted=False` does with longer arrays: they are cut to the length of `t` before the check.
* `C43_covariance_wrong` (MonteCarlo.lean): C43 fails for every block size of at least 3 (the default is 8) as soon as a component varies in the first block: its variance is overestimated.
* `C44_samples_wrong` (MonteCarlo.lean): C44 fails for the stored simulations: if a pool of two processes delivers the two results of a block in reverse order, the stored result of the first sample is that of the second.
* `C45_return_samples_wrong` (MonteCarlo.lean): C45 fails: with return_samples, runs that are no multiple of the block size raise ValueError.
* `C45_runs_wrong` (MonteCarlo.lean): C45 fails otherwise: more samples than requested are evaluated.
* `C46_upper_wrong` (MonteCarlo.lean): C46 fails at the upper end: initial result 0, later the result 1, and the histogram ends at 0.
* `C47_single_wrong` (MonteCarlo3.lean): C47: with a single stable run no covariance can be computed, but `MC` does not raise: what it returns as uncertainty is the variance of the estimate over time, here 1/2 though signal and filter are exactly known.
* `C48_returns_wrong` (MonteCarlo2.lean): C48 is wrong: SMC raises an exception for every non-empty signal.
* `C49_unnormalised_wrong` (MonteCarlo2.lean): The recursion ignores `a[0]`: doubling all coefficients of the filter, which does not change its response, changes the output.
* `C55_ar_wrong` (Noise.lean): C55 fails for two autoregressive coefficients.
* `C55_ma_wrong` (Noise.lean): C55 fails for two moving-average coefficients.
* `C55_reversed` (Noise.lean): C55 (what the code computes): the recursion holds with the coefficients in reversed order, the coefficient array being cut to its first `n` entries while fewer than `p` values exist.
* `C55_reversed_late` (Noise.lean): C55: the recursion holds from index `max p q` on with coefficients in reversed order.
* `C60_crop_wrong` (FilterStuff.lean): C60 fails if the filters are longer than the FFT: the coefficients are cropped. A delay by two samples, analysed with `nfft = 1`, is reported as 0.
* `C62_analog_inverted` (FilterStuff2.lean): C62 (what the code does for analog filters): True iff no root has negative real part.
* `C62_analog_wrong` (FilterStuff2.lean): C62 fails for analog filters in both directions: the denominator `s + 1`, with its only root at -1, is reported unstable, and `s - 1`, with root 1, stable.
* `C63_short_wrong` (FilterStuff2.lean): C63 fails for signals not longer than half the window: one sample smoothed with a window of five gives five samples.
* `C65_rejected` (SecondOrder.lean): C65: a frequency response or uncertainties whose sizes do not fit to the frequencies are rejected.
* `C65_weighting_unbound` (SecondOrder.lean): C65: weighting by the uncertainties without giving them raises UnboundLocalError.
* `C66_damping_example_wrong` (SecondOrder.lean): C66: a point where the damping row is not the derivative.
* `C66_damping_wrong` (SecondOrder.lean): C66 is wrong for the damping: its derivative with respect to `mu[1]` is `1 / sqrt |mu[0] mu[2]|`, and the code's entry (with the sum instead of the product) is the derivative only if both happen to be equal.
* `C69_LSFIR_wrong` (FitFilter3.lean): C69 is wrong for `LSFIR`: the filter [2] has exactly the response [2], but the filter [1/2] is returned.
* `C69_matrix_weights` (FitFilter3.lean): C69: a matrix of weights of the documented shape `(M, M)` raises LinAlgError for `M > 1`.
* `C69_weights_wrong` (FitFilter3.lean): C69 is wrong for weights: the filter [1] has exactly the reciprocal of the response [1], but with weights [2] the filter [1/2] is returned.
* `C70_cov_conjugate` (FitFilter4.lean): C70: the covariance that is returned is the sample covariance of the filters fitted to the reciprocals of the *complex conjugates* of the drawn responses.
* `C70_cov_wrong` (FitFilter4.lean): C70 is wrong: the covariance returned by `invLSFIR_unc` is not that of the filters `invLSFIR` fits to the drawn responses.
* `C70_weights_wrong` (FitFilter4.lean): C70 is wrong for weights: an array is always rejected with ValueError, also one of length `2M`.
* `C71_cov_size_wrong` (Signals.lean): C71 is wrong for covariance matrices: one that does not fit to the values is accepted.
* `C71_rate_wrong` (Signals.lean): C71 is wrong for the other ways to give the sampling rate: with `Fs` alone, or with `Ts` of another type than float (e.g. `Ts=1`), neither attribute is set; with both, `Fs` is not set.
* `C72_fir_mc_wrong` (Signals.lean): C72 is wrong for FIR filters with Monte Carlo (whether requested or necessary because the uncertainty is a covariance matrix): TypeError for every filter and signal.
* `C72_iir_wrong` (Signals.lean): C72 is wrong for IIR filters: if a number of Monte Carlo runs is given nothing happens, and a certain filter (`filter_uncertainty=None`, the default) is rejected with ValueError otherwise.
* `C72_std_wrong` (Signals.lean): C72 is wrong for FIR filters: a filter that passes the signal unchanged does not keep its standard uncertainties.
* `C73_complex_wrong` (Impinvar.lean): C73 is wrong for complex residues: `(1+i)/(s+1-i) + (1-i)/(s+1+i)` at sampling frequency 1 gives `2√2` as first sample instead of 2.
* `C73_early_wrong` (Impinvar.lean): C73 is wrong if the sum of the (real) residues is 0, that is if the degree of the numerator is at least two less than that of the denominator: the impulse response is one sample too early.
* `C73_multiple_wrong` (Impinvar.lean): C73 is wrong for multiple poles: two adjacent poles within `tol` raise ValueError (TypeError if a pole is complex), whatever else the system is.
* `C74_squarepulse_wrong` (TestSignals.lean): C74 is wrong for time axes that begin late: no pulse at all from the time range on.
* `C75_multi_sine_wrong` (TestSignals.lean): C75 is wrong for `multi_sine`: one sine of "1 Hz" is not back at 0 after half a second.
* `C75_shock_wrong` (TestSignals.lean): C75 is wrong for `shocklikeGaussian`: at `t0`, the "time instant of signal maximum", the signal is 0.
* `C75_sine_wrong` (TestSignals.lean): C75 is wrong for `sine`: `1/freq` is a period only if `1/freq^2` is an integer.
* `C76_noise2_wrong` (TestSignals.lean): C76: the second generator `calc_noise2` cannot be used, it raises TypeError for all parameters and lengths.
* `C76_wrong` (TestSignals.lean): C76 is wrong: for `N ≥ 5` and `sigma ≠ 0` the matrix of `calc_cov` is the covariance matrix of the generated noise only for `w = 0` (white noise).
* `C79_means_wrong` (Tools.lean): C79 fails for two frequencies: with exactly known amplitudes 1 and 3 and phases 0 the returned real part is the single number 2.
* `C81_shift_wrong` (FilterStuff.lean): C81 fails always: the returned shift is never the delay of the (symmetric) filter, nor an integer.
* `C84_nbins_wrong` (MonteCarlo2.lean): C84 is wrong: only how many numbers of bins are requested matters, not which.
* `C84_rows_wrong` (MonteCarlo2.lean): C84 is wrong: all rows but the first are zero, whatever the results are.
* `C88_fraction_wrong` (FitFilter3.lean): C88 needs an integer initial delay: otherwise the delay of the fit is truncated when it is returned.
* `C88_justFit_wrong` (FitFilter3.lean): C88 is wrong for `justFit=True`: `LSIIR` then returns the delay 0 whatever delay was used, and the filter is not the fit for the delay 0.
* `C91_kept_wrong` (Signals.lean): C91 is wrong in that a label that is not given is not kept.
* `C93_prepad_zero_wrong` (Impinvar.lean): C93 is wrong for length 0: `prepad(v, 0)` returns all of `v`.
