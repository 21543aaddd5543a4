# Formal model of pywafo in Lean 4

The source under study is `/repo` (pywafo at the pinned commit, Python with a
small C / numba kernel).  It is read as text only and never executed.
`/verif/lean` is a Lake project: `lake build` builds every module imported from
`Verif.lean`.

## How the model is organised

* `Verif/<Area>/Model.lean`  transcribes the Python functions branch by branch.  Each
  definition cites the file and lines it models and states any simplification.
* `Verif/<Area>/Spec.lean` (or a section of the property file) holds the small
  independent specification used by theorem statements.
* `Verif/<Area>/Lemmas.lean` holds helper lemmas.
* `Verif/<Area>/Props.lean` holds the property theorems, each with a concrete
  `example` that meets its hypotheses.

## Modelling conventions

* A 1-D numpy array is a `List`.  A 2-D array is a function `Fin n → Fin n → α`,
  `ℕ → ℕ → α`, or a list of rows, as stated at the definition.
* Floating point numbers are elements of a linearly ordered field (ℚ or ℝ where
  square roots or transcendental functions are used).  Rounding, overflow, NaN
  and infinities are out of scope unless a definition models them explicitly
  (for instance NaN as `none`).
* Python exceptions are values: `Except PyErr α`, or `Option` where there is only
  one kind of failure.  Out-of-bounds reads of compiled (C / numba) code are modelled by a
  parameter giving the value found in memory; out-of-bounds writes by an explicit error.
* Mutable loops become structural recursion over the list or over a fuel that is
  shown to suffice.

## Trusted base

* Lean 4.33.0 kernel and Mathlib as installed.
* Every theorem depends on at most `propext`, `Classical.choice`, `Quot.sound`.
  No axiom is added; no `sorry`, `native_decide` or `bv_decide` occurs.
* The faithfulness of the transcription from Python to Lean (by inspection; the
  citations make it checkable), and the semantics of numpy primitives
  (`diff`, `sign`, `cumsum`, `argmin`, `searchsorted`, `where`, ...), modelled as
  documented by numpy.

## Plan per property

| id | what is modelled | how proved |
|----|------------------|------------|
| C01-C05 | `_findcross`, `findcross` with all kinds over an ordered type | induction over the scan with the last non-zero sign as state; equality with a filter |
| C06 | `ecross` over an ordered field | field arithmetic from the crossing characterisation |
| C07-C10 | `findextrema`, `findtp` | findcross of differences; induction over stretches |
| C11 | `findtc` | argmin/argmax over slices, crossing characterisation |
| C12-C16 | `local_findrfc` state machine, methods 0 and 1 | invariant of the state machine |
| C17-C19 | `_findrfc` (method 2), memory beyond the array as a parameter | loop characterisation, independence of the parameter |
| C20-C23 | `_findrfc3_astm`, `_findrfc5_astm` stack machine | stack invariant, conservation by induction |
| C24 | `cycle_pairs` slicing | list induction |
| C25 | `damage` | algebra of sums |
| C26-C27 | `level_crossings` | sorting and prefix sums; decision table |
| C28-C29 | `cycle_matrix`, `_discretize_cycle_pairs` | counting; counterexamples for the documented direction |
| C30-C33 | `cmat2nt`, `nt2cmat`, `nt2fr`, `fr2nt` | double sums; shape-level model for the exceptions |
| C34-C35 | `getbit` .. `setbits` over ℕ | `Nat.testBit` extensionality |
| C36-C40 | `lfind`, `piecewise`, `lazyselect`, `lazywhere`, `parse_kwargs`, `sub_dict_select` | list induction |
| C41 | index bookkeeping of `findoutliers` | set reasoning |
| C42 | `moving_average` | closed form, counterexample to the documented claim |
| C43-C47 | `spaceline`, rotations, polar coordinates, index conversion, `nextpow2` | algebra / real analysis |
| C48 | `discretize` loops | loop invariant |
| C49-C51 | `trangood`, `tranproc`, `good_bins` | algebra, counterexamples |
| C52-C54 | `gridcount` 1-D | sums over data |
| C55-C66 | polynomial module: coefficient lists, highest power first | induction over coefficient lists, Mathlib Chebyshev polynomials |
| C67-C69 | `PPform` | coefficient lists per piece |
| C70-C72 | slopes, Pchip, Stineman | real algebra |
| C73-C74 | `_find_ok_peaks`, `findpot` | greedy invariant; counterexample |
| C75-C77 | `edf`, `extremal_idx`, `returnperiod2sf` | algebra |
| C78-C81 | transformations | real analysis |
| C82-C83 | `k2w`, `w2k` | real analysis |
| C84-C86 | `plotscale`, transform ids, `to_cdf` | decision logic, sums |
| C87-C90 | `getshipchar`, `chebfitnd` shapes, `_get_turnpoint`, `gravity` | decision logic, real analysis |
| C91 | `findrfc` as in C17 | invariant on the produced index list |
| C92-C93 | `_gridcount_nd` with `bitget` and linear indices | sums over corners; witness at the edge |
| C94 | dtype of the `fill` argument of `chebval` | integer truncation as a parameter |
| C95-C96 | `chebroot`, `chebextr`, `chebfit` (node and function variants) | discrete orthogonality of cosines |
| C97 | `PPform.derivative/integrate` after `linear_extrapolate` | piece lists |
| C98-C101 | `slopes` (all methods), Pchip and Stineman interpolants | real algebra, calculus of rational pieces |
| C102-C103 | ASTM counting (as C20-C23) | shape invariant of the stack |
| C104-C106 | `SavitzkyGolay` weights, padding, `calc_coeff` | least squares over polynomial spaces |
| C107-C110 | transformation models and `TrCommon` | real analysis |
| C111 | `w2k` array iteration | iteration invariant per element |
| C112 | `PlotData.integrate` | trapezoidal sums |
| C113 | `clencurt` | aliasing of cosines, integral of Chebyshev polynomials |
| C114 | `romberg` | Euler-Maclaurin expansion of the trapezoidal rule on monomials, induction over columns |
| C115-C117, C121-C124 | `_expand_roots`, `q5_roots` .. `q9_roots`, `p_roots`, `h_roots`, `la_roots`, `j_roots` | orthogonality of the recurrences, existence of simple roots, interpolatory weights |
| C118 | `boole` | panel sums |
| C119 | `richardson`, `_Quadgr` | change of variable, loop specification |
| C120 | `qrule`, `_Gaussq` and its cache | loop specification, cache invariant |
| C125-C128 | kernels: `norm_factor`, `norm_kernel`, `stats`, `deriv4_6_8_10`, `psi` | integrals in d dimensions, moments, Hermite polynomials |
| C129 | `get_amise_constant`, `hns`, `hos`, `_get_g` | minimisation, equivariance of order statistics |
| C130-C133 | `KDE`, `TKDE` (one dimension for the transformation) | linear change of variables, loop sums, substitution |
| C134-C136, C139 | `KRegression`, `BKRegression` parts | weighted sums, quadratic inequality, fold invariant |
| C137, C138 | `_eval_grid_fast` (1-D), `_estimate_psi`, constants of `hscv` | circular convolution, linear binning |
| C140-C142 | `_raw_dctn`, `dctn`, `idctn`, `shiftdim` | invariant of the axis rotation, orthogonality of the cosines |
| C143 | `polynomial.idct` | orthogonality of the cosines |
| C144 | `_gengamspec`, `Bretschneider` | Gamma integrals, substitution |
| C145-C148 | `jonswap_peakfact`, `Jonswap`, `jonswap_seastate` | bounds and positivity of integrals, case analysis of the constructor |
| C149, C150 | `phi1`, `Tmaspec` | monotonicity of tanh and sinh(x)/x, uniqueness of the wave number |
| C151-C154 | `Torsethaugen`, `OchiHubble`, `McCormick`, `Wallop` | energies of the components, log-convexity of Gamma |
| C155-C161 | `Spreading`: all spreading functions, the spread parameter, `tospecdata2d`; Bessel function by its integral | Beta integral, Fourier series of the Poisson kernel, integration by parts, roots of unity |
| C162-C167 | `TimeSeries` wave parameters, steepness, periods, sampling period, default times | crossings alternate (C01-C06), so slices of the index vector line up with the waves; shift of times through all branches |
| C168-C171 | `LevelCrossings`: exceedances and extrapolation over a floor field, estimates and autoregression over the reals | induction over the records with the running maximum; exact least squares on a line; Yule-Walker algebra with `t = sin^2(alpha pi f) < S = sin^2(pi f)` |
| C172-C175 | `CovarianceEstimator`: the discrete Fourier transform as a complex sum, NaN as `none`, the window as a parameter | the transform of the periodogram is the circular autocovariance (orthogonality of the roots of unity); lengths and NaN by case distinction |
| C176-C177 | `SpecData1D.tocovdata` for spectra on a grid | the embedded transform is a trapezoidal sum of cosines; derivatives term by term |
| C178-C179 | `CovData1D.tospecdata` with `method='fft'` | the transform of a symmetric sequence is its own inverse up to the length |
| C180 | `CovData1D.sim`: the random numbers are elements of a vector space (numbers for one run, random variables for the distribution); shapes of the derivative | inner products of the linear combinations; inverse transform of the symmetric part of the circulant vector |
| C181 | `CovData1D.simcond` without the drawn sample; the solver is a parameter | orthogonality of the prediction error, from the equations that the solver solves |
| C182 | `SpecData1D.moment`; the integration rule is a parameter | induction over the loop; weights that follow the unit for hertz |
| C183 | setter of `freqtype` | case analysis |
| C184 | `normalize` | scaling of moments |
| C185 | `bandwidth` | Cauchy-Schwarz for weighted sums; scaling of moments |
| C186 | `characteristic`: values and selection | algebra over the moments in hertz |
| C187 | `characteristic`: covariances | partial derivatives of the documented functions; the quadratic form of the covariances of moments in the gradient |
| C188 | `characteristic` in hertz and in rad/s | scaling of integrals |
| C189 | `_check_dt`, `_check_cov_matrix` | case analysis |
| C190 | `SpecData1D.sim`, random phases, random numbers as vectors of an inner product space | amplitudes are orthogonal; sums of cosines over positive and negative frequencies |
| C191 | `SpecData1D.sim`, exact method | unfolding to `CovData1D.sim`, then C179 |
| C192 | `SpecData2D.moment`, quadrature as parameter | cases over the orders; counterexamples on two frequencies and two angles |
| C193 | `SpecData2D.rotate` without grid rotation | congruences modulo `2 pi` |
| C194 | `SpecData2D.rotate` with grid rotation | insertion sort is a permutation and sorted |
| C195 | `resample`; interpolation and `discretize` are parameters | the padded points are increasing and cover the new grid; the loop stops at a power of two |
| C196 | `tocov_matrix`, `_get_default_dt_and_rate` | C195 with C176 and C177 |
| C197 | `padua_points`, `_find_m` | arithmetic of the index set; injectivity of cosine on `[0, pi]` |
| C198 | `padua_fit`, `padua_val` | discrete orthogonality of cosines at the points, and a one-sided inverse of a square matrix is two-sided |
| C199 | `padua_fit` on polynomials | orthogonality; the span of cosine products is closed under multiplication by the coordinates |
| C200 | `padua_cubature`, `_compute_moments` | the integral of a Chebyshev polynomial by substitution |
| C201 | `error_estimate` | which antidiagonals are read |
| C202 | `padua_val` on meshgrids and outside the rectangle | rearrangement of sums; clipping |
| C203 | evans_webster_weights are exact on their span | uniqueness of the solution of the system; fundamental theorem of calculus |
| C204 | linear phase: nonsingular system, exact for polynomials | `q' + i omega s q` is injective on polynomials of degree below the number of nodes |
| C205 | bisection in `QuadOsc` | induction over the bisections; chain of adjacent parts |
| C206 | `QuadOsc` exact for polynomials and linear phases; `maxiter` | C204, C205 and the stopping rule; refuted for `maxiter < 2` |
| C207 | estimate and stopping rule of `QuadOsc` | induction over the loop |
| C208 | infinite intervals | change of variables, limits of filters |
| C209 | Levin collocation | induction over the order of the derivatives; transposed matrix of C204 |
| C210 | subdivision in `AdaptiveLevin` and `EvansWebster` | C01 for the crossings; sums over the chain of parts |
| C211 | node sets | monotonicity of cos, roots of Chebyshev polynomials, termination of the loop |
| C212 | `hyperbolic_ratio` over ℝ, inf is `none` | `exp (-x)` factored out of cosh and sinh, cases of signs |
| C213 | tables of names and numbers | table checked entry by entry, induction over lists |
| C214 | `tran` over lists, finite and infinite depth, igam 1-3 | membership in lists, positivity of cosh and sinh, limit of quotients |
| C215 | the 18 responses | complex identities, derivative of the exponential |
| C216 | velocities | derivatives in x, y, z of products of hyperbolic functions and exponentials |
| C217 | pressure, accelerations | the same with the dispersion relation |
| C218 | direction cosines | shift formulas of cos and sin |
| C219 | `wave_pressure` | monotonicity of cosh |
| C220 | `findpeaks` on lists and matrices, argsort as a parameter with its specification | selection lemma on top of the turning points |
| C221 | `edfcnd` on top of `edf` | filter of a sorted list is a suffix |
| C222 | `reslife` with the quantile as a parameter | sums over filtered lists; counting in the sorted list |
| C223 | blocks by floor, counts and index; choice of the threshold | induction over the data; floor and order invariance |
| C224 | `stirlerr`, `_betaln3`, `betaloge`, `binomln` over the reals | bounds by Stirling's series for real arguments: second derivative of the step is rational, convexity, telescoping to the limit of Bohr and Mollerup |
| C225 | `fourier` with the trapezoidal rule and the array of the caller as a state | orthogonality of cosines and sines on the grid |
| C226 | `num2pistr` from the fraction on | case analysis |
| C227 | `cdflomax` on real numbers | rotation of the pair, derivative of the joint law; normal law from Mathlib |
| C228 | `cdfnorm2d` on arrays of reals, low branch | Plackett's identity proved by differentiating under the integral, substitution along the arc |
| C229 | the same, `r = ±1` and beyond | section of the law; error branch `none` for nan |
| C230 | the same, high branch with its cut-offs | tail integral of Plackett's identity, antiderivative of the series part, bounds for the dropped terms |
| C231 | the same | algebra; for the failure, growth of the two rules for large limits |
| C232 | the index arrays `k1`, `k3`, `k13` of the code | membership in the filtered lists |
| C233 | `prbnorm2d` with extended real limits, `cdfnorm2d` a parameter | symmetries of the law, inclusion and exclusion with null boundaries |
| C234 | the tables as rationals | exact moments by kernel evaluation, linearity for all polynomials |
| C235 | the link functions with partial float operations (`none` for nan) | algebra with logarithms and powers for each branch |
| C236 | the same | the same; witnesses for the wrong branches |
| C237 | the same | the same |
| C238 | the same | the same |
| C239 | index handling of `_CommonProfile` | membership in the filtered index list |
| C240 | `_search_p_min_max` with an arbitrary profile per call | invariant of the loop by induction on the steps left |
| C241 | `_get_profile` | induction along each side |
| C242 | `get_bounds` over the model of `findcross` and `ecross` | first and last point above the level; C01, C02 give the crossings |
| C243 | `_adaptive_pvec` | membership, counting with the two repeated points |
| C244 | `_hessian` with the vector changed in place, `_invert_hessian` | invariant of the loop; bilinear expansion |
| C245 | `_staircase` | induction over the bars |
| C246 | `_get_grid` | floor of the decimal logarithm, floor and ceiling of the limits |
| C247 | keyword handling with symbolic keys, `restore` | induction over parameters |
| C248 | `_log_dprb`, `_nlogps_and_penalty` over the reals | telescoping sum, log x <= x/a - 1 + log a |
| C249 | `_penalized_nlogps` | rewriting of the standardised data |
| C250 | `_ci_profile` | map over the parameters |
| C251, C252, C253, C254, C255 | `_pdf`, `_cdf`, `_ppf` and the other methods of 40 distribution classes over ℝ | the derivative of the cdf is the density; the quantile function gives the limits at the ends of the support; fundamental theorem on an open interval |
| C256 | the classes made of pieces | derivatives glued at the joints |
| C257 | `kappa4` | generalised Pareto distribution in the variable of the extreme value distribution |
| C258 | gamma family | substitution into the integral of the gamma density; the inverses of the incomplete gamma and beta functions are parameters |
| C259 | `_rvs` | the law of the transformed draws by change of variables, Tonelli's theorem for the semicircular distribution; inverse transform for all distributions with quantiles |
| C260 | `_stats`, `_munp` of the gamma family | gamma integrals after substitution |
| C261 | `_stats`, `_munp` of power-law and bounded distributions | moments through the quantiles (inverse transform), primitives for trigonometric densities |
| C262 | `_entropy` of 36 classes (MomModel, EntModel), specification `HasEntropy`: the integral of `f log f` exists and its negative is the reported number. | Densities of functions of a gamma variable by change of variables and the derivative of the gamma function under the integral; densities with explicit quantiles by the law of `ppf` of a uniform variable and integrals of logarithms; truncated Rayleigh refuted at `c = 3` by an upper bound. |
| C263 | `_pdf`, `_logpdf`, `_cdf`, `_logcdf`, `_sf`, `_logsf`, `_ppf`, `_isf` of 19 classes (NormModel); `ndtr` is Mathlib's Gaussian measure of a half line, `erfc` an integral, `ndtri`, `erfcinv` and `quad` are parameters. Specification as for C251-C258. | Composition of the normal distribution function with a change of variable and its inverse; where there is no quantile function, the derivative of `_cdf` and its limits at the ends of the support; two pieces with matching derivative for the crystal ball; symmetry for the skew normal. |
| C264 | the functions of basic draws in the `_rvs` methods of the normal family | laws as measures; change of variables, folding, and mixtures over an independent normal draw (swap of integrals) |
| C265 | `_stats` of the normal family | moments of the normal variable by parts, moment generating function, product laws for exponnorm and skewnorm, recursion for invgauss, comparison with 1/x for the heavy tails; moyal beyond the mean in C267 |
| C266 | `_entropy` of norm, halfnorm, lognorm, gilbrat | expected value of the logarithm of the density |
| C267 | loggamma; `_stats`/`_munp` of loggamma, gumbel_l, gumbel_r, genlogistic, logistic, moyal, halflogistic | logarithms of gamma variables: derivatives of the gamma function under the integral, polygamma as Hurwitz sums, cumulants of sums of independent variables, series for halflogistic |
| C268 | `_pdf`, `_cdf`, `_sf`, `_ppf`, `_isf`, `_logpdf` of beta, betaprime, f, t, rdist | incomplete beta integral, substitutions; the inverses of scipy are parameters with an existence theorem |
| C269 | `_stats`, `_munp` of beta, betaprime, f, t | beta integral and its recursion; divergence by comparison with a power |
| C270 | moments of burr, fisk, burr12, rdist, hypsecant; `_rvs` of rdist and betaprime | powers of beta prime variables, duplication formula, law of a quotient by Tonelli |
| C271 | truncnorm with finite and infinite limits, near the centre and in the far tails | limits in `EReal`, truncation of the normal law, solvers as parameters with existence theorems |
| C272 | `truncnorm._munp`, `_stats` | recursion for partial moments by integration by parts, induction over the order |
| C273 | `rv_histogram` | lists of contents and bins, location of a point in its bin, `np.interp` on increasing and on non-decreasing nodes |
| C274 | wrapcauchy, tukeylambda | half-angle substitution and the Poisson kernel; inverse function theorem on the quantiles |
| C275 | `genextreme._stats`, `_munp` | substitution by an exponential variable, binomial expansion and the gamma integral; divergence near zero; Lipschitz bound at c = 0; arrays with the broadcasting of `_lazywhere` |
| C276 | `CrystalModel` (`nthMoment`, `munp`) on top of the density of `NormModel`; the Gaussian part through the incomplete gamma function as antiderivative, the tail by reflection, the binomial theorem and integrals of powers; divergence by comparison with a power |
| C277 | `Pbinom/Model` (`chi`, `chiArr`, `fft`, `fftPmf`, `localPmf`, `init`, `pmf`, `cdf`, `sf`) against the sum over all outcomes of independent trials (`Pbinom/Spec`); polar form by induction, the second half by conjugation, inversion by orthogonality of roots of unity |
| C278 | `stats` of the same model; moments about any point by induction over the trials |
| C279 | `Dist/StartModel` (`_genpareto_fitstart`); mean and variance of the shifted and scaled density as integrals. The claim is false as the code stands (sign of the shape); partial and refutation (`Dist/StartProps`) |
| C280 | `Dist/StartModel` (`_genextreme_fitstart`); expectation of the larger of two draws as an integral, mean of the larger value over pairs as a recursion on the list; invariance under permutation, then the sorted sum (`Dist/StartGevProps`) |
| C281 | `Dist/StartModel` (weibull_min, lognorm, bradford, f, chi, ncx2); integrals by change of variables to the Gumbel and the normal density (`Dist/StartProps2`) |
| C282 | `mctp2rfc` on matrices of reals, loops as written, `np.linalg.solve` by the inverse with an error for singular matrices. Block equations kept as an invariant of the loops; the solved equation is the Neumann series of a substochastic matrix, hence the sum of path probabilities. |
| C283 | `_raw_iter` with `fun2rfc` as parameter; induction over the turns. |
| C284 | Control flow, slices and shapes of `mctp2tc`; Python slices with steps counted exactly; `mc2rfc` up to the line which raises. |
| C285 | `mktestmat`, inverse of the 2×2 matrix in closed form. |
| C286 | `Spline/Model` translates `SmoothSpline` with `spdiags`, the band matrices and the piecewise coefficients; `spsolve` is the matrix inverse with an error for singular matrices. The matrix is shown positive definite (summation by parts), the pieces are shown equal to a sum of truncated cubes, and the integral of the second derivative against any other is computed by parts: the cross terms cancel, so the cost of any competitor is that of the spline plus squares. Evaluation and extrapolation use the `PPform` theorems C67 and C69. |
| C287 | The traces are computed from the bands; both are positive. |
| C288 | Sorted index lists of distinct keys are unique, so `argsort` is determined; the counterexample uses `p = 0`, where C286 gives the value of the line. |
| C289 | The class `Cheb1d` with a heap of arrays (Verif/Cheb/Object). Trailing zeros are split off by induction from the right; the exact condition by comparing degrees of the two polynomials. |
| C290 | Case distinction on the index against the order; well-formedness of object and heap is kept. |
| C291 | Which locations a write can reach; the negations hold for every object. |
| C292 | Every method ends in a call of `__setattr__`, which raises; the intermediate calls may raise first. |
| C293 | numpy's comparison with broadcasting modelled by cases on the lengths; what numpy does for other shapes is a parameter. |
| C294 | `Logit/Model` translates `RegLogit` with index types for observations, thresholds and covariates. The categories are counted by ranks; `Logit/Spec` defines the model without reference to the code. |
| C295 | The log-likelihood along a line through the parameters is differentiated twice; `dl` and `d2l` are recognised in the result. |
| C296 | The second derivative along a line is a sum of terms which are not positive; a concave function with derivative 0 has its maximum there. |
| C297 | Sums over categories; the gradient at the start values vanishes. |
| C298 | The log-likelihood lies below its tangents (C296), which decides the sign of the quotient tested; for the witness the Newton step is `t - sinh t`. |
| C299 | Cases of the broadcast shapes. |
| C300 | Telescoping sum; with `A`, `A'` the differences of the logistic function to the left and right, `1 / A' - 1 / A = 2 sinh eta`, which is monotone. |
| C301 | Both variances as sums of squares over the columns of the square root. |
| C302 | Induction over the descending list of singular values; explicit decomposition for the witness. |
| C303 | `padefitlsq` with the decomposition as a parameter; the first pass solves a consistent system, later ones can only replace it by a pair with deviation 0; two quotients agreeing at more than m+k points are equal. |
| C304 | Loop invariant over the passes, with nan and inf in the deviations and Python's `max`. |
| C305 | Broadcasting of the arrays against those of length `npt`. |
| C306 | `padefit` relative to the defining property of the Padé approximant. |
| C307 | `TrData` on the model of `tranproc` with `np.interp` as the model in `LevelX`; the values lie on a polygon over equidistant points, which is monotone. |
| C308 | `TrData.__init__` and `dist2gauss` for linear tables. |
| C309 | `np.percentile` for one row as sorting and interpolation; counting above the level. |
| C310 | As C309, with the position rounded down or up. |
| C311 | `qlevels` for one argument on the model of `tranproc`: the table of sorted heights against cumulated masses is strictly increasing. |
| C312 | `qlevels` for a density on one point. |
| C313 | `disufq`: updates in program order on flat arrays; the Fourier sum is shown equal to the double sum over ordered pairs, by linearity over the list of updates and symmetry of the factors. |
| C314 | Flat indices of all updates against the size of the arrays. |
| C315 | Diagonal factors: algebra for the sum, limit along the dispersion relation by difference quotients; the group velocity is its derivative and below the long wave speed. |
| C316 | Limits for growing depth with `tanh -> 1`. |
| C317 | Algebraic identities between the tables of `qtf` and the factors of `disufq`. |
| C318 | Method 'winterstein': limit for growing depth, unit change, depth one. |
| C319 | Method 'langley', sum frequencies: exact error term and asymmetry. |
| C320 | `disufq` with one component against Stokes' second order wave. |
| C321 | The limits `nmin`, `nmax` of `sim_nl` as positions in `f`; which components the loops of `disufq` then use. |
| C322 | `stats_nl` with the tables for infinite depth: sum and difference table add to half the smaller wavenumber. |
| C323 | Order of the moments and methods of `stats_nl`. |
| C324-C326 | `Kalman._filter_main` and its parts over real matrices of any size | completing the square in the gain; positive semidefinite invariant over lists of observations |
| C327-C331 | the `Kalman` object with `None` defaults, `reset`, `_filter_first`, numbers and matrices for `R` | matrix algebra, limits, induction over calls; concrete refutations |
| C332-C335 | `HodrickPrescott`: the banded matrix with its corrections; `spsolve` as any solution | `I + w D'D` entry by entry, completing the square, compactness free limit argument |
| C336-C340 | `HampelFilter` with fixed windows; the window search of the adaptive filter (not its smoothing) | medians characterised by counts; induction over the search |
| C341-C348 | `SmoothNd`, `_Filter` for one dimension and given `s`: weights, one pass, the loop, robust weights, start values | the cosines are eigenvectors of the reflecting second difference, so a pass is the exact solution of a linear system; descent by majorisation |
| C349-C350 | `evar` for one dimension, `fminbound` as any function | Parseval for the cosine matrix; eigenvectors as witnesses |
| C351-C352 | `SavitzkyGolay.smooth_last` with given coefficients, `smooth` away from the edges | index arithmetic on lists, for all lengths |
| C353-C357 | `lh83pdf`, `cav76pdf`, one entry of the table | Gaussian integral over the amplitude, explicit antiderivative over the period; identity with Rice's density written independently |

Disagreements between code and property are proved as negations with a concrete
witness (or for every input of a class) and recorded below, together with the part of
the property that does hold (theorem name ending in `_partial`).

## Modelled and not modelled

| source file | modelled | not modelled |
|----|----|----|
| `_misc_numba.py`, `c_functions.c` | `_findcross`, `findcross`, `local_findrfc` (both methods), `_findrfc`, `findrfc`, `_findrfc3_astm`, `_findrfc5_astm`, `findrfc_astm`, `disufq` (both kernels, in real numbers) | reads past the input arrays of `disufq` |
| `misc.py` | crossings, turning points, rainflow filter, `findoutliers`, `piecewise`/`lazyselect`/`lazywhere`, `parse_kwargs`, `sub_dict_select`, rotations and polar coordinates, `spaceline`, `sub2index`/`index2sub`, `nextpow2`, `discretize`, `trangood`, `tranproc`, `good_bins`, `gravity`, `getshipchar`, `moving_average`, `findpeaks`, `stirlerr`, `betaloge`, `binomln`, `fourier`, `num2pistr` | plotting, `hyp2f1`, printing helpers, `fourier` with Simpson's rule |
| `objects.py` | `LevelCrossings`: construction, estimate of mean and standard deviation, exceedances, `extrapolate` with the fit as parameter, the autoregression in `sim`; `CyclePairs` (damage, level crossings, cycle matrix), `TurningPoints.cycle_pairs`, `ecross` use; `TimeSeries.__init__`, `sampling_period`, `wave_parameters`, `wave_height_steepness`, `wave_periods` (with `findtp` and the Stineman interpolation as parameters) | confidence bands of `extrapolate`, the transformation in `sim`, `TimeSeries` spectra and covariance, plotting |
| `markov.py` | `cmat2nt`, `nt2cmat`, `nt2fr`, `fr2nt`, `mctp2rfc`, `iter_`, `_raw_iter`, `mktestmat`; shapes and control flow of `mctp2tc`; `mc2rfc` up to the line which raises | `cmatplot`, `arfm2mctp` (raises at `np.eye((n, n))`; the rest is commented out), the linear solvers inside `mctp2tc` |
| `bitwise.py` | everything | |
| `polynomial.py` | `polyint`, `polyder`, `polyreloc`, `polyrescl`, `polyshift`, `polytrim`, `poly2hstr`, Chebyshev evaluation, roots, extremes, fit, derivative, integral, conversion, orthogonal polynomials, shapes of `chebfitnd`, `Cheb1d`, `padefit`, `padefitlsq` | rational functions other than `padefit`, `padefitlsq` |
| `interpolate.py` | `PPform`, `slopes`, `Pchip`, `StinemanInterp`, `SmoothSpline` (one data set), Savitzky-Golay | `sgolay2d`, `interp*` |
| `stats/core.py` | `findpot` and helpers, `edf`, `edfcnd`, `extremal_idx`, `reslife`, `dispersion_idx`, return periods, `RegLogit` (`check_xy`, `fit`, `loglike`, `predict`) | plot objects, printing of `RegLogit` |
| `transform/models.py`, `transform/core.py` | `TrLinear`, `TrOchi`, `TrHermite`, `TrCommon`, `TrData` | estimation |
| `wave_theory/dispersion_relation.py` | everything | |
| `containers.py` | `plotscale`, `transformdata` ids, `to_cdf`, `integrate` | plotting |
| `kdetools/gridding.py` | `gridcount`, `bitget` | `accum`, `accumsum` as general functions |
| `kdetools/kernels.py` | kernel classes, stats, `deriv4_6_8_10`, `psi`, `get_*_constant`, `iqrange`, `qlevels` (one argument), `qlevels2` (one row), `hns`, `hos`, `_get_g`, `_estimate_psi`, two constants of `hscv` | `hmns`, the other bandwidth selectors |
| `kdetools/kdetools.py` | `KDE` (points; grid in 1-D), `TKDE._eval_points` and transformations in 1-D, keyword handling of `TKDE._eval_grid_fast`, `KRegression`, `BKRegression` grid, empirical probabilities, intervals, search | plot objects, multidimensional grids, `prb_smoothed`, fft rounding |
| `dctpack.py` | `shiftdim`, `dctn`, `idctn` with type 2 and `norm='ortho'`; scipy's one dimensional transforms by their formulas | sine transforms, other types |
| `spectrum/models.py` | the frequency spectra with their constructors; `integrate.quad`, `fminbound` and the wave number solver are taken to be exact; `Spreading` with the results of its equation solvers as parameters | warnings, plotting, the Newton iterations of `fourier2a`, `fourier2k`, `fourier2b` |
| `integrate.py` | everything except printing and plotting | `qdemo`, scipy's own root functions, dtype of integer-valued integrands |
| `covariance/estimation.py` | everything except the interactive use; `get_window` and `detrend` are parameters or absent | |
| `covariance/core.py` | `tospecdata` with `method='fft'`, `sampling_period`, `sim` without transformation, `simcond` without the drawn sample | interpolation with other methods, plotting |
| `spectrum/core.py` | `qtf` (entry by entry), index limits in `sim_nl`, `stats_nl`, `SpecData1D.tocovdata`, `sampling_period`, `moment`, `freqtype`, `normalize`, `bandwidth`, `characteristic`, `_check_dt`, `_check_cov_matrix`, `sim`, `SpecData2D.moment`, `rotate` (grid rotation of wave number spectra is a parameter), `resample`, `tocov_matrix` (interpolation and `discretize` are parameters) | `sim_nl`, Fortran interfaces |
| `padua.py` | `_find_m`, `padua_points`, `padua_fit`, `error_estimate`, `padua_val`, `_compute_moments`, `padua_cubature`; `fft` is the exact transform | the example functions, `paduavals2coefs` and `padua_fit2` (marked as not working in the source), input of another number of points |
| `integrate_oscillating.py` | both bases, `evans_webster_weights`, `osc_weights`, `QuadOsc`, `AdaptiveLevin`, `EvansWebster`, the point functions; `Limit` is the value, derivatives are exact, `lstsq` is any function that solves nonsingular systems, `dea3` is any function | `richardson` (unused), `tanh_sinh_nodes`, nan and infinite values, warnings |
| `wave_theory/core.py` | `hyperbolic_ratio`, `sensor_typeid`, `sensor_type`, `TransferFunction`, `wave_pressure`; `w2k` and `jonswap_peakfact` are parameters here; sharing of arrays between arguments and results (reshaping of `theta`, `Hw` being `w` or `kw`) is not modelled |
| `gaussian.py` | `cdflomax`, `fi`, `cdfnorm2d` (with its index arrays), `bvd`, `prbnorm2d`; not `Rind`, `prbnormtndpc`, `prbnormndpc`, `prbnormnd` (compiled Fortran) |
| `stats/estimation.py`, `stats/_distn_infrastructure.py` | the link functions, index handling, search, evaluation, grid and bounds of the profile classes, `_hessian`, `_invert_hessian`, `_staircase`, `_get_grid`, `_ci_profile`; fixed parameters (`_get_fixed_fit_value` to `_reduce_func2`), `_log_dprb`, `_nlogps_and_penalty`, `_penalized_nlogps`; optimisers, `pinv`, distribution functions are parameters; not infinite profile values, plotting, `_pvalue`, `_fitstart` |
| `stats/distributions.py` | `pbinom` (construction, `_pmf`, `_cdf`, `_sf`, `_stats`, `_local_pmf`); the start values `_genpareto_fitstart`, `_genextreme_fitstart`, `_weibull_min_fitstart`, `_lognorm_fitstart`, `_bradford_fitstart`, and the shapes of `_f_fitstart`, `_chi_fitstart`, `_ncx2_fitstart` (`Dist/StartModel`); `truncrayleigh` has the same functions as in `_continuous_distns.py` | `pbinom._rvs`, the methods of scipy's `rv_discrete`, the start values of betaprime, nct, reciprocal, the inherited `_fitstart` |
| `stats/_continuous_distns.py` | `_pdf`, `_logpdf`, `_cdf`, `_logcdf`, `_sf`, `_logsf`, `_ppf`, `_isf`, `_get_support`, `_argcheck` of 83 classes (lists in `lean/Verif/Dist/Model.lean`, `GammaModel.lean`, `NormModel.lean`, `LogModel.lean`, `BetaModel.lean`, `TruncModel.lean`, `HistModel.lean`, `WrapModel.lean`), at points inside the support; `_stats`, `_munp`, `_entropy` of the classes in `MomModel.lean`, `EntModel.lean` and `GevModel.lean`, `CrystalModel.lean`; `_rvs` in `RvsModel.lean` as transformations of the draws; special functions of scipy are the mathematical functions, inverses of the incomplete gamma and beta functions, `tklmbda`, the iteration `_norm_ilogcdf` and `brentq` are parameters; not the methods inherited from `rv_continuous` (location, scale, values outside the support), `fit`, the random number generators, nor the other classes |
| `sg_filter/_core.py` | `Kalman`, `HodrickPrescott` (`spsolve` as any solution), `HampelFilter` (not `smgauss`), `SmoothNd` and `_Filter` for one dimension and given `s`, `evar` for one dimension, `SavitzkyGolay.smooth_last` | `savgol_coeffs` and the edges of `SavitzkyGolay.smooth` (scipy), the search for `s` (`gcv`), more dimensions of `SmoothNd` and `evar` |
| `wavemodels.py` | `lh83pdf`, `cav76pdf`: the entries of the table, the default transformation as a linear function | default grids, contour levels, the interpolation in `TrData` |

Everything else in the repository (other parts of the spectral data objects, Gaussian processes, other distributions,
graphics, Fortran) is outside the model.  The properties of these parts are mostly numerical.

For the Gauss rules the Newton iterations are modelled as the map from start values to nodes and weights;
`Converged` states that the iteration ended at the exact roots, and the existence of such values is proved.

## Disagreements between the code and the stated properties

| id | disagreement |
|----|----|
| C05 | an invalid `kind` is not reported when the signal has no crossings |
| C08, C10 | a signal starting with a plateau followed by a drop gets a non-alternating turning point, `[1, 1, 0, 2]` |
| C13 | method 1 with `h = 0`: one sample overflows the index array, a constant signal repeats an index |
| C15 | the first stretch may lose a reversal, `[0, .9, -.9]` with `h = 1` |
| C16 | method 0 is not idempotent at an exact tie, `[0, 1, 0]` with `h = 1` |
| C17 | an even number of turning points reads one element past the end (never influencing the result); two turning points raise IndexError |
| C20, C21 | non-alternating input `[0, 10, 12, 0]` |
| C26 | names of the kinds are off by one; `'u'` is rejected |
| C27 | all extremes negative with a tie: spurious level 0; cycles of mixed direction: the falling ones are ignored |
| C29 | indices one too large; `np.any(ix)` ignores index 0 |
| C32, C33 | mistyped slice in `nt2fr`; `fr2nt` always raises |
| C38 | `lazyselect`: the last true condition wins |
| C41 | a single collected index is reported both spurious and good |
| C42 | `moving_average` divides by `2L` and uses `x[i-L]` |
| C49, C50 | `trangood`: lower extrapolation leaves a gap, upper values use the wrong argument; `tranproc`: fourth derivative wrong, derivative at the left end wraps around |
| C52, C54, C93 | unequal steps double the mass; a datum on the last grid point raises IndexError (1-D) or gets weight 3 (2-D) |
| C57, C69, C94, C67 | integer arrays truncate the results |
| C60 | two or more trailing zeros lose the exponent in `poly2hstr` |
| C63, C64 | `chebder` doubles the constant term, short lists raise; `chebint` is not an antiderivative |
| C67, C97 | an interior break uses the left piece; `derivative`/`integrate` forget the infinite bounds |
| C71, C98-C101 | slopes: 'parabola' end slopes, 'steffen' sign for falling data, adjusted neighbours, two points; Stineman: one matching end slope, horizontal end chord, units |
| C73, C74 | `findpot`: `iy[:2]` instead of `iy[::2]`; a third cluster is lost |
| C76, C77 | real times wrap to negative indices; scalar arguments raise TypeError |
| C80, C81 | `TrOchi`: `mean2` lacks the factor `2/a`; beyond the vertex the mirrored value is returned |
| C85 | missing comma in the id table: digits 5 and 7 KeyError, 8 and 9 IndexError |
| C87 | misspelled key for the deadweight; given value returned rounded |
| C88 | swapped unpacking: raises or fits the norms of the columns |
| C89, C104, C106 | Savitzky-Golay: last single sample, leading plateau, sign and factor of derivatives, falling lines at the ends |
| C107-C109 | `TrOchi` ignores a new skewness; `TrHermite` limit not scaled; non-monotone cubic raises TypeError |
| C112 | exchanged limits ignore the interior data |
| C113 | table of samples always raises; negative error estimate for `b < a` |
| C114 | TypeError for interval lengths from 8e-9 to 1.07 and for `b < a` |
| C115, C121, C122 | `p_roots(1)`, `h_roots(1)` repeat the node |
| C118 | wrong values unless there are `4m+1` points |
| C120, C124 | weight exponents exchanged for `wfun=4`; sign kept for reversed limits with `wfun` 5 and 6; cache key with six digits |
| C125 | `_KernelGaussian` divides by `(2 pi r/4)^(d/2)` instead of `(2 pi (r/4)^2)^(d/2)`: wrong unless r = 4 |
| C126 | `norm_factor(d)` raises TypeError for the triangular and logistic kernels, and so does `hstt` |
| C127 | Rdd of the triweight kernel is given as infinity, it is 35 |
| C130 | default bandwidths written into an integer vector are truncated to zero |
| C133 | powers lose the mass at negative transformed values; integer data are truncated after the transformation; a single point raises ValueError |
| C134 | planes are not reproduced in 2-D with p=1; fast evaluation never gives negative values; with `L2` it ignores the responses |
| C136 | the start value outside the candidates can win |
| C138 | `psi12` in `hscv` is one twelfth of the functional |
| C141 | negative axes pass the checks but are not transformed |
| C142 | an array with only singleton axes keeps them all |
| C143 | `idct(x, n)` divides by `len(x)` instead of `n` |
| C145 | the peakedness jumps from 1.018 to 1 at `Tp/sqrt(Hm0) = 5.14` |
| C146 | normalised by integration a peaked spectrum has more energy than `Hm0^2/16`: the integral stops at the cut-off |
| C147 | `and` binds tighter than `or`: the limits for `M` and `gamma` are ignored if `N` is in range |
| C148 | `Jonswap(**jonswap_seastate(..))` takes Phillips' constant for the normalisation: too little energy |
| C149 | `phi1(-w) = -phi1(w)` |
| C150 | the significant wave height of `Tmaspec` is smaller than `Hm0` |
| C151 | `wnc` has no effect; `Hm0 = 0` raises ZeroDivisionError |
| C152 | the energy is never exactly `Hm0^2/16`; without the check negative `par` count from the end |
| C153 | `Tz` is the energy period, not the zero-crossing period; `Hm0 = 0` without `M` raises TypeError |
| C155 | `sech-2` with spread parameter 0 is zero in all directions |
| C156 | the equation used for `sech-2` holds for the function on the whole line, not on a full turn |
| C158 | at `wn_lo`, `wn_c`, `wn_up` the spread parameter is not the documented one |
| C159 | `Box-car` and `Poisson` raise KeyError; `donelan` and `banner` raise AttributeError; `method` reported for frequency independent spreading is rejected |
| C160 | `wrapped-normal` assumes a spacing of `2*pi/Nt` from the first angle, whatever the angles are |
| C164 | `wave_periods`: the start indices count from one when the series starts with a down-crossing, so `'d2d'` returns the periods between up-crossings |
| C165 | `wave_periods` for minima, maxima, troughs, crests and `'all'` returns differences of elevations |
| C166 | `'u2c'`, `'d2t'`, `'c2d'`, `'t2u'` are differences of an elevation and a time; fewer than two points raise IndexError |
| C167 | `TimeSeries(data)` raises TypeError (`any(None)`); with empty or all-zero times `args` becomes a `range`, for which `wave_parameters` raises TypeError |
| C169 | `extrapolate` has one crossing more than observed at both thresholds (`lcu = interp + 1`); IndexError when the highest level is above the default threshold, ValueError when no count is above one |
| C170 | with 20 levels or less the fit gets nothing (TypeError); a mean between two levels gives a wrong standard deviation |
| C171 | `sim`: the second starting value uses `sqrt(1 - r2**2)` where the stationary distribution needs `sqrt(1 - r1**2)` |
| C172 | the transform length is the next power of two of the length itself, so that the estimate is circular: the value at lag `l` contains that at lag `nfft - l` |
| C173 | the `unbiased` estimate always ends in a ValueError (`arange(Ncens, 1, -1)` has one element less than `auto_cov[:Ncens]`) |
| C174 | `x[1 - indnan]` is indexing with integers: with missing values a mean of the first two values is subtracted; NaN everywhere if one of them is missing |
| C176 | the step of the lags is not `pi / (w[-1] rate)` unless the number of frequencies is a power of two plus one; a negative first frequency is accepted |
| C178 | `nugget` is added to the object's own data; clipping of negative values adds energy |
| C179 | the round trip changes the frequencies unless their number is a power of two plus one |
| C180 | `sim`: if the last covariance is zero the circulant vector is not symmetric, the covariance at each lag becomes the mean of two neighbours; `ns=None` and `derivative=True` raise, `dt` is ignored |
| C181 | `simcond`: the approximate method raises a TypeError (`sum(... is True)`) unless its first window reaches the end; series shorter than the covariance function are rejected; the caller's array and the covariance at lag zero are changed |
| C183 | assigning `freqtype` from or to `'k'` does nothing and raises nothing |
| C184 | `normalize` of a spectrum in hertz gives the second moment `1/(2 pi)^2`; a wave number spectrum is left as it is but marked as normalized |
| C185 | `bandwidth()` raises TypeError (`list(0)`); `bandwidth('eps4')` is the peakedness factor `Qp` |
| C187 | `characteristic`: the covariances of `Hm0` with `Tm01` and `Tm02` are stored in the columns of `Tm02` and `Tm24`; that of `Hm0` and `Tm01` is NaN |
| C188 | for a spectrum in hertz `Tm_10`, `Tp` and `Tp1` are `2 pi` times too large and `Sp` is `(2 pi)^2` times too small |
| C189 | `'...' + '...' % dt` raises TypeError instead of the ValueError of `_check_dt` and the warnings of `_check_cov_matrix` |
| C190 | `sim` with random phases: an odd number of points gives one more; `derivative=True` raises a TypeError (`zeros(ns, cases + 1)`); first and last value of the spectrum are ignored |
| C191 | every part of the word `exact`, also the empty string, selects the exact method |
| C192 | `myt` uses the cosine; `vari='yt'` raises UnboundLocalError; wave number spectra raise an error; spectra in hertz are treated as rad/s |
| C193 | `rotate` adds `theta[0] + pi` to `phi` where it should subtract it; takes `args[0]` for the angles although `tospecdata2d` puts the frequencies there, in a tuple, so a TypeError follows after `phi` was changed |
| C194 | `rotate(rotateGrid=True)` writes to row `ntOld` (IndexError) or reads the attribute `theta`, which does not exist, when the grid is closed |
| C195 | `resample`: the spacing is judged by `w[-1]/(n-1)`, so a spectrum that starts above zero can get a coarser grid; `Nmax` is exceeded unless it is a power of two plus one; without `dt` the grid changes unless the number of frequencies is a power of two plus one |
| C196 | `tocov_matrix(dt=...)` with the default number of rows: the rate is rounded up and the matrix is larger than the covariance function, which raises a ValueError |
| C198 | `padua_fit` with degree zero always raises IndexError in `error_estimate` |
| C201 | `error_estimate` adds two diagonals that are always zero for fitted coefficients, and is not a bound for the error |
| C202 | `padua_val` is constant beyond the sides of the rectangle |
| C206 | `QuadOsc(..., maxiter=1)` always raises UnboundLocalError, `maxiter=0` an IndexError |
| C211 | `chebyshev_extrema(1)` is nan; `adaptive_levin_points(2, delta)` is `[-1, 0]`; the loop never ends for `delta = 0` |
| C213 | `sensor_type(*sensor_typeid('W', 'unknown'))` is a TypeError; `TransferFunction(sensortype=0).tran(w)` is a KeyError, since `sensor_type` returns a tuple; `TransferFunction(sensortype='N')` too |
| C214 | `Hw[:, k0]` is an IndexError for the array `Hw` with one dimension, whenever a value is negative; for the default `h=inf` the responses of pressure, velocity, acceleration and displacement are 0 (nan replaced by 0) instead of `exp(k z)` times the surface value |
| C216 | for `igam=2` everything is negated, so W points upwards although z is measured downwards, and the elevation at the origin is minus the elevation |
| C217 | `tran` calls `w2k(w, 0, self.h)` without `self.g`, so pressure and acceleration disagree for any gravity but 9.81 |
| C218 | `thetax` and `thetay` are both documented as clockwise from north; for equal values n_x = -n_y |
| C220 | `findpeaks` fails with a TypeError for fewer than two turning points and with an IndexError for a matrix of one row |
| C222 | at the last default threshold of `reslife` fewer than `nmin` data remain |
| C223 | `dispersion_idx` divides by M, the documented limits are for the divisor M - 1; the default `umax` is `sd[-nmin]`, not the documented maximum |
| C224 | `binomln(1/2, 1)` is -inf, the coefficient is 1/2; the documented formula lacks the + 1 |
| C225 | the coefficients of `fourier` carry the factor q T / (2 pi); `fourier` reshapes the array `t` of the caller, and a second call without period gives nan |
| C226 | `num2pistr` limits the numerator, not its absolute value |
| C231 | negative correlations below -0.3 use the 6 point rule (line 844 tests `r < 0.3`, not `abs(r) < 0.3`), so the documented error 1e-15 is missed and reflection fails |
| C232 | `bvn[k3] = -bvn[k3] / twopi` (line 904) should index with `k13`; in arrays with mixed correlations other elements are rescaled |
| C233 | `prbnorm2d` returns 1 for a strip, one variable unlimited on both sides and the other not (line 991) |
| C236 | `_genpareto_link` and `_genextreme_link` for the location (line 149, used in line 172): not the location; `_gumbel_r_link` tests `i == 1` twice, so the location is unreachable and raises IndexError (line 158) |
| C237 | `_rayleigh_link` lacks parentheses in the scale (line 190), `_trunclayleigh_link` is wrong for shape and scale (lines 199-202) and registered as `trunclayleigh` (line 215), so it is never found |
| C238 | `_burr_link` gives nan for shape c, location and scale; `_exponweib_link` uses minus the logarithm where the distribution function is needed; `_genexpon_link` is wrong for a and b |
| C239 | the default of a profile is the last estimated parameter, documented as the first (lines 279 and 612) |
| C243 | the adaptive grid has up to n + 1 points, documented as at most n, and lacks the upper limit for n < 4 (lines 434-444) |
| C247 | `floc=None` and `fscale=None` fix the parameter at None, unlike `f0=None` (`_distn_infrastructure.py` lines 229-234) |
| C248 | with tied data the term of a tie is the logarithm of the density, which depends on the unit and breaks the lower bound behind the p-value (`_distn_infrastructure.py` line 83) |
| C250 | `ci_quantile`, `ci_logsf` and `ci_sf` with their default index 2 return only nan for two-parameter distributions or a fixed scale; the IndexError is swallowed (lines 1386-1411) |
| C257 | `kappa4.ppf` with k = 0 and h < 0 takes logarithms of negative numbers and is nan for every probability (lines 5547-5550) |
| C260 | `gengamma._munp` with negative c and `invweibull._munp` return the gamma function of a negative number, finite and even negative, for moments which do not exist (lines 3125-3127, 4118-4119) |
| C261 | `loglaplace._munp` is c^2/(c^2 - n^2), negative for n > c though the moment is infinite (lines 4988-4989); `truncrayleigh._stats` ignores its parameter (lines 6698-6705, marked as wrong in the source) |
| C262 | `truncrayleigh._entropy` ignores `c` (the source says so in a comment): `C262_truncrayleigh_wrong`; right for `c = 0`: `C262_truncrayleigh_partial`. |
| C265 | `levy_l` reports its mean as plus infinity; the variable is negative, its mean is minus infinity (`C265_levy_l`) |
| C269 | `t` with df <= 1 reports its mean as inf; the density is symmetric and the mean undefined (`C269_t_mean_refuted`) |
| C270 | `burr12._munp` returns a finite, even negative, number for moments which do not exist: -2 for the first moment with c = 1, d = 1/2 (`C270_burr12_munp_refuted`) |
| C273 | with bins of different width `rv_histogram(np.histogram(...))` gives a bin the share content x width, not its relative content: counts [1, 1] on bins [0, 1, 3] give the first bin 1/3 (`C273_bins_refuted`) |
| C275 | `genextreme._munp` is nan for c = 0 (`C275_genextreme_munp_refuted`) |
| C276 | `crystalball._munp` returns `+inf` for odd orders `n ≥ m - 1`, where the integral over `x > -t` tends to `-∞` (`C276_crystalball_sign_refuted`) |
| C277 | `pbinom._fft_pmf` adds the rounding unit to every probability, so the values sum to `1 + (n+1) eps` (`C277_total_refuted`) |
| C279 | the start shape of genpareto has the sign of Hosking's convention, the opposite of the code's: with the returned shape the mean is that of the data only if the shape is 0 (`C279_genpareto_refuted`) |
| C280 | the start values of genextreme sort the caller's array in place (`C280_sorts_refuted`) |
| C281 | the start scale of lognorm is the standard deviation of the data rather than the exponential of the mean logarithm (`C281_lognorm_refuted`) |
| C281 | the start non-centrality of ncx2 is `(v/2 - m)/2`; the variance then is `m + v/2` instead of `v` (`C281_ncx2_refuted`) |
| C282 | the sum for the first column of the rainflow matrix (`f_rfc[N - k + 1:N, 0]`) leaves out the row filled last, so there may be more cycles from the lowest class than minima in it (`C282_column_refuted`) |
| C284 | `mctp2tc` raises for nearly all sizes: the slice `n - ntc - 1:-1:n - j + 1` has start:step:stop order (`C284_raises_refuted`); it also normalises the matrix of the caller (`C284_argument_refuted`) |
| C284 | `mc2rfc` and `iter_mc` always raise (`C284_mc2rfc_refuted`) |
| C285 | with the default `numsubzero` the diagonal of the test matrix is not zero (`C285_diagonal_refuted`) |
| C288 | `SmoothSpline` sorts `x` and `y` when `x` is out of order but not `var` (interpolate.py:576-581, 642), so each variance is applied to another point; for two points `y[0, :]` (line 640) raises IndexError for one-dimensional `y`. |
| C289 | `Cheb1d.__init__` trims zeros at the end of the list, which is the low-degree end (polynomial.py:1717): `Cheb1d([1, 0])` is the constant 1 instead of `T_1`, and `Cheb1d([0])` raises IndexError when called. |
| C290 | `c[k] = v` beyond the order appends at the low-degree end (polynomial.py:1800-1803), so `Cheb1d([1])` becomes `T_1` by `c[1] = 0`. |
| C291 | `Cheb1d(c)` and `Cheb1d(array)` keep a reference to the array (polynomial.py:1713-1720): assigning to an item of the copy changes the original. |
| C292 | `__setattr__` always raises ValueError (polynomial.py:1780-1781), so negation, addition, subtraction, `integ` and `deriv` always raise; `len` of the zero series raises. |
| C293 | `==` broadcasts (polynomial.py:1773): `Cheb1d([1]) == Cheb1d([1, 1, 1])` and `Cheb1d([0]) == Cheb1d([5])` are True. |
| C298 | In `RegLogit.fit` the quotient tested (stats/core.py:984-989) is positive only for steps that improve the likelihood and go beyond the maximum on their line; these raise TypeError at `np.eye(d2l.shape)` (or ValueError), while steps that worsen it are accepted. Start values other than the default raise ValueError at `np.vstack` or `np.dot` (stats/core.py:972-973) except for two categories and one covariate. |
| C299 | `X * beta` (stats/core.py:1022) is an elementwise product: with two or more covariates `fit` raises ValueError, or uses for each threshold one covariate only when there are as many covariates as thresholds. |
| C300 | The lower limit of `predict(.., fulloutput=True)` (stats/core.py:1298) can be negative. |
| C301 | `R[ib][:, ib]` (stats/core.py:1284) drops columns of the square root of the covariance matrix, so for three or more categories the variance is too small. |
| C302 | `check_xy` uses positions of singular values as column numbers (stats/core.py:898-902): of the covariates e1, 2 e1, e2 it keeps the first two. |
| C305 | `padefitlsq` demands more than `8(m+k+1)` values (polynomial.py:1915-1916) but combines them with arrays of exactly that length (2028): longer arrays always raise ValueError. |
| C306 | `padefit(c, 0)` uses the default order (polynomial.py:1895); the default for a `poly1d` is one less than for the same coefficients in a list when their number is odd. |
| C307 | `tranproc` resamples tables with unequal steps (misc.py:2454-2464), so `TrData` does not reproduce its own table: 0, 1, 3 to 0, 1, 2 gives 5/6 at 1. With a point above the table all values change (misc.py:2595-2596 uses the number of points before extrapolation). |
| C310 | Method 2 of `qlevels2` is not `F(X[k]) = (k+0.5)/n` (kernels.py:158): numpy's midpoint is the mean of the two neighbours. |
| C311 | `qlevels` for a percentage below the share of the highest cell, or above 100 n/(n+1.5e-8), goes through the wrong extrapolation of `tranproc`: for 4, 3, 2, 1 and 10, 50, 90, 100 per cent the levels are about 0.12, 3.75, 2.60, 2.12. The level for 90 per cent alone is 1.75. |
| C312 | A density on a single point makes `qlevels` raise ZeroDivisionError. |
| C314 | `nmax` is documented as the largest index with a nonzero amplitude (up to `n`); for `2*nmax > n+1` the compiled loops write behind the arrays. |
| C318 | `qtf` with the default method has `g*h*k/w**2*tanh(k)` for `g*k/w**2*tanh(k*h)`; difference frequencies tend to `(w1-w2)**2/(4g) > 0` instead of `-abs(k1-k2)/4`. The doctest stores these values. |
| C319 | `qtf` with method 'langley' has `g * 2.` for `g ** 2` in `p_1`; the table of sum frequencies is wrong and not symmetric. |
| C321 | `sim_nl` adds one to 0-based positions in `f`, but component `c` of `w` and `amp` is position `c - 1` of `f` and `disufq` starts at `nmin - 1`: all components of the second order correction are one too low. |
| C323 | `stats_nl(method='eigenvalue')` is documented and raises ValueError. |
| C327 | `Kalman.reset()` restores neither state nor covariance; it has no effect after the first call. |
| C330 | `Kalman(R=number)` with several observed quantities adds the number to all entries of the innovation covariance. |
| C331 | `Kalman` with a singular `H` starts at the observation itself instead of failing. |
| C335 | `HodrickPrescott` returns three values unsmoothed. |
| C339 | `HampelFilter()` of a single value raises ValueError (median of no differences is NaN). |
| C340 | The adaptive `HampelFilter` can raise IndexError when `n*dx` does not reach all the data. |
| C345 | `smoothn` overwrites the missing values in the array of the caller with 0; a second call with the same array smooths the zeros. |
| C346 | `robust_weights`: when more than half of the residuals are equal the median absolute deviation is 0, all weights become 0 and the following steps ignore the data. |
| C347 | `_initial_guess` with missing data starts from the distances of `distance_transform_edt` (0) where the data are known, instead of the data. |
| C350 | `evar` does not square the eigenvalues: its residuals belong to a first difference penalty, not to the thin plate spline of the documentation. |
| C351 | `SavitzkyGolay.smooth_last`: the default `k=1` smooths the last value but one, `k=0` raises ValueError, and derivatives have the wrong sign (coefficients are not turned round). |
| C352 | `SavitzkyGolay.smooth_last` extends the signal with absolute differences, so a falling line is not kept. |
| C354 | `lh83pdf` does not reject moments with `m0*m2 < m1**2`: `np.isreal(nan)` is true, the table is NaN. |
| C356 | The first column of `lh83pdf` and `cav76pdf` is zero also when `t[0] > 0`. |
| C275 | `genextreme._stats`: the lambda for the skewness misspells its parameter (`g2gm12`) and uses the variances of the whole array, so that a shape parameter below -1/3 in an array makes the skewness of other elements wrong or raises (`C275_genextreme_skew_array_refuted`) |

## Seeded bugs

`seeded/LOG.jsonl` records edits of the definitions in a scratch copy.  "failed" lists the theorems whose proof,
directly or through a lemma they use, no longer goes through after the edit; "tightened" those that were added or
strengthened because the edit had gone unnoticed.
