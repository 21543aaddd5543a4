#!/usr/bin/env python3
"""Writes /verif/properties.jsonl.  One entry per property, in id order."""
import json, os
P = []
def p(title, statement, quantifier, why, anchors):
    P.append(dict(id="C%02d" % (len(P)+1), title=title, statement=statement,
                  quantifier=quantifier, why_tests_cant=why, anchors=anchors))
M = "src/wafo/misc.py"; N = "src/wafo/_misc_numba.py"; O = "src/wafo/objects.py"
PL = "src/wafo/polynomial.py"; MK = "src/wafo/markov.py"; B = "src/wafo/bitwise.py"
G = "src/wafo/kdetools/gridding.py"; S = "src/wafo/stats/core.py"; IP = "src/wafo/interpolate.py"
T = "src/wafo/transform/models.py"; D = "src/wafo/wave_theory/dispersion_relation.py"
IG = "src/wafo/integrate.py"; PD = "src/wafo/padua.py"
IO = "src/wafo/integrate_oscillating.py"
WT = "src/wafo/wave_theory/core.py"
GA = "src/wafo/gaussian.py"
ES = "src/wafo/stats/estimation.py"
DI = "src/wafo/stats/_distn_infrastructure.py"
CD = "src/wafo/stats/_continuous_distns.py"
SG = "src/wafo/sg_filter/_core.py"
WM = "src/wafo/wavemodels.py"
SD = "src/wafo/stats/distributions.py"
SM = "src/wafo/spectrum/models.py"; KN = "src/wafo/kdetools/kernels.py"; KD = "src/wafo/kdetools/kdetools.py"
C = "src/wafo/containers.py"; DC = "src/wafo/dctpack.py"; CE = "src/wafo/covariance/estimation.py"; CC = "src/wafo/covariance/core.py"; SC = "src/wafo/spectrum/core.py"; CL = "source/c_library/c_functions.c"

p("findcross finds exactly the level crossings",
  "findcross(x, v) returns index i exactly when x[i+1] differs from v and either every earlier sample x[0..i] equals v, or the last earlier sample that differs from v lies on the other side of v than x[i+1].  Nothing else is returned and nothing is missed, including when the signal touches or rests on v.",
  "all finite sequences x over an ordered field and all levels v",
  "Plateaus on the level can be arbitrarily long and occur anywhere; a test suite samples finitely many shapes.",
  [M+": findcross, _findcross", N+": _findcross, findcross"])
p("crossing indices are ordered, in range and alternate in direction",
  "The indices returned by findcross(x, v) are strictly increasing, each i satisfies i+1 < len(x), and any two consecutive crossings have opposite directions (up then down or down then up).",
  "all sequences, all levels",
  "Alternation is a global invariant of the scan; no finite test set covers all scans.",
  [M+": findcross", N+": _findcross"])
p("kind 'd' and kind 'u' split the crossings by direction",
  "findcross(x, v, 'd') returns exactly the crossings whose next sample is below v, findcross(x, v, 'u') exactly those whose next sample is above v; together they are all the crossings.",
  "all sequences, all levels",
  "The code selects every second crossing after a parity guess; correctness relies on global alternation.",
  [M+": findcross"])
p("crossing-defined wave kinds are trimmed to whole waves",
  "findcross(x, v, kind) with kind dw/uw returns an odd number of crossings (or none) that starts and ends with a down (resp. up) crossing; with tw/cw it returns an even number that starts with a down (resp. up) crossing and ends with the opposite one.  The result is a contiguous run of all the crossings with at most one dropped at each end.",
  "all sequences, all levels, all four wave kinds",
  "Parity and first direction combine with arbitrary length; needs an argument over all lengths.",
  [M+": findcross"])
p("findcross rejects unknown kinds",
  "findcross(x, v, kind) raises ValueError for every kind string that is not one of the documented ones.",
  "all sequences, levels and kind strings",
  "The check is only reached on some paths; tests only exercise one of them.",
  [M+": findcross"])
p("ecross locates the crossing of the linear interpolant",
  "For every index i returned by findcross(f, v), ecross(t, f, [i], v) returns a time between t[i] and t[i+1] at which the straight line through (t[i], f[i]) and (t[i+1], f[i+1]) has value v; no division by zero occurs.",
  "all signals f, all strictly increasing time vectors t, all levels v, all crossings",
  "Universal over real data; tests check a sine wave.",
  [M+": ecross, findcross"])
p("the signal is monotone between consecutive extrema",
  "Between two consecutive indices returned by findextrema(x), and before the first and after the last, x is monotone (non-decreasing or non-increasing), with directions alternating from one stretch to the next, and the value strictly changes across each stretch between two returned extrema.",
  "all sequences",
  "A missed extremum in any position would falsify it; only an inductive argument excludes all of them.",
  [M+": findextrema, findcross"])
p("turning points strictly alternate",
  "findtp(x) (h=0) returns strictly increasing indices ending with len(x)-1 whose values strictly alternate, starting with a rise (minimum first).",
  "all sequences with at least two extrema",
  "Plateaus at the start or the end of the record break naive implementations; they are rare in test data.",
  [M+": findtp, findextrema"])
p("turning points lose no range",
  "The total variation of x[findtp(x)] plus the variation of the part of x before the first turning point equals the total variation of x; in particular every maximum and minimum value of x after the first turning point is attained at a turning point.",
  "all sequences with at least two extrema",
  "Quantifies over all samples between turning points.",
  [M+": findtp"])
p("findtp wave kinds return whole waves",
  "findtp(x, h=0, kind='mw') returns an odd number of turning points starting and ending with a minimum; kind='Mw' an odd number starting and ending with a maximum.",
  "all sequences with at least two extrema",
  "Trimming depends on parity of an unbounded count.",
  [M+": findtp"])
p("troughs and crests are the extremes between level crossings",
  "findtc(x, v) returns one index per interval between consecutive level crossings; each is inside its interval, is the first minimum (trough) of x over the interval after a down-crossing and the first maximum (crest) after an up-crossing, troughs lie strictly below v and crests strictly above v, and indices are strictly increasing.",
  "all sequences and levels with at least three crossings",
  "Every interval of every signal must be checked, including ties and plateaus on v.",
  [M+": findtc", N+": findcross"])
p("rfcfilter never raises on totally ordered data",
  "For every sequence of comparable numbers, every threshold h and both methods 0 and 1, the rainflow filter terminates without hitting its internal 'something wrong' ValueError.",
  "all sequences, all h, methods 0 and 1",
  "Requires showing an error branch unreachable for all states.",
  [N+": _make_findrfc, local_findrfc"])
p("rfcfilter output is an increasing selection of input samples",
  "findrfc with method 0 or 1 returns indices into the input that start with 0 and are strictly increasing (h > 0), never more of them than there are samples, so no write goes beyond the result buffer.",
  "all non-empty sequences, all h > 0",
  "Buffer overflow depends on adversarial inputs; unit tests do not exercise memory safety.",
  [N+": _make_findrfc, local_findrfc", CL+": findrfc"])
p("rfcfilter keeps only cycles of the requested height",
  "Consecutive values kept by the rainflow filter alternate between rise and fall and differ by at least h (method 0) resp. by more than h (method 1).",
  "all sequences, all h > 0 (method 0) and all h >= 0 (method 1)",
  "Needs an invariant relating filter state and emitted points for every history.",
  [N+": _make_findrfc", M+": rfcfilter"])
p("rfcfilter removes no cycle that is high enough",
  "Between two consecutive kept points where the signal rises, no later sample lies h or more below an earlier sample (method 0; more than h for method 1), and symmetrically for falls: every reversal that reaches the threshold is kept.",
  "all sequences, all h > 0, all pairs of samples between kept points",
  "Completeness over all pairs of samples in unbounded signals.",
  [N+": _make_findrfc"])
p("rfcfilter is idempotent",
  "Filtering the filtered turning points again with the same h changes nothing.",
  "all sequences, all h",
  "A law over all inputs; fails only at exact ties that random tests never hit.",
  [N+": _make_findrfc", M+": rfcfilter"])
p("findrfc (method 2) reads only inside its input",
  "The rainflow counting routine never reads an element outside the turning-point array it is given, for odd as well as even numbers of turning points.",
  "all turning point arrays and thresholds",
  "Out-of-bounds reads silently return garbage in compiled code; the tests pass whatever memory contains.",
  [N+": _findrfc", CL+": findrfc", M+": findrfc"])
p("findrfc (method 2) computes rainflow cycles by the definition",
  "For an odd number of turning points starting with a minimum, findrfc pairs each maximum M with the larger of the lowest value reached before the signal last exceeded M and the lowest value reached until it next reaches M again (or only the former if it never does), and reports the pair exactly when its height is at least h.",
  "all alternating turning point sequences, all h",
  "The definition quantifies over all excursions around every maximum.",
  [N+": _findrfc", CL+": findrfc"])
p("rainflow pairs reported by findrfc have at least the threshold height",
  "Every (minimum, maximum) pair produced by findrfc has height at least h, and indices point inside the array; minima are at even and maxima at odd positions.",
  "all turning point sequences of odd length, all h",
  "Universal over inputs.",
  [N+": _findrfc", M+": findrfc"])
p("ASTM rainflow counting accounts for every reversal",
  "findrfc_astm returns exactly n - 1 - (number of full cycles) rows for n turning points with no two consecutive equal values; every returned row is a real counted cycle (positive amplitude, count 0.5 or 1.0) and 2*full + half = n - 1.",
  "all sequences without equal neighbours",
  "The returned length is computed by a counting formula independent of the rows actually written.",
  [N+": _findrfc3_astm, findrfc_astm", CL+": findrfc3_astm"])
p("ASTM rainflow counting conserves total variation",
  "For alternating turning points, the sum over the counted cycles of 2*count*range (range = 2*amplitude) equals the total variation of the signal.",
  "all alternating sequences",
  "A conservation law over all inputs, needs the stack invariant of the algorithm.",
  [N+": _findrfc3_astm, findrfc_astm"])
p("ASTM cycles stay inside the signal range",
  "Every cycle reported by findrfc_astm has mean +/- amplitude equal to two actual signal values, hence within [min, max] of the signal.",
  "all sequences",
  "Universal over inputs and over all rows of the result.",
  [N+": _findrfc3_astm"])
p("ASTM counting with and without times agree",
  "findrfc_astm(tp) and findrfc_astm(tp, t) report the same amplitudes, means and counts row by row; the begin time column is the time of the first of the two turning points of the cycle and the period twice the time between them (positive for increasing times).",
  "all sequences and all strictly increasing time vectors",
  "Two separate loops have to stay in lock-step for every input.",
  [N+": _findrfc3_astm, _findrfc5_astm, findrfc_astm"])
p("min2max and max2min cycle pairs partition the turning points",
  "TurningPoints.cycle_pairs() pairs every minimum with the following maximum (min2max) or every maximum with the following minimum (max2min): each pair consists of two consecutive turning points, minimum < maximum in every pair, and no pair is skipped or duplicated.",
  "all alternating turning point sequences and both kinds",
  "Depends on parity of length and direction of the first step.",
  [O+": TurningPoints.cycle_pairs"])
p("Palmgren-Miner damage laws",
  "CyclePairs.damage(beta, K) is non-negative, equals zero only if all amplitudes are zero (beta>0), is additive over concatenation of cycle lists, independent of the order of cycles, scales linearly in K and like s**beta when the load is scaled by s.",
  "all lists of cycles, all positive real exponents beta and K >= 0",
  "Algebraic laws over all lists.",
  [O+": CyclePairs.damage, CyclePairs.amplitudes"])
p("level_crossings honours its kind argument",
  "CyclePairs.level_crossings(kind) accepts 'u', 'uM', 'umM' and 'um' and counts, respectively, upcrossings, upcrossings and maxima, upcrossings minima and maxima, upcrossings and minima.",
  "all cycle lists and the four documented kinds",
  "A wrong table offset silently yields a plausible curve.",
  [O+": CyclePairs.level_crossings"])
p("level upcrossing counts are exact",
  "The levels reported by level_crossings are the sorted distinct extremes, and the count reported at each level u equals the number of cycles with minimum < u < maximum (kind 1), minimum < u <= maximum (kind 2), minimum <= u <= maximum (kind 3) or, below the highest level, minimum <= u < maximum (kind 4).",
  "all lists of cycles with minimum < maximum",
  "Sorting, duplicate merging and cumulative sums interact on ties.",
  [O+": CyclePairs.level_crossings"])
p("cycle matrix counts every cycle once",
  "CyclePairs.cycle_matrix puts each cycle in exactly one cell: the entries are non-negative, sum to the number of cycles, and no index falls outside the matrix.",
  "all lists of cycles and all level grids",
  "Clipping and ordering of indices at the boundary must hold for all values.",
  [O+": CyclePairs.cycle_matrix, _dcp2cmat, _discretize_cycle_pairs"])
p("cycle discretization projects in the documented direction",
  "With ddef=1 minima are projected down and maxima up to grid levels, with ddef=-1 minima up and maxima down, with ddef=0 to the nearest level (values inside the grid).",
  "all cycles inside the grid range, all grids",
  "Index base mistakes shift every cycle by one level and still look plausible.",
  [O+": CyclePairs._discretize_cycle_pairs"])
p("cmat2nt is the counting distribution",
  "cmat2nt(F)[i][j] equals the sum of F[a][b] over a < i and b > j for all i >= 1 and j <= n-2, and 0 in the first row and last column; the vectorised and the loop variants (kind 1 and 11) agree.",
  "all square matrices of any size",
  "Cumulative sums with flips over unbounded sizes.",
  [MK+": cmat2nt"])
p("nt2cmat inverts cmat2nt",
  "nt2cmat(cmat2nt(F)) == F for every square matrix F whose first column and last row are zero, and for every F it recovers all entries off the first column and last row.",
  "all square matrices",
  "Round trip over all sizes and entries.",
  [MK+": nt2cmat, cmat2nt"])
p("nt2fr inverts the counting distribution",
  "nt2fr(nt) returns the second mixed difference of nt, i.e. the frequency matrix whose counting distribution is nt.",
  "all square matrices",
  "A mistyped slice is hidden by broadcasting.",
  [MK+": nt2fr"])
p("fr2nt returns a counting distribution",
  "fr2nt(fr) returns a matrix for every square frequency matrix of dimension 3 or larger.",
  "all square matrices of dimension at least 3",
  "No test calls the function.",
  [MK+": fr2nt"])
p("getbit and setbit obey the bit laws",
  "setbit(i, b, v) yields a number whose bit b is v and whose other bits are those of i; getbit returns 0 or 1; setting a bit to its own value changes nothing.",
  "all non-negative integers, all bit positions",
  "Universally quantified algebraic laws.",
  [B+": getbit, setbit"])
p("setbits and getbits are inverse",
  "setbits(getbits(i, n)) == i mod 2**n and getbits(setbits(l), len(l)) == l for every list of bits l.",
  "all integers, all widths, all bit lists",
  "Round trip over all widths.",
  [B+": getbits, setbits"])
p("lfind returns the first matches",
  "lfind(haystack, needle, maxiter) returns, in increasing order, exactly the first maxiter positions (all positions when maxiter is None) at which haystack equals needle.",
  "all lists, needles and limits",
  "Universal over lists and limits.",
  [M+": lfind"])
p("piecewise selects the last matching branch",
  "piecewise(condlist, funclist, x) gives at each point the value of the last function whose condition holds there, the extra trailing function where no condition holds, and fill_value where there is none; a wrong number of functions raises ValueError.",
  "all condition lists, function lists and points",
  "Overlapping conditions are not exercised by the doctests.",
  [M+": piecewise"])
p("lazyselect mimics numpy.select",
  "lazyselect(condlist, choices, arrays) returns at each point the choice of the first condition that holds, as numpy.select does, which its documentation promises.",
  "all condition lists and points",
  "Tests only use disjoint conditions.",
  [M+": lazyselect"])
p("lazywhere only evaluates where the condition holds",
  "lazywhere(cond, arrays, f, fillvalue/f2) equals f of the point where cond holds and fillvalue (or f2 of the point) elsewhere; f is applied only to points that satisfy cond.",
  "all condition masks and functions",
  "Universal over masks.",
  [M+": lazywhere"])
p("option parsing keeps the key set",
  "parse_kwargs(options, **kwargs) returns a dictionary with exactly the keys of options, taking the value from kwargs where given there; unknown keyword arguments are ignored; sub_dict_select returns exactly the selected keys present in both.",
  "all dictionaries",
  "Universal over dictionaries and keys.",
  [M+": parse_kwargs, sub_dict_select"])
p("findoutliers partitions the samples",
  "findoutliers returns spurious and good indices that are sorted, in range, disjoint and together cover all samples.",
  "all sequences and parameter settings",
  "Special-cased list sizes are easily missed.",
  [M+": findoutliers"])
p("moving_average is the mean over the window",
  "moving_average(x, L)[i] equals the mean of x[i-L..i+L] for interior points.",
  "all sequences and window half lengths",
  "The recursive implementation agrees with the definition on the data used in tests only approximately.",
  [M+": moving_average, detrendma"])
p("spaceline yields equally spaced points from start to stop",
  "spaceline(start, stop, num) returns num points on the segment, first start, last stop, with constant difference (num >= 2).",
  "all endpoints and counts",
  "Universal over endpoints and counts.",
  [M+": spaceline"])
p("rotations preserve lengths and compose",
  "rotate_2d and rotate preserve Euclidean distance, rotating by zero is the identity, rotations about one axis compose by adding angles, and rotation_matrix is orthogonal.",
  "all angles and points",
  "Trigonometric identities over reals.",
  [M+": rotate_2d, rotation_matrix, rotate"])
p("polar and Cartesian conversions are inverse",
  "cart2polar(polar2cart(theta, rho)) returns (theta, rho) for rho > 0 and theta in (-pi, pi]; polar2cart(cart2polar(x, y)) returns (x, y) for all x, y.",
  "all real points",
  "Universal over the plane including the axes and quadrant borders.",
  [M+": polar2cart, cart2polar"])
p("sub2index and index2sub are inverse",
  "For every shape and both orders ('C' and 'F'), index2sub(shape, sub2index(shape, subs)) == subs for valid subscripts and sub2index(shape, index2sub(shape, i)) == i for valid indices.",
  "all shapes of any rank, all valid indices, both orders",
  "Universal over shapes.",
  [M+": sub2index, index2sub"])
p("nextpow2 returns the exponent of the next power of two",
  "nextpow2(x) is the least n with 2**n >= |x| for scalars with |x| > 1/2.",
  "all positive scalars",
  "Powers of two and their neighbours are boundary cases.",
  [M+": nextpow2"])
p("discretize returns consistent samples",
  "discretize(fun, a, b, ...) returns x strictly increasing from a to b with y == fun(x) at every point, for both methods, after a bounded number of refinements.",
  "all functions, all a < b, all tolerances",
  "The refinement path depends on the function; tests use one function.",
  [M+": discretize, _discretize_linear, _discretize_adaptive"])
p("trangood returns a uniform grid covering the requested range",
  "trangood(x, f, min_n, min_x, max_x, max_n) returns an equally spaced x that covers [min_x, max_x].",
  "all transformations and ranges",
  "Extrapolation paths are not covered by tests.",
  [M+": trangood"])
p("tranproc transforms derivatives by the chain rule",
  "tranproc(x, f, x0, x1, ..., x4) returns the first four time derivatives of f(x(t)) according to the chain rule (Faa di Bruno).",
  "all derivative values",
  "A polynomial identity; tests use linear or low order transforms.",
  [M+": tranproc"])
p("good_bins covers the data",
  "good_bins returns equally spaced bin edges whose first edge is <= the data minimum and last edge >= the data maximum.",
  "all data ranges and bin counts",
  "Universal over reals.",
  [M+": good_bins"])
p("gridcount conserves mass",
  "gridcount(data, X) returns non-negative grid weights that sum to the total weight of the data (1-D linear binning).",
  "all data inside the grid, all grids",
  "Conservation law over all data.",
  [G+": gridcount, _gridcount_1d, accumsum"])
p("gridcount conserves the first moment",
  "The mean of the grid weights returned by gridcount equals the mean of the data (1-D linear binning on an equidistant grid).",
  "all data inside the grid, all grids",
  "Conservation law over all data.",
  [G+": gridcount, _gridcount_1d"])
p("data on the upper grid edge is counted",
  "gridcount accepts every data set whose minimum and maximum lie within the grid limits, including data equal to the last grid point.",
  "all data sets within the closed grid range",
  "Boundary case on an equality.",
  [G+": gridcount"])
p("polyder inverts polyint",
  "polyder(polyint(p, m, k), m) == p for all polynomials, orders m and integration constants k; the value at 0 of the j-th derivative of polyint(p, m, k) is k[m-j-1].",
  "all coefficient lists, all orders, all constants",
  "Universal over degrees and orders.",
  [PL+": polyint, polyder"])
p("polyder is the derivative",
  "Evaluating polyder(p) gives the derivative of the evaluated polynomial p, for every degree and order.",
  "all coefficient lists and orders",
  "Universal over degrees.",
  [PL+": polyder"])
p("polyreloc and polyrescl move and scale the graph",
  "polyval(polyreloc(p, x, y), t) == polyval(p, t - x) + y and polyval(polyrescl(p, x, y), t) == y*polyval(p, t/x) for all t.",
  "all polynomials, shifts and scales, all t",
  "The triangular in-place Horner loop must be right for every degree.",
  [PL+": polyreloc, polyrescl"])
p("polyshift and polyishift map intervals and are inverse",
  "polyval(polyshift(p, a, b), x) == polyval(p, y) with y the image of x under [a,b] -> [-1,1]; polyishift does the converse; composing them gives back p.",
  "all polynomials and all a != b",
  "Universal over degrees and intervals.",
  [PL+": polyshift, polyishift, map_from_interval, map_to_interval"])
p("polytrim keeps the polynomial",
  "polytrim(p) evaluates like p everywhere, has no leading zero, and is idempotent.",
  "all coefficient lists",
  "Universal over lists.",
  [PL+": polytrim"])
p("poly2hstr prints the polynomial it is given",
  "Reading the expression printed by poly2hstr(p) as arithmetic gives polyval(p, x) for every x.",
  "all coefficient lists and points",
  "Zero coefficients in different positions trigger different branches.",
  [PL+": poly2hstr"])
p("chebval evaluates the Chebyshev series",
  "chebval(x, ck, a, b, kind) equals sum ck[n-k] T_k(y) (kind 1) or U_k(y) (kind 2), y the image of x in [-1, 1].",
  "all coefficient lists, all points",
  "Clenshaw recurrence over all lengths.",
  [PL+": chebval, _chebval, chebpoly"])
p("cheb2poly converts without changing the function",
  "polyval(cheb2poly(ck, a, b), x) == chebval(x, ck, a, b) for all x.",
  "all coefficient lists and intervals",
  "Universal over lengths.",
  [PL+": cheb2poly, chebval"])
p("chebder differentiates the Chebyshev series",
  "chebval(x, chebder(ck, a, b), a, b) is the derivative of chebval(x, ck, a, b).",
  "all coefficient lists and points",
  "The doctest computes but does not compare the derivative.",
  [PL+": chebder"])
p("chebint integrates the Chebyshev series",
  "The derivative of chebval(x, chebint(ck)) is chebval(x, ck).",
  "all coefficient lists",
  "The doctest computes but does not compare the integral.",
  [PL+": chebint"])
p("ortho2poly and orthoval agree",
  "polyval(ortho2poly(p), x) == orthoval(p, x) for all orthogonal-polynomial coefficient tables p and all x.",
  "all tables and points",
  "Three-term recurrences of any length.",
  [PL+": ortho2poly, orthoval"])
p("orthofit is the least squares fit",
  "The basis built by orthofit is orthogonal on the data points and the fitted polynomial minimises the residual sum of squares among all polynomials of degree <= n.",
  "all data sets and degrees for which the basis norms do not vanish",
  "Optimality against all competitors.",
  [PL+": orthofit, orthoval"])
p("PPform evaluates the piece containing the point",
  "PPform(coefs, breaks)(x) evaluates the polynomial of the interval breaks[i] <= x < breaks[i+1] for x inside [a, b] and returns fill outside; no index is out of range.",
  "all break sequences, coefficients and points",
  "Points exactly on breaks decide between two pieces.",
  [IP+": PPform.__call__"])
p("PPform.integrate is a continuous antiderivative",
  "PPform.integrate() vanishes at the first break, is continuous at interior breaks and its derivative is the original piecewise polynomial.",
  "all piecewise polynomials",
  "Universal over orders and numbers of pieces.",
  [IP+": PPform.integrate, PPform.derivative"])
p("linear extrapolation is smooth and leaves the inside unchanged",
  "PPform.linear_extrapolate() agrees with the original inside the basic interval, is linear outside, and continues value and slope at both ends.",
  "all piecewise polynomials of order > 2",
  "Universal over coefficients.",
  [IP+": PPform.linear_extrapolate"])
p("Pchip preserves monotonicity",
  "With slopes(method='pchip') the cubic Hermite interpolant of monotone data is monotone.",
  "all monotone data with strictly increasing abscissae",
  "Overshoot must be excluded at every real point.",
  [IP+": _pchip_slope, _edge_case, slopes, Pchip"])
p("slopes(monotone=True) preserves monotonicity",
  "slopes(x, y, method, monotone=True) returns slopes whose Hermite interpolant of monotone data is monotone, for every method.",
  "all methods and monotone data",
  "Overshoot must be excluded for all data.",
  [IP+": slopes"])
p("Stineman interpolation runs through the data",
  "stineman_interp returns y[j] at x[j], never divides by zero, and inside an interval stays within the bounds given by chord and end tangents.",
  "all data and evaluation points",
  "Universal over reals and sign cases.",
  [IP+": stineman_interp"])
p("peaks over threshold are separated",
  "findpot(data, t, thresh, tmin) (and decluster) returns indices of values above thresh whose times are pairwise more than tmin apart.",
  "all data, times, thresholds and separations",
  "Needs several clusters of close exceedances; the bug appears only from the second cluster on.",
  [S+": findpot, decluster, _find_ok_peaks, _remove_index_to_data_too_close_to_each_other"])
p("no peak over threshold is lost",
  "Every exceedance that findpot drops lies within tmin of a returned exceedance that is at least as large.",
  "all data, times, thresholds and separations",
  "Needs several clusters.",
  [S+": findpot, _find_ok_peaks"])
p("empirical distribution function",
  "edf(x) returns sorted abscissae that are a permutation of the data and strictly increasing probabilities in (0, 1] (in (0, 1) for methods 1 and 2), with the documented plotting positions.",
  "all data vectors and methods",
  "Universal over data.",
  [S+": edf"])
p("extremal index lies in [0, 1]",
  "extremal_idx(ti) lies in [0, 1] for every non-empty list of positive integer inter-exceedance times and never divides by zero; declustering_time never indexes out of range.",
  "all lists of positive integer times",
  "Universal over lists.",
  [S+": extremal_idx, declustering_time"])
p("return period and exceedance probability are inverse",
  "returnperiod2sf(sf2returnperiod(q, n), n) == q for 0 < q < 1 and n > 0, and conversely for periods t with t*n > 1; invalid inputs give nan.",
  "all probabilities, periods and rates",
  "Universal over reals.",
  [S+": returnperiod2sf, sf2returnperiod"])
p("TrLinear round trip",
  "TrLinear.gauss2dat(dat2gauss(x)) == x (and derivatives likewise) for all x and all parameters with non-zero sigmas.",
  "all reals and parameters",
  "Universal over reals.",
  [T+": TrLinear"])
p("TrOchi round trip",
  "TrOchi.gauss2dat(dat2gauss(x)) == x for all x, and dat2gauss(gauss2dat(y)) == y for all y in the range of the model.",
  "all reals and parameters",
  "Universal over reals, two exponential branches.",
  [T+": TrOchi"])
p("TrOchi parameters solve the documented equations",
  "The parameters a, sigma2, mean2 used by TrOchi satisfy a*(sigma2^2+mean2^2)+mean2 = 0, sigma2^2-2a^2 sigma2^4 = 1 and 2a sigma2^4 (3-8a^2 sigma2^2) = skew, and the bracketing interval handed to the root finder always contains a sign change.",
  "all admissible skewness values",
  "Doctests only compare one aggregate number.",
  [T+": TrOchi._par_from_stats"])
p("TrHermite inversion formulas solve the polynomial",
  "When the cubic (or quadratic) model polynomial is invertible, the closed forms used by TrHermite return an exact root, so gauss2dat and dat2gauss are inverse.",
  "all coefficients and values in the monotone case",
  "Identity over reals.",
  [T+": TrHermite._poly_inv, _solve_quadratic, _solve_third_order"])
p("deep water dispersion relation round trip",
  "In deep water w2k(*k2w(k1, k2)) == (k1, k2) for all wave numbers, k2w never returns a negative frequency, and w**2 == g*k in absence of current.",
  "all real wave numbers, g > 0",
  "Universal over reals.",
  [D+": k2w, w2k"])
p("finite depth wave number is a fixed point of the dispersion relation",
  "Newton's iteration in w2k stops only at wave numbers whose last update is below tolerance; k is a fixed point of the update exactly when w**2 == g*k*tanh(k*h), the loop runs at most count_limit times, and k keeps the sign of w.",
  "all frequencies and depths",
  "Universal over reals and iterations.",
  [D+": w2k"])
p("plotscale accepts every plot flag",
  "plotscale(flag) returns one of the eight scale names for every non-negative flag, and the log axes named are exactly those encoded by the digits.",
  "all non-negative integers",
  "Universal over integers.",
  [C+": plotscale"])
p("plot transform names are inverse to flags",
  "transform_id2plotflag2(plotflag2transform_id(flag)) recovers the transform digit of every flag with digit 0..8.",
  "all flags",
  "A missing comma in a table.",
  [C+": plotflag2transform_id, transform_id2plotflag2"])
p("to_cdf of a non-negative density is a distribution function",
  "PlotData.to_cdf starts at 0, is non-decreasing for non-negative data on increasing abscissae, has the same number of points and ends at the trapezoidal integral.",
  "all densities and grids",
  "Universal over data.",
  [C+": PlotData.to_cdf"])
p("getshipchar reports zero deviation for the given property",
  "getshipchar(property=value) returns the characteristics with exactly the documented keys, the given property has its given value and standard deviation 0.",
  "all admissible values and all accepted property names",
  "Name matching by prefix; only one property is tested.",
  [M+": getshipchar, _get_max_deadweight"])
p("chebfitnd fits data",
  "chebfitnd(xi, f, deg) returns coefficients for every data set with more points than coefficients.",
  "all shapes with more samples than coefficients",
  "The function is only called from a demo.",
  [PL+": chebfitnd"])
p("savitzky_golay_piecewise handles every turn of x",
  "savitzky_golay_piecewise splits x into maximal monotone pieces whose concatenation is the input and does not fail on any input with at least two samples.",
  "all abscissa sequences",
  "The failing case needs a turn at the last sample.",
  [IP+": savitzky_golay_piecewise, _get_turnpoint"])
p("gravity stays within physical bounds",
  "gravity(phi) lies between the equatorial and polar values, is even and 180-degree periodic.",
  "all latitudes",
  "Universal over reals.",
  [M+": gravity"])
p("findrfc reports no turning point twice",
  "The indices returned by misc.findrfc (method 2 / clib) are strictly increasing and inside the array, for every input: no minimum is paired with two maxima and no maximum is reported twice.",
  "all turning point arrays, also with ties, all thresholds",
  "Two excursion searches (backward and forward) could pick the same minimum; ties are resolved by an interplay of strict and non-strict comparisons.",
  [M+": findrfc", N+": _findrfc"])
p("gridcount conserves mass and means in several dimensions",
  "For d >= 2 dimensional data inside an equidistant grid, gridcount returns non-negative grid weights that sum to the total weight and whose first moment in every dimension is that of the data.",
  "all dimensions, grids and data below the last grid point in every dimension",
  "The corner enumeration is a bit trick over 2**(d-1) pairs and the weights are products over all dimensions.",
  ["src/wafo/kdetools/gridding.py: gridcount, _gridcount_nd, bitget, accumsum"])
p("multi-dimensional data on the upper grid edge is counted correctly",
  "For d >= 2, data equal to the last grid point in some dimension (accepted by the range check) contribute their weight exactly once.",
  "all data sets within the closed grid box",
  "A boundary equality in one of several dimensions; the flattened index silently reads the next row.",
  ["src/wafo/kdetools/gridding.py: gridcount, _gridcount_nd"])
p("chebval with a fill value keeps the value inside the interval",
  "chebval(x, ck, a, b, kind, fill) returns the series value for x inside [a, b] and fill outside.",
  "all x, coefficient lists, intervals and fill values",
  "The result array takes its type from the fill value, so an innocent looking fill such as 0 changes values at all points.",
  ["src/wafo/polynomial.py: chebval"])
p("chebroot and chebextr return the roots and extrema",
  "chebroot(n, kind) returns n strictly increasing points in (-1, 1), all roots of T_n (kind 1) or U_n (kind 2), ValueError for any other kind; T_n takes the values (-1)^n, ..., -1, 1 at chebextr(n).",
  "all n and kinds",
  "Needs the trigonometric identities for every degree; float tests compare a few degrees to a tolerance.",
  ["src/wafo/polynomial.py: chebroot, chebextr"])
p("chebfit interpolates at the Chebyshev points",
  "For every function and n >= 1 the series returned by chebfit(fun, n, a, b) equals fun at the n Chebyshev points of [a, b]; for polynomials of degree < n it equals fun everywhere, and poly2cheb never changes the function.",
  "all functions, degrees, intervals with a != b and polynomials",
  "Discrete orthogonality for every n; scaling or ordering mistakes of the transform only show up against the exact identity.",
  ["src/wafo/polynomial.py: chebfit, poly2cheb, chebroot"])
p("derivative and integral of a linearly extrapolated form stay extrapolated",
  "After linear_extrapolate(), derivative() returns the slope of the extrapolated form and integrate() its integral, also beyond the data.",
  "all piecewise polynomials of order > 2 and all points",
  "tests evaluate derivatives only inside the data range",
  [f"{IP}:369-453"])
p("slopes of points on a straight line",
  "slopes(x, y, method) of points on a straight line returns the slope of that line at every point ((1-tension) times it for 'Cardinal'), with and without monotone=True.",
  "all methods, all strictly increasing abscissae and all lines",
  "The end formulas differ by method, direction and number of points; tests use a few rising data sets.",
  [f"{IP}:678-995"])
p("Stineman interpolant has the given slopes",
  "The function computed by stineman_interp(., x, y, yp) / StinemanInterp(x, y, yp) has derivative yp[j] at x[j].",
  "all data and given slopes",
  "The failing case needs an end slope exactly equal to a chord slope; the derivative is a limit, not an output.",
  [f"{IP}:998-1193"])
p("Stineman interpolation preserves convexity and monotonicity",
  "If the chord slopes of the data change monotonically so do the slopes of StinemanInterp(x, y); if the ordinates are monotone too, the curve is monotone (documented claims).",
  "all data with strictly increasing abscissae and at least three points",
  "Convexity and monotonicity hold between data points, at uncountably many arguments.",
  [f"{IP}:789-818", f"{IP}:998-1193"])
p("slopes follow a change of units",
  "Multiplying x by c>0 and y by d>0 multiplies slopes(x, y, method) by d/c, and scale=True does not change the result of a method for which this holds.",
  "all methods, data and unit factors",
  "Relates two runs for arbitrary factors.",
  [f"{IP}:678-995"])
p("ASTM half cycles grow and then shrink",
  "For every sequence of turning points the half cycles returned by findrfc_astm, in the order returned, have non-decreasing ranges up to some row and strictly decreasing ranges from there on; in particular equal neighbouring ranges at the end are combined into a full cycle.",
  "all sequences of turning points of any length",
  "Needs an invariant of the stack for arbitrary histories.",
  [N+": _findrfc3_astm, findrfc_astm"])
p("ASTM counting keeps the largest cycle",
  "For every sequence of at least two turning points findrfc_astm returns a half cycle that goes from the smallest to the largest value of the sequence.",
  "all sequences of turning points of any length",
  "The extreme values may be arbitrarily far apart, with any number of cycles extracted in between.",
  [N+": _findrfc3_astm, findrfc_astm"])
p("savitzky_golay reproduces polynomials and their derivatives",
  "For samples of a polynomial of degree at most `order`, savitzky_golay(y, window_size, order, deriv=d) returns, at every point whose window lies inside the signal, the value of the d-th derivative of the polynomial; even or too small windows raise TypeError and deriv > order IndexError.",
  "all polynomials, orders, odd windows and derivatives", "Universal over polynomials and windows; the sign and scale of derivative rows is untested.",
  [IP + ": savitzky_golay"])
p("savitzky_golay is a local least squares fit",
  "For arbitrary data the smoothed value at a point whose window lies inside the signal is the value there of a polynomial of degree at most `order` that minimises the sum of squared deviations over the window.",
  "all signals, orders and windows", "The optimum is over infinitely many polynomials.", [IP + ": savitzky_golay"])
p("savitzky_golay keeps the length and straight lines up to the ends",
  "savitzky_golay returns as many samples as it was given and leaves samples of a straight line unchanged, including both ends.",
  "all lines, signal lengths, orders and windows", "Depends on the sign of the slope and the length relative to the window; the doctest has one signal.", [IP + ": savitzky_golay"])

p("TrOchi follows its attributes",
  "After assigning new values to mean, sigma, skew, ... of a TrOchi object the transformation is the one of a new object with these values.",
  "all parameter values before and after the assignment",
  "Tests construct a fresh object for every case.",
  [T + ": TrOchi.phat, TrOchi._get_par, TrOchi._par_from_stats"])
p("TrHermite refuses exactly the intervals where it cannot be inverted",
  "TrHermite.dat2gauss raises ValueError exactly when the interval from the first to the last datum contains a turning point of the polynomial.",
  "all statistics, all increasing data",
  "The turning points depend on all four moments.",
  [T + ": TrHermite.check_forward, TrHermite._set_x_limit"])
p("TrHermite can be built for any moments",
  "TrHermite(mean, sigma, skew, kurt) is built for every kurt <= 3; if the polynomial is not monotone a warning is issued.",
  "all moments",
  "The warning text is formatted only in the non-monotone case.",
  [T + ": TrHermite._check_monotonicity, TrHermite._set_x_limit"])
p("dist2gauss measures the departure from the linear transformation",
  "dist2gauss is non-negative on increasing points and is zero exactly when the transformation is linear at the points used.",
  "all transformations and grids",
  "Doctests compare two numbers.",
  ["src/wafo/transform/core.py: TrCommon.dist2gauss"])

p("w2k treats arrays elementwise",
  "Every element of w2k(w, theta, h) is the result for that element alone, although the Newton iteration runs on the whole array.",
  "all arrays of frequencies, directions and depths",
  "Convergence of one element could influence others.",
  [D + ": w2k"])
p("PlotData.integrate is an integral",
  "integrate(a, b) + integrate(b, c) == integrate(a, c) for a <= b <= c within the data, between data points it is the difference of to_cdf, without limits it is the integral of all data, and exchanging the limits changes the sign.",
  "all data, grids and limits",
  "Universal over data and limits.",
  [C + ": PlotData.integrate, PlotData._get_fi_xi"])
p("clencurt integrates polynomials exactly",
  "clencurt(fun, a, b, n) returns the exact integral of every polynomial of degree at most 2*(n//2), in either orientation of the limits, with a non-negative error estimate; data given as a table of samples is accepted too.",
  "all polynomials, all orders, all limits",
  "Doctests integrate two functions; exactness is a statement about all polynomials of all orders.",
  [IG + ": clencurt"])
p("romberg's table is the Richardson extrapolation of the trapezoidal rule",
  "Entry k of row i of romberg's table is exact for polynomials of degree at most 2*k+1, the returned value is the last entry of the last row, and the result is available for all finite limits.",
  "all integrands and intervals",
  "The Euler-Maclaurin cancellation holds for every degree and every number of rows.",
  [IG + ": romberg"])
p("_expand_roots mirrors the half set of roots",
  "_expand_roots(x, w, n, m) returns n nodes symmetric about the origin with symmetric weights, the middle one occurring once when n is odd.",
  "all n and all half sets",
  "Depends on the parity and size of n.",
  [IG + ": _expand_roots"])
p("the closed rules q5, q6 and q7 are Gaussian",
  "q5_roots(n), q6_roots(n), q7_roots(n) integrate polynomials of degree less than 2n exactly with the weights 1/sqrt(1-x^2), sqrt(1-x^2) and sqrt(x/(1-x)).",
  "all n, all polynomials of degree < 2n",
  "Tests check n = 3 or so.",
  [IG + ": q5_roots, q6_roots, q7_roots"])
p("the square root rules q8 and q9 are Gaussian",
  "q8_roots(n) and q9_roots(n) integrate polynomials of degree less than 2n over [0, 1] exactly with the weights 1/sqrt(1-x) and sqrt(1-x).",
  "all n, all polynomials of degree < 2n",
  "Tests check a few n.",
  [IG + ": q8_roots, q9_roots"])
p("boole is exact to degree five",
  "boole(y, x) on equally spaced points returns the exact integral of polynomials of degree at most five; other numbers of points than 4m+1 are handled or rejected.",
  "all numbers of points, all polynomials",
  "Tests use one number of points.",
  [IG + ": boole"])
p("quadgr integrates over finite and infinite intervals",
  "quadgr(fun, a, b, abseps) is exact for polynomials within the order of its base rule, also with infinite limits after the change of variable; exchanging the limits negates the value; the error estimate is the smallest change among the candidates and is below abseps unless the rounds are used up.",
  "all integrands, finite and infinite limits, tolerances",
  "Depends on stopping behaviour and on all integrands.",
  [IG + ": _Quadgr, richardson"])
p("gaussq integrates with the selected weight function",
  "gaussq(fun, a, b, wfun=k, alpha, beta) is the integral of fun times the documented weight function k, exact for polynomials of moderate degree; exchanging the limits negates the value; the cached rule is the rule for the requested parameters.",
  "all weight functions, parameters, polynomials, limits and call histories",
  "The cache depends on earlier calls; the weight depends on real parameters.",
  [IG + ": _Gaussq, qrule"])
p("p_roots is the Gauss-Legendre rule on [a, b]",
  "p_roots(n, method, a, b) integrates polynomials of degree less than 2n exactly over [a, b]; the Newton variants give the same rule.",
  "all n, all polynomials, all intervals",
  "Tests check n = 4 with one cosine.",
  [IG + ": p_roots, _p_roots_newton, _p_roots_newton1"])
p("h_roots is the Gauss-Hermite rule",
  "h_roots(n) integrates x^k exp(-x^2) over the line exactly for k < 2n.",
  "all n, all polynomials",
  "Tests check one n.",
  [IG + ": h_roots, _h_roots_newton"])
p("la_roots is the Gauss-Laguerre rule",
  "la_roots(n, alpha) integrates polynomials of degree less than 2n with x^alpha exp(-x) over the half line exactly.",
  "all n, alpha > -1, all polynomials",
  "Tests check one n.",
  [IG + ": la_roots, _la_roots_newton"])
p("j_roots is the Gauss-Jacobi rule",
  "j_roots(n, alpha, beta) integrates polynomials of degree less than 2n over [-1, 1] exactly with the weight (1-x)^alpha (1+x)^beta, and qrule uses it with the documented orientation.",
  "all n, alpha, beta > -1, all polynomials",
  "Tests check one n and pin one number.",
  [IG + ": j_roots, _j_roots_newton, qrule"])
p("norm_kernel is a density",
  "For every kernel that can be chosen by name and in every dimension, norm_kernel is never negative and its integral over the whole space is one; a kernel object made with another radius is normalised too.",
  "all kernels, dimensions and points", "The integral is over an unbounded d-dimensional space; tests compare single values in one or two dimensions.",
  [KN + ": Kernel, _Kernel*.norm_factor, norm_kernel"])
p("norm_factor works with its default arguments",
  "norm_factor(d) with the default n returns the same number as norm_factor(d, n) for every kernel.",
  "all kernels, d, n", "Tests call it for some kernels only.",
  [KN + ": _Kernel.norm_factor, Kernel.hstt"])
p("stats are the moments of the kernel",
  "kernel.stats = (mu2, R, Rdd) are the second moment, the integral of the square, and the integral of the squared second derivative of the one dimensional kernel.",
  "all kernels", "The numbers are integrals (for the logistic kernel pi^2/3); tests only print them.",
  [KN + ": _stats_*"])
p("derivatives and functionals of the Gaussian kernel",
  "deriv4_6_8_10(t, numout) are the derivatives of even order from 4 of the standard normal density at t; psi(r, sigma) is the integral of the r-th derivative of a normal density times the density.",
  "all t, numout, even r, sigma > 0", "Holds for all orders and all real t.",
  [KN + ": _KernelGaussian.deriv4_6_8_10, psi"])
p("normal scale bandwidth is optimal and follows a change of units",
  "sigma times get_amise_constant(n) minimises the asymptotic mean integrated squared error for a normal density; hns and hos of a*x+b are |a| times those of x; _get_g cancels the leading bias terms of the functional estimates.",
  "all kernels, n, data, a, b", "Minimality is over all bandwidths.",
  [KN + ": get_amise_constant, hns, hos, _get_g"])
p("the kernel density estimate is a density",
  "For any data, kernel, smoothing vector or matrix and alpha, eval_points returns the values of one non-negative function with integral one; arguments of a wrong shape raise ValueError.",
  "all data, kernels, bandwidths, alpha, dimensions", "Total mass over an unbounded space for all data.",
  [KD + ": KDE, _check_hs, _invert_hs, _check_shape, _eval_points"])
p("both loops of eval_points agree",
  "The value of the estimate at a point does not depend on how many other points are evaluated in the same call, i.e. the loop over the data and the loop over the points give the same result, with weights, moments and adaptive factors.",
  "all data, points, weights, moments", "The choice of the loop depends on the number of points.",
  [KD + ": KDE._loop_over_data, _loop_over_points"])
p("adaptive factors have geometric mean one",
  "With alpha > 0 the factors are (f_i/g)^(-alpha) with the pilot estimate f_i and its geometric mean g; their product is one and a larger pilot density gives a smaller factor; with alpha = 0 all are one.",
  "all data, kernels, alpha", "Involves the estimate at all data.",
  [KD + ": KDE.alpha"])
p("the transformed estimate is a density",
  "TKDE with transformation parameter L2 is a density on the positive numbers, for float and integer data and for one or several points.",
  "all data, L2, points", "Integral over a half line for all data.",
  [KD + ": TKDE._transform, _scale_pdf, _eval_points"])
p("kernel regression is a weighted mean or a local line",
  "KRegression with p=0 is a weighted mean of the responses with non-negative weights independent of the responses; with p=1 it reproduces linear functions; eval_grid and eval_grid_fast mean the same thing, with or without a transformation.",
  "all data, responses of either sign, dimensions", "Depends on all data and responses.",
  [KD + ": KRegression._eval_gridfun, TKDE._eval_grid_fast"])
p("intervals for a binomial probability",
  "The Wilson interval is the set of probabilities not rejected by the score test, contains the estimate and stays in [0, 1]; the credible interval starts at 0 without success and ends at 1 without failure.",
  "all n, p, confidence levels", "Real parameters.",
  [KD + ": BKRegression._wilson_score, _credible_interval"])
p("prb_search_best returns the best candidate",
  "prb_search_best(hsvec) returns a smoothing parameter of hsvec with the smallest score and the scores of all candidates.",
  "all score functions and candidate vectors", "Ties and start value depend on the scores.",
  [KD + ": BKRegression.prb_search_best"])
p("fast evaluation on a grid is binned evaluation",
  "eval_grid_fast gives at each grid point the sum over the data of the kernel linearly interpolated between the neighbouring grid points; for data on the grid it is the exact sum; _estimate_psi is the double sum over the data.",
  "all grids, data, kernels", "Circular convolution with all wrap-around terms.",
  [KD + ": KDE._eval_grid_fast, _kernel_weights", KN + ": _estimate_psi"])
p("constants of hscv",
  "The numbers psi8 and psi12 in hscv are the functionals of order 8 and 12 of the standard normal density.",
  "the two constants", "They are integrals.",
  [KN + ": hscv"])
p("empirical probabilities are probabilities",
  "prb_empirical returns numbers in [0, 1] on a grid; the default grid covers the data and its step is between half the smoothing parameter and the whole.",
  "all data, smoothing parameters", "For all data.",
  [KD + ": BKRegression.get_grid, prb_empirical"])
p("idctn inverts dctn","For an array with any number of dimensions and no empty axis, and any list of axes with -ndim <= a < ndim (or none), idctn(dctn(x, axes=axes), axes=axes) and dctn(idctn(x, axes=axes), axes=axes) return an array of the shape of x with the same entries; the sum of squares of dctn(x) equals that of x; an array with an empty axis raises ValueError.","every number of dimensions, shape, array and list of axes","A test uses one image; the statement is about all shapes, where the axes are rotated and reshaped.",[DC+":163-199",DC+":202-296"])
p("axes and shape arguments of dctn","dctn(x, axes=[k]) transforms every line along axis k on its own; adding an axis is the same as transforming the result along it; no axes means all axes; dctn(x, shape=s) is the transform of x cut or padded with zeros to s; negative axes count from the end; other axes and shapes of the wrong length are errors.","every array, axis list and shape","Tests try the defaults only; the order of rotations and transforms has to be right for every axis.",[DC+":163-199"])
p("shiftdim rotates, pads and drops axes","For n >= 0 axis i of shiftdim(x, n) is axis (i+n) mod ndim of x, shifts add up and ndim shifts are the identity; n < 0 pads with |n| singleton axes; without n all leading singleton axes are removed, and a negative shift by their number restores x.","every array and every n","The docstring shows one shape; boundary shapes with only singletons differ.",[DC+":305-376"])
p("idct of polynomial inverts dct","For every non-empty vector x polynomial.idct(dct(x)) is x, and idct(x, n) is scaled by the length of the transform as documented.","every vector and every n","The test has n = len(x) = 5 only.",[PL+":1445-1471"])
p("Bretschneider spectrum has the sea state asked for","For Hm0 >= 0, Tp > 0, N > 1, M > 0 the area under Bretschneider(Hm0, Tp, N, M) is Hm0^2/16, its spectral moments of order k < N-1 are the documented ones, the only maximum is at 2*pi/Tp, and it is the documented formula; Tp = 1.408*Tz for the defaults to two digits; other sea states raise ValueError.","all sea states and shape parameters","Areas and moments are integrals over all frequencies; a test compares three values.",[SM+":57-122",SM+":164-262"])
p("peakedness of a Jonswap spectrum","jonswap_peakfact is between 1 and 7, does not decrease when the waves become steeper, and depends continuously on the sea state; a Jonswap spectrum with peakedness 1 is the Bretschneider spectrum whatever sigma, Ag and method are.","all sea states","Range and monotonicity are statements about all sea states.",[SM+":265-332",SM+":529-663"])
p("energy and peak of a Jonswap spectrum","The area under a Jonswap spectrum is Hm0^2/16 (normalisation by integration), it is non-negative and its only maximum is at 2*pi/Tp.","all sea states, shape parameters, peakedness, cut-off","The area is an integral; the peak enhancement has a jump of its width at the peak.",[SM+":442-663"])
p("arguments rejected by Jonswap","For peakedness above 1: Ag <= 0, a cut-off below 1 and an unknown method are rejected; method 'parametric' is rejected outside 3 <= N <= 50, 2 <= M <= 9.5, 1 <= gamma <= 20.","all arguments","A test tries one value.",[SM+":573-635"])
p("Jonswap sea state from wind and fetch","The sea state scales with wind speed and fetch (Froude scaling), height and period grow with the fetch, the peakedness is at least 1 and does not grow; Jonswap(**jonswap_seastate(..)) is a spectrum with the Hm0 of the sea state.","all wind speeds, fetches and methods","Scaling and monotonicity are statements about all arguments; the test prints one dict.",[SM+":335-439"])
p("depth factor phi1","phi1(w, h) is between 0 and 1, zero at w = 0, one for infinite depth, grows with depth and frequency, tends to zero with the depth, and is the same for -w.","all frequencies, depths and gravities","Needs the solution of the dispersion relation for all depths.",[SM+":666-711"])
p("TMA spectrum","Tmaspec is at most the Jonswap spectrum at every frequency, grows with the depth, equals it in infinitely deep water, has Hm0 as significant wave height; h and g given to the call are used instead of those of the object.","all sea states, depths, frequencies","Integral over all frequencies of the product.",[SM+":714-811"])
p("Torsethaugen spectrum","Wind sea and swell share the energy Hm0^2/16; the component that dominates has peak period Tp; every sea state with Hm0 >= 0 is accepted; wnc is the cut-off of the normalisation.","all sea states","Energies are integrals; the branches depend on Hm0 and Tp.",[SM+":814-1054"])
p("OchiHubble spectrum","For each par = 0..10 the area is Hm0^2/16; other values of par raise ValueError.","all heights and parametrisations","Integrals of the sum, for all heights.",[SM+":1125-1255"])
p("McCormick spectrum","It is the documented formula with area Hm0^2/16; without M, the shape is such that Tz is the zero-crossing period; every valid sea state is accepted.","all sea states","The relation between M and Tz is between integrals.",[SM+":1057-1122"])
p("Wallop spectrum","The area is Hm0^2/16 and the only maximum at 2*pi/Tp with the documented exponent; with N = 5 it is the Bretschneider spectrum.","all sea states that are not too steep","Integral over all frequencies.",[SM+":1258-1324"])
p("spreading functions share out the energy","For every kind of spreading function, every frequency and every non-negative spread parameter the call succeeds and D(theta, w) is a non-negative function of the angle whose integral over a full turn is one.","all angles, frequencies, directions, spread parameters","An integral over all angles; normalisations are Gamma and Bessel functions of a real parameter.",[SM+":1327-1768"])
p("first Fourier coefficient of a spreading function","All spreading functions with spread parameter S have first Fourier coefficient S/(S+1) about the main direction, and no sine part.","all spread parameters and main directions","Integral over all angles for a real parameter.",[SM+":1390-1415", SM+":1769-1889", SM+":1942-1975"])
p("spreading is about the main direction","The spreading is symmetric about theta0, largest there, periodic with period 2*pi in the angles, and depends only on the angle from theta0.","all angles, also far outside -pi..pi","Real angles.",[SM+":1543-1583"])
p("spread parameter as a function of frequency","With method 'mitsuyasu' S(wn) is s_a*wn^m_a for wn_lo <= wn < wn_c, s_b*wn^m_b for wn_c <= wn < wn_up and 0 otherwise; negative parameters and wrong numbers of main directions raise ValueError.","all frequencies, limits and parameters","Behaviour at the limits themselves.",[SM+":1366-1376", SM+":1891-1975"])
p("names of spreading functions and methods","All documented names of spreading functions and of methods are accepted and can be called; the method reported can be assigned back.","all names and methods","Names that are not tried in tests.",[SM+":1347-1391", SM+":1505-1541", SM+":1903-1927"])
p("wrapped normal spreading","D(theta_i, w) is the documented series at the angle theta_i, clipped at zero; over a full turn the values add up to one.","all numbers of angles, spread parameters","The result depends on the number of angles and their spacing.",[SM+":1642-1683"])
p("directional spectrum from a frequency spectrum","tospecdata2d gives a directional spectrum whose integral over all directions is the frequency spectrum, and rejects angles that do not cover a full turn.","all spectra, angles, kinds of spreading functions","Integral over all angles.",[SM+":1983-2056"])

p("Wave parameters describe the waves between down-crossings",
  "TimeSeries.wave_parameters(rate) returns arrays where, for the k-th wave between consecutive down-crossings of the zero level, Ac is the largest value after the up-crossing and At minus the smallest value before it, Hd and Hu are the sums of Ac with the trough before and after, Td and Tu the times between the crossings found by linear interpolation, and Tcf and Tcb the times between the crest and the neighbouring crossings; without a whole wave all arrays are empty.",
  "all series and increasing times, all rates, any interpolation method for rate > 1",
  "whether each slice lines up with its wave depends on the number of crossings and on the direction of the first one",
  [O+":1745-1820"])
p("Steepness is the documented quotient for every wave",
  "TimeSeries.wave_height_steepness(kind) returns, wave by wave, the quotient documented for the kind with the documented wave height, the names and numbers of the kinds agree, and anything else is rejected.",
  "all series and increasing times, all kinds",
  "tests compare one kind on one sea state",
  [O+":1822-1956"])
p("Periods between crossings have the directions asked for",
  "TimeSeries.wave_periods with pdef d2d, u2u, d2u or u2d returns the times between the interpolated crossings of the level in the named directions.",
  "all series, levels and increasing times with at least two crossings, starting in either direction",
  "the start index depends on the direction of the first crossing, and with equal numbers of each kind a wrong one still gives plausible periods",
  [O+":1958-2132"])
p("Periods between extremes are times",
  "TimeSeries.wave_periods with a pdef naming minima, maxima, troughs or crests returns positive times between these points.",
  "all series and increasing times",
  "tests print a few values of one series",
  [O+":1958-2132"])
p("Periods do not depend on the origin of time",
  "Adding a constant to all times leaves the result of TimeSeries.wave_periods unchanged, and requests without a result are answered by an exception of known type or an empty result.",
  "all series, times, constants and all seventeen documented pdef",
  "a test fixes one origin of time",
  [O+":1958-2132"])
p("Sampling period and default times",
  "TimeSeries.sampling_period() is the duration divided by the number of intervals, hence the spacing for uniform sampling; when no times are given the sample numbers are used and the wave methods work with them.",
  "all time vectors with at least two entries; all data",
  "tests always pass times",
  [O+":1323-1354", O+":1745-1820"])

p("Exceedances reproduce the crossing counts",
  "The sample that LevelCrossings.extrapolate fits a tail to contains only distances of observed levels from the threshold, and the number of sample values at or beyond a level equals the largest crossing count at or above this level, rounded down; for counts that decrease with the level it is the crossing count itself.",
  "all increasing levels, all non-negative counts, all thresholds with a level above",
  "tests look at fitted curves, not at the sample",
  [O+":258-276", O+":344-358"])
p("Extrapolation keeps the observed part of the spectrum",
  "LevelCrossings.extrapolate returns increasing levels, keeps all observed counts between and at the thresholds, adds tails fitted to the exceedances on both sides, and works with the default thresholds, the outermost levels whose count exceeds the root of the largest count.",
  "all increasing levels and counts, any fitted survival function",
  "tests compare a few tail values of one simulated spectrum",
  [O+":226-256"])
p("Mean and standard deviation from a Gaussian crossing spectrum",
  "LevelCrossings recovers mean and standard deviation of a Gaussian crossing spectrum and draws the same curve as comparison, the estimates follow a change of units of the levels and do not depend on the number of crossings.",
  "all means, standard deviations and increasing levels; all counts and units for the scaling properties",
  "tests use simulated data with sampling error",
  [O+":91-133"])
p("Simulated Gaussian process has the requested irregularity factor",
  "The autoregressive process behind LevelCrossings.sim(ns, alpha) is stationary, has the autocovariances computed for it, starts in its stationary distribution, and its ratio of mean zero crossings to local extremes is alpha.",
  "all alpha between 0 and 1, all random numbers",
  "a simulation shows the irregularity factor only up to sampling error",
  [O+":415-438"])
p("Autocovariance estimate of a time series",
  "CovarianceEstimator(lag).tocovdata(ts) returns at lag l the documented estimate sum (x[i]-m)(x[i+l]-m)/n times the window, the variance at lag 0, no value larger than the variance, on the lags 0, dt, 2 dt, ...; the last value is zero.",
  "all series without missing values with at least three samples, all lags and windows",
  "tests use one long series with a small lag, where the circular part vanishes",
  [CE+":86-174"])
p("Unbiased and normalized autocovariance",
  "With flag 'unbiased' the estimate at lag l is divided by n - l instead of n; with norm=True it is divided by the variance, so that it starts at one.",
  "all series, lags and windows",
  "no test sets the flag",
  [CE+":149-154"])
p("Mean subtraction with missing values",
  "Before the autocovariance is estimated the mean of the observed samples is subtracted, and missing samples count as zero.",
  "all series with or without NaN",
  "tests have no missing values",
  [CE+":131-140"])
p("Default lag of the autocovariance estimate",
  "If no lag is given the estimate extends two lags beyond the last lag, among the first 301, at which it exceeds twice its large lag standard deviation; a Parzen window gets four thirds of this lag.",
  "all autocovariances with a positive variance",
  "depends on all values of the estimate",
  [CE+":75-84"])
p("Covariance function of a spectrum",
  "SpecData1D.tocovdata returns at each lag t the integral of S(w) cos(w t), the integral of the spectrum at lag zero and nothing larger, at multiples of pi / (w[-1] rate); frequency grids that do not start at zero or are not equidistant are rejected.",
  "all spectra on equidistant frequencies, numbers of lags and interpolation rates, and all three frequency types",
  "tests compare a few values for one spectrum",
  [SC+":912-969"])
p("Derivatives of the covariance function",
  "The attributes Rt, Rtt, ... that SpecData1D.tocovdata(nr) adds are the first nr derivatives of the covariance function at the returned lags.",
  "all spectra on equidistant frequencies starting at zero and all nr",
  "tests compare a few values for one spectrum",
  [SC+":958-967"])
p("Spectrum of a covariance function",
  "CovData1D.tospecdata returns at each frequency the spectral density 2/pi integral of R(t) cos(w t) on equidistant frequencies from 0 to pi/dt, its integral is the covariance at lag zero, and the object itself is left as it was.",
  "all covariance functions on equidistant lags, all rates",
  "tests compare a few values for one spectrum",
  [CC+":223-263"])
p("From spectrum to covariance function and back",
  "S.tocovdata().tospecdata() returns a spectrum with the frequencies, values and type of S.",
  "all nonnegative spectra in angular frequency or wave number whose nonzero values are above the truncation",
  "tests compare rounded values for one spectrum with 2**m + 1 frequencies",
  [SC+":912-969", CC+":223-263"])
p("Simulation from a covariance function",
  "CovData1D.sim(ns, cases) returns ns rows at multiples of the step, with uncorrelated columns whose covariances are the given ones and zero beyond the last lag; ns has a default, dt sets the step and derivative=True returns the derivative as well.",
  "all covariance functions with a positive spectral density, all ns and cases",
  "a simulated sample shows covariances only up to sampling error",
  [CC+":298-466"])
p("Simulation conditional on observed values",
  "CovData1D.simcond returns mean and standard deviation of the missing samples conditional on the observed ones, for series of any length, and leaves the caller's data and the covariance function as they were.",
  "all covariance functions, all series with missing samples",
  "the conditional distribution depends on all observed samples; tests run no such call",
  [CC+":468-681"])
p("SpecData1D.moment returns the spectral moments in rad/s","S.moment(nr, even, j) returns the integrals of |S|^(j+1) w^i for i = 0, 1, ..., nr (or the even ones), in angular frequency also when the spectrum is stored in hertz, with one name for each of them.","all spectra, orders, powers and all integration rules that are weighted sums whose weights follow the unit of the points","Tests compare a few moments of one model spectrum; they cannot cover every spectrum, order and unit.",[f"{SC}:3289-3368"])
p("Assigning freqtype converts between hertz and rad/s and keeps the moments","Setting S.freqtype from 'f' to 'w' or back converts frequencies and densities, keeps every moment and can be undone; the attribute has afterwards the value that was assigned.","all spectra and frequency types","An identity over all spectra; the silently ignored assignments (from or to 'k') do not raise.",[f"{SC}:720-738"])
p("normalize gives unit zeroth and second moments","After S.normalize() the moments m0 and m2 are one and, with the stored gravity, so is the mean square slope; normalizing again changes nothing.","all spectra of type 'f', 'w' or 'k' with positive moments","The doctest checks one spectrum in rad/s; the property fails for every spectrum in hertz and in wave number.",[f"{SC}:3538-3597"])
p("bandwidth returns the documented bandwidth factors","S.bandwidth(factors) returns alpha, eps2, eps4 and Qp by number or name; alpha lies in [0, 1], alpha^2 + eps4^2 = 1, no root of a negative number is taken, and the factors do not depend on the units of frequency and density.","all spectra, all factors, all integration rules with nonnegative weights","Inequalities between moments (Cauchy-Schwarz) hold for all spectra and cannot be tested exhaustively; the name 'eps4' is never tested.",[f"{SC}:3599-3644"])
p("characteristic returns the documented characteristics of the factors asked for","S.characteristic(fact) returns one value, one name and one row and column of covariances per factor; factors outside 0..14 and unknown names raise ValueError; Hm0, Tm01, Tm02, Tm24, Tm_10, Ss, Alpha, Eps2, Eps4 are the documented functions of the moments in hertz and agree with bandwidth; Tp is that of the first maximum.","all spectra in rad/s with positive moments, all lists of factors","Doctests compare a few numbers of one spectrum.",[f"{SC}:3646-3823"])
p("The covariances of the characteristics are those of the delta method","The matrix returned by S.characteristic has the first order (delta method) variances of Hm0, Tm01, Tm02, Tm24, Tm_10, Ss, Alpha, Eps2, Eps4 and the covariances of Hm0, Tm01 and Tm02 at the places of these factors, and is symmetric.","all spectra in rad/s with positive moments, all record lengths","The formulas have up to six terms each with powers of four moments; the source itself asks for further checking.",[f"{SC}:3825-3895"])
p("The characteristics do not depend on the unit of the frequency","S.characteristic gives the same values for a spectrum stored in hertz and in rad/s.","all spectra","Needs all spectra in both units; no test uses hertz.",[f"{SC}:3760-3823"])
p("A too small time step is reported as documented","_check_dt raises ValueError with an advice when the time step is too small for the frequency grid, and _check_cov_matrix warns when the covariances are nearly singular.","all frequency grids, time steps and covariances","The messages are only formatted in the failing branch, which no test reaches.",[f"{SC}:747-771"])
p("Random phase simulation of a spectrum has the covariances of the spectrum",
"SpecData1D.sim with the method 'random' returns series whose values have mean zero and covariances equal to the trapezoidal sums of the density times the cosine; different series are uncorrelated; the number of points is the one asked for and the derivative is the derivative of the series.",
"every spectrum, every number of points and cases, all uncorrelated unit random numbers",
"A test compares estimates from one random sample within a wide tolerance.",
[f"{SC}:2525-2714"])
p("Exact simulation of a spectrum uses its covariance function",
"SpecData1D.sim with the method 'exact' returns what CovData1D.sim returns for the covariance function of the spectrum, cut off after the simulated time, so the covariances are those of the spectrum; the method is chosen by its name.",
"every spectrum, number of points, cases and method text",
"A test runs one spectrum with one seed.",
[f"{SC}:2611-2638"])
p("Moments of directional spectra have the orders that their names say",
"SpecData2D.moment returns, for the variables asked for, the moments of the directional spectrum; the number of letters x, y and t in a name is the order of cos(theta)*w^2/g, sin(theta)*w^2/g and w; the result does not depend on the unit of frequency.",
"every directional spectrum, every highest order, every choice of variables",
"A test has one spectrum with a fixed selection of moments.",
[f"{SC}:4183-4297"])
p("Rotation turns the directions of a spectrum by the given angle",
"SpecData2D.rotate turns the directions, theta - phi, by the given angle, keeps the densities, keeps phi in [-pi, pi), and rejects spectra that are not directional without changing them.",
"every directional spectrum and angle",
"Angles that start elsewhere than at -pi, and the way the arguments are stored, are not covered by a single example.",
[f"{SC}:4039-4122"])
p("Rotation of the grid gives sorted directions with their densities",
"SpecData2D.rotate with rotateGrid turns the grid: phi becomes zero, the angles are increasing in [-pi, pi), and each turned direction keeps its densities.",
"every directional spectrum and angle",
"Whether the grid is closed or open and which angle it starts at decides which branch runs.",
[f"{SC}:4061-4122"])
p("Resampling gives an equidistant grid with the wanted sampling interval",
"SpecData1D.resample replaces the frequencies by equidistant ones from zero to the Nyquist frequency of the wanted sampling interval; their number is a power of two plus one, at least Nmin and the old number, at most Nmax; the grid is at least as fine as the old one; densities are not negative and are kept at the old frequencies; without a wanted interval only zeros are added at low frequencies.",
"every spectrum with increasing frequencies, every wanted interval, Nmin and Nmax, every interpolation that keeps the points",
"The branches depend on the spacing and the number of frequencies, and a test resamples one model spectrum.",
[f"{SC}:3420-3531"])
p("The covariance matrix has the derivatives of the covariance function at multiples of the time step",
"SpecData1D.tocov_matrix returns a matrix with nt+1 rows and nr+1 columns whose entry (j, i) is the i-th derivative at j*dt of the covariance function of the spectrum resampled to dt.",
"every spectrum with increasing frequencies, every number of rows, derivatives and time step",
"Whether the number of rows fits the resampled spectrum depends on how the ratio of sampling intervals is rounded.",
[f"{SC}:740-842"])
p("padua_points returns exactly the Padua points",
  "padua_points(n, domain) for n >= 1 returns (n+1)(n+2)/2 points, which are exactly the points (cos(j pi/n), cos(k pi/(n+1))) with j <= n, k <= n+1 and j + k odd, mapped to the rectangle; there are no duplicates on a proper rectangle. For n = 0 it returns the corner (a, c).",
  "all degrees and all rectangles", "The index formula differs for odd and even degrees; tests compare two degrees.", [f"{PD}:291-329"])
p("padua_fit interpolates",
  "For every function and degree, padua_val with the coefficients from padua_fit equals the function at every Padua point, and only coefficients of total degree at most n are nonzero. Fails for degree 0, where padua_fit raises IndexError.",
  "all functions, degrees and rectangles", "Tests compare the value of two functions at a few degrees with stored numbers.", [f"{PD}:345-415", f"{PD}:483-526"])
p("padua_fit reproduces polynomials",
  "If the function is a polynomial of total degree at most n, padua_val with the coefficients of the fit of degree n equals it on the whole rectangle; the coefficients of a polynomial in Padua form are recovered exactly.",
  "all degrees, rectangles and polynomials", "A statement about all polynomials and all points of the rectangle.", [f"{PD}:345-415", f"{PD}:483-526"])
p("padua_cubature integrates exactly",
  "padua_cubature returns the integral over the rectangle of the polynomial with the given coefficients; after padua_fit it returns the exact integral of every polynomial of total degree at most n.",
  "all coefficient matrices, rectangles and polynomials", "Tests integrate one function; the integral is a limit.", [f"{PD}:462-480"])
p("the error estimate of padua_fit",
  "The error estimate that padua_fit returns is twice the sum of the absolute coefficients of total degree n; the further diagonals contribute nothing. The interpolation error in the rectangle is not bounded by the estimate (claim refuted).",
  "all functions and degrees", "Tests compare one stored estimate; the absence of a contribution holds for all functions.", [f"{PD}:332-342"])
p("padua_val on meshgrids and outside the rectangle",
  "padua_val with use_meshgrid returns a row for each y and a column for each x with the same values as scattered evaluation; outside the rectangle the value is that of the nearest point of the rectangle, so polynomials are not reproduced there (claim refuted).",
  "all coefficient matrices and points", "Tests evaluate inside the rectangle only.", [f"{PD}:483-526"])
p("evans_webster_weights are exact on their span",
  "For nodes in [-1, 1] for which the collocation matrix is nonsingular, the weights of evans_webster_weights integrate exactly f(t) exp(i omega g(t)) over [-1, 1] for every f in the span of p_k' + i omega g' p_k, and there is one weight for each node.",
  "all phases, frequencies, both bases and all node sets with a nonsingular matrix", "The exact value is an integral over a continuum for a family of functions; tests compare a few integrals with a tolerance.", [f"{IO}:94-118"])
p("Evans-Webster weights for a linear phase",
  "For g(t) = s t + o with omega s nonzero and distinct nodes in [-1, 1] the collocation matrix is nonsingular and every polynomial of degree less than the number of nodes times exp(i omega g) is integrated exactly.",
  "all frequencies, slopes, distinct nodes and polynomials", "Nonsingularity for all nodes and frequencies cannot be sampled.", [f"{IO}:94-118"])
p("QuadOsc bisects the interval correctly",
  "After k bisections QuadOsc uses 2^k adjacent parts of equal length from a to b, each with its own nodes in the order of the weights, so the composite rule gives the integral over [a, b] whenever the rule is exact on every part.",
  "all intervals, node sets, numbers of bisections and functions", "The pairing of nodes, weights and parts is an invariant over all bisections.", [f"{IO}:122-137", f"{IO}:272-312"])
p("QuadOsc is exact for polynomials and linear phases",
  "QuadOsc returns the exact integral of a polynomial of degree less than the number of nodes times exp(i omega (s x + o)) over [a, b], also for b < a (with the sign changed) and a = b (zero), after one bisection. maxiter must be at least two: maxiter=1 always raises UnboundLocalError.",
  "all polynomials, intervals and linear phases", "Tests compare with a tolerance; the failing value of maxiter is not tested.", [f"{IO}:208-241", f"{IO}:272-326"])
p("QuadOsc's estimate and stopping rule",
  "The estimate after k bisections is the current quadrature value or one of its two extrapolations, the one that changed least, with this change as error; QuadOsc stops at the first bisection whose error is at most 10^-precision or at the last one, and reports all evaluated nodes.",
  "all functions, phases, extrapolations and iteration limits", "The candidates depend on the iteration; tests see the final value only.", [f"{IO}:243-270", f"{IO}:272-326"])
p("QuadOsc's changes of variable for infinite intervals",
  "For infinite limits the transformed integral of f exp(i omega g) over a finite interval converges if and only if the original one does, and to the same value; the transformed derivative of the phase is the derivative of the transformed phase.",
  "all continuous functions and differentiable phases, all finite limits", "A statement about improper integrals.", [f"{IO}:165-206"])
p("Levin collocation is exact on its span",
  "AdaptiveLevin._a_levin returns the exact integral over [-1, 1] for every function in the span of p_k' + i omega g' p_k if the collocation system, with derivatives up to order s-1 at the first and last point, is nonsingular; for linear phases, s = 1 and distinct points it is nonsingular and polynomials of degree less than the number of points are exact.",
  "all phases, multiplicities, point sets and both bases", "The exact value is an integral for a family of functions.", [f"{IO}:375-416"])
p("AdaptiveLevin and EvansWebster sum the integrals over all parts",
  "The limits of the parts run strictly from a to b, divided exactly at the interpolated crossings of 30, 1, 0, -1 and -30 by the sampled derivative of the scaled phase; with exact values on the parts the sum is the integral over [a, b], also for b < a; for a linear phase both methods are exact for polynomials of degree less than the smallest number of points.",
  "all phases, intervals and functions", "The subdivision depends on the phase; tests compare sums with a tolerance.", [f"{IO}:418-516", f"{IO}:519-536"])
p("the node sets of integrate_oscillating",
  "chebyshev_roots(m) are exactly the roots of T_m in decreasing order; chebyshev_extrema(m) decreases from 1 to -1 for m >= 2 (nan for m = 1); adaptive_levin_points(m, delta) ends for delta > 0 and gives increasing symmetric points from -1 to 1 for odd m (not for even m; it never ends for delta = 0); every set that AdaptiveLevin chooses has the requested number of distinct points in [-1, 1].",
  "all numbers of points and all delta", "Tests print the sets for a few numbers.", [f"{IO}:329-369", f"{IO}:460-497"])
p("hyperbolic_ratio is the quotient of hyperbolic functions",
  "hyperbolic_ratio(a, b, sa, sb) equals f(a)/g(b), where f (g) is cosh for positive sa (sb) and sinh for negative, for all signs of a and b and wherever g(b) is not 0; at b = 0 with sinh in the denominator it is infinite, except sinh(0)/sinh(0), which is 1.",
  "all real a, b and all four combinations of signs",
  "Tests compare a few rounded quotients; sign handling has eight cases of signs of the arguments and the kinds of function.",
  [f"{WT}:15-76"])
p("Sensor names and numbers are inverse to each other",
  "sensor_type gives names for 0..17 and nan for other integers, sensor_typeid of these names gives the numbers back, and sensor_type of the number of a name is the name in lower case; a list of numbers with an unknown name can be passed on; TransferFunction accepts every name and number that these functions know.",
  "all lists of integers and all strings",
  "The table test lists the known names only; strings and integers outside are unbounded.",
  [f"{WT}:79-179", f"{WT}:272-296", f"{WT}:335"])
p("TransferFunction.tran returns the documented factors",
  "tran returns Hw >= 0 with one value per frequency and Gwt with one row per direction, whose product is the transfer function of the sensor; negative factors are moved to Gwt; for infinite depth the responses are the limits of those for increasing depth; the three ways to measure z describe the same point.",
  "all sensors, positions, depths, frequencies, wave numbers and directions",
  "Tests evaluate a few sensors at a finite depth and positive frequencies.",
  [f"{WT}:298-354", f"{WT}:375-514"])
p("Sensors are derivatives of each other",
  "With elevation exp(i(kx x + ky y - w t)) the transfer functions of n_t, n_tt, U_t, V_t, W_t, U, V, W are time derivatives of those of n, n_t, U, V, W, X_p, Y_p, Z_p, and those of n_x, n_y, n_xx, n_yy, n_xy are derivatives of n, n_x, n_y with respect to the position of the sensor.",
  "all positions, depths, frequencies, wave numbers, directions and conventions",
  "Derivatives are statements about limits; a test has finite differences at a few points.",
  [f"{WT}:389-514"])
p("Velocities form an incompressible flow without rotation",
  "The transfer functions of U, V, W satisfy U_x + V_y + W_z = 0, U_z = W_x, V_z = W_y and U_y = V_x with respect to the position of the sensor, for axes at a right angle.",
  "all positions, finite depths, frequencies, nonzero wave numbers, directions, both values of bet",
  "An identity between derivatives at all points.",
  [f"{WT}:359-386", f"{WT}:443-465"])
p("Pressure and accelerations obey the equations of motion, the bottom is tight and the surface moves with the water",
  "If w**2 = g k tanh(k h) then P_x = -rho U_t, P_y = -rho V_t and P_z = -rho W_t; W, W_t and Z_p vanish at the bottom; at the mean water level Z_p = n, W = n_t, W_t = n_tt and P = rho g n. The wave numbers tran computes itself satisfy the relation with the gravity of the transfer function.",
  "all positions, finite depths, frequencies, wave numbers, directions",
  "The equation of motion ties three sensors and the dispersion relation together at all points.",
  [f"{WT}:325-327", f"{WT}:434-490"])
p("Directions of waves and axes",
  "With axes at a right angle and bet=1 the elevation travels in direction (cos, sin) of theta - thetay; bet=-1 is the opposite direction for every sensor; all sensors have period 2 pi in theta; thetax and thetay are read in the same way.",
  "all directions, axes, sensors, frequencies and wave numbers",
  "Trigonometric identities for all angles; the tests use the default axes.",
  [f"{WT}:359-373"])
p("wave_pressure decreases with depth and agrees with TransferFunction",
  "wave_pressure at the mean water level is rho g Hm0/2, it is positive and strictly increasing in z from the bottom on, and equals Hm0/2 times the pressure response of TransferFunction at the same level and wave number.",
  "all levels above the bottom, wave heights, depths, densities, positive wave numbers",
  "Monotonicity over a continuum of levels.",
  [f"{WT}:517-584"])
p("findpeaks returns the n highest peaks in decreasing order",
  "For a signal with at least two turning points and no plateau before a drop, findpeaks(data, n, min_h=0, min_p) returns positions of local maxima in order of decreasing height, at most n of them, leaving out only peaks below the fraction min_p of the highest one and peaks lower than all returned; every strict interior maximum is a candidate. For a matrix, each returned position is the maximum of its row and larger than the values in the rows before and after.  The function works for short or flat signals and for one-row matrices.",
  "all data, numbers n and fractions min_p; all matrices",
  "the argument is about all signals and all positions; the tests use one signal with well separated peaks",
  [f"{M}:1139-1231"])
p("edfcnd is the empirical distribution conditioned on exceeding c",
  "Without a condition edfcnd(x) is the empirical distribution of all data. With a condition c its abscissae are the ordered data not below c, and with method 3 its probabilities are (F - F0)/(1 - F0), where F is the empirical distribution function of all data and F0 the fraction of the data below c.",
  "all data and all c",
  "a relation between two results for every sample and every condition, including ties and c equal to a datum",
  [f"{S}:89-133"])
p("reslife is the mean excess over the threshold, with at least nmin data above it",
  "reslife returns for each threshold the mean of the excesses of the data above it, nan exactly if there are none; the limits are symmetric about it. Between neighbouring data the mean excess falls with slope -1. Data and thresholds in other units give the mean and limits in those units. The default thresholds run evenly from the smallest datum to one above which at least nmin data remain.",
  "all data, thresholds, nmin and nu",
  "slopes and units relate infinitely many inputs; the number of data above the last default threshold matters for all samples",
  [f"{S}:136-237"])
p("dispersion_idx counts every exceedance in one block and is the variance-mean ratio of the counts",
  "Every datum above the threshold is counted in exactly one block, whatever the order and spacing of the times. The index is nan exactly if nothing exceeds the threshold, otherwise the variance of the counts divided by their mean: never negative, zero exactly for equal counts. Shifting the clock, changing the time unit together with tb, or transforming data and thresholds by an increasing function changes nothing. The accepted thresholds are exactly those with an index between the limits, and the chosen one is an accepted one with an index above their mean unless all are equal.",
  "all data, times, block lengths and thresholds",
  "invariance and conservation claims over all samples; the tests compute one number",
  [f"{S}:333-383"])
p("stirlerr, betaloge and binomln are correct to rounding error for all arguments",
  "stirlerr(n) differs from log(n!) - log(sqrt(2 pi n)(n/e)^n) by at most 2^-52 for every positive real n, in all of its five branches. betaloge(z, w) differs from log(Gamma(z)Gamma(w)/Gamma(z+w)) by at most three times that for all positive arguments, is symmetric, inf at zero and nan for negative arguments. binomln(z, w) has the same accuracy for 0 <= w <= z, and for natural numbers it is the logarithm of the binomial coefficient, -inf if that is zero.",
  "all positive real arguments (exact arithmetic; gammaln and betaln of scipy exact)",
  "a bound for the truncation error for all real arguments is an analytic fact; the tests compare a few values with tolerance 1e-8",
  [f"{M}:1839-1904", f"{M}:2014-2119"])
p("fourier returns the coefficients of a trigonometric sum",
  "For whole periods of a trigonometric sum sampled with N equal steps per period, and fewer than N harmonics of signal and result together, fourier returns the coefficients of the sum, so that the documented series gives the signal back; the arguments of the caller are not changed.",
  "all periods, starting times, numbers of periods and coefficients",
  "exactness for all signals follows from orthogonality; the test has one period 2 pi and accepts a factor 4",
  [f"{M}:2832-2908"])
p("num2pistr writes a number and its opposite alike",
  "num2pistr(-x) is num2pistr(x) with a minus sign in front: both are written as a fraction of pi, or both as decimal numbers.",
  "all fractions",
  "the numerator is unbounded; the tests have numerators 3 and 1",
  [f"{M}:2789-2829"])
p("cdflomax is the distribution function of local maxima","For any level x, irregularity factor alpha with |alpha| < 1 and positive variance m0, cdflomax(x, alpha, m0) equals P(sqrt(m0)*(sqrt(1-alpha^2)*Z + alpha*R) <= x) for independent standard normal Z and Rayleigh R, and is non-decreasing in x.","all real x, all alpha in (-1,1), all m0 > 0","tests compare a few numbers with stored values; that the closed formula is a distribution function of the stated law holds for a continuum of inputs",[f"{GA}:400-455"])
p("cdfnorm2d below 0.925: the only error is that of the quadrature rule","For |r| < 0.925 the value of cdfnorm2d(b1, b2, r) differs from P(X1 <= b1, X2 <= b2) by exactly arcsin(r)/(4 pi) times the error of the chosen Gauss-Legendre rule on the arc integral; for r = 0 it is the exact product of the marginals.","all real b1, b2, all r with |r| < 0.925","the identity behind the formula (Plackett's) is about all limits and correlations; tests see sample points only",[f"{GA}:815-854"])
p("cdfnorm2d at and beyond perfect correlation","For r = 1 and r = -1 cdfnorm2d returns the exact probability (Phi(min(b1,b2)) and max(0, Phi(b1)-Phi(-b2))); for |r| > 1 every element is nan.","all real b1, b2 and all r with |r| >= 1","limits are continuous; tests check few values and no invalid correlation",[f"{GA}:810-820",f"{GA}:856-918"])
p("cdfnorm2d from 0.925 on: series part and cut-offs are right","For 0.925 <= |r| < 1 the value of cdfnorm2d differs from the probability by at most 1/(2 pi) times the error of the 20 point rule on the remainder integral plus 1e-20: the part integrated in closed form and the terms dropped at exponents beyond 100 are accounted for.","all real b1, b2, all r with 0.925 <= |r| < 1","an error bound over all limits and correlations",[f"{GA}:856-918"])
p("cdfnorm2d respects exchange and reflection","cdfnorm2d(b1, b2, r) = cdfnorm2d(b2, b1, r), and cdfnorm2d(b1, b2, r) + cdfnorm2d(b1, -b2, -r) = Phi(b1), as for the probabilities.","all real b1, b2 and r with |r| <= 1","an identity between calls for all inputs; it fails for correlations between 0.3 and 0.925 in magnitude where the documented error is 1e-15",[f"{GA}:826-851"])
p("cdfnorm2d treats arrays element by element","Element i of cdfnorm2d on arrays equals the scalar call on the elements i; in particular one correlation may be given for all points.","all lengths, all arrays of limits and correlations","all array contents; the tests use one correlation for all elements",[f"{GA}:815-818",f"{GA}:903-918"])
p("prbnorm2d is the probability of the rectangle","With an exact bivariate distribution function, prbnorm2d(a, b, r) is P(a1 <= X1 <= b1, a2 <= X2 <= b2), for limits that are infinite or below 37 in magnitude.","all limits, finite or infinite, and all r","the case distinction over infinite limits has sixteen branches and continuous limits; tests check one rectangle",[f"{GA}:924-995"])
p("The Gauss-Legendre tables of cdfnorm2d are right","The 6, 12 and 20 point tables integrate every polynomial of degree below 12, 24 and 40 over [-1,1] up to 1.5e-15, 2.5e-16 and 1e-16 times the sum of the coefficients' magnitudes; weights are positive and nodes inside the interval.","all real polynomials of the degree","a statement about all polynomials; a wrong digit would hide in sample checks",[f"{GA}:725-750"])
p("Links of the exponential and Weibull distributions recover the fixed parameter","Given a quantile x of a fitted expon or weibull_min distribution and the logarithm of its exceedance probability, the link returns, for every parameter index the distribution has, exactly that parameter; for any other index it raises IndexError.","all parameters, all x in the support","recovery for all real parameters is an algebraic identity; the tests profile one sample",[f"{ES}:82-112",f"{ES}:742-775"])
p("Links of the generalised Pareto and extreme value distributions recover the fixed parameter","Given x and log sf(x) of a fitted genpareto, genextreme or gumbel_r distribution, the link returns exactly the parameter with the given index.","all parameters, all x in the support","an algebraic identity for all real parameters; the location branches are wrong or unreachable and no test profiles with i the location",[f"{ES}:130-172"])
p("Links of the Rayleigh distributions recover the fixed parameter","Given x and log sf(x) of a fitted rayleigh or truncrayleigh distribution, the link registered for the distribution's name returns exactly the parameter with the given index.","all parameters, all x in the support","identity for all reals; one formula lacks parentheses and one registered name is misspelt, and no test asks for either",[f"{ES}:188-218"])
p("Links of the Burr, exponentiated Weibull and generalised exponential distributions recover the fixed parameter","Given x and log sf(x) of a fitted burr, exponweib or genexpon distribution, the link returns exactly the parameter with the given index.","all parameters, all x in the support","identity for all reals; most branches confuse the distribution function with the survival function and no test reaches them",[f"{ES}:67-79",f"{ES}:115-127",f"{ES}:175-185"])
p("A profile fixes one free parameter and lets the other free ones vary","A profile for index i is set up if and only if i is a parameter that was estimated; it keeps i fixed and varies exactly the other estimated parameters. Without an index the first estimated parameter is profiled.","all numbers of parameters, all sets of fixed parameters, all indexes","all subsets of fixed parameters; the tests fix at most the location",[f"{ES}:276-307",f"{ES}:606-613"])
p("The search for the limits of a profile ends and brackets","The search makes at most 51 steps; when it reports convergence the limit is on the requested side of the estimate and the profile there is below the crossing level by a bounded amount; otherwise the limit is the initial guess or an evaluated point near the level.","all profile functions, also with nan values and with a maximum that grows during the search","the optimiser may return anything; tests follow well-behaved samples only",[f"{ES}:454-492"])
p("A profile is evaluated outwards until it is below the level","The points of a profile are grid points in grid order with the values found there; without nan values they are an unbroken stretch around the first point at or beyond the estimate, ending at the ends of the grid or at the first point whose profile is more than alpha_range below.","all grids, all profile functions","all sequences of optimiser results",[f"{ES}:356-389"])
p("Confidence bounds enclose exactly what is above the level","If the profile is below the crossing level at both ends and above it somewhere, get_bounds returns lo < hi on the polygon through the computed points at the level, and every computed point above the level lies strictly between. With one crossing the other bound is the limit of the profile, with none both are.","all profiles of any length, including points on the level and several crossings","all shapes of profiles; tests see one or two unimodal ones",[f"{ES}:507-539"])
p("The grid of a profile spans its limits","The adaptive grid is strictly increasing, contains both limits and the estimate, stays between the limits and has at most n points.","all n, all limits around the estimate","all n; tests use the default 100",[f"{ES}:434-444",f"{ES}:616-617"])
p("Hessian and covariance of a fit","The numerical Hessian is symmetric, its entries are central differences at the estimate, and it is exact for quadratic functions for any step; the covariance of fixed parameters with all others is zero and that of the free ones is the negative pseudoinverse of their block, the inverse information matrix for quadratic functions.","all functions, all dimensions, all sets of fixed parameters","all functions and dimensions; the loops change one vector in place and a wrong reset shows only with three or more parameters",[f"{ES}:1214-1261",f"{ES}:1293-1320"])
p("The outline of a histogram has the area of the histogram","_staircase returns as many abscissae as ordinates, starts and ends on the axis, and the area under the polygon is the sum of width times height of the bars.","all numbers of bars, all edges and heights","all lengths; the plot is not tested",[f"{ES}:1528-1536"])
p("The grid of the empirical density covers the data with round steps","For data that are not all equal, the grid has a step of 1, 2 or 5 times a power of ten between a third of 2*range/n and 2*range/n, starts below the smallest and ends at or above the largest observation, and has fewer than 3n/2 + 5 points; equal data raise ValueError.","all data","rounding to decimal steps for all real ranges; the plot is not tested",[f"{ES}:1511-1526"])
p("Parameters fixed in a fit stay fixed","Parameters given as f0/fa/fix_a, floc or fscale are fixed at the given value, in every evaluation; the others start at their starting values and the optimiser's vector fills them in order. Naming a parameter twice or fixing all is a ValueError, None means not fixed.","all numbers of parameters, all subsets and spellings, all vectors","all subsets; tests fix one parameter at a time",[f"{DI}:191-272"])
p("Moran's statistic is bounded below and the same from both tails","The negative log product spacings of sorted data are at least m log(m/(1+m eps)) with m one more than the number of observations in the support, plus the penalty for each observation outside, with equality for equal spacings; computing from the distribution or the survival function gives the same.","all sorted data, all distribution functions","a convexity bound over all distributions; tests compare one fit",[f"{DI}:72-114"])
p("Product spacing fits do not depend on origin or unit","Shifting data and location, or for distinct data changing the unit of data, location and scale, leaves the product spacing criterion unchanged; invalid parameters give inf.","all data, parameters and distributions","an identity between two calls for all inputs",[f"{DI}:117-156"])
p("Confidence intervals come one row per quantile","ci_quantile and ci_logsf return one row per parameter in order, the bounds of its own profile, or nan if that profile fails; the default index suits the distribution.","all parameters and profilers","any profile may fail; the exception handler hides that the default index 2 never works for two-parameter distributions",[f"{ES}:1386-1411"])
p("Exponential, Weibull, Rayleigh and related distributions: density, distribution function and quantiles agree","For expon, weibull_min, weibull_max, exponweib, exponpow, rayleigh, truncrayleigh, gompertz, invweibull, truncexpon and genexpon, the density is non-negative with integral one over the support, cdf(x) is the integral of the density up to x and the integral beyond x is 1 - cdf(x); ppf and cdf are inverse to each other on the open support and (0,1); sf, isf, logpdf, logcdf, logsf, where defined by the class, are the complement, the complementary quantile and the logarithms.","all valid shape parameters, all x in the support, all probabilities in (0,1)","each method is a separate hand-written formula; that one is the integral or the inverse of another for all parameters cannot be settled by sample values",[f"{CD}:1487-1800",f"{CD}:2053-2200",f"{CD}:2627-2672",f"{CD}:3190-3230",f"{CD}:4072-4125",f"{CD}:6582-6712",f"{CD}:7180-7240"])
p("Extreme value and generalised Pareto distributions: density, distribution function and quantiles agree","For gumbel_r, gumbel_l, genpareto and genextreme, for every real shape parameter including zero and on the support that depends on it, cdf is the integral of the density, which has total integral one; ppf inverts cdf; sf, isf, logpdf, logcdf, logsf are the complement, complementary quantile and logarithms.","all real shape parameters, all x in the support","the formulas switch at zero and the support changes with the sign of the shape; the integrals are over unbounded sets",[f"{CD}:2495-2625",f"{CD}:2674-2820",f"{CD}:3232-3340"])
p("Power-law distributions: density, distribution function and quantiles agree","For uniform, pareto, lomax, powerlaw, reciprocal, bradford, burr, fisk, burr12, mielke and kappa3, cdf is the integral of the density, which has total integral one; ppf inverts cdf; sf, isf and the logarithms agree.","all valid shape parameters, all x in the support","identities between separate formulas for all parameters",[f"{CD}:825-1145",f"{CD}:5260-5318",f"{CD}:5577-5630",f"{CD}:6119-6240",f"{CD}:6389-6440",f"{CD}:6715-6800",f"{CD}:7598-7630"])
p("Logistic and Laplace distributions: density, distribution function and quantiles agree","For logistic, genlogistic, halflogistic, genhalflogistic, hypsecant, laplace and loglaplace, cdf is the integral of the density, which has total integral one; ppf inverts cdf; sf, isf and the logarithms agree.","all valid shape parameters, all x in the support","identities between separate formulas for all parameters",[f"{CD}:2444-2492",f"{CD}:3137-3188",f"{CD}:3387-3440",f"{CD}:3491-3530",f"{CD}:4222-4262",f"{CD}:4842-4895",f"{CD}:4946-4995"])
p("Distributions from trigonometric functions: density, distribution function and quantiles agree","For anglit, arcsine, cosine, cauchy, halfcauchy, foldcauchy and semicircular, cdf is the integral of the density, which has total integral one; ppf, where defined, inverts cdf; sf and isf agree.","all valid shape parameters, all x in the support","identities between separate formulas; the arcsine density is unbounded",[f"{CD}:443-525",f"{CD}:1150-1200",f"{CD}:1330-1366",f"{CD}:1856-1895",f"{CD}:3344-3384",f"{CD}:6915-6972"])
p("Piecewise distributions: density, distribution function and quantiles agree","For triang, trapz and dweibull, cdf is the integral of the density, which has total integral one, also when one of the pieces is empty (c = 0, c = 1, c = d, d = 1); ppf inverts cdf across the pieces.","all valid shape parameters including the ends of the allowed range, all x in the support","the pieces must meet for all parameters; the edge cases divide by zero in the piece that is not used",[f"{CD}:1426-1484",f"{CD}:7049-7178"])
p("The kappa distribution: density, distribution function and quantiles agree","For kappa4 and every real h and k, on the support given by _get_support, cdf is the integral of the density, which has total integral one; logpdf and logcdf are the logarithms; ppf inverts cdf.","all real h and k, all x in the support","four formulas times six kinds of support",[f"{CD}:5321-5575"])

p("Gamma, chi, Nakagami and related distributions: density, distribution function and quantiles agree","For gamma, chi2, chi, maxwell, nakagami, gengamma (also with negative shape), invgamma, halfgennorm, dgamma and gennorm, cdf is the integral of the density, which has total integral one; ppf inverts cdf; sf, isf and the logarithms agree.","all valid shape parameters, all x in the support","identities between separate formulas for all parameters; scale factors inside the incomplete gamma function cannot be settled by samples",[f"{CD}:1207-1330",f"{CD}:1365-1425",f"{CD}:2836-3140",f"{CD}:3590-3640",f"{CD}:5205-5260",f"{CD}:5720-5770",f"{CD}:7940-8070"])
p("Random numbers have the density of their class","If the underlying draws are uniform, chi-square, gamma, Weibull, Cauchy or normal numbers, the numbers returned by _rvs have exactly the density of the class: chi from chi-square, maxwell and rayleigh from chi, dgamma and dweibull with a random sign, foldcauchy by the absolute value, semicircular from two uniform draws; and ppf of a uniform number has the density of every distribution whose functions fit together.","all shape parameters, all events","equality of distributions; samples can only be tested statistically",[f"{CD}:1233-1235",f"{CD}:1391-1395",f"{CD}:1448-1452",f"{CD}:1876-1878",f"{CD}:5233-5234",f"{CD}:6606-6607",f"{CD}:6958-6963"])
p("Reported moments of the gamma and Weibull families are those of the density","For gamma, chi2, chi, maxwell, rayleigh, nakagami, gengamma, invgamma, weibull_min, weibull_max, dweibull, expon, laplace, dgamma, gennorm and invweibull, mean, variance, skewness and excess kurtosis of _stats and the raw moments of _munp are the integrals over the density; what does not exist is reported as inf or nan.","all valid shape parameters, all orders of the moments","equality with an integral for all parameters",[f"{CD}:1253-1259",f"{CD}:1319-1324",f"{CD}:1418-1420",f"{CD}:1473-1481",f"{CD}:1536-1537",f"{CD}:2114-2115",f"{CD}:2185-2191",f"{CD}:2912-2913",f"{CD}:3125-3127",f"{CD}:3622-3636",f"{CD}:4118-4119",f"{CD}:4255-4256",f"{CD}:5246-5251",f"{CD}:5755-5761",f"{CD}:6631-6636",f"{CD}:7994-7996"])
p("Reported moments of the power-law and bounded distributions are those of the density","For uniform, powerlaw, pareto, lomax, genpareto (also every _munp), reciprocal, bradford, triang, truncexpon, anglit, cosine, arcsine, semicircular, loglaplace, cauchy, halfcauchy and truncrayleigh, mean, variance, skewness, excess kurtosis and raw moments are the integrals over the density; what does not exist is reported as inf or nan.","all valid shape parameters, all orders of the moments","equality with an integral for all parameters; truncrayleigh ignores its parameter and loglaplace reports finite numbers for infinite moments",[f"{CD}:473-474",f"{CD}:513-518",f"{CD}:857-870",f"{CD}:1186-1187",f"{CD}:1358-1359",f"{CD}:2580-2618",f"{CD}:3377-3378",f"{CD}:4988-4989",f"{CD}:6154-6179",f"{CD}:6231-6233",f"{CD}:6429-6433",f"{CD}:6698-6705",f"{CD}:6783-6784",f"{CD}:6965-6966",f"{CD}:7167-7171",f"{CD}:7221-7231",f"{CD}:7622-7623"])
p("Reported entropies are the differential entropies of the densities",
  "For every shape parameter the class admits, entropy() of expon, weibull_min, weibull_max, invweibull, gumbel_r, gumbel_l, genextreme, rayleigh, uniform, pareto, lomax, genpareto, powerlaw, fisk, logistic, halflogistic, genhalflogistic, gamma, gengamma, invgamma, halfgennorm, gennorm, maxwell, anglit, cosine, cauchy, halfcauchy, hypsecant, reciprocal, bradford, truncexpon, laplace, loglaplace, triang and gompertz is the integral of -f log f over the support, which exists. The truncated Rayleigh distribution reports the entropy of the Rayleigh distribution whatever its parameter is.",
  "all shape parameters admitted by the class",
  "The entropy is an improper integral of the density, and the formulas hold for a continuum of parameters; a test compares rounded quadratures at some of them.",
  [f"{CD}:1142-1143", f"{CD}:2117-2118", f"{CD}:2814-2815", f"{CD}:2915-2916", f"{CD}:3129-3131", f"{CD}:3225-3226", f"{CD}:5253-5254", f"{CD}:6707-6709", f"{CD}:7173-7174", f"{CD}:7998-7999"])

p("Density, distribution function and quantiles of the normal family agree",
  "For norm, lognorm, gilbrat, halfnorm, foldnorm, alpha, fatiguelife, johnsonsb, johnsonsu, levy, levy_l, moyal, powernorm, powerlognorm, invgauss, recipinvgauss, exponnorm, crystalball and skewnorm the density is nonnegative with integral one, cdf(x) is the area under pdf up to x, sf is 1 - cdf, ppf and isf (where the class defines them) are the inverses of cdf and sf on (0, 1), and the log functions are logarithms of the functions they are named after.",
  "all shape parameters admitted by the class, all points inside the support, all probabilities in (0, 1)",
  "The formulas are written independently of each other, and the statement is about improper integrals and inverses for a continuum of parameters; a test compares rounded numbers at some points.",
  [f"{CD}:251-280", f"{CD}:309-332", f"{CD}:423-434", f"{CD}:1633-1656", f"{CD}:1822-1836", f"{CD}:2023-2028", f"{CD}:3465-3476", f"{CD}:3678-3691", f"{CD}:4160-4169", f"{CD}:4205-4216", f"{CD}:4294-4305", f"{CD}:4342-4353", f"{CD}:5038-5058", f"{CD}:5174-5185", f"{CD}:5678-5688", f"{CD}:6468-6478", f"{CD}:6507-6518", f"{CD}:6894-6906", f"{CD}:7004-7021", f"{CD}:8107-8179"])
p("Draws of the normal family have the density of the distribution",
  "For norm, lognorm, gilbrat, foldnorm, halfnorm, fatiguelife, recipinvgauss, moyal, exponnorm and skewnorm, `_rvs` returns a function of independent basic draws (standard normal, exponential, gamma, Wald) whose law is the one with density `_pdf` on the support, no mass elsewhere.",
  "all admissible shape parameters; exact laws of the basic draws",
  "A sampling test compares finitely many draws with a tolerance; a wrong density that is close, or a wrong law for other shape parameters, passes.",
  [f"{CD}:306-307", f"{CD}:1628-1631", f"{CD}:1815-1820", f"{CD}:2020-2021", f"{CD}:3462-3463", f"{CD}:5035-5036", f"{CD}:5171-5172", f"{CD}:5673-5676", f"{CD}:6908-6909", f"{CD}:7023-7028"])
p("Moments reported by the normal family are those of the densities",
  "Mean, variance, skewness and excess kurtosis from `_stats` of norm, lognorm, gilbrat, foldnorm, halfnorm, fatiguelife, exponnorm, skewnorm and invgauss are the integrals of the density; alpha, levy and levy_l report infinite or undefined statistics exactly because no moment exists; the mean of moyal is log 2 plus Euler's constant.",
  "all admissible shape parameters",
  "Numerical integration compares rounded numbers at a few parameters, and cannot show that a moment does not exist.",
  [f"{CD}:334-335", f"{CD}:436-437", f"{CD}:1658-1663", f"{CD}:1838-1850", f"{CD}:2030-2047", f"{CD}:3478-3482", f"{CD}:3693-3694", f"{CD}:4307-4308", f"{CD}:4355-4356", f"{CD}:5060-5066", f"{CD}:5187-5193", f"{CD}:5690-5695", f"{CD}:7030-7043"])
p("Entropies reported by the normal family are those of the densities",
  "`_entropy` of norm, halfnorm, lognorm and gilbrat is minus the integral of the density times its logarithm.",
  "all admissible shape parameters",
  "Quadrature over an infinite interval at a few parameters is not a proof of the identity.",
  [f"{CD}:337-338", f"{CD}:3484-3485", f"{CD}:5068-5069", f"{CD}:5195-5196"])
p("Logarithms of gamma variables: densities, draws and moments agree",
  "For loggamma, cdf is the integral of the density, which has total integral one, ppf inverts cdf, and the logarithm of a gamma draw has that density. Mean, variance, skewness and excess kurtosis reported by loggamma, gumbel_l, gumbel_r, genlogistic, logistic and moyal, and the raw moments reported by moyal and halflogistic, are those of the density.",
  "all admissible shape parameters, all points of the support",
  "The reported values are polygamma and zeta values; that they are the improper integrals of powers times the density holds for a continuum of parameters, a test compares rounded numbers at a few.",
  [f"{CD}:2482-2489", f"{CD}:3274-3275", f"{CD}:3333-3335", f"{CD}:3422-3431", f"{CD}:4885-4886", f"{CD}:4920-4940", f"{CD}:5697-5714"])
p("Beta family: density, distribution function and quantiles agree",
  "For beta, betaprime, f, t and rdist the density is nonnegative with integral one, cdf(x) is the area under pdf up to x, sf is 1 - cdf, ppf and isf invert cdf and sf where the class defines them, and logpdf is the logarithm of pdf.",
  "all admissible shape parameters, all points inside the support, all probabilities in (0, 1)",
  "The formulas go through incomplete beta functions with transformed arguments; a test compares rounded numbers at a few parameters.",
  [f"{CD}:599-614", f"{CD}:778-786", f"{CD}:1921-1941", f"{CD}:5965-5990", f"{CD}:6559-6569"])
p("Moments reported by the beta family are those of the densities",
  "Mean, variance, skewness and excess kurtosis reported by beta, f and t, and the raw moments of betaprime, are those of the density; where inf or nan is reported the moment does not exist.",
  "all admissible shape parameters",
  "The formulas change at limits of the shape parameters, where moments cease to exist; no finite number of quadratures shows divergence.",
  [f"{CD}:616-622", f"{CD}:800-819", f"{CD}:1943-1971", f"{CD}:5992-6003"])
p("Burr family, rdist and quotients of gamma variables: moments and draws agree with the densities",
  "Raw moments and statistics of burr, fisk, burr12 and rdist are those of the density, and undefined where they do not exist; betaprime draws (a quotient of gamma draws) and rdist draws (a shifted beta draw) have the density of the class; the statistics of hypsecant are those of its density.",
  "all admissible shape parameters; exact laws of the basic draws",
  "Existence of moments and equality of laws are statements about a continuum of parameters and infinite tails.",
  [f"{CD}:772-776", f"{CD}:973-1000", f"{CD}:1075-1077", f"{CD}:1136-1140", f"{CD}:3521-3522", f"{CD}:6571-6576"])
p("Truncated normal: density, distribution function, quantiles and tails agree",
  "For truncnorm with limits a < b, finite or infinite, the density has integral one, cdf and sf are the areas below and above, ppf inverts cdf, and logpdf, logcdf are the logarithms. This also holds when both limits lie more than 30 standard deviations out, where the code changes to logarithmic formulas.",
  "all limits a < b including infinite ones, all points between, all probabilities in (0, 1)",
  "There are several branches (limits on either side of zero, far tails, bracketing search for the quantile) which have to agree on a continuum of limits.",
  [f"{CD}:7256-7363", f"{CD}:7394-7432", f"{CD}:7459-7460"])
p("Moments reported by truncnorm are those of the density",
  "`_munp(n, a, b)`, computed by a recursion, is the n-th raw moment of the density for every n, and `_stats` gives its mean, variance, skewness and excess kurtosis.",
  "all orders n, all limits a < b including infinite ones",
  "A recursion for all orders needs induction; boundary terms vanish only at infinite limits.",
  [f"{CD}:7483-7504", f"{CD}:7506-7531"])
p("A distribution made of a histogram has the density, quantiles, moments and entropy of the histogram",
  "rv_histogram(content, bins): cdf is the area under the stepwise density, ppf returns a point with the probability asked for even when bins are empty, raw moments and entropy are those of the density, and the probability of a bin is its relative content; lists whose lengths do not fit are rejected.",
  "all histograms with increasing bins, nonnegative contents and at least one positive content; all orders of moments",
  "Needs all numbers of bins, all contents including empty bins, and all orders.",
  [f"{CD}:8452-8482", f"{CD}:8484-8500", f"{CD}:8502-8512"])
p("Wrapped Cauchy and Tukey lambda: density, distribution function, quantiles and entropy agree",
  "For wrapcauchy and tukeylambda the density has integral one, cdf is the area under the density, ppf inverts cdf, and the entropy is that of the density; the tukeylambda density vanishes beyond 1/lambda for positive lambda.",
  "all 0 < c < 1 for wrapcauchy; all real lambda for tukeylambda",
  "The wrapped Cauchy branches glue at pi where the tangent has a pole; Tukey lambda has only a formula for the quantiles.",
  [f"{CD}:7900-7931", f"{CD}:7564-7582"])
p("Moments reported by genextreme are those of the density",
  "`_munp(n, c)` is the n-th raw moment of the density and inf when it does not exist; `_stats(c)` gives mean, variance, skewness and excess kurtosis, inf or nan when they do not exist; for an array of shape parameters the result is that of its elements.",
  "all real shape parameters c, all orders n, all arrays",
  "Existence of the moments changes at c = -1/n; near zero the code changes to limit values; arrays mix the cases.",
  [f"{CD}:2757-2787", f"{CD}:2807-2812"])
p("Moments of the crystal ball distribution","crystalball._munp(n, beta, m) is the n-th raw moment of the density _pdf for every order n below m-1, with both the Gaussian part (incomplete gamma function) and the power law tail (binomial sum) accounted for, and is infinite exactly when that moment does not exist. The infinity it returns is positive also for odd orders, where the integral diverges to minus infinity.","every order n, every beta > 0 and m > 1","the moments are integrals over the line; a test compares a few orders with quadrature and cannot establish existence",[f"{CD}:8107-8127",f"{CD}:8181-8205"])
p("Probabilities of the Poisson binomial distribution","For pbinom(probabilities) the values behind pmf, cdf and sf, obtained from a Fourier transform of the characteristic function in polar form of which only half is computed, are P(X = k), P(X <= k) and P(X > k) for the number X of successes in independent trials with those probabilities, at every point of the support; the constructor refuses exactly the lists with a value outside [0, 1]. The code adds the rounding unit to every probability, so the values add up to more than one.","every list of probabilities of every length, every point","the number of outcomes grows exponentially, and the zero of the characteristic function (p = 1/2) is a corner case of the polar form",[f"{SD}:262-287",f"{SD}:300-356"])
p("Moments of the Poisson binomial distribution","pbinom._stats gives the mean, the variance, the skewness and the excess kurtosis of the number of successes in independent trials with the given probabilities.","every list of probabilities of every length, not all of them 0 or 1 for skewness and kurtosis","a test can only compare single parameter vectors with enumeration",[f"{SD}:291-298"])
p("Start values of the generalized Pareto distribution fit the data", "fit of genpareto starts from shape, location and scale computed by the method of moments: the distribution with the start values has the mean and the variance of the data.", "all data", "Tests fit samples and see the optimum, which the optimizer reaches from many start values; they cannot show that the start values solve the moment equations.", [f"{SD}:76-86"])
p("Start values of the generalized extreme value distribution fit the data", "fit of genextreme starts from probability weighted moments: for estimated shapes above -1 the distribution with the start values has the mean of the data, and the expected larger value of two draws is the mean larger value over all pairs of data. The data passed by the caller are left as they are.", "all data of more than two values which are not all equal", "Holds for all data through an integral identity; tests compare a few fits and do not look at the caller's array.", [f"{SD}:89-104"])
p("Start values of further distributions", "fit of weibull_min, lognorm, bradford, f, chi and ncx2 starts from values which reproduce moments of the data (or of their logarithms): weibull_min the variance of the logarithm and the mean power, lognorm mean and variance of the logarithm, bradford the mean, f and ncx2 mean and variance, chi the second moment up to rounding; location and scale place all data inside the support.", "all data", "The moment equations hold for all data or not at all; a fit that ends near the optimum does not show which.", [f"{SD}:41-73", f"{SD}:107-128"])
p("Rainflow matrix of a Markov chain of turning points: block sums are min-max cycles plus excursions",
  "For all rates of a Markov chain of turning points, the matrix returned by mctp2rfc satisfies, for every square block which ends at the line where minimum and maximum are equal and for whose corner there is room: the rainflow cycles in the block are the min-max cycles in the block plus the summed rates of all excursions of the chain through the block, with any number of cycles inside. The matrix is zero on and beyond that line, the entries in the first row and column are not negative and take what is left of the maxima and minima, and no equation is singular if every class of minima can be followed by the highest maximum.",
  "all numbers of levels, all nonnegative rate matrices, all blocks", "the excursion rate is an infinite sum over paths and the statement is about every block of every matrix", [f"{MK}:449-579"])
p("Inverting a rainflow matrix: what the iteration returns",
  "The result of iter_ is the start matrix after at most k corrections; all but the last correction moved it by more than epsilon, and with fewer than k corrections the last one moved it by at most epsilon; no entry is negative; every entry is then within epsilon of the wanted rainflow entry or is zero with too large a rainflow entry; an exact nonnegative solution is returned unchanged; the second result is the rainflow matrix of the first.",
  "all functions fun2rfc, rainflow matrices, start matrices, k and epsilon", "the number of corrections is not bounded and the function is arbitrary", [f"{MK}:69-122"])
p("Markov functions which always fail",
  "mctp2tc raises an exception whenever at least three levels are not below and at least two are below the reference level, except for two sizes; it normalises the caller's matrix in place; mc2rfc and iter_mc raise for every matrix.",
  "all matrices, levels and reference levels", "the tests use the one size for which mctp2tc does not raise", [f"{MK}:125-153", f"{MK}:289-446", f"{MK}:582-725"])
p("Test matrices for min-max cycles",
  "mktestmat returns a normal kernel with deviations lam*s along and s across the diagonal around the centre, zero below the chosen diagonal, and the transposed matrix for max-min cycles; the documentation says that by default the diagonal is zero, which it is not.",
  "all levels, centres, s, lam not zero, and all numsubzero", "the formula of the documentation contains an inverse matrix and is about all entries", [f"{MK}:728-810"])
p("SmoothSpline returns the function of least cost",
  "For three or more points in increasing order, positive variances and any p, SmoothSpline succeeds, and evaluating it gives a twice continuously differentiable function, straight outside the points, for which p times the sum of squared distances from the data over their variances plus (1-p) times the integrated squared second derivative is smaller than for any other twice continuously differentiable function; p=1 gives the interpolating natural spline, p=0 the line of weighted least squares; with lin_extrap the line continues outside, otherwise the value there is 0.",
  "for all data, variances, p, evaluation points and all competing twice continuously differentiable functions",
  "the competitors form an infinite-dimensional space; tests compare a few values with stored numbers",
  [f"{IP}:466-675"])
p("The smoothing parameter chosen by default",
  "When p is omitted or not in [0, 1], the parameter used is 1/(1 + T/(100 R^2)) with T and R the traces of the two matrices, and it lies strictly between 0 and 1.",
  "for all points, values and positive variances",
  "holds for every spacing and all variances",
  [f"{IP}:583-593", f"{IP}:660-663"])
p("SmoothSpline does not depend on the order in which the data are given",
  "For data in any order SmoothSpline returns the spline of the data put in order, each value keeping its variance; for two points it returns the line through them.",
  "for all permutations of the data and all variances",
  "the number of orders grows with the number of points; the tests use sorted data and one variance",
  [f"{IP}:570-581", f"{IP}:626-644"])
p("Cheb1d(ck, a, b) is the series with the coefficients ck",
  "Calling Cheb1d(ck, a, b, kind) at x gives chebval(x, ck, a, b, kind) for every list of coefficients, listed from the highest degree.",
  "for all coefficient lists, limits and points",
  "the answer depends on where zeros stand in the list; the class has no tests",
  [f"{PL}:1712-1727"])
p("Items of a Cheb1d object",
  "c[k] reads the k'th coefficient and 0 outside the order; c[k] = v changes only this coefficient, extends the order if necessary and raises ValueError for negative k; assigning the value that is read changes nothing.",
  "for all objects, indices and values",
  "every index and every sequence of assignments is a case",
  [f"{PL}:1789-1805"])
p("A copy of a Cheb1d object is independent of the original",
  "Assigning items of Cheb1d(c) or of Cheb1d(array) changes neither c nor the array it was made from.",
  "for all states of the heap, objects, indices and values",
  "sharing of memory shows only in sequences of operations on several objects",
  [f"{PL}:1712-1724", f"{PL}:1796-1805"])
p("Arithmetic of Cheb1d objects",
  "-c, c + d, c - d, c.integ() and c.deriv() return the object of the corresponding series, and len(c) is defined for every object.",
  "for all objects and arguments",
  "no test calls these methods; the statement is about every argument",
  [f"{PL}:1740-1781", f"{PL}:1810-1838"])
p("Equality of Cheb1d objects",
  "c == d is True exactly when coefficients, limits and kind agree.",
  "for all pairs of objects",
  "depends on the lengths of both coefficient lists",
  [f"{PL}:1771-1774"])

p("Ordinal logistic regression evaluates the likelihood of the model",
  "RegLogit.loglike returns minus twice the log-likelihood of the cumulative logistic model, with one threshold less than there are observed categories, whatever integers code the categories.",
  "all integer category vectors, covariate matrices and parameters", "Gaps in the coding and the first and last category are special cases of index arithmetic; a test covers a few codings.",
  [f"{S}:941-956", f"{S}:1308-1323"])
p("Ordinal logistic regression uses the right derivatives",
  "The vectors dl and d2l of RegLogit.loglike are the gradient and the matrix of second derivatives of the log-likelihood wherever the observed categories have positive probability.",
  "all data, parameters and directions", "A difference quotient at a sample of points is only an approximation of the derivative there.",
  [f"{S}:1325-1341"])
p("A zero of the gradient is a maximum of the likelihood",
  "The second derivative is negative semidefinite, and parameters at which RegLogit.loglike returns dl = 0 give the data a likelihood at least as large as any other parameters.",
  "all data and all pairs of parameters with positive probabilities", "Optimality is a comparison with all other parameters.",
  [f"{S}:978-1011", f"{S}:1308-1341"])
p("Without covariates the fitted probabilities are relative frequencies",
  "RegLogit.fit(y) without covariates ends in the first pass, the fitted probability of each category is its relative frequency, and this is the maximum of the likelihood.",
  "all category vectors, every least squares solver that maps 0 to 0, every accuracy", "Relative frequencies on an example do not show optimality or that the loop always ends at once.",
  [f"{S}:951-1011"])
p("The damped Newton iteration of the logistic fit takes every step that improves the likelihood",
  "A pass of the loop in RegLogit.fit takes the Newton step when it improves the likelihood and shortens it otherwise; start values may be passed for every model.",
  "all data, states of the loop and start values", "The branch for steps beyond the maximum is not entered by the examples.",
  [f"{S}:957-1011"])
p("The linear predictor of the logistic fit is the covariates times the coefficients plus the thresholds",
  "RegLogit.fit computes eta[i, j] = X[i] . beta + theta[j] for every number of covariates.",
  "all covariate matrices and coefficients", "Broadcasting gives the right values for one covariate; other numbers are needed to see the difference.",
  [f"{S}:1021-1030"])
p("Predicted category probabilities are probabilities and lie within their limits",
  "RegLogit.predict returns the probabilities of the model, which sum to 1 and are not negative; with fulloutput the limits enclose them and lie between 0 and 1.",
  "all covariates, coefficients, ordered thresholds and half widths that are not negative", "That the smaller of two shifted differences stays below the middle one for all predictors is an inequality for the logistic function.",
  [f"{S}:1261-1305"])
p("The variance of the linear predictor is that of the fitted parameters",
  "In RegLogit.predict the variance used for the limits is the variance of theta_i + Xnew . beta under params_cov.",
  "all covariance matrices, covariates and categories", "The difference appears only for three or more categories and is not visible without computing the variance independently.",
  [f"{S}:1269-1286"])
p("Removing collinear covariates keeps a basis",
  "With deletecolinear RegLogit.check_xy removes covariates that are linear combinations of others, so that those kept are independent and span the same space.",
  "all covariate matrices", "With the dependent column at the end the result is right by chance.",
  [f"{S}:890-909"])
p("padefitlsq reproduces rational functions",
  "If fun is P/Q with P and Q without common factor, of degrees at most m and k with one of these attained, Q(0) = 1 and Q not zero at the points used, and the singular value decomposition is exact, then the coefficients that padefitlsq(fun, m, k, a, b) returns are those of P and Q.",
  "all orders, intervals with a != b, both point sets, all such P and Q and all exact decompositions",
  "Tests fit exp on one interval; whether a later reweighted pass can replace the exact pair by a wrong one depends on every possible decomposition of a zero matrix.",
  [f"{PL}:1908-2056"])
p("padefitlsq returns the best of its passes",
  "The pair returned is one of the five found by reweighting, and none of the five with a denominator that vanishes at no point has a smaller maximal deviation from the data.",
  "all data, points, orders and decompositions",
  "The maximum is Python's max, which skips or propagates nan depending on its position; the choice has to be checked for every sequence of deviations.",
  [f"{PL}:2011-2056"])
p("padefitlsq with arrays of values",
  "padefitlsq(fs, m, k, x=x) accepts values at more than 8(m+k+1) points, as documented. (Refuted: every such call raises ValueError; only exactly 8(m+k+1) values work.)",
  "all arrays of values and points",
  "The doctests only pass callables; the failure is for every length but one.",
  [f"{PL}:1914-1934", f"{PL}:1984-2037"])
p("padefit is the Pade approximant of the polynomial",
  "padefit(c, m) returns p and q of degrees at most len(c)-1-m and m with polyval(c, x) q(x) - p(x) divisible by x^len(c), for every order m with default (len(c)-1)/2. (Refuted for m = 0 and for the default order of poly1d objects.)",
  "all coefficient lists and orders",
  "Tests fit one list with one order; the order in which coefficients are reversed and the default matter for all.",
  [f"{PL}:1841-1898"])
p("TrData is increasing in both directions",
  "For increasing data and args, TrData(data, args).dat2gauss and gauss2dat are increasing, map the range of one table into that of the other and reproduce the tables. (Monotone between the end points; tables that are not equidistant are not reproduced, and above the table values depend on the other points asked for.)",
  "all increasing tables and all vectors of points",
  "Tests use a linear transformation on an equidistant table; monotonicity concerns every table and every pair of points.",
  ["src/wafo/transform/core.py:203-207", f"{M}:2485-2617"])
p("TrData recognises a linear transformation",
  "For x = mean + sigma y on an equidistant table containing ymean and ymean +- ysigma, TrData finds mean + sigma ymean and sigma ysigma, transforms exactly in both directions inside the table and has distance 0 to the Gaussian model.",
  "all linear transformations, table sizes and points inside the table",
  "The docstring shows one table of 50 points.",
  ["src/wafo/transform/core.py:79-83", "src/wafo/transform/core.py:177-207"])
p("qlevels2 encloses p per cent of the data",
  "qlevels2(data, p, method) returns a level with more than p/100 (n-1) of the n data at or above it and fewer than p/100 (n-1) + 1 above it, for all four methods.",
  "all non-empty data, percentages and methods",
  "Ties, rounding of the position and the four methods have to be combined for every sample size.",
  [f"{KN}:146-196"])
p("Positions documented for qlevels2",
  "With F = 1 - p/100 the level is X[k] at F = k/(n-1), (k+0.5)/n, (k+1)/n and k/n for methods 1 to 4. (Refuted for method 2.)",
  "all data and positions k",
  "The positions are a claim for every n and k; the doctest compares rounded quantiles of a random sample.",
  [f"{KN}:153-160", f"{KN}:192-196"])
p("Levels of qlevels decrease with the percentage",
  "qlevels(pdf, p, xi) returns levels within the values of pdf that decrease as p increases, and the level of one percentage does not depend on the others. (Holds between the share of the largest cell and 100 n/(n+1.5e-8); refuted outside.)",
  "all positive densities, abscissae and lists of percentages",
  "Every combination of percentages and densities; the doctest has 2001 points, so that no cell has a share near 10 per cent.",
  [f"{KN}:46-143", f"{M}:2485-2617"])
p("qlevels for a density on a single point",
  "qlevels returns a level for every density with positive mass. (Refuted: a density on a single point raises ZeroDivisionError for all percentages.)",
  "all values and percentages",
  "No test has a density on one point.",
  [f"{KN}:115-143"])
p("Second order wave: what disufq accumulates","The Fourier sum of the result of disufq is, for each case and each phase, the second order wave: the double sum over all ordered pairs of components with the sum and difference frequency transfer functions, -|k1-k2|/2 and (k1+k2)/2 above depth 10000 and the finite depth functions below.","all amplitudes, numbers of cases, frequencies and index limits, and all phases","The triangular loop with doubled weights and flat indices equals the full double sum for every size; a test compares one array with stored numbers.",[f"{N}:254-433",f"{N}:436-471"])
p("Memory written by disufq","disufq writes inside its arrays exactly when 2*nmax <= n+1; nmax up to n, as documented, writes outside.","all sizes and limits","An out of bounds write of compiled code need not show in a test, and depends on the sizes only.",[f"{N}:281-300",f"{N}:323-357",f"{N}:370-433",f"{N}:450-456"])
p("Diagonal of the finite depth transfer functions","The factor of the sum frequencies on the diagonal is the formula for pairs at equal components, and the factor of the difference frequencies is its limit along the dispersion relation.","all gravity, depth and wavenumbers with k*h < 300","A limit 0/0 cannot be evaluated by a test.",[f"{N}:263-278",f"{N}:307-320"])
p("Deep water limit of disufq","With growing depth the finite depth factors tend to the factors used above depth 10000.","all pairs of frequencies with w**2 = g*k","A limit; tests compare two depths at single frequencies.",[f"{N}:263-320",f"{N}:374",f"{N}:395-396",f"{N}:467"])
p("qtf agrees with the simulation","The tables of qtf are half the factors used by disufq: both tables for infinite depth, the diagonal of the difference frequencies, and the difference frequencies of method langley.","all frequencies, wavenumbers and depths with nonzero denominators","The two are written in different forms; only an identity shows they are the same function.",[f"{SC}:170-175",f"{SC}:205-213",f"{SC}:239-248"])
p("Default method of qtf in finite depth","The tables of method winterstein tend to those for infinite depth as the depth grows, and do not depend on the unit of length. (Refuted: the depth stands outside tanh, the difference frequencies get the wrong sign for every pair; right only at depth one.)","all pairs of frequencies and depths","The doctest stores the wrong limit as expected value.",[f"{SC}:216-229"])
p("Sum frequencies of method langley","The sum frequencies of method langley are symmetric in the two components and agree with the simulation. (Refuted: g*2 for g**2 makes every entry wrong unless g = 2.)","all pairs of frequencies, depths and gravity","No test runs the method; an error term for all entries is not a test result.",[f"{SC}:194-203"])
p("A regular wave gets Stokes' second order wave","For one component with amplitude a, disufq returns k a^2/2 cos(2 psi) in deep water and k a^2 (3-s^2)/(4 s^3) cos(2 psi), s = tanh(kh), plus a constant that lowers the mean level in finite depth.","all amplitudes, phases, wavenumbers, depths and gravity","Stokes' expansion is a closed form for all parameters; the test stores one array.",[f"{N}:254-433",f"{SC}:2909-2945"])
p("Components in the second order simulation","sim_nl applies the second order correction to the components within its frequency limits. (Refuted: every index is one too low; the largest component is never used, one below the lower limit is, and possibly frequency zero.)","all spectra, grids and limits","A shift by one index changes a random simulation only slightly; no test can tell it from noise.",[f"{SC}:2892-2900",f"{SC}:2964-2965",f"{SC}:2985-3000"])
p("Moments of second order waves in deep water","In infinite depth stats_nl returns mean 0, a skewness that is not negative and kurtosis 3 + (4 skew/3)^2.","all nonnegative spectra on increasing grids","A sign for all spectra.",[f"{SC}:3095-3132"])
p("Options of stats_nl","The moments come in the order mvsk whatever the order of the letters, and both documented methods work. (Refuted: 'eigenvalue' raises ValueError.)","all spectra and letters","The order is a claim for all strings; no test uses the second method.",[f"{SC}:3018-3025",f"{SC}:3120-3132"])
p("The Kalman gain is the best possible gain",
  "In wafo.sg_filter.Kalman the gain computed from a covariance P and a positive definite R exists, the stored covariance P - KHP is the covariance of the error of the updated estimate, and for every other gain the error covariance is at least as large in every direction (so also in trace); an observation never increases the uncertainty.",
  "all sizes, observation matrices, positive semidefinite P, positive definite R, all competing gains", "Optimality over all gains and all covariances is a universally quantified matrix inequality; a test compares a few numbers.",
  [f"{SG}:1020-1034"])
p("The covariance attribute of Kalman stays a covariance",
  "Starting with positive semidefinite P and Q and positive definite R, no call fails for want of an inverse and the attribute P is symmetric positive semidefinite after every call, for any observations and controls.",
  "all systems, all lists of observations and controls", "An invariant over all executions of any length.",
  [f"{SG}:1013-1050"])
p("Kalman follows a noise free system exactly",
  "Started at the true state and fed with observations without error, the filter returns the true states whatever A, B, H, Q, R and P it was told.",
  "all systems, controls and lengths", "Quantifies over all systems and all sequences.",
  [f"{SG}:1013-1050"])
p("Kalman.reset returns the filter to its initial state",
  "After reset() the object should behave as a newly constructed one.  It does not: once an observation has been seen reset has no observable effect at all, because only the method pointer is restored and the state and covariance are kept.",
  "all objects, all observation sequences after the reset", "That a method has no observable effect is a statement about all later call sequences.",
  [f"{SG}:926-927", f"{SG}:1001-1011"])
p("Automatic start of Kalman is the limit of infinite prior covariance",
  "Without x and P and with an invertible H, the first call returns the state which reproduces the observation with covariance inv(H) R inv(H)'; this is the limit, as c grows, of the update from any prior estimate with covariance c P0, as documented.",
  "all invertible H, positive definite R and P0, all observations and priors", "A limit statement; no finite computation shows it.",
  [f"{SG}:870-881", f"{SG}:983-999"])
p("Default Kalman filter is the running mean",
  "With everything but a positive definite matrix R at its default, the estimate after any observations is their mean and its covariance is R divided by their number.",
  "all sizes, all non-empty lists of observations", "Holds for every length; proved by induction over calls.",
  [f"{SG}:916-1050"])
p("A number for R means that error variance for each observed quantity",
  "Kalman(R=r) with a number r should treat r as variance of each observed quantity.  With two or more quantities it does not: r is added to every entry of the innovation covariance, so a component observed to be 0 twice is estimated as -1/3.  With one quantity the number and the 1x1 matrix give the same results for every call sequence.",
  "refutation by a two dimensional example; agreement for all one dimensional observations", "The wrong covariance gives plausible numbers; the equivalence is over all call sequences.",
  [f"{SG}:979-981", f"{SG}:1020-1026"])
p("Start of Kalman with a singular observation matrix",
  "When the start is taken from the first observation the state should reproduce it.  With a singular H no error is raised and the observation itself is taken as the state, even when another state explains the observation.",
  "all singular H and observations", "Quantifies over all singular matrices.",
  [f"{SG}:983-999"])
p("HodrickPrescott returns the minimiser of its criterion",
  "For four or more values and w >= 0 the linear system has exactly one solution and it is the unique minimiser of the sum of squared distances to the data plus w times the sum of squared second differences; the matrix with its corrected corners is I + w D'D.",
  "all lengths >= 4, all series, all w >= 0, all competing series", "Minimality over all series and correctness of the corners for all lengths.",
  [f"{SG}:761-778"])
p("HodrickPrescott keeps lines, sum and first moment and is linear",
  "The sum and the first moment of a series are preserved, straight lines are returned unchanged, w = 0 returns the data, and the filter is linear.",
  "all lengths, series and w", "Exact identities for all lengths.",
  [f"{SG}:761-778"])
p("HodrickPrescott approaches the least squares line for large w",
  "As w tends to infinity every value of the result tends to that of the least squares line of the data (documented as approaching a line).",
  "all lengths >= 4, all series", "A limit statement.",
  [f"{SG}:729-733", f"{SG}:761-778"])
p("HodrickPrescott for short series",
  "Series with fewer than four values are returned unchanged.  For one and two values this is the minimiser of the criterion; for three values it is not, for any w > 0.",
  "all w; all series of length <= 2; a counterexample for each w > 0", "Holds for every w.",
  [f"{SG}:771-775"])
p("HampelFilter replaces exactly the outliers by the local median",
  "For two or more values and a positive window half width, each value of the result of HampelFilter is the original value when it is within t * 1.4826 times the median absolute deviation of the median of the values whose abscissa is within dx, and that median otherwise; the outlier mask says which, and for t >= 0 the result lies between the bounds LB and UB.",
  "all series, abscissas (in any order), windows and thresholds", "Holds for all data; the median is characterised by counts, not by a computation.",
  [f"{SG}:1123-1133", f"{SG}:1178-1217"])
p("HampelFilter with t = 0 is a median filter; majorities win",
  "With t = 0 every value is replaced by the median of its window, as documented, and for any t a value taken by more than half of a window replaces the others.",
  "all series, windows and thresholds", "Holds for all data.",
  [f"{SG}:1128-1133", f"{SG}:1204-1217"])
p("HampelFilter follows changes of unit, sign and origin",
  "Filtering c*y + e with c != 0 gives c times the filtered y plus e, with the same outliers.",
  "all series, windows, thresholds, all c != 0 and e", "A relation between two runs for all inputs.",
  [f"{SG}:1128-1133", f"{SG}:1204-1217"])
p("Default window of HampelFilter",
  "With dx=None increasing abscissas never fail; decreasing abscissas always raise ValueError.  A single value is returned when dx is given; with the default it raises ValueError although the code has a branch for it.",
  "all series; all single values", "Which inputs fail is a statement about all inputs.",
  [f"{SG}:1123-1125", f"{SG}:1185-1202"])
p("Search for the window of the adaptive HampelFilter",
  "The search for the local window size should end with a window.  It does when adaptive >= 0 and (n-1)*dx spans the data; otherwise it can run past its table (IndexError), e.g. for two values one apart with dx=1/2 and any adaptive below 1/2.  The relative change never exceeds 1/2, so for adaptive >= 1/2 the first window is always chosen.",
  "all series, abscissas, adaptive and dx", "Termination of a data dependent loop for all data.",
  [f"{SG}:1143-1163"])
p("smoothn: the bounds of the smoothing parameter are the bounds of the average leverage",
  "The bound _smoothness_limits computes from an average leverage H in (0, 1] is the non-negative parameter whose _average_leverage is exactly H, for every number of dimensions, and s lies on one side of this bound exactly when its leverage lies on the other side of H; so the automatic choice keeps the leverage between 1e-6 and 0.99.",
  "for every H in (0, 1], every number of dimensions, every s >= 0",
  "The two formulas are inverse functions on an interval; tests compare some values with a tolerance.",
  [f"{SG}:314-332", f"{SG}:438-442"])
p("smoothn: complete data give the penalized least squares solution in one pass",
  "For at least two finite values with equal positive weights and given s >= 0, smoothn without robust converges, its result does not depend on tolz, maxiter, z0 or the common weight, it is the only series with the least sum of squared distances plus s times the squared second differences (reflected at the ends), and its sum is the sum of the data.",
  "for every length >= 2, all data, s >= 0, tolz, maxiter >= 1, z0",
  "Optimality over all series and independence of the options are universal statements.",
  [f"{SG}:335-361", f"{SG}:472-502", f"{SG}:550-573"])
p("smoothn: more smoothing is smoother, and in the limit the mean",
  "For complete data a larger s gives a result that is not rougher and not closer to the data; for s to infinity every value tends to the mean of the data (so straight lines are not kept).",
  "for all complete data and all 0 <= s < t; limit over s",
  "Monotonicity in a real parameter and a limit.",
  [f"{SG}:335-361", f"{SG}:472-502"])
p("smoothn: weighted iteration never gets worse and can only stop at the optimum",
  "The normalised weights lie in [0, 1] with largest 1, are 0 for missing values and do not change when the weights are scaled. Every pass of the iteration with the relaxation factor of the code lowers the weighted objective by at least a seventh of the squared change, so the result is never worse than the initial guess, the squared changes of all passes together are at most seven times the objective of the start, and a series a pass does not change has the least objective of all.",
  "for all weights, missing patterns, starts, s >= 0 and numbers of passes",
  "An invariant of an iteration of any length from any start.",
  [f"{SG}:399-408", f"{SG}:306-307", f"{SG}:480-501"])
p("smoothn leaves the data of the caller unchanged",
  "After smoothn(data) the array passed by the caller holds the values it had before, so that a second call with it gives the same result.",
  "for every array, with and without missing values",
  "A side effect on the argument, for all patterns of missing values.",
  [f"{SG}:301", f"{SG}:552"])
p("smoothn: the weights of the robust smoothing are sensible",
  "The weights of robust_weights lie in [0, 1], a residual zero has weight 1 and a larger absolute residual has no larger weight, for each of the three weight functions.",
  "for all residuals and every leverage",
  "All residuals, also those with median absolute deviation zero.",
  [f"{SG}:410-436"])
p("smoothn: the initial guess keeps the known values",
  "The array from which _initial_guess starts equals the data where they are finite and the value of the nearest finite neighbour elsewhere.",
  "for all data and patterns of missing values",
  "All patterns of missing values; the effect is hidden by the iteration that follows.",
  [f"{SG}:364-371"])
p("smoothn: the weighted iteration converges to the unique optimum from every start",
  "With s > 0, weights in [0, 1] and at least one positive weight there is exactly one series with the least weighted objective; the passes of the loop with the relaxation factor of the code tend to it from every start, and for every tolz > 0 the loop reports convergence once maxiter is large enough, unless the optimum is the zero series.",
  "for every length, weights, data, start, s > 0 and tolz > 0",
  "A limit over infinitely many passes, from every start.",
  [f"{SG}:306-307", f"{SG}:480-501"])
p("evar is a variance: between zero and the variance of the data, and covariant",
  "For one dimensional data evar returns a value between 0 and the variance of the data, 0 exactly for constant data; adding a constant to the data changes nothing, and data times c have c^2 times the value.",
  "for all data, whatever the optimizer returns (for the factor: any optimizer that does not depend on the scale of its function)",
  "All data and every outcome of the numerical search.",
  [f"{SG}:186-272"])
p("evar uses the residuals of the thin plate smoothing spline",
  "The noise variance for a parameter is the mean square of the residuals of the thin plate smoothing spline of the documentation, which is the smoothing of smoothn.",
  "for all data and all parameters",
  "A statement about all data for each parameter; a test of the estimate on one signal accepts both penalties.",
  [f"{SG}:191-195", f"{SG}:258-271"])
p("SavitzkyGolay.smooth_last agrees with smooth at the last value",
  "smooth_last(signal) is the last value of smooth(signal), for smoothing and for derivatives, when the window lies inside the signal or the edges do not matter.",
  "for all signals, coefficients and k",
  "All signals and coefficients; sign and position errors are hidden by symmetric coefficients and smooth test signals.",
  [f"{SG}:153-164", f"{SG}:169-184"])
p("SavitzkyGolay.smooth_last keeps straight lines",
  "For coefficients that reproduce straight lines smooth_last of a straight line is a value of the line, also where the window reaches beyond the end of the signal.",
  "for every line and every k",
  "All slopes, and the extension of the signal beyond its end.",
  [f"{SG}:161-164"])

p("lh83pdf is a probability density",
  "With the default transformation and positive band width, the values that lh83pdf tabulates are those of a function of half period and amplitude that is never negative and whose integral over all positive half periods and amplitudes is 1; integrated over the amplitudes it gives the derivative of an explicit distribution function of the half period.",
  "for all positive m0, m1 and band widths, all half periods and amplitudes",
  "an integral over an unbounded plane cannot be taken by a test; a wrong constant factor looks like discretisation error",
  [f"{WM}:87-122"])
p("lh83pdf rejects moments that are not those of a spectrum",
  "Moments with m0*m2 < m1**2, which no spectrum has, make lh83pdf raise ValueError; moments with m0*m2 > m1**2 give finite values.",
  "for all moments with m1 > 0, all periods and amplitudes",
  "a test tries single moments; the claim is about the whole half space",
  [f"{WM}:90-98"])
p("cav76pdf is Rice's density of maxima in other variables",
  "With the default transformation, the value of cav76pdf at half period t and amplitude h is the joint density of height and curvature at a positive maximum of a Gaussian process with these moments, taken at height h and curvature h*(pi/t)**2, times 2*pi**2*h/t**3.",
  "for all positive moments with m2**2 < m0*m4, all t > 0 and h",
  "an identity of functions in five real variables; tests compare with stored numbers computed by the same formula",
  [f"{WM}:193-223"])
p("Every column of the table holds the density of its period",
  "The column of the period t[j] in the results of lh83pdf and cav76pdf holds the values of the density at t[j], for every j.",
  "for all periods, moments and amplitudes",
  "the tests use the default periods, which begin with 0",
  [f"{WM}:118-122", f"{WM}:219-223"])
p("cav76pdf is a probability density",
  "With the default transformation, the values that cav76pdf tabulates (first column aside) are those of a function of half period and amplitude that is never negative and whose integral over all positive half periods and amplitudes is 1; integrated over the amplitudes it gives the derivative of an explicit distribution function of the half period.",
  "for all positive moments with m2**2 < m0*m4, all half periods and amplitudes",
  "an integral over an unbounded plane cannot be taken by a test; a wrong constant factor looks like discretisation error",
  [f"{WM}:193-223"])

with open(os.path.join(os.path.dirname(__file__), "..", "properties.jsonl"), "w") as f:
    for q in P:
        f.write(json.dumps(q) + "\n")
print(len(P))
