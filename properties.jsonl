{"id": "C01", "title": "findcross finds exactly the level crossings", "statement": "findcross(x, v) returns index i exactly when x[i+1] differs from v and either every earlier sample x[0..i] equals v, or the last earlier sample that differs from v lies on the other side of v than x[i+1].  Nothing else is returned and nothing is missed, including when the signal touches or rests on v.", "quantifier": "all finite sequences x over an ordered field and all levels v", "why_tests_cant": "Plateaus on the level can be arbitrarily long and occur anywhere; a test suite samples finitely many shapes.", "anchors": ["src/wafo/misc.py: findcross, _findcross", "src/wafo/_misc_numba.py: _findcross, findcross"]}
{"id": "C02", "title": "crossing indices are ordered, in range and alternate in direction", "statement": "The indices returned by findcross(x, v) are strictly increasing, each i satisfies i+1 < len(x), and any two consecutive crossings have opposite directions (up then down or down then up).", "quantifier": "all sequences, all levels", "why_tests_cant": "Alternation is a global invariant of the scan; no finite test set covers all scans.", "anchors": ["src/wafo/misc.py: findcross", "src/wafo/_misc_numba.py: _findcross"]}
{"id": "C03", "title": "kind 'd' and kind 'u' split the crossings by direction", "statement": "findcross(x, v, 'd') returns exactly the crossings whose next sample is below v, findcross(x, v, 'u') exactly those whose next sample is above v; together they are all the crossings.", "quantifier": "all sequences, all levels", "why_tests_cant": "The code selects every second crossing after a parity guess; correctness relies on global alternation.", "anchors": ["src/wafo/misc.py: findcross"]}
{"id": "C04", "title": "crossing-defined wave kinds are trimmed to whole waves", "statement": "findcross(x, v, kind) with kind dw/uw returns an odd number of crossings (or none) that starts and ends with a down (resp. up) crossing; with tw/cw it returns an even number that starts with a down (resp. up) crossing and ends with the opposite one.  The result is a contiguous run of all the crossings with at most one dropped at each end.", "quantifier": "all sequences, all levels, all four wave kinds", "why_tests_cant": "Parity and first direction combine with arbitrary length; needs an argument over all lengths.", "anchors": ["src/wafo/misc.py: findcross"]}
{"id": "C05", "title": "findcross rejects unknown kinds", "statement": "findcross(x, v, kind) raises ValueError for every kind string that is not one of the documented ones.", "quantifier": "all sequences, levels and kind strings", "why_tests_cant": "The check is only reached on some paths; tests only exercise one of them.", "anchors": ["src/wafo/misc.py: findcross"]}
{"id": "C06", "title": "ecross locates the crossing of the linear interpolant", "statement": "For every index i returned by findcross(f, v), ecross(t, f, [i], v) returns a time between t[i] and t[i+1] at which the straight line through (t[i], f[i]) and (t[i+1], f[i+1]) has value v; no division by zero occurs.", "quantifier": "all signals f, all strictly increasing time vectors t, all levels v, all crossings", "why_tests_cant": "Universal over real data; tests check a sine wave.", "anchors": ["src/wafo/misc.py: ecross, findcross"]}
{"id": "C07", "title": "the signal is monotone between consecutive extrema", "statement": "Between two consecutive indices returned by findextrema(x), and before the first and after the last, x is monotone (non-decreasing or non-increasing), with directions alternating from one stretch to the next, and the value strictly changes across each stretch between two returned extrema.", "quantifier": "all sequences", "why_tests_cant": "A missed extremum in any position would falsify it; only an inductive argument excludes all of them.", "anchors": ["src/wafo/misc.py: findextrema, findcross"]}
{"id": "C08", "title": "turning points strictly alternate", "statement": "findtp(x) (h=0) returns strictly increasing indices ending with len(x)-1 whose values strictly alternate, starting with a rise (minimum first).", "quantifier": "all sequences with at least two extrema", "why_tests_cant": "Plateaus at the start or the end of the record break naive implementations; they are rare in test data.", "anchors": ["src/wafo/misc.py: findtp, findextrema"]}
{"id": "C09", "title": "turning points lose no range", "statement": "The total variation of x[findtp(x)] plus the variation of the part of x before the first turning point equals the total variation of x; in particular every maximum and minimum value of x after the first turning point is attained at a turning point.", "quantifier": "all sequences with at least two extrema", "why_tests_cant": "Quantifies over all samples between turning points.", "anchors": ["src/wafo/misc.py: findtp"]}
{"id": "C10", "title": "findtp wave kinds return whole waves", "statement": "findtp(x, h=0, kind='mw') returns an odd number of turning points starting and ending with a minimum; kind='Mw' an odd number starting and ending with a maximum.", "quantifier": "all sequences with at least two extrema", "why_tests_cant": "Trimming depends on parity of an unbounded count.", "anchors": ["src/wafo/misc.py: findtp"]}
{"id": "C11", "title": "troughs and crests are the extremes between level crossings", "statement": "findtc(x, v) returns one index per interval between consecutive level crossings; each is inside its interval, is the first minimum (trough) of x over the interval after a down-crossing and the first maximum (crest) after an up-crossing, troughs lie strictly below v and crests strictly above v, and indices are strictly increasing.", "quantifier": "all sequences and levels with at least three crossings", "why_tests_cant": "Every interval of every signal must be checked, including ties and plateaus on v.", "anchors": ["src/wafo/misc.py: findtc", "src/wafo/_misc_numba.py: findcross"]}
{"id": "C12", "title": "rfcfilter never raises on totally ordered data", "statement": "For every sequence of comparable numbers, every threshold h and both methods 0 and 1, the rainflow filter terminates without hitting its internal 'something wrong' ValueError.", "quantifier": "all sequences, all h, methods 0 and 1", "why_tests_cant": "Requires showing an error branch unreachable for all states.", "anchors": ["src/wafo/_misc_numba.py: _make_findrfc, local_findrfc"]}
{"id": "C13", "title": "rfcfilter output is an increasing selection of input samples", "statement": "findrfc with method 0 or 1 returns indices into the input that start with 0 and are strictly increasing (h > 0), never more of them than there are samples, so no write goes beyond the result buffer.", "quantifier": "all non-empty sequences, all h > 0", "why_tests_cant": "Buffer overflow depends on adversarial inputs; unit tests do not exercise memory safety.", "anchors": ["src/wafo/_misc_numba.py: _make_findrfc, local_findrfc", "source/c_library/c_functions.c: findrfc"]}
{"id": "C14", "title": "rfcfilter keeps only cycles of the requested height", "statement": "Consecutive values kept by the rainflow filter alternate between rise and fall and differ by at least h (method 0) resp. by more than h (method 1).", "quantifier": "all sequences, all h > 0 (method 0) and all h >= 0 (method 1)", "why_tests_cant": "Needs an invariant relating filter state and emitted points for every history.", "anchors": ["src/wafo/_misc_numba.py: _make_findrfc", "src/wafo/misc.py: rfcfilter"]}
{"id": "C15", "title": "rfcfilter removes no cycle that is high enough", "statement": "Between two consecutive kept points where the signal rises, no later sample lies h or more below an earlier sample (method 0; more than h for method 1), and symmetrically for falls: every reversal that reaches the threshold is kept.", "quantifier": "all sequences, all h > 0, all pairs of samples between kept points", "why_tests_cant": "Completeness over all pairs of samples in unbounded signals.", "anchors": ["src/wafo/_misc_numba.py: _make_findrfc"]}
{"id": "C16", "title": "rfcfilter is idempotent", "statement": "Filtering the filtered turning points again with the same h changes nothing.", "quantifier": "all sequences, all h", "why_tests_cant": "A law over all inputs; fails only at exact ties that random tests never hit.", "anchors": ["src/wafo/_misc_numba.py: _make_findrfc", "src/wafo/misc.py: rfcfilter"]}
{"id": "C17", "title": "findrfc (method 2) reads only inside its input", "statement": "The rainflow counting routine never reads an element outside the turning-point array it is given, for odd as well as even numbers of turning points.", "quantifier": "all turning point arrays and thresholds", "why_tests_cant": "Out-of-bounds reads silently return garbage in compiled code; the tests pass whatever memory contains.", "anchors": ["src/wafo/_misc_numba.py: _findrfc", "source/c_library/c_functions.c: findrfc", "src/wafo/misc.py: findrfc"]}
{"id": "C18", "title": "findrfc (method 2) computes rainflow cycles by the definition", "statement": "For an odd number of turning points starting with a minimum, findrfc pairs each maximum M with the larger of the lowest value reached before the signal last exceeded M and the lowest value reached until it next reaches M again (or only the former if it never does), and reports the pair exactly when its height is at least h.", "quantifier": "all alternating turning point sequences, all h", "why_tests_cant": "The definition quantifies over all excursions around every maximum.", "anchors": ["src/wafo/_misc_numba.py: _findrfc", "source/c_library/c_functions.c: findrfc"]}
{"id": "C19", "title": "rainflow pairs reported by findrfc have at least the threshold height", "statement": "Every (minimum, maximum) pair produced by findrfc has height at least h, and indices point inside the array; minima are at even and maxima at odd positions.", "quantifier": "all turning point sequences of odd length, all h", "why_tests_cant": "Universal over inputs.", "anchors": ["src/wafo/_misc_numba.py: _findrfc", "src/wafo/misc.py: findrfc"]}
{"id": "C20", "title": "ASTM rainflow counting accounts for every reversal", "statement": "findrfc_astm returns exactly n - 1 - (number of full cycles) rows for n turning points with no two consecutive equal values; every returned row is a real counted cycle (positive amplitude, count 0.5 or 1.0) and 2*full + half = n - 1.", "quantifier": "all sequences without equal neighbours", "why_tests_cant": "The returned length is computed by a counting formula independent of the rows actually written.", "anchors": ["src/wafo/_misc_numba.py: _findrfc3_astm, findrfc_astm", "source/c_library/c_functions.c: findrfc3_astm"]}
{"id": "C21", "title": "ASTM rainflow counting conserves total variation", "statement": "For alternating turning points, the sum over the counted cycles of 2*count*range (range = 2*amplitude) equals the total variation of the signal.", "quantifier": "all alternating sequences", "why_tests_cant": "A conservation law over all inputs, needs the stack invariant of the algorithm.", "anchors": ["src/wafo/_misc_numba.py: _findrfc3_astm, findrfc_astm"]}
{"id": "C22", "title": "ASTM cycles stay inside the signal range", "statement": "Every cycle reported by findrfc_astm has mean +/- amplitude equal to two actual signal values, hence within [min, max] of the signal.", "quantifier": "all sequences", "why_tests_cant": "Universal over inputs and over all rows of the result.", "anchors": ["src/wafo/_misc_numba.py: _findrfc3_astm"]}
{"id": "C23", "title": "ASTM counting with and without times agree", "statement": "findrfc_astm(tp) and findrfc_astm(tp, t) report the same amplitudes, means and counts row by row; the begin time column is the time of the first of the two turning points of the cycle and the period twice the time between them (positive for increasing times).", "quantifier": "all sequences and all strictly increasing time vectors", "why_tests_cant": "Two separate loops have to stay in lock-step for every input.", "anchors": ["src/wafo/_misc_numba.py: _findrfc3_astm, _findrfc5_astm, findrfc_astm"]}
{"id": "C24", "title": "min2max and max2min cycle pairs partition the turning points", "statement": "TurningPoints.cycle_pairs() pairs every minimum with the following maximum (min2max) or every maximum with the following minimum (max2min): each pair consists of two consecutive turning points, minimum < maximum in every pair, and no pair is skipped or duplicated.", "quantifier": "all alternating turning point sequences and both kinds", "why_tests_cant": "Depends on parity of length and direction of the first step.", "anchors": ["src/wafo/objects.py: TurningPoints.cycle_pairs"]}
{"id": "C25", "title": "Palmgren-Miner damage laws", "statement": "CyclePairs.damage(beta, K) is non-negative, equals zero only if all amplitudes are zero (beta>0), is additive over concatenation of cycle lists, independent of the order of cycles, scales linearly in K and like s**beta when the load is scaled by s.", "quantifier": "all lists of cycles, all positive real exponents beta and K >= 0", "why_tests_cant": "Algebraic laws over all lists.", "anchors": ["src/wafo/objects.py: CyclePairs.damage, CyclePairs.amplitudes"]}
{"id": "C26", "title": "level_crossings honours its kind argument", "statement": "CyclePairs.level_crossings(kind) accepts 'u', 'uM', 'umM' and 'um' and counts, respectively, upcrossings, upcrossings and maxima, upcrossings minima and maxima, upcrossings and minima.", "quantifier": "all cycle lists and the four documented kinds", "why_tests_cant": "A wrong table offset silently yields a plausible curve.", "anchors": ["src/wafo/objects.py: CyclePairs.level_crossings"]}
{"id": "C27", "title": "level upcrossing counts are exact", "statement": "The levels reported by level_crossings are the sorted distinct extremes, and the count reported at each level u equals the number of cycles with minimum < u < maximum (kind 1), minimum < u <= maximum (kind 2), minimum <= u <= maximum (kind 3) or, below the highest level, minimum <= u < maximum (kind 4).", "quantifier": "all lists of cycles with minimum < maximum", "why_tests_cant": "Sorting, duplicate merging and cumulative sums interact on ties.", "anchors": ["src/wafo/objects.py: CyclePairs.level_crossings"]}
{"id": "C28", "title": "cycle matrix counts every cycle once", "statement": "CyclePairs.cycle_matrix puts each cycle in exactly one cell: the entries are non-negative, sum to the number of cycles, and no index falls outside the matrix.", "quantifier": "all lists of cycles and all level grids", "why_tests_cant": "Clipping and ordering of indices at the boundary must hold for all values.", "anchors": ["src/wafo/objects.py: CyclePairs.cycle_matrix, _dcp2cmat, _discretize_cycle_pairs"]}
{"id": "C29", "title": "cycle discretization projects in the documented direction", "statement": "With ddef=1 minima are projected down and maxima up to grid levels, with ddef=-1 minima up and maxima down, with ddef=0 to the nearest level (values inside the grid).", "quantifier": "all cycles inside the grid range, all grids", "why_tests_cant": "Index base mistakes shift every cycle by one level and still look plausible.", "anchors": ["src/wafo/objects.py: CyclePairs._discretize_cycle_pairs"]}
{"id": "C30", "title": "cmat2nt is the counting distribution", "statement": "cmat2nt(F)[i][j] equals the sum of F[a][b] over a < i and b > j for all i >= 1 and j <= n-2, and 0 in the first row and last column; the vectorised and the loop variants (kind 1 and 11) agree.", "quantifier": "all square matrices of any size", "why_tests_cant": "Cumulative sums with flips over unbounded sizes.", "anchors": ["src/wafo/markov.py: cmat2nt"]}
{"id": "C31", "title": "nt2cmat inverts cmat2nt", "statement": "nt2cmat(cmat2nt(F)) == F for every square matrix F whose first column and last row are zero, and for every F it recovers all entries off the first column and last row.", "quantifier": "all square matrices", "why_tests_cant": "Round trip over all sizes and entries.", "anchors": ["src/wafo/markov.py: nt2cmat, cmat2nt"]}
{"id": "C32", "title": "nt2fr inverts the counting distribution", "statement": "nt2fr(nt) returns the second mixed difference of nt, i.e. the frequency matrix whose counting distribution is nt.", "quantifier": "all square matrices", "why_tests_cant": "A mistyped slice is hidden by broadcasting.", "anchors": ["src/wafo/markov.py: nt2fr"]}
{"id": "C33", "title": "fr2nt returns a counting distribution", "statement": "fr2nt(fr) returns a matrix for every square frequency matrix of dimension 3 or larger.", "quantifier": "all square matrices of dimension at least 3", "why_tests_cant": "No test calls the function.", "anchors": ["src/wafo/markov.py: fr2nt"]}
{"id": "C34", "title": "getbit and setbit obey the bit laws", "statement": "setbit(i, b, v) yields a number whose bit b is v and whose other bits are those of i; getbit returns 0 or 1; setting a bit to its own value changes nothing.", "quantifier": "all non-negative integers, all bit positions", "why_tests_cant": "Universally quantified algebraic laws.", "anchors": ["src/wafo/bitwise.py: getbit, setbit"]}
{"id": "C35", "title": "setbits and getbits are inverse", "statement": "setbits(getbits(i, n)) == i mod 2**n and getbits(setbits(l), len(l)) == l for every list of bits l.", "quantifier": "all integers, all widths, all bit lists", "why_tests_cant": "Round trip over all widths.", "anchors": ["src/wafo/bitwise.py: getbits, setbits"]}
{"id": "C36", "title": "lfind returns the first matches", "statement": "lfind(haystack, needle, maxiter) returns, in increasing order, exactly the first maxiter positions (all positions when maxiter is None) at which haystack equals needle.", "quantifier": "all lists, needles and limits", "why_tests_cant": "Universal over lists and limits.", "anchors": ["src/wafo/misc.py: lfind"]}
{"id": "C37", "title": "piecewise selects the last matching branch", "statement": "piecewise(condlist, funclist, x) gives at each point the value of the last function whose condition holds there, the extra trailing function where no condition holds, and fill_value where there is none; a wrong number of functions raises ValueError.", "quantifier": "all condition lists, function lists and points", "why_tests_cant": "Overlapping conditions are not exercised by the doctests.", "anchors": ["src/wafo/misc.py: piecewise"]}
{"id": "C38", "title": "lazyselect mimics numpy.select", "statement": "lazyselect(condlist, choices, arrays) returns at each point the choice of the first condition that holds, as numpy.select does, which its documentation promises.", "quantifier": "all condition lists and points", "why_tests_cant": "Tests only use disjoint conditions.", "anchors": ["src/wafo/misc.py: lazyselect"]}
{"id": "C39", "title": "lazywhere only evaluates where the condition holds", "statement": "lazywhere(cond, arrays, f, fillvalue/f2) equals f of the point where cond holds and fillvalue (or f2 of the point) elsewhere; f is applied only to points that satisfy cond.", "quantifier": "all condition masks and functions", "why_tests_cant": "Universal over masks.", "anchors": ["src/wafo/misc.py: lazywhere"]}
{"id": "C40", "title": "option parsing keeps the key set", "statement": "parse_kwargs(options, **kwargs) returns a dictionary with exactly the keys of options, taking the value from kwargs where given there; unknown keyword arguments are ignored; sub_dict_select returns exactly the selected keys present in both.", "quantifier": "all dictionaries", "why_tests_cant": "Universal over dictionaries and keys.", "anchors": ["src/wafo/misc.py: parse_kwargs, sub_dict_select"]}
{"id": "C41", "title": "findoutliers partitions the samples", "statement": "findoutliers returns spurious and good indices that are sorted, in range, disjoint and together cover all samples.", "quantifier": "all sequences and parameter settings", "why_tests_cant": "Special-cased list sizes are easily missed.", "anchors": ["src/wafo/misc.py: findoutliers"]}
{"id": "C42", "title": "moving_average is the mean over the window", "statement": "moving_average(x, L)[i] equals the mean of x[i-L..i+L] for interior points.", "quantifier": "all sequences and window half lengths", "why_tests_cant": "The recursive implementation agrees with the definition on the data used in tests only approximately.", "anchors": ["src/wafo/misc.py: moving_average, detrendma"]}
{"id": "C43", "title": "spaceline yields equally spaced points from start to stop", "statement": "spaceline(start, stop, num) returns num points on the segment, first start, last stop, with constant difference (num >= 2).", "quantifier": "all endpoints and counts", "why_tests_cant": "Universal over endpoints and counts.", "anchors": ["src/wafo/misc.py: spaceline"]}
{"id": "C44", "title": "rotations preserve lengths and compose", "statement": "rotate_2d and rotate preserve Euclidean distance, rotating by zero is the identity, rotations about one axis compose by adding angles, and rotation_matrix is orthogonal.", "quantifier": "all angles and points", "why_tests_cant": "Trigonometric identities over reals.", "anchors": ["src/wafo/misc.py: rotate_2d, rotation_matrix, rotate"]}
{"id": "C45", "title": "polar and Cartesian conversions are inverse", "statement": "cart2polar(polar2cart(theta, rho)) returns (theta, rho) for rho > 0 and theta in (-pi, pi]; polar2cart(cart2polar(x, y)) returns (x, y) for all x, y.", "quantifier": "all real points", "why_tests_cant": "Universal over the plane including the axes and quadrant borders.", "anchors": ["src/wafo/misc.py: polar2cart, cart2polar"]}
{"id": "C46", "title": "sub2index and index2sub are inverse", "statement": "For every shape and both orders ('C' and 'F'), index2sub(shape, sub2index(shape, subs)) == subs for valid subscripts and sub2index(shape, index2sub(shape, i)) == i for valid indices.", "quantifier": "all shapes of any rank, all valid indices, both orders", "why_tests_cant": "Universal over shapes.", "anchors": ["src/wafo/misc.py: sub2index, index2sub"]}
{"id": "C47", "title": "nextpow2 returns the exponent of the next power of two", "statement": "nextpow2(x) is the least n with 2**n >= |x| for scalars with |x| > 1/2.", "quantifier": "all positive scalars", "why_tests_cant": "Powers of two and their neighbours are boundary cases.", "anchors": ["src/wafo/misc.py: nextpow2"]}
{"id": "C48", "title": "discretize returns consistent samples", "statement": "discretize(fun, a, b, ...) returns x strictly increasing from a to b with y == fun(x) at every point, for both methods, after a bounded number of refinements.", "quantifier": "all functions, all a < b, all tolerances", "why_tests_cant": "The refinement path depends on the function; tests use one function.", "anchors": ["src/wafo/misc.py: discretize, _discretize_linear, _discretize_adaptive"]}
{"id": "C49", "title": "trangood returns a uniform grid covering the requested range", "statement": "trangood(x, f, min_n, min_x, max_x, max_n) returns an equally spaced x that covers [min_x, max_x].", "quantifier": "all transformations and ranges", "why_tests_cant": "Extrapolation paths are not covered by tests.", "anchors": ["src/wafo/misc.py: trangood"]}
{"id": "C50", "title": "tranproc transforms derivatives by the chain rule", "statement": "tranproc(x, f, x0, x1, ..., x4) returns the first four time derivatives of f(x(t)) according to the chain rule (Faa di Bruno).", "quantifier": "all derivative values", "why_tests_cant": "A polynomial identity; tests use linear or low order transforms.", "anchors": ["src/wafo/misc.py: tranproc"]}
{"id": "C51", "title": "good_bins covers the data", "statement": "good_bins returns equally spaced bin edges whose first edge is <= the data minimum and last edge >= the data maximum.", "quantifier": "all data ranges and bin counts", "why_tests_cant": "Universal over reals.", "anchors": ["src/wafo/misc.py: good_bins"]}
{"id": "C52", "title": "gridcount conserves mass", "statement": "gridcount(data, X) returns non-negative grid weights that sum to the total weight of the data (1-D linear binning).", "quantifier": "all data inside the grid, all grids", "why_tests_cant": "Conservation law over all data.", "anchors": ["src/wafo/kdetools/gridding.py: gridcount, _gridcount_1d, accumsum"]}
{"id": "C53", "title": "gridcount conserves the first moment", "statement": "The mean of the grid weights returned by gridcount equals the mean of the data (1-D linear binning on an equidistant grid).", "quantifier": "all data inside the grid, all grids", "why_tests_cant": "Conservation law over all data.", "anchors": ["src/wafo/kdetools/gridding.py: gridcount, _gridcount_1d"]}
{"id": "C54", "title": "data on the upper grid edge is counted", "statement": "gridcount accepts every data set whose minimum and maximum lie within the grid limits, including data equal to the last grid point.", "quantifier": "all data sets within the closed grid range", "why_tests_cant": "Boundary case on an equality.", "anchors": ["src/wafo/kdetools/gridding.py: gridcount"]}
{"id": "C55", "title": "polyder inverts polyint", "statement": "polyder(polyint(p, m, k), m) == p for all polynomials, orders m and integration constants k; the value at 0 of the j-th derivative of polyint(p, m, k) is k[m-j-1].", "quantifier": "all coefficient lists, all orders, all constants", "why_tests_cant": "Universal over degrees and orders.", "anchors": ["src/wafo/polynomial.py: polyint, polyder"]}
{"id": "C56", "title": "polyder is the derivative", "statement": "Evaluating polyder(p) gives the derivative of the evaluated polynomial p, for every degree and order.", "quantifier": "all coefficient lists and orders", "why_tests_cant": "Universal over degrees.", "anchors": ["src/wafo/polynomial.py: polyder"]}
{"id": "C57", "title": "polyreloc and polyrescl move and scale the graph", "statement": "polyval(polyreloc(p, x, y), t) == polyval(p, t - x) + y and polyval(polyrescl(p, x, y), t) == y*polyval(p, t/x) for all t.", "quantifier": "all polynomials, shifts and scales, all t", "why_tests_cant": "The triangular in-place Horner loop must be right for every degree.", "anchors": ["src/wafo/polynomial.py: polyreloc, polyrescl"]}
{"id": "C58", "title": "polyshift and polyishift map intervals and are inverse", "statement": "polyval(polyshift(p, a, b), x) == polyval(p, y) with y the image of x under [a,b] -> [-1,1]; polyishift does the converse; composing them gives back p.", "quantifier": "all polynomials and all a != b", "why_tests_cant": "Universal over degrees and intervals.", "anchors": ["src/wafo/polynomial.py: polyshift, polyishift, map_from_interval, map_to_interval"]}
{"id": "C59", "title": "polytrim keeps the polynomial", "statement": "polytrim(p) evaluates like p everywhere, has no leading zero, and is idempotent.", "quantifier": "all coefficient lists", "why_tests_cant": "Universal over lists.", "anchors": ["src/wafo/polynomial.py: polytrim"]}
{"id": "C60", "title": "poly2hstr prints the polynomial it is given", "statement": "Reading the expression printed by poly2hstr(p) as arithmetic gives polyval(p, x) for every x.", "quantifier": "all coefficient lists and points", "why_tests_cant": "Zero coefficients in different positions trigger different branches.", "anchors": ["src/wafo/polynomial.py: poly2hstr"]}
{"id": "C61", "title": "chebval evaluates the Chebyshev series", "statement": "chebval(x, ck, a, b, kind) equals sum ck[n-k] T_k(y) (kind 1) or U_k(y) (kind 2), y the image of x in [-1, 1].", "quantifier": "all coefficient lists, all points", "why_tests_cant": "Clenshaw recurrence over all lengths.", "anchors": ["src/wafo/polynomial.py: chebval, _chebval, chebpoly"]}
{"id": "C62", "title": "cheb2poly converts without changing the function", "statement": "polyval(cheb2poly(ck, a, b), x) == chebval(x, ck, a, b) for all x.", "quantifier": "all coefficient lists and intervals", "why_tests_cant": "Universal over lengths.", "anchors": ["src/wafo/polynomial.py: cheb2poly, chebval"]}
{"id": "C63", "title": "chebder differentiates the Chebyshev series", "statement": "chebval(x, chebder(ck, a, b), a, b) is the derivative of chebval(x, ck, a, b).", "quantifier": "all coefficient lists and points", "why_tests_cant": "The doctest computes but does not compare the derivative.", "anchors": ["src/wafo/polynomial.py: chebder"]}
{"id": "C64", "title": "chebint integrates the Chebyshev series", "statement": "The derivative of chebval(x, chebint(ck)) is chebval(x, ck).", "quantifier": "all coefficient lists", "why_tests_cant": "The doctest computes but does not compare the integral.", "anchors": ["src/wafo/polynomial.py: chebint"]}
{"id": "C65", "title": "ortho2poly and orthoval agree", "statement": "polyval(ortho2poly(p), x) == orthoval(p, x) for all orthogonal-polynomial coefficient tables p and all x.", "quantifier": "all tables and points", "why_tests_cant": "Three-term recurrences of any length.", "anchors": ["src/wafo/polynomial.py: ortho2poly, orthoval"]}
{"id": "C66", "title": "orthofit is the least squares fit", "statement": "The basis built by orthofit is orthogonal on the data points and the fitted polynomial minimises the residual sum of squares among all polynomials of degree <= n.", "quantifier": "all data sets and degrees for which the basis norms do not vanish", "why_tests_cant": "Optimality against all competitors.", "anchors": ["src/wafo/polynomial.py: orthofit, orthoval"]}
{"id": "C67", "title": "PPform evaluates the piece containing the point", "statement": "PPform(coefs, breaks)(x) evaluates the polynomial of the interval breaks[i] <= x < breaks[i+1] for x inside [a, b] and returns fill outside; no index is out of range.", "quantifier": "all break sequences, coefficients and points", "why_tests_cant": "Points exactly on breaks decide between two pieces.", "anchors": ["src/wafo/interpolate.py: PPform.__call__"]}
{"id": "C68", "title": "PPform.integrate is a continuous antiderivative", "statement": "PPform.integrate() vanishes at the first break, is continuous at interior breaks and its derivative is the original piecewise polynomial.", "quantifier": "all piecewise polynomials", "why_tests_cant": "Universal over orders and numbers of pieces.", "anchors": ["src/wafo/interpolate.py: PPform.integrate, PPform.derivative"]}
{"id": "C69", "title": "linear extrapolation is smooth and leaves the inside unchanged", "statement": "PPform.linear_extrapolate() agrees with the original inside the basic interval, is linear outside, and continues value and slope at both ends.", "quantifier": "all piecewise polynomials of order > 2", "why_tests_cant": "Universal over coefficients.", "anchors": ["src/wafo/interpolate.py: PPform.linear_extrapolate"]}
{"id": "C70", "title": "Pchip preserves monotonicity", "statement": "With slopes(method='pchip') the cubic Hermite interpolant of monotone data is monotone.", "quantifier": "all monotone data with strictly increasing abscissae", "why_tests_cant": "Overshoot must be excluded at every real point.", "anchors": ["src/wafo/interpolate.py: _pchip_slope, _edge_case, slopes, Pchip"]}
{"id": "C71", "title": "slopes(monotone=True) preserves monotonicity", "statement": "slopes(x, y, method, monotone=True) returns slopes whose Hermite interpolant of monotone data is monotone, for every method.", "quantifier": "all methods and monotone data", "why_tests_cant": "Overshoot must be excluded for all data.", "anchors": ["src/wafo/interpolate.py: slopes"]}
{"id": "C72", "title": "Stineman interpolation runs through the data", "statement": "stineman_interp returns y[j] at x[j], never divides by zero, and inside an interval stays within the bounds given by chord and end tangents.", "quantifier": "all data and evaluation points", "why_tests_cant": "Universal over reals and sign cases.", "anchors": ["src/wafo/interpolate.py: stineman_interp"]}
{"id": "C73", "title": "peaks over threshold are separated", "statement": "findpot(data, t, thresh, tmin) (and decluster) returns indices of values above thresh whose times are pairwise more than tmin apart.", "quantifier": "all data, times, thresholds and separations", "why_tests_cant": "Needs several clusters of close exceedances; the bug appears only from the second cluster on.", "anchors": ["src/wafo/stats/core.py: findpot, decluster, _find_ok_peaks, _remove_index_to_data_too_close_to_each_other"]}
{"id": "C74", "title": "no peak over threshold is lost", "statement": "Every exceedance that findpot drops lies within tmin of a returned exceedance that is at least as large.", "quantifier": "all data, times, thresholds and separations", "why_tests_cant": "Needs several clusters.", "anchors": ["src/wafo/stats/core.py: findpot, _find_ok_peaks"]}
{"id": "C75", "title": "empirical distribution function", "statement": "edf(x) returns sorted abscissae that are a permutation of the data and strictly increasing probabilities in (0, 1] (in (0, 1) for methods 1 and 2), with the documented plotting positions.", "quantifier": "all data vectors and methods", "why_tests_cant": "Universal over data.", "anchors": ["src/wafo/stats/core.py: edf"]}
{"id": "C76", "title": "extremal index lies in [0, 1]", "statement": "extremal_idx(ti) lies in [0, 1] for every non-empty list of positive integer inter-exceedance times and never divides by zero; declustering_time never indexes out of range.", "quantifier": "all lists of positive integer times", "why_tests_cant": "Universal over lists.", "anchors": ["src/wafo/stats/core.py: extremal_idx, declustering_time"]}
{"id": "C77", "title": "return period and exceedance probability are inverse", "statement": "returnperiod2sf(sf2returnperiod(q, n), n) == q for 0 < q < 1 and n > 0, and conversely for periods t with t*n > 1; invalid inputs give nan.", "quantifier": "all probabilities, periods and rates", "why_tests_cant": "Universal over reals.", "anchors": ["src/wafo/stats/core.py: returnperiod2sf, sf2returnperiod"]}
{"id": "C78", "title": "TrLinear round trip", "statement": "TrLinear.gauss2dat(dat2gauss(x)) == x (and derivatives likewise) for all x and all parameters with non-zero sigmas.", "quantifier": "all reals and parameters", "why_tests_cant": "Universal over reals.", "anchors": ["src/wafo/transform/models.py: TrLinear"]}
{"id": "C79", "title": "TrOchi round trip", "statement": "TrOchi.gauss2dat(dat2gauss(x)) == x for all x, and dat2gauss(gauss2dat(y)) == y for all y in the range of the model.", "quantifier": "all reals and parameters", "why_tests_cant": "Universal over reals, two exponential branches.", "anchors": ["src/wafo/transform/models.py: TrOchi"]}
{"id": "C80", "title": "TrOchi parameters solve the documented equations", "statement": "The parameters a, sigma2, mean2 used by TrOchi satisfy a*(sigma2^2+mean2^2)+mean2 = 0, sigma2^2-2a^2 sigma2^4 = 1 and 2a sigma2^4 (3-8a^2 sigma2^2) = skew, and the bracketing interval handed to the root finder always contains a sign change.", "quantifier": "all admissible skewness values", "why_tests_cant": "Doctests only compare one aggregate number.", "anchors": ["src/wafo/transform/models.py: TrOchi._par_from_stats"]}
{"id": "C81", "title": "TrHermite inversion formulas solve the polynomial", "statement": "When the cubic (or quadratic) model polynomial is invertible, the closed forms used by TrHermite return an exact root, so gauss2dat and dat2gauss are inverse.", "quantifier": "all coefficients and values in the monotone case", "why_tests_cant": "Identity over reals.", "anchors": ["src/wafo/transform/models.py: TrHermite._poly_inv, _solve_quadratic, _solve_third_order"]}
{"id": "C82", "title": "deep water dispersion relation round trip", "statement": "In deep water w2k(*k2w(k1, k2)) == (k1, k2) for all wave numbers, k2w never returns a negative frequency, and w**2 == g*k in absence of current.", "quantifier": "all real wave numbers, g > 0", "why_tests_cant": "Universal over reals.", "anchors": ["src/wafo/wave_theory/dispersion_relation.py: k2w, w2k"]}
{"id": "C83", "title": "finite depth wave number is a fixed point of the dispersion relation", "statement": "Newton's iteration in w2k stops only at wave numbers whose last update is below tolerance; k is a fixed point of the update exactly when w**2 == g*k*tanh(k*h), the loop runs at most count_limit times, and k keeps the sign of w.", "quantifier": "all frequencies and depths", "why_tests_cant": "Universal over reals and iterations.", "anchors": ["src/wafo/wave_theory/dispersion_relation.py: w2k"]}
{"id": "C84", "title": "plotscale accepts every plot flag", "statement": "plotscale(flag) returns one of the eight scale names for every non-negative flag, and the log axes named are exactly those encoded by the digits.", "quantifier": "all non-negative integers", "why_tests_cant": "Universal over integers.", "anchors": ["src/wafo/containers.py: plotscale"]}
{"id": "C85", "title": "plot transform names are inverse to flags", "statement": "transform_id2plotflag2(plotflag2transform_id(flag)) recovers the transform digit of every flag with digit 0..8.", "quantifier": "all flags", "why_tests_cant": "A missing comma in a table.", "anchors": ["src/wafo/containers.py: plotflag2transform_id, transform_id2plotflag2"]}
{"id": "C86", "title": "to_cdf of a non-negative density is a distribution function", "statement": "PlotData.to_cdf starts at 0, is non-decreasing for non-negative data on increasing abscissae, has the same number of points and ends at the trapezoidal integral.", "quantifier": "all densities and grids", "why_tests_cant": "Universal over data.", "anchors": ["src/wafo/containers.py: PlotData.to_cdf"]}
{"id": "C87", "title": "getshipchar reports zero deviation for the given property", "statement": "getshipchar(property=value) returns the characteristics with exactly the documented keys, the given property has its given value and standard deviation 0.", "quantifier": "all admissible values and all accepted property names", "why_tests_cant": "Name matching by prefix; only one property is tested.", "anchors": ["src/wafo/misc.py: getshipchar, _get_max_deadweight"]}
{"id": "C88", "title": "chebfitnd fits data", "statement": "chebfitnd(xi, f, deg) returns coefficients for every data set with more points than coefficients.", "quantifier": "all shapes with more samples than coefficients", "why_tests_cant": "The function is only called from a demo.", "anchors": ["src/wafo/polynomial.py: chebfitnd"]}
{"id": "C89", "title": "savitzky_golay_piecewise handles every turn of x", "statement": "savitzky_golay_piecewise splits x into maximal monotone pieces whose concatenation is the input and does not fail on any input with at least two samples.", "quantifier": "all abscissa sequences", "why_tests_cant": "The failing case needs a turn at the last sample.", "anchors": ["src/wafo/interpolate.py: savitzky_golay_piecewise, _get_turnpoint"]}
{"id": "C90", "title": "gravity stays within physical bounds", "statement": "gravity(phi) lies between the equatorial and polar values, is even and 180-degree periodic.", "quantifier": "all latitudes", "why_tests_cant": "Universal over reals.", "anchors": ["src/wafo/misc.py: gravity"]}
{"id": "C91", "title": "findrfc reports no turning point twice", "statement": "The indices returned by misc.findrfc (method 2 / clib) are strictly increasing and inside the array, for every input: no minimum is paired with two maxima and no maximum is reported twice.", "quantifier": "all turning point arrays, also with ties, all thresholds", "why_tests_cant": "Two excursion searches (backward and forward) could pick the same minimum; ties are resolved by an interplay of strict and non-strict comparisons.", "anchors": ["src/wafo/misc.py: findrfc", "src/wafo/_misc_numba.py: _findrfc"]}
{"id": "C92", "title": "gridcount conserves mass and means in several dimensions", "statement": "For d >= 2 dimensional data inside an equidistant grid, gridcount returns non-negative grid weights that sum to the total weight and whose first moment in every dimension is that of the data.", "quantifier": "all dimensions, grids and data below the last grid point in every dimension", "why_tests_cant": "The corner enumeration is a bit trick over 2**(d-1) pairs and the weights are products over all dimensions.", "anchors": ["src/wafo/kdetools/gridding.py: gridcount, _gridcount_nd, bitget, accumsum"]}
{"id": "C93", "title": "multi-dimensional data on the upper grid edge is counted correctly", "statement": "For d >= 2, data equal to the last grid point in some dimension (accepted by the range check) contribute their weight exactly once.", "quantifier": "all data sets within the closed grid box", "why_tests_cant": "A boundary equality in one of several dimensions; the flattened index silently reads the next row.", "anchors": ["src/wafo/kdetools/gridding.py: gridcount, _gridcount_nd"]}
{"id": "C94", "title": "chebval with a fill value keeps the value inside the interval", "statement": "chebval(x, ck, a, b, kind, fill) returns the series value for x inside [a, b] and fill outside.", "quantifier": "all x, coefficient lists, intervals and fill values", "why_tests_cant": "The result array takes its type from the fill value, so an innocent looking fill such as 0 changes values at all points.", "anchors": ["src/wafo/polynomial.py: chebval"]}
{"id": "C95", "title": "chebroot and chebextr return the roots and extrema", "statement": "chebroot(n, kind) returns n strictly increasing points in (-1, 1), all roots of T_n (kind 1) or U_n (kind 2), ValueError for any other kind; T_n takes the values (-1)^n, ..., -1, 1 at chebextr(n).", "quantifier": "all n and kinds", "why_tests_cant": "Needs the trigonometric identities for every degree; float tests compare a few degrees to a tolerance.", "anchors": ["src/wafo/polynomial.py: chebroot, chebextr"]}
{"id": "C96", "title": "chebfit interpolates at the Chebyshev points", "statement": "For every function and n >= 1 the series returned by chebfit(fun, n, a, b) equals fun at the n Chebyshev points of [a, b]; for polynomials of degree < n it equals fun everywhere, and poly2cheb never changes the function.", "quantifier": "all functions, degrees, intervals with a != b and polynomials", "why_tests_cant": "Discrete orthogonality for every n; scaling or ordering mistakes of the transform only show up against the exact identity.", "anchors": ["src/wafo/polynomial.py: chebfit, poly2cheb, chebroot"]}
{"id": "C97", "title": "derivative and integral of a linearly extrapolated form stay extrapolated", "statement": "After linear_extrapolate(), derivative() returns the slope of the extrapolated form and integrate() its integral, also beyond the data.", "quantifier": "all piecewise polynomials of order > 2 and all points", "why_tests_cant": "tests evaluate derivatives only inside the data range", "anchors": ["src/wafo/interpolate.py:369-453"]}
{"id": "C98", "title": "slopes of points on a straight line", "statement": "slopes(x, y, method) of points on a straight line returns the slope of that line at every point ((1-tension) times it for 'Cardinal'), with and without monotone=True.", "quantifier": "all methods, all strictly increasing abscissae and all lines", "why_tests_cant": "The end formulas differ by method, direction and number of points; tests use a few rising data sets.", "anchors": ["src/wafo/interpolate.py:678-995"]}
{"id": "C99", "title": "Stineman interpolant has the given slopes", "statement": "The function computed by stineman_interp(., x, y, yp) / StinemanInterp(x, y, yp) has derivative yp[j] at x[j].", "quantifier": "all data and given slopes", "why_tests_cant": "The failing case needs an end slope exactly equal to a chord slope; the derivative is a limit, not an output.", "anchors": ["src/wafo/interpolate.py:998-1193"]}
{"id": "C100", "title": "Stineman interpolation preserves convexity and monotonicity", "statement": "If the chord slopes of the data change monotonically so do the slopes of StinemanInterp(x, y); if the ordinates are monotone too, the curve is monotone (documented claims).", "quantifier": "all data with strictly increasing abscissae and at least three points", "why_tests_cant": "Convexity and monotonicity hold between data points, at uncountably many arguments.", "anchors": ["src/wafo/interpolate.py:789-818", "src/wafo/interpolate.py:998-1193"]}
{"id": "C101", "title": "slopes follow a change of units", "statement": "Multiplying x by c>0 and y by d>0 multiplies slopes(x, y, method) by d/c, and scale=True does not change the result of a method for which this holds.", "quantifier": "all methods, data and unit factors", "why_tests_cant": "Relates two runs for arbitrary factors.", "anchors": ["src/wafo/interpolate.py:678-995"]}
{"id": "C102", "title": "ASTM half cycles grow and then shrink", "statement": "For every sequence of turning points the half cycles returned by findrfc_astm, in the order returned, have non-decreasing ranges up to some row and strictly decreasing ranges from there on; in particular equal neighbouring ranges at the end are combined into a full cycle.", "quantifier": "all sequences of turning points of any length", "why_tests_cant": "Needs an invariant of the stack for arbitrary histories.", "anchors": ["src/wafo/_misc_numba.py: _findrfc3_astm, findrfc_astm"]}
{"id": "C103", "title": "ASTM counting keeps the largest cycle", "statement": "For every sequence of at least two turning points findrfc_astm returns a half cycle that goes from the smallest to the largest value of the sequence.", "quantifier": "all sequences of turning points of any length", "why_tests_cant": "The extreme values may be arbitrarily far apart, with any number of cycles extracted in between.", "anchors": ["src/wafo/_misc_numba.py: _findrfc3_astm, findrfc_astm"]}
{"id": "C104", "title": "savitzky_golay reproduces polynomials and their derivatives", "statement": "For samples of a polynomial of degree at most `order`, savitzky_golay(y, window_size, order, deriv=d) returns, at every point whose window lies inside the signal, the value of the d-th derivative of the polynomial; even or too small windows raise TypeError and deriv > order IndexError.", "quantifier": "all polynomials, orders, odd windows and derivatives", "why_tests_cant": "Universal over polynomials and windows; the sign and scale of derivative rows is untested.", "anchors": ["src/wafo/interpolate.py: savitzky_golay"]}
{"id": "C105", "title": "savitzky_golay is a local least squares fit", "statement": "For arbitrary data the smoothed value at a point whose window lies inside the signal is the value there of a polynomial of degree at most `order` that minimises the sum of squared deviations over the window.", "quantifier": "all signals, orders and windows", "why_tests_cant": "The optimum is over infinitely many polynomials.", "anchors": ["src/wafo/interpolate.py: savitzky_golay"]}
{"id": "C106", "title": "savitzky_golay keeps the length and straight lines up to the ends", "statement": "savitzky_golay returns as many samples as it was given and leaves samples of a straight line unchanged, including both ends.", "quantifier": "all lines, signal lengths, orders and windows", "why_tests_cant": "Depends on the sign of the slope and the length relative to the window; the doctest has one signal.", "anchors": ["src/wafo/interpolate.py: savitzky_golay"]}
{"id": "C107", "title": "TrOchi follows its attributes", "statement": "After assigning new values to mean, sigma, skew, ... of a TrOchi object the transformation is the one of a new object with these values.", "quantifier": "all parameter values before and after the assignment", "why_tests_cant": "Tests construct a fresh object for every case.", "anchors": ["src/wafo/transform/models.py: TrOchi.phat, TrOchi._get_par, TrOchi._par_from_stats"]}
{"id": "C108", "title": "TrHermite refuses exactly the intervals where it cannot be inverted", "statement": "TrHermite.dat2gauss raises ValueError exactly when the interval from the first to the last datum contains a turning point of the polynomial.", "quantifier": "all statistics, all increasing data", "why_tests_cant": "The turning points depend on all four moments.", "anchors": ["src/wafo/transform/models.py: TrHermite.check_forward, TrHermite._set_x_limit"]}
{"id": "C109", "title": "TrHermite can be built for any moments", "statement": "TrHermite(mean, sigma, skew, kurt) is built for every kurt <= 3; if the polynomial is not monotone a warning is issued.", "quantifier": "all moments", "why_tests_cant": "The warning text is formatted only in the non-monotone case.", "anchors": ["src/wafo/transform/models.py: TrHermite._check_monotonicity, TrHermite._set_x_limit"]}
{"id": "C110", "title": "dist2gauss measures the departure from the linear transformation", "statement": "dist2gauss is non-negative on increasing points and is zero exactly when the transformation is linear at the points used.", "quantifier": "all transformations and grids", "why_tests_cant": "Doctests compare two numbers.", "anchors": ["src/wafo/transform/core.py: TrCommon.dist2gauss"]}
{"id": "C111", "title": "w2k treats arrays elementwise", "statement": "Every element of w2k(w, theta, h) is the result for that element alone, although the Newton iteration runs on the whole array.", "quantifier": "all arrays of frequencies, directions and depths", "why_tests_cant": "Convergence of one element could influence others.", "anchors": ["src/wafo/wave_theory/dispersion_relation.py: w2k"]}
{"id": "C112", "title": "PlotData.integrate is an integral", "statement": "integrate(a, b) + integrate(b, c) == integrate(a, c) for a <= b <= c within the data, between data points it is the difference of to_cdf, without limits it is the integral of all data, and exchanging the limits changes the sign.", "quantifier": "all data, grids and limits", "why_tests_cant": "Universal over data and limits.", "anchors": ["src/wafo/containers.py: PlotData.integrate, PlotData._get_fi_xi"]}
{"id": "C113", "title": "clencurt integrates polynomials exactly", "statement": "clencurt(fun, a, b, n) returns the exact integral of every polynomial of degree at most 2*(n//2), in either orientation of the limits, with a non-negative error estimate; data given as a table of samples is accepted too.", "quantifier": "all polynomials, all orders, all limits", "why_tests_cant": "Doctests integrate two functions; exactness is a statement about all polynomials of all orders.", "anchors": ["src/wafo/integrate.py: clencurt"]}
{"id": "C114", "title": "romberg's table is the Richardson extrapolation of the trapezoidal rule", "statement": "Entry k of row i of romberg's table is exact for polynomials of degree at most 2*k+1, the returned value is the last entry of the last row, and the result is available for all finite limits.", "quantifier": "all integrands and intervals", "why_tests_cant": "The Euler-Maclaurin cancellation holds for every degree and every number of rows.", "anchors": ["src/wafo/integrate.py: romberg"]}
{"id": "C115", "title": "_expand_roots mirrors the half set of roots", "statement": "_expand_roots(x, w, n, m) returns n nodes symmetric about the origin with symmetric weights, the middle one occurring once when n is odd.", "quantifier": "all n and all half sets", "why_tests_cant": "Depends on the parity and size of n.", "anchors": ["src/wafo/integrate.py: _expand_roots"]}
{"id": "C116", "title": "the closed rules q5, q6 and q7 are Gaussian", "statement": "q5_roots(n), q6_roots(n), q7_roots(n) integrate polynomials of degree less than 2n exactly with the weights 1/sqrt(1-x^2), sqrt(1-x^2) and sqrt(x/(1-x)).", "quantifier": "all n, all polynomials of degree < 2n", "why_tests_cant": "Tests check n = 3 or so.", "anchors": ["src/wafo/integrate.py: q5_roots, q6_roots, q7_roots"]}
{"id": "C117", "title": "the square root rules q8 and q9 are Gaussian", "statement": "q8_roots(n) and q9_roots(n) integrate polynomials of degree less than 2n over [0, 1] exactly with the weights 1/sqrt(1-x) and sqrt(1-x).", "quantifier": "all n, all polynomials of degree < 2n", "why_tests_cant": "Tests check a few n.", "anchors": ["src/wafo/integrate.py: q8_roots, q9_roots"]}
{"id": "C118", "title": "boole is exact to degree five", "statement": "boole(y, x) on equally spaced points returns the exact integral of polynomials of degree at most five; other numbers of points than 4m+1 are handled or rejected.", "quantifier": "all numbers of points, all polynomials", "why_tests_cant": "Tests use one number of points.", "anchors": ["src/wafo/integrate.py: boole"]}
{"id": "C119", "title": "quadgr integrates over finite and infinite intervals", "statement": "quadgr(fun, a, b, abseps) is exact for polynomials within the order of its base rule, also with infinite limits after the change of variable; exchanging the limits negates the value; the error estimate is the smallest change among the candidates and is below abseps unless the rounds are used up.", "quantifier": "all integrands, finite and infinite limits, tolerances", "why_tests_cant": "Depends on stopping behaviour and on all integrands.", "anchors": ["src/wafo/integrate.py: _Quadgr, richardson"]}
{"id": "C120", "title": "gaussq integrates with the selected weight function", "statement": "gaussq(fun, a, b, wfun=k, alpha, beta) is the integral of fun times the documented weight function k, exact for polynomials of moderate degree; exchanging the limits negates the value; the cached rule is the rule for the requested parameters.", "quantifier": "all weight functions, parameters, polynomials, limits and call histories", "why_tests_cant": "The cache depends on earlier calls; the weight depends on real parameters.", "anchors": ["src/wafo/integrate.py: _Gaussq, qrule"]}
{"id": "C121", "title": "p_roots is the Gauss-Legendre rule on [a, b]", "statement": "p_roots(n, method, a, b) integrates polynomials of degree less than 2n exactly over [a, b]; the Newton variants give the same rule.", "quantifier": "all n, all polynomials, all intervals", "why_tests_cant": "Tests check n = 4 with one cosine.", "anchors": ["src/wafo/integrate.py: p_roots, _p_roots_newton, _p_roots_newton1"]}
{"id": "C122", "title": "h_roots is the Gauss-Hermite rule", "statement": "h_roots(n) integrates x^k exp(-x^2) over the line exactly for k < 2n.", "quantifier": "all n, all polynomials", "why_tests_cant": "Tests check one n.", "anchors": ["src/wafo/integrate.py: h_roots, _h_roots_newton"]}
{"id": "C123", "title": "la_roots is the Gauss-Laguerre rule", "statement": "la_roots(n, alpha) integrates polynomials of degree less than 2n with x^alpha exp(-x) over the half line exactly.", "quantifier": "all n, alpha > -1, all polynomials", "why_tests_cant": "Tests check one n.", "anchors": ["src/wafo/integrate.py: la_roots, _la_roots_newton"]}
{"id": "C124", "title": "j_roots is the Gauss-Jacobi rule", "statement": "j_roots(n, alpha, beta) integrates polynomials of degree less than 2n over [-1, 1] exactly with the weight (1-x)^alpha (1+x)^beta, and qrule uses it with the documented orientation.", "quantifier": "all n, alpha, beta > -1, all polynomials", "why_tests_cant": "Tests check one n and pin one number.", "anchors": ["src/wafo/integrate.py: j_roots, _j_roots_newton, qrule"]}
{"id": "C125", "title": "norm_kernel is a density", "statement": "For every kernel that can be chosen by name and in every dimension, norm_kernel is never negative and its integral over the whole space is one; a kernel object made with another radius is normalised too.", "quantifier": "all kernels, dimensions and points", "why_tests_cant": "The integral is over an unbounded d-dimensional space; tests compare single values in one or two dimensions.", "anchors": ["src/wafo/kdetools/kernels.py: Kernel, _Kernel*.norm_factor, norm_kernel"]}
{"id": "C126", "title": "norm_factor works with its default arguments", "statement": "norm_factor(d) with the default n returns the same number as norm_factor(d, n) for every kernel.", "quantifier": "all kernels, d, n", "why_tests_cant": "Tests call it for some kernels only.", "anchors": ["src/wafo/kdetools/kernels.py: _Kernel.norm_factor, Kernel.hstt"]}
{"id": "C127", "title": "stats are the moments of the kernel", "statement": "kernel.stats = (mu2, R, Rdd) are the second moment, the integral of the square, and the integral of the squared second derivative of the one dimensional kernel.", "quantifier": "all kernels", "why_tests_cant": "The numbers are integrals (for the logistic kernel pi^2/3); tests only print them.", "anchors": ["src/wafo/kdetools/kernels.py: _stats_*"]}
{"id": "C128", "title": "derivatives and functionals of the Gaussian kernel", "statement": "deriv4_6_8_10(t, numout) are the derivatives of even order from 4 of the standard normal density at t; psi(r, sigma) is the integral of the r-th derivative of a normal density times the density.", "quantifier": "all t, numout, even r, sigma > 0", "why_tests_cant": "Holds for all orders and all real t.", "anchors": ["src/wafo/kdetools/kernels.py: _KernelGaussian.deriv4_6_8_10, psi"]}
{"id": "C129", "title": "normal scale bandwidth is optimal and follows a change of units", "statement": "sigma times get_amise_constant(n) minimises the asymptotic mean integrated squared error for a normal density; hns and hos of a*x+b are |a| times those of x; _get_g cancels the leading bias terms of the functional estimates.", "quantifier": "all kernels, n, data, a, b", "why_tests_cant": "Minimality is over all bandwidths.", "anchors": ["src/wafo/kdetools/kernels.py: get_amise_constant, hns, hos, _get_g"]}
{"id": "C130", "title": "the kernel density estimate is a density", "statement": "For any data, kernel, smoothing vector or matrix and alpha, eval_points returns the values of one non-negative function with integral one; arguments of a wrong shape raise ValueError.", "quantifier": "all data, kernels, bandwidths, alpha, dimensions", "why_tests_cant": "Total mass over an unbounded space for all data.", "anchors": ["src/wafo/kdetools/kdetools.py: KDE, _check_hs, _invert_hs, _check_shape, _eval_points"]}
{"id": "C131", "title": "both loops of eval_points agree", "statement": "The value of the estimate at a point does not depend on how many other points are evaluated in the same call, i.e. the loop over the data and the loop over the points give the same result, with weights, moments and adaptive factors.", "quantifier": "all data, points, weights, moments", "why_tests_cant": "The choice of the loop depends on the number of points.", "anchors": ["src/wafo/kdetools/kdetools.py: KDE._loop_over_data, _loop_over_points"]}
{"id": "C132", "title": "adaptive factors have geometric mean one", "statement": "With alpha > 0 the factors are (f_i/g)^(-alpha) with the pilot estimate f_i and its geometric mean g; their product is one and a larger pilot density gives a smaller factor; with alpha = 0 all are one.", "quantifier": "all data, kernels, alpha", "why_tests_cant": "Involves the estimate at all data.", "anchors": ["src/wafo/kdetools/kdetools.py: KDE.alpha"]}
{"id": "C133", "title": "the transformed estimate is a density", "statement": "TKDE with transformation parameter L2 is a density on the positive numbers, for float and integer data and for one or several points.", "quantifier": "all data, L2, points", "why_tests_cant": "Integral over a half line for all data.", "anchors": ["src/wafo/kdetools/kdetools.py: TKDE._transform, _scale_pdf, _eval_points"]}
{"id": "C134", "title": "kernel regression is a weighted mean or a local line", "statement": "KRegression with p=0 is a weighted mean of the responses with non-negative weights independent of the responses; with p=1 it reproduces linear functions; eval_grid and eval_grid_fast mean the same thing, with or without a transformation.", "quantifier": "all data, responses of either sign, dimensions", "why_tests_cant": "Depends on all data and responses.", "anchors": ["src/wafo/kdetools/kdetools.py: KRegression._eval_gridfun, TKDE._eval_grid_fast"]}
{"id": "C135", "title": "intervals for a binomial probability", "statement": "The Wilson interval is the set of probabilities not rejected by the score test, contains the estimate and stays in [0, 1]; the credible interval starts at 0 without success and ends at 1 without failure.", "quantifier": "all n, p, confidence levels", "why_tests_cant": "Real parameters.", "anchors": ["src/wafo/kdetools/kdetools.py: BKRegression._wilson_score, _credible_interval"]}
{"id": "C136", "title": "prb_search_best returns the best candidate", "statement": "prb_search_best(hsvec) returns a smoothing parameter of hsvec with the smallest score and the scores of all candidates.", "quantifier": "all score functions and candidate vectors", "why_tests_cant": "Ties and start value depend on the scores.", "anchors": ["src/wafo/kdetools/kdetools.py: BKRegression.prb_search_best"]}
{"id": "C137", "title": "fast evaluation on a grid is binned evaluation", "statement": "eval_grid_fast gives at each grid point the sum over the data of the kernel linearly interpolated between the neighbouring grid points; for data on the grid it is the exact sum; _estimate_psi is the double sum over the data.", "quantifier": "all grids, data, kernels", "why_tests_cant": "Circular convolution with all wrap-around terms.", "anchors": ["src/wafo/kdetools/kdetools.py: KDE._eval_grid_fast, _kernel_weights", "src/wafo/kdetools/kernels.py: _estimate_psi"]}
{"id": "C138", "title": "constants of hscv", "statement": "The numbers psi8 and psi12 in hscv are the functionals of order 8 and 12 of the standard normal density.", "quantifier": "the two constants", "why_tests_cant": "They are integrals.", "anchors": ["src/wafo/kdetools/kernels.py: hscv"]}
{"id": "C139", "title": "empirical probabilities are probabilities", "statement": "prb_empirical returns numbers in [0, 1] on a grid; the default grid covers the data and its step is between half the smoothing parameter and the whole.", "quantifier": "all data, smoothing parameters", "why_tests_cant": "For all data.", "anchors": ["src/wafo/kdetools/kdetools.py: BKRegression.get_grid, prb_empirical"]}
{"id": "C140", "title": "idctn inverts dctn", "statement": "For an array with any number of dimensions and no empty axis, and any list of axes with -ndim <= a < ndim (or none), idctn(dctn(x, axes=axes), axes=axes) and dctn(idctn(x, axes=axes), axes=axes) return an array of the shape of x with the same entries; the sum of squares of dctn(x) equals that of x; an array with an empty axis raises ValueError.", "quantifier": "every number of dimensions, shape, array and list of axes", "why_tests_cant": "A test uses one image; the statement is about all shapes, where the axes are rotated and reshaped.", "anchors": ["src/wafo/dctpack.py:163-199", "src/wafo/dctpack.py:202-296"]}
{"id": "C141", "title": "axes and shape arguments of dctn", "statement": "dctn(x, axes=[k]) transforms every line along axis k on its own; adding an axis is the same as transforming the result along it; no axes means all axes; dctn(x, shape=s) is the transform of x cut or padded with zeros to s; negative axes count from the end; other axes and shapes of the wrong length are errors.", "quantifier": "every array, axis list and shape", "why_tests_cant": "Tests try the defaults only; the order of rotations and transforms has to be right for every axis.", "anchors": ["src/wafo/dctpack.py:163-199"]}
{"id": "C142", "title": "shiftdim rotates, pads and drops axes", "statement": "For n >= 0 axis i of shiftdim(x, n) is axis (i+n) mod ndim of x, shifts add up and ndim shifts are the identity; n < 0 pads with |n| singleton axes; without n all leading singleton axes are removed, and a negative shift by their number restores x.", "quantifier": "every array and every n", "why_tests_cant": "The docstring shows one shape; boundary shapes with only singletons differ.", "anchors": ["src/wafo/dctpack.py:305-376"]}
{"id": "C143", "title": "idct of polynomial inverts dct", "statement": "For every non-empty vector x polynomial.idct(dct(x)) is x, and idct(x, n) is scaled by the length of the transform as documented.", "quantifier": "every vector and every n", "why_tests_cant": "The test has n = len(x) = 5 only.", "anchors": ["src/wafo/polynomial.py:1445-1471"]}
{"id": "C144", "title": "Bretschneider spectrum has the sea state asked for", "statement": "For Hm0 >= 0, Tp > 0, N > 1, M > 0 the area under Bretschneider(Hm0, Tp, N, M) is Hm0^2/16, its spectral moments of order k < N-1 are the documented ones, the only maximum is at 2*pi/Tp, and it is the documented formula; Tp = 1.408*Tz for the defaults to two digits; other sea states raise ValueError.", "quantifier": "all sea states and shape parameters", "why_tests_cant": "Areas and moments are integrals over all frequencies; a test compares three values.", "anchors": ["src/wafo/spectrum/models.py:57-122", "src/wafo/spectrum/models.py:164-262"]}
{"id": "C145", "title": "peakedness of a Jonswap spectrum", "statement": "jonswap_peakfact is between 1 and 7, does not decrease when the waves become steeper, and depends continuously on the sea state; a Jonswap spectrum with peakedness 1 is the Bretschneider spectrum whatever sigma, Ag and method are.", "quantifier": "all sea states", "why_tests_cant": "Range and monotonicity are statements about all sea states.", "anchors": ["src/wafo/spectrum/models.py:265-332", "src/wafo/spectrum/models.py:529-663"]}
{"id": "C146", "title": "energy and peak of a Jonswap spectrum", "statement": "The area under a Jonswap spectrum is Hm0^2/16 (normalisation by integration), it is non-negative and its only maximum is at 2*pi/Tp.", "quantifier": "all sea states, shape parameters, peakedness, cut-off", "why_tests_cant": "The area is an integral; the peak enhancement has a jump of its width at the peak.", "anchors": ["src/wafo/spectrum/models.py:442-663"]}
{"id": "C147", "title": "arguments rejected by Jonswap", "statement": "For peakedness above 1: Ag <= 0, a cut-off below 1 and an unknown method are rejected; method 'parametric' is rejected outside 3 <= N <= 50, 2 <= M <= 9.5, 1 <= gamma <= 20.", "quantifier": "all arguments", "why_tests_cant": "A test tries one value.", "anchors": ["src/wafo/spectrum/models.py:573-635"]}
{"id": "C148", "title": "Jonswap sea state from wind and fetch", "statement": "The sea state scales with wind speed and fetch (Froude scaling), height and period grow with the fetch, the peakedness is at least 1 and does not grow; Jonswap(**jonswap_seastate(..)) is a spectrum with the Hm0 of the sea state.", "quantifier": "all wind speeds, fetches and methods", "why_tests_cant": "Scaling and monotonicity are statements about all arguments; the test prints one dict.", "anchors": ["src/wafo/spectrum/models.py:335-439"]}
{"id": "C149", "title": "depth factor phi1", "statement": "phi1(w, h) is between 0 and 1, zero at w = 0, one for infinite depth, grows with depth and frequency, tends to zero with the depth, and is the same for -w.", "quantifier": "all frequencies, depths and gravities", "why_tests_cant": "Needs the solution of the dispersion relation for all depths.", "anchors": ["src/wafo/spectrum/models.py:666-711"]}
{"id": "C150", "title": "TMA spectrum", "statement": "Tmaspec is at most the Jonswap spectrum at every frequency, grows with the depth, equals it in infinitely deep water, has Hm0 as significant wave height; h and g given to the call are used instead of those of the object.", "quantifier": "all sea states, depths, frequencies", "why_tests_cant": "Integral over all frequencies of the product.", "anchors": ["src/wafo/spectrum/models.py:714-811"]}
{"id": "C151", "title": "Torsethaugen spectrum", "statement": "Wind sea and swell share the energy Hm0^2/16; the component that dominates has peak period Tp; every sea state with Hm0 >= 0 is accepted; wnc is the cut-off of the normalisation.", "quantifier": "all sea states", "why_tests_cant": "Energies are integrals; the branches depend on Hm0 and Tp.", "anchors": ["src/wafo/spectrum/models.py:814-1054"]}
{"id": "C152", "title": "OchiHubble spectrum", "statement": "For each par = 0..10 the area is Hm0^2/16; other values of par raise ValueError.", "quantifier": "all heights and parametrisations", "why_tests_cant": "Integrals of the sum, for all heights.", "anchors": ["src/wafo/spectrum/models.py:1125-1255"]}
{"id": "C153", "title": "McCormick spectrum", "statement": "It is the documented formula with area Hm0^2/16; without M, the shape is such that Tz is the zero-crossing period; every valid sea state is accepted.", "quantifier": "all sea states", "why_tests_cant": "The relation between M and Tz is between integrals.", "anchors": ["src/wafo/spectrum/models.py:1057-1122"]}
{"id": "C154", "title": "Wallop spectrum", "statement": "The area is Hm0^2/16 and the only maximum at 2*pi/Tp with the documented exponent; with N = 5 it is the Bretschneider spectrum.", "quantifier": "all sea states that are not too steep", "why_tests_cant": "Integral over all frequencies.", "anchors": ["src/wafo/spectrum/models.py:1258-1324"]}
{"id": "C155", "title": "spreading functions share out the energy", "statement": "For every kind of spreading function, every frequency and every non-negative spread parameter the call succeeds and D(theta, w) is a non-negative function of the angle whose integral over a full turn is one.", "quantifier": "all angles, frequencies, directions, spread parameters", "why_tests_cant": "An integral over all angles; normalisations are Gamma and Bessel functions of a real parameter.", "anchors": ["src/wafo/spectrum/models.py:1327-1768"]}
{"id": "C156", "title": "first Fourier coefficient of a spreading function", "statement": "All spreading functions with spread parameter S have first Fourier coefficient S/(S+1) about the main direction, and no sine part.", "quantifier": "all spread parameters and main directions", "why_tests_cant": "Integral over all angles for a real parameter.", "anchors": ["src/wafo/spectrum/models.py:1390-1415", "src/wafo/spectrum/models.py:1769-1889", "src/wafo/spectrum/models.py:1942-1975"]}
{"id": "C157", "title": "spreading is about the main direction", "statement": "The spreading is symmetric about theta0, largest there, periodic with period 2*pi in the angles, and depends only on the angle from theta0.", "quantifier": "all angles, also far outside -pi..pi", "why_tests_cant": "Real angles.", "anchors": ["src/wafo/spectrum/models.py:1543-1583"]}
{"id": "C158", "title": "spread parameter as a function of frequency", "statement": "With method 'mitsuyasu' S(wn) is s_a*wn^m_a for wn_lo <= wn < wn_c, s_b*wn^m_b for wn_c <= wn < wn_up and 0 otherwise; negative parameters and wrong numbers of main directions raise ValueError.", "quantifier": "all frequencies, limits and parameters", "why_tests_cant": "Behaviour at the limits themselves.", "anchors": ["src/wafo/spectrum/models.py:1366-1376", "src/wafo/spectrum/models.py:1891-1975"]}
{"id": "C159", "title": "names of spreading functions and methods", "statement": "All documented names of spreading functions and of methods are accepted and can be called; the method reported can be assigned back.", "quantifier": "all names and methods", "why_tests_cant": "Names that are not tried in tests.", "anchors": ["src/wafo/spectrum/models.py:1347-1391", "src/wafo/spectrum/models.py:1505-1541", "src/wafo/spectrum/models.py:1903-1927"]}
{"id": "C160", "title": "wrapped normal spreading", "statement": "D(theta_i, w) is the documented series at the angle theta_i, clipped at zero; over a full turn the values add up to one.", "quantifier": "all numbers of angles, spread parameters", "why_tests_cant": "The result depends on the number of angles and their spacing.", "anchors": ["src/wafo/spectrum/models.py:1642-1683"]}
{"id": "C161", "title": "directional spectrum from a frequency spectrum", "statement": "tospecdata2d gives a directional spectrum whose integral over all directions is the frequency spectrum, and rejects angles that do not cover a full turn.", "quantifier": "all spectra, angles, kinds of spreading functions", "why_tests_cant": "Integral over all angles.", "anchors": ["src/wafo/spectrum/models.py:1983-2056"]}
{"id": "C162", "title": "Wave parameters describe the waves between down-crossings", "statement": "TimeSeries.wave_parameters(rate) returns arrays where, for the k-th wave between consecutive down-crossings of the zero level, Ac is the largest value after the up-crossing and At minus the smallest value before it, Hd and Hu are the sums of Ac with the trough before and after, Td and Tu the times between the crossings found by linear interpolation, and Tcf and Tcb the times between the crest and the neighbouring crossings; without a whole wave all arrays are empty.", "quantifier": "all series and increasing times, all rates, any interpolation method for rate > 1", "why_tests_cant": "whether each slice lines up with its wave depends on the number of crossings and on the direction of the first one", "anchors": ["src/wafo/objects.py:1745-1820"]}
{"id": "C163", "title": "Steepness is the documented quotient for every wave", "statement": "TimeSeries.wave_height_steepness(kind) returns, wave by wave, the quotient documented for the kind with the documented wave height, the names and numbers of the kinds agree, and anything else is rejected.", "quantifier": "all series and increasing times, all kinds", "why_tests_cant": "tests compare one kind on one sea state", "anchors": ["src/wafo/objects.py:1822-1956"]}
{"id": "C164", "title": "Periods between crossings have the directions asked for", "statement": "TimeSeries.wave_periods with pdef d2d, u2u, d2u or u2d returns the times between the interpolated crossings of the level in the named directions.", "quantifier": "all series, levels and increasing times with at least two crossings, starting in either direction", "why_tests_cant": "the start index depends on the direction of the first crossing, and with equal numbers of each kind a wrong one still gives plausible periods", "anchors": ["src/wafo/objects.py:1958-2132"]}
{"id": "C165", "title": "Periods between extremes are times", "statement": "TimeSeries.wave_periods with a pdef naming minima, maxima, troughs or crests returns positive times between these points.", "quantifier": "all series and increasing times", "why_tests_cant": "tests print a few values of one series", "anchors": ["src/wafo/objects.py:1958-2132"]}
{"id": "C166", "title": "Periods do not depend on the origin of time", "statement": "Adding a constant to all times leaves the result of TimeSeries.wave_periods unchanged, and requests without a result are answered by an exception of known type or an empty result.", "quantifier": "all series, times, constants and all seventeen documented pdef", "why_tests_cant": "a test fixes one origin of time", "anchors": ["src/wafo/objects.py:1958-2132"]}
{"id": "C167", "title": "Sampling period and default times", "statement": "TimeSeries.sampling_period() is the duration divided by the number of intervals, hence the spacing for uniform sampling; when no times are given the sample numbers are used and the wave methods work with them.", "quantifier": "all time vectors with at least two entries; all data", "why_tests_cant": "tests always pass times", "anchors": ["src/wafo/objects.py:1323-1354", "src/wafo/objects.py:1745-1820"]}
{"id": "C168", "title": "Exceedances reproduce the crossing counts", "statement": "The sample that LevelCrossings.extrapolate fits a tail to contains only distances of observed levels from the threshold, and the number of sample values at or beyond a level equals the largest crossing count at or above this level, rounded down; for counts that decrease with the level it is the crossing count itself.", "quantifier": "all increasing levels, all non-negative counts, all thresholds with a level above", "why_tests_cant": "tests look at fitted curves, not at the sample", "anchors": ["src/wafo/objects.py:258-276", "src/wafo/objects.py:344-358"]}
{"id": "C169", "title": "Extrapolation keeps the observed part of the spectrum", "statement": "LevelCrossings.extrapolate returns increasing levels, keeps all observed counts between and at the thresholds, adds tails fitted to the exceedances on both sides, and works with the default thresholds, the outermost levels whose count exceeds the root of the largest count.", "quantifier": "all increasing levels and counts, any fitted survival function", "why_tests_cant": "tests compare a few tail values of one simulated spectrum", "anchors": ["src/wafo/objects.py:226-256"]}
{"id": "C170", "title": "Mean and standard deviation from a Gaussian crossing spectrum", "statement": "LevelCrossings recovers mean and standard deviation of a Gaussian crossing spectrum and draws the same curve as comparison, the estimates follow a change of units of the levels and do not depend on the number of crossings.", "quantifier": "all means, standard deviations and increasing levels; all counts and units for the scaling properties", "why_tests_cant": "tests use simulated data with sampling error", "anchors": ["src/wafo/objects.py:91-133"]}
{"id": "C171", "title": "Simulated Gaussian process has the requested irregularity factor", "statement": "The autoregressive process behind LevelCrossings.sim(ns, alpha) is stationary, has the autocovariances computed for it, starts in its stationary distribution, and its ratio of mean zero crossings to local extremes is alpha.", "quantifier": "all alpha between 0 and 1, all random numbers", "why_tests_cant": "a simulation shows the irregularity factor only up to sampling error", "anchors": ["src/wafo/objects.py:415-438"]}
{"id": "C172", "title": "Autocovariance estimate of a time series", "statement": "CovarianceEstimator(lag).tocovdata(ts) returns at lag l the documented estimate sum (x[i]-m)(x[i+l]-m)/n times the window, the variance at lag 0, no value larger than the variance, on the lags 0, dt, 2 dt, ...; the last value is zero.", "quantifier": "all series without missing values with at least three samples, all lags and windows", "why_tests_cant": "tests use one long series with a small lag, where the circular part vanishes", "anchors": ["src/wafo/covariance/estimation.py:86-174"]}
{"id": "C173", "title": "Unbiased and normalized autocovariance", "statement": "With flag 'unbiased' the estimate at lag l is divided by n - l instead of n; with norm=True it is divided by the variance, so that it starts at one.", "quantifier": "all series, lags and windows", "why_tests_cant": "no test sets the flag", "anchors": ["src/wafo/covariance/estimation.py:149-154"]}
{"id": "C174", "title": "Mean subtraction with missing values", "statement": "Before the autocovariance is estimated the mean of the observed samples is subtracted, and missing samples count as zero.", "quantifier": "all series with or without NaN", "why_tests_cant": "tests have no missing values", "anchors": ["src/wafo/covariance/estimation.py:131-140"]}
{"id": "C175", "title": "Default lag of the autocovariance estimate", "statement": "If no lag is given the estimate extends two lags beyond the last lag, among the first 301, at which it exceeds twice its large lag standard deviation; a Parzen window gets four thirds of this lag.", "quantifier": "all autocovariances with a positive variance", "why_tests_cant": "depends on all values of the estimate", "anchors": ["src/wafo/covariance/estimation.py:75-84"]}
{"id": "C176", "title": "Covariance function of a spectrum", "statement": "SpecData1D.tocovdata returns at each lag t the integral of S(w) cos(w t), the integral of the spectrum at lag zero and nothing larger, at multiples of pi / (w[-1] rate); frequency grids that do not start at zero or are not equidistant are rejected.", "quantifier": "all spectra on equidistant frequencies, numbers of lags and interpolation rates, and all three frequency types", "why_tests_cant": "tests compare a few values for one spectrum", "anchors": ["src/wafo/spectrum/core.py:912-969"]}
{"id": "C177", "title": "Derivatives of the covariance function", "statement": "The attributes Rt, Rtt, ... that SpecData1D.tocovdata(nr) adds are the first nr derivatives of the covariance function at the returned lags.", "quantifier": "all spectra on equidistant frequencies starting at zero and all nr", "why_tests_cant": "tests compare a few values for one spectrum", "anchors": ["src/wafo/spectrum/core.py:958-967"]}
{"id": "C178", "title": "Spectrum of a covariance function", "statement": "CovData1D.tospecdata returns at each frequency the spectral density 2/pi integral of R(t) cos(w t) on equidistant frequencies from 0 to pi/dt, its integral is the covariance at lag zero, and the object itself is left as it was.", "quantifier": "all covariance functions on equidistant lags, all rates", "why_tests_cant": "tests compare a few values for one spectrum", "anchors": ["src/wafo/covariance/core.py:223-263"]}
{"id": "C179", "title": "From spectrum to covariance function and back", "statement": "S.tocovdata().tospecdata() returns a spectrum with the frequencies, values and type of S.", "quantifier": "all nonnegative spectra in angular frequency or wave number whose nonzero values are above the truncation", "why_tests_cant": "tests compare rounded values for one spectrum with 2**m + 1 frequencies", "anchors": ["src/wafo/spectrum/core.py:912-969", "src/wafo/covariance/core.py:223-263"]}
{"id": "C180", "title": "Simulation from a covariance function", "statement": "CovData1D.sim(ns, cases) returns ns rows at multiples of the step, with uncorrelated columns whose covariances are the given ones and zero beyond the last lag; ns has a default, dt sets the step and derivative=True returns the derivative as well.", "quantifier": "all covariance functions with a positive spectral density, all ns and cases", "why_tests_cant": "a simulated sample shows covariances only up to sampling error", "anchors": ["src/wafo/covariance/core.py:298-466"]}
{"id": "C181", "title": "Simulation conditional on observed values", "statement": "CovData1D.simcond returns mean and standard deviation of the missing samples conditional on the observed ones, for series of any length, and leaves the caller's data and the covariance function as they were.", "quantifier": "all covariance functions, all series with missing samples", "why_tests_cant": "the conditional distribution depends on all observed samples; tests run no such call", "anchors": ["src/wafo/covariance/core.py:468-681"]}
{"id": "C182", "title": "SpecData1D.moment returns the spectral moments in rad/s", "statement": "S.moment(nr, even, j) returns the integrals of |S|^(j+1) w^i for i = 0, 1, ..., nr (or the even ones), in angular frequency also when the spectrum is stored in hertz, with one name for each of them.", "quantifier": "all spectra, orders, powers and all integration rules that are weighted sums whose weights follow the unit of the points", "why_tests_cant": "Tests compare a few moments of one model spectrum; they cannot cover every spectrum, order and unit.", "anchors": ["src/wafo/spectrum/core.py:3289-3368"]}
{"id": "C183", "title": "Assigning freqtype converts between hertz and rad/s and keeps the moments", "statement": "Setting S.freqtype from 'f' to 'w' or back converts frequencies and densities, keeps every moment and can be undone; the attribute has afterwards the value that was assigned.", "quantifier": "all spectra and frequency types", "why_tests_cant": "An identity over all spectra; the silently ignored assignments (from or to 'k') do not raise.", "anchors": ["src/wafo/spectrum/core.py:720-738"]}
{"id": "C184", "title": "normalize gives unit zeroth and second moments", "statement": "After S.normalize() the moments m0 and m2 are one and, with the stored gravity, so is the mean square slope; normalizing again changes nothing.", "quantifier": "all spectra of type 'f', 'w' or 'k' with positive moments", "why_tests_cant": "The doctest checks one spectrum in rad/s; the property fails for every spectrum in hertz and in wave number.", "anchors": ["src/wafo/spectrum/core.py:3538-3597"]}
{"id": "C185", "title": "bandwidth returns the documented bandwidth factors", "statement": "S.bandwidth(factors) returns alpha, eps2, eps4 and Qp by number or name; alpha lies in [0, 1], alpha^2 + eps4^2 = 1, no root of a negative number is taken, and the factors do not depend on the units of frequency and density.", "quantifier": "all spectra, all factors, all integration rules with nonnegative weights", "why_tests_cant": "Inequalities between moments (Cauchy-Schwarz) hold for all spectra and cannot be tested exhaustively; the name 'eps4' is never tested.", "anchors": ["src/wafo/spectrum/core.py:3599-3644"]}
{"id": "C186", "title": "characteristic returns the documented characteristics of the factors asked for", "statement": "S.characteristic(fact) returns one value, one name and one row and column of covariances per factor; factors outside 0..14 and unknown names raise ValueError; Hm0, Tm01, Tm02, Tm24, Tm_10, Ss, Alpha, Eps2, Eps4 are the documented functions of the moments in hertz and agree with bandwidth; Tp is that of the first maximum.", "quantifier": "all spectra in rad/s with positive moments, all lists of factors", "why_tests_cant": "Doctests compare a few numbers of one spectrum.", "anchors": ["src/wafo/spectrum/core.py:3646-3823"]}
{"id": "C187", "title": "The covariances of the characteristics are those of the delta method", "statement": "The matrix returned by S.characteristic has the first order (delta method) variances of Hm0, Tm01, Tm02, Tm24, Tm_10, Ss, Alpha, Eps2, Eps4 and the covariances of Hm0, Tm01 and Tm02 at the places of these factors, and is symmetric.", "quantifier": "all spectra in rad/s with positive moments, all record lengths", "why_tests_cant": "The formulas have up to six terms each with powers of four moments; the source itself asks for further checking.", "anchors": ["src/wafo/spectrum/core.py:3825-3895"]}
{"id": "C188", "title": "The characteristics do not depend on the unit of the frequency", "statement": "S.characteristic gives the same values for a spectrum stored in hertz and in rad/s.", "quantifier": "all spectra", "why_tests_cant": "Needs all spectra in both units; no test uses hertz.", "anchors": ["src/wafo/spectrum/core.py:3760-3823"]}
{"id": "C189", "title": "A too small time step is reported as documented", "statement": "_check_dt raises ValueError with an advice when the time step is too small for the frequency grid, and _check_cov_matrix warns when the covariances are nearly singular.", "quantifier": "all frequency grids, time steps and covariances", "why_tests_cant": "The messages are only formatted in the failing branch, which no test reaches.", "anchors": ["src/wafo/spectrum/core.py:747-771"]}
{"id": "C190", "title": "Random phase simulation of a spectrum has the covariances of the spectrum", "statement": "SpecData1D.sim with the method 'random' returns series whose values have mean zero and covariances equal to the trapezoidal sums of the density times the cosine; different series are uncorrelated; the number of points is the one asked for and the derivative is the derivative of the series.", "quantifier": "every spectrum, every number of points and cases, all uncorrelated unit random numbers", "why_tests_cant": "A test compares estimates from one random sample within a wide tolerance.", "anchors": ["src/wafo/spectrum/core.py:2525-2714"]}
{"id": "C191", "title": "Exact simulation of a spectrum uses its covariance function", "statement": "SpecData1D.sim with the method 'exact' returns what CovData1D.sim returns for the covariance function of the spectrum, cut off after the simulated time, so the covariances are those of the spectrum; the method is chosen by its name.", "quantifier": "every spectrum, number of points, cases and method text", "why_tests_cant": "A test runs one spectrum with one seed.", "anchors": ["src/wafo/spectrum/core.py:2611-2638"]}
{"id": "C192", "title": "Moments of directional spectra have the orders that their names say", "statement": "SpecData2D.moment returns, for the variables asked for, the moments of the directional spectrum; the number of letters x, y and t in a name is the order of cos(theta)*w^2/g, sin(theta)*w^2/g and w; the result does not depend on the unit of frequency.", "quantifier": "every directional spectrum, every highest order, every choice of variables", "why_tests_cant": "A test has one spectrum with a fixed selection of moments.", "anchors": ["src/wafo/spectrum/core.py:4183-4297"]}
{"id": "C193", "title": "Rotation turns the directions of a spectrum by the given angle", "statement": "SpecData2D.rotate turns the directions, theta - phi, by the given angle, keeps the densities, keeps phi in [-pi, pi), and rejects spectra that are not directional without changing them.", "quantifier": "every directional spectrum and angle", "why_tests_cant": "Angles that start elsewhere than at -pi, and the way the arguments are stored, are not covered by a single example.", "anchors": ["src/wafo/spectrum/core.py:4039-4122"]}
{"id": "C194", "title": "Rotation of the grid gives sorted directions with their densities", "statement": "SpecData2D.rotate with rotateGrid turns the grid: phi becomes zero, the angles are increasing in [-pi, pi), and each turned direction keeps its densities.", "quantifier": "every directional spectrum and angle", "why_tests_cant": "Whether the grid is closed or open and which angle it starts at decides which branch runs.", "anchors": ["src/wafo/spectrum/core.py:4061-4122"]}
{"id": "C195", "title": "Resampling gives an equidistant grid with the wanted sampling interval", "statement": "SpecData1D.resample replaces the frequencies by equidistant ones from zero to the Nyquist frequency of the wanted sampling interval; their number is a power of two plus one, at least Nmin and the old number, at most Nmax; the grid is at least as fine as the old one; densities are not negative and are kept at the old frequencies; without a wanted interval only zeros are added at low frequencies.", "quantifier": "every spectrum with increasing frequencies, every wanted interval, Nmin and Nmax, every interpolation that keeps the points", "why_tests_cant": "The branches depend on the spacing and the number of frequencies, and a test resamples one model spectrum.", "anchors": ["src/wafo/spectrum/core.py:3420-3531"]}
{"id": "C196", "title": "The covariance matrix has the derivatives of the covariance function at multiples of the time step", "statement": "SpecData1D.tocov_matrix returns a matrix with nt+1 rows and nr+1 columns whose entry (j, i) is the i-th derivative at j*dt of the covariance function of the spectrum resampled to dt.", "quantifier": "every spectrum with increasing frequencies, every number of rows, derivatives and time step", "why_tests_cant": "Whether the number of rows fits the resampled spectrum depends on how the ratio of sampling intervals is rounded.", "anchors": ["src/wafo/spectrum/core.py:740-842"]}
{"id": "C197", "title": "padua_points returns exactly the Padua points", "statement": "padua_points(n, domain) for n >= 1 returns (n+1)(n+2)/2 points, which are exactly the points (cos(j pi/n), cos(k pi/(n+1))) with j <= n, k <= n+1 and j + k odd, mapped to the rectangle; there are no duplicates on a proper rectangle. For n = 0 it returns the corner (a, c).", "quantifier": "all degrees and all rectangles", "why_tests_cant": "The index formula differs for odd and even degrees; tests compare two degrees.", "anchors": ["src/wafo/padua.py:291-329"]}
{"id": "C198", "title": "padua_fit interpolates", "statement": "For every function and degree, padua_val with the coefficients from padua_fit equals the function at every Padua point, and only coefficients of total degree at most n are nonzero. Fails for degree 0, where padua_fit raises IndexError.", "quantifier": "all functions, degrees and rectangles", "why_tests_cant": "Tests compare the value of two functions at a few degrees with stored numbers.", "anchors": ["src/wafo/padua.py:345-415", "src/wafo/padua.py:483-526"]}
{"id": "C199", "title": "padua_fit reproduces polynomials", "statement": "If the function is a polynomial of total degree at most n, padua_val with the coefficients of the fit of degree n equals it on the whole rectangle; the coefficients of a polynomial in Padua form are recovered exactly.", "quantifier": "all degrees, rectangles and polynomials", "why_tests_cant": "A statement about all polynomials and all points of the rectangle.", "anchors": ["src/wafo/padua.py:345-415", "src/wafo/padua.py:483-526"]}
{"id": "C200", "title": "padua_cubature integrates exactly", "statement": "padua_cubature returns the integral over the rectangle of the polynomial with the given coefficients; after padua_fit it returns the exact integral of every polynomial of total degree at most n.", "quantifier": "all coefficient matrices, rectangles and polynomials", "why_tests_cant": "Tests integrate one function; the integral is a limit.", "anchors": ["src/wafo/padua.py:462-480"]}
{"id": "C201", "title": "the error estimate of padua_fit", "statement": "The error estimate that padua_fit returns is twice the sum of the absolute coefficients of total degree n; the further diagonals contribute nothing. The interpolation error in the rectangle is not bounded by the estimate (claim refuted).", "quantifier": "all functions and degrees", "why_tests_cant": "Tests compare one stored estimate; the absence of a contribution holds for all functions.", "anchors": ["src/wafo/padua.py:332-342"]}
{"id": "C202", "title": "padua_val on meshgrids and outside the rectangle", "statement": "padua_val with use_meshgrid returns a row for each y and a column for each x with the same values as scattered evaluation; outside the rectangle the value is that of the nearest point of the rectangle, so polynomials are not reproduced there (claim refuted).", "quantifier": "all coefficient matrices and points", "why_tests_cant": "Tests evaluate inside the rectangle only.", "anchors": ["src/wafo/padua.py:483-526"]}
{"id": "C203", "title": "evans_webster_weights are exact on their span", "statement": "For nodes in [-1, 1] for which the collocation matrix is nonsingular, the weights of evans_webster_weights integrate exactly f(t) exp(i omega g(t)) over [-1, 1] for every f in the span of p_k' + i omega g' p_k, and there is one weight for each node.", "quantifier": "all phases, frequencies, both bases and all node sets with a nonsingular matrix", "why_tests_cant": "The exact value is an integral over a continuum for a family of functions; tests compare a few integrals with a tolerance.", "anchors": ["src/wafo/integrate_oscillating.py:94-118"]}
{"id": "C204", "title": "Evans-Webster weights for a linear phase", "statement": "For g(t) = s t + o with omega s nonzero and distinct nodes in [-1, 1] the collocation matrix is nonsingular and every polynomial of degree less than the number of nodes times exp(i omega g) is integrated exactly.", "quantifier": "all frequencies, slopes, distinct nodes and polynomials", "why_tests_cant": "Nonsingularity for all nodes and frequencies cannot be sampled.", "anchors": ["src/wafo/integrate_oscillating.py:94-118"]}
{"id": "C205", "title": "QuadOsc bisects the interval correctly", "statement": "After k bisections QuadOsc uses 2^k adjacent parts of equal length from a to b, each with its own nodes in the order of the weights, so the composite rule gives the integral over [a, b] whenever the rule is exact on every part.", "quantifier": "all intervals, node sets, numbers of bisections and functions", "why_tests_cant": "The pairing of nodes, weights and parts is an invariant over all bisections.", "anchors": ["src/wafo/integrate_oscillating.py:122-137", "src/wafo/integrate_oscillating.py:272-312"]}
{"id": "C206", "title": "QuadOsc is exact for polynomials and linear phases", "statement": "QuadOsc returns the exact integral of a polynomial of degree less than the number of nodes times exp(i omega (s x + o)) over [a, b], also for b < a (with the sign changed) and a = b (zero), after one bisection. maxiter must be at least two: maxiter=1 always raises UnboundLocalError.", "quantifier": "all polynomials, intervals and linear phases", "why_tests_cant": "Tests compare with a tolerance; the failing value of maxiter is not tested.", "anchors": ["src/wafo/integrate_oscillating.py:208-241", "src/wafo/integrate_oscillating.py:272-326"]}
{"id": "C207", "title": "QuadOsc's estimate and stopping rule", "statement": "The estimate after k bisections is the current quadrature value or one of its two extrapolations, the one that changed least, with this change as error; QuadOsc stops at the first bisection whose error is at most 10^-precision or at the last one, and reports all evaluated nodes.", "quantifier": "all functions, phases, extrapolations and iteration limits", "why_tests_cant": "The candidates depend on the iteration; tests see the final value only.", "anchors": ["src/wafo/integrate_oscillating.py:243-270", "src/wafo/integrate_oscillating.py:272-326"]}
{"id": "C208", "title": "QuadOsc's changes of variable for infinite intervals", "statement": "For infinite limits the transformed integral of f exp(i omega g) over a finite interval converges if and only if the original one does, and to the same value; the transformed derivative of the phase is the derivative of the transformed phase.", "quantifier": "all continuous functions and differentiable phases, all finite limits", "why_tests_cant": "A statement about improper integrals.", "anchors": ["src/wafo/integrate_oscillating.py:165-206"]}
{"id": "C209", "title": "Levin collocation is exact on its span", "statement": "AdaptiveLevin._a_levin returns the exact integral over [-1, 1] for every function in the span of p_k' + i omega g' p_k if the collocation system, with derivatives up to order s-1 at the first and last point, is nonsingular; for linear phases, s = 1 and distinct points it is nonsingular and polynomials of degree less than the number of points are exact.", "quantifier": "all phases, multiplicities, point sets and both bases", "why_tests_cant": "The exact value is an integral for a family of functions.", "anchors": ["src/wafo/integrate_oscillating.py:375-416"]}
{"id": "C210", "title": "AdaptiveLevin and EvansWebster sum the integrals over all parts", "statement": "The limits of the parts run strictly from a to b, divided exactly at the interpolated crossings of 30, 1, 0, -1 and -30 by the sampled derivative of the scaled phase; with exact values on the parts the sum is the integral over [a, b], also for b < a; for a linear phase both methods are exact for polynomials of degree less than the smallest number of points.", "quantifier": "all phases, intervals and functions", "why_tests_cant": "The subdivision depends on the phase; tests compare sums with a tolerance.", "anchors": ["src/wafo/integrate_oscillating.py:418-516", "src/wafo/integrate_oscillating.py:519-536"]}
{"id": "C211", "title": "the node sets of integrate_oscillating", "statement": "chebyshev_roots(m) are exactly the roots of T_m in decreasing order; chebyshev_extrema(m) decreases from 1 to -1 for m >= 2 (nan for m = 1); adaptive_levin_points(m, delta) ends for delta > 0 and gives increasing symmetric points from -1 to 1 for odd m (not for even m; it never ends for delta = 0); every set that AdaptiveLevin chooses has the requested number of distinct points in [-1, 1].", "quantifier": "all numbers of points and all delta", "why_tests_cant": "Tests print the sets for a few numbers.", "anchors": ["src/wafo/integrate_oscillating.py:329-369", "src/wafo/integrate_oscillating.py:460-497"]}
{"id": "C212", "title": "hyperbolic_ratio is the quotient of hyperbolic functions", "statement": "hyperbolic_ratio(a, b, sa, sb) equals f(a)/g(b), where f (g) is cosh for positive sa (sb) and sinh for negative, for all signs of a and b and wherever g(b) is not 0; at b = 0 with sinh in the denominator it is infinite, except sinh(0)/sinh(0), which is 1.", "quantifier": "all real a, b and all four combinations of signs", "why_tests_cant": "Tests compare a few rounded quotients; sign handling has eight cases of signs of the arguments and the kinds of function.", "anchors": ["src/wafo/wave_theory/core.py:15-76"]}
{"id": "C213", "title": "Sensor names and numbers are inverse to each other", "statement": "sensor_type gives names for 0..17 and nan for other integers, sensor_typeid of these names gives the numbers back, and sensor_type of the number of a name is the name in lower case; a list of numbers with an unknown name can be passed on; TransferFunction accepts every name and number that these functions know.", "quantifier": "all lists of integers and all strings", "why_tests_cant": "The table test lists the known names only; strings and integers outside are unbounded.", "anchors": ["src/wafo/wave_theory/core.py:79-179", "src/wafo/wave_theory/core.py:272-296", "src/wafo/wave_theory/core.py:335"]}
{"id": "C214", "title": "TransferFunction.tran returns the documented factors", "statement": "tran returns Hw >= 0 with one value per frequency and Gwt with one row per direction, whose product is the transfer function of the sensor; negative factors are moved to Gwt; for infinite depth the responses are the limits of those for increasing depth; the three ways to measure z describe the same point.", "quantifier": "all sensors, positions, depths, frequencies, wave numbers and directions", "why_tests_cant": "Tests evaluate a few sensors at a finite depth and positive frequencies.", "anchors": ["src/wafo/wave_theory/core.py:298-354", "src/wafo/wave_theory/core.py:375-514"]}
{"id": "C215", "title": "Sensors are derivatives of each other", "statement": "With elevation exp(i(kx x + ky y - w t)) the transfer functions of n_t, n_tt, U_t, V_t, W_t, U, V, W are time derivatives of those of n, n_t, U, V, W, X_p, Y_p, Z_p, and those of n_x, n_y, n_xx, n_yy, n_xy are derivatives of n, n_x, n_y with respect to the position of the sensor.", "quantifier": "all positions, depths, frequencies, wave numbers, directions and conventions", "why_tests_cant": "Derivatives are statements about limits; a test has finite differences at a few points.", "anchors": ["src/wafo/wave_theory/core.py:389-514"]}
{"id": "C216", "title": "Velocities form an incompressible flow without rotation", "statement": "The transfer functions of U, V, W satisfy U_x + V_y + W_z = 0, U_z = W_x, V_z = W_y and U_y = V_x with respect to the position of the sensor, for axes at a right angle.", "quantifier": "all positions, finite depths, frequencies, nonzero wave numbers, directions, both values of bet", "why_tests_cant": "An identity between derivatives at all points.", "anchors": ["src/wafo/wave_theory/core.py:359-386", "src/wafo/wave_theory/core.py:443-465"]}
{"id": "C217", "title": "Pressure and accelerations obey the equations of motion, the bottom is tight and the surface moves with the water", "statement": "If w**2 = g k tanh(k h) then P_x = -rho U_t, P_y = -rho V_t and P_z = -rho W_t; W, W_t and Z_p vanish at the bottom; at the mean water level Z_p = n, W = n_t, W_t = n_tt and P = rho g n. The wave numbers tran computes itself satisfy the relation with the gravity of the transfer function.", "quantifier": "all positions, finite depths, frequencies, wave numbers, directions", "why_tests_cant": "The equation of motion ties three sensors and the dispersion relation together at all points.", "anchors": ["src/wafo/wave_theory/core.py:325-327", "src/wafo/wave_theory/core.py:434-490"]}
{"id": "C218", "title": "Directions of waves and axes", "statement": "With axes at a right angle and bet=1 the elevation travels in direction (cos, sin) of theta - thetay; bet=-1 is the opposite direction for every sensor; all sensors have period 2 pi in theta; thetax and thetay are read in the same way.", "quantifier": "all directions, axes, sensors, frequencies and wave numbers", "why_tests_cant": "Trigonometric identities for all angles; the tests use the default axes.", "anchors": ["src/wafo/wave_theory/core.py:359-373"]}
{"id": "C219", "title": "wave_pressure decreases with depth and agrees with TransferFunction", "statement": "wave_pressure at the mean water level is rho g Hm0/2, it is positive and strictly increasing in z from the bottom on, and equals Hm0/2 times the pressure response of TransferFunction at the same level and wave number.", "quantifier": "all levels above the bottom, wave heights, depths, densities, positive wave numbers", "why_tests_cant": "Monotonicity over a continuum of levels.", "anchors": ["src/wafo/wave_theory/core.py:517-584"]}
{"id": "C220", "title": "findpeaks returns the n highest peaks in decreasing order", "statement": "For a signal with at least two turning points and no plateau before a drop, findpeaks(data, n, min_h=0, min_p) returns positions of local maxima in order of decreasing height, at most n of them, leaving out only peaks below the fraction min_p of the highest one and peaks lower than all returned; every strict interior maximum is a candidate. For a matrix, each returned position is the maximum of its row and larger than the values in the rows before and after.  The function works for short or flat signals and for one-row matrices.", "quantifier": "all data, numbers n and fractions min_p; all matrices", "why_tests_cant": "the argument is about all signals and all positions; the tests use one signal with well separated peaks", "anchors": ["src/wafo/misc.py:1139-1231"]}
{"id": "C221", "title": "edfcnd is the empirical distribution conditioned on exceeding c", "statement": "Without a condition edfcnd(x) is the empirical distribution of all data. With a condition c its abscissae are the ordered data not below c, and with method 3 its probabilities are (F - F0)/(1 - F0), where F is the empirical distribution function of all data and F0 the fraction of the data below c.", "quantifier": "all data and all c", "why_tests_cant": "a relation between two results for every sample and every condition, including ties and c equal to a datum", "anchors": ["src/wafo/stats/core.py:89-133"]}
{"id": "C222", "title": "reslife is the mean excess over the threshold, with at least nmin data above it", "statement": "reslife returns for each threshold the mean of the excesses of the data above it, nan exactly if there are none; the limits are symmetric about it. Between neighbouring data the mean excess falls with slope -1. Data and thresholds in other units give the mean and limits in those units. The default thresholds run evenly from the smallest datum to one above which at least nmin data remain.", "quantifier": "all data, thresholds, nmin and nu", "why_tests_cant": "slopes and units relate infinitely many inputs; the number of data above the last default threshold matters for all samples", "anchors": ["src/wafo/stats/core.py:136-237"]}
{"id": "C223", "title": "dispersion_idx counts every exceedance in one block and is the variance-mean ratio of the counts", "statement": "Every datum above the threshold is counted in exactly one block, whatever the order and spacing of the times. The index is nan exactly if nothing exceeds the threshold, otherwise the variance of the counts divided by their mean: never negative, zero exactly for equal counts. Shifting the clock, changing the time unit together with tb, or transforming data and thresholds by an increasing function changes nothing. The accepted thresholds are exactly those with an index between the limits, and the chosen one is an accepted one with an index above their mean unless all are equal.", "quantifier": "all data, times, block lengths and thresholds", "why_tests_cant": "invariance and conservation claims over all samples; the tests compute one number", "anchors": ["src/wafo/stats/core.py:333-383"]}
{"id": "C224", "title": "stirlerr, betaloge and binomln are correct to rounding error for all arguments", "statement": "stirlerr(n) differs from log(n!) - log(sqrt(2 pi n)(n/e)^n) by at most 2^-52 for every positive real n, in all of its five branches. betaloge(z, w) differs from log(Gamma(z)Gamma(w)/Gamma(z+w)) by at most three times that for all positive arguments, is symmetric, inf at zero and nan for negative arguments. binomln(z, w) has the same accuracy for 0 <= w <= z, and for natural numbers it is the logarithm of the binomial coefficient, -inf if that is zero.", "quantifier": "all positive real arguments (exact arithmetic; gammaln and betaln of scipy exact)", "why_tests_cant": "a bound for the truncation error for all real arguments is an analytic fact; the tests compare a few values with tolerance 1e-8", "anchors": ["src/wafo/misc.py:1839-1904", "src/wafo/misc.py:2014-2119"]}
{"id": "C225", "title": "fourier returns the coefficients of a trigonometric sum", "statement": "For whole periods of a trigonometric sum sampled with N equal steps per period, and fewer than N harmonics of signal and result together, fourier returns the coefficients of the sum, so that the documented series gives the signal back; the arguments of the caller are not changed.", "quantifier": "all periods, starting times, numbers of periods and coefficients", "why_tests_cant": "exactness for all signals follows from orthogonality; the test has one period 2 pi and accepts a factor 4", "anchors": ["src/wafo/misc.py:2832-2908"]}
{"id": "C226", "title": "num2pistr writes a number and its opposite alike", "statement": "num2pistr(-x) is num2pistr(x) with a minus sign in front: both are written as a fraction of pi, or both as decimal numbers.", "quantifier": "all fractions", "why_tests_cant": "the numerator is unbounded; the tests have numerators 3 and 1", "anchors": ["src/wafo/misc.py:2789-2829"]}
{"id": "C227", "title": "cdflomax is the distribution function of local maxima", "statement": "For any level x, irregularity factor alpha with |alpha| < 1 and positive variance m0, cdflomax(x, alpha, m0) equals P(sqrt(m0)*(sqrt(1-alpha^2)*Z + alpha*R) <= x) for independent standard normal Z and Rayleigh R, and is non-decreasing in x.", "quantifier": "all real x, all alpha in (-1,1), all m0 > 0", "why_tests_cant": "tests compare a few numbers with stored values; that the closed formula is a distribution function of the stated law holds for a continuum of inputs", "anchors": ["src/wafo/gaussian.py:400-455"]}
{"id": "C228", "title": "cdfnorm2d below 0.925: the only error is that of the quadrature rule", "statement": "For |r| < 0.925 the value of cdfnorm2d(b1, b2, r) differs from P(X1 <= b1, X2 <= b2) by exactly arcsin(r)/(4 pi) times the error of the chosen Gauss-Legendre rule on the arc integral; for r = 0 it is the exact product of the marginals.", "quantifier": "all real b1, b2, all r with |r| < 0.925", "why_tests_cant": "the identity behind the formula (Plackett's) is about all limits and correlations; tests see sample points only", "anchors": ["src/wafo/gaussian.py:815-854"]}
{"id": "C229", "title": "cdfnorm2d at and beyond perfect correlation", "statement": "For r = 1 and r = -1 cdfnorm2d returns the exact probability (Phi(min(b1,b2)) and max(0, Phi(b1)-Phi(-b2))); for |r| > 1 every element is nan.", "quantifier": "all real b1, b2 and all r with |r| >= 1", "why_tests_cant": "limits are continuous; tests check few values and no invalid correlation", "anchors": ["src/wafo/gaussian.py:810-820", "src/wafo/gaussian.py:856-918"]}
{"id": "C230", "title": "cdfnorm2d from 0.925 on: series part and cut-offs are right", "statement": "For 0.925 <= |r| < 1 the value of cdfnorm2d differs from the probability by at most 1/(2 pi) times the error of the 20 point rule on the remainder integral plus 1e-20: the part integrated in closed form and the terms dropped at exponents beyond 100 are accounted for.", "quantifier": "all real b1, b2, all r with 0.925 <= |r| < 1", "why_tests_cant": "an error bound over all limits and correlations", "anchors": ["src/wafo/gaussian.py:856-918"]}
{"id": "C231", "title": "cdfnorm2d respects exchange and reflection", "statement": "cdfnorm2d(b1, b2, r) = cdfnorm2d(b2, b1, r), and cdfnorm2d(b1, b2, r) + cdfnorm2d(b1, -b2, -r) = Phi(b1), as for the probabilities.", "quantifier": "all real b1, b2 and r with |r| <= 1", "why_tests_cant": "an identity between calls for all inputs; it fails for correlations between 0.3 and 0.925 in magnitude where the documented error is 1e-15", "anchors": ["src/wafo/gaussian.py:826-851"]}
{"id": "C232", "title": "cdfnorm2d treats arrays element by element", "statement": "Element i of cdfnorm2d on arrays equals the scalar call on the elements i; in particular one correlation may be given for all points.", "quantifier": "all lengths, all arrays of limits and correlations", "why_tests_cant": "all array contents; the tests use one correlation for all elements", "anchors": ["src/wafo/gaussian.py:815-818", "src/wafo/gaussian.py:903-918"]}
{"id": "C233", "title": "prbnorm2d is the probability of the rectangle", "statement": "With an exact bivariate distribution function, prbnorm2d(a, b, r) is P(a1 <= X1 <= b1, a2 <= X2 <= b2), for limits that are infinite or below 37 in magnitude.", "quantifier": "all limits, finite or infinite, and all r", "why_tests_cant": "the case distinction over infinite limits has sixteen branches and continuous limits; tests check one rectangle", "anchors": ["src/wafo/gaussian.py:924-995"]}
{"id": "C234", "title": "The Gauss-Legendre tables of cdfnorm2d are right", "statement": "The 6, 12 and 20 point tables integrate every polynomial of degree below 12, 24 and 40 over [-1,1] up to 1.5e-15, 2.5e-16 and 1e-16 times the sum of the coefficients' magnitudes; weights are positive and nodes inside the interval.", "quantifier": "all real polynomials of the degree", "why_tests_cant": "a statement about all polynomials; a wrong digit would hide in sample checks", "anchors": ["src/wafo/gaussian.py:725-750"]}
{"id": "C235", "title": "Links of the exponential and Weibull distributions recover the fixed parameter", "statement": "Given a quantile x of a fitted expon or weibull_min distribution and the logarithm of its exceedance probability, the link returns, for every parameter index the distribution has, exactly that parameter; for any other index it raises IndexError.", "quantifier": "all parameters, all x in the support", "why_tests_cant": "recovery for all real parameters is an algebraic identity; the tests profile one sample", "anchors": ["src/wafo/stats/estimation.py:82-112", "src/wafo/stats/estimation.py:742-775"]}
{"id": "C236", "title": "Links of the generalised Pareto and extreme value distributions recover the fixed parameter", "statement": "Given x and log sf(x) of a fitted genpareto, genextreme or gumbel_r distribution, the link returns exactly the parameter with the given index.", "quantifier": "all parameters, all x in the support", "why_tests_cant": "an algebraic identity for all real parameters; the location branches are wrong or unreachable and no test profiles with i the location", "anchors": ["src/wafo/stats/estimation.py:130-172"]}
{"id": "C237", "title": "Links of the Rayleigh distributions recover the fixed parameter", "statement": "Given x and log sf(x) of a fitted rayleigh or truncrayleigh distribution, the link registered for the distribution's name returns exactly the parameter with the given index.", "quantifier": "all parameters, all x in the support", "why_tests_cant": "identity for all reals; one formula lacks parentheses and one registered name is misspelt, and no test asks for either", "anchors": ["src/wafo/stats/estimation.py:188-218"]}
{"id": "C238", "title": "Links of the Burr, exponentiated Weibull and generalised exponential distributions recover the fixed parameter", "statement": "Given x and log sf(x) of a fitted burr, exponweib or genexpon distribution, the link returns exactly the parameter with the given index.", "quantifier": "all parameters, all x in the support", "why_tests_cant": "identity for all reals; most branches confuse the distribution function with the survival function and no test reaches them", "anchors": ["src/wafo/stats/estimation.py:67-79", "src/wafo/stats/estimation.py:115-127", "src/wafo/stats/estimation.py:175-185"]}
{"id": "C239", "title": "A profile fixes one free parameter and lets the other free ones vary", "statement": "A profile for index i is set up if and only if i is a parameter that was estimated; it keeps i fixed and varies exactly the other estimated parameters. Without an index the first estimated parameter is profiled.", "quantifier": "all numbers of parameters, all sets of fixed parameters, all indexes", "why_tests_cant": "all subsets of fixed parameters; the tests fix at most the location", "anchors": ["src/wafo/stats/estimation.py:276-307", "src/wafo/stats/estimation.py:606-613"]}
{"id": "C240", "title": "The search for the limits of a profile ends and brackets", "statement": "The search makes at most 51 steps; when it reports convergence the limit is on the requested side of the estimate and the profile there is below the crossing level by a bounded amount; otherwise the limit is the initial guess or an evaluated point near the level.", "quantifier": "all profile functions, also with nan values and with a maximum that grows during the search", "why_tests_cant": "the optimiser may return anything; tests follow well-behaved samples only", "anchors": ["src/wafo/stats/estimation.py:454-492"]}
{"id": "C241", "title": "A profile is evaluated outwards until it is below the level", "statement": "The points of a profile are grid points in grid order with the values found there; without nan values they are an unbroken stretch around the first point at or beyond the estimate, ending at the ends of the grid or at the first point whose profile is more than alpha_range below.", "quantifier": "all grids, all profile functions", "why_tests_cant": "all sequences of optimiser results", "anchors": ["src/wafo/stats/estimation.py:356-389"]}
{"id": "C242", "title": "Confidence bounds enclose exactly what is above the level", "statement": "If the profile is below the crossing level at both ends and above it somewhere, get_bounds returns lo < hi on the polygon through the computed points at the level, and every computed point above the level lies strictly between. With one crossing the other bound is the limit of the profile, with none both are.", "quantifier": "all profiles of any length, including points on the level and several crossings", "why_tests_cant": "all shapes of profiles; tests see one or two unimodal ones", "anchors": ["src/wafo/stats/estimation.py:507-539"]}
{"id": "C243", "title": "The grid of a profile spans its limits", "statement": "The adaptive grid is strictly increasing, contains both limits and the estimate, stays between the limits and has at most n points.", "quantifier": "all n, all limits around the estimate", "why_tests_cant": "all n; tests use the default 100", "anchors": ["src/wafo/stats/estimation.py:434-444", "src/wafo/stats/estimation.py:616-617"]}
{"id": "C244", "title": "Hessian and covariance of a fit", "statement": "The numerical Hessian is symmetric, its entries are central differences at the estimate, and it is exact for quadratic functions for any step; the covariance of fixed parameters with all others is zero and that of the free ones is the negative pseudoinverse of their block, the inverse information matrix for quadratic functions.", "quantifier": "all functions, all dimensions, all sets of fixed parameters", "why_tests_cant": "all functions and dimensions; the loops change one vector in place and a wrong reset shows only with three or more parameters", "anchors": ["src/wafo/stats/estimation.py:1214-1261", "src/wafo/stats/estimation.py:1293-1320"]}
{"id": "C245", "title": "The outline of a histogram has the area of the histogram", "statement": "_staircase returns as many abscissae as ordinates, starts and ends on the axis, and the area under the polygon is the sum of width times height of the bars.", "quantifier": "all numbers of bars, all edges and heights", "why_tests_cant": "all lengths; the plot is not tested", "anchors": ["src/wafo/stats/estimation.py:1528-1536"]}
{"id": "C246", "title": "The grid of the empirical density covers the data with round steps", "statement": "For data that are not all equal, the grid has a step of 1, 2 or 5 times a power of ten between a third of 2*range/n and 2*range/n, starts below the smallest and ends at or above the largest observation, and has fewer than 3n/2 + 5 points; equal data raise ValueError.", "quantifier": "all data", "why_tests_cant": "rounding to decimal steps for all real ranges; the plot is not tested", "anchors": ["src/wafo/stats/estimation.py:1511-1526"]}
{"id": "C247", "title": "Parameters fixed in a fit stay fixed", "statement": "Parameters given as f0/fa/fix_a, floc or fscale are fixed at the given value, in every evaluation; the others start at their starting values and the optimiser's vector fills them in order. Naming a parameter twice or fixing all is a ValueError, None means not fixed.", "quantifier": "all numbers of parameters, all subsets and spellings, all vectors", "why_tests_cant": "all subsets; tests fix one parameter at a time", "anchors": ["src/wafo/stats/_distn_infrastructure.py:191-272"]}
{"id": "C248", "title": "Moran's statistic is bounded below and the same from both tails", "statement": "The negative log product spacings of sorted data are at least m log(m/(1+m eps)) with m one more than the number of observations in the support, plus the penalty for each observation outside, with equality for equal spacings; computing from the distribution or the survival function gives the same.", "quantifier": "all sorted data, all distribution functions", "why_tests_cant": "a convexity bound over all distributions; tests compare one fit", "anchors": ["src/wafo/stats/_distn_infrastructure.py:72-114"]}
{"id": "C249", "title": "Product spacing fits do not depend on origin or unit", "statement": "Shifting data and location, or for distinct data changing the unit of data, location and scale, leaves the product spacing criterion unchanged; invalid parameters give inf.", "quantifier": "all data, parameters and distributions", "why_tests_cant": "an identity between two calls for all inputs", "anchors": ["src/wafo/stats/_distn_infrastructure.py:117-156"]}
{"id": "C250", "title": "Confidence intervals come one row per quantile", "statement": "ci_quantile and ci_logsf return one row per parameter in order, the bounds of its own profile, or nan if that profile fails; the default index suits the distribution.", "quantifier": "all parameters and profilers", "why_tests_cant": "any profile may fail; the exception handler hides that the default index 2 never works for two-parameter distributions", "anchors": ["src/wafo/stats/estimation.py:1386-1411"]}
{"id": "C251", "title": "Exponential, Weibull, Rayleigh and related distributions: density, distribution function and quantiles agree", "statement": "For expon, weibull_min, weibull_max, exponweib, exponpow, rayleigh, truncrayleigh, gompertz, invweibull, truncexpon and genexpon, the density is non-negative with integral one over the support, cdf(x) is the integral of the density up to x and the integral beyond x is 1 - cdf(x); ppf and cdf are inverse to each other on the open support and (0,1); sf, isf, logpdf, logcdf, logsf, where defined by the class, are the complement, the complementary quantile and the logarithms.", "quantifier": "all valid shape parameters, all x in the support, all probabilities in (0,1)", "why_tests_cant": "each method is a separate hand-written formula; that one is the integral or the inverse of another for all parameters cannot be settled by sample values", "anchors": ["src/wafo/stats/_continuous_distns.py:1487-1800", "src/wafo/stats/_continuous_distns.py:2053-2200", "src/wafo/stats/_continuous_distns.py:2627-2672", "src/wafo/stats/_continuous_distns.py:3190-3230", "src/wafo/stats/_continuous_distns.py:4072-4125", "src/wafo/stats/_continuous_distns.py:6582-6712", "src/wafo/stats/_continuous_distns.py:7180-7240"]}
{"id": "C252", "title": "Extreme value and generalised Pareto distributions: density, distribution function and quantiles agree", "statement": "For gumbel_r, gumbel_l, genpareto and genextreme, for every real shape parameter including zero and on the support that depends on it, cdf is the integral of the density, which has total integral one; ppf inverts cdf; sf, isf, logpdf, logcdf, logsf are the complement, complementary quantile and logarithms.", "quantifier": "all real shape parameters, all x in the support", "why_tests_cant": "the formulas switch at zero and the support changes with the sign of the shape; the integrals are over unbounded sets", "anchors": ["src/wafo/stats/_continuous_distns.py:2495-2625", "src/wafo/stats/_continuous_distns.py:2674-2820", "src/wafo/stats/_continuous_distns.py:3232-3340"]}
{"id": "C253", "title": "Power-law distributions: density, distribution function and quantiles agree", "statement": "For uniform, pareto, lomax, powerlaw, reciprocal, bradford, burr, fisk, burr12, mielke and kappa3, cdf is the integral of the density, which has total integral one; ppf inverts cdf; sf, isf and the logarithms agree.", "quantifier": "all valid shape parameters, all x in the support", "why_tests_cant": "identities between separate formulas for all parameters", "anchors": ["src/wafo/stats/_continuous_distns.py:825-1145", "src/wafo/stats/_continuous_distns.py:5260-5318", "src/wafo/stats/_continuous_distns.py:5577-5630", "src/wafo/stats/_continuous_distns.py:6119-6240", "src/wafo/stats/_continuous_distns.py:6389-6440", "src/wafo/stats/_continuous_distns.py:6715-6800", "src/wafo/stats/_continuous_distns.py:7598-7630"]}
{"id": "C254", "title": "Logistic and Laplace distributions: density, distribution function and quantiles agree", "statement": "For logistic, genlogistic, halflogistic, genhalflogistic, hypsecant, laplace and loglaplace, cdf is the integral of the density, which has total integral one; ppf inverts cdf; sf, isf and the logarithms agree.", "quantifier": "all valid shape parameters, all x in the support", "why_tests_cant": "identities between separate formulas for all parameters", "anchors": ["src/wafo/stats/_continuous_distns.py:2444-2492", "src/wafo/stats/_continuous_distns.py:3137-3188", "src/wafo/stats/_continuous_distns.py:3387-3440", "src/wafo/stats/_continuous_distns.py:3491-3530", "src/wafo/stats/_continuous_distns.py:4222-4262", "src/wafo/stats/_continuous_distns.py:4842-4895", "src/wafo/stats/_continuous_distns.py:4946-4995"]}
{"id": "C255", "title": "Distributions from trigonometric functions: density, distribution function and quantiles agree", "statement": "For anglit, arcsine, cosine, cauchy, halfcauchy, foldcauchy and semicircular, cdf is the integral of the density, which has total integral one; ppf, where defined, inverts cdf; sf and isf agree.", "quantifier": "all valid shape parameters, all x in the support", "why_tests_cant": "identities between separate formulas; the arcsine density is unbounded", "anchors": ["src/wafo/stats/_continuous_distns.py:443-525", "src/wafo/stats/_continuous_distns.py:1150-1200", "src/wafo/stats/_continuous_distns.py:1330-1366", "src/wafo/stats/_continuous_distns.py:1856-1895", "src/wafo/stats/_continuous_distns.py:3344-3384", "src/wafo/stats/_continuous_distns.py:6915-6972"]}
{"id": "C256", "title": "Piecewise distributions: density, distribution function and quantiles agree", "statement": "For triang, trapz and dweibull, cdf is the integral of the density, which has total integral one, also when one of the pieces is empty (c = 0, c = 1, c = d, d = 1); ppf inverts cdf across the pieces.", "quantifier": "all valid shape parameters including the ends of the allowed range, all x in the support", "why_tests_cant": "the pieces must meet for all parameters; the edge cases divide by zero in the piece that is not used", "anchors": ["src/wafo/stats/_continuous_distns.py:1426-1484", "src/wafo/stats/_continuous_distns.py:7049-7178"]}
{"id": "C257", "title": "The kappa distribution: density, distribution function and quantiles agree", "statement": "For kappa4 and every real h and k, on the support given by _get_support, cdf is the integral of the density, which has total integral one; logpdf and logcdf are the logarithms; ppf inverts cdf.", "quantifier": "all real h and k, all x in the support", "why_tests_cant": "four formulas times six kinds of support", "anchors": ["src/wafo/stats/_continuous_distns.py:5321-5575"]}
{"id": "C258", "title": "Gamma, chi, Nakagami and related distributions: density, distribution function and quantiles agree", "statement": "For gamma, chi2, chi, maxwell, nakagami, gengamma (also with negative shape), invgamma, halfgennorm, dgamma and gennorm, cdf is the integral of the density, which has total integral one; ppf inverts cdf; sf, isf and the logarithms agree.", "quantifier": "all valid shape parameters, all x in the support", "why_tests_cant": "identities between separate formulas for all parameters; scale factors inside the incomplete gamma function cannot be settled by samples", "anchors": ["src/wafo/stats/_continuous_distns.py:1207-1330", "src/wafo/stats/_continuous_distns.py:1365-1425", "src/wafo/stats/_continuous_distns.py:2836-3140", "src/wafo/stats/_continuous_distns.py:3590-3640", "src/wafo/stats/_continuous_distns.py:5205-5260", "src/wafo/stats/_continuous_distns.py:5720-5770", "src/wafo/stats/_continuous_distns.py:7940-8070"]}
{"id": "C259", "title": "Random numbers have the density of their class", "statement": "If the underlying draws are uniform, chi-square, gamma, Weibull, Cauchy or normal numbers, the numbers returned by _rvs have exactly the density of the class: chi from chi-square, maxwell and rayleigh from chi, dgamma and dweibull with a random sign, foldcauchy by the absolute value, semicircular from two uniform draws; and ppf of a uniform number has the density of every distribution whose functions fit together.", "quantifier": "all shape parameters, all events", "why_tests_cant": "equality of distributions; samples can only be tested statistically", "anchors": ["src/wafo/stats/_continuous_distns.py:1233-1235", "src/wafo/stats/_continuous_distns.py:1391-1395", "src/wafo/stats/_continuous_distns.py:1448-1452", "src/wafo/stats/_continuous_distns.py:1876-1878", "src/wafo/stats/_continuous_distns.py:5233-5234", "src/wafo/stats/_continuous_distns.py:6606-6607", "src/wafo/stats/_continuous_distns.py:6958-6963"]}
{"id": "C260", "title": "Reported moments of the gamma and Weibull families are those of the density", "statement": "For gamma, chi2, chi, maxwell, rayleigh, nakagami, gengamma, invgamma, weibull_min, weibull_max, dweibull, expon, laplace, dgamma, gennorm and invweibull, mean, variance, skewness and excess kurtosis of _stats and the raw moments of _munp are the integrals over the density; what does not exist is reported as inf or nan.", "quantifier": "all valid shape parameters, all orders of the moments", "why_tests_cant": "equality with an integral for all parameters", "anchors": ["src/wafo/stats/_continuous_distns.py:1253-1259", "src/wafo/stats/_continuous_distns.py:1319-1324", "src/wafo/stats/_continuous_distns.py:1418-1420", "src/wafo/stats/_continuous_distns.py:1473-1481", "src/wafo/stats/_continuous_distns.py:1536-1537", "src/wafo/stats/_continuous_distns.py:2114-2115", "src/wafo/stats/_continuous_distns.py:2185-2191", "src/wafo/stats/_continuous_distns.py:2912-2913", "src/wafo/stats/_continuous_distns.py:3125-3127", "src/wafo/stats/_continuous_distns.py:3622-3636", "src/wafo/stats/_continuous_distns.py:4118-4119", "src/wafo/stats/_continuous_distns.py:4255-4256", "src/wafo/stats/_continuous_distns.py:5246-5251", "src/wafo/stats/_continuous_distns.py:5755-5761", "src/wafo/stats/_continuous_distns.py:6631-6636", "src/wafo/stats/_continuous_distns.py:7994-7996"]}
{"id": "C261", "title": "Reported moments of the power-law and bounded distributions are those of the density", "statement": "For uniform, powerlaw, pareto, lomax, genpareto (also every _munp), reciprocal, bradford, triang, truncexpon, anglit, cosine, arcsine, semicircular, loglaplace, cauchy, halfcauchy and truncrayleigh, mean, variance, skewness, excess kurtosis and raw moments are the integrals over the density; what does not exist is reported as inf or nan.", "quantifier": "all valid shape parameters, all orders of the moments", "why_tests_cant": "equality with an integral for all parameters; truncrayleigh ignores its parameter and loglaplace reports finite numbers for infinite moments", "anchors": ["src/wafo/stats/_continuous_distns.py:473-474", "src/wafo/stats/_continuous_distns.py:513-518", "src/wafo/stats/_continuous_distns.py:857-870", "src/wafo/stats/_continuous_distns.py:1186-1187", "src/wafo/stats/_continuous_distns.py:1358-1359", "src/wafo/stats/_continuous_distns.py:2580-2618", "src/wafo/stats/_continuous_distns.py:3377-3378", "src/wafo/stats/_continuous_distns.py:4988-4989", "src/wafo/stats/_continuous_distns.py:6154-6179", "src/wafo/stats/_continuous_distns.py:6231-6233", "src/wafo/stats/_continuous_distns.py:6429-6433", "src/wafo/stats/_continuous_distns.py:6698-6705", "src/wafo/stats/_continuous_distns.py:6783-6784", "src/wafo/stats/_continuous_distns.py:6965-6966", "src/wafo/stats/_continuous_distns.py:7167-7171", "src/wafo/stats/_continuous_distns.py:7221-7231", "src/wafo/stats/_continuous_distns.py:7622-7623"]}
{"id": "C262", "title": "Reported entropies are the differential entropies of the densities", "statement": "For every shape parameter the class admits, entropy() of expon, weibull_min, weibull_max, invweibull, gumbel_r, gumbel_l, genextreme, rayleigh, uniform, pareto, lomax, genpareto, powerlaw, fisk, logistic, halflogistic, genhalflogistic, gamma, gengamma, invgamma, halfgennorm, gennorm, maxwell, anglit, cosine, cauchy, halfcauchy, hypsecant, reciprocal, bradford, truncexpon, laplace, loglaplace, triang and gompertz is the integral of -f log f over the support, which exists. The truncated Rayleigh distribution reports the entropy of the Rayleigh distribution whatever its parameter is.", "quantifier": "all shape parameters admitted by the class", "why_tests_cant": "The entropy is an improper integral of the density, and the formulas hold for a continuum of parameters; a test compares rounded quadratures at some of them.", "anchors": ["src/wafo/stats/_continuous_distns.py:1142-1143", "src/wafo/stats/_continuous_distns.py:2117-2118", "src/wafo/stats/_continuous_distns.py:2814-2815", "src/wafo/stats/_continuous_distns.py:2915-2916", "src/wafo/stats/_continuous_distns.py:3129-3131", "src/wafo/stats/_continuous_distns.py:3225-3226", "src/wafo/stats/_continuous_distns.py:5253-5254", "src/wafo/stats/_continuous_distns.py:6707-6709", "src/wafo/stats/_continuous_distns.py:7173-7174", "src/wafo/stats/_continuous_distns.py:7998-7999"]}
{"id": "C263", "title": "Density, distribution function and quantiles of the normal family agree", "statement": "For norm, lognorm, gilbrat, halfnorm, foldnorm, alpha, fatiguelife, johnsonsb, johnsonsu, levy, levy_l, moyal, powernorm, powerlognorm, invgauss, recipinvgauss, exponnorm, crystalball and skewnorm the density is nonnegative with integral one, cdf(x) is the area under pdf up to x, sf is 1 - cdf, ppf and isf (where the class defines them) are the inverses of cdf and sf on (0, 1), and the log functions are logarithms of the functions they are named after.", "quantifier": "all shape parameters admitted by the class, all points inside the support, all probabilities in (0, 1)", "why_tests_cant": "The formulas are written independently of each other, and the statement is about improper integrals and inverses for a continuum of parameters; a test compares rounded numbers at some points.", "anchors": ["src/wafo/stats/_continuous_distns.py:251-280", "src/wafo/stats/_continuous_distns.py:309-332", "src/wafo/stats/_continuous_distns.py:423-434", "src/wafo/stats/_continuous_distns.py:1633-1656", "src/wafo/stats/_continuous_distns.py:1822-1836", "src/wafo/stats/_continuous_distns.py:2023-2028", "src/wafo/stats/_continuous_distns.py:3465-3476", "src/wafo/stats/_continuous_distns.py:3678-3691", "src/wafo/stats/_continuous_distns.py:4160-4169", "src/wafo/stats/_continuous_distns.py:4205-4216", "src/wafo/stats/_continuous_distns.py:4294-4305", "src/wafo/stats/_continuous_distns.py:4342-4353", "src/wafo/stats/_continuous_distns.py:5038-5058", "src/wafo/stats/_continuous_distns.py:5174-5185", "src/wafo/stats/_continuous_distns.py:5678-5688", "src/wafo/stats/_continuous_distns.py:6468-6478", "src/wafo/stats/_continuous_distns.py:6507-6518", "src/wafo/stats/_continuous_distns.py:6894-6906", "src/wafo/stats/_continuous_distns.py:7004-7021", "src/wafo/stats/_continuous_distns.py:8107-8179"]}
{"id": "C264", "title": "Draws of the normal family have the density of the distribution", "statement": "For norm, lognorm, gilbrat, foldnorm, halfnorm, fatiguelife, recipinvgauss, moyal, exponnorm and skewnorm, `_rvs` returns a function of independent basic draws (standard normal, exponential, gamma, Wald) whose law is the one with density `_pdf` on the support, no mass elsewhere.", "quantifier": "all admissible shape parameters; exact laws of the basic draws", "why_tests_cant": "A sampling test compares finitely many draws with a tolerance; a wrong density that is close, or a wrong law for other shape parameters, passes.", "anchors": ["src/wafo/stats/_continuous_distns.py:306-307", "src/wafo/stats/_continuous_distns.py:1628-1631", "src/wafo/stats/_continuous_distns.py:1815-1820", "src/wafo/stats/_continuous_distns.py:2020-2021", "src/wafo/stats/_continuous_distns.py:3462-3463", "src/wafo/stats/_continuous_distns.py:5035-5036", "src/wafo/stats/_continuous_distns.py:5171-5172", "src/wafo/stats/_continuous_distns.py:5673-5676", "src/wafo/stats/_continuous_distns.py:6908-6909", "src/wafo/stats/_continuous_distns.py:7023-7028"]}
{"id": "C265", "title": "Moments reported by the normal family are those of the densities", "statement": "Mean, variance, skewness and excess kurtosis from `_stats` of norm, lognorm, gilbrat, foldnorm, halfnorm, fatiguelife, exponnorm, skewnorm and invgauss are the integrals of the density; alpha, levy and levy_l report infinite or undefined statistics exactly because no moment exists; the mean of moyal is log 2 plus Euler's constant.", "quantifier": "all admissible shape parameters", "why_tests_cant": "Numerical integration compares rounded numbers at a few parameters, and cannot show that a moment does not exist.", "anchors": ["src/wafo/stats/_continuous_distns.py:334-335", "src/wafo/stats/_continuous_distns.py:436-437", "src/wafo/stats/_continuous_distns.py:1658-1663", "src/wafo/stats/_continuous_distns.py:1838-1850", "src/wafo/stats/_continuous_distns.py:2030-2047", "src/wafo/stats/_continuous_distns.py:3478-3482", "src/wafo/stats/_continuous_distns.py:3693-3694", "src/wafo/stats/_continuous_distns.py:4307-4308", "src/wafo/stats/_continuous_distns.py:4355-4356", "src/wafo/stats/_continuous_distns.py:5060-5066", "src/wafo/stats/_continuous_distns.py:5187-5193", "src/wafo/stats/_continuous_distns.py:5690-5695", "src/wafo/stats/_continuous_distns.py:7030-7043"]}
{"id": "C266", "title": "Entropies reported by the normal family are those of the densities", "statement": "`_entropy` of norm, halfnorm, lognorm and gilbrat is minus the integral of the density times its logarithm.", "quantifier": "all admissible shape parameters", "why_tests_cant": "Quadrature over an infinite interval at a few parameters is not a proof of the identity.", "anchors": ["src/wafo/stats/_continuous_distns.py:337-338", "src/wafo/stats/_continuous_distns.py:3484-3485", "src/wafo/stats/_continuous_distns.py:5068-5069", "src/wafo/stats/_continuous_distns.py:5195-5196"]}
{"id": "C267", "title": "Logarithms of gamma variables: densities, draws and moments agree", "statement": "For loggamma, cdf is the integral of the density, which has total integral one, ppf inverts cdf, and the logarithm of a gamma draw has that density. Mean, variance, skewness and excess kurtosis reported by loggamma, gumbel_l, gumbel_r, genlogistic, logistic and moyal, and the raw moments reported by moyal and halflogistic, are those of the density.", "quantifier": "all admissible shape parameters, all points of the support", "why_tests_cant": "The reported values are polygamma and zeta values; that they are the improper integrals of powers times the density holds for a continuum of parameters, a test compares rounded numbers at a few.", "anchors": ["src/wafo/stats/_continuous_distns.py:2482-2489", "src/wafo/stats/_continuous_distns.py:3274-3275", "src/wafo/stats/_continuous_distns.py:3333-3335", "src/wafo/stats/_continuous_distns.py:3422-3431", "src/wafo/stats/_continuous_distns.py:4885-4886", "src/wafo/stats/_continuous_distns.py:4920-4940", "src/wafo/stats/_continuous_distns.py:5697-5714"]}
{"id": "C268", "title": "Beta family: density, distribution function and quantiles agree", "statement": "For beta, betaprime, f, t and rdist the density is nonnegative with integral one, cdf(x) is the area under pdf up to x, sf is 1 - cdf, ppf and isf invert cdf and sf where the class defines them, and logpdf is the logarithm of pdf.", "quantifier": "all admissible shape parameters, all points inside the support, all probabilities in (0, 1)", "why_tests_cant": "The formulas go through incomplete beta functions with transformed arguments; a test compares rounded numbers at a few parameters.", "anchors": ["src/wafo/stats/_continuous_distns.py:599-614", "src/wafo/stats/_continuous_distns.py:778-786", "src/wafo/stats/_continuous_distns.py:1921-1941", "src/wafo/stats/_continuous_distns.py:5965-5990", "src/wafo/stats/_continuous_distns.py:6559-6569"]}
{"id": "C269", "title": "Moments reported by the beta family are those of the densities", "statement": "Mean, variance, skewness and excess kurtosis reported by beta, f and t, and the raw moments of betaprime, are those of the density; where inf or nan is reported the moment does not exist.", "quantifier": "all admissible shape parameters", "why_tests_cant": "The formulas change at limits of the shape parameters, where moments cease to exist; no finite number of quadratures shows divergence.", "anchors": ["src/wafo/stats/_continuous_distns.py:616-622", "src/wafo/stats/_continuous_distns.py:800-819", "src/wafo/stats/_continuous_distns.py:1943-1971", "src/wafo/stats/_continuous_distns.py:5992-6003"]}
{"id": "C270", "title": "Burr family, rdist and quotients of gamma variables: moments and draws agree with the densities", "statement": "Raw moments and statistics of burr, fisk, burr12 and rdist are those of the density, and undefined where they do not exist; betaprime draws (a quotient of gamma draws) and rdist draws (a shifted beta draw) have the density of the class; the statistics of hypsecant are those of its density.", "quantifier": "all admissible shape parameters; exact laws of the basic draws", "why_tests_cant": "Existence of moments and equality of laws are statements about a continuum of parameters and infinite tails.", "anchors": ["src/wafo/stats/_continuous_distns.py:772-776", "src/wafo/stats/_continuous_distns.py:973-1000", "src/wafo/stats/_continuous_distns.py:1075-1077", "src/wafo/stats/_continuous_distns.py:1136-1140", "src/wafo/stats/_continuous_distns.py:3521-3522", "src/wafo/stats/_continuous_distns.py:6571-6576"]}
{"id": "C271", "title": "Truncated normal: density, distribution function, quantiles and tails agree", "statement": "For truncnorm with limits a < b, finite or infinite, the density has integral one, cdf and sf are the areas below and above, ppf inverts cdf, and logpdf, logcdf are the logarithms. This also holds when both limits lie more than 30 standard deviations out, where the code changes to logarithmic formulas.", "quantifier": "all limits a < b including infinite ones, all points between, all probabilities in (0, 1)", "why_tests_cant": "There are several branches (limits on either side of zero, far tails, bracketing search for the quantile) which have to agree on a continuum of limits.", "anchors": ["src/wafo/stats/_continuous_distns.py:7256-7363", "src/wafo/stats/_continuous_distns.py:7394-7432", "src/wafo/stats/_continuous_distns.py:7459-7460"]}
{"id": "C272", "title": "Moments reported by truncnorm are those of the density", "statement": "`_munp(n, a, b)`, computed by a recursion, is the n-th raw moment of the density for every n, and `_stats` gives its mean, variance, skewness and excess kurtosis.", "quantifier": "all orders n, all limits a < b including infinite ones", "why_tests_cant": "A recursion for all orders needs induction; boundary terms vanish only at infinite limits.", "anchors": ["src/wafo/stats/_continuous_distns.py:7483-7504", "src/wafo/stats/_continuous_distns.py:7506-7531"]}
{"id": "C273", "title": "A distribution made of a histogram has the density, quantiles, moments and entropy of the histogram", "statement": "rv_histogram(content, bins): cdf is the area under the stepwise density, ppf returns a point with the probability asked for even when bins are empty, raw moments and entropy are those of the density, and the probability of a bin is its relative content; lists whose lengths do not fit are rejected.", "quantifier": "all histograms with increasing bins, nonnegative contents and at least one positive content; all orders of moments", "why_tests_cant": "Needs all numbers of bins, all contents including empty bins, and all orders.", "anchors": ["src/wafo/stats/_continuous_distns.py:8452-8482", "src/wafo/stats/_continuous_distns.py:8484-8500", "src/wafo/stats/_continuous_distns.py:8502-8512"]}
{"id": "C274", "title": "Wrapped Cauchy and Tukey lambda: density, distribution function, quantiles and entropy agree", "statement": "For wrapcauchy and tukeylambda the density has integral one, cdf is the area under the density, ppf inverts cdf, and the entropy is that of the density; the tukeylambda density vanishes beyond 1/lambda for positive lambda.", "quantifier": "all 0 < c < 1 for wrapcauchy; all real lambda for tukeylambda", "why_tests_cant": "The wrapped Cauchy branches glue at pi where the tangent has a pole; Tukey lambda has only a formula for the quantiles.", "anchors": ["src/wafo/stats/_continuous_distns.py:7900-7931", "src/wafo/stats/_continuous_distns.py:7564-7582"]}
{"id": "C275", "title": "Moments reported by genextreme are those of the density", "statement": "`_munp(n, c)` is the n-th raw moment of the density and inf when it does not exist; `_stats(c)` gives mean, variance, skewness and excess kurtosis, inf or nan when they do not exist; for an array of shape parameters the result is that of its elements.", "quantifier": "all real shape parameters c, all orders n, all arrays", "why_tests_cant": "Existence of the moments changes at c = -1/n; near zero the code changes to limit values; arrays mix the cases.", "anchors": ["src/wafo/stats/_continuous_distns.py:2757-2787", "src/wafo/stats/_continuous_distns.py:2807-2812"]}
{"id": "C276", "title": "Moments of the crystal ball distribution", "statement": "crystalball._munp(n, beta, m) is the n-th raw moment of the density _pdf for every order n below m-1, with both the Gaussian part (incomplete gamma function) and the power law tail (binomial sum) accounted for, and is infinite exactly when that moment does not exist. The infinity it returns is positive also for odd orders, where the integral diverges to minus infinity.", "quantifier": "every order n, every beta > 0 and m > 1", "why_tests_cant": "the moments are integrals over the line; a test compares a few orders with quadrature and cannot establish existence", "anchors": ["src/wafo/stats/_continuous_distns.py:8107-8127", "src/wafo/stats/_continuous_distns.py:8181-8205"]}
{"id": "C277", "title": "Probabilities of the Poisson binomial distribution", "statement": "For pbinom(probabilities) the values behind pmf, cdf and sf, obtained from a Fourier transform of the characteristic function in polar form of which only half is computed, are P(X = k), P(X <= k) and P(X > k) for the number X of successes in independent trials with those probabilities, at every point of the support; the constructor refuses exactly the lists with a value outside [0, 1]. The code adds the rounding unit to every probability, so the values add up to more than one.", "quantifier": "every list of probabilities of every length, every point", "why_tests_cant": "the number of outcomes grows exponentially, and the zero of the characteristic function (p = 1/2) is a corner case of the polar form", "anchors": ["src/wafo/stats/distributions.py:262-287", "src/wafo/stats/distributions.py:300-356"]}
{"id": "C278", "title": "Moments of the Poisson binomial distribution", "statement": "pbinom._stats gives the mean, the variance, the skewness and the excess kurtosis of the number of successes in independent trials with the given probabilities.", "quantifier": "every list of probabilities of every length, not all of them 0 or 1 for skewness and kurtosis", "why_tests_cant": "a test can only compare single parameter vectors with enumeration", "anchors": ["src/wafo/stats/distributions.py:291-298"]}
{"id": "C279", "title": "Start values of the generalized Pareto distribution fit the data", "statement": "fit of genpareto starts from shape, location and scale computed by the method of moments: the distribution with the start values has the mean and the variance of the data.", "quantifier": "all data", "why_tests_cant": "Tests fit samples and see the optimum, which the optimizer reaches from many start values; they cannot show that the start values solve the moment equations.", "anchors": ["src/wafo/stats/distributions.py:76-86"]}
{"id": "C280", "title": "Start values of the generalized extreme value distribution fit the data", "statement": "fit of genextreme starts from probability weighted moments: for estimated shapes above -1 the distribution with the start values has the mean of the data, and the expected larger value of two draws is the mean larger value over all pairs of data. The data passed by the caller are left as they are.", "quantifier": "all data of more than two values which are not all equal", "why_tests_cant": "Holds for all data through an integral identity; tests compare a few fits and do not look at the caller's array.", "anchors": ["src/wafo/stats/distributions.py:89-104"]}
{"id": "C281", "title": "Start values of further distributions", "statement": "fit of weibull_min, lognorm, bradford, f, chi and ncx2 starts from values which reproduce moments of the data (or of their logarithms): weibull_min the variance of the logarithm and the mean power, lognorm mean and variance of the logarithm, bradford the mean, f and ncx2 mean and variance, chi the second moment up to rounding; location and scale place all data inside the support.", "quantifier": "all data", "why_tests_cant": "The moment equations hold for all data or not at all; a fit that ends near the optimum does not show which.", "anchors": ["src/wafo/stats/distributions.py:41-73", "src/wafo/stats/distributions.py:107-128"]}
{"id": "C282", "title": "Rainflow matrix of a Markov chain of turning points: block sums are min-max cycles plus excursions", "statement": "For all rates of a Markov chain of turning points, the matrix returned by mctp2rfc satisfies, for every square block which ends at the line where minimum and maximum are equal and for whose corner there is room: the rainflow cycles in the block are the min-max cycles in the block plus the summed rates of all excursions of the chain through the block, with any number of cycles inside. The matrix is zero on and beyond that line, the entries in the first row and column are not negative and take what is left of the maxima and minima, and no equation is singular if every class of minima can be followed by the highest maximum.", "quantifier": "all numbers of levels, all nonnegative rate matrices, all blocks", "why_tests_cant": "the excursion rate is an infinite sum over paths and the statement is about every block of every matrix", "anchors": ["src/wafo/markov.py:449-579"]}
{"id": "C283", "title": "Inverting a rainflow matrix: what the iteration returns", "statement": "The result of iter_ is the start matrix after at most k corrections; all but the last correction moved it by more than epsilon, and with fewer than k corrections the last one moved it by at most epsilon; no entry is negative; every entry is then within epsilon of the wanted rainflow entry or is zero with too large a rainflow entry; an exact nonnegative solution is returned unchanged; the second result is the rainflow matrix of the first.", "quantifier": "all functions fun2rfc, rainflow matrices, start matrices, k and epsilon", "why_tests_cant": "the number of corrections is not bounded and the function is arbitrary", "anchors": ["src/wafo/markov.py:69-122"]}
{"id": "C284", "title": "Markov functions which always fail", "statement": "mctp2tc raises an exception whenever at least three levels are not below and at least two are below the reference level, except for two sizes; it normalises the caller's matrix in place; mc2rfc and iter_mc raise for every matrix.", "quantifier": "all matrices, levels and reference levels", "why_tests_cant": "the tests use the one size for which mctp2tc does not raise", "anchors": ["src/wafo/markov.py:125-153", "src/wafo/markov.py:289-446", "src/wafo/markov.py:582-725"]}
{"id": "C285", "title": "Test matrices for min-max cycles", "statement": "mktestmat returns a normal kernel with deviations lam*s along and s across the diagonal around the centre, zero below the chosen diagonal, and the transposed matrix for max-min cycles; the documentation says that by default the diagonal is zero, which it is not.", "quantifier": "all levels, centres, s, lam not zero, and all numsubzero", "why_tests_cant": "the formula of the documentation contains an inverse matrix and is about all entries", "anchors": ["src/wafo/markov.py:728-810"]}
{"id": "C286", "title": "SmoothSpline returns the function of least cost", "statement": "For three or more points in increasing order, positive variances and any p, SmoothSpline succeeds, and evaluating it gives a twice continuously differentiable function, straight outside the points, for which p times the sum of squared distances from the data over their variances plus (1-p) times the integrated squared second derivative is smaller than for any other twice continuously differentiable function; p=1 gives the interpolating natural spline, p=0 the line of weighted least squares; with lin_extrap the line continues outside, otherwise the value there is 0.", "quantifier": "for all data, variances, p, evaluation points and all competing twice continuously differentiable functions", "why_tests_cant": "the competitors form an infinite-dimensional space; tests compare a few values with stored numbers", "anchors": ["src/wafo/interpolate.py:466-675"]}
{"id": "C287", "title": "The smoothing parameter chosen by default", "statement": "When p is omitted or not in [0, 1], the parameter used is 1/(1 + T/(100 R^2)) with T and R the traces of the two matrices, and it lies strictly between 0 and 1.", "quantifier": "for all points, values and positive variances", "why_tests_cant": "holds for every spacing and all variances", "anchors": ["src/wafo/interpolate.py:583-593", "src/wafo/interpolate.py:660-663"]}
{"id": "C288", "title": "SmoothSpline does not depend on the order in which the data are given", "statement": "For data in any order SmoothSpline returns the spline of the data put in order, each value keeping its variance; for two points it returns the line through them.", "quantifier": "for all permutations of the data and all variances", "why_tests_cant": "the number of orders grows with the number of points; the tests use sorted data and one variance", "anchors": ["src/wafo/interpolate.py:570-581", "src/wafo/interpolate.py:626-644"]}
{"id": "C289", "title": "Cheb1d(ck, a, b) is the series with the coefficients ck", "statement": "Calling Cheb1d(ck, a, b, kind) at x gives chebval(x, ck, a, b, kind) for every list of coefficients, listed from the highest degree.", "quantifier": "for all coefficient lists, limits and points", "why_tests_cant": "the answer depends on where zeros stand in the list; the class has no tests", "anchors": ["src/wafo/polynomial.py:1712-1727"]}
{"id": "C290", "title": "Items of a Cheb1d object", "statement": "c[k] reads the k'th coefficient and 0 outside the order; c[k] = v changes only this coefficient, extends the order if necessary and raises ValueError for negative k; assigning the value that is read changes nothing.", "quantifier": "for all objects, indices and values", "why_tests_cant": "every index and every sequence of assignments is a case", "anchors": ["src/wafo/polynomial.py:1789-1805"]}
{"id": "C291", "title": "A copy of a Cheb1d object is independent of the original", "statement": "Assigning items of Cheb1d(c) or of Cheb1d(array) changes neither c nor the array it was made from.", "quantifier": "for all states of the heap, objects, indices and values", "why_tests_cant": "sharing of memory shows only in sequences of operations on several objects", "anchors": ["src/wafo/polynomial.py:1712-1724", "src/wafo/polynomial.py:1796-1805"]}
{"id": "C292", "title": "Arithmetic of Cheb1d objects", "statement": "-c, c + d, c - d, c.integ() and c.deriv() return the object of the corresponding series, and len(c) is defined for every object.", "quantifier": "for all objects and arguments", "why_tests_cant": "no test calls these methods; the statement is about every argument", "anchors": ["src/wafo/polynomial.py:1740-1781", "src/wafo/polynomial.py:1810-1838"]}
{"id": "C293", "title": "Equality of Cheb1d objects", "statement": "c == d is True exactly when coefficients, limits and kind agree.", "quantifier": "for all pairs of objects", "why_tests_cant": "depends on the lengths of both coefficient lists", "anchors": ["src/wafo/polynomial.py:1771-1774"]}
{"id": "C294", "title": "Ordinal logistic regression evaluates the likelihood of the model", "statement": "RegLogit.loglike returns minus twice the log-likelihood of the cumulative logistic model, with one threshold less than there are observed categories, whatever integers code the categories.", "quantifier": "all integer category vectors, covariate matrices and parameters", "why_tests_cant": "Gaps in the coding and the first and last category are special cases of index arithmetic; a test covers a few codings.", "anchors": ["src/wafo/stats/core.py:941-956", "src/wafo/stats/core.py:1308-1323"]}
{"id": "C295", "title": "Ordinal logistic regression uses the right derivatives", "statement": "The vectors dl and d2l of RegLogit.loglike are the gradient and the matrix of second derivatives of the log-likelihood wherever the observed categories have positive probability.", "quantifier": "all data, parameters and directions", "why_tests_cant": "A difference quotient at a sample of points is only an approximation of the derivative there.", "anchors": ["src/wafo/stats/core.py:1325-1341"]}
{"id": "C296", "title": "A zero of the gradient is a maximum of the likelihood", "statement": "The second derivative is negative semidefinite, and parameters at which RegLogit.loglike returns dl = 0 give the data a likelihood at least as large as any other parameters.", "quantifier": "all data and all pairs of parameters with positive probabilities", "why_tests_cant": "Optimality is a comparison with all other parameters.", "anchors": ["src/wafo/stats/core.py:978-1011", "src/wafo/stats/core.py:1308-1341"]}
{"id": "C297", "title": "Without covariates the fitted probabilities are relative frequencies", "statement": "RegLogit.fit(y) without covariates ends in the first pass, the fitted probability of each category is its relative frequency, and this is the maximum of the likelihood.", "quantifier": "all category vectors, every least squares solver that maps 0 to 0, every accuracy", "why_tests_cant": "Relative frequencies on an example do not show optimality or that the loop always ends at once.", "anchors": ["src/wafo/stats/core.py:951-1011"]}
{"id": "C298", "title": "The damped Newton iteration of the logistic fit takes every step that improves the likelihood", "statement": "A pass of the loop in RegLogit.fit takes the Newton step when it improves the likelihood and shortens it otherwise; start values may be passed for every model.", "quantifier": "all data, states of the loop and start values", "why_tests_cant": "The branch for steps beyond the maximum is not entered by the examples.", "anchors": ["src/wafo/stats/core.py:957-1011"]}
{"id": "C299", "title": "The linear predictor of the logistic fit is the covariates times the coefficients plus the thresholds", "statement": "RegLogit.fit computes eta[i, j] = X[i] . beta + theta[j] for every number of covariates.", "quantifier": "all covariate matrices and coefficients", "why_tests_cant": "Broadcasting gives the right values for one covariate; other numbers are needed to see the difference.", "anchors": ["src/wafo/stats/core.py:1021-1030"]}
{"id": "C300", "title": "Predicted category probabilities are probabilities and lie within their limits", "statement": "RegLogit.predict returns the probabilities of the model, which sum to 1 and are not negative; with fulloutput the limits enclose them and lie between 0 and 1.", "quantifier": "all covariates, coefficients, ordered thresholds and half widths that are not negative", "why_tests_cant": "That the smaller of two shifted differences stays below the middle one for all predictors is an inequality for the logistic function.", "anchors": ["src/wafo/stats/core.py:1261-1305"]}
{"id": "C301", "title": "The variance of the linear predictor is that of the fitted parameters", "statement": "In RegLogit.predict the variance used for the limits is the variance of theta_i + Xnew . beta under params_cov.", "quantifier": "all covariance matrices, covariates and categories", "why_tests_cant": "The difference appears only for three or more categories and is not visible without computing the variance independently.", "anchors": ["src/wafo/stats/core.py:1269-1286"]}
{"id": "C302", "title": "Removing collinear covariates keeps a basis", "statement": "With deletecolinear RegLogit.check_xy removes covariates that are linear combinations of others, so that those kept are independent and span the same space.", "quantifier": "all covariate matrices", "why_tests_cant": "With the dependent column at the end the result is right by chance.", "anchors": ["src/wafo/stats/core.py:890-909"]}
{"id": "C303", "title": "padefitlsq reproduces rational functions", "statement": "If fun is P/Q with P and Q without common factor, of degrees at most m and k with one of these attained, Q(0) = 1 and Q not zero at the points used, and the singular value decomposition is exact, then the coefficients that padefitlsq(fun, m, k, a, b) returns are those of P and Q.", "quantifier": "all orders, intervals with a != b, both point sets, all such P and Q and all exact decompositions", "why_tests_cant": "Tests fit exp on one interval; whether a later reweighted pass can replace the exact pair by a wrong one depends on every possible decomposition of a zero matrix.", "anchors": ["src/wafo/polynomial.py:1908-2056"]}
{"id": "C304", "title": "padefitlsq returns the best of its passes", "statement": "The pair returned is one of the five found by reweighting, and none of the five with a denominator that vanishes at no point has a smaller maximal deviation from the data.", "quantifier": "all data, points, orders and decompositions", "why_tests_cant": "The maximum is Python's max, which skips or propagates nan depending on its position; the choice has to be checked for every sequence of deviations.", "anchors": ["src/wafo/polynomial.py:2011-2056"]}
{"id": "C305", "title": "padefitlsq with arrays of values", "statement": "padefitlsq(fs, m, k, x=x) accepts values at more than 8(m+k+1) points, as documented. (Refuted: every such call raises ValueError; only exactly 8(m+k+1) values work.)", "quantifier": "all arrays of values and points", "why_tests_cant": "The doctests only pass callables; the failure is for every length but one.", "anchors": ["src/wafo/polynomial.py:1914-1934", "src/wafo/polynomial.py:1984-2037"]}
{"id": "C306", "title": "padefit is the Pade approximant of the polynomial", "statement": "padefit(c, m) returns p and q of degrees at most len(c)-1-m and m with polyval(c, x) q(x) - p(x) divisible by x^len(c), for every order m with default (len(c)-1)/2. (Refuted for m = 0 and for the default order of poly1d objects.)", "quantifier": "all coefficient lists and orders", "why_tests_cant": "Tests fit one list with one order; the order in which coefficients are reversed and the default matter for all.", "anchors": ["src/wafo/polynomial.py:1841-1898"]}
{"id": "C307", "title": "TrData is increasing in both directions", "statement": "For increasing data and args, TrData(data, args).dat2gauss and gauss2dat are increasing, map the range of one table into that of the other and reproduce the tables. (Monotone between the end points; tables that are not equidistant are not reproduced, and above the table values depend on the other points asked for.)", "quantifier": "all increasing tables and all vectors of points", "why_tests_cant": "Tests use a linear transformation on an equidistant table; monotonicity concerns every table and every pair of points.", "anchors": ["src/wafo/transform/core.py:203-207", "src/wafo/misc.py:2485-2617"]}
{"id": "C308", "title": "TrData recognises a linear transformation", "statement": "For x = mean + sigma y on an equidistant table containing ymean and ymean +- ysigma, TrData finds mean + sigma ymean and sigma ysigma, transforms exactly in both directions inside the table and has distance 0 to the Gaussian model.", "quantifier": "all linear transformations, table sizes and points inside the table", "why_tests_cant": "The docstring shows one table of 50 points.", "anchors": ["src/wafo/transform/core.py:79-83", "src/wafo/transform/core.py:177-207"]}
{"id": "C309", "title": "qlevels2 encloses p per cent of the data", "statement": "qlevels2(data, p, method) returns a level with more than p/100 (n-1) of the n data at or above it and fewer than p/100 (n-1) + 1 above it, for all four methods.", "quantifier": "all non-empty data, percentages and methods", "why_tests_cant": "Ties, rounding of the position and the four methods have to be combined for every sample size.", "anchors": ["src/wafo/kdetools/kernels.py:146-196"]}
{"id": "C310", "title": "Positions documented for qlevels2", "statement": "With F = 1 - p/100 the level is X[k] at F = k/(n-1), (k+0.5)/n, (k+1)/n and k/n for methods 1 to 4. (Refuted for method 2.)", "quantifier": "all data and positions k", "why_tests_cant": "The positions are a claim for every n and k; the doctest compares rounded quantiles of a random sample.", "anchors": ["src/wafo/kdetools/kernels.py:153-160", "src/wafo/kdetools/kernels.py:192-196"]}
{"id": "C311", "title": "Levels of qlevels decrease with the percentage", "statement": "qlevels(pdf, p, xi) returns levels within the values of pdf that decrease as p increases, and the level of one percentage does not depend on the others. (Holds between the share of the largest cell and 100 n/(n+1.5e-8); refuted outside.)", "quantifier": "all positive densities, abscissae and lists of percentages", "why_tests_cant": "Every combination of percentages and densities; the doctest has 2001 points, so that no cell has a share near 10 per cent.", "anchors": ["src/wafo/kdetools/kernels.py:46-143", "src/wafo/misc.py:2485-2617"]}
{"id": "C312", "title": "qlevels for a density on a single point", "statement": "qlevels returns a level for every density with positive mass. (Refuted: a density on a single point raises ZeroDivisionError for all percentages.)", "quantifier": "all values and percentages", "why_tests_cant": "No test has a density on one point.", "anchors": ["src/wafo/kdetools/kernels.py:115-143"]}
{"id": "C313", "title": "Second order wave: what disufq accumulates", "statement": "The Fourier sum of the result of disufq is, for each case and each phase, the second order wave: the double sum over all ordered pairs of components with the sum and difference frequency transfer functions, -|k1-k2|/2 and (k1+k2)/2 above depth 10000 and the finite depth functions below.", "quantifier": "all amplitudes, numbers of cases, frequencies and index limits, and all phases", "why_tests_cant": "The triangular loop with doubled weights and flat indices equals the full double sum for every size; a test compares one array with stored numbers.", "anchors": ["src/wafo/_misc_numba.py:254-433", "src/wafo/_misc_numba.py:436-471"]}
{"id": "C314", "title": "Memory written by disufq", "statement": "disufq writes inside its arrays exactly when 2*nmax <= n+1; nmax up to n, as documented, writes outside.", "quantifier": "all sizes and limits", "why_tests_cant": "An out of bounds write of compiled code need not show in a test, and depends on the sizes only.", "anchors": ["src/wafo/_misc_numba.py:281-300", "src/wafo/_misc_numba.py:323-357", "src/wafo/_misc_numba.py:370-433", "src/wafo/_misc_numba.py:450-456"]}
{"id": "C315", "title": "Diagonal of the finite depth transfer functions", "statement": "The factor of the sum frequencies on the diagonal is the formula for pairs at equal components, and the factor of the difference frequencies is its limit along the dispersion relation.", "quantifier": "all gravity, depth and wavenumbers with k*h < 300", "why_tests_cant": "A limit 0/0 cannot be evaluated by a test.", "anchors": ["src/wafo/_misc_numba.py:263-278", "src/wafo/_misc_numba.py:307-320"]}
{"id": "C316", "title": "Deep water limit of disufq", "statement": "With growing depth the finite depth factors tend to the factors used above depth 10000.", "quantifier": "all pairs of frequencies with w**2 = g*k", "why_tests_cant": "A limit; tests compare two depths at single frequencies.", "anchors": ["src/wafo/_misc_numba.py:263-320", "src/wafo/_misc_numba.py:374", "src/wafo/_misc_numba.py:395-396", "src/wafo/_misc_numba.py:467"]}
{"id": "C317", "title": "qtf agrees with the simulation", "statement": "The tables of qtf are half the factors used by disufq: both tables for infinite depth, the diagonal of the difference frequencies, and the difference frequencies of method langley.", "quantifier": "all frequencies, wavenumbers and depths with nonzero denominators", "why_tests_cant": "The two are written in different forms; only an identity shows they are the same function.", "anchors": ["src/wafo/spectrum/core.py:170-175", "src/wafo/spectrum/core.py:205-213", "src/wafo/spectrum/core.py:239-248"]}
{"id": "C318", "title": "Default method of qtf in finite depth", "statement": "The tables of method winterstein tend to those for infinite depth as the depth grows, and do not depend on the unit of length. (Refuted: the depth stands outside tanh, the difference frequencies get the wrong sign for every pair; right only at depth one.)", "quantifier": "all pairs of frequencies and depths", "why_tests_cant": "The doctest stores the wrong limit as expected value.", "anchors": ["src/wafo/spectrum/core.py:216-229"]}
{"id": "C319", "title": "Sum frequencies of method langley", "statement": "The sum frequencies of method langley are symmetric in the two components and agree with the simulation. (Refuted: g*2 for g**2 makes every entry wrong unless g = 2.)", "quantifier": "all pairs of frequencies, depths and gravity", "why_tests_cant": "No test runs the method; an error term for all entries is not a test result.", "anchors": ["src/wafo/spectrum/core.py:194-203"]}
{"id": "C320", "title": "A regular wave gets Stokes' second order wave", "statement": "For one component with amplitude a, disufq returns k a^2/2 cos(2 psi) in deep water and k a^2 (3-s^2)/(4 s^3) cos(2 psi), s = tanh(kh), plus a constant that lowers the mean level in finite depth.", "quantifier": "all amplitudes, phases, wavenumbers, depths and gravity", "why_tests_cant": "Stokes' expansion is a closed form for all parameters; the test stores one array.", "anchors": ["src/wafo/_misc_numba.py:254-433", "src/wafo/spectrum/core.py:2909-2945"]}
{"id": "C321", "title": "Components in the second order simulation", "statement": "sim_nl applies the second order correction to the components within its frequency limits. (Refuted: every index is one too low; the largest component is never used, one below the lower limit is, and possibly frequency zero.)", "quantifier": "all spectra, grids and limits", "why_tests_cant": "A shift by one index changes a random simulation only slightly; no test can tell it from noise.", "anchors": ["src/wafo/spectrum/core.py:2892-2900", "src/wafo/spectrum/core.py:2964-2965", "src/wafo/spectrum/core.py:2985-3000"]}
{"id": "C322", "title": "Moments of second order waves in deep water", "statement": "In infinite depth stats_nl returns mean 0, a skewness that is not negative and kurtosis 3 + (4 skew/3)^2.", "quantifier": "all nonnegative spectra on increasing grids", "why_tests_cant": "A sign for all spectra.", "anchors": ["src/wafo/spectrum/core.py:3095-3132"]}
{"id": "C323", "title": "Options of stats_nl", "statement": "The moments come in the order mvsk whatever the order of the letters, and both documented methods work. (Refuted: 'eigenvalue' raises ValueError.)", "quantifier": "all spectra and letters", "why_tests_cant": "The order is a claim for all strings; no test uses the second method.", "anchors": ["src/wafo/spectrum/core.py:3018-3025", "src/wafo/spectrum/core.py:3120-3132"]}
{"id": "C324", "title": "The Kalman gain is the best possible gain", "statement": "In wafo.sg_filter.Kalman the gain computed from a covariance P and a positive definite R exists, the stored covariance P - KHP is the covariance of the error of the updated estimate, and for every other gain the error covariance is at least as large in every direction (so also in trace); an observation never increases the uncertainty.", "quantifier": "all sizes, observation matrices, positive semidefinite P, positive definite R, all competing gains", "why_tests_cant": "Optimality over all gains and all covariances is a universally quantified matrix inequality; a test compares a few numbers.", "anchors": ["src/wafo/sg_filter/_core.py:1020-1034"]}
{"id": "C325", "title": "The covariance attribute of Kalman stays a covariance", "statement": "Starting with positive semidefinite P and Q and positive definite R, no call fails for want of an inverse and the attribute P is symmetric positive semidefinite after every call, for any observations and controls.", "quantifier": "all systems, all lists of observations and controls", "why_tests_cant": "An invariant over all executions of any length.", "anchors": ["src/wafo/sg_filter/_core.py:1013-1050"]}
{"id": "C326", "title": "Kalman follows a noise free system exactly", "statement": "Started at the true state and fed with observations without error, the filter returns the true states whatever A, B, H, Q, R and P it was told.", "quantifier": "all systems, controls and lengths", "why_tests_cant": "Quantifies over all systems and all sequences.", "anchors": ["src/wafo/sg_filter/_core.py:1013-1050"]}
{"id": "C327", "title": "Kalman.reset returns the filter to its initial state", "statement": "After reset() the object should behave as a newly constructed one.  It does not: once an observation has been seen reset has no observable effect at all, because only the method pointer is restored and the state and covariance are kept.", "quantifier": "all objects, all observation sequences after the reset", "why_tests_cant": "That a method has no observable effect is a statement about all later call sequences.", "anchors": ["src/wafo/sg_filter/_core.py:926-927", "src/wafo/sg_filter/_core.py:1001-1011"]}
{"id": "C328", "title": "Automatic start of Kalman is the limit of infinite prior covariance", "statement": "Without x and P and with an invertible H, the first call returns the state which reproduces the observation with covariance inv(H) R inv(H)'; this is the limit, as c grows, of the update from any prior estimate with covariance c P0, as documented.", "quantifier": "all invertible H, positive definite R and P0, all observations and priors", "why_tests_cant": "A limit statement; no finite computation shows it.", "anchors": ["src/wafo/sg_filter/_core.py:870-881", "src/wafo/sg_filter/_core.py:983-999"]}
{"id": "C329", "title": "Default Kalman filter is the running mean", "statement": "With everything but a positive definite matrix R at its default, the estimate after any observations is their mean and its covariance is R divided by their number.", "quantifier": "all sizes, all non-empty lists of observations", "why_tests_cant": "Holds for every length; proved by induction over calls.", "anchors": ["src/wafo/sg_filter/_core.py:916-1050"]}
{"id": "C330", "title": "A number for R means that error variance for each observed quantity", "statement": "Kalman(R=r) with a number r should treat r as variance of each observed quantity.  With two or more quantities it does not: r is added to every entry of the innovation covariance, so a component observed to be 0 twice is estimated as -1/3.  With one quantity the number and the 1x1 matrix give the same results for every call sequence.", "quantifier": "refutation by a two dimensional example; agreement for all one dimensional observations", "why_tests_cant": "The wrong covariance gives plausible numbers; the equivalence is over all call sequences.", "anchors": ["src/wafo/sg_filter/_core.py:979-981", "src/wafo/sg_filter/_core.py:1020-1026"]}
{"id": "C331", "title": "Start of Kalman with a singular observation matrix", "statement": "When the start is taken from the first observation the state should reproduce it.  With a singular H no error is raised and the observation itself is taken as the state, even when another state explains the observation.", "quantifier": "all singular H and observations", "why_tests_cant": "Quantifies over all singular matrices.", "anchors": ["src/wafo/sg_filter/_core.py:983-999"]}
{"id": "C332", "title": "HodrickPrescott returns the minimiser of its criterion", "statement": "For four or more values and w >= 0 the linear system has exactly one solution and it is the unique minimiser of the sum of squared distances to the data plus w times the sum of squared second differences; the matrix with its corrected corners is I + w D'D.", "quantifier": "all lengths >= 4, all series, all w >= 0, all competing series", "why_tests_cant": "Minimality over all series and correctness of the corners for all lengths.", "anchors": ["src/wafo/sg_filter/_core.py:761-778"]}
{"id": "C333", "title": "HodrickPrescott keeps lines, sum and first moment and is linear", "statement": "The sum and the first moment of a series are preserved, straight lines are returned unchanged, w = 0 returns the data, and the filter is linear.", "quantifier": "all lengths, series and w", "why_tests_cant": "Exact identities for all lengths.", "anchors": ["src/wafo/sg_filter/_core.py:761-778"]}
{"id": "C334", "title": "HodrickPrescott approaches the least squares line for large w", "statement": "As w tends to infinity every value of the result tends to that of the least squares line of the data (documented as approaching a line).", "quantifier": "all lengths >= 4, all series", "why_tests_cant": "A limit statement.", "anchors": ["src/wafo/sg_filter/_core.py:729-733", "src/wafo/sg_filter/_core.py:761-778"]}
{"id": "C335", "title": "HodrickPrescott for short series", "statement": "Series with fewer than four values are returned unchanged.  For one and two values this is the minimiser of the criterion; for three values it is not, for any w > 0.", "quantifier": "all w; all series of length <= 2; a counterexample for each w > 0", "why_tests_cant": "Holds for every w.", "anchors": ["src/wafo/sg_filter/_core.py:771-775"]}
{"id": "C336", "title": "HampelFilter replaces exactly the outliers by the local median", "statement": "For two or more values and a positive window half width, each value of the result of HampelFilter is the original value when it is within t * 1.4826 times the median absolute deviation of the median of the values whose abscissa is within dx, and that median otherwise; the outlier mask says which, and for t >= 0 the result lies between the bounds LB and UB.", "quantifier": "all series, abscissas (in any order), windows and thresholds", "why_tests_cant": "Holds for all data; the median is characterised by counts, not by a computation.", "anchors": ["src/wafo/sg_filter/_core.py:1123-1133", "src/wafo/sg_filter/_core.py:1178-1217"]}
{"id": "C337", "title": "HampelFilter with t = 0 is a median filter; majorities win", "statement": "With t = 0 every value is replaced by the median of its window, as documented, and for any t a value taken by more than half of a window replaces the others.", "quantifier": "all series, windows and thresholds", "why_tests_cant": "Holds for all data.", "anchors": ["src/wafo/sg_filter/_core.py:1128-1133", "src/wafo/sg_filter/_core.py:1204-1217"]}
{"id": "C338", "title": "HampelFilter follows changes of unit, sign and origin", "statement": "Filtering c*y + e with c != 0 gives c times the filtered y plus e, with the same outliers.", "quantifier": "all series, windows, thresholds, all c != 0 and e", "why_tests_cant": "A relation between two runs for all inputs.", "anchors": ["src/wafo/sg_filter/_core.py:1128-1133", "src/wafo/sg_filter/_core.py:1204-1217"]}
{"id": "C339", "title": "Default window of HampelFilter", "statement": "With dx=None increasing abscissas never fail; decreasing abscissas always raise ValueError.  A single value is returned when dx is given; with the default it raises ValueError although the code has a branch for it.", "quantifier": "all series; all single values", "why_tests_cant": "Which inputs fail is a statement about all inputs.", "anchors": ["src/wafo/sg_filter/_core.py:1123-1125", "src/wafo/sg_filter/_core.py:1185-1202"]}
{"id": "C340", "title": "Search for the window of the adaptive HampelFilter", "statement": "The search for the local window size should end with a window.  It does when adaptive >= 0 and (n-1)*dx spans the data; otherwise it can run past its table (IndexError), e.g. for two values one apart with dx=1/2 and any adaptive below 1/2.  The relative change never exceeds 1/2, so for adaptive >= 1/2 the first window is always chosen.", "quantifier": "all series, abscissas, adaptive and dx", "why_tests_cant": "Termination of a data dependent loop for all data.", "anchors": ["src/wafo/sg_filter/_core.py:1143-1163"]}
{"id": "C341", "title": "smoothn: the bounds of the smoothing parameter are the bounds of the average leverage", "statement": "The bound _smoothness_limits computes from an average leverage H in (0, 1] is the non-negative parameter whose _average_leverage is exactly H, for every number of dimensions, and s lies on one side of this bound exactly when its leverage lies on the other side of H; so the automatic choice keeps the leverage between 1e-6 and 0.99.", "quantifier": "for every H in (0, 1], every number of dimensions, every s >= 0", "why_tests_cant": "The two formulas are inverse functions on an interval; tests compare some values with a tolerance.", "anchors": ["src/wafo/sg_filter/_core.py:314-332", "src/wafo/sg_filter/_core.py:438-442"]}
{"id": "C342", "title": "smoothn: complete data give the penalized least squares solution in one pass", "statement": "For at least two finite values with equal positive weights and given s >= 0, smoothn without robust converges, its result does not depend on tolz, maxiter, z0 or the common weight, it is the only series with the least sum of squared distances plus s times the squared second differences (reflected at the ends), and its sum is the sum of the data.", "quantifier": "for every length >= 2, all data, s >= 0, tolz, maxiter >= 1, z0", "why_tests_cant": "Optimality over all series and independence of the options are universal statements.", "anchors": ["src/wafo/sg_filter/_core.py:335-361", "src/wafo/sg_filter/_core.py:472-502", "src/wafo/sg_filter/_core.py:550-573"]}
{"id": "C343", "title": "smoothn: more smoothing is smoother, and in the limit the mean", "statement": "For complete data a larger s gives a result that is not rougher and not closer to the data; for s to infinity every value tends to the mean of the data (so straight lines are not kept).", "quantifier": "for all complete data and all 0 <= s < t; limit over s", "why_tests_cant": "Monotonicity in a real parameter and a limit.", "anchors": ["src/wafo/sg_filter/_core.py:335-361", "src/wafo/sg_filter/_core.py:472-502"]}
{"id": "C344", "title": "smoothn: weighted iteration never gets worse and can only stop at the optimum", "statement": "The normalised weights lie in [0, 1] with largest 1, are 0 for missing values and do not change when the weights are scaled. Every pass of the iteration with the relaxation factor of the code lowers the weighted objective by at least a seventh of the squared change, so the result is never worse than the initial guess, the squared changes of all passes together are at most seven times the objective of the start, and a series a pass does not change has the least objective of all.", "quantifier": "for all weights, missing patterns, starts, s >= 0 and numbers of passes", "why_tests_cant": "An invariant of an iteration of any length from any start.", "anchors": ["src/wafo/sg_filter/_core.py:399-408", "src/wafo/sg_filter/_core.py:306-307", "src/wafo/sg_filter/_core.py:480-501"]}
{"id": "C345", "title": "smoothn leaves the data of the caller unchanged", "statement": "After smoothn(data) the array passed by the caller holds the values it had before, so that a second call with it gives the same result.", "quantifier": "for every array, with and without missing values", "why_tests_cant": "A side effect on the argument, for all patterns of missing values.", "anchors": ["src/wafo/sg_filter/_core.py:301", "src/wafo/sg_filter/_core.py:552"]}
{"id": "C346", "title": "smoothn: the weights of the robust smoothing are sensible", "statement": "The weights of robust_weights lie in [0, 1], a residual zero has weight 1 and a larger absolute residual has no larger weight, for each of the three weight functions.", "quantifier": "for all residuals and every leverage", "why_tests_cant": "All residuals, also those with median absolute deviation zero.", "anchors": ["src/wafo/sg_filter/_core.py:410-436"]}
{"id": "C347", "title": "smoothn: the initial guess keeps the known values", "statement": "The array from which _initial_guess starts equals the data where they are finite and the value of the nearest finite neighbour elsewhere.", "quantifier": "for all data and patterns of missing values", "why_tests_cant": "All patterns of missing values; the effect is hidden by the iteration that follows.", "anchors": ["src/wafo/sg_filter/_core.py:364-371"]}
{"id": "C348", "title": "smoothn: the weighted iteration converges to the unique optimum from every start", "statement": "With s > 0, weights in [0, 1] and at least one positive weight there is exactly one series with the least weighted objective; the passes of the loop with the relaxation factor of the code tend to it from every start, and for every tolz > 0 the loop reports convergence once maxiter is large enough, unless the optimum is the zero series.", "quantifier": "for every length, weights, data, start, s > 0 and tolz > 0", "why_tests_cant": "A limit over infinitely many passes, from every start.", "anchors": ["src/wafo/sg_filter/_core.py:306-307", "src/wafo/sg_filter/_core.py:480-501"]}
{"id": "C349", "title": "evar is a variance: between zero and the variance of the data, and covariant", "statement": "For one dimensional data evar returns a value between 0 and the variance of the data, 0 exactly for constant data; adding a constant to the data changes nothing, and data times c have c^2 times the value.", "quantifier": "for all data, whatever the optimizer returns (for the factor: any optimizer that does not depend on the scale of its function)", "why_tests_cant": "All data and every outcome of the numerical search.", "anchors": ["src/wafo/sg_filter/_core.py:186-272"]}
{"id": "C350", "title": "evar uses the residuals of the thin plate smoothing spline", "statement": "The noise variance for a parameter is the mean square of the residuals of the thin plate smoothing spline of the documentation, which is the smoothing of smoothn.", "quantifier": "for all data and all parameters", "why_tests_cant": "A statement about all data for each parameter; a test of the estimate on one signal accepts both penalties.", "anchors": ["src/wafo/sg_filter/_core.py:191-195", "src/wafo/sg_filter/_core.py:258-271"]}
{"id": "C351", "title": "SavitzkyGolay.smooth_last agrees with smooth at the last value", "statement": "smooth_last(signal) is the last value of smooth(signal), for smoothing and for derivatives, when the window lies inside the signal or the edges do not matter.", "quantifier": "for all signals, coefficients and k", "why_tests_cant": "All signals and coefficients; sign and position errors are hidden by symmetric coefficients and smooth test signals.", "anchors": ["src/wafo/sg_filter/_core.py:153-164", "src/wafo/sg_filter/_core.py:169-184"]}
{"id": "C352", "title": "SavitzkyGolay.smooth_last keeps straight lines", "statement": "For coefficients that reproduce straight lines smooth_last of a straight line is a value of the line, also where the window reaches beyond the end of the signal.", "quantifier": "for every line and every k", "why_tests_cant": "All slopes, and the extension of the signal beyond its end.", "anchors": ["src/wafo/sg_filter/_core.py:161-164"]}
{"id": "C353", "title": "lh83pdf is a probability density", "statement": "With the default transformation and positive band width, the values that lh83pdf tabulates are those of a function of half period and amplitude that is never negative and whose integral over all positive half periods and amplitudes is 1; integrated over the amplitudes it gives the derivative of an explicit distribution function of the half period.", "quantifier": "for all positive m0, m1 and band widths, all half periods and amplitudes", "why_tests_cant": "an integral over an unbounded plane cannot be taken by a test; a wrong constant factor looks like discretisation error", "anchors": ["src/wafo/wavemodels.py:87-122"]}
{"id": "C354", "title": "lh83pdf rejects moments that are not those of a spectrum", "statement": "Moments with m0*m2 < m1**2, which no spectrum has, make lh83pdf raise ValueError; moments with m0*m2 > m1**2 give finite values.", "quantifier": "for all moments with m1 > 0, all periods and amplitudes", "why_tests_cant": "a test tries single moments; the claim is about the whole half space", "anchors": ["src/wafo/wavemodels.py:90-98"]}
{"id": "C355", "title": "cav76pdf is Rice's density of maxima in other variables", "statement": "With the default transformation, the value of cav76pdf at half period t and amplitude h is the joint density of height and curvature at a positive maximum of a Gaussian process with these moments, taken at height h and curvature h*(pi/t)**2, times 2*pi**2*h/t**3.", "quantifier": "for all positive moments with m2**2 < m0*m4, all t > 0 and h", "why_tests_cant": "an identity of functions in five real variables; tests compare with stored numbers computed by the same formula", "anchors": ["src/wafo/wavemodels.py:193-223"]}
{"id": "C356", "title": "Every column of the table holds the density of its period", "statement": "The column of the period t[j] in the results of lh83pdf and cav76pdf holds the values of the density at t[j], for every j.", "quantifier": "for all periods, moments and amplitudes", "why_tests_cant": "the tests use the default periods, which begin with 0", "anchors": ["src/wafo/wavemodels.py:118-122", "src/wafo/wavemodels.py:219-223"]}
{"id": "C357", "title": "cav76pdf is a probability density", "statement": "With the default transformation, the values that cav76pdf tabulates (first column aside) are those of a function of half period and amplitude that is never negative and whose integral over all positive half periods and amplitudes is 1; integrated over the amplitudes it gives the derivative of an explicit distribution function of the half period.", "quantifier": "for all positive moments with m2**2 < m0*m4, all half periods and amplitudes", "why_tests_cant": "an integral over an unbounded plane cannot be taken by a test; a wrong constant factor looks like discretisation error", "anchors": ["src/wafo/wavemodels.py:193-223"]}
