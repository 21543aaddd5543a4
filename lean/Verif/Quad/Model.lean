import Mathlib.Analysis.SpecialFunctions.Pow.Real
import Mathlib.Analysis.SpecialFunctions.Log.Base
import Mathlib.Analysis.SpecialFunctions.Gamma.Basic
import Mathlib.Analysis.SpecialFunctions.Trigonometric.Basic
import Verif.Basic

/-!
# Model of `wafo/integrate.py`

Floating point numbers are real numbers, arrays are lists or finite index functions.  A quadrature
rule `(nodes, weights)` is the list of its `(node, weight)` pairs.  Integrands are functions `ℝ → ℝ`
(the code requires that they are vectorised; they are applied node by node).

Not modelled: rounding, plotting (`trace`), the eigenvalue method of `p_roots`, `h_roots`, `j_roots`,
`la_roots` (calls scipy), complex arguments, and how fast Newton's method gets to the roots: the
sweeps of the Newton methods are modelled, the number of sweeps is not.
-/

namespace Wafo.Quad

open Real

/-- `numpy.sum(weights * fun(nodes))`, the way every rule of `integrate.py` is used
(e.g. integrate.py L1036). -/
def applyRule (r : List (ℝ × ℝ)) (f : ℝ → ℝ) : ℝ :=
  (r.map fun p => p.2 * f p.1).sum

/-! ## Clenshaw-Curtis -/

/-- The integrand argument of `clencurt`: something callable, or a table whose first column holds
the points (integrate.py L94-102). -/
inductive Integrand where
  | call (f : ℝ → ℝ)
  | table (rows : List (List ℝ))

/-- `x = np.cos(np.pi * s / n_2) * (b - a) / 2. + (b + a) / 2`, integrate.py L92. -/
noncomputable def ccNode (N : ℕ) (a b : ℝ) (s : ℕ) : ℝ :=
  cos (π * s / N) * (b - a) / 2 + (b + a) / 2

/-- `f[0, :] = f[0, :] / 2; f[n_2, :] = f[n_2, :] / 2`, integrate.py L109-110. -/
noncomputable def ccVal (N : ℕ) (a b : ℝ) (f : ℝ → ℝ) (s : ℕ) : ℝ :=
  if s = 0 ∨ s = N then f (ccNode N a b s) / 2 else f (ccNode N a b s)

/-- `np.real(fft(f[:n_2, :], axis=0))`, integrate.py L120: the real part of the discrete Fourier
transform of length `N`. -/
noncomputable def realFft (N : ℕ) (f : ℕ → ℝ) (k : ℕ) : ℝ :=
  ((List.range N).map fun j : ℕ => f j * cos (2 * π * j * k / N)).sum

/-- `c = 2 / n_2 * (tmp[0:n + 1, :] + np.cos(np.pi * s_2) * f[n_2, :])`, then the first and the last
entry halved, integrate.py L121-123. -/
noncomputable def ccCoef (n : ℕ) (g : ℕ → ℝ) (k : ℕ) : ℝ :=
  let c := 2 / ((2 * n : ℕ) : ℝ) * (realFft (2 * n) g k + cos (π * (2 * k : ℕ)) * g (2 * n))
  let c := if k = 0 then c / 2 else c
  if k = n then c / 2 else c

/-- `c[0:n + 1, :] / ((s_2 - 1) * (s_2 + 1))`, integrate.py L125. -/
noncomputable def ccTerm (n : ℕ) (g : ℕ → ℝ) (k : ℕ) : ℝ :=
  ccCoef n g k / (((2 * k : ℕ) - 1 : ℝ) * ((2 * k : ℕ) + 1 : ℝ))

/-- `clencurt(fun, a, b, n)`, integrate.py L34-133, for one pair of limits (arrays of limits are
treated one by one).  `n = 0` leaves nothing for the Fourier transform (`ValueError`).  A table is
always rejected: `abs(x - x_0) <= 1e-8` on L99 has `N + 1` rows, `N + 1 ≥ 3`, and the truth value
of such an array is a `ValueError`. -/
noncomputable def clencurt (fn : Integrand) (a b : ℝ) (n : ℕ) : Except PyErr (ℝ × ℝ) :=
  match fn with
  | .table _ => .error .valueError
  | .call f =>
    if n = 0 then .error .valueError
    else
      let g := ccVal (2 * n) a b f
      .ok ((a - b) * ((List.range (n + 1)).map fun k : ℕ => ccTerm n g k).sum,
        (b - a) * |ccTerm n g n|)

/-! ## Closed form rules -/

/-- `q5_roots(n)`, integrate.py L716-723 (`j` runs from 1 to `n`). -/
noncomputable def q5Roots (n : ℕ) : List (ℝ × ℝ) :=
  (List.range n).map fun i : ℕ =>
    let j : ℝ := i + 1
    (cos ((2 * j - 1) * π / (2 * n)), π / n)

/-- `q6_roots(n)`, integrate.py L726-734. -/
noncomputable def q6Roots (n : ℕ) : List (ℝ × ℝ) :=
  (List.range n).map fun i : ℕ =>
    let j : ℝ := i + 1
    let xj := j * π / (n + 1)
    (cos xj, π / (n + 1) * sin xj ^ 2)

/-- `q7_roots(n)`, integrate.py L737-745. -/
noncomputable def q7Roots (n : ℕ) : List (ℝ × ℝ) :=
  (List.range n).map fun i : ℕ =>
    let j : ℝ := i + 1
    let xj := (j - 1 / 2) * π / (2 * n + 1)
    let nd := cos xj ^ 2
    (nd, 2 * π * nd / (2 * n + 1))

open Classical in
/-- `q8_roots(n)`, integrate.py L748-756, from the rule `leg = p_roots(2 * n)`. -/
noncomputable def q8Roots (leg : List (ℝ × ℝ)) : List (ℝ × ℝ) :=
  (leg.filter fun p => decide (0 ≤ p.1)).map fun p => (1 - p.1 ^ 2, 2 * p.2)

open Classical in
/-- `q9_roots(n)`, integrate.py L759-767, from the rule `leg = p_roots(2 * n + 1)`. -/
noncomputable def q9Roots (leg : List (ℝ × ℝ)) : List (ℝ × ℝ) :=
  (leg.filter fun p => decide (0 < p.1)).map fun p => (1 - p.1 ^ 2, 2 * p.1 ^ 2 * p.2)

/-! ## Newton based rules -/

/-- Python's `x[k::-1]` for an integer start `k`, used by integrate.py L639-640. -/
def sliceRev {β : Type*} (x : List β) (k : ℤ) : List β :=
  let k := if k < 0 then k + x.length else k
  if k < 0 then [] else (x.take (k.toNat + 1)).reverse

/-- `_expand_roots(x, w, n, m)`, integrate.py L634-641. -/
def expandRoots (x w : List ℝ) (n m : ℕ) : List ℝ × List ℝ :=
  let x := if m + m > n then x.set (m - 1) 0 else x
  let m' : ℤ := if m + m = n then m else (m : ℤ) - 1
  (x ++ (sliceRev x (m' - 1)).map (fun v => -v), w ++ sliceRev w (m' - 1))

/-- The three term recurrence of `_p_roots_newton1`, integrate.py L608-616: the values of
`P_{j-1}` and `P_j` at `x` after the loop has reached `j = k + 1`. -/
noncomputable def legPair (x : ℝ) : ℕ → ℝ × ℝ
  | 0 => (1, x)
  | k + 1 =>
    let p := legPair x k
    let j : ℝ := k + 2
    (p.2, ((2 * j - 1) * x * p.2 - (j - 1) * p.1) / j)

/-- The recurrence of `_p_roots_newton`, integrate.py L556-562, written there as
`t_1 - p_km1 - (t_1 - p_km1) / k + t_1`. -/
noncomputable def legPair' (x : ℝ) : ℕ → ℝ × ℝ
  | 0 => (1, x)
  | k + 1 =>
    let p := legPair' x k
    let j : ℝ := k + 2
    let t1 := x * p.2
    (p.2, t1 - p.1 - (t1 - p.1) / j + t1)

/-- `p_deriv[k] = n * (p[k_0, k] - x[k] * p[k_p1, k]) / (1 - x[k] ** 2)`, integrate.py L618. -/
noncomputable def legDeriv (n : ℕ) (x : ℝ) : ℝ :=
  n * ((legPair x (n - 1)).1 - x * (legPair x (n - 1)).2) / (1 - x ^ 2)

/-- Newton's correction `d_x[k] = p[k_p1, k] / p_deriv[k]`, integrate.py L620. -/
noncomputable def legStep (n : ℕ) (x : ℝ) : ℝ := (legPair x (n - 1)).2 / legDeriv n x

/-- The number of roots that are computed, `int(np.fix((n + 1) / 2))`, integrate.py L540. -/
def half (n : ℕ) : ℕ := (n + 1) / 2

/-- The end of `_p_roots_newton1`, integrate.py L618-631: one sweep of Newton's method from `x`, and
the rule built from the corrected points and the derivatives of that sweep. -/
noncomputable def pRootsNewton1 (n : ℕ) (x : List ℝ) : List ℝ × List ℝ :=
  let x' := x.map fun v => v - legStep n v
  let nodes := x'.map fun v => -v
  let weights := (nodes.zip (x.map (legDeriv n))).map fun p => 2 / ((1 - p.1 ^ 2) * p.2 ^ 2)
  expandRoots nodes weights n (half n)

/-- One round of the higher order correction of `_p_roots_newton`, integrate.py L554-577, and the
node and weight computed from it, L579-584. -/
noncomputable def pNewtonPoint (n : ℕ) (x : ℝ) : ℝ × ℝ :=
  let e1 : ℝ := n * (n + 1)
  let pkm1 := (legPair' x (n - 1)).1
  let pk := (legPair' x (n - 1)).2
  let den := 1 - x * x
  let d1 := n * (pkm1 - x * pk)
  let dpn := d1 / den
  let d2 := (2 * x * dpn - e1 * pk) / den
  let d3 := (4 * x * d2 + (2 - e1) * dpn) / den
  let d4 := (6 * x * d3 + (6 - e1) * d2) / den
  let u := pk / dpn
  let v := d2 / dpn
  let h := -u * (1 + (1 / 2 * u) * (v + u * (v * v - u * d3 / (3 * dpn))))
  let p := pk + h * (dpn + (1 / 2 * h) * (d2 + (h / 3) * (d3 + 1 / 4 * h * d4)))
  let dp := dpn + h * (d2 + (1 / 2 * h) * (d3 + h * d4 / 3))
  let h := h - p / dp
  let x := x + h
  let node := -x - h
  let fx := d1 - h * e1 * (pk + (h / 2) * (dpn + (h / 3) * (d2 + (h / 4) * (d3 + (1 / 5 * h) * d4))))
  (node, 2 * (1 - node ^ 2) / fx ^ 2)

/-- `_p_roots_newton(n)` from its last round on, integrate.py L554-584. -/
noncomputable def pRootsNewton (n : ℕ) (x : List ℝ) : List ℝ × List ℝ :=
  let r := x.map (pNewtonPoint n)
  expandRoots (r.map Prod.fst) (r.map Prod.snd) n (half n)

/-- The linear map of `p_roots`, integrate.py L707-711. -/
noncomputable def pMap (a b : ℝ) (r : List (ℝ × ℝ)) : List (ℝ × ℝ) :=
  open Classical in
  if a ≠ -1 ∨ b ≠ 1 then
    let dh := (b - a) / 2
    r.map fun p => (dh * (p.1 + 1) + a, p.2 * dh)
  else r

/-- The recurrence of `_h_roots_newton`, integrate.py L244-255: `p[k_0]` and `p[k_p1]` after `k`
steps. -/
noncomputable def herPair (x : ℝ) : ℕ → ℝ × ℝ
  | 0 => (0, π ^ (-(1 : ℝ) / 4))
  | k + 1 =>
    let p := herPair x k
    let j : ℝ := k + 1
    (p.2, x * √(2 / j) * p.2 - √((j - 1) / j) * p.1)

/-- `p_deriv = sqrt(2 * n) * p[k_0, :]`, integrate.py L262. -/
noncomputable def herDeriv (n : ℕ) (x : ℝ) : ℝ := √(2 * n) * (herPair x n).1

/-- The last sweep of `_h_roots_newton` and the rule built from it, integrate.py L244-273. -/
noncomputable def hRootsNewton (n : ℕ) (z : List ℝ) : List ℝ × List ℝ :=
  let z' := z.map fun v => v - (herPair v n).2 / herDeriv n v
  let weights := z.map fun v => 2 / herDeriv n v ^ 2
  expandRoots z' weights n (half n)

/-- The recurrence of `_la_roots_newton`, integrate.py L503-514. -/
noncomputable def lagPair (α x : ℝ) : ℕ → ℝ × ℝ
  | 0 => (0, 1)
  | k + 1 =>
    let p := lagPair α x k
    let j : ℝ := k + 1
    (p.2, ((2 * j - 1 + α - x) * p.2 - (j - 1 + α) * p.1) / j)

/-- `p_deriv[k] = (n * p[k_p1, k] - (n + alpha) * p_previous[k]) / z[k]`, integrate.py L521. -/
noncomputable def lagDeriv (n : ℕ) (α x : ℝ) : ℝ :=
  (n * (lagPair α x n).2 - (n + α) * (lagPair α x n).1) / x

/-- The last sweep of `_la_roots_newton` and the rule built from it, integrate.py L503-536. -/
noncomputable def laRootsNewton (n : ℕ) (α : ℝ) (z : List ℝ) : List (ℝ × ℝ) :=
  z.map fun v =>
    (v - (lagPair α v n).2 / lagDeriv n α v,
      -exp (log (Gamma (α + n)) - log (Gamma n)) / (lagDeriv n α v * n * (lagPair α v n).1))

/-- `tmp` of `_j_roots_newton` after the loop has reached `j = k + 1`, integrate.py L338, L348. -/
noncomputable def jacTmp (α β : ℝ) (k : ℕ) : ℝ := 2 + (α + β) + 2 * k

/-- The recurrence of `_j_roots_newton`, integrate.py L336-352: `p[k_0]` and `p[k_p1]` after the
loop has reached `j = k + 1`. -/
noncomputable def jacPair (α β x : ℝ) : ℕ → ℝ × ℝ
  | 0 => (1, (α - β + (2 + (α + β)) * x) / 2)
  | k + 1 =>
    let p := jacPair α β x k
    let j : ℝ := k + 2
    let tmp := jacTmp α β k
    let a := 2 * j * (j + (α + β)) * tmp
    let tmp := tmp + 2
    let c := 2 * (j - 1 + α) * (j - 1 + β) * tmp
    let b := (tmp - 1) * (α ^ 2 - β ^ 2 + tmp * (tmp - 2) * x)
    (p.2, (b * p.2 - c * p.1) / a)

/-- `p_deriv` of `_j_roots_newton`, integrate.py L358-360. -/
noncomputable def jacDeriv (n : ℕ) (α β x : ℝ) : ℝ :=
  let tmp := jacTmp α β (n - 1)
  (n * (α - β - tmp * x) * (jacPair α β x (n - 1)).2
    + 2 * (n + α) * (n + β) * (jacPair α β x (n - 1)).1) / (tmp * (1 - x ^ 2))

/-- The last sweep of `_j_roots_newton` and the rule built from it, integrate.py L336-374. -/
noncomputable def jRootsNewton (n : ℕ) (α β : ℝ) (z : List ℝ) : List (ℝ × ℝ) :=
  z.map fun v =>
    let f := log (Gamma (α + n)) + log (Gamma (β + n)) - log (Gamma (n + 1))
      - log (Gamma (α + β + n + 1))
    (v - (jacPair α β v (n - 1)).2 / jacDeriv n α β v,
      exp f * jacTmp α β (n - 1) * 2 ^ (α + β) / (jacDeriv n α β v * (jacPair α β v (n - 1)).1))

/-- The points from which the last sweep of Newton's method starts: for `_p_roots_newton`
(integrate.py L539-577), `_h_roots_newton` (L232-270), `_la_roots_newton` (L488-530) and
`_j_roots_newton` (L325-370).  The code approaches them from the approximations computed there;
that they are reached is not modelled. -/
structure Starts where
  leg : ℕ → List ℝ
  her : ℕ → List ℝ
  lag : ℕ → ℝ → List ℝ
  jac : ℕ → ℝ → ℝ → List ℝ

/-- `p_roots(n)` with the default method, integrate.py L699-713. -/
noncomputable def pRoots (z : Starts) (n : ℕ) : List (ℝ × ℝ) :=
  (pRootsNewton n (z.leg n)).1.zip (pRootsNewton n (z.leg n)).2

/-- `qrule(n, wfun, alpha, beta)`, integrate.py L770-840. -/
noncomputable def qrule (z : Starts) (n wfun : ℕ) (α β : ℝ) : Except PyErr (List (ℝ × ℝ)) :=
  match wfun with
  | 1 => .ok (pRoots z n)
  | 2 => .ok ((hRootsNewton n (z.her n)).1.zip (hRootsNewton n (z.her n)).2)
  | 3 => .ok (laRootsNewton n α (z.lag n α))
  | 4 => .ok (jRootsNewton n α β (z.jac n α β))
  | 5 => .ok (q5Roots n)
  | 6 => .ok (q6Roots n)
  | 7 => .ok (q7Roots n)
  | 8 => .ok (q8Roots (pRoots z (2 * n)))
  | 9 => .ok (q9Roots (pRoots z (2 * n + 1)))
  | _ => .error .valueError

/-! ## `gaussq` -/

/-- `_get_jacob` for scalar limits, integrate.py L966-973. -/
noncomputable def getJacob (wfun : ℕ) (a b : ℝ) : ℝ :=
  if wfun = 2 ∨ wfun = 3 then 1
  else
    let jac := (b - a) * (1 / 2)
    if wfun = 7 ∨ wfun = 8 ∨ wfun = 9 then jac * 2 else jac

/-- `_get_dx`, integrate.py L927-936.  A `wfun` outside `1..9` picks nothing callable from the list
(`TypeError` for the entry `None`, `IndexError` beyond it; negative ones are not modelled). -/
noncomputable def getDx (wfun : ℕ) (jac α β : ℝ) : Except PyErr ℝ :=
  match wfun with
  | 0 => .error .typeError
  | 1 => .ok jac
  | 2 => .ok jac
  | 3 => .ok jac
  | 4 => .ok (jac ^ (α + β + 1))
  | 5 => .ok 1
  | 6 => .ok (jac ^ 2)
  | 7 => .ok jac
  | 8 => .ok √jac
  | 9 => .ok (√jac ^ 3)
  | _ => .error .indexError

/-- `shift = int(wfun in [1, 4, 5, 6])`, integrate.py L1015. -/
def shift (wfun : ℕ) : ℝ := if wfun = 1 ∨ wfun = 4 ∨ wfun = 5 ∨ wfun = 6 then 1 else 0

/-- The lower limit that is used: `_initialize` replaces it by 0 for `wfun` 2 and 3,
integrate.py L993-994. -/
noncomputable def lowerLimit (wfun : ℕ) (a : ℝ) : ℝ := if wfun = 2 ∨ wfun = 3 then 0 else a

/-- One round: `x = (x_n + shift) * jacob + a_0; val = np.sum(weights * fun(x)) * d_x`,
integrate.py L1031-1036. -/
noncomputable def gaussRound (rule : List (ℝ × ℝ)) (wfun : ℕ) (a b dx : ℝ) (f : ℝ → ℝ) : ℝ :=
  applyRule rule (fun t => f ((t + shift wfun) * getJacob wfun a b + lowerLimit wfun a)) * dx

open Classical in
/-- The loop of `gaussq`, integrate.py L1029-1045, for one integral.  `i` counts the rounds,
`valOld` and `abserr` are the previous value and error estimate, `fuel = max_iter - i`.  Values are
real numbers, so that the replacement of `nan` values on L1037 never applies. -/
noncomputable def gaussLoop (rule : ℕ → List (ℝ × ℝ)) (wfun : ℕ) (a b dx releps abseps : ℝ)
    (f : ℝ → ℝ) (i : ℕ) (val valOld abserr : ℝ) : ℕ → ℝ × ℝ
  | 0 => (val, abserr)
  | fuel + 1 =>
    let val := gaussRound (rule (2 ^ (i + 1))) wfun a b dx f
    let abserr := if i > 1 then |valOld - val| else abserr
    if abserr > max |releps * val| abseps then
      gaussLoop rule wfun a b dx releps abseps f (i + 1) val val abserr fuel
    else (val, abserr)

/-- `gaussq(fun, a, b, releps, abseps, alpha, beta, wfun)` for scalar limits with the default
`max_iter = 11`, integrate.py L1007-1054; `rule n` are the nodes and weights that
`_nodes_and_weights` returns for `n` nodes.  The value before the first round is 0, the error
`1e100`. -/
noncomputable def gaussq (rule : ℕ → List (ℝ × ℝ)) (f : ℝ → ℝ) (a b releps abseps α β : ℝ)
    (wfun : ℕ) : Except PyErr (ℝ × ℝ) :=
  match getDx wfun (getJacob wfun a b) α β with
  | .error e => .error e
  | .ok dx => .ok (gaussLoop rule wfun a b dx releps abseps f 0 0 0 (10 ^ 100) 11)

/-- The global dictionary `_NODES_AND_WEIGHTS` and its use by `_nodes_and_weights`,
integrate.py L939-946: the entry under the formatted name is used when there is one, otherwise the
rule is computed and stored.  `fmt` is the format `'{:g}'`. -/
def lookupRule {κ : Type*} [DecidableEq κ] (fmt : ℝ → κ) (qrule : ℕ → ℕ → ℝ → ℝ → List (ℝ × ℝ))
    (store : List ((ℕ × ℕ × κ × κ) × List (ℝ × ℝ))) (n wfun : ℕ) (α β : ℝ) :
    List (ℝ × ℝ) × List ((ℕ × ℕ × κ × κ) × List (ℝ × ℝ)) :=
  let key := (wfun, n, fmt α, fmt β)
  match store.lookup key with
  | some r => (r, store)
  | none => (qrule n wfun α β, (key, qrule n wfun α β) :: store)

/-! ## Richardson extrapolation, Boole's rule, `quadgr`, `romberg` -/

/-- `richardson(q_val, k)`, integrate.py L1060-1066, for `k ≥ 2`. -/
noncomputable def richardson (q : ℕ → ℝ) (k : ℕ) : ℝ :=
  let c := (q (k - 1) - q (k - 2)) / (q k - q (k - 1)) - 1
  let c := max c (7 / 100)
  q k + (q k - q (k - 1)) / c

/-- Sum of `y[start:stop:step]` for nonnegative bounds. -/
noncomputable def sliceSum (y : ℕ → ℝ) (start stop step : ℕ) : ℝ :=
  ((List.range stop).filter fun i => decide (start ≤ i) && decide ((i - start) % step = 0)).map y
    |>.sum

/-- `boole(y, x)`, integrate.py L1267-1273, where `n = len(x) = len(y) ≥ 3`
(so that the slice bounds are nonnegative). -/
noncomputable def boole (n : ℕ) (y x : ℕ → ℝ) : ℝ :=
  let a := x 0
  let b := x (n - 1)
  let h := (b - a) / ((n - 1 : ℕ) : ℝ)
  (2 * h / 45) * (7 * (y 0 + y (n - 1)) + 12 * sliceSum y 2 (n - 1) 4 +
    32 * sliceSum y 1 (n - 1) 2 + 14 * sliceSum y 4 (n - 3) 4)

/-- `numpy.round`: to the nearest integer, halves to the even one. -/
noncomputable def npRound (x : ℝ) : ℤ :=
  open Classical in
  if x - ⌊x⌋ < 1 / 2 then ⌊x⌋
  else if 1 / 2 < x - ⌊x⌋ then ⌊x⌋ + 1
  else if Even ⌊x⌋ then ⌊x⌋ else ⌊x⌋ + 1

/-- `table_limit = max(min(np.round(np.log2(h / h_min)), 30), 3)` as the size of the arrays allocated
with it, integrate.py L170-175.  The rounded logarithm is a float, `30` and `3` are integers, and
`zeros((2, table_limit))` wants an integer: a float that survives is a `TypeError`.  For `h < 0` the
logarithm is `nan`, which survives both comparisons; for `h = 0` it is `-inf`. -/
noncomputable def tableLimit (h : ℝ) : Except PyErr ℕ :=
  open Classical in
  if h < 0 then .error .typeError
  else if h = 0 then .ok 3
  else
    let r := npRound (logb 2 (h / (1 / 10 ^ 9)))
    if 30 < r then .ok 30 else if 3 ≤ r then .error .typeError else .ok 3

/-- `f_p`, integrate.py L179 and L199. -/
noncomputable def fP : ℕ → ℝ
  | 0 => 4
  | k + 1 => 4 * fP k

/-- One row of the extrapolation table from the row before, integrate.py L192-203. -/
noncomputable def romRow (prev : ℕ → ℝ) (u : ℝ) : ℕ → ℝ
  | 0 => 1 / 2 * prev 0 + u
  | k + 1 => romRow prev u k + (romRow prev u k - prev k) / (fP k - 1)

open Classical in
/-- The loop of `romberg`, integrate.py L191-220.  `dea3` comes from `numdifftools`; it is an
arbitrary function here.  Without convergence `_assert` raises a `ValueError`. -/
noncomputable def romLoop (dea3 : ℝ → ℝ → ℝ → ℝ × ℝ) (f : ℝ → ℝ) (a releps abseps : ℝ)
    (i : ℕ) (h : ℝ) (ipower : ℕ) (prev : ℕ → ℝ) (q2 q4 : ℝ) : ℕ → Except PyErr (ℝ × ℝ)
  | 0 => .error .valueError
  | fuel + 1 =>
    let h := h * (1 / 2)
    let u := ((List.range ipower).map fun j : ℕ => f (a + (2 * j + 1) * h)).sum * h
    let row := romRow prev u
    let q1 := q2
    let q2 := q4
    let q4 := row i
    let r := dea3 q1 q2 q4
    if 2 ≤ i ∧ r.2 ≤ max abseps (releps * |r.1|) then .ok r
    else romLoop dea3 f a releps abseps (i + 1) h (ipower * 2) row q2 q4 fuel

/-- `romberg(fun, a, b, releps, abseps)`, integrate.py L136-221. -/
noncomputable def romberg (dea3 : ℝ → ℝ → ℝ → ℝ × ℝ) (f : ℝ → ℝ) (a b releps abseps : ℝ) :
    Except PyErr (ℝ × ℝ) :=
  match tableLimit (b - a) with
  | .error e => .error e
  | .ok lim =>
    let t := (b - a) * (f a + f b) / 2
    romLoop dea3 f a releps abseps 1 (b - a) 1 (fun k => if k = 0 then t else 0) 0 t (lim - 1)

/-- The nodes of `quadgr` after `k` bisections, integrate.py L1204-1214, as a function of the index;
`n` is the number of nodes of the rule and `xn` are its nodes. -/
noncomputable def quadNodes (n : ℕ) (xn : ℕ → ℝ) (a b : ℝ) : ℕ → ℕ → ℝ
  | 0, j => (a + b) / 2 + (b - a) / 2 * xn j
  | k + 1, j =>
    if j < n * 2 ^ k then (quadNodes n xn a b k j + a) / 2
    else (quadNodes n xn a b k (j - n * 2 ^ k) + b) / 2

/-- `d_x` after `k` bisections, integrate.py L1204 and L1213. -/
noncomputable def quadDx (a b : ℝ) : ℕ → ℝ
  | 0 => (b - a) / 2
  | k + 1 => quadDx a b k / 2

/-- `val0[k]`, integrate.py L1207 and L1216-1217: the values are arranged in rows of `n`, summed over
the rows, and weighted. -/
noncomputable def quadVal0 (n : ℕ) (xn w : ℕ → ℝ) (f : ℝ → ℝ) (a b : ℝ) (k : ℕ) : ℝ :=
  ((List.range n).map fun j : ℕ =>
    ((List.range (2 ^ k)).map fun i : ℕ => f (quadNodes n xn a b k (i * n + j))).sum * w j).sum
    * quadDx a b k

/-- `val1`, integrate.py L1183-1191; `fill` is what the entries contain that are not computed (0). -/
noncomputable def quadVal1 (fill : ℝ) (v0 : ℕ → ℝ) (k : ℕ) : ℝ :=
  if 3 ≤ k then richardson v0 k else fill

/-- `val2`, integrate.py L1183-1191. -/
noncomputable def quadVal2 (fill : ℝ) (v1 : ℕ → ℝ) (k : ℕ) : ℝ :=
  if 5 ≤ k then richardson v1 k else fill

/-- The pairs of values compared in round `k`, integrate.py L1164-1173. -/
noncomputable def quadPairs (v0 v1 v2 : ℕ → ℝ) (k : ℕ) : List (ℝ × ℝ) :=
  if 6 ≤ k then [(v0 k, v0 (k - 1)), (v1 k, v1 (k - 1)), (v2 k, v2 (k - 1))]
  else if 4 ≤ k then [(v0 k, v0 (k - 1)), (v1 k, v1 (k - 1))]
  else [(v0 k, v0 (k - 1))]

open Classical in
/-- The first pair with the smallest difference: `errors.argmin()`, integrate.py L1175-1178. -/
noncomputable def argminPair : List (ℝ × ℝ) → ℝ × ℝ
  | [] => (0, 0)
  | p :: l => l.foldl (fun best q => if |q.1 - q.2| < |best.1 - best.2| then q else best) p

open Classical in
/-- The loop of `_integrate`, integrate.py L1210-1223; `fuel` is the number of rounds left. -/
noncomputable def quadLoop (v0 v1 v2 : ℕ → ℝ) (abseps : ℝ) (k : ℕ) : ℕ → ℝ × ℝ
  | 0 =>
    let p := argminPair (quadPairs v0 v1 v2 k)
    (p.1, |p.1 - p.2|)
  | fuel + 1 =>
    let p := argminPair (quadPairs v0 v1 v2 k)
    if |p.1 - p.2| < abseps then (p.1, |p.1 - p.2|) else quadLoop v0 v1 v2 abseps (k + 1) fuel

/-- `_integrate` with `max_iter = 17`, integrate.py L1193-1232, for a real integrand, a positive
tolerance and finite values.  A Richardson step whose denominator is 0 gives the last value (the
quotient is infinite and drops out); `nan` would need three equal values in a row, but then the
loop has stopped before.  `eps` is the unit of rounding that is added to the error. -/
noncomputable def quadIntegrate (fill eps : ℝ) (n : ℕ) (xn w : ℕ → ℝ) (f : ℝ → ℝ) (a b abseps : ℝ) :
    ℝ × ℝ :=
  let v0 := quadVal0 n xn w f a b
  let v1 := quadVal1 fill v0
  let v2 := quadVal2 fill v1
  let r := quadLoop v0 v1 v2 abseps 1 15
  (r.1, r.2 + 2 * eps)

/-- The integrand for `a` to infinity, integrate.py L1135-1137, on `0..1`. -/
noncomputable def toInf (f : ℝ → ℝ) (a t : ℝ) : ℝ := f (a + t / (1 - t)) / (1 - t) ^ 2

/-- The integrand for minus infinity to `b`, integrate.py L1138-1140, on `-1..0`. -/
noncomputable def fromInf (f : ℝ → ℝ) (b t : ℝ) : ℝ := f (b + t / (1 + t)) / (1 + t) ^ 2

/-- A real limit of integration, possibly infinite. -/
inductive Lim where
  | neg
  | fin (x : ℝ)
  | pos

/-- `a > b` for limits. -/
def Lim.gt : Lim → Lim → Prop
  | .neg, _ => False
  | .fin _, .neg => True
  | .fin x, .fin y => x > y
  | .fin _, .pos => False
  | .pos, .pos => False
  | .pos, _ => True

/-- The integral between ordered limits, integrate.py L1250-1255 with
`_change_variable_and_integrate` L1130-1148.  Ordered limits that differ are one of the four cases
with a value; the others do not occur after L1243-1248. -/
noncomputable def quadOrdered (fill eps : ℝ) (n : ℕ) (xn w : ℕ → ℝ) (f : ℝ → ℝ) (abseps : ℝ) :
    Lim → Lim → ℝ × ℝ
  | .fin a, .fin b => quadIntegrate fill eps n xn w f a b abseps
  | .fin a, _ => quadIntegrate fill eps n xn w (toInf f a) 0 1 abseps
  | _, .fin b => quadIntegrate fill eps n xn w (fromInf f b) (-1) 0 abseps
  | _, _ =>
    let r1 := quadIntegrate fill eps n xn w (fun t => f (t / (1 - t)) / (1 - t) ^ 2) 0 1 (abseps / 2)
    let r2 := quadIntegrate fill eps n xn w (fun t => f (t / (1 + t)) / (1 + t) ^ 2) (-1) 0 (abseps / 2)
    (r1.1 + r2.1, r1.2 + r2.2)

open Classical in
/-- `quadgr` with limits that may be infinite, integrate.py L1240-1261.  Equal infinite limits give
`inf - inf`, a `nan`: `none`. -/
noncomputable def quadgrLim (fill eps : ℝ) (n : ℕ) (xn w : ℕ → ℝ) (f : ℝ → ℝ) (a b : Lim) (abseps : ℝ) :
    Option (ℝ × ℝ) :=
  if a = b then
    match a, b with
    | .fin a, .fin b => some (b - a, |b - a|)
    | _, _ => none
  else if a.gt b then
    let r := quadOrdered fill eps n xn w f abseps b a
    some (-r.1, r.2)
  else some (quadOrdered fill eps n xn w f abseps a b)

end Wafo.Quad
