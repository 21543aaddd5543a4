import Mathlib.Analysis.SpecialFunctions.Exp
import Mathlib.Analysis.SpecialFunctions.Log.Basic
import Mathlib.Analysis.SpecialFunctions.Trigonometric.Basic
import Mathlib.RingTheory.Polynomial.Chebyshev
import Verif.Basic
import Verif.Cross.Model

/-!
Model of integrate_oscillating.py: quadrature of `f(x) exp(i omega g(x))`.  `numdifftools.Limit` of a function is its value,
`nd.Derivative` the derivative, the polynomial functions of numpy are exact and `linalg.lstsq` and `dea3` are parameters.
-/

namespace Wafo.Osc

noncomputable section

/-- A `PolyBasis`: `basis(t, k)` and `basis.derivative(t, k, n)`. -/
structure Basis where
  fn : ℕ → ℝ → ℝ
  d : ℕ → ℕ → ℝ → ℝ

/-- `PolyBasis`, integrate_oscillating.py L38-59. -/
def polyBasis : Basis where
  fn k t := t ^ k
  d n k t := ((Polynomial.derivative^[n]) (Polynomial.X ^ k : Polynomial ℝ)).eval t

/-- `ChebyshevBasis`, integrate_oscillating.py L65-79. -/
def chebBasis : Basis where
  fn k t := (Polynomial.Chebyshev.T ℝ k).eval t
  d n k t := ((Polynomial.derivative^[n]) (Polynomial.Chebyshev.T ℝ k)).eval t

/-- The type of `linalg.lstsq(a, b)[0]`, for a matrix given by its rows. -/
abbrev Lstsq := List (List ℂ) → List ℂ → List ℂ

/-- `np.exp(j_w * g)`. -/
def phase (om g : ℝ) : ℂ := Complex.exp (Complex.I * om * g)

/-- The matrix of `evans_webster_weights`, integrate_oscillating.py L112-115. -/
def ewMatrix (om : ℝ) (dg : ℝ → ℝ) (x : List ℝ) (B : Basis) : List (List ℂ) :=
  (List.range x.length).map fun k => x.map fun t => (B.d 1 k t : ℂ) + Complex.I * om * ((dg t * B.fn k t : ℝ) : ℂ)

/-- `evans_webster_weights(omega, g, d_g, x, basis)`, integrate_oscillating.py L94-118, for finite `g`. -/
def ewWeights (lstsq : Lstsq) (om : ℝ) (g dg : ℝ → ℝ) (x : List ℝ) (B : Basis) : List ℂ :=
  let b1 := phase om (g 1)
  let a1 := phase om (g (-1))
  lstsq (ewMatrix om dg x B) ((List.range x.length).map fun k => (B.fn k 1 : ℂ) * b1 - (B.fn k (-1) : ℂ) * a1)

/-- `zip(a_b[::2], a_b[1::2])`. -/
def pairs : List ℝ → List (ℝ × ℝ)
  | a :: b :: t => (a, b) :: pairs t
  | _ => []

/-- `osc_weights(omega, g, d_g, x, basis, a_b)`, integrate_oscillating.py L122-137. -/
def oscWeights (lstsq : Lstsq) (om : ℝ) (g dg : ℝ → ℝ) (x : List ℝ) (B : Basis) (ab : List ℝ) : List ℂ :=
  (pairs ab).flatMap fun p =>
    let scale := (p.2 - p.1) / 2
    let offset := (p.1 + p.2) / 2
    ewWeights lstsq om (fun t => g (scale * t + offset)) (fun t => scale * dg (scale * t + offset)) x B

/-- The variables of the bisection in `_quad_osc`. -/
structure State where
  hh : ℝ
  x : List ℝ
  ab : List ℝ

/-- `_quad_osc`, one interval, integrate_oscillating.py L288-297. -/
def start (a b : ℝ) (xn : List ℝ) : State where
  hh := (b - a) / 2
  x := xn.map fun u => (a + b) / 2 + (b - a) / 2 * u
  ab := [a, b]

/-- `_quad_osc`, bisection, integrate_oscillating.py L307-309. -/
def bisect (a b : ℝ) (s : State) : State where
  hh := s.hh / 2
  x := (s.x.map (· + a) ++ s.x.map (· + b)).map (· / 2)
  ab := (s.ab.map (· + a) ++ s.ab.map (· + b)).map (· / 2)

/-- The state after `k` bisections. -/
def level (a b : ℝ) (xn : List ℝ) : ℕ → State
  | 0 => start a b xn
  | k + 1 => bisect a b (level a b xn k)

/-- `val0[k]`, integrate_oscillating.py L298-299 and L310-312. -/
def rule (lstsq : Lstsq) (f : ℝ → ℂ) (g dg : ℝ → ℝ) (om : ℝ) (B : Basis) (xn : List ℝ) (s : State) : ℂ :=
  s.hh * (List.zipWith (· * ·) (oscWeights lstsq om g dg xn B s.ab) (s.x.map f)).sum

/-- `np.nanargmin` and indexing: the first candidate with the smallest error. -/
def smallest : ℂ × ℝ → List (ℂ × ℝ) → ℂ × ℝ
  | c, [] => c
  | c, d :: t => if d.2 < c.2 then smallest d t else smallest c t

/-- `_get_best_estimate(k, q_0, q_1, q_2)`, integrate_oscillating.py L243-255. -/
def bestEstimate (k : ℕ) (q0 q1 q2 : ℕ → ℂ) : ℂ × ℝ :=
  let c : (ℕ → ℂ) → ℂ × ℝ := fun q => (q k, ‖q k - q (k - 1)‖)
  if 5 ≤ k then smallest (c q0) [c q1, c q2]
  else if 3 ≤ k then smallest (c q0) [c q1]
  else c q0

/-- `_extrapolate(k, q_0, q_1, q_2)`, integrate_oscillating.py L257-270; the arrays of extrapolated values are zero where they have not
been set. -/
def extrapolate (dea3 : ℂ → ℂ → ℂ → ℂ) (q0 : ℕ → ℂ) (k : ℕ) : ℂ × ℝ :=
  let q1 : ℕ → ℂ := fun k => if 2 ≤ k then dea3 (q0 (k - 2)) (q0 (k - 1)) (q0 k) else 0
  let q2 : ℕ → ℂ := fun k => if 4 ≤ k then dea3 (q1 (k - 2)) (q1 (k - 1)) (q1 k) else 0
  bestEstimate k q0 q1 q2

/-- The exceptions of `_quad_osc`: `unbound` is the UnboundLocalError for a loop that did not run. -/
inductive Fail where
  | index
  | unbound

/-- The loop over `k`, integrate_oscillating.py L304-318: `left` iterations remain from `k` on. -/
def search (est : ℕ → ℂ × ℝ) (abseps : ℝ) : ℕ → ℕ → ℂ × ℝ × ℕ
  | 0, k => ((est (k - 1)).1, (est (k - 1)).2, k - 1)
  | left + 1, k => if (est k).2 ≤ abseps then ((est k).1, (est k).2, k) else search est abseps left (k + 1)

/-- `_quad_osc(f, g, dg, a, b, omega)`, integrate_oscillating.py L272-326: the value, the error estimate and the number of nodes; `tiny`
is `2 * eps`. -/
def quadOsc (lstsq : Lstsq) (dea3 : ℂ → ℂ → ℂ → ℂ) (tiny abseps : ℝ) (maxiter : ℕ) (f : ℝ → ℂ) (g dg : ℝ → ℝ) (om : ℝ) (B : Basis)
    (xn : List ℝ) (a b : ℝ) : Except Fail (ℂ × ℝ × ℕ) :=
  if a = b then .ok (((b - a : ℝ) : ℂ), |b - a|, 0)
  else
    let q0 : ℕ → ℂ := fun k => rule lstsq f g dg om B xn (level a b xn k)
    match maxiter with
    | 0 => .error .index
    | 1 => .error .unbound
    | m + 2 =>
      let r := search (extrapolate dea3 q0) abseps (m + 1) 1
      .ok (r.1, r.2.1 + tiny, xn.length * ∑ i ∈ Finset.range (r.2.2 + 1), 2 ^ i)

/-- `QuadOsc.__call__` for finite limits, integrate_oscillating.py L208-241. -/
def quad (lstsq : Lstsq) (dea3 : ℂ → ℂ → ℂ → ℂ) (tiny abseps : ℝ) (maxiter : ℕ) (f : ℝ → ℂ) (g dg : ℝ → ℝ) (om : ℝ) (B : Basis)
    (xn : List ℝ) (a b : ℝ) : Except Fail (ℂ × ℝ × ℕ) :=
  if b < a then
    match quadOsc lstsq dea3 tiny abseps maxiter f g dg om B xn b a with
    | .ok (v, e, n) => .ok (-v, e, n)
    | .error e => .error e
  else quadOsc lstsq dea3 tiny abseps maxiter f g dg om B xn a b

/-- `_change_interval_to_0_1`, integrate_oscillating.py L165-177: the functions of `t`. -/
def upF (f : ℝ → ℂ) (a t : ℝ) : ℂ := f (a + t / (1 - t)) / (((1 - t) ^ 2 : ℝ) : ℂ)
def upG (g : ℝ → ℝ) (a t : ℝ) : ℝ := g (a + t / (1 - t))
def upDg (dg : ℝ → ℝ) (a t : ℝ) : ℝ := dg (a + t / (1 - t)) / (1 - t) ^ 2

/-- `_change_interval_to_m1_0`, integrate_oscillating.py L179-191. -/
def downF (f : ℝ → ℂ) (b t : ℝ) : ℂ := f (b + t / (1 + t)) / (((1 + t) ^ 2 : ℝ) : ℂ)
def downG (g : ℝ → ℝ) (b t : ℝ) : ℝ := g (b + t / (1 + t))
def downDg (dg : ℝ → ℝ) (b t : ℝ) : ℝ := dg (b + t / (1 + t)) / (1 + t) ^ 2

/-- `_change_interval_to_m1_1`, integrate_oscillating.py L193-206. -/
def lineF (f : ℝ → ℂ) (t : ℝ) : ℂ := f (t / (1 - t ^ 2)) * ((1 + t ^ 2 : ℝ) : ℂ) / (((1 - t ^ 2) ^ 2 : ℝ) : ℂ)
def lineG (g : ℝ → ℝ) (t : ℝ) : ℝ := g (t / (1 - t ^ 2))
def lineDg (dg : ℝ → ℝ) (t : ℝ) : ℝ := dg (t / (1 - t ^ 2)) * (1 + t ^ 2) / (1 - t ^ 2) ^ 2

/-- `chebyshev_roots(m)`, integrate_oscillating.py L366-369. -/
def chebRoots (m : ℕ) : List ℝ := (List.range m).map fun i : ℕ => Real.cos ((2 * i + 1 : ℝ) * (1 / 2) * Real.pi / m)

/-- `chebyshev_extrema(m)`, integrate_oscillating.py L344-347; `none` stands for nan. -/
def chebExtrema (m : ℕ) : List (Option ℝ) :=
  (List.range m).map fun k : ℕ => if m = 1 then none else some (Real.cos (k * Real.pi / (m - 1 : ℝ)))

/-- The loop of `adaptive_levin_points`, integrate_oscillating.py L332-333; `1 / 2 * m1 / 0` is infinite for positive `m1`. -/
def spread (m1 : ℝ) : ℕ → ℝ → Option ℝ
  | 0, _ => none
  | fuel + 1, d => if (d = 0 ∧ 0 < m1) ∨ 1 ≤ 1 / 2 * m1 / d then spread m1 fuel (2 * d) else some d

/-- `adaptive_levin_points(m, delta)` with the final value of `delta`, integrate_oscillating.py L334-337. -/
def levinPoints (m : ℕ) (d : ℝ) : List ℝ :=
  let m1 : ℝ := m - 1
  (List.range m).map fun k : ℕ =>
    if (k : ℝ) < 1 / 2 * m1 then -1 + k / d else if (k : ℤ) = ⌈1 / 2 * m1⌉ then 0 else 1 - (m1 - k) / d

/-- `open_levin_points(m, delta)`, integrate_oscillating.py L340-341. -/
def openPoints (m : ℕ) (d : ℝ) : List ℝ := ((levinPoints (m + 2) d).drop 1).dropLast

/-- The functions for the points. -/
inductive PointKind where
  | extrema
  | levin
  | roots
  | openLevin
deriving DecidableEq

/-- The choice of the function for the points in `_QaL`, integrate_oscillating.py L485-493. -/
def choose (endpoints : Bool) (delta alpha : ℝ) (s : ℕ) : PointKind :=
  if endpoints then
    if delta < 10 ∨ alpha ≤ 10 ∨ 1 < s then .extrema else .levin
  else if delta < 10 ∨ alpha ≤ 10 ∨ 1 < s then .roots
  else .openLevin

/-- `points(n, betam)`, where `d` is the final value of `delta` in `adaptive_levin_points`. -/
def ptsOf : PointKind → ℕ → ℝ → List (Option ℝ)
  | .extrema, n, _ => chebExtrema n
  | .levin, n, d => (levinPoints n d).map some
  | .roots, n, _ => (chebRoots n).map some
  | .openLevin, n, d => (openPoints n d).map some

/-- The rows of `_a_levin`, integrate_oscillating.py L380-403, with multiplicity `s` of the first and the last node: pairs of node and
order of the derivative. -/
def rows (x : List ℝ) (s : ℕ) : List (ℝ × ℕ) :=
  (List.range x.length).flatMap fun r =>
    (List.range (if r = 0 ∨ r = x.length - 1 then s else 1)).map fun j => (x.getD r 0, j)

/-- `_a_levin(omega, f, g, d_g, x, s, basis)`, integrate_oscillating.py L375-416, for finite values; `D n h t` is the `n`-th derivative of
`h`. -/
def levin (lstsq : Lstsq) (D : ℕ → (ℝ → ℝ) → ℝ → ℝ) (om : ℝ) (f g dg : ℝ → ℝ) (x : List ℝ) (s : ℕ) (B : Basis) : ℂ :=
  let rw := rows x s
  let n := rw.length
  let A := rw.map fun r => (List.range n).map fun k =>
    (B.d (r.2 + 1) k r.1 : ℂ) + Complex.I * om * ((D r.2 (fun t => dg t * B.fn k t) r.1 : ℝ) : ℂ)
  let c := lstsq A (rw.map fun r => ((D r.2 f r.1 : ℝ) : ℂ))
  let v : ℝ → ℂ := fun t => ∑ k ∈ Finset.range c.length, c.getD k 0 * (B.fn k t : ℂ)
  v 1 * phase om (g 1) - v (-1) * phase om (g (-1))

/-- `np.linspace(a, b, 31)`. -/
def grid (a b : ℝ) : List ℝ := (List.range 31).map fun i : ℕ => a + i * ((b - a) / 30)

/-- The crossings of one level in `_get_integration_limits`, integrate_oscillating.py L427-436. -/
def crossings (x y : List ℝ) (v : ℝ) : Except PyErr (List ℝ) := do
  let ind ← Cross.findcross y v none
  ind.mapM (Cross.ecross1 x y v)

/-- `_get_integration_limits(omega)`, integrate_oscillating.py L418-442. -/
def limits (om : ℝ) (dg : ℝ → ℝ) (a b : ℝ) : Except PyErr (List ℝ) := do
  let x := grid a b
  let y := x.map fun xi => (b - a) / 2 * om * dg xi
  let x10 ← crossings x y 30
  let x1 ← crossings x y 1
  let x0 ← crossings x y 0
  let xm1 ← crossings x y (-1)
  let xm10 ← crossings x y (-30)
  let all := ((x10 ++ x1 ++ x0 ++ xm1 ++ xm10).dedup).insertionSort (· ≤ ·)
  .ok (a :: all.filter (fun i => a < i ∧ i < b) ++ [b])

/-- `AdaptiveLevin.__call__`, integrate_oscillating.py L444-457: the sum over the parts of the values, error estimates and numbers of
nodes that `piece` (`_QaL`) returns. -/
def adaptive (piece : ℝ → ℝ → ℂ × ℝ × ℕ) (om : ℝ) (dg : ℝ → ℝ) (a b : ℝ) : Except PyErr (ℂ × ℝ × ℕ) := do
  let ab ← limits om dg a b
  let parts := (List.zip ab.dropLast (ab.drop 1)).map fun p => piece p.1 p.2
  .ok (((parts.map (·.1)).sum), (parts.map (·.2.1)).sum, (parts.map (·.2.2)).sum)

/-- `_QaL` after the choice of the points, integrate_oscillating.py L500-516: `q m` is the result of `_a_levin` and `num m` the number of
points for `m` requested points. -/
def refine (q : ℕ → ℂ) (num : ℕ → ℕ) (abseps : ℝ) : List ℕ → ℂ → ℝ → ℕ → ℕ → ℂ × ℝ × ℕ
  | [], v, e, cnt, _ => (v, e, cnt)
  | m :: t, v, e, cnt, old =>
    if old < num m then
      let e' := ‖q m - v‖
      if e' ≤ abseps then (q m, e', cnt + num m) else refine q num abseps t (q m) e' (cnt + num m) (num m)
    else refine q num abseps t v e cnt (num m)

/-- `AdaptiveLevin._get_num_points(s, prec, betam)`, integrate_oscillating.py L460-462. -/
def levinNum (s : ℕ) (prec betam : ℝ) : ℕ := if 1 < s then 1 else (⌊prec / max (Real.log (betam + 1) / Real.log 10) 1 + 1⌋).toNat

/-- `EvansWebster._get_num_points(s, prec, betam)`, integrate_oscillating.py L535-536. -/
def ewNum (s : ℕ) (prec betam : ℝ) : ℕ := if 1 < s then 8 else (⌊prec / max (Real.log (betam + 1) / Real.log 10) 1 + 1⌋).toNat

/-- `num_collocation_point_list`, integrate_oscillating.py L497. -/
def counts (m : ℕ) : List ℕ := [1, 2, 3, 4].map fun i => m * 2 ^ i + 1

/-- `EvansWebster._a_levin`, integrate_oscillating.py L529-533. -/
def ewLevin (lstsq : Lstsq) (om : ℝ) (f : ℝ → ℂ) (g dg : ℝ → ℝ) (x : List ℝ) (B : Basis) : ℂ :=
  (List.zipWith (· * ·) (x.map f) (ewWeights lstsq om g dg x B)).sum

/-- `AdaptiveLevin._QaL(s, a, b, omega)`, integrate_oscillating.py L464-516: `pts` are the points for the requested number, `m` is the
result of `_get_num_points` and `first` is `1e300`. -/
def qalLevin (lstsq : Lstsq) (D : ℕ → (ℝ → ℝ) → ℝ → ℝ) (om : ℝ) (f g dg : ℝ → ℝ) (B : Basis) (s : ℕ) (pts : ℕ → List ℝ) (m : ℕ)
    (first : ℂ) (abseps a b : ℝ) : ℂ × ℝ × ℕ :=
  let scale := (b - a) / 2
  let offset := (a + b) / 2
  refine (fun k => levin lstsq D om (fun t => scale * f (scale * t + offset)) (fun t => g (scale * t + offset))
    (fun t => scale * dg (scale * t + offset)) (pts k) s B) (fun k => (pts k).length) abseps (counts m) first 0 0 0

/-- `EvansWebster._QaL(s, a, b, omega)`, the same function with the weights of Evans and Webster. -/
def qalEw (lstsq : Lstsq) (om : ℝ) (f : ℝ → ℂ) (g dg : ℝ → ℝ) (B : Basis) (pts : ℕ → List ℝ) (m : ℕ)
    (first : ℂ) (abseps a b : ℝ) : ℂ × ℝ × ℕ :=
  let scale := (b - a) / 2
  let offset := (a + b) / 2
  refine (fun k => ewLevin lstsq om (fun t => scale * f (scale * t + offset)) (fun t => g (scale * t + offset))
    (fun t => scale * dg (scale * t + offset)) (pts k) B) (fun k => (pts k).length) abseps (counts m) first 0 0 0

end

end Wafo.Osc
