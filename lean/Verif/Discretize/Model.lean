import Verif.Basic
import Mathlib.Data.List.Sort

/-!
Model of `discretize`, `_discretize_linear` and `_discretize_adaptive` of `/repo/src/wafo/misc.py`.

`fn` is the function to discretise, applied element by element.  `np.interp(x, x0, y0)` only enters the error
estimate; it is a parameter `interp x0 y0 x`, so the theorems hold whatever it returns.
-/

namespace Wafo.Discretize

variable {α : Type*} [Field α] [LinearOrder α]

/-- `np.linspace(a, b, n)` for `n >= 0` (used at misc.py L2250, L2262 and L2275). -/
def linspace (a b : α) (n : ℕ) : List α :=
  if n = 1 then [a] else (List.range n).map (fun k : ℕ => a + (k : α) * ((b - a) / ((n : α) - 1)))

/-- `np.amax` of a non-empty array. -/
def amax : List α → α
  | [] => 0
  | [a] => a
  | a :: l => max a (amax l)

/-- Scaled error of one point, misc.py L2265 and L2299. -/
def relErr (tiny tol : α) (y0 y : α) : α := |y0 - y| / (|y0| + |y| + tiny + tol)

/-- The constants of a run: function, interpolation, limits, tolerance and `_TINY`. -/
structure Par (α : Type*) where
  /-- the function -/
  fn : α → α
  /-- `np.interp(x, x0, y0)` as `interp x0 y0 x` -/
  interp : List α → List α → α → α
  /-- lower limit -/
  a : α
  /-- upper limit -/
  b : α
  /-- tolerance -/
  tol : α
  /-- `_TINY` -/
  tiny : α

/-- State of the loop in `_discretize_linear`. -/
structure LinState (α : Type*) where
  /-- number of points -/
  n : ℕ
  /-- last error -/
  err : α
  /-- `num_tries` -/
  tries : ℕ
  /-- abscissae -/
  x : List α
  /-- ordinates -/
  y : List α

/-- Loop condition, misc.py L2257. -/
def linGo (p : Par α) (s : LinState α) : Bool :=
  decide (s.tries < 5) && decide (p.tol < s.err) && decide (s.n < 2 ^ 20)

/-- Loop body, misc.py L2258-2266 (for `n >= 1`). -/
def linStep (p : Par α) (s : LinState α) : LinState α :=
  let n := 2 * (s.n - 1) + 1
  let x := linspace p.a p.b n
  let y := x.map p.fn
  let y00 := x.map (p.interp s.x s.y)
  let err := 1 / 2 * amax (List.zipWith (relErr p.tiny p.tol) y00 y)
  { n := n, err := err, tries := s.tries + (if |err - s.err| ≤ p.tol / 2 then 1 else 0), x := x, y := y }

/-- The while loop with at most `fuel` rounds; `none` if they do not suffice. -/
def linLoop (p : Par α) : ℕ → LinState α → Option (List α × List α)
  | 0, s => if linGo p s then none else some (s.x, s.y)
  | fuel + 1, s => if linGo p s then linLoop p fuel (linStep p s) else some (s.x, s.y)

/-- `_discretize_linear(fun, a, b, tol, n)`, misc.py L2246-2267, for `n >= 1`. -/
def discretizeLinear (p : Par α) (n fuel : ℕ) : Option (List α × List α) :=
  let x := linspace p.a p.b n
  linLoop p fuel { n := n, err := 10000, tries := 0, x := x, y := x.map p.fn }

/-- One point of the adaptive grid: entries of the parallel arrays `x`, `fx` and `erri`. -/
structure Node (α : Type*) where
  /-- abscissa -/
  x : α
  /-- ordinate -/
  fx : α
  /-- error estimate -/
  err : α
deriving DecidableEq, Repr

/-- `x[i]` with Python's negative indices. -/
def pyGet {β : Type*} (x : List β) (i : ℤ) : Except PyErr β :=
  let j : ℤ := if i < 0 then i + x.length else i
  if 0 ≤ j then
    match x[j.toNat]? with
    | some v => .ok v
    | none => .error .indexError
  else .error .indexError

/-- `ix, = np.where(erri > tol)`, misc.py L2289. -/
def hotIdx (p : Par α) (t : List (Node α)) : List ℕ :=
  (List.range t.length).filter (fun i => match t[i]? with
    | some v => decide (p.tol < v.err)
    | none => false)

/-- The two midpoints next to grid point `i`, misc.py L2291-2292. -/
def midPair (x : List α) (i : ℕ) : Except PyErr (List α) :=
  match pyGet x i, pyGet x ((i : ℤ) - 1), pyGet x ((i : ℤ) + 1) with
  | .ok c, .ok l, .ok r => .ok [(c + l) / 2, (r + c) / 2]
  | _, _, _ => .error .indexError

/-- `y = np.vstack(((x[ix]+x[ix-1])/2, (x[ix+1]+x[ix])/2)).T.ravel()`, misc.py L2291-2292. -/
def midPoints (x : List α) : List ℕ → Except PyErr (List α)
  | [] => .ok []
  | i :: ix => match midPair x i, midPoints x ix with
    | .ok q, .ok r => .ok (q ++ r)
    | _, _ => .error .indexError

/-- State of the adaptive loop. -/
structure AdState (α : Type*) where
  /-- grid, sorted -/
  grid : List (Node α)
  /-- largest error -/
  err : α
  /-- `num_tries` -/
  tries : ℕ

/-- Loop body, misc.py L2286-2310. -/
def adStep (p : Par α) (s : AdState α) : Except PyErr (AdState α) :=
  let x := s.grid.map Node.x
  let fx := s.grid.map Node.fx
  match midPoints x (hotIdx p s.grid) with
  | .error e => .error e
  | .ok y =>
    let new := y.map (fun v =>
      { x := v, fx := p.fn v, err := 1 / 2 * relErr p.tiny p.tol (p.interp x fx v) (p.fn v) : Node α })
    let err := amax (new.map Node.err)
    let old := s.grid.map (fun v => { v with err := 0 })
    .ok { grid := (old ++ new).insertionSort (fun u v => u.x ≤ v.x), err := err,
          tries := s.tries + (if |err - s.err| ≤ p.tol / 2 then 1 else 0) }

/-- `for j in range(50)`, misc.py L2284-2313; the warning after 50 rounds is not modelled. -/
def adLoop (p : Par α) : ℕ → AdState α → Except PyErr (List (Node α))
  | 0, s => .ok s.grid
  | k + 1, s =>
    if s.tries < 5 ∧ p.tol < s.err then
      match adStep p s with
      | .error e => .error e
      | .ok s' => adLoop p k s'
    else .ok s.grid

/-- `_discretize_adaptive(fun, a, b, tol, n)`, misc.py L2270-2315: `n` is made odd; `erri` starts as
0, 1, 0, 1, ... and is one shorter than `x` (the missing entry is never selected, for `tol >= 0` like an entry 0); `erri.max()` of an
empty array raises ValueError. -/
def discretizeAdaptive (p : Par α) (n : ℕ) : Except PyErr (List α × List α) :=
  let n := if n % 2 = 0 then n + 1 else n
  let x := linspace p.a p.b n
  if n - 1 = 0 then .error .valueError
  else
    let grid := (List.range n).zipWith (fun k v =>
      { x := v, fx := p.fn v, err := if k % 2 = 1 then 1 else 0 : Node α }) x
    match adLoop p 50 { grid := grid, err := 1, tries := 0 } with
    | .error e => .error e
    | .ok g => .ok (g.map Node.x, g.map Node.fx)

/-- `discretize(fun, a, b, tol, n, method)`, misc.py L2193-2243. -/
def discretize (p : Par α) (n fuel : ℕ) (method : String) : Except PyErr (Option (List α × List α)) :=
  if method.startsWith "a" then (discretizeAdaptive p n).map some else .ok (discretizeLinear p n fuel)

end Wafo.Discretize
