import Verif.Cheb.Model

/-!
Model of the orthogonal polynomial routines `orthoval`, `ortho2poly` and `orthofit` of `/repo/src/wafo/polynomial.py` L318-476.
The array `p` of shape (3, n+1) is a list of columns `(p[0, i], p[1, i], p[2, i])`.
-/

namespace Wafo.Ortho

open Wafo.Poly Wafo.Cheb

variable {α : Type*} [Field α]

/-- The rows `xn[i, :]` for `i ≥ 2` at one point `x`, L347-348. -/
def valGo (x : α) : α → α → List (α × α × α) → List α
  | _, _, [] => []
  | m2, m1, (_, a, b) :: l => ((x - a) * m1 - b * m2) :: valGo x m1 ((x - a) * m1 - b * m2) l

/-- `np.dot` of two vectors of equal length. -/
def dot (u v : List α) : α := (List.zipWith (· * ·) u v).sum

/-- `orthoval(p, x)` at one point, L338-350.  With no column `xn[1]` does not exist. -/
def orthoval (p : List (α × α × α)) (x : α) : Except PyErr α :=
  match p with
  | [] => .error .indexError
  | [c] => .ok (1 * c.1)
  | _ :: c1 :: l => .ok (dot (p.map (·.1)) (1 :: (x - c1.2.1) :: valGo x 1 (x - c1.2.1) l))

/-- `np.polyadd`: the shorter list is padded with leading zeros. -/
def polyadd (p q : List α) : List α :=
  List.zipWith (· + ·) (List.replicate (q.length - p.length) 0 ++ p) (List.replicate (p.length - q.length) 0 ++ q)

/-- The entries `x[i]` for `i ≥ 2`, L398-399. -/
def polyGo [DecidableEq α] : List α → List α → List (α × α × α) → List (List α)
  | _, _, [] => []
  | m2, m1, (_, a, b) :: l =>
    let v := polyadd (polymul [1, -a] m1) (m2.map (fun d => -b * d))
    v :: polyGo m1 v l

/-- `ortho2poly(p)`, L391-404. -/
def ortho2poly [DecidableEq α] (p : List (α × α × α)) : Except PyErr (List α) :=
  match p with
  | [] => .error .indexError
  | [c] => .ok [c.1]
  | c0 :: c1 :: l =>
    let x := [1] :: [1, -c1.2.1] :: polyGo [1] [1, -c1.2.1] l
    match List.zipWith (fun (v : List α) (c : α × α × α) => v.map (fun d => d * c.1)) x (c0 :: c1 :: l) with
    | [] => .error .typeError
    | v :: r => .ok (r.foldl polyadd v)

/-! ### orthofit -/

/-- `np.sum(v ** 2)`. -/
def ssq (v : List α) : α := (v.map (fun t => t ^ 2)).sum

/-- The loop L470-474: `k` more rows; returns `(p[1, i], p[2, i], PL[i])`.  A zero denominator gives nan in Python and 0 here; the
theorems assume enough distinct abscissae, for which no denominator vanishes. -/
def fitGo (x : List α) : ℕ → List α → List α → List (α × α × List α)
  | 0, _, _ => []
  | k + 1, m2, m1 =>
    let a := dot x (m1.map (fun t => t ^ 2)) / ssq m1
    let b := dot x (List.zipWith (· * ·) m2 m1) / ssq m2
    let v := List.zipWith (fun s t => s - t) (List.zipWith (fun s t => (s - a) * t) x m1) (m2.map (fun t => b * t))
    (a, b, v) :: fitGo x k m1 v

/-- `mean`; of an empty array it is nan in Python. -/
def mean (y : List α) : α := y.sum / (y.length : α)

/-- `orthofit(x, y, n)`, L457-476; for `n = 0` the scalar mean stands for the column `(mean, 0, 0)`. -/
def orthofit (x y : List α) (n : ℕ) : Except PyErr (List (α × α × α)) :=
  match n with
  | 0 => .ok [(mean y, 0, 0)]
  | m + 1 =>
    if x.length = y.length then
      let pl0 : List α := x.map (fun _ => 1)
      let pl1 := x.map (fun t => t - mean x)
      let rows := (0, 0, pl0) :: (mean x, 0, pl1) :: fitGo x m pl0 pl1
      .ok (rows.map (fun r => (dot r.2.2 y / ssq r.2.2, r.1, r.2.1)))
    else .error .valueError

end Wafo.Ortho
