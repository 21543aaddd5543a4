import Verif.Poly.Model
import Mathlib.Algebra.Order.Ring.Abs

/-!
Model of the Chebyshev series functions of `/repo/src/wafo/polynomial.py`.  Coefficients are listed from the
highest degree down to degree zero.
-/

namespace Wafo.Cheb

open Wafo.Poly

variable {α : Type*} [Field α]

/-- One step of the Clenshaw recurrence, polynomial.py L1500-1504; the state is `(b_Nmi, b_Nmip1)`. -/
def clenStep (x : α) (s : α × α) (c : α) : α × α := (2 * x * s.1 - s.2 + c, s.1)

/-- `_chebval(x, ck, kind)` at one point, L1474-1505: the loop runs over `ck[:-1]`, the last coefficient enters the
final formula; `ck[n - 1]` raises IndexError for an empty list. -/
def chebval0 (x : α) (ck : List α) (kind : ℕ) : Except PyErr α :=
  match ck.getLast? with
  | none => .error .indexError
  | some c0 =>
    let s := ck.dropLast.foldl (clenStep x) (0, 0)
    .ok ((kind : α) * x * s.1 - s.2 + c0)

/-- `chebval(x, ck, a, b, kind)` at one point without `fill`, L1562-1564. -/
def chebval (x : α) (ck : List α) (a b : α) (kind : ℕ) : Except PyErr α :=
  chebval0 (mapFromInterval x a b) ck kind

/-- `chebval(x, ck, a, b, kind, fill)` at one point with `fill`, L1565-1572.  `store` is the conversion of a value
assigned into the array `np.where(cond, 0, fill)`: the identity when `fill` is a float, truncation when it is an integer. -/
def chebvalFill [LinearOrder α] (store : α → α) (x : α) (ck : List α) (a b : α) (kind : ℕ) (fill : α) : Except PyErr α :=
  let y := mapFromInterval x a b
  if |y| ≤ 1 then
    match chebval0 y ck kind with
    | .ok v => .ok (store v)
    | .error e => .error e
  else .ok fill

/-- The loop of `chebder`, L1622-1626: `cder[j] = cder[j-2] + 2*(n-j)*ck[j]`; `p2`, `p1` are the two entries before (zero
at the start) and the remaining list has length `n - j`. -/
def derGo (p2 p1 : α) : List α → List α
  | [] => []
  | c :: l =>
    let d := p2 + 2 * ((l.length + 1 : ℕ) : α) * c
    d :: derGo p1 d l

/-- `chebder(ck, a, b)`, L1576-1628, with `n = len(ck) - 1`: `np.zeros(-1)` raises ValueError, and for `n < 2` the assignment
to `cder[0]` or `cder[1]` raises IndexError. -/
def chebder (ck : List α) (a b : α) : Except PyErr (List α) :=
  if ck = [] then .error .valueError
  else if ck.length - 1 < 2 then .error .indexError
  else .ok ((derGo 0 0 ck.dropLast).map (fun d => d * 2 / (b - a)))

/-- `chebint(ck, a, b)`, L1631-1702, for `n = len(ck) >= 2`.  Written with `c k = ck[n-1-k]`, the coefficient of degree
`k`: the inner coefficients L1688-1693, then L1694-1698 overwrite the last entry (degree 0) and the first entry (degree
`n-1`).  `n = 0` raises IndexError; for `n = 1` the code divides by `n - 1 = 0`. -/
def chebint (ck : List α) (a b : α) : Except PyErr (List α) :=
  let n := ck.length
  if n = 0 then .error .indexError
  else if n = 1 then .error .zeroDivision
  else
    let con := (b - a) / 4
    let c : ℕ → α := fun k => ck.getD (n - 1 - k) 0
    -- low to high, before the two assignments
    let lo : List α := (List.range n).map (fun k =>
      if 1 ≤ k ∧ k ≤ n - 2 then -(con * (c (k + 1) - c (k - 1))) / (k : α) else 0)
    let hi := lo.reverse
    let hi1 := hi.set (n - 1) (con * ck.getD (n - 2) 0 / ((n - 1 : ℕ) : α))
    -- cint[-2::-1] = degrees 1 .. n-1
    let s := ((List.range (n - 1)).map (fun i => (-1) ^ i * hi1.getD (n - 2 - i) 0)).sum
    .ok (hi1.set 0 (2 * s))

/-! ### cheb2poly -/

/-- Sum of two lists from the left; the longer one keeps its tail. -/
def addL : List α → List α → List α
  | [], q => q
  | p, [] => p
  | a :: p, b :: q => (a + b) :: addL p q

/-- `np.convolve` of coefficient lists (one row per coefficient of the first factor). -/
def conv : List α → List α → List α
  | [], _ => []
  | [c], q => q.map (fun d => c * d)
  | c :: d :: p, q => addL (q.map (fun d => c * d)) (0 :: conv (d :: p) q)

/-- The coefficients kept by `poly1d`: leading zeros removed, at least one entry. -/
def trim1 [DecidableEq α] (p : List α) : List α := if polytrim p = [] then [0] else polytrim p

/-- `np.polymul`: convolution of the trimmed lists. -/
def polymul [DecidableEq α] (p q : List α) : List α := conv (trim1 p) (trim1 q)

/-- `v[-nb::] = v[-nb::] - w` with `nb = len(w)`, L1018 and L1025: subtraction aligned at the constant term; shapes
that do not fit raise ValueError. -/
def subTail (v w : List α) : Except PyErr (List α) :=
  if w.length ≤ v.length then
    .ok (v.take (v.length - w.length) ++ List.zipWith (· - ·) (v.drop (v.length - w.length)) w)
  else .error .valueError

/-- `w[-1] = w[-1] - c`, L1017 and L1024. -/
def subLast (w : List α) (c : α) : List α := w.set (w.length - 1) (w.getD (w.length - 1) 0 - c)

/-- The loop L1013-1019; the state is `(b_Nmi, b_Nmip1)`. -/
def c2pLoop [DecidableEq α] (y2 : List α) : List α → List α × List α → Except PyErr (List α × List α)
  | [], s => .ok s
  | c :: l, s =>
    match subTail (polymul y2 s.1) (subLast s.2 c) with
    | .ok b => c2pLoop y2 l (b, s.1)
    | .error e => .error e

/-- `cheb2poly(ck, a, b)`, L967-1026. -/
def cheb2poly [DecidableEq α] (ck : List α) (a b : α) : Except PyErr (List α) :=
  if b - a = 0 then .error .zeroDivision
  else
    let y := [2 / (b - a), -(a + b) / (b - a)]
    match c2pLoop (y.map (fun v => 2 * v)) ck.dropLast ([0], [0]) with
    | .error e => .error e
    | .ok s =>
      match ck.getLast? with
      | none => .error .indexError
      | some c0 =>
        match subTail (polymul y s.1) (subLast s.2 c0) with
        | .ok p => .ok (polytrim p)
        | .error e => .error e

end Wafo.Cheb
