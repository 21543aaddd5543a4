import Verif.Basic
import Verif.Poly.Model
import Verif.Tran.Model

/-! Model of `PPform` in /repo/src/wafo/interpolate.py L302-453 (piecewise polynomials).

The coefficient matrix `coeffs` (one column per piece) is the list of its columns, each in order of falling powers, and
`order` is its number of rows.  Points are evaluated one at a time: the array operations of `__call__` are
elementwise.  `store` is the conversion to the element type of `np.empty_like(xnew)`: the identity when the points are
floats, truncation when they are integers.  `none` as `lo`/`hi` stands for the infinite bounds set by
`linear_extrapolate`. -/

namespace Wafo.PP
open Wafo.Poly

variable {α : Type*} [Field α] [LinearOrder α] [IsStrictOrderedRing α]

/-- The attributes set by `__init__`, L332-346. -/
structure PPform (α : Type*) where
  order : ℕ
  coefs : List (List α)
  breaks : List α
  fill : α
  lo : Option α
  hi : Option α
  deriving DecidableEq

/-- `__init__` with the default bounds `a = breaks[0]`, `b = breaks[-1]` (L337-340), `sort=False`: IndexError without
breaks. -/
def make (order : ℕ) (coefs : List (List α)) (breaks : List α) (fill : α) : Except PyErr (PPform α) :=
  match breaks.head?, breaks.getLast? with
  | some a, some b => .ok ⟨order, coefs, breaks, fill, some a, some b⟩
  | _, _ => .error .indexError

/-- `mask`, L352. -/
def inside (pp : PPform α) (x : α) : Bool :=
  (match pp.lo with | some a => decide (a ≤ x) | none => true) &&
  (match pp.hi with | some b => decide (x ≤ b) | none => true)

/-- `np.searchsorted(breaks[:-1], x) - 1` clipped to `[0, len(breaks)]`, L355-356: the number of elements smaller than
`x` (for sorted breaks this is what the bisection returns). -/
def pieceIndex (breaks : List α) (x : α) : ℕ :=
  min ((breaks.dropLast.countP (fun b => decide (b < x))) - 1) breaks.length

/-- `__call__`, L348-367, at one point. -/
def call (store : α → α) (pp : PPform α) (x : α) : Except PyErr α :=
  if inside pp x then
    match pp.breaks[pieceIndex pp.breaks x]?, pp.coefs[pieceIndex pp.breaks x]? with
    | some b, some (c :: l) => .ok (store (l.foldl (fun v c' => (x - b) * v + c') c))
    | _, _ => .error .indexError
  else .ok (store pp.fill)

/-- `derivative`, L424-431. -/
def derivative (pp : PPform α) : Except PyErr (PPform α) :=
  make (pp.order - 1) (pp.coefs.map der1) pp.breaks pp.fill

/-- The value of an integrated piece at the right end of its interval, L446-449. -/
def rightVal (xs : α) (cof : List α) : α :=
  match cof.dropLast with
  | [] => 0
  | c :: l => l.foldl (fun vv c' => xs * (vv + c')) (xs * c)

/-- `cumsum`. -/
def cumsum (s : α) : List α → List α
  | [] => []
  | a :: l => (s + a) :: cumsum (s + a) l

/-- `integrate`, L433-453. -/
def integrate (pp : PPform α) : Except PyErr (PPform α) :=
  let cof := pp.coefs.map (fun p => int1 p 0)
  if 1 < pp.breaks.length - 1 then
    let vv := List.zipWith rightVal (Wafo.Tran.diff pp.breaks.dropLast) cof
    let k := cumsum 0 (0 :: vv)
    make (pp.order + 1) (List.zipWith (fun c k0 => c.dropLast ++ [k0]) cof k) pp.breaks pp.fill
  else make (pp.order + 1) cof pp.breaks pp.fill

/-- `linear_extrapolate`, L369-422.  `store` is the conversion to the element type of `coeffs` (in `polyreloc`). -/
def linearExtrapolate (store : α → α) (pp : PPform α) : Except PyErr (PPform α) :=
  if pp.order ≤ 2 then .ok pp
  else
    match pp.breaks.head?, pp.breaks.dropLast.getLast?, pp.breaks.getLast?, pp.coefs.head?, pp.coefs.getLast? with
    | some b0, some bm, some bn, some p0, some pn => do
      let an ← polyreloc store pn (-(bn - bm)) 0
      let a1 ← polyreloc store (p0.drop (pp.order - 2)) (-((b0 - 1) - b0)) 0
      .ok ⟨pp.order,
        ((List.replicate (pp.order - 2) 0 ++ a1) :: pp.coefs) ++
          [List.replicate (pp.order - 2) 0 ++ an.drop (pp.order - 2)],
        ((b0 - 1) :: pp.breaks) ++ [bn + 1], 0, none, none⟩
    | _, _, _, _, _ => .error .indexError

end Wafo.PP
