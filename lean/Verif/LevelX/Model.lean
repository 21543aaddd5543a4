import Verif.Basic
import Verif.Cycles.Model
import Mathlib.Algebra.Order.Floor.Ring
import Mathlib.Algebra.Order.Field.Rat
import Mathlib.Data.Rat.Floor

/-!
Model of `LevelCrossings` in objects.py L56-358: extrapolation of a crossing spectrum for high and low levels.

Floats are elements of an ordered field.  The fit of a distribution to the exceedances (`genpareto.fit2`, `expon.fit2`,
`truncrayleigh.fit2`) is a parameter that maps the sample to a survival function or fails; the confidence bands are not modelled.
-/

namespace Wafo.LevelX
open Wafo.Cycles

variable {α : Type} [Field α] [LinearOrder α] [IsStrictOrderedRing α]

/-- The loop of `_make_increasing`, objects.py L354-357: `last` is `ff[-1]`. -/
def recordsFrom (last : α) : List (α × α) → List (α × α)
  | [] => []
  | (f, t) :: l => if last < f then (f, t) :: recordsFrom f l else recordsFrom last l

/-- `_make_increasing(f, t)`, objects.py L344-358, on the pairs `zip(f, t)`; `f[0]` of an empty array is an IndexError. -/
def makeIncreasing : List (α × α) → Except PyErr (List (α × α))
  | [] => .error .indexError
  | (f, t) :: l => .ok ((f, t) :: recordsFrom f l)

section
variable [FloorRing α]

/-- Python's `int(a)`: truncation towards zero. -/
def intOf (a : α) : ℤ := if 0 ≤ a then ⌊a⌋ else ⌈a⌉

/-- The loop over the records, objects.py L269-274: `np.ones(ni - nim1) * xk`, which is a ValueError for a negative number. -/
def copies (nim1 : ℤ) : List (α × α) → Except PyErr (List α)
  | [] => .ok []
  | (f, t) :: l =>
    if intOf f - nim1 < 0 then .error .valueError
    else
      match copies (intOf f) l with
      | .error e => .error e
      | .ok r => .ok (List.replicate (intOf f - nim1).toNat t ++ r)

/-- The sample of exceedances over the level `u`, objects.py L264-276. -/
def exceedances (lcx lcf : List α) (u : α) : Except PyErr (List α) :=
  match makeIncreasing ((lcf.zip lcx).filter fun p => decide (u < p.2)).reverse with
  | .error e => .error e
  | .ok r =>
    match copies 0 r with
    | .error e => .error e
    | .ok x => .ok (x.map (· - u))

/-- `np.interp(u, lcx, lcf)` for increasing `lcx`: constant outside the levels, linear in between. -/
def npInterp (u : α) : List α → List α → α
  | [], _ => 0
  | _, [] => 0
  | [_], f :: _ => f
  | _, [f] => f
  | x0 :: x1 :: x, f0 :: f1 :: f =>
    if u ≤ x0 then f0 else if u < x1 then f0 + (f1 - f0) * ((u - x0) / (x1 - x0)) else npInterp u (x1 :: x) (f1 :: f)

/-- `xF = np.arange(0.0, 4 + df / 2, df)` with `df = 0.01`, objects.py L278-279: 401 values. -/
def xF : List α := (List.range 401).map fun k : ℕ => (k : α) / 100

/-- `_extrapolate(lcx, lcf, u, ...)`, objects.py L258-342: the first two columns of `lcEst` as pairs of level and count. -/
def tail (fit : List α → Except PyErr (α → α)) (lcx lcf : List α) (u : α) : Except PyErr (List (α × α)) :=
  match exceedances lcx lcf u with
  | .error e => .error e
  | .ok s =>
    match fit s with
    | .error e => .error e
    | .ok sf => .ok (xF.map fun y => (y + u, (npInterp u lcx lcf + 1) * sf y))

/-- The levels used when `u_min` or `u_max` is not given, objects.py L230-232: those with `data > sqrt(c_max)`, written without
root for counts that are not negative. -/
def busy (lcx lcf : List α) : List α :=
  ((lcf.zip lcx).filter fun p => decide (0 < p.1 ∧ ∀ c ∈ lcf, c < p.1 * p.1)).map Prod.snd

/-- `u_min` and `u_max`, objects.py L230-236; `i.min()` of an empty array is a ValueError. -/
def thresholds (lcx lcf : List α) (umin umax : Option α) : Except PyErr (α × α) :=
  match umin, umax with
  | some a, some b => .ok (a, b)
  | _, _ =>
    match (busy lcx lcf).head?, (busy lcx lcf).getLast? with
    | some a, some b => .ok (umin.getD a, umax.getD b)
    | _, _ => .error .valueError

/-- `extrapolate(u_min, u_max)`, objects.py L226-256: levels and counts of the result. -/
def extrapolate (fit : List α → Except PyErr (α → α)) (lcx lcf : List α) (umin umax : Option α) :
    Except PyErr (List (α × α)) :=
  if lcf = [] then .error .valueError
  else
    match thresholds lcx lcf umin umax with
    | .error e => .error e
    | .ok (a, b) =>
      match tail fit lcx lcf b with
      | .error e => .error e
      | .ok high =>
        match tail fit (lcx.reverse.map fun y => -y) lcf.reverse (-a) with
        | .error e => .error e
        | .ok low =>
          .ok (low.reverse.map (fun p => (-p.1, p.2)) ++
            (lcx.zip lcf).filter (fun p => decide (a < p.1 ∧ p.1 < b)) ++ high)

end

end Wafo.LevelX
