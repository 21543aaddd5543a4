import Verif.Basic
import Mathlib.Data.List.Sort
import Mathlib.Algebra.BigOperators.Group.Finset.Basic
import Mathlib.Algebra.BigOperators.Intervals
import Mathlib.Order.Interval.Finset.Nat

/-!
Model of `findoutliers`, `moving_average` and `detrendma` of `/repo/src/wafo/misc.py`.
-/

namespace Wafo.Series

variable {α : Type*} [Field α] [LinearOrder α]

/-! ### `findoutliers`, L1607-1748

A sample is `some x` or `none` for NaN.  Every comparison with NaN is false. -/

/-- `np.flatnonzero(mask)`, used at misc.py L1674-1706. -/
def flatnonzero (mask : List Bool) : List ℕ :=
  (List.range mask.length).filter (fun i => decide (mask[i]? = some true))

/-- Difference of floats that may be NaN. -/
def subNan : Option α → Option α → Option α
  | some a, some b => some (a - b)
  | _, _ => none

/-- `np.diff(x)`, used at misc.py L1732-1733. -/
def diffNan (x : List (Option α)) : List (Option α) := List.zipWith subNan x.tail x

/-- `a > b` for floats that may be NaN. -/
def gtNan : Option α → Option α → Bool
  | some a, some b => decide (a > b)
  | _, _ => false

/-- `-b`. -/
def negNan : Option α → Option α := Option.map (-·)

/-- `abs(a) <= z`. -/
def absLeNan (a z : Option α) : Bool :=
  match a, z with
  | some a, some z => decide (|a| ≤ z)
  | _, _ => false

/-- `_find_spurious_jumps`, L1679-1693. -/
def jumps (d : List (Option α)) (crit : Option α) : List ℕ :=
  let ip := (flatnonzero (d.map (fun a => gtNan a crit))).map (· + 1)
  let im := flatnonzero (d.map (fun a => gtNan (negNan crit) a))
  ip ++ im

/-- `np.diff` of a Boolean array is "not equal". -/
def diffBool (m : List Bool) : List Bool := List.zipWith (fun a b => a != b) m.tail m

/-- `_find_consecutive_equal_values`, L1695-1713. -/
def equalValues (d : List (Option α)) (zcrit : Option α) : List ℕ :=
  let mask := d.map (fun a => absLeNan a zcrit)
  let ismall := flatnonzero mask
  if 0 < ismall.length then
    let istep := (flatnonzero (diffBool mask)).map (· + 1)
    istep.map (· - 1) ++ ismall.map (· + 1) ++ istep ++ istep.map (· + 1)
  else ismall

/-- NaN replacement L1719-1721: `np.any(i_missing)` is false when index 0 is the only missing one. -/
def fixNan (x : List (Option α)) : List (Option α) :=
  let imiss := flatnonzero (x.map (fun a => a.isNone))
  if imiss.any (fun i => decide (i ≠ 0)) then x.map (fun a => some (a.getD 0)) else x

/-- The collected indices before `np.unique`, L1732-1737. -/
def rawInd (x : List (Option α)) (zcrit dcrit ddcrit : Option α) : List ℕ :=
  let xn := fixNan x
  let dxn := diffNan xn
  let ddxn := diffNan dxn
  jumps dxn dcrit ++ jumps ddxn ddcrit ++ equalValues dxn zcrit

/-- `np.unique`, used at L1741. -/
def unique (l : List ℕ) : List ℕ := (l.insertionSort (· ≤ ·)).dedup

/-- `findoutliers(x, zcrit, dcrit, ddcrit)`, misc.py L1607-1748 (size check L1717, indices L1735-1743).  `dcrit` and `ddcrit` are the critical distances actually used
(given, or the default 1.5 standard deviations, which may be NaN). -/
def findoutliers (x : List (Option α)) (zcrit dcrit ddcrit : Option α) :
    Except PyErr (List ℕ × List ℕ) :=
  if 2 < x.length then
    let raw := rawInd x zcrit dcrit ddcrit
    if 1 < raw.length then
      let ind := unique raw
      if ind.all (fun i => decide (i < x.length)) then
        .ok (ind, (List.range x.length).filter (fun i => decide (i ∉ ind)))
      else .error .indexError
    else .ok (raw, List.range x.length)
  else .error .valueError

/-! ### `moving_average`, L793-876, and `detrendma`, L879-936 (one-dimensional) -/

open Finset

/-- `x[i]`; every index used below lies in the array. -/
def at' (x : List α) (i : ℕ) : α := x.getD i 0

/-- The value `y[i]` for `L < i < n - L`, and the mean of the first window for `i <= L`. -/
def inner (x : List α) (L i : ℕ) : α :=
  (∑ k ∈ Ico (L + 1) (i + 1), (at' x (k + L) - at' x (k - L)) / (2 * L))
    + (∑ k ∈ range (2 * L + 1), at' x k) / (2 * L + 1)

/-- `moving_average(x, L)`, misc.py L852-876.  The dtype of the result is not modelled (for integer input the
code truncates, because of `np.empty_like`). -/
def movingAverage (x : List α) (L : ℤ) : Except PyErr (List α) :=
  if 0 < L then
    let l := L.toNat
    let n := x.length
    if n < 2 * l + 1 then .ok (x.map (fun _ => x.sum / n))
    else .ok ((List.range n).map (fun i =>
      if i < l + 1 then (∑ k ∈ range (2 * l + 1), at' x k) / (2 * l + 1)
      else if i < n - l then inner x l i
      else inner x l (n - l - 1)))
  else .error .valueError

/-- `detrendma(x, L)`, misc.py L879-936. -/
def detrendma (x : List α) (L : ℤ) : Except PyErr (List α) :=
  (movingAverage x L).map (fun t => List.zipWith (· - ·) x t)

end Wafo.Series
