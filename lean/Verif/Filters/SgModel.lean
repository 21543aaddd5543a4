import Verif.Basic
import Mathlib.Algebra.Order.Field.Basic
import Mathlib.Algebra.BigOperators.Group.Finset.Basic

/-!
# `SavitzkyGolay`: `smooth_last`, and `smooth` away from the edges, for one dimensional signals

Source: `/repo/src/wafo/sg_filter/_core.py:153-184`.  The coefficients (`savgol_coeffs` of scipy, in the order for a
convolution) are given, an odd number of them.
-/

namespace Wafo.Sg

variable {α : Type*} [Field α] [LinearOrder α] [IsStrictOrderedRing α]

/-- `y[n:0:-1]` (`_core.py:161`). -/
def headReversed (n : ℕ) (y : List α) : List α := ((y.take (n + 1)).drop 1).reverse

/-- `y[-2:-n - 2:-1]` (`_core.py:162`). -/
def tailReversed (n : ℕ) (y : List α) : List α := y.dropLast.reverse.take n

/-- The signal with `first_vals` and `last_vals` (`_core.py:161-163`). -/
def padded (n : ℕ) (y : List α) : Except PyErr (List α) :=
  match y.head?, y.getLast? with
  | some a, some b =>
    .ok ((headReversed n y).map (fun v => a - |v - a|) ++ y ++ (tailReversed n y).map (fun v => b + |v - b|))
  | _, _ => .error .indexError

/-- `y[-2 * n - 1 - k:-k]` (`_core.py:164`): for `k = 0` the slice ends at 0 and is empty. -/
def lastWindow (n k : ℕ) (p : List α) : List α :=
  if k = 0 then [] else (p.take (p.length - k)).drop (p.length - (2 * n + 1 + k))

/-- `(window * coeff).sum()` with the rules of broadcasting. -/
def weightedSum (w c : List α) : Except PyErr α :=
  if w.length = c.length then .ok (List.zipWith (· * ·) w c).sum
  else match w with
    | [v] => .ok (c.map (v * ·)).sum
    | _ => .error .valueError

/-- `smooth_last(signal, k)` (`_core.py:153-164`), with the coefficients not a single one (then the signal is returned). -/
def smoothLast (c y : List α) (k : ℕ) : Except PyErr α :=
  let n := (c.length - 1) / 2
  match padded n y with
  | .error e => .error e
  | .ok p => weightedSum (lastWindow n k p) c

/-- `smooth(signal)[i]` for `n <= i < len(signal) - n` (`_core.py:169-184`): `convolve1d` turns the coefficients round, and the
modes and the fit of the edges only matter for the other values. -/
def smoothAt (c y : List α) (i : ℕ) : α :=
  ∑ m ∈ Finset.range c.length, c.getD m 0 * y.getD (i + (c.length - 1) / 2 - m) 0

end Wafo.Sg
