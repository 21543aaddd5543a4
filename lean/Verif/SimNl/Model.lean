import Mathlib.Algebra.Order.Field.Basic
import Mathlib.Algebra.Order.Field.Rat
import Mathlib.Data.List.GetD
import Mathlib.Tactic.Linarith
import Verif.Basic

/-!
# The index window of `SpecData1D.sim_nl` and `stats_nl` (`spectrum/core.py`)

`sim_nl` hands `disufq` the limits `nmin` and `nmax`: 0-based positions in the list `f = df, 2 df, ...` plus one.
`stats_nl` (method 'approximate') integrates the tables of `qtf` by the trapezoidal rule.

Simplifications: numbers of a linear ordered field; the spectrum at `f`, the thresholds and frequency limits are
arguments; the tables of `qtf`, the variance `m0` (Simpson's rule) and its root are arguments of `stats_nl`.
-/

namespace Wafo.SimNl

variable {α : Type*} [Field α] [LinearOrder α] [IsStrictOrderedRing α]

/-- First index of `0, ..., n-1` satisfying `p`. -/
def firstIdx (p : ℕ → Bool) (n : ℕ) : Option ℕ := (List.range n).find? p

/-- Last index of `0, ..., n-1` satisfying `p`. -/
def lastIdx (p : ℕ → Bool) : ℕ → Option ℕ
  | 0 => none
  | n + 1 => if p n then some n else lastIdx p n

/-- `flatnonzero(...).min()` and `.max()` of nothing raise ValueError. -/
def orValueError : Option ℕ → Except PyErr ℕ
  | none => .error .valueError
  | some i => .ok i

/-- `f[j]`, `f = arange(1, ns2) * df` (`spectrum/core.py:2892`). -/
def freqAt (df : α) (j : ℕ) : α := ((j + 1 : ℕ) : α) * df

/-- `w[c] / (2 pi)`, `w = 2 pi hstack((0, f, df * ns2))` (`spectrum/core.py:2894`). -/
def compFreq (df : α) (c : ℕ) : α := (c : α) * df

/-- `nmin` and `nmax` as handed to `disufq` (`spectrum/core.py:2899-2900, 2964-2965`); `s` is the spectrum at the `len`
frequencies `f`, `thr = s_max * reltol`.  `argmax` of a mask that is nowhere true is 0. -/
def window (s : ℕ → α) (len : ℕ) (thr flo fup df : α) : Except PyErr (ℕ × ℕ) := do
  let nmin := (firstIdx (fun j => decide (thr < s j)) len).getD 0
  let nmax ← orValueError (lastIdx (fun j => decide (0 < s j)) len)
  let up ← orValueError (lastIdx (fun j => decide (freqAt df j ≤ fup)) len)
  let lo ← orValueError (firstIdx (fun j => decide (flo ≤ freqAt df j)) len)
  .ok (max lo nmin + 1, min up nmax + 1)

/-- The components of the loops in `disufq`: `range(nmin - 1, nmax)` (`_misc_numba.py:260, 369`). -/
def inLoop (nmin nmax c : ℕ) : Prop := nmin - 1 ≤ c ∧ c < nmax

/-! ## `stats_nl` -/

/-- `trapz(y, x)`. -/
def trapz : List α → List α → α
  | y0 :: y1 :: ys, x0 :: x1 :: xs => (x1 - x0) * (y0 + y1) / 2 + trapz (y1 :: ys) (x1 :: xs)
  | _, _ => 0

/-- `trapz(trapz((Hs + Hd) * S[newaxis, :], w) * S, w)` (`spectrum/core.py:3118`). -/
def hspd (hs hd : List (List α)) (s w : List α) : α :=
  trapz (List.zipWith (· * ·) (List.zipWith (fun r q => trapz (List.zipWith (· * ·) (List.zipWith (· + ·) r q) s) w) hs hd) s) w

/-- `stats_nl(moments=..., method=...)` (`spectrum/core.py:3095-3132`) with `m0` and `sa = sqrt(m0)` given.  The method
is looked at by its first letter. -/
def statsNl (hs hd : List (List α)) (hdii s w : List α) (m0 sa : α) (moments method : List Char) :
    Except PyErr (List α) :=
  match method with
  | [] => .error .indexError
  | c :: _ =>
    if c = 'a' then
      let skew := 6 / sa ^ 3 * hspd hs hd s w
      .ok ((if 'm' ∈ moments then [2 * trapz (List.zipWith (· * ·) hdii s) w] else []) ++
        (if 'v' ∈ moments then [m0] else []) ++
        (if 's' ∈ moments then [skew] else []) ++
        (if 'k' ∈ moments then [(4 * skew / 3) ^ 2 + 3] else []))
    else .error .valueError

end Wafo.SimNl
