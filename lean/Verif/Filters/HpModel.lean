import Verif.Basic
import Mathlib.Data.Real.Basic
import Mathlib.Algebra.BigOperators.Group.Finset.Basic

/-!
# `HodrickPrescott`: model of the filter

Source: `/repo/src/wafo/sg_filter/_core.py:716-778`.

Floats are real numbers.  A matrix is a function of two natural numbers of which the entries below
`n` matter; a series is a function of which the first `n` values matter.  `spsolve` is not
modelled: the result is any `y` with `A y = x` (`HpResult`); that there is exactly one for
`w ≥ 0` is proved (C332).
-/

namespace Wafo.Hp

open Finset

/-- `A[i, j] = v` for one entry of the matrix. -/
def setEntry (A : ℕ → ℕ → ℝ) (i j : ℕ) (v : ℝ) : ℕ → ℕ → ℝ :=
  fun a b => if a = i ∧ b = j then v else A a b

/-- `spdiags(diag_matrix, arange(-2, 3), n, n)` with constant diagonals (`_core.py:763-765`): the
entry on the diagonal with offset `j - i`. -/
def bands (w : ℝ) : ℕ → ℕ → ℝ := fun i j =>
  if j + 2 = i then w
  else if j + 1 = i then -4 * w
  else if j = i then 6 * w + 1
  else if j = i + 1 then -4 * w
  else if j = i + 2 then w
  else 0

/-- `_get_matrix` (`_core.py:761-769`); the indices `-1` and `-2` are `n - 1` and `n - 2`, and the
chained assignments run from left to right. -/
def getMatrix (w : ℝ) (n : ℕ) : ℕ → ℕ → ℝ :=
  let A := bands w
  let A := setEntry A 0 0 (1 + w)
  let A := setEntry A (n - 1) (n - 1) (1 + w)
  let A := setEntry A 1 1 (1 + 5 * w)
  let A := setEntry A (n - 2) (n - 2) (1 + 5 * w)
  let A := setEntry A 0 1 (-2 * w)
  let A := setEntry A 1 0 (-2 * w)
  let A := setEntry A (n - 2) (n - 1) (-2 * w)
  setEntry A (n - 1) (n - 2) (-2 * w)

/-- `y` is a result of `__call__` for the series `x` of `n` values (`_core.py:771-778`): the series
itself when `n < 4`, otherwise a solution of the linear system. -/
def HpResult (w : ℝ) (n : ℕ) (x y : ℕ → ℝ) : Prop :=
  if n < 4 then ∀ i < n, y i = x i
  else ∀ i < n, ∑ j ∈ range n, getMatrix w n i j * y j = x i

end Wafo.Hp
