import Verif.Basic
import Mathlib.Algebra.BigOperators.Fin
import Mathlib.Analysis.Real.Sqrt

/-!
Model of the linear algebra of `chebfitnd`, `/repo/src/wafo/polynomial.py` L2128-2274.

The pseudo Vandermonde matrix `V` (`m` samples, `n` coefficients) is given; no weights.  Arrays are functions on `Fin`.  The
function `_init` returns `(lhs, scl, rhs)`, but the caller unpacks `lhs, rhs, scl`, so that data and scale factors are exchanged.
-/

namespace Wafo.ChebNd

open Finset

/-- `_scale(lhs)`, L2236-2243: the norms of the columns, 1 for a zero column. -/
noncomputable def scale {m n : ℕ} (V : Fin m → Fin n → ℝ) (j : Fin n) : ℝ :=
  let s := Real.sqrt (∑ i, V i j ^ 2)
  if s = 0 then 1 else s

/-- Is the shape `(m, n)` compatible with a vector of length `k` (numpy broadcasting)? -/
def broadcasts (n k : ℕ) : Bool := n == k || n == 1 || k == 1

/-- `chebfitnd` after the Vandermonde matrix has been formed, L2265-2269.  `solve` is `np.linalg.lstsq` for a square matrix.  The
names are those of the caller: `scl` holds the data (length `m`), `rhs` the column norms (length `n`).  Dividing `lhs` by `scl`
needs broadcastable shapes, `lstsq` needs as many equations as right-hand sides. -/
noncomputable def chebfitnd {m n : ℕ} (solve : (Fin n → Fin n → ℝ) → (Fin n → ℝ) → Fin n → ℝ) (V : Fin m → Fin n → ℝ) (z : Fin m → ℝ) :
    Except PyErr (Fin n → ℝ) :=
  if ! broadcasts n m then .error .valueError
  else if h : m = n then
    let scl : Fin n → ℝ := fun j => z (Fin.cast h.symm j)
    let rhs := scale V
    let c := solve (fun i j => V (Fin.cast h.symm i) j / scl j) rhs
    .ok (fun j => c j / scl j)
  else .error .valueError

end Wafo.ChebNd
