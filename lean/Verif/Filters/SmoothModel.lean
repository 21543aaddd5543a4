import Verif.Basic
import Verif.Dct.Model
import Verif.Filters.HampelModel
import Mathlib.Analysis.SpecialFunctions.Pow.Real

/-!
# `smoothn` (`SmoothNd`, `_Filter`): model for one dimensional data

Source: `/repo/src/wafo/sg_filter/_core.py:275-573`.

Floats are real numbers.  A series of length `n` is a function of which the first `n` values matter; a
value that is not finite is `none`.  The transforms are those of `Verif/Dct` (`dctpack.py`).
The smoothing parameter `s` is given; the search for it (`gcv`, `fminbound`, `_core.py:453-470`,
`482-494`) is not modelled, nor are data with more than one dimension.
-/

namespace Wafo.Smooth

open Finset Dct

/-! ## The smoothness parameter -/

/-- `_smoothness_par` (`_core.py:314-316`). -/
noncomputable def smoothnessPar (h : ℝ) : ℝ := (((1 + Real.sqrt (1 + 8 * h)) / 4 / h) ^ 2 - 1) / 16

/-- `h ** (2. / n)` in `_smoothness_limits` (`_core.py:328-329`), for the leverage `h` allowed. -/
noncomputable def limitFor (h : ℝ) (n : ℕ) : ℝ := smoothnessPar (h ^ ((2 : ℝ) / n))

/-- `_average_leverage` (`_core.py:438-442`). -/
noncomputable def averageLeverage (s : ℝ) (N : ℕ) : ℝ :=
  let h := Real.sqrt (1 + 16 * s)
  let h := Real.sqrt (1 + h) / Real.sqrt 2 / h
  h ^ N

/-! ## The weights -/

/-- The largest of the first `n` values. -/
noncomputable def maxOver (n : ℕ) (f : ℕ → ℝ) : ℝ := ((List.range n).map f).foldl max (f 0)

/-- `weight * is_finite` (`_core.py:406`). -/
noncomputable def finiteWeights (w : ℕ → ℝ) (y : ℕ → Option ℝ) : ℕ → ℝ :=
  fun i => if (y i).isSome then w i else 0

/-- `_normalized_weights` (`_core.py:399-408`). -/
noncomputable def normalizedWeights (n : ℕ) (w : ℕ → ℝ) (y : ℕ → Option ℝ) :
    Except PyErr (ℕ → ℝ) :=
  open Classical in
  let v := finiteWeights w y
  if ∀ i < n, 0 ≤ v i then .ok fun i => v i / maxOver n v else .error .valueError

/-- `self.y[~self.is_finite] = 0` (`_core.py:301`): `y` is the array of the caller when that is an
array, since `np.atleast_1d` does not copy (`_core.py:552`). -/
def zeroFilled (y : ℕ → Option ℝ) : ℕ → ℝ := fun i => (y i).getD 0

/-- The data of the caller after the call, when they are an array. -/
def dataAfter (y : ℕ → Option ℝ) : ℕ → Option ℝ := fun i => some (zeroFilled y i)

/-- `self.is_weighted = (self.W < 1).any()` (`_core.py:297`). -/
def isWeighted (n : ℕ) (W : ℕ → ℝ) : Prop := ∃ i < n, W i < 1

/-- The array before the coarse smoothing in `_initial_guess` (`_core.py:364-371`): with missing
values `z` is the *distance* array of `distance_transform_edt`, which is 0 at the finite
values, and `nearest` gives the index of the nearest finite value. -/
def initialFill (anyMissing : Bool) (nearest : ℕ → ℕ) (dist : ℕ → ℝ) (y : ℕ → Option ℝ) : ℕ → ℝ :=
  if anyMissing then fun i => if (y i).isSome then dist i else zeroFilled y (nearest i)
  else zeroFilled y

/-! ## One smoothing -/

/-- `_lambda_tensor` for one dimension (`_core.py:335-352`). -/
noncomputable def lam (n k : ℕ) : ℝ := -2 * (1 - Real.cos (Real.pi * k / n))

/-- `gamma(s)` (`_core.py:354-361`). -/
noncomputable def gamma (s : ℝ) (n k : ℕ) : ℝ := 1 / (1 + s * lam n k ^ 2)

/-- `idctn(gamma_s * dctn(q))`. -/
noncomputable def shrink (s : ℝ) (n : ℕ) (q : ℕ → ℝ) : ℕ → ℝ :=
  idct1 n fun k => gamma s n k * dct1 n q k

/-- One pass of the loop in `_smooth` (`_core.py:481`, `495`). -/
noncomputable def pass (n : ℕ) (s RF : ℝ) (W y z : ℕ → ℝ) : ℕ → ℝ := fun i =>
  RF * shrink s n (fun j => W j * (y j - z j) + z j) i + (1 - RF) * z i

/-- The norm of the first `n` values. -/
noncomputable def norm (n : ℕ) (v : ℕ → ℝ) : ℝ := Real.sqrt (∑ i ∈ range n, v i ^ 2)

/-- The loop in `_smooth` (`_core.py:480-501`) with at most `maxiter` passes left, after the pass that gave
`z`: a relative change with denominator zero is NaN (or infinite) and not below `tolz`. -/
noncomputable def loop (n : ℕ) (s RF tolz : ℝ) (weighted : Prop) (W y : ℕ → ℝ) :
    ℕ → (ℕ → ℝ) → (ℕ → ℝ) × Prop
  | 0, z => (z, False)
  | m + 1, z =>
    open Classical in
    let z' := pass n s RF W y z
    let converged := (norm n z' ≠ 0 ∧ norm n (fun i => z i - z' i) / norm n z' ≤ tolz) ∨ ¬ weighted
    if converged then (z', True) else loop n s RF tolz weighted W y m z'

/-- `RF` (`_core.py:306-307`). -/
noncomputable def relax (weighted : Prop) : ℝ :=
  open Classical in if weighted then 1.75 else 1

/-- `SmoothNd.__call__` (`_core.py:550-573`) with `robust=False`, `s` given and `maxiter = m + 1`; `guess` is the start with
weights (`z0` or the result of `_initial_guess`, `_core.py:384-397`).  The second component tells
whether the loop has converged (else a warning is given). -/
noncomputable def smoothn (n : ℕ) (s tolz : ℝ) (m : ℕ) (w : ℕ → ℝ) (guess : ℕ → ℝ) (y : ℕ → Option ℝ) :
    Except PyErr ((ℕ → Option ℝ) × Prop) :=
  open Classical in
  if n < 2 then .ok (y, True)
  else
    match normalizedWeights n w y with
    | .error e => .error e
    | .ok W =>
      let weighted := isWeighted n W
      let r := loop n s (relax weighted) tolz weighted W (zeroFilled y) (m + 1)
        (if weighted then guess else fun _ => 0)
      .ok (fun i => some (r.1 i), r.2)

/-! ## The weights of the robust smoothing -/

/-- A non-negative number, infinity or NaN. -/
inductive Dev where
  | fin (u : ℝ)
  | inf
  | nan

/-- `_studentized_residuals` (`_core.py:410-413`) for the residual `r`; `den` is
`1.4826 * median_abs_deviation * sqrt(1 - h)`. -/
noncomputable def studentized (den r : ℝ) : Dev :=
  open Classical in
  if den = 0 then (if r = 0 then .nan else .inf) else .fin |r / den|

/-- The denominator of the studentized residuals: `rs` are the residuals of the finite values. -/
noncomputable def denominator (rs : List ℝ) (h : ℝ) : Option ℝ :=
  (Hampel.npMedian rs).bind fun med =>
    (Hampel.npMedian (rs.map fun r => |r - med|)).map fun mad =>
      14826 / 10000 * mad * Real.sqrt (1 - h)

/-- The names of the weight functions (`_core.py:417-432`). -/
inductive Kind where
  | bisquare
  | talworth
  | cauchy

/-- `wfun(u)` and `weights[isnan(weights)] = 0` (`_core.py:417-436`).  `bisquare` of infinity is
`inf * False`, NaN. -/
noncomputable def robustWeight : Kind → Dev → ℝ
  | .bisquare, .fin u =>
    open Classical in
    (1 - (u / 4.685) ^ 2) ^ 2 * (if u / 4.685 < 1 then 1 else 0)
  | .talworth, .fin u => open Classical in if u < 2.795 then 1 else 0
  | .cauchy, .fin u => 1 / (1 + (u / 2.385) ^ 2)
  | .bisquare, .inf => 0
  | .talworth, .inf => 0
  | .cauchy, .inf => 0
  | _, .nan => 0

/-- `robust_weights` (`_core.py:415-436`) for one residual; `none` when there are no finite data. -/
noncomputable def robustWeights (kind : Kind) (rs : List ℝ) (h r : ℝ) : Option ℝ :=
  (denominator rs h).map fun den => robustWeight kind (studentized den r)

end Wafo.Smooth
