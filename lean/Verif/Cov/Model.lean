import Verif.Cov.Fft
import Mathlib.Analysis.Real.Sqrt

/-!
Model of `CovarianceEstimator` in covariance/estimation.py: the autocovariance function of a time series.  `none` stands for NaN.
Transformation (`tr`) and detrending (`detrend`) of the data are not modelled: their defaults leave the data alone.
-/

namespace Wafo.Cov
open Finset

section center
variable {α : Type} [Field α] [DecidableEq α]

/-- The values of an array when none is NaN. -/
def allSome : List (Option α) → Option (List α)
  | [] => some []
  | none :: _ => none
  | some a :: l => (allSome l).map (a :: ·)

/-- `x.mean()`: NaN for an empty array or when a value is NaN. -/
def meanO (x : List (Option α)) : Option α :=
  match allSome x with
  | none => none
  | some [] => none
  | some v => some (v.sum / v.length)

/-- `x[i]` of numpy. -/
def item (x : List (Option α)) (i : ℕ) : Except PyErr (Option α) :=
  match x[i]? with
  | some v => .ok v
  | none => .error .indexError

/-- `x[1 - indnan]`, estimation.py L135: `1 - indnan` is an array of the integers 0 and 1, so that it picks the first value for each
missing one and the second value for each observed one. -/
def picked (x : List (Option α)) : Except PyErr (List (Option α)) :=
  x.mapM fun v => item x (if v.isNone then 0 else 1)

/-- The centred data and the number of observed values `Ncens`, estimation.py L132-140. -/
def center (x : List (Option α)) : Except PyErr (List (Option α) × ℕ) :=
  if x.any Option.isNone then do
    let p ← picked x
    let m := meanO p
    .ok (x.map (fun v => match v with
      | none => some 0
      | some a => m.map fun mu => a - mu), x.length - x.countP Option.isNone)
  else
    .ok (x.map (fun v => match v, meanO x with
      | some a, some mu => some (a - mu)
      | _, _ => none), x.length)

/-- `a * b` of numpy for two vectors: equal lengths, or one of them has length one. -/
def bmul (a : List (Option α)) (b : List α) : Except PyErr (List (Option α)) :=
  if a.length = b.length then .ok (List.zipWith (fun x y => x.map (· * y)) a b)
  else match a, b with
    | _, [y] => .ok (a.map fun x => x.map (· * y))
    | [x], _ => .ok (b.map fun y => x.map (· * y))
    | _, _ => .error .valueError

/-- `auto_cov[:lag] = v`: `slot` values are replaced. -/
def assign (slot : ℕ) (v : List (Option α)) : Except PyErr (List (Option α)) :=
  if v.length = slot then .ok v
  else match v with
    | [y] => .ok (List.replicate slot y)
    | _ => .error .valueError

end center

noncomputable section

/-- The raw autocovariance, estimation.py L144-147, of data without NaN. -/
def autoCov (x : List ℝ) (n ncens : ℕ) : List ℝ :=
  let nfft := pow2 n
  let periodogram := (List.range nfft).map fun k => ‖fft nfft (toC x) k‖ ^ 2 / ncens
  (List.range nfft).map fun k => (fft nfft (toC periodogram) k).re / nfft

/-- The raw autocovariance; all values are NaN if the data has a NaN or no value is observed. -/
def autoCovO (x : List (Option ℝ)) (n ncens : ℕ) : List (Option ℝ) :=
  match allSome x with
  | some v => if ncens = 0 then List.replicate (pow2 n) none else (autoCov v n ncens).map some
  | none => List.replicate (pow2 n) none

/-- The division of the `unbiased` estimate, estimation.py L151: `np.arange(Ncens, 1, -1)` holds the `Ncens - 1` numbers from `Ncens`
down to 2. -/
def unbiased (r : List (Option ℝ)) (ncens : ℕ) : Except PyErr (List (Option ℝ)) :=
  bmul ((r.take ncens).map fun v => v.map (· * (ncens : ℝ)))
    ((List.range (ncens - 1)).map fun i : ℕ => 1 / ((ncens : ℝ) - i))

/-- `auto_cov / auto_cov[0]`, estimation.py L154; a division by zero gives NaN. -/
def normalized (r : List (Option ℝ)) : Except PyErr (List (Option ℝ)) := do
  let r0 ← item r 0
  .ok (r.map fun v => match v, r0 with
    | some a, some b => if b = 0 then none else some (a / b)
    | _, _ => none)

/-- The large lag standard deviation at lag `k`, estimation.py L78-79 and L168-169: it is computed from the values before lag `k`. -/
def sigmaAt (r : List (Option ℝ)) (ncens k : ℕ) : Option ℝ :=
  if k = 0 then some 0
  else match allSome (r.take k) with
    | some (r0 :: t) => some (Real.sqrt ((r0 ^ 2 + 2 * (t.map (· ^ 2)).sum) / ncens))
    | _ => none

/-- `np.abs(R[k]) > 2 * sigma[k]`: false with NaN. -/
def significant (r : List (Option ℝ)) (ncens k : ℕ) : Bool :=
  match r[k]?, sigmaAt r ncens k with
  | some (some a), some s => decide (2 * s < |a|)
  | _, _ => false

/-- `argmax` of an array of booleans: the first true one, 0 if there is none. -/
def argmaxB (b : List Bool) : ℕ := if b.any id then b.findIdx id else 0

/-- `_estimate_lag`, estimation.py L75-84. -/
def estimateLag (parzen : Bool) (r : List (Option ℝ)) (ncens : ℕ) : Except PyErr ℕ :=
  if r = [] then .error .indexError
  else
    let lmax := min 300 (r.length - 1)
    let lag := lmax + 2 - argmaxB ((List.range (lmax + 1)).reverse.map (significant r ncens))
    .ok (if parzen then 4 * lag / 3 else lag)

/-- The options of the estimator, estimation.py L65-73; `window m` is `get_window(name, m)` of scipy. -/
structure Estimator where
  lag : Option ℤ
  window : ℕ → List ℝ
  parzen : Bool
  unbiased : Bool
  norm : Bool

/-- The returned covariance function. -/
structure CovOut where
  data : List (Option ℝ)
  args : List ℝ
  sigma : List (Option ℝ)

/-- The autocovariance before the window, estimation.py L132-154. -/
def rawAcf (e : Estimator) (x : List (Option ℝ)) : Except PyErr (List (Option ℝ) × ℕ) := do
  let c ← center x
  let r := autoCovO c.1 x.length c.2
  let r ← if e.unbiased then unbiased r c.2 else .ok r
  let r ← if e.norm then normalized r else .ok r
  .ok (r, c.2)

/-- The lag, estimation.py L156-158. -/
def chooseLag (e : Estimator) (r : List (Option ℝ)) (n ncens : ℕ) : Except PyErr ℤ := do
  let lag ← match e.lag with
    | some l => .ok l
    | none => (estimateLag e.parzen r ncens).map fun l => (l : ℤ)
  .ok (min lag ((n : ℤ) - 2))

/-- The window and the result, estimation.py L159-174; `get_window` rejects a negative length. -/
def windowed (e : Estimator) (r : List (Option ℝ)) (ncens : ℕ) (lag : ℤ) (dt : ℝ) : Except PyErr CovOut :=
  if 2 * lag - 1 < 0 then .error .valueError
  else do
    let l := lag.toNat
    let p ← bmul (r.take l) ((e.window (2 * l - 1)).drop (l - 1))
    let p ← assign (r.take l).length p
    if r.length ≤ l then .error .indexError
    else
      let full := p ++ some 0 :: r.drop (l + 1)
      .ok { data := full.take (l + 1)
            args := (List.range (l + 1)).map fun k : ℕ => (k : ℝ) * dt
            sigma := (List.range (full.length + 1)).map (sigmaAt full ncens) }

/-- `CovarianceEstimator.tocovdata`, estimation.py L86-174, of a series `x` with sampling interval `dt`. -/
def tocovdata (e : Estimator) (x : List (Option ℝ)) (dt : ℝ) : Except PyErr CovOut := do
  let rc ← rawAcf e x
  let lag ← chooseLag e rc.1 x.length rc.2
  windowed e rc.1 rc.2 lag dt

end

end Wafo.Cov
