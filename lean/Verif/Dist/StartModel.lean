import Verif.Basic
import Verif.Dist.MomModel
import Verif.Dist.GammaModel
import Mathlib.Data.List.Sort

/-!
# Start values for fitting

The functions `_..._fitstart` of stats/distributions.py:41-119, which replace `_fitstart` of the distributions
(lines 361-379); stats/_continuous_distns.py repeats them (lines 876, 1261, 1973, 2120, 2568, 2789, 5137,
5198, 5825).  Where the function ends in a call of the inherited `fitstart`, which estimates location and scale,
the model gives the shapes handed to it.  `optimize.root` is a parameter.  Divisions by zero, which give
`nan` or infinite start values, end in `none`.
-/

noncomputable section

namespace Wafo.Dist.Start

open Real Wafo

/-- `data.mean()` -/
def mean (l : List ℝ) : ℝ := l.sum / l.length
/-- `data.var()` -/
def var (l : List ℝ) : ℝ := mean (l.map fun x => (x - mean l) ^ 2)
/-- `data.std()` -/
def std (l : List ℝ) : ℝ := √(var l)

/-- `data.min()` -/
def npMin : List ℝ → Except PyErr ℝ
  | [] => .error .valueError
  | a :: l => .ok (l.foldl min a)

/-- `data.max()` -/
def npMax : List ℝ → Except PyErr ℝ
  | [] => .error .valueError
  | a :: l => .ok (l.foldl max a)

/-- `_genpareto_fitstart`, stats/distributions.py:76-86 -/
def genpareto (d : List ℝ) : Except PyErr (ℝ × ℝ × ℝ) := do
  let mn ← npMin d
  let loc := mn - 0.01 * std d
  let d1 := d.map fun x => x - loc
  let m := mean d1
  let s := std d1
  let shape := ((m / s) ^ 2 - 1) / 2
  let scale := m * ((m / s) ^ 2 + 1) / 2
  return (shape, loc, scale)

/-- `np.dot(koeff, d)` for the coefficients `k i` -/
def dot (k : ℕ → ℝ) (d : List ℝ) : ℝ := ∑ i : Fin d.length, k i * d.get i

/-- `_genextreme_fitstart`, stats/distributions.py:89-104; the first component is the caller's array
afterwards, which `d.sort()` sorts in place. -/
def genextreme (data : List ℝ) : List ℝ × Option (ℝ × ℝ × ℝ) :=
  let d := data.mergeSort (· ≤ ·)
  let n : ℝ := d.length
  let koeff1 : ℕ → ℝ := fun i => i / (n - 1)
  let koeff2 : ℕ → ℝ := fun i => koeff1 i * ((i : ℝ) - 1) / (n - 2)
  let b2 := dot koeff2 d / n
  let b1 := dot koeff1 d / n
  let b0 := mean d
  let z := (2 * b1 - b0) / (3 * b2 - b0) - log 2 / log 3
  let shape := 7.8590 * z + 2.9554 * z ^ 2
  let scale := (2 * b1 - b0) * shape / (exp (gammaln (1 + shape)) * (1 - 2 ^ (-shape)))
  let loc := b0 + scale * expm1 (gammaln (1 + shape)) / shape
  if d.length ≤ 2 ∨ 3 * b2 - b0 = 0 ∨ shape = 0 then (d, none) else (d, some (shape, loc, scale))

/-- `_weibull_min_fitstart`, stats/distributions.py:69-73 -/
def weibullMin (d : List ℝ) : Except PyErr (ℝ × ℝ × ℝ) := do
  let mn ← npMin d
  let loc := mn - 0.01
  let chat := 1 / (6 ^ (1 / 2 : ℝ) / π * std (d.map fun x => log (x - loc)))
  let scale := mean (d.map fun x => (x - loc) ^ chat) ^ (1 / chat)
  return (chat, loc, scale)

/-- `_lognorm_fitstart`, stats/distributions.py:107-113 -/
def lognorm (d : List ℝ) : Except PyErr (ℝ × ℝ × ℝ) := do
  let scale := std d
  let mn ← npMin d
  let loc := mn - 0.001
  let logd := d.map fun x => log (x - loc)
  let m := mean logd
  let s := √(mean (logd.map fun x => x ^ 2) - m ^ 2)
  return (s, loc, scale)

/-- `_bradford_fitstart`, stats/distributions.py:41-48; `root` is `optimize.root`. -/
def bradford (root : (ℝ → ℝ) → ℝ → ℝ) (d : List ℝ) : Except PyErr (ℝ × ℝ × ℝ) := do
  let mn ← npMin d
  let loc := mn - 1e-4
  let scale ← npMax (d.map fun x => x - loc)
  let m := mean (d.map fun x => (x - loc) / scale)
  let c := root (fun c => (c - log1p c) / (c * log1p c) - m) 0.3
  return (c, loc, scale)

/-- `np.round`, to the nearest integer, halves to even -/
def npRound (x : ℝ) : ℤ :=
  if x - ⌊x⌋ < 1 / 2 then ⌊x⌋ else if 1 / 2 < x - ⌊x⌋ then ⌊x⌋ + 1
  else if ⌊x⌋ % 2 = 0 then ⌊x⌋ else ⌊x⌋ + 1

/-- The shapes of `_f_fitstart`, stats/distributions.py:58-66 -/
def fShapes (d : List ℝ) : ℝ × ℝ :=
  let m := mean d
  let v := var d
  let dfd : ℝ := max (npRound (2 * m / (m - 1)) : ℝ) 5
  let dfn : ℝ := max (npRound (2 * dfd * dfd * (dfd - 2) /
    (v * (dfd - 4) * (dfd - 2) ^ 2 - 2 * dfd * dfd)) : ℝ) 1
  (dfn, dfd)

/-- The shape of `_chi_fitstart`, stats/distributions.py:51-56; `int` of a positive number is its floor. -/
def chiShape (d : List ℝ) : ℤ := max ⌊var d + mean d ^ 2⌋ 1

/-- The shapes of `_ncx2_fitstart`, stats/distributions.py:122-128 -/
def ncx2Shapes (d : List ℝ) : ℝ × ℝ :=
  let m := mean d
  let v := var d
  let nc := (v / 2 - m) / 2
  let df := m - nc
  (df, nc)

/-- Mean and variance of `ncx2`, stats/_continuous_distns.py:5818-5821 -/
def ncx2Stats (df nc : ℝ) : ℝ × ℝ :=
  let val := df + 2 * nc
  (df + nc, 2 * val)

end Wafo.Dist.Start
