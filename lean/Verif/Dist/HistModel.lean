import Verif.Basic
import Verif.Dist.Spec
import Mathlib.Data.Nat.Count
import Mathlib.Algebra.BigOperators.Intervals

/-!
# Distributions from histograms

`rv_histogram`, stats/_continuous_distns.py:8449-8512.  Arrays are functions of the index; `n` is the number of bins, so that
boundaries have indices up to `n` and contents indices below `n`.  That the argument is a pair (lines 8465-8466) is part of the type.
-/

namespace Wafo.Dist

noncomputable section

open Real Finset
open scoped Classical

/-- The attributes of `rv_histogram`: boundaries `_hbins`, and the normalised contents, `_hpdf` before zeros are put at its ends. -/
structure Hist where
  n : ℕ
  b : ℕ → ℝ
  p : ℕ → ℝ

namespace Hist

/-- `np.searchsorted(xs, x, side='right')` for `n + 1` values that do not decrease: how many of them are at most `x`. -/
def searchRight (n : ℕ) (xs : ℕ → ℝ) (x : ℝ) : ℕ := Nat.count (fun i => xs i ≤ x) (n + 1)

/-- `np.interp(x, xp, fp)` for `n + 1` points whose abscissas do not decrease. -/
def interp (n : ℕ) (xp fp : ℕ → ℝ) (x : ℝ) : ℝ :=
  let k := searchRight n xp x
  if k = 0 then fp 0
  else if k = n + 1 then fp n
  else if xp (k - 1) = x then fp (k - 1)
  else (fp k - fp (k - 1)) / (xp k - xp (k - 1)) * (x - xp (k - 1)) + fp (k - 1)

/-- `__init__`, stats/_continuous_distns.py:8467-8475 -/
def make (content bins : List ℝ) : Except PyErr Hist :=
  if content.length + 1 ≠ bins.length then .error .valueError
  else
    let h := fun i => content.getD i 0
    let b := fun i => bins.getD i 0
    .ok ⟨content.length, b, fun i => h i / ∑ j ∈ range content.length, h j * (b (j + 1) - b j)⟩

variable (d : Hist)

/-- `_hbin_widths`, stats/_continuous_distns.py:8473 -/
def w (i : ℕ) : ℝ := d.b (i + 1) - d.b i

/-- `_hcdf`, stats/_continuous_distns.py:8475, 8477 -/
def c (k : ℕ) : ℝ := ∑ i ∈ range k, d.p i * d.w i

/-- `_hpdf` with the zeros of stats/_continuous_distns.py:8476 -/
def padded (k : ℕ) : ℝ := if k = 0 then 0 else if k ≤ d.n then d.p (k - 1) else 0

/-- stats/_continuous_distns.py:8483-8487 -/
def pdf (x : ℝ) : ℝ := d.padded (searchRight d.n d.b x)
/-- stats/_continuous_distns.py:8489-8493 -/
def cdf (x : ℝ) : ℝ := interp d.n d.b d.c x
/-- stats/_continuous_distns.py:8495-8499 -/
def ppf (q : ℝ) : ℝ := interp d.n d.c d.b q
/-- stats/_continuous_distns.py:8501-8504 -/
def munp (n : ℕ) : ℝ := ∑ i ∈ range d.n, d.p i * ((d.b (i + 1) ^ (n + 1) - d.b i ^ (n + 1)) / (n + 1))
/-- stats/_continuous_distns.py:8506-8512 -/
def entropy : ℝ := -∑ i ∈ range d.n, d.p i * (if d.p i > 0 then log (d.p i) else 0) * d.w i

end Hist

end

end Wafo.Dist
