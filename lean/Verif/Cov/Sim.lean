import Mathlib.Analysis.InnerProductSpace.l2Space
import Verif.Cov.CovSpec

/-!
Model of `CovData1D.sim` in covariance/core.py without transformation (`tr=None`).

The random numbers are elements of a real vector space: real numbers for one run of the program, random variables with finite variance
for the distribution of the result.  All that the program does with them is linear.
-/

namespace Wafo.Cov
open Finset

noncomputable section

/-- `finfo(float).eps`. -/
def floatEps : ℝ := 1 / 2 ^ 52

/-- `_is_valid_acf`, covariance/core.py L294-296: `argmax` is the first index of the largest value, and rejects an empty array. -/
def validAcf : List ℝ → Prop
  | [] => False
  | a :: l => ∀ v ∈ l, v ≤ a

/-- The length of the transform, covariance/core.py L384-391. -/
def simNfft (acf : List ℝ) (ns : ℕ) : ℕ :=
  pow2 (max (if floatEps < |lastOf acf| then 2 * acf.length - 1 else 2 * acf.length - 2) (2 * ns))

/-- The circulant vector, covariance/core.py L384-392: the mirror image is `acf[-1:0:-1]` or, if the last value is zero,
`acf[n - 1:1:-1]`. -/
def simVec (acf : List ℝ) (ns : ℕ) : List ℝ :=
  if floatEps < |lastOf acf| then
    acf ++ List.replicate (simNfft acf ns - (2 * acf.length - 1)) 0 ++ (acf.drop 1).reverse
  else
    acf ++ List.replicate (simNfft acf ns - (2 * acf.length - 2)) 0 ++ (acf.drop 2).reverse

/-- The periodogram, covariance/core.py L395. -/
def simPer (acf : List ℝ) (ns : ℕ) (k : ℕ) : ℝ := (fft (simNfft acf ns) (toC (simVec acf ns)) k).re

/-- The first index of the largest of `p 0 ... p (n - 1)`, covariance/core.py L397. -/
def peak (n : ℕ) (p : ℕ → ℝ) : ℕ := ((List.range n).find? fun k => decide (∀ j ∈ List.range n, p j ≤ p k)).getD 0

/-- The periodogram without negative values, and without the oscillating values above twice the peak, covariance/core.py L398-418. -/
def simClip (n : ℕ) (p : ℕ → ℝ) (k : ℕ) : ℝ :=
  match (List.range n).find? (fun k => decide (2 * peak n p < k ∧ p k < 0)) with
  | none => if p k < 0 then 0 else p k
  | some i => if i ≤ k ∧ k < n - i then 0 else if p k < 0 then 0 else p k

/-- The periodogram without small values, covariance/core.py L420-424: `spec[I:-I]` is empty if `I` is zero. -/
def simSpec (n : ℕ) (p : ℕ → ℝ) (k : ℕ) : ℝ :=
  if 0 < peak n p ∧ peak n p ≤ k ∧ k < n - peak n p ∧ simClip n p k < simClip n p (peak n p) * (1 / 10 ^ 5) then 0
  else simClip n p k

/-- The real part of the transform of `sqrt(spec / n) * (a + 1j * b)`, covariance/core.py L434-437. -/
def outRe {V : Type} [AddCommGroup V] [Module ℝ V] (n : ℕ) (s : ℕ → ℝ) (a b : ℕ → V) (j : ℕ) : V :=
  ∑ k ∈ range n, ((Real.sqrt (s k / n) * Real.cos (2 * Real.pi * k * j / n)) • a k +
    (Real.sqrt (s k / n) * Real.sin (2 * Real.pi * k * j / n)) • b k)

/-- The imaginary part of the transform, covariance/core.py L434-437. -/
def outIm {V : Type} [AddCommGroup V] [Module ℝ V] (n : ℕ) (s : ℕ → ℝ) (a b : ℕ → V) (j : ℕ) : V :=
  ∑ k ∈ range n, ((Real.sqrt (s k / n) * Real.cos (2 * Real.pi * k * j / n)) • b k -
    (Real.sqrt (s k / n) * Real.sin (2 * Real.pi * k * j / n)) • a k)

/-- The length of an axis after numpy's broadcasting. -/
def broadcast (m n : ℕ) : Option ℕ := if m = n then some m else if m = 1 then some n else if n = 1 then some m else none

/-- The shapes in the computation of the derivative, covariance/core.py L444-450: `sqrt_spec` is a column and the frequencies are a row,
so that their product is a square matrix; `hstack` is called with a single matrix and joins its rows.  True if no ValueError is
raised. -/
def derivativeShapes (nfft ns cases : ℕ) : Bool :=
  match broadcast ((cases + 1) / 2) nfft with
  | none => false
  | some w =>
    match broadcast (min ((cases + 1) / 2) w) (min (cases / 2) w) with
    | none => false
    | some c => ns * c = 1 ∨ ns * c = cases

/-- The columns of the result: times, and the simulated values in each row. -/
structure SimOut (V : Type) where
  times : List ℝ
  rows : List (List V)

/-- `CovData1D.sim(ns, cases, dt, derivative=derivative)`, covariance/core.py L298-466, with the random numbers `a + 1j * b`; the second
result for `derivative=True` is left out.  The argument `dt` is not used by the program, L369. -/
def sim {V : Type} [AddCommGroup V] [Module ℝ V] (acf : Acf) (ns : Option ℕ) (cases : ℕ) (_dt : Option ℝ) (derivative : Bool)
    (a b : ℕ → ℕ → V) : Except PyErr (SimOut V) :=
  open Classical in
  if ¬ validAcf acf.data then .error .valueError
  else if acf.args.length < 2 then .error .indexError
  else
    match ns with
    | none => .error .typeError
    | some ns =>
      let n := simNfft acf.data ns
      let s := simSpec n (simPer acf.data ns)
      if n < ns + 2 ∧ ns ≠ 0 then .error .valueError
      else if derivative && !derivativeShapes n ns cases then .error .valueError
      else
        .ok { times := (List.range ns).map fun k : ℕ => (k : ℝ) * covPeriod acf
              rows := (List.range ns).map fun j =>
                ((List.range ((cases + 1) / 2)).map fun c => outRe n s (fun k => a k c) (fun k => b k c) (j + 2)) ++
                ((List.range (cases / 2)).map fun c => outIm n s (fun k => a k c) (fun k => b k c) (j + 2)) }

end

end Wafo.Cov
