import Verif.Basic
import Mathlib.Analysis.SpecialFunctions.Complex.Arg
import Mathlib.Analysis.SpecialFunctions.Pow.Real

/-!
# Model of the Poisson binomial distribution

`pbinom` of stats/distributions.py:231-356.  Floats are real numbers and complex floats complex numbers, arrays are
lists and `np.fft.fft` is the discrete Fourier transform.  The rounding unit that the code adds to the
probabilities is kept.  Points are natural numbers; the wrapping of negative indices is left out because
`rv_discrete` passes only points of the support.  Not modelled: `_rvs`, the methods inherited from
`rv_discrete` (which clip the values to `[0, 1]`).
-/

noncomputable section

namespace Wafo.Pbinom

open Complex

/-- `np.finfo(float).eps` -/
def eps : ℝ := 2 ^ (-52 : ℤ)

/-- One value of `_chi`, stats/distributions.py:337-356.  `np.log(0)` is `-inf` and `np.exp(-inf)` is zero. -/
def chi (probs : List ℝ) (n idx : ℕ) : ℂ :=
  let omega : ℝ := 2 * Real.pi / (n + 1)
  let expValue := exp (omega * idx * I)
  let xy := probs.map fun p : ℝ => 1 - (p : ℂ) + p * expValue
  let argzSum := (xy.map fun z => arg z).sum
  let dValue : ℝ := if 0 ∈ xy then 0 else Real.exp (xy.map fun z => Real.log ‖z‖).sum
  dValue * exp (argzSum * I)

/-- The array `chi` of `_fft_pmf` before its division, stats/distributions.py:320-327 -/
def chiArr (probs : List ℝ) (n : ℕ) : List ℂ :=
  let half := n / 2 + n % 2
  let first := (List.range half).map fun j => chi probs n (j + 1)
  1 :: (first ++ ((first.take (n - half)).map (starRingEnd ℂ)).reverse)

/-- `np.fft.fft` -/
def fft (a : List ℂ) : List ℂ :=
  (List.range a.length).map fun k : ℕ =>
    ∑ l ∈ Finset.range a.length, a.getD l 0 * exp (-2 * Real.pi * I * l * k / a.length)

/-- `_fft_pmf`, stats/distributions.py:313-335 -/
def fftPmf (probs : List ℝ) (n : ℕ) : List ℝ :=
  let c := (chiArr probs n).map fun z => z / ((n : ℂ) + 1)
  (fft c).map fun z => z.re + eps

/-- `_local_pmf`, stats/distributions.py:300-310 -/
def localPmf (probs : List ℝ) (x : ℕ) : ℝ :=
  let n := probs.length
  let C := exp (2 * I * Real.pi / (n + 1))
  let s := ∑ l ∈ Finset.range (n + 1),
    C ^ (-((l : ℤ) * x)) * (probs.map fun p : ℝ => 1 + (C ^ l - 1) * p).prod
  1 / ((n : ℝ) + 1) * s.re

/-- `np.cumsum` with a start value -/
def cumsumFrom (s : ℝ) : List ℝ → List ℝ
  | [] => []
  | a :: l => (s + a) :: cumsumFrom (s + a) l

/-- `np.cumsum` -/
def cumsum (l : List ℝ) : List ℝ := cumsumFrom 0 l

/-- The state of a `pbinom` object. -/
structure State where
  probabilities : List ℝ
  pmfValues : List ℝ
  cdfValues : List ℝ
  sfValues : List ℝ

/-- `__init__`, stats/distributions.py:262-272 -/
def init (probs : List ℝ) : Except PyErr State :=
  if (∀ p ∈ probs, p ≤ 1) ∧ (∀ p ∈ probs, 0 ≤ p) then
    let pmf := fftPmf probs probs.length
    .ok { probabilities := probs
          pmfValues := pmf
          cdfValues := cumsum pmf
          sfValues := (cumsum pmf.reverse).reverse }
  else .error .valueError

/-- `l[i]` -/
def item (l : List ℝ) (i : ℕ) : Except PyErr ℝ :=
  match l[i]? with
  | some v => .ok v
  | none => .error .indexError

/-- `_pmf`, stats/distributions.py:279-280 -/
def pmf (s : State) (x : ℕ) : Except PyErr ℝ := item s.pmfValues x

/-- `_sf`, stats/distributions.py:282-284 -/
def sf (s : State) (x : ℕ) : Except PyErr ℝ := item s.sfValues (x + 1)

/-- `_cdf`, stats/distributions.py:286-287 -/
def cdf (s : State) (x : ℕ) : Except PyErr ℝ := item s.cdfValues x

/-- `_stats`, stats/distributions.py:291-298 -/
def stats (probs : List ℝ) : ℝ × ℝ × ℝ × ℝ :=
  let mean := probs.sum
  let var := (probs.map fun p => p * (1 - p)).sum
  let sigma := √var
  let g1 := (probs.map fun p => (1 - 2 * p) * (1 - p) * p).sum / sigma ^ 3
  let g2 := (probs.map fun p => (1 - 6 * (1 - p) * p) * (1 - p) * p).sum / sigma ^ 4
  (mean, var, g1, g2)

end Wafo.Pbinom
