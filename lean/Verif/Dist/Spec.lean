import Mathlib.MeasureTheory.Integral.IntervalIntegral.FundThmCalculus
import Mathlib.MeasureTheory.Integral.IntegralEqImproper
import Mathlib.Analysis.SpecialFunctions.Log.Basic

/-!
# What it means for the functions of a continuous distribution to fit together

The class of a distribution in `stats/_continuous_distns.py` gives formulas for the density, the
distribution function, the survival function, their logarithms, and the inverses of the distribution
function and of the survival function.  They are written down independently of each other.  The
specification below says when they describe one and the same distribution on the open interval
`I`, the interior of the support.
-/

namespace Wafo.Dist

open MeasureTheory Set

/-- `pdf` is a probability density on `I`, and `cdf` is its distribution function: the area under
`pdf` up to `x`. -/
structure IsCdf (I : Set ℝ) (pdf cdf : ℝ → ℝ) : Prop where
  nonneg : ∀ x ∈ I, 0 ≤ pdf x
  integrable : IntegrableOn pdf I
  total : ∫ t in I, pdf t = 1
  below : ∀ x ∈ I, ∫ t in I ∩ Iic x, pdf t = cdf x
  above : ∀ x ∈ I, ∫ t in I ∩ Ioi x, pdf t = 1 - cdf x

/-- `ppf` is the inverse of `cdf`: a bijection of the probabilities strictly between `0` and `1`
onto the interior `I` of the support. -/
structure IsPpf (I : Set ℝ) (cdf ppf : ℝ → ℝ) : Prop where
  mem : ∀ q, 0 < q → q < 1 → ppf q ∈ I
  cdf_ppf : ∀ q, 0 < q → q < 1 → cdf (ppf q) = q
  cdf_mem : ∀ x ∈ I, 0 < cdf x ∧ cdf x < 1
  ppf_cdf : ∀ x ∈ I, ppf (cdf x) = x

/-- `sf` is the survival function. -/
def IsSf (I : Set ℝ) (cdf sf : ℝ → ℝ) : Prop := ∀ x ∈ I, sf x = 1 - cdf x

/-- `isf` is the inverse of the survival function, that is `ppf` of the opposite probability. -/
def IsIsf (ppf isf : ℝ → ℝ) : Prop := ∀ q, 0 < q → q < 1 → isf q = ppf (1 - q)

/-- `logf` is the logarithm of `f`, which is positive on `I`. -/
def IsLog (I : Set ℝ) (f logf : ℝ → ℝ) : Prop := ∀ x ∈ I, 0 < f x ∧ logf x = Real.log (f x)

end Wafo.Dist
