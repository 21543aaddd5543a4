import Mathlib.Probability.Distributions.Gaussian.Real
import Mathlib.Probability.CDF
import Mathlib.MeasureTheory.Measure.Prod

/-!
# Specification: normal distributions

The specification used for `/repo/src/wafo/gaussian.py`: the standard normal law is Mathlib's
`gaussianReal 0 1`; two standard normal variables with correlation `r` are a pair
`(X, r X + √(1 - r²) Z)` built from independent standard normal `X` and `Z`.
-/

namespace Wafo.Gauss

open MeasureTheory ProbabilityTheory Set

/-- The standard normal law. -/
noncomputable abbrev stdN : Measure ℝ := gaussianReal 0 1

/-- The standard normal distribution function `P(X ≤ x)`. -/
noncomputable def Phi (x : ℝ) : ℝ := stdN.real (Iic x)

/-- The law of a pair of standard normal variables with correlation `r`. -/
noncomputable def pairLaw (r : ℝ) : Measure (ℝ × ℝ) :=
  (stdN.prod stdN).map (fun p => (p.1, r * p.1 + √(1 - r ^ 2) * p.2))

/-- The bivariate normal distribution function `P(X₁ ≤ b1, X₂ ≤ b2)`, correlation `r`. -/
noncomputable def Phi2 (b1 b2 r : ℝ) : ℝ := (pairLaw r).real (Iic b1 ×ˢ Iic b2)

/-- The complementary error function `2/√π ∫_x^∞ exp(-t²) dt` (`scipy.special.erfc`). -/
noncomputable def erfc (x : ℝ) : ℝ := 2 / √Real.pi * ∫ t in Ioi x, Real.exp (-t ^ 2)

/-- The standard Rayleigh law: density `t exp(-t²/2)` on the positive axis. -/
noncomputable def rayleigh : Measure ℝ :=
  (volume.restrict (Ioi 0)).withDensity (fun t => ENNReal.ofReal (t * Real.exp (-t ^ 2 / 2)))

/-- Distribution function of `M = √m0 (√(1-α²) Z + α R)`, with `Z` standard normal and `R` standard
Rayleigh, independent: the law of the local maxima of a Gaussian process. -/
noncomputable def locMaxCdf (x alpha m0 : ℝ) : ℝ :=
  (rayleigh.prod stdN).real {p | √m0 * (√(1 - alpha ^ 2) * p.2 + alpha * p.1) ≤ x}

end Wafo.Gauss
