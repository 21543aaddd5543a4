import Verif.Dist.Model
import Verif.Dist.MomSpec
import Mathlib.Analysis.SpecialFunctions.Trigonometric.Arctan
import Mathlib.MeasureTheory.Integral.IntervalIntegral.Basic

/-!
# The wrapped Cauchy and the Tukey lambda distribution
-/

namespace Wafo.Dist

noncomputable section

open Real
open scoped Classical

namespace WrapCauchy

/-- `np.arctan(v * np.tan(y))`.  The tangent of the float nearest to `pi / 2` is `1.6e16`, whose arctangent rounds to
`pi / 2`; here the value at `pi / 2` is this limit. -/
def atanTan (v y : ℝ) : ℝ := if cos y = 0 then π / 2 else arctan (v * tan y)

/-- stats/_continuous_distns.py:7900-7902 -/
def pdf (c x : ℝ) : ℝ := (1.0 - c * c) / (2 * π * (1 + c * c - 2 * c * cos x))

/-- stats/_continuous_distns.py:7904-7922, one element -/
def cdf (c x : ℝ) : ℝ :=
  let val := (1.0 + c) / (1.0 - c)
  if x < π then 1.0 / π * atanTan val (x / 2.0) else 1.0 - 1.0 / π * atanTan val ((2 * π - x) / 2.0)

/-- stats/_continuous_distns.py:7924-7928 -/
def ppf (c q : ℝ) : ℝ :=
  let val := (1.0 - c) / (1.0 + c)
  if q < 1.0 / 2 then 2 * atanTan val (π * q) else 2 * π - 2 * atanTan val (π * (1 - q))

/-- stats/_continuous_distns.py:7930-7931 -/
def entropy (c : ℝ) : ℝ := log (2 * π * (1 - c * c))

end WrapCauchy

namespace TukeyLambda

/-- stats/_continuous_distns.py:7573-7574 -/
def ppf (lam q : ℝ) : ℝ := boxcox q lam - boxcox1p (-q) lam

/-- stats/_continuous_distns.py:7570-7571; `tkl` is `scipy.special.tklmbda` -/
def cdf (tkl : ℝ → ℝ → ℝ) (lam x : ℝ) : ℝ := tkl x lam

/-- stats/_continuous_distns.py:7564-7568 -/
def pdf (tkl : ℝ → ℝ → ℝ) (lam x : ℝ) : ℝ :=
  let fx := tkl x lam
  let px := 1.0 / (fx ^ (lam - 1.0) + (1 - fx) ^ (lam - 1.0))
  if lam ≤ 0 ∨ |x| < 1.0 / lam then px else 0

/-- stats/_continuous_distns.py:7579-7582, with the integral for its numerical value -/
def entropy (lam : ℝ) : ℝ := ∫ p in (0 : ℝ)..1, log (p ^ (lam - 1) + (1 - p) ^ (lam - 1))

end TukeyLambda

end

end Wafo.Dist
