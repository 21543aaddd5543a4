import Verif.Dist.GammaModel

/-!
# The sampling methods `_rvs` of the distribution classes

A method `_rvs` draws from a generator of a simpler distribution and transforms the draws.  The
model is the transformation of the draws; the generator itself is not modelled.
-/

namespace Wafo.Dist

open Real

noncomputable section

/-- stats/_continuous_distns.py:1233-1235, `x` a draw of `chi2` -/
def Chi.rvs (x : ℝ) : ℝ := √x

/-- stats/_continuous_distns.py:1391-1395, `u` a uniform draw, `gm` a draw of `gamma` -/
def DGamma.rvs (u gm : ℝ) : ℝ := gm * (if u ≥ 0.5 then 1 else -1)

/-- stats/_continuous_distns.py:1448-1452, `u` a uniform draw, `w` a draw of `weibull_min` -/
def DWeibull.rvs (u w : ℝ) : ℝ := w * (if u ≥ 0.5 then 1 else -1)

/-- stats/_continuous_distns.py:1876-1878, `x` a draw of `cauchy` without location -/
def FoldCauchy.rvs (c x : ℝ) : ℝ := |x + c|

/-- stats/_continuous_distns.py:5233-5234, `x` a draw of `chi` with three degrees of freedom -/
def Maxwell.rvs (x : ℝ) : ℝ := x

/-- stats/_continuous_distns.py:6606-6607, `x` a draw of `chi` with two degrees of freedom -/
def Rayleigh.rvs (x : ℝ) : ℝ := x

/-- stats/_continuous_distns.py:6958-6963, `u1` and `u2` uniform draws -/
def Semicircular.rvs (u1 u2 : ℝ) : ℝ := √u1 * cos (π * u2)

end

end Wafo.Dist
