import Verif.Dist.GammaModel
import Mathlib.NumberTheory.Harmonic.EulerMascheroni
import Mathlib.Analysis.Calculus.Deriv.Basic
import Mathlib.MeasureTheory.Integral.Bochner.Set

/-!
# Model of the entropies of the distributions

The `_entropy` methods of `stats/_continuous_distns.py` which use the constant of Euler, the
digamma function or the exponential integral, and those of the logistic and circular families.
The entropies of the other classes are in `MomModel`.
-/

namespace Wafo.Dist

open Real

/-- `_EULER` of `scipy.stats._constants`, the constant of Euler and Mascheroni; a decimal number of
double precision in the code. -/
noncomputable def euler : ℝ := eulerMascheroniConstant

/-- `scipy.special.psi`, the logarithmic derivative of the gamma function. -/
noncomputable def psi (a : ℝ) : ℝ := deriv Gamma a / Gamma a

/-- `scipy.special.expn(1, c)`, the exponential integral. -/
noncomputable def expn1 (c : ℝ) : ℝ := ∫ t in Set.Ioi c, exp (-t) / t

noncomputable section

namespace Fisk
/-- stats/_continuous_distns.py:1142-1143 -/
def entropy (c : ℝ) : ℝ := 2 - log c
end Fisk

namespace WeibullMin
/-- stats/_continuous_distns.py:2117-2118 -/
def entropy (c : ℝ) : ℝ := -euler / c - log c + euler + 1
end WeibullMin

namespace WeibullMax
/-- stats/_continuous_distns.py:2193-2194 -/
def entropy (c : ℝ) : ℝ := -euler / c - log c + euler + 1
end WeibullMax

namespace GenExtreme
/-- stats/_continuous_distns.py:2814-2815 -/
def entropy (c : ℝ) : ℝ := euler * (1 - c) + 1
end GenExtreme

namespace GammaD
/-- stats/_continuous_distns.py:2915-2916 -/
def entropy (a : ℝ) : ℝ := psi a * (1 - a) + a + gammaln a
end GammaD

namespace GenGamma
/-- stats/_continuous_distns.py:3129-3131 -/
def entropy (a c : ℝ) : ℝ :=
  let val := psi a
  a * (1 - val) + 1 / c * val + gammaln a - log |c|
end GenGamma

namespace GenHalfLogistic
/-- stats/_continuous_distns.py:3183-3184 -/
def entropy (c : ℝ) : ℝ := 2 - (2 * c + 1) * log 2
end GenHalfLogistic

namespace Gompertz
/-- stats/_continuous_distns.py:3225-3226 -/
def entropy (c : ℝ) : ℝ := 1 - log c - exp c * expn1 c
end Gompertz

namespace GumbelR
/-- stats/_continuous_distns.py:3277-3279 -/
def entropy : ℝ := euler + 1
end GumbelR

namespace GumbelL
/-- stats/_continuous_distns.py:3337-3338 -/
def entropy : ℝ := euler + 1
end GumbelL

namespace HalfCauchy
/-- stats/_continuous_distns.py:3380-3381 -/
def entropy : ℝ := log (2 * π)
end HalfCauchy

namespace HalfLogistic
/-- stats/_continuous_distns.py:3433-3434 -/
def entropy : ℝ := 2 - log 2
end HalfLogistic

namespace HypSecant
/-- stats/_continuous_distns.py:3524-3525 -/
def entropy : ℝ := log (2 * π)
end HypSecant

namespace InvGamma
/-- stats/_continuous_distns.py:3638-3639 -/
def entropy (a : ℝ) : ℝ := a - (a + 1) * psi a + gammaln a
end InvGamma

namespace InvWeibull
/-- stats/_continuous_distns.py:4121-4122 -/
def entropy (c : ℝ) : ℝ := 1 + euler + euler / c - log c
end InvWeibull

namespace Maxwell
/-- stats/_continuous_distns.py:5253-5254 -/
def entropy : ℝ := euler + 0.5 * log (2 * π) - 0.5
end Maxwell

namespace Rayleigh
/-- stats/_continuous_distns.py:6638-6639 -/
def entropy : ℝ := euler / 2 + 1 - 0.5 * log 2
end Rayleigh

namespace TruncRayleigh
/-- stats/_continuous_distns.py:6707-6709; the comment there says `TODO: correct this it is wrong!` -/
def entropy (_c : ℝ) : ℝ := euler / 2 + 1 - 0.5 * log 2
end TruncRayleigh

namespace GenNorm
/-- stats/_continuous_distns.py:7998-7999 -/
def entropy (beta : ℝ) : ℝ := 1 / beta - log (0.5 * beta) + gammaln (1 / beta)
end GenNorm

namespace HalfGenNorm
/-- stats/_continuous_distns.py:8063-8064 -/
def entropy (beta : ℝ) : ℝ := 1 / beta - log beta + gammaln (1 / beta)
end HalfGenNorm

end

end Wafo.Dist
