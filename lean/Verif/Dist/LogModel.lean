import Verif.Dist.EntModel
import Verif.Dist.GammaModel
import Verif.Dist.NormModel
import Mathlib.Analysis.Calculus.IteratedDeriv.Defs

/-!
# Distributions of logarithms of gamma variables

Same conventions as `Verif.Dist.Model`.  `scipy.special.polygamma(n, x)` is the `n`-th derivative of
`psi`, `scipy.special.zeta(s, c)` the Hurwitz zeta function; `gammaincinv` is the parameter `inv`.
-/

namespace Wafo.Dist

open Real

noncomputable section

/-- `scipy.special.polygamma(n, x)`. -/
def polygamma (n : ℕ) (x : ℝ) : ℝ := iteratedDeriv n psi x

/-- `scipy.special.zeta(s, c)` for natural `s`; `_ZETA3` (line 39) is `hzeta 3 1`. -/
def hzeta (s : ℕ) (c : ℝ) : ℝ := ∑' k : ℕ, 1 / (c + k) ^ s

namespace LogGamma
/-- stats/_continuous_distns.py:4923-4925 -/
def pdf (c x : ℝ) : ℝ := exp (c * x - exp x - gammaln c)
/-- stats/_continuous_distns.py:4927-4928 -/
def cdf (c x : ℝ) : ℝ := gammainc c (exp x)
/-- stats/_continuous_distns.py:4930-4931 -/
def ppf (inv : ℝ → ℝ → ℝ) (c q : ℝ) : ℝ := log (inv c q)
/-- The function of a gamma variable, stats/_continuous_distns.py:4920-4921 -/
def rvs (u : ℝ) : ℝ := log u
/-- stats/_continuous_distns.py:4933-4940 -/
def stats (c : ℝ) : ℝ × ℝ × ℝ × ℝ :=
  let mean := psi c
  let var := polygamma 1 c
  let skewness := polygamma 2 c / var ^ (1.5 : ℝ)
  let excess_kurtosis := polygamma 3 c / (var * var)
  (mean, var, skewness, excess_kurtosis)
end LogGamma

namespace GumbelR
/-- stats/_continuous_distns.py:3274-3275 -/
def stats : ℝ × ℝ × ℝ × ℝ :=
  (eulerMascheroniConstant, π * π / 6, 12 * √6 / π ^ 3 * hzeta 3 1, 12 / 5)
end GumbelR

namespace GumbelL
/-- stats/_continuous_distns.py:3333-3335 -/
def stats : ℝ × ℝ × ℝ × ℝ :=
  (-eulerMascheroniConstant, π * π / 6, -12 * √6 / π ^ 3 * hzeta 3 1, 12 / 5)
end GumbelL

namespace GenLogistic
/-- stats/_continuous_distns.py:2482-2489 -/
def stats (c : ℝ) : ℝ × ℝ × ℝ × ℝ :=
  let mu := eulerMascheroniConstant + psi c
  let mu2 := π * π / 6 + hzeta 2 c
  let g1 := -2 * hzeta 3 c + 2 * hzeta 3 1
  let g1 := g1 / mu2 ^ (1.5 : ℝ)
  let g2 := π ^ 4 / 15 + 6 * hzeta 4 c
  let g2 := g2 / mu2 ^ 2
  (mu, mu2, g1, g2)
end GenLogistic

namespace Logistic
/-- stats/_continuous_distns.py:4885-4886 -/
def stats : ℝ × ℝ × ℝ × ℝ := (0, π * π / 3, 0, 6 / 5)
end Logistic

namespace Moyal
/-- stats/_continuous_distns.py:5697-5714; the numerical integral for orders above four is `mom1` -/
def munp (mom1 : ℕ → ℝ) (n : ℕ) : ℝ :=
  if n = 1 then log 2 + eulerMascheroniConstant
  else if n = 2 then π ^ 2 / 2 + (log 2 + eulerMascheroniConstant) ^ 2
  else if n = 3 then
    let tmp1 := 1.5 * π ^ 2 * (log 2 + eulerMascheroniConstant)
    let tmp2 := (log 2 + eulerMascheroniConstant) ^ 3
    let tmp3 := 14 * hzeta 3 1
    tmp1 + tmp2 + tmp3
  else if n = 4 then
    let tmp1 := 4 * 14 * hzeta 3 1 * (log 2 + eulerMascheroniConstant)
    let tmp2 := 3 * π ^ 2 * (log 2 + eulerMascheroniConstant) ^ 2
    let tmp3 := (log 2 + eulerMascheroniConstant) ^ 4
    let tmp4 := 7 * π ^ 4 / 4
    tmp1 + tmp2 + tmp3 + tmp4
  else mom1 n
end Moyal

namespace HalfLogistic
/-- stats/_continuous_distns.py:3422-3431 -/
def munp (n : ℕ) : ℝ :=
  if n = 1 then 2 * log 2
  else if n = 2 then π * π / 3
  else if n = 3 then 9 * hzeta 3 1
  else if n = 4 then 7 * π ^ 4 / 15
  else 2 * (1 - (2 : ℝ) ^ (1 - n : ℝ)) * Gamma (n + 1) * hzeta n 1
end HalfLogistic

namespace HypSecant
/-- stats/_continuous_distns.py:3521-3522 -/
def stats : ℝ × ℝ × ℝ × ℝ := (0, π * π / 4, 0, 2)
end HypSecant

end

end Wafo.Dist
