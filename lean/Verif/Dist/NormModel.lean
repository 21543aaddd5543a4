import Verif.Dist.MomSpec
import Mathlib.NumberTheory.Harmonic.EulerMascheroni
import Verif.Dist.Model
import Verif.Gauss.Spec
import Mathlib.Analysis.SpecialFunctions.Arsinh

/-!
# Distributions of the normal family

Same conventions as `Verif.Dist.Model`.  `scipy.special.ndtr` is the normal distribution function
`Wafo.Gauss.Phi`, `log_ndtr` its logarithm, `erfc` is `Wafo.Gauss.erfc` and `erf` is `1 - erfc`.
The inverses `ndtri` and `erfcinv` are parameters `ninv` and `einv` of the model, about which the
theorems assume `IsNormInv` and `IsErfcInv`.
-/

namespace Wafo.Dist

noncomputable section

open Real Wafo.Gauss

/-- `scipy.special.erf`. -/
def erf (x : ℝ) : ℝ := 1 - erfc x

namespace Norm
/-- stats/_continuous_distns.py:247-248, 251-252, 309-311 -/
def pdf (x : ℝ) : ℝ := exp (-x ^ 2 / 2) / √(2 * π)
/-- stats/_continuous_distns.py:248, 255-256, 313-314 -/
def logpdf (x : ℝ) : ℝ := -x ^ 2 / 2 - log √(2 * π)
/-- stats/_continuous_distns.py:259-260, 316-317 -/
def cdf (x : ℝ) : ℝ := Phi x
/-- stats/_continuous_distns.py:263-264, 319-320 -/
def logcdf (x : ℝ) : ℝ := log (Phi x)
/-- stats/_continuous_distns.py:271-272, 322-323 -/
def sf (x : ℝ) : ℝ := cdf (-x)
/-- stats/_continuous_distns.py:275-276, 325-326 -/
def logsf (x : ℝ) : ℝ := logcdf (-x)
/-- stats/_continuous_distns.py:267-268, 328-329 -/
def ppf (ninv : ℝ → ℝ) (q : ℝ) : ℝ := ninv q
/-- stats/_continuous_distns.py:279-280, 331-332 -/
def isf (ninv : ℝ → ℝ) (q : ℝ) : ℝ := -ppf ninv q
/-- stats/_continuous_distns.py:334-335 -/
def stats : ℝ × ℝ × ℝ × ℝ := (0, 1, 0, 0)
/-- stats/_continuous_distns.py:337-338 -/
def entropy : ℝ := 0.5 * (log (2 * π) + 1)
end Norm

namespace Alpha
/-- stats/_continuous_distns.py:423-425 -/
def pdf (a x : ℝ) : ℝ := 1 / x ^ 2 / Norm.cdf a * Norm.pdf (a - 1 / x)
/-- stats/_continuous_distns.py:427-428 -/
def logpdf (a x : ℝ) : ℝ := -2 * log x + Norm.logpdf (a - 1 / x) - log (Norm.cdf a)
/-- stats/_continuous_distns.py:430-431 -/
def cdf (a x : ℝ) : ℝ := Norm.cdf (a - 1 / x) / Norm.cdf a
/-- stats/_continuous_distns.py:433-434 -/
def ppf (ninv : ℝ → ℝ) (a q : ℝ) : ℝ := 1 / (a - ninv (q * Norm.cdf a))
/-- stats/_continuous_distns.py:436-437 -/
def stats (_a : ℝ) : Val × Val × Val × Val := (.inf, .inf, .nan, .nan)
end Alpha

namespace FatigueLife
/-- stats/_continuous_distns.py:1827-1829 -/
def logpdf (c x : ℝ) : ℝ :=
  log (x + 1) - (x - 1) ^ 2 / (2 * x * c ^ 2) - log (2 * c) - 0.5 * (log (2 * π) + 3 * log x)
/-- stats/_continuous_distns.py:1822-1825 -/
def pdf (c x : ℝ) : ℝ := exp (logpdf c x)
/-- stats/_continuous_distns.py:1831-1832 -/
def cdf (c x : ℝ) : ℝ := Norm.cdf (1 / c * (√x - 1 / √x))
/-- stats/_continuous_distns.py:1834-1836 -/
def ppf (ninv : ℝ → ℝ) (c q : ℝ) : ℝ :=
  let tmp := c * ninv q
  0.25 * (tmp + √(tmp ^ 2 + 4)) ^ 2
/-- stats/_continuous_distns.py:1838-1850 -/
def stats (c : ℝ) : ℝ × ℝ × ℝ × ℝ :=
  let c2 := c * c
  let mu := c2 / 2 + 1
  let den := 5 * c2 + 4
  let mu2 := c2 * den / 4
  let g1 := 4 * c * (11 * c2 + 6) / den ^ (1.5 : ℝ)
  let g2 := 6 * c2 * (93 * c2 + 40) / den ^ 2
  (mu, mu2, g1, g2)
/-- The function of a standard normal variable, stats/_continuous_distns.py:1815-1820 -/
def rvs (c z : ℝ) : ℝ :=
  let x := 0.5 * c * z
  let x2 := x * x
  1 + 2 * x2 + 2 * x * √(1 + x2)
end FatigueLife

namespace FoldNorm
/-- stats/_continuous_distns.py:2023-2025 -/
def pdf (c x : ℝ) : ℝ := Norm.pdf (x + c) + Norm.pdf (x - c)
/-- stats/_continuous_distns.py:2027-2028 -/
def cdf (c x : ℝ) : ℝ := Norm.cdf (x - c) + Norm.cdf (x + c) - 1
/-- stats/_continuous_distns.py:2030-2047 -/
def stats (c : ℝ) : ℝ × ℝ × ℝ × ℝ :=
  let c2 := c * c
  let expfac := exp (-0.5 * c2) / √(2 * π)
  let mu := 2 * expfac + c * erf (c / √2)
  let mu2 := c2 + 1 - mu * mu
  let g1 := 2 * (mu * mu * mu - c2 * mu - expfac)
  let g1 := g1 / mu2 ^ (1.5 : ℝ)
  let g2 := c2 * (c2 + 6) + 3 + 8 * expfac * mu
  let g2 := g2 + (2 * (c2 - 3) - 3 * mu ^ 2) * mu ^ 2
  let g2 := g2 / mu2 ^ 2 - 3
  (mu, mu2, g1, g2)
/-- The function of a standard normal variable, stats/_continuous_distns.py:2020-2021 -/
def rvs (c z : ℝ) : ℝ := |z + c|
end FoldNorm

namespace HalfNorm
/-- stats/_continuous_distns.py:3465-3467 -/
def pdf (x : ℝ) : ℝ := √(2 / π) * exp (-x * x / 2)
/-- stats/_continuous_distns.py:3469-3470 -/
def logpdf (x : ℝ) : ℝ := 0.5 * log (2 / π) - x * x / 2
/-- stats/_continuous_distns.py:3472-3473 -/
def cdf (x : ℝ) : ℝ := Norm.cdf x * 2 - 1
/-- stats/_continuous_distns.py:3475-3476 -/
def ppf (ninv : ℝ → ℝ) (q : ℝ) : ℝ := ninv ((1 + q) / 2)
/-- stats/_continuous_distns.py:3478-3482 -/
def stats : ℝ × ℝ × ℝ × ℝ :=
  (√(2 / π), 1 - 2 / π, √2 * (4 - π) / (π - 2) ^ (1.5 : ℝ), 8 * (π - 3) / (π - 2) ^ 2)
/-- stats/_continuous_distns.py:3484-3485 -/
def entropy : ℝ := 0.5 * log (π / 2) + 0.5
/-- The function of a standard normal variable, stats/_continuous_distns.py:3462-3463 -/
def rvs (z : ℝ) : ℝ := |z|
end HalfNorm

namespace JohnsonSB
/-- stats/_continuous_distns.py:4160-4163 -/
def pdf (a b x : ℝ) : ℝ := b * 1 / (x * (1 - x)) * Norm.pdf (a + b * log (x / (1 - x)))
/-- stats/_continuous_distns.py:4165-4166 -/
def cdf (a b x : ℝ) : ℝ := Norm.cdf (a + b * log (x / (1 - x)))
/-- stats/_continuous_distns.py:4168-4169 -/
def ppf (ninv : ℝ → ℝ) (a b q : ℝ) : ℝ := 1 / (1 + exp (-1 / b * (Norm.ppf ninv q - a)))
end JohnsonSB

namespace JohnsonSU
/-- stats/_continuous_distns.py:4205-4210 -/
def pdf (a b x : ℝ) : ℝ :=
  let x2 := x * x
  let trm := Norm.pdf (a + b * log (x + √(x2 + 1)))
  b * 1 / √(x2 + 1) * trm
/-- stats/_continuous_distns.py:4212-4213 -/
def cdf (a b x : ℝ) : ℝ := Norm.cdf (a + b * log (x + √(x * x + 1)))
/-- stats/_continuous_distns.py:4215-4216 -/
def ppf (ninv : ℝ → ℝ) (a b q : ℝ) : ℝ := sinh ((Norm.ppf ninv q - a) / b)
end JohnsonSU

namespace Levy
/-- stats/_continuous_distns.py:4294-4296 -/
def pdf (x : ℝ) : ℝ := 1 / √(2 * π * x) / x * exp (-1 / (2 * x))
/-- stats/_continuous_distns.py:4298-4300 -/
def cdf (x : ℝ) : ℝ := erfc (√(0.5 / x))
/-- stats/_continuous_distns.py:4302-4305 -/
def ppf (ninv : ℝ → ℝ) (q : ℝ) : ℝ :=
  let val := -ninv (q / 2)
  1 / (val * val)
/-- stats/_continuous_distns.py:4307-4308 -/
def stats : Val × Val × Val × Val := (.inf, .inf, .nan, .nan)
end Levy

namespace LevyL
/-- stats/_continuous_distns.py:4342-4345 -/
def pdf (x : ℝ) : ℝ := 1 / √(2 * π * |x|) / |x| * exp (-1 / (2 * |x|))
/-- stats/_continuous_distns.py:4347-4349 -/
def cdf (x : ℝ) : ℝ := 2 * Norm.cdf (1 / √(|x|)) - 1
/-- stats/_continuous_distns.py:4351-4353 -/
def ppf (ninv : ℝ → ℝ) (q : ℝ) : ℝ :=
  let val := Norm.ppf ninv ((q + 1) / 2)
  (-1) / (val * val)
/-- stats/_continuous_distns.py:4355-4356 -/
def stats : Val × Val × Val × Val := (.inf, .inf, .nan, .nan)
end LevyL

namespace LogNorm
/-- stats/_continuous_distns.py:4998-5001, 5042-5043; the value `-∞` at `x = 0` is outside the open
support (line 5033) and is not modelled -/
def logpdf (s x : ℝ) : ℝ := -log x ^ 2 / (2 * s ^ 2) - log (s * x * √(2 * π))
/-- stats/_continuous_distns.py:5038-5040 -/
def pdf (s x : ℝ) : ℝ := exp (logpdf s x)
/-- stats/_continuous_distns.py:5045-5046 -/
def cdf (s x : ℝ) : ℝ := Norm.cdf (log x / s)
/-- stats/_continuous_distns.py:5048-5049 -/
def logcdf (s x : ℝ) : ℝ := Norm.logcdf (log x / s)
/-- stats/_continuous_distns.py:5051-5052 -/
def ppf (ninv : ℝ → ℝ) (s q : ℝ) : ℝ := exp (s * Norm.ppf ninv q)
/-- stats/_continuous_distns.py:5054-5055 -/
def sf (s x : ℝ) : ℝ := Norm.sf (log x / s)
/-- stats/_continuous_distns.py:5057-5058 -/
def logsf (s x : ℝ) : ℝ := Norm.logsf (log x / s)
/-- stats/_continuous_distns.py:5060-5066 -/
def stats (s : ℝ) : ℝ × ℝ × ℝ × ℝ :=
  let p := exp (s * s)
  let mu := √p
  let mu2 := p * (p - 1)
  let g1 := √(p - 1) * (2 + p)
  let g2 := (((1 * p + 2) * p + 3) * p + 0) * p + -6
  (mu, mu2, g1, g2)
/-- stats/_continuous_distns.py:5068-5069 -/
def entropy (s : ℝ) : ℝ := 0.5 * (1 + log (2 * π) + 2 * log s)
/-- The function of a standard normal variable, stats/_continuous_distns.py:5035-5036 -/
def rvs (s z : ℝ) : ℝ := exp (s * z)
end LogNorm

namespace Gilbrat
/-- stats/_continuous_distns.py:5178-5179 -/
def logpdf (x : ℝ) : ℝ := LogNorm.logpdf 1 x
/-- stats/_continuous_distns.py:5174-5176 -/
def pdf (x : ℝ) : ℝ := exp (logpdf x)
/-- stats/_continuous_distns.py:5181-5182 -/
def cdf (x : ℝ) : ℝ := Norm.cdf (log x)
/-- stats/_continuous_distns.py:5184-5185 -/
def ppf (ninv : ℝ → ℝ) (q : ℝ) : ℝ := exp (Norm.ppf ninv q)
/-- stats/_continuous_distns.py:5187-5193 -/
def stats : ℝ × ℝ × ℝ × ℝ :=
  let p := exp 1
  let mu := √p
  let mu2 := p * (p - 1)
  let g1 := √(p - 1) * (2 + p)
  let g2 := (((1 * p + 2) * p + 3) * p + 0) * p + -6
  (mu, mu2, g1, g2)
/-- stats/_continuous_distns.py:5195-5196 -/
def entropy : ℝ := 0.5 * log (2 * π) + 0.5
/-- The function of a standard normal variable, stats/_continuous_distns.py:5171-5172 -/
def rvs (z : ℝ) : ℝ := exp z
end Gilbrat

namespace Moyal
/-- stats/_continuous_distns.py:5678-5679 -/
def pdf (x : ℝ) : ℝ := exp (-0.5 * (x + exp (-x))) / √(2 * π)
/-- stats/_continuous_distns.py:5681-5682 -/
def cdf (x : ℝ) : ℝ := erfc (exp (-0.5 * x) / √2)
/-- stats/_continuous_distns.py:5684-5685 -/
def sf (x : ℝ) : ℝ := erf (exp (-0.5 * x) / √2)
/-- stats/_continuous_distns.py:5687-5688 -/
def ppf (einv : ℝ → ℝ) (q : ℝ) : ℝ := -log (2 * einv q ^ 2)
/-- The function of a gamma variable with shape 0.5, stats/_continuous_distns.py:5673-5676; the
argument `scale=2` of `gamma.rvs` doubles it -/
def rvs (u : ℝ) : ℝ :=
  -log (2 * u)
/-- stats/_continuous_distns.py:5690-5695; `zeta3` is `sc.zeta(3)` -/
def stats (zeta3 : ℝ) : ℝ × ℝ × ℝ × ℝ :=
  let mu := log 2 + eulerMascheroniConstant
  let mu2 := π ^ 2 / 2
  let g1 := 28 * √2 * zeta3 / π ^ 3
  let g2 := 4
  (mu, mu2, g1, g2)
end Moyal

namespace PowerLogNorm
/-- stats/_continuous_distns.py:6468-6472 -/
def pdf (c s x : ℝ) : ℝ :=
  c / (x * s) * Norm.pdf (log x / s) * Norm.cdf (-log x / s) ^ (c * 1 - 1)
/-- stats/_continuous_distns.py:6474-6475 -/
def cdf (c s x : ℝ) : ℝ := 1 - Norm.cdf (-log x / s) ^ (c * 1)
/-- stats/_continuous_distns.py:6477-6478 -/
def ppf (ninv : ℝ → ℝ) (c s q : ℝ) : ℝ := exp (-s * Norm.ppf ninv ((1 - q) ^ (1 / c)))
end PowerLogNorm

namespace PowerNorm
/-- stats/_continuous_distns.py:6507-6509 -/
def pdf (c x : ℝ) : ℝ := c * Norm.pdf x * Norm.cdf (-x) ^ (c - 1)
/-- stats/_continuous_distns.py:6511-6512 -/
def logpdf (c x : ℝ) : ℝ := log c + Norm.logpdf x + (c - 1) * Norm.logcdf (-x)
/-- stats/_continuous_distns.py:6514-6515 -/
def cdf (c x : ℝ) : ℝ := 1 - Norm.cdf (-x) ^ (c * 1)
/-- stats/_continuous_distns.py:6517-6518 -/
def ppf (ninv : ℝ → ℝ) (c q : ℝ) : ℝ := -Norm.ppf ninv ((1 - q) ^ (1 / c))
end PowerNorm

namespace InvGauss
/-- stats/_continuous_distns.py:3678-3681 -/
def pdf (mu x : ℝ) : ℝ := 1 / √(2 * π * x ^ (3 : ℝ)) * exp (-1 / (2 * x) * ((x - mu) / mu) ^ 2)
/-- stats/_continuous_distns.py:3683-3684 -/
def logpdf (mu x : ℝ) : ℝ := -0.5 * log (2 * π) - 1.5 * log x - ((x - mu) / mu) ^ 2 / (2 * x)
/-- stats/_continuous_distns.py:3686-3691 -/
def cdf (mu x : ℝ) : ℝ :=
  let fac := √(1 / x)
  let C1 := Norm.cdf (fac * (x - mu) / mu)
  C1 + exp (1 / mu) * Norm.cdf (-fac * (x + mu) / mu) * exp (1 / mu)
/-- stats/_continuous_distns.py:3693-3694 -/
def stats (mu : ℝ) : ℝ × ℝ × ℝ × ℝ := (mu, mu ^ (3 : ℝ), 3 * √mu, 15 * mu)
end InvGauss

namespace RecipInvGauss
/-- stats/_continuous_distns.py:6894-6897 -/
def pdf (mu x : ℝ) : ℝ := 1 / √(2 * π * x) * exp (-(1 - mu * x) ^ 2 / (2 * x * mu ^ 2))
/-- stats/_continuous_distns.py:6899-6900 -/
def logpdf (mu x : ℝ) : ℝ := -(1 - mu * x) ^ 2 / (2 * x * mu ^ 2) - 0.5 * log (2 * π * x)
/-- stats/_continuous_distns.py:6902-6906 -/
def cdf (mu x : ℝ) : ℝ :=
  let trm1 := 1 / mu - x
  let trm2 := 1 / mu + x
  let isqx := 1 / √x
  1 - Norm.cdf (isqx * trm1) - exp (2 / mu) * Norm.cdf (-isqx * trm2)
/-- The function of a Wald variable with mean `mu` and scale one,
stats/_continuous_distns.py:6908-6909 -/
def rvs (w : ℝ) : ℝ := 1 / w
end RecipInvGauss

namespace ExponNorm
/-- stats/_continuous_distns.py:1633-1641; the largest float that replaces an overflowing exponential
is not modelled -/
def pdf (K x : ℝ) : ℝ :=
  let invK := 1 / K
  let exparg := 0.5 * invK ^ 2 - invK * x
  0.5 * invK * (exp exparg * erfc (-(x - invK) / √2))
/-- stats/_continuous_distns.py:1643-1646 -/
def logpdf (K x : ℝ) : ℝ :=
  let invK := 1 / K
  let exparg := 0.5 * invK ^ 2 - invK * x
  exparg + log (0.5 * invK * erfc (-(x - invK) / √2))
/-- stats/_continuous_distns.py:1648-1651 -/
def cdf (K x : ℝ) : ℝ :=
  let invK := 1 / K
  let expval := invK * (0.5 * invK - x)
  Norm.cdf x - exp expval * Norm.cdf (x - invK)
/-- stats/_continuous_distns.py:1653-1656 -/
def sf (K x : ℝ) : ℝ :=
  let invK := 1 / K
  let expval := invK * (0.5 * invK - x)
  Norm.cdf (-x) + exp expval * Norm.cdf (x - invK)
/-- stats/_continuous_distns.py:1658-1663 -/
def stats (K : ℝ) : ℝ × ℝ × ℝ × ℝ :=
  let K2 := K * K
  let opK2 := 1 + K2
  let skw := 2 * K ^ 3 * opK2 ^ (-1.5 : ℝ)
  let krt := 6 * K2 * K2 * opK2 ^ (-2 : ℤ)
  (K, opK2, skw, krt)
/-- The function of a standard exponential and a standard normal variable,
stats/_continuous_distns.py:1628-1631 -/
def rvs (K e z : ℝ) : ℝ :=
  let expval := e * K
  expval + z
end ExponNorm

namespace CrystalBall
/-- stats/_continuous_distns.py:8117-8118, repeated at 8133, 8148 and 8162 -/
def N (beta m : ℝ) : ℝ :=
  1 / (m / beta / (m - 1) * exp (-beta ^ 2 / 2) + √(2 * π) * Norm.cdf beta)
/-- stats/_continuous_distns.py:8107-8127 -/
def pdf (beta m x : ℝ) : ℝ :=
  N beta m * if -beta < x then exp (-x ^ 2 / 2)
    else (m / beta) ^ m * exp (-beta ^ 2 / 2) * (m / beta - beta - x) ^ (-m)
/-- stats/_continuous_distns.py:8129-8142 -/
def logpdf (beta m x : ℝ) : ℝ :=
  log (N beta m) + if -beta < x then -x ^ 2 / 2
    else m * log (m / beta) - beta ^ 2 / 2 - m * log (m / beta - beta - x)
/-- stats/_continuous_distns.py:8144-8159 -/
def cdf (beta m x : ℝ) : ℝ :=
  N beta m * if -beta < x then
      (m / beta) * exp (-beta ^ 2 / 2) / (m - 1) + √(2 * π) * (Norm.cdf x - Norm.cdf (-beta))
    else (m / beta) ^ m * exp (-beta ^ 2 / 2) * (m / beta - beta - x) ^ (-m + 1) / (m - 1)
/-- stats/_continuous_distns.py:8161-8179 -/
def ppf (ninv : ℝ → ℝ) (beta m p : ℝ) : ℝ :=
  let pbeta := N beta m * (m / beta) * exp (-beta ^ 2 / 2) / (m - 1)
  let eb2 := exp (-beta ^ 2 / 2)
  let C := (m / beta) * eb2 / (m - 1)
  let N' := 1 / (C + √(2 * π) * Norm.cdf beta)
  if p < pbeta then
    m / beta - beta - ((m - 1) * (m / beta) ^ (-m) / eb2 * p / N') ^ (1 / (1 - m))
  else Norm.ppf ninv (Norm.cdf (-beta) + 1 / √(2 * π) * (p / N' - C))
end CrystalBall

namespace SkewNorm
/-- stats/_continuous_distns.py:7004-7005 -/
def pdf (a x : ℝ) : ℝ := 2 * Norm.pdf x * Norm.cdf (a * x)
/-- stats/_continuous_distns.py:7007-7018; `quad` is a parameter, the integral of a function over an
interval whose ends are given (`none` for infinite ends) -/
def cdf (quad : (ℝ → ℝ) → Option ℝ → Option ℝ → ℝ) (a x : ℝ) : ℝ :=
  let cdf := if x ≤ 0 then quad (pdf a) none (some x)
    else quad (pdf a) none (some 0) + quad (pdf a) (some 0) (some x)
  if 1 < cdf then 1 else cdf
/-- stats/_continuous_distns.py:7020-7021 -/
def sf (quad : (ℝ → ℝ) → Option ℝ → Option ℝ → ℝ) (a x : ℝ) : ℝ := cdf quad (-a) (-x)
/-- stats/_continuous_distns.py:7030-7043, all four moments asked for -/
def stats (a : ℝ) : ℝ × ℝ × ℝ × ℝ :=
  let const := √(2 / π) * a / √(1 + a ^ 2)
  (const, 1 - const ^ 2, (4 - π) / 2 * (const / √(1 - const ^ 2)) ^ 3,
    2 * (π - 3) * (const ^ 4 / (1 - const ^ 2) ^ 2))
/-- The function of two standard normal variables, stats/_continuous_distns.py:7023-7028 -/
def rvs (a u0 v : ℝ) : ℝ :=
  let d := a / √(1 + a ^ 2)
  let u1 := d * u0 + v * √(1 - d ^ 2)
  if 0 ≤ u0 then u1 else -u1
end SkewNorm

end

end Wafo.Dist
