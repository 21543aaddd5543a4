import Verif.Dist.Model
import Verif.Dist.MomSpec
import Mathlib.Analysis.SpecialFunctions.Gamma.Basic
import Mathlib.MeasureTheory.Integral.Bochner.Set
import Mathlib.Data.Real.Sign

/-!
# Distributions of the gamma family

Same conventions as `Verif.Dist.Model`.  `scipy.special.gammainc` and `gammaincc` are the regularised
lower and upper incomplete gamma functions; their inverses `gammaincinv` and `gammainccinv` are
parameters `inv` and `cinv` of the model, about which the theorems assume `IsGammaInv`.
-/

namespace Wafo.Dist

noncomputable section

open Real MeasureTheory

/-- `scipy.special.gammainc(a, x)`. -/
def gammainc (a x : ℝ) : ℝ := (∫ t in Set.Ioc 0 x, t ^ (a - 1) * exp (-t)) / Gamma a

/-- `scipy.special.gammaincc(a, x)`. -/
def gammaincc (a x : ℝ) : ℝ := (∫ t in Set.Ioi x, t ^ (a - 1) * exp (-t)) / Gamma a

/-- `scipy.special.gammaln`. -/
def gammaln (a : ℝ) : ℝ := log |Gamma a|

namespace GammaD
/-- stats/_continuous_distns.py:2900-2901 -/
def logpdf (a x : ℝ) : ℝ := xlogy (a - 1) x - x - gammaln a
/-- stats/_continuous_distns.py:2896-2898 -/
def pdf (a x : ℝ) : ℝ := exp (logpdf a x)
/-- stats/_continuous_distns.py:2903-2904 -/
def cdf (a x : ℝ) : ℝ := gammainc a x
/-- stats/_continuous_distns.py:2906-2907 -/
def sf (a x : ℝ) : ℝ := gammaincc a x
/-- stats/_continuous_distns.py:2909-2910 -/
def ppf (inv : ℝ → ℝ → ℝ) (a q : ℝ) : ℝ := inv a q
/-- Mean, variance, skewness and excess kurtosis, stats/_continuous_distns.py:2912-2913 -/
def stats (a : ℝ) : ℝ × ℝ × ℝ × ℝ := (a, a, 2 / √a, 6 / a)
end GammaD

namespace Chi
/-- stats/_continuous_distns.py:1243-1245 -/
def logpdf (df x : ℝ) : ℝ :=
  let l := log 2 - 0.5 * log 2 * df - gammaln (0.5 * df)
  l + xlogy (df - 1) x - 0.5 * x ^ 2
/-- stats/_continuous_distns.py:1237-1241 -/
def pdf (df x : ℝ) : ℝ := exp (logpdf df x)
/-- stats/_continuous_distns.py:1247-1248 -/
def cdf (df x : ℝ) : ℝ := gammainc (0.5 * df) (0.5 * x ^ 2)
/-- stats/_continuous_distns.py:1250-1251 -/
def ppf (inv : ℝ → ℝ → ℝ) (df q : ℝ) : ℝ := √(2 * inv (0.5 * df) q)
/-- stats/_continuous_distns.py:1253-1259 -/
def stats (df : ℝ) : ℝ × ℝ × ℝ × ℝ :=
  let mu := √2 * Gamma (df / 2 + 0.5) / Gamma (df / 2)
  let mu2 := df - mu * mu
  let g1 := (2 * mu ^ 3 + mu * (1 - 2 * df)) / mu2 ^ (1.5 : ℝ)
  let g2 := (2 * df * (1 - df) - 6 * mu ^ 4 + 4 * mu ^ 2 * (2 * df - 1)) / mu2 ^ 2
  (mu, mu2, g1, g2)
end Chi

namespace Chi2
/-- stats/_continuous_distns.py:1304-1305 -/
def logpdf (df x : ℝ) : ℝ := xlogy (df / 2 - 1) x - x / 2 - gammaln (df / 2) - log 2 * df / 2
/-- stats/_continuous_distns.py:1300-1302 -/
def pdf (df x : ℝ) : ℝ := exp (logpdf df x)
/-- stats/_continuous_distns.py:1307-1308; `chdtr` is the incomplete gamma function of half the
arguments -/
def cdf (df x : ℝ) : ℝ := gammainc (df / 2) (x / 2)
/-- stats/_continuous_distns.py:1310-1311 -/
def sf (df x : ℝ) : ℝ := gammaincc (df / 2) (x / 2)
/-- stats/_continuous_distns.py:1313-1314; `chdtri` inverts `chdtrc` -/
def isf (cinv : ℝ → ℝ → ℝ) (df p : ℝ) : ℝ := 2 * cinv (df / 2) p
/-- stats/_continuous_distns.py:1316-1317 -/
def ppf (inv : ℝ → ℝ → ℝ) (df p : ℝ) : ℝ := 2 * inv (df / 2) p
/-- stats/_continuous_distns.py:1319-1324 -/
def stats (df : ℝ) : ℝ × ℝ × ℝ × ℝ := (df, 2 * df, 2 * √(2 / df), 12 / df)
end Chi2

namespace DGamma
/-- stats/_continuous_distns.py:1397-1400 -/
def pdf (a x : ℝ) : ℝ := 1 / (2 * Gamma a) * |x| ^ (a - 1) * exp (-|x|)
/-- stats/_continuous_distns.py:1402-1404 -/
def logpdf (a x : ℝ) : ℝ := xlogy (a - 1) |x| - |x| - log 2 - gammaln a
/-- stats/_continuous_distns.py:1406-1408 -/
def cdf (a x : ℝ) : ℝ :=
  let fac := 0.5 * gammainc a |x|
  if x > 0 then 0.5 + fac else 0.5 - fac
/-- stats/_continuous_distns.py:1410-1412 -/
def sf (a x : ℝ) : ℝ :=
  let fac := 0.5 * gammainc a |x|
  if x > 0 then 0.5 - fac else 0.5 + fac
/-- stats/_continuous_distns.py:1414-1416 -/
def ppf (cinv : ℝ → ℝ → ℝ) (a q : ℝ) : ℝ :=
  let fac := cinv a (1 - |2 * q - 1|)
  if q > 0.5 then fac else -fac
/-- stats/_continuous_distns.py:1418-1420 -/
def stats (a : ℝ) : ℝ × ℝ × ℝ × ℝ :=
  let mu2 := a * (a + 1)
  (0, mu2, 0, (a + 2) * (a + 3) / mu2 - 3)
end DGamma

namespace GenGamma
/-- stats/_continuous_distns.py:3093-3094 -/
def argcheck (a c : ℝ) : Prop := 0 < a ∧ c ≠ 0
/-- stats/_continuous_distns.py:3100-3101 -/
def logpdf (a c x : ℝ) : ℝ := log |c| + xlogy (c * a - 1) x - x ^ c - gammaln a
/-- stats/_continuous_distns.py:3096-3098 -/
def pdf (a c x : ℝ) : ℝ := exp (logpdf a c x)
/-- stats/_continuous_distns.py:3103-3107 -/
def cdf (a c x : ℝ) : ℝ := if 0 < c then gammainc a (x ^ c) else gammaincc a (x ^ c)
/-- stats/_continuous_distns.py:3109-3113 -/
def sf (a c x : ℝ) : ℝ := if 0 < c then gammaincc a (x ^ c) else gammainc a (x ^ c)
/-- stats/_continuous_distns.py:3115-3118 -/
def ppf (inv cinv : ℝ → ℝ → ℝ) (a c q : ℝ) : ℝ := (if 0 < c then inv a q else cinv a q) ^ (1 / c)
/-- stats/_continuous_distns.py:3120-3123 -/
def isf (inv cinv : ℝ → ℝ → ℝ) (a c q : ℝ) : ℝ := (if 0 < c then cinv a q else inv a q) ^ (1 / c)
/-- `sc.poch(a, n / c)`, stats/_continuous_distns.py:3125-3127 -/
def munp (n : ℕ) (a c : ℝ) : ℝ := Gamma (a + n / c) / Gamma a
end GenGamma

namespace InvGamma
/-- stats/_continuous_distns.py:3607-3608 -/
def logpdf (a x : ℝ) : ℝ := -(a + 1) * log x - gammaln a - 1 / x
/-- stats/_continuous_distns.py:3603-3605 -/
def pdf (a x : ℝ) : ℝ := exp (logpdf a x)
/-- stats/_continuous_distns.py:3610-3611 -/
def cdf (a x : ℝ) : ℝ := gammaincc a (1 / x)
/-- stats/_continuous_distns.py:3613-3614 -/
def ppf (cinv : ℝ → ℝ → ℝ) (a q : ℝ) : ℝ := 1 / cinv a q
/-- stats/_continuous_distns.py:3616-3617 -/
def sf (a x : ℝ) : ℝ := gammainc a (1 / x)
/-- stats/_continuous_distns.py:3619-3620 -/
def isf (inv : ℝ → ℝ → ℝ) (a q : ℝ) : ℝ := 1 / inv a q
/-- stats/_continuous_distns.py:3622-3636 -/
def stats (a : ℝ) : Val × Val × Val × Val :=
  open Classical in
  (if a > 1 then .fin (1 / (a - 1)) else .inf,
   if a > 2 then .fin (1 / (a - 1) ^ 2 / (a - 2)) else .inf,
   if a > 3 then .fin (4 * √(a - 2) / (a - 3)) else .nan,
   if a > 4 then .fin (6 * (5 * a - 11) / (a - 3) / (a - 4)) else .nan)
end InvGamma

namespace Maxwell
/-- stats/_continuous_distns.py:5236-5238 -/
def pdf (x : ℝ) : ℝ := √(2 / π) * x * x * exp (-x * x / 2)
/-- stats/_continuous_distns.py:5240-5241 -/
def cdf (x : ℝ) : ℝ := gammainc 1.5 (x * x / 2)
/-- stats/_continuous_distns.py:5243-5244 -/
def ppf (inv : ℝ → ℝ → ℝ) (q : ℝ) : ℝ := √(2 * inv 1.5 q)
/-- stats/_continuous_distns.py:5246-5251 -/
def stats : ℝ × ℝ × ℝ × ℝ :=
  let val := 3 * π - 8
  (2 * √(2 / π), 3 - 8 / π, √2 * (32 - 10 * π) / val ^ (1.5 : ℝ),
    (-12 * π * π + 160 * π - 384) / val ^ 2)
end Maxwell

namespace Nakagami
/-- stats/_continuous_distns.py:5744-5747 -/
def pdf (nu x : ℝ) : ℝ := 2 * nu ^ nu / Gamma nu * x ^ (2 * nu - 1) * exp (-nu * x * x)
/-- stats/_continuous_distns.py:5749-5750 -/
def cdf (nu x : ℝ) : ℝ := gammainc nu (nu * x * x)
/-- stats/_continuous_distns.py:5752-5753 -/
def ppf (inv : ℝ → ℝ → ℝ) (nu q : ℝ) : ℝ := √(1 / nu * inv nu q)
/-- stats/_continuous_distns.py:5755-5761 -/
def stats (nu : ℝ) : ℝ × ℝ × ℝ × ℝ :=
  let mu := Gamma (nu + 0.5) / Gamma nu / √nu
  let mu2 := 1 - mu * mu
  let g1 := mu * (1 - 4 * nu * mu2) / 2 / nu / mu2 ^ (1.5 : ℝ)
  let g2 := (-6 * mu ^ 4 * nu + (8 * nu - 2) * mu ^ 2 - 2 * nu + 1) / (nu * mu2 ^ 2)
  (mu, mu2, g1, g2)
end Nakagami

namespace GenNorm
/-- stats/_continuous_distns.py:7975-7976 -/
def logpdf (beta x : ℝ) : ℝ := log (0.5 * beta) - gammaln (1 / beta) - |x| ^ beta
/-- stats/_continuous_distns.py:7972-7973 -/
def pdf (beta x : ℝ) : ℝ := exp (logpdf beta x)
/-- stats/_continuous_distns.py:7978-7981 -/
def cdf (beta x : ℝ) : ℝ :=
  let c := 0.5 * Real.sign x
  0.5 + c - c * gammaincc (1 / beta) (|x| ^ beta)
/-- stats/_continuous_distns.py:7983-7986 -/
def ppf (cinv : ℝ → ℝ → ℝ) (beta q : ℝ) : ℝ :=
  let c := Real.sign (q - 0.5)
  c * cinv (1 / beta) (1 + c - 2 * c * q) ^ (1 / beta)
/-- stats/_continuous_distns.py:7988-7989 -/
def sf (beta x : ℝ) : ℝ := cdf beta (-x)
/-- stats/_continuous_distns.py:7991-7992 -/
def isf (cinv : ℝ → ℝ → ℝ) (beta q : ℝ) : ℝ := -ppf cinv beta q
/-- stats/_continuous_distns.py:7994-7996 -/
def stats (beta : ℝ) : ℝ × ℝ × ℝ × ℝ :=
  let c1 := gammaln (1 / beta)
  let c3 := gammaln (3 / beta)
  let c5 := gammaln (5 / beta)
  (0, exp (c3 - c1), 0, exp (c5 + c1 - 2 * c3) - 3)
end GenNorm

namespace HalfGenNorm
/-- stats/_continuous_distns.py:8048-8049 -/
def logpdf (beta x : ℝ) : ℝ := log beta - gammaln (1 / beta) - x ^ beta
/-- stats/_continuous_distns.py:8042-8046 -/
def pdf (beta x : ℝ) : ℝ := exp (logpdf beta x)
/-- stats/_continuous_distns.py:8051-8052 -/
def cdf (beta x : ℝ) : ℝ := gammainc (1 / beta) (x ^ beta)
/-- stats/_continuous_distns.py:8054-8055 -/
def ppf (inv : ℝ → ℝ → ℝ) (beta q : ℝ) : ℝ := inv (1 / beta) q ^ (1 / beta)
/-- stats/_continuous_distns.py:8057-8058 -/
def sf (beta x : ℝ) : ℝ := gammaincc (1 / beta) (x ^ beta)
/-- stats/_continuous_distns.py:8060-8061 -/
def isf (cinv : ℝ → ℝ → ℝ) (beta q : ℝ) : ℝ := cinv (1 / beta) q ^ (1 / beta)
end HalfGenNorm

end

end Wafo.Dist
