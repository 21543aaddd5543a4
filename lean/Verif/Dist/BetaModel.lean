import Verif.Dist.GammaModel
import Verif.Dist.MomModel

/-!
# Distributions of the beta family

Same conventions as `Verif.Dist.Model`.  `scipy.special.beta` is the beta function and
`scipy.special.betainc`, `btdtr`, `fdtr`, `fdtrc` and `stdtr` are given by the regularised incomplete
beta function; the inverses `btdtri`, `fdtri` and `stdtrit` are parameters of the model.
-/

namespace Wafo.Dist

noncomputable section

open Real MeasureTheory

/-- `scipy.special.beta`. -/
def betaf (a b : ℝ) : ℝ := Gamma a * Gamma b / Gamma (a + b)

/-- `scipy.special.betaln`. -/
def betaln (a b : ℝ) : ℝ := log |betaf a b|

/-- `scipy.special.betainc(a, b, x)` and `btdtr(a, b, x)`, for `x` between 0 and 1. -/
def betainc (a b x : ℝ) : ℝ := (∫ t in Set.Ioc 0 x, t ^ (a - 1) * (1 - t) ^ (b - 1)) / betaf a b

/-- `scipy.special.fdtr(dfn, dfd, x)`. -/
def fdtr (n m x : ℝ) : ℝ := betainc (n / 2) (m / 2) (n * x / (m + n * x))

/-- `scipy.special.fdtrc(dfn, dfd, x)`. -/
def fdtrc (n m x : ℝ) : ℝ := betainc (m / 2) (n / 2) (m / (m + n * x))

/-- `scipy.special.stdtr(df, x)`. -/
def stdtr (r x : ℝ) : ℝ :=
  if x ≤ 0 then betainc (r / 2) (1 / 2) (r / (r + x ^ 2)) / 2
  else 1 - betainc (r / 2) (1 / 2) (r / (r + x ^ 2)) / 2

namespace BetaD
/-- stats/_continuous_distns.py:605-608 -/
def logpdf (a b x : ℝ) : ℝ := xlog1py (b - 1) (-x) + xlogy (a - 1) x - betaln a b
/-- stats/_continuous_distns.py:599-603 -/
def pdf (a b x : ℝ) : ℝ := exp (logpdf a b x)
/-- stats/_continuous_distns.py:610-611 -/
def cdf (a b x : ℝ) : ℝ := betainc a b x
/-- stats/_continuous_distns.py:613-614 -/
def ppf (inv : ℝ → ℝ → ℝ → ℝ) (a b q : ℝ) : ℝ := inv a b q
/-- stats/_continuous_distns.py:616-622 -/
def stats (a b : ℝ) : ℝ × ℝ × ℝ × ℝ :=
  let mn := a * 1 / (a + b)
  let var := a * b * 1 / (a + b + 1) / (a + b) ^ 2
  let g1 := 2 * (b - a) * √((1 + a + b) / (a * b)) / (2 + a + b)
  let g2 := 6 * (a ^ 3 + a ^ 2 * (1 - 2 * b) + b ^ 2 * (1 + b) - 2 * a * b * (2 + b))
  (mn, var, g1, g2 / (a * b * (a + b + 2) * (a + b + 3)))
end BetaD

namespace BetaPrime
/-- stats/_continuous_distns.py:782-783 -/
def logpdf (a b x : ℝ) : ℝ := xlogy (a - 1) x - xlog1py (a + b) x - betaln a b
/-- stats/_continuous_distns.py:778-780 -/
def pdf (a b x : ℝ) : ℝ := exp (logpdf a b x)
/-- stats/_continuous_distns.py:785-786 -/
def cdf (a b x : ℝ) : ℝ := betainc a b (x / (1 + x))
/-- The quotient of two gamma draws, stats/_continuous_distns.py:772-776 -/
def rvs (u : ℝ × ℝ) : ℝ := u.1 / u.2
/-- `none` stands for `NotImplementedError`, stats/_continuous_distns.py:800-819 -/
def munp (n : ℕ) (a b : ℝ) : Option Val :=
  if n = 1 then
    some (if b > 1 then .fin (a / (b - 1)) else .inf)
  else if n = 2 then
    some (if b > 2 then .fin (a * (a + 1) / ((b - 2) * (b - 1))) else .inf)
  else if n = 3 then
    some (if b > 3 then .fin (a * (a + 1) * (a + 2) / ((b - 3) * (b - 2) * (b - 1))) else .inf)
  else if n = 4 then
    some (if b > 4 then
      .fin (a * (a + 1) * (a + 2) * (a + 3) / ((b - 4) * (b - 3) * (b - 2) * (b - 1))) else .inf)
  else none
end BetaPrime

namespace FD
/-- stats/_continuous_distns.py:1927-1932 -/
def logpdf (n m x : ℝ) : ℝ :=
  let l := m / 2 * log m + n / 2 * log n + xlogy (n / 2 - 1) x
  l - ((n + m) / 2 * log (m + n * x) + betaln (n / 2) (m / 2))
/-- stats/_continuous_distns.py:1921-1925 -/
def pdf (n m x : ℝ) : ℝ := exp (logpdf n m x)
/-- stats/_continuous_distns.py:1934-1935 -/
def cdf (n m x : ℝ) : ℝ := fdtr n m x
/-- stats/_continuous_distns.py:1937-1938 -/
def sf (n m x : ℝ) : ℝ := fdtrc n m x
/-- stats/_continuous_distns.py:1940-1941 -/
def ppf (finv : ℝ → ℝ → ℝ → ℝ) (n m q : ℝ) : ℝ := finv n m q
/-- stats/_continuous_distns.py:1943-1971.  The skewness, `nan` for few degrees of freedom, enters
the kurtosis only where it is a number. -/
def stats (v1 v2 : ℝ) : Val × Val × Val × Val :=
  let g1 := (2 * v1 + (v2 - 2)) / (v2 - 6) * √((v2 - 4) / (v1 * (v1 + (v2 - 2)))) * √8
  (if v2 > 2 then .fin (v2 / (v2 - 2)) else .inf,
   if v2 > 4 then .fin (2 * v2 * v2 * (v1 + (v2 - 2)) / (v1 * (v2 - 2) ^ 2 * (v2 - 4))) else .inf,
   if v2 > 6 then .fin g1 else .nan,
   if v2 > 8 then .fin ((8 + g1 * g1 * (v2 - 6)) / (v2 - 8) * (3 / 2)) else .nan)
end FD

namespace TD
/-- stats/_continuous_distns.py:5965-5972 -/
def pdf (r x : ℝ) : ℝ :=
  exp (gammaln ((r + 1) / 2) - gammaln (r / 2)) / (√(r * π) * (1 + x ^ 2 / r) ^ ((r + 1) / 2))
/-- stats/_continuous_distns.py:5974-5978 -/
def logpdf (r x : ℝ) : ℝ :=
  gammaln ((r + 1) / 2) - gammaln (r / 2)
    - (0.5 * log (r * π) + (r + 1) / 2 * log (1 + x ^ 2 / r))
/-- stats/_continuous_distns.py:5980-5981 -/
def cdf (r x : ℝ) : ℝ := stdtr r x
/-- stats/_continuous_distns.py:5983-5984 -/
def sf (r x : ℝ) : ℝ := stdtr r (-x)
/-- stats/_continuous_distns.py:5986-5987 -/
def ppf (tinv : ℝ → ℝ → ℝ) (r q : ℝ) : ℝ := tinv r q
/-- stats/_continuous_distns.py:5989-5990 -/
def isf (tinv : ℝ → ℝ → ℝ) (r q : ℝ) : ℝ := -tinv r q
/-- stats/_continuous_distns.py:5992-6003 -/
def stats (r : ℝ) : Val × Val × Val × Val :=
  (if r > 1 then .fin 0 else .inf,
   if r ≤ 1 then .nan else if r > 2 then .fin (r / (r - 2)) else .inf,
   if r > 3 then .fin 0 else .nan,
   if r ≤ 2 then .nan else if r > 4 then .fin (6 / (r - 4)) else .inf)
end TD

namespace RDist
/-- stats/_continuous_distns.py:6559-6560 -/
def pdf (c x : ℝ) : ℝ := 0.5 * BetaD.pdf (c / 2) (c / 2) ((x + 1) / 2)
/-- stats/_continuous_distns.py:6562-6563 -/
def logpdf (c x : ℝ) : ℝ := -log 2 + BetaD.logpdf (c / 2) (c / 2) ((x + 1) / 2)
/-- stats/_continuous_distns.py:6565-6566 -/
def cdf (c x : ℝ) : ℝ := BetaD.cdf (c / 2) (c / 2) ((x + 1) / 2)
/-- stats/_continuous_distns.py:6568-6569 -/
def ppf (inv : ℝ → ℝ → ℝ → ℝ) (c q : ℝ) : ℝ := 2 * BetaD.ppf inv (c / 2) (c / 2) q - 1
/-- The argument is a draw of the beta distribution, stats/_continuous_distns.py:6571-6572 -/
def rvs (u : ℝ) : ℝ := 2 * u - 1
/-- stats/_continuous_distns.py:6574-6576 -/
def munp (n : ℕ) (c : ℝ) : ℝ :=
  let numerator := (1 - (n % 2 : ℕ)) * betaf ((n + 1) / 2) (c / 2)
  numerator / betaf (1 / 2) (c / 2)
end RDist

namespace Burr
/-- The raw moments inside `_stats` and `_munp`; `_stats` has the arguments of `beta` the other way
round, stats/_continuous_distns.py:976, 994-996 -/
def raw (n : ℕ) (c d : ℝ) : ℝ := d * betaf (1 - n / c) (d + n / c)
/-- stats/_continuous_distns.py:993-1000 -/
def munp (n : ℕ) (c d : ℝ) : Val := if c > n then .fin (raw n c d) else .nan
/-- stats/_continuous_distns.py:973-991 -/
def stats (c d : ℝ) : Val × Val × Val × Val :=
  let e := fun k : ℕ => betaf (d + k / c) (1 - k / c) * d
  let mu2 := e 2 - e 1 ^ 2
  (if c > 1 then .fin (e 1) else .nan,
   if c > 2 then .fin mu2 else .nan,
   if c > 3 then .fin ((e 3 - 3 * e 2 * e 1 + 2 * e 1 ^ 3) / √(mu2 ^ 3)) else .nan,
   if c > 4 then
     .fin ((e 4 - 4 * e 3 * e 1 + 6 * e 2 * e 1 ^ 2 - 3 * e 1 ^ 4) / mu2 ^ 2 - 3) else .nan)
end Burr

namespace Fisk
/-- stats/_continuous_distns.py:1136-1137 -/
def munp (n : ℕ) (c : ℝ) : Val := Burr.munp n c 1
/-- stats/_continuous_distns.py:1139-1140 -/
def stats (c : ℝ) : Val × Val × Val × Val := Burr.stats c 1
end Fisk

namespace Burr12
/-- stats/_continuous_distns.py:1075-1077 -/
def munp (n : ℕ) (c d : ℝ) : ℝ :=
  let nc := n / c
  d * betaf (1 + nc) (d - nc)
end Burr12

end

end Wafo.Dist
