import Verif.Dist.Model
import Verif.Dist.MomSpec
import Mathlib.Analysis.SpecialFunctions.Gamma.Basic

/-!
# Moments and entropies of the distributions with closed formulas

Same conventions as `Verif.Dist.Model`; `sc.gamma` is the gamma function, which at `0, -1, -2, ...` is
infinite in scipy and `0` in Mathlib, the theorems do not use those values.
-/

namespace Wafo.Dist

noncomputable section

open Real

namespace Expon
/-- stats/_continuous_distns.py:1536-1537 -/
def stats : ℝ × ℝ × ℝ × ℝ := (1, 1, 2, 6)
/-- stats/_continuous_distns.py:1539-1540 -/
def entropy : ℝ := 1
end Expon

namespace WeibullMin
/-- stats/_continuous_distns.py:2114-2115 -/
def munp (n : ℕ) (c : ℝ) : ℝ := Gamma (1 + n * 1 / c)
end WeibullMin

namespace WeibullMax
/-- stats/_continuous_distns.py:2185-2191 -/
def munp (n : ℕ) (c : ℝ) : ℝ :=
  let val := Gamma (1 + n * 1 / c)
  let sgn : ℝ := if n % 2 ≠ 0 then -1 else 1
  sgn * val
end WeibullMax

namespace DWeibull
/-- stats/_continuous_distns.py:1473-1474 -/
def munp (n : ℕ) (c : ℝ) : ℝ := (1 - ((n % 2 : ℕ) : ℝ)) * Gamma (1 + 1 * n / c)
end DWeibull

namespace Rayleigh
/-- stats/_continuous_distns.py:6631-6636 -/
def stats : ℝ × ℝ × ℝ × ℝ :=
  let val := 4 - π
  (√(π / 2), val / 2, 2 * (π - 3) * √π / val ^ (1.5 : ℝ), 6 * π / val - 16 / val ^ 2)
end Rayleigh

namespace TruncRayleigh
/-- stats/_continuous_distns.py:6698-6705 -/
def stats (_c : ℝ) : ℝ × ℝ × ℝ × ℝ :=
  let val := 4 - π
  (√(π / 2), val / 2, 2 * (π - 3) * √π / val ^ (1.5 : ℝ), 6 * π / val - 16 / val ^ 2)
end TruncRayleigh

namespace Laplace
/-- stats/_continuous_distns.py:4255-4256 -/
def stats : ℝ × ℝ × ℝ × ℝ := (0, 2, 0, 3)
/-- stats/_continuous_distns.py:4258-4259 -/
def entropy : ℝ := log 2 + 1
end Laplace

namespace InvWeibull
/-- stats/_continuous_distns.py:4118-4119 -/
def munp (n : ℕ) (c : ℝ) : ℝ := Gamma (1 - n / c)
end InvWeibull

namespace LogLaplace
/-- stats/_continuous_distns.py:4988-4989 -/
def munp (n : ℕ) (c : ℝ) : ℝ := c ^ 2 / (c ^ 2 - (n : ℝ) ^ 2)
/-- stats/_continuous_distns.py:4991-4992 -/
def entropy (c : ℝ) : ℝ := log (2 / c) + 1
end LogLaplace

namespace TruncExpon
/-- stats/_continuous_distns.py:7221-7231; the generic quadrature for higher orders is not modelled -/
def munp (n : ℕ) (b : ℝ) : Option ℝ :=
  if n = 1 then some ((1 - (b + 1) * exp (-b)) / (-expm1 (-b)))
  else if n = 2 then
    some (2 * (1 - 0.5 * (b * b + 2 * b + 2) * exp (-b)) / (-expm1 (-b)))
  else none
/-- stats/_continuous_distns.py:7233-7235 -/
def entropy (b : ℝ) : ℝ :=
  let eB := exp b
  log (eB - 1) + (1 + eB * (b - 1)) / (1 - eB)
end TruncExpon

namespace PowerLaw
/-- stats/_continuous_distns.py:6429-6433 -/
def stats (a : ℝ) : ℝ × ℝ × ℝ × ℝ :=
  (a / (a + 1), a / (a + 2) / (a + 1) ^ 2,
    -2 * ((a - 1) / (a + 3)) * √((a + 2) / a),
    6 * (((1 * a + -1) * a + -6) * a + 2) / (a * (a + 3) * (a + 4)))
/-- stats/_continuous_distns.py:6435-6436 -/
def entropy (a : ℝ) : ℝ := 1 - 1 / a - log a
end PowerLaw

namespace Pareto
/-- stats/_continuous_distns.py:6154-6179 with all four moments asked for -/
def stats (b : ℝ) : Val × Val × Val × Val :=
  open Classical in
  (if b > 1 then .fin (b / (b - 1)) else .inf,
   if b > 2 then .fin (b / (b - 2) / (b - 1) ^ 2) else .inf,
   if b > 3 then .fin (2 * (b + 1) * √(b - 2) / ((b - 3) * √b)) else .nan,
   if b > 4 then .fin (6 * (((1 * b + 1) * b + -6) * b + -2) /
     (((1 * b + -7) * b + 12) * b + 0)) else .nan)
/-- stats/_continuous_distns.py:6181-6182 -/
def entropy (c : ℝ) : ℝ := 1 + 1 / c - log c
end Pareto

/-- What `stats(..., loc=loc)` of a distribution adds to the mean (`scipy.stats`). -/
def Val.shift (loc : ℝ) : Val → Val
  | .fin x => .fin (x + loc)
  | .inf => .inf
  | .nan => .nan

namespace Lomax
/-- stats/_continuous_distns.py:6231-6233 -/
def stats (c : ℝ) : Val × Val × Val × Val :=
  ((Pareto.stats c).1.shift (-1), (Pareto.stats c).2.1, (Pareto.stats c).2.2.1,
    (Pareto.stats c).2.2.2)
/-- stats/_continuous_distns.py:6235-6236 -/
def entropy (c : ℝ) : ℝ := 1 + 1 / c - log c
end Lomax

namespace GenPareto
/-- stats/_continuous_distns.py:2580-2607 with all four moments asked for -/
def stats (c : ℝ) : Val × Val × Val × Val :=
  open Classical in
  (if c < 1 then .fin (1 / (1 - c)) else .inf,
   if c < 1 / 2 then .fin (1 / (1 - c) ^ 2 / (1 - 2 * c)) else .nan,
   if c < 1 / 3 then .fin (2 * (1 + c) * √(1 - 2 * c) / (1 - 3 * c)) else .nan,
   if c < 1 / 4 then .fin (3 * (1 - 2 * c) * (2 * c ^ 2 + c + 3) / (1 - 3 * c) / (1 - 4 * c) - 3)
    else .nan)
/-- stats/_continuous_distns.py:2609-2618 -/
def munp (n : ℕ) (c : ℝ) : Val :=
  open Classical in
  if c ≠ 0 then
    let val := ((List.range (n + 1)).map fun k => (n.choose k : ℝ) * (-1) ^ k / (1 - c * k)).sum
    if c * n < 1 then .fin (val * (-1 / c) ^ n) else .inf
  else .fin (Gamma (n + 1))
/-- stats/_continuous_distns.py:2620-2621 -/
def entropy (c : ℝ) : ℝ := 1 + c
end GenPareto

namespace Reciprocal
/-- stats/_continuous_distns.py:6783-6784 -/
def munp (n : ℕ) (a b : ℝ) : ℝ := 1 / log (b * 1 / a) / n * ((b * 1) ^ n - (a * 1) ^ n)
/-- stats/_continuous_distns.py:6786-6787 -/
def entropy (a b : ℝ) : ℝ := 0.5 * log (a * b) + log (log (b * 1 / a))
end Reciprocal

namespace Bradford
/-- stats/_continuous_distns.py:857-870 with all four moments asked for -/
def stats (c : ℝ) : ℝ × ℝ × ℝ × ℝ :=
  let k := log (1 + c)
  let mu := (c - k) / (c * k)
  let mu2 := ((c + 2) * k - 2 * c) / (2 * c * k * k)
  let g1 := √2 * (12 * c * c - 9 * c * k * (c + 2) + 2 * k * k * (c * (c + 3) + 3)) /
    (√(c * (c * (k - 2) + 2 * k)) * (3 * c * (k - 2) + 6 * k))
  let g2 := (c ^ 3 * (k - 3) * (k * (3 * k - 16) + 24) + 12 * k * c * c * (k - 4) * (k - 3) +
    6 * c * k * k * (3 * k - 14) + 12 * k ^ 3) / (3 * c * (c * (k - 2) + 2 * k) ^ 2)
  (mu, mu2, g1, g2)
/-- stats/_continuous_distns.py:872-874 -/
def entropy (c : ℝ) : ℝ :=
  let k := log1p c
  k / 2 - log (c / k)
end Bradford

namespace Uniform
/-- stats/_continuous_distns.py:7622-7623 -/
def stats : ℝ × ℝ × ℝ × ℝ := (0.5, 1 / 12, 0, -1.2)
/-- stats/_continuous_distns.py:7625-7626 -/
def entropy : ℝ := 0
end Uniform

namespace Triang
/-- stats/_continuous_distns.py:7167-7171 -/
def stats (c : ℝ) : ℝ × ℝ × ℝ × ℝ :=
  ((c + 1) / 3, (1 - c + c * c) / 18,
    √2 * (2 * c - 1) * (c + 1) * (c - 2) / (5 * (1 - c + c * c) ^ (1.5 : ℝ)), -3 / 5)
/-- stats/_continuous_distns.py:7173-7174 -/
def entropy (_c : ℝ) : ℝ := 0.5 - log 2
end Triang

namespace Anglit
/-- stats/_continuous_distns.py:473-474 -/
def stats : ℝ × ℝ × ℝ × ℝ :=
  (0, π * π / 16 - 0.5, 0, -2 * (π ^ 4 - 96) / (π * π - 8) ^ 2)
/-- stats/_continuous_distns.py:476-477 -/
def entropy : ℝ := 1 - log 2
end Anglit

namespace Arcsine
/-- stats/_continuous_distns.py:513-518 -/
def stats : ℝ × ℝ × ℝ × ℝ := (0.5, 1 / 8, 0, -3 / 2)
end Arcsine

namespace Cosine
/-- stats/_continuous_distns.py:1358-1359 -/
def stats : ℝ × ℝ × ℝ × ℝ :=
  (0, π * π / 3 - 2, 0, -6 * (π ^ 4 - 90) / (5 * (π * π - 6) ^ 2))
/-- stats/_continuous_distns.py:1361-1362 -/
def entropy : ℝ := log (4 * π) - 1
end Cosine

namespace Semicircular
/-- stats/_continuous_distns.py:6965-6966 -/
def stats : ℝ × ℝ × ℝ × ℝ := (0, 0.25, 0, -1)
end Semicircular

namespace Cauchy
/-- stats/_continuous_distns.py:1186-1187 -/
def stats : Val × Val × Val × Val := (.nan, .nan, .nan, .nan)
/-- stats/_continuous_distns.py:1189-1190 -/
def entropy : ℝ := log (4 * π)
end Cauchy

namespace HalfCauchy
/-- stats/_continuous_distns.py:3377-3378 -/
def stats : Val × Val × Val × Val := (.inf, .inf, .nan, .nan)
end HalfCauchy

namespace Logistic
/-- stats/_continuous_distns.py:4888-4890 -/
def entropy : ℝ := 2
end Logistic

end

end Wafo.Dist
