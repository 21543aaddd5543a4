import Mathlib.Analysis.SpecialFunctions.Pow.Real
import Mathlib.Analysis.SpecialFunctions.Trigonometric.Arctan
import Mathlib.Analysis.SpecialFunctions.Trigonometric.Inverse
import Mathlib.Analysis.SpecialFunctions.Artanh

/-!
# Continuous distributions with closed formulas

A model of the methods `_pdf`, `_logpdf`, `_cdf`, `_logcdf`, `_sf`, `_logsf`, `_ppf` and `_isf` of
the distributions in `stats/_continuous_distns.py` which are given by elementary functions.  Floats
are real numbers; the values `nan` and `±inf`, which the methods give outside the interior of the
support, are not modelled, and the theorems are about arguments inside.  The public methods `pdf`,
`cdf`, ... of the base class, which put the location and the scale in and treat arguments outside
the support, belong to scipy and are not modelled.
-/

namespace Wafo.Dist

noncomputable section

open Real

/-- `scipy.special.expm1`. -/
def expm1 (y : ℝ) : ℝ := exp y - 1

/-- `scipy.special.log1p`, `numpy.log1p`. -/
def log1p (y : ℝ) : ℝ := log (1 + y)

/-- `scipy.special.xlogy`: zero when `x = 0`, which the product of real numbers gives as well. -/
def xlogy (x y : ℝ) : ℝ := x * log y

/-- `scipy.special.xlog1py`. -/
def xlog1py (x y : ℝ) : ℝ := x * log (1 + y)

/-- `scipy.special.boxcox`. -/
def boxcox (x l : ℝ) : ℝ := if l = 0 then log x else (x ^ l - 1) / l

/-- `scipy.special.boxcox1p`. -/
def boxcox1p (x l : ℝ) : ℝ := if l = 0 then log (1 + x) else ((1 + x) ^ l - 1) / l

/-- `scipy.special.inv_boxcox`. -/
def invBoxcox (y l : ℝ) : ℝ := if l = 0 then exp y else (l * y + 1) ^ (1 / l)

/-- `scipy.special.inv_boxcox1p`. -/
def invBoxcox1p (y l : ℝ) : ℝ := if l = 0 then exp y - 1 else (l * y + 1) ^ (1 / l) - 1

/-- `scipy.special.expit`. -/
def expit (x : ℝ) : ℝ := 1 / (1 + exp (-x))

/-- `scipy.special.logit`. -/
def logit (q : ℝ) : ℝ := log (q / (1 - q))

/-! ## The exponential and the Weibull family -/

namespace Expon
/-- stats/_continuous_distns.py:1514-1516 -/
def pdf (x : ℝ) : ℝ := exp (-x)
/-- stats/_continuous_distns.py:1518-1519 -/
def logpdf (x : ℝ) : ℝ := -x
/-- stats/_continuous_distns.py:1521-1522 -/
def cdf (x : ℝ) : ℝ := -expm1 (-x)
/-- stats/_continuous_distns.py:1524-1525 -/
def ppf (q : ℝ) : ℝ := -log1p (-q)
/-- stats/_continuous_distns.py:1527-1528 -/
def sf (x : ℝ) : ℝ := exp (-x)
/-- stats/_continuous_distns.py:1530-1531 -/
def logsf (x : ℝ) : ℝ := -x
/-- stats/_continuous_distns.py:1533-1534 -/
def isf (q : ℝ) : ℝ := -log q
end Expon

namespace WeibullMin
/-- stats/_continuous_distns.py:2095-2097 -/
def pdf (c x : ℝ) : ℝ := c * x ^ (c - 1) * exp (-(x ^ c))
/-- stats/_continuous_distns.py:2099-2100 -/
def logpdf (c x : ℝ) : ℝ := log c + xlogy (c - 1) x - x ^ c
/-- stats/_continuous_distns.py:2102-2103 -/
def cdf (c x : ℝ) : ℝ := -expm1 (-(x ^ c))
/-- stats/_continuous_distns.py:2105-2106 -/
def sf (c x : ℝ) : ℝ := exp (-(x ^ c))
/-- stats/_continuous_distns.py:2108-2109 -/
def logsf (c x : ℝ) : ℝ := -(x ^ c)
/-- stats/_continuous_distns.py:2111-2112 -/
def ppf (c q : ℝ) : ℝ := (-log1p (-q)) ^ (1 / c)
end WeibullMin

namespace WeibullMax
/-- stats/_continuous_distns.py:2166-2168 -/
def pdf (c x : ℝ) : ℝ := c * (-x) ^ (c - 1) * exp (-((-x) ^ c))
/-- stats/_continuous_distns.py:2170-2171 -/
def logpdf (c x : ℝ) : ℝ := log c + xlogy (c - 1) (-x) - (-x) ^ c
/-- stats/_continuous_distns.py:2173-2174 -/
def cdf (c x : ℝ) : ℝ := exp (-((-x) ^ c))
/-- stats/_continuous_distns.py:2176-2177 -/
def logcdf (c x : ℝ) : ℝ := -((-x) ^ c)
/-- stats/_continuous_distns.py:2179-2180 -/
def sf (c x : ℝ) : ℝ := -expm1 (-((-x) ^ c))
/-- stats/_continuous_distns.py:2182-2183 -/
def ppf (c q : ℝ) : ℝ := -((-log q) ^ (1 / c))
end WeibullMax

namespace ExponWeib
/-- stats/_continuous_distns.py:1715-1720 -/
def logpdf (a c x : ℝ) : ℝ :=
  let negxc := -(x ^ c)
  let exm1c := -expm1 negxc
  log a + log c + xlogy (a - 1) exm1c + negxc + xlogy (c - 1) x
/-- stats/_continuous_distns.py:1710-1713 -/
def pdf (a c x : ℝ) : ℝ := exp (logpdf a c x)
/-- stats/_continuous_distns.py:1722-1724 -/
def cdf (a c x : ℝ) : ℝ := (-expm1 (-(x ^ c))) ^ a
/-- stats/_continuous_distns.py:1726-1727 -/
def ppf (a c q : ℝ) : ℝ := (-log1p (-(q ^ (1 / a)))) ^ (1 / c)
end ExponWeib

namespace ExponPow
/-- stats/_continuous_distns.py:1765-1768 -/
def logpdf (b x : ℝ) : ℝ := 1 + log b + xlogy (b - 1) x + x ^ b - exp (x ^ b)
/-- stats/_continuous_distns.py:1761-1763 -/
def pdf (b x : ℝ) : ℝ := exp (logpdf b x)
/-- stats/_continuous_distns.py:1770-1771 -/
def cdf (b x : ℝ) : ℝ := -expm1 (-expm1 (x ^ b))
/-- stats/_continuous_distns.py:1773-1774 -/
def sf (b x : ℝ) : ℝ := exp (-expm1 (x ^ b))
/-- stats/_continuous_distns.py:1776-1777 -/
def isf (b q : ℝ) : ℝ := log1p (-log q) ^ (1 / b)
/-- stats/_continuous_distns.py:1779-1780 -/
def ppf (b q : ℝ) : ℝ := log1p (-log1p (-q)) ^ (1 / b)
end ExponPow

namespace Rayleigh
/-- stats/_continuous_distns.py:6613-6614 -/
def logpdf (r : ℝ) : ℝ := log r - 0.5 * r * r
/-- stats/_continuous_distns.py:6609-6611 -/
def pdf (r : ℝ) : ℝ := exp (logpdf r)
/-- stats/_continuous_distns.py:6616-6617 -/
def cdf (r : ℝ) : ℝ := -expm1 (-0.5 * r ^ 2)
/-- stats/_continuous_distns.py:6619-6620 -/
def ppf (q : ℝ) : ℝ := √(-2 * log1p (-q))
/-- stats/_continuous_distns.py:6625-6626 -/
def logsf (r : ℝ) : ℝ := -0.5 * r * r
/-- stats/_continuous_distns.py:6622-6623 -/
def sf (r : ℝ) : ℝ := exp (logsf r)
/-- stats/_continuous_distns.py:6628-6629 -/
def isf (q : ℝ) : ℝ := √(-2 * log q)
end Rayleigh

namespace TruncRayleigh
/-- stats/_continuous_distns.py:6676-6678 -/
def pdf (c r : ℝ) : ℝ := (r + c) * exp (-((r + c) * (r + c) - c * c) / 2)
/-- stats/_continuous_distns.py:6680-6682 -/
def logpdf (c r : ℝ) : ℝ := log (r + c) - ((r + c) * (r + c) - c * c) / 2
/-- stats/_continuous_distns.py:6684-6686 -/
def cdf (c r : ℝ) : ℝ := -expm1 (-((r + c) * (r + c) - c * c) / 2)
/-- stats/_continuous_distns.py:6688-6690 -/
def logsf (c r : ℝ) : ℝ := -((r + c) * (r + c) - c * c) / 2
/-- stats/_continuous_distns.py:6692-6693 -/
def sf (c r : ℝ) : ℝ := exp (logsf c r)
/-- stats/_continuous_distns.py:6695-6696 -/
def ppf (c q : ℝ) : ℝ := √(c * c - 2 * log1p (-q)) - c
end TruncRayleigh

namespace Gompertz
/-- stats/_continuous_distns.py:3216-3217 -/
def logpdf (c x : ℝ) : ℝ := log c + x - c * expm1 x
/-- stats/_continuous_distns.py:3212-3214 -/
def pdf (c x : ℝ) : ℝ := exp (logpdf c x)
/-- stats/_continuous_distns.py:3219-3220 -/
def cdf (c x : ℝ) : ℝ := -expm1 (-c * expm1 x)
/-- stats/_continuous_distns.py:3222-3223 -/
def ppf (c q : ℝ) : ℝ := log1p (-1 / c * log1p (-q))
end Gompertz

namespace InvWeibull
/-- stats/_continuous_distns.py:4104-4109 -/
def pdf (c x : ℝ) : ℝ := c * x ^ (-c - 1) * exp (-(x ^ (-c)))
/-- stats/_continuous_distns.py:4111-4113 -/
def cdf (c x : ℝ) : ℝ := exp (-(x ^ (-c)))
/-- stats/_continuous_distns.py:4115-4116 -/
def ppf (c q : ℝ) : ℝ := (-log q) ^ (-1 / c)
end InvWeibull

namespace TruncExpon
/-- stats/_continuous_distns.py:7208-7210 -/
def pdf (b x : ℝ) : ℝ := exp (-x) / (-expm1 (-b))
/-- stats/_continuous_distns.py:7212-7213 -/
def logpdf (b x : ℝ) : ℝ := -x - log (-expm1 (-b))
/-- stats/_continuous_distns.py:7215-7216 -/
def cdf (b x : ℝ) : ℝ := expm1 (-x) / expm1 (-b)
/-- stats/_continuous_distns.py:7218-7219 -/
def ppf (b q : ℝ) : ℝ := -log1p (q * expm1 (-b))
end TruncExpon

namespace GenExpon
/-- stats/_continuous_distns.py:2658-2662 -/
def pdf (a b c x : ℝ) : ℝ :=
  (a + b * (-expm1 (-c * x))) * exp ((-a - b) * x + b * (-expm1 (-c * x)) / c)
/-- stats/_continuous_distns.py:2664-2665 -/
def cdf (a b c x : ℝ) : ℝ := -expm1 ((-a - b) * x + b * (-expm1 (-c * x)) / c)
/-- stats/_continuous_distns.py:2667-2668 -/
def logpdf (a b c x : ℝ) : ℝ :=
  log (a + b * (-expm1 (-c * x))) + (-a - b) * x + b * (-expm1 (-c * x)) / c
end GenExpon

/-! ## Extreme value distributions -/

namespace GenPareto
/-- stats/_continuous_distns.py:2546-2549 -/
def logpdf (c x : ℝ) : ℝ := if c ≠ 0 then -xlog1py (c + 1) (c * x) / c else -x
/-- stats/_continuous_distns.py:2542-2544 -/
def pdf (c x : ℝ) : ℝ := exp (logpdf c x)
/-- stats/_continuous_distns.py:2551-2552 -/
def cdf (c x : ℝ) : ℝ := -invBoxcox1p (-x) (-c)
/-- stats/_continuous_distns.py:2554-2555 -/
def sf (c x : ℝ) : ℝ := invBoxcox (-x) (-c)
/-- stats/_continuous_distns.py:2557-2560 -/
def logsf (c x : ℝ) : ℝ := if c ≠ 0 then -log1p (c * x) / c else -x
/-- stats/_continuous_distns.py:2562-2563 -/
def ppf (c q : ℝ) : ℝ := -boxcox1p (-q) (-c)
/-- stats/_continuous_distns.py:2565-2566 -/
def isf (c q : ℝ) : ℝ := -boxcox q (-c)
/-- The interior of the interval of `_get_support`, stats/_continuous_distns.py:2534-2540 -/
def supp (c : ℝ) : Set ℝ := {x | 0 < x ∧ (c < 0 → x < -1 / c)}
end GenPareto

namespace GenExtreme
/-- stats/_continuous_distns.py:2715-2717 -/
def loglogcdf (c x : ℝ) : ℝ := if c ≠ 0 then log1p (-c * x) / c else -x
/-- stats/_continuous_distns.py:2725-2736, the value for arguments in the interior of the support -/
def logpdf (c x : ℝ) : ℝ :=
  let cx := if c ≠ 0 then c * x else 0
  let logex2 := log1p (-cx)
  let logpex2 := loglogcdf c x
  let pex2 := exp logpex2;
  -pex2 + logpex2 - logex2
/-- stats/_continuous_distns.py:2719-2723 -/
def pdf (c x : ℝ) : ℝ := exp (logpdf c x)
/-- stats/_continuous_distns.py:2738-2739 -/
def logcdf (c x : ℝ) : ℝ := -exp (loglogcdf c x)
/-- stats/_continuous_distns.py:2741-2742 -/
def cdf (c x : ℝ) : ℝ := exp (logcdf c x)
/-- stats/_continuous_distns.py:2744-2745 -/
def sf (c x : ℝ) : ℝ := -expm1 (logcdf c x)
/-- stats/_continuous_distns.py:2747-2750 -/
def ppf (c q : ℝ) : ℝ :=
  let x := -log (-log q)
  if c ≠ 0 then -expm1 (-c * x) / c else x
/-- stats/_continuous_distns.py:2752-2755 -/
def isf (c q : ℝ) : ℝ :=
  let x := -log (-log1p (-q))
  if c ≠ 0 then -expm1 (-c * x) / c else x
/-- The interior of the interval of `_get_support`, stats/_continuous_distns.py:2710-2713; the guard
`_XMIN` against overflow is left out -/
def supp (c : ℝ) : Set ℝ := {x | (0 < c → x < 1 / c) ∧ (c < 0 → 1 / c < x)}
end GenExtreme

namespace GumbelR
/-- stats/_continuous_distns.py:3262-3263 -/
def logpdf (x : ℝ) : ℝ := -x - exp (-x)
/-- stats/_continuous_distns.py:3258-3260 -/
def pdf (x : ℝ) : ℝ := exp (logpdf x)
/-- stats/_continuous_distns.py:3265-3266 -/
def cdf (x : ℝ) : ℝ := exp (-exp (-x))
/-- stats/_continuous_distns.py:3268-3269 -/
def logcdf (x : ℝ) : ℝ := -exp (-x)
/-- stats/_continuous_distns.py:3271-3272 -/
def ppf (q : ℝ) : ℝ := -log (-log q)
end GumbelR

namespace GumbelL
/-- stats/_continuous_distns.py:3315-3316 -/
def logpdf (x : ℝ) : ℝ := x - exp x
/-- stats/_continuous_distns.py:3311-3313 -/
def pdf (x : ℝ) : ℝ := exp (logpdf x)
/-- stats/_continuous_distns.py:3318-3319 -/
def cdf (x : ℝ) : ℝ := -expm1 (-exp x)
/-- stats/_continuous_distns.py:3321-3322 -/
def ppf (q : ℝ) : ℝ := log (-log1p (-q))
/-- stats/_continuous_distns.py:3324-3325 -/
def logsf (x : ℝ) : ℝ := -exp x
/-- stats/_continuous_distns.py:3327-3328 -/
def sf (x : ℝ) : ℝ := exp (-exp x)
/-- stats/_continuous_distns.py:3330-3331 -/
def isf (q : ℝ) : ℝ := log (-log q)
end GumbelL

/-! ## The Pareto and the Burr family -/

namespace Pareto
/-- stats/_continuous_distns.py:6141-6143 -/
def pdf (b x : ℝ) : ℝ := b * x ^ (-b - 1)
/-- stats/_continuous_distns.py:6145-6146 -/
def cdf (b x : ℝ) : ℝ := 1 - x ^ (-b)
/-- stats/_continuous_distns.py:6148-6149 -/
def ppf (b q : ℝ) : ℝ := (1 - q) ^ (-1 / b)
/-- stats/_continuous_distns.py:6151-6152 -/
def sf (b x : ℝ) : ℝ := x ^ (-b)
end Pareto

namespace Lomax
/-- stats/_continuous_distns.py:6212-6214 -/
def pdf (c x : ℝ) : ℝ := c * 1 / (1 + x) ^ (c + 1)
/-- stats/_continuous_distns.py:6216-6217 -/
def logpdf (c x : ℝ) : ℝ := log c - (c + 1) * log1p x
/-- stats/_continuous_distns.py:6219-6220 -/
def cdf (c x : ℝ) : ℝ := -expm1 (-c * log1p x)
/-- stats/_continuous_distns.py:6222-6223 -/
def sf (c x : ℝ) : ℝ := exp (-c * log1p x)
/-- stats/_continuous_distns.py:6225-6226 -/
def logsf (c x : ℝ) : ℝ := -c * log1p x
/-- stats/_continuous_distns.py:6228-6229 -/
def ppf (c q : ℝ) : ℝ := expm1 (-log1p (-q) / c)
end Lomax

namespace PowerLaw
/-- stats/_continuous_distns.py:6413-6415 -/
def pdf (a x : ℝ) : ℝ := a * x ^ (a - 1)
/-- stats/_continuous_distns.py:6417-6418 -/
def logpdf (a x : ℝ) : ℝ := log a + xlogy (a - 1) x
/-- stats/_continuous_distns.py:6420-6421 -/
def cdf (a x : ℝ) : ℝ := x ^ (a * 1)
/-- stats/_continuous_distns.py:6423-6424 -/
def logcdf (a x : ℝ) : ℝ := a * log x
/-- stats/_continuous_distns.py:6426-6427 -/
def ppf (a q : ℝ) : ℝ := q ^ (1 / a)
end PowerLaw

namespace Reciprocal
/-- stats/_continuous_distns.py:6770-6772 -/
def pdf (a b x : ℝ) : ℝ := 1 / (x * log (b * 1 / a))
/-- stats/_continuous_distns.py:6774-6775 -/
def logpdf (a b x : ℝ) : ℝ := -log x - log (log (b * 1 / a))
/-- stats/_continuous_distns.py:6777-6778 -/
def cdf (a b x : ℝ) : ℝ := (log x - log a) / log (b * 1 / a)
/-- stats/_continuous_distns.py:6780-6781 -/
def ppf (a b q : ℝ) : ℝ := a * (b * 1 / a) ^ q
end Reciprocal

namespace Bradford
/-- stats/_continuous_distns.py:847-849 -/
def pdf (c x : ℝ) : ℝ := c / (c * x + 1) / log1p c
/-- stats/_continuous_distns.py:851-852 -/
def cdf (c x : ℝ) : ℝ := log1p (c * x) / log1p c
/-- stats/_continuous_distns.py:854-855 -/
def ppf (c q : ℝ) : ℝ := expm1 (q * log1p c) / c
end Bradford

namespace Burr
/-- stats/_continuous_distns.py:936-944 -/
def pdf (c d x : ℝ) : ℝ :=
  if x = 0 then c * d * x ^ (c * d - 1) / (1 + x ^ c)
  else c * d * x ^ (-c - 1) / (1 + x ^ (-c)) ^ (d + 1)
/-- stats/_continuous_distns.py:946-956 -/
def logpdf (c d x : ℝ) : ℝ :=
  if x = 0 then log c + log d + xlogy (c * d - 1) x - (d + 1) * log1p (x ^ c)
  else log c + log d + xlogy (-c - 1) x - xlog1py (d + 1) (x ^ (-c))
/-- stats/_continuous_distns.py:958-959 -/
def cdf (c d x : ℝ) : ℝ := (1 + x ^ (-c)) ^ (-d)
/-- stats/_continuous_distns.py:961-962 -/
def logcdf (c d x : ℝ) : ℝ := log1p (x ^ (-c)) * (-d)
/-- stats/_continuous_distns.py:967-968 -/
def logsf (c d x : ℝ) : ℝ := log1p (-(1 + x ^ (-c)) ^ (-d))
/-- stats/_continuous_distns.py:964-965 -/
def sf (c d x : ℝ) : ℝ := exp (logsf c d x)
/-- stats/_continuous_distns.py:970-971 -/
def ppf (c d q : ℝ) : ℝ := (q ^ (-1 / d) - 1) ^ (-1 / c)
end Burr

namespace Fisk
/-- stats/_continuous_distns.py:1113-1115 -/
def pdf (c x : ℝ) : ℝ := Burr.pdf c 1 x
/-- stats/_continuous_distns.py:1117-1118 -/
def cdf (c x : ℝ) : ℝ := Burr.cdf c 1 x
/-- stats/_continuous_distns.py:1120-1121 -/
def sf (c x : ℝ) : ℝ := Burr.sf c 1 x
/-- stats/_continuous_distns.py:1123-1125 -/
def logpdf (c x : ℝ) : ℝ := Burr.logpdf c 1 x
/-- stats/_continuous_distns.py:1127-1128 -/
def logcdf (c x : ℝ) : ℝ := Burr.logcdf c 1 x
/-- stats/_continuous_distns.py:1130-1131 -/
def logsf (c x : ℝ) : ℝ := Burr.logsf c 1 x
/-- stats/_continuous_distns.py:1133-1134 -/
def ppf (c q : ℝ) : ℝ := Burr.ppf c 1 q
end Fisk

namespace Burr12
/-- stats/_continuous_distns.py:1054-1055 -/
def logpdf (c d x : ℝ) : ℝ := log c + log d + xlogy (c - 1) x + xlog1py (-d - 1) (x ^ c)
/-- stats/_continuous_distns.py:1050-1052 -/
def pdf (c d x : ℝ) : ℝ := exp (logpdf c d x)
/-- stats/_continuous_distns.py:1066-1067 -/
def logsf (c d x : ℝ) : ℝ := xlog1py (-d) (x ^ c)
/-- stats/_continuous_distns.py:1057-1058 -/
def cdf (c d x : ℝ) : ℝ := -expm1 (logsf c d x)
/-- stats/_continuous_distns.py:1060-1061 -/
def logcdf (c d x : ℝ) : ℝ := log1p (-(1 + x ^ c) ^ (-d))
/-- stats/_continuous_distns.py:1063-1064 -/
def sf (c d x : ℝ) : ℝ := exp (logsf c d x)
/-- stats/_continuous_distns.py:1069-1073 -/
def ppf (c d q : ℝ) : ℝ := expm1 (-1 / d * log1p (-q)) ^ (1 / c)
end Burr12

namespace Mielke
/-- stats/_continuous_distns.py:5297-5298 -/
def pdf (k s x : ℝ) : ℝ := k * x ^ (k - 1) / (1 + x ^ s) ^ (1 + k * 1 / s)
/-- stats/_continuous_distns.py:5300-5301 -/
def logpdf (k s x : ℝ) : ℝ := log k + log x * (k - 1) - log1p (x ^ s) * (1 + k * 1 / s)
/-- stats/_continuous_distns.py:5303-5304 -/
def cdf (k s x : ℝ) : ℝ := x ^ k / (1 + x ^ s) ^ (k * 1 / s)
/-- stats/_continuous_distns.py:5306-5308 -/
def ppf (k s q : ℝ) : ℝ :=
  let qsk := q ^ (s * 1 / k);
  (qsk / (1 - qsk)) ^ (1 / s)
end Mielke

namespace Kappa3
/-- stats/_continuous_distns.py:5613-5615 -/
def pdf (a x : ℝ) : ℝ := a * (a + x ^ a) ^ (-1 / a - 1)
/-- stats/_continuous_distns.py:5617-5618 -/
def cdf (a x : ℝ) : ℝ := x * (a + x ^ a) ^ (-1 / a)
/-- stats/_continuous_distns.py:5620-5621 -/
def ppf (a q : ℝ) : ℝ := (a / (q ^ (-a) - 1)) ^ (1 / a)
end Kappa3

/-! ## The logistic and the Laplace family -/

namespace Logistic
/-- stats/_continuous_distns.py:4870-4871 -/
def logpdf (x : ℝ) : ℝ := -x - 2 * log1p (exp (-x))
/-- stats/_continuous_distns.py:4866-4868 -/
def pdf (x : ℝ) : ℝ := exp (logpdf x)
/-- stats/_continuous_distns.py:4873-4874 -/
def cdf (x : ℝ) : ℝ := expit x
/-- stats/_continuous_distns.py:4876-4877 -/
def ppf (q : ℝ) : ℝ := logit q
/-- stats/_continuous_distns.py:4879-4880 -/
def sf (x : ℝ) : ℝ := expit (-x)
/-- stats/_continuous_distns.py:4882-4883 -/
def isf (q : ℝ) : ℝ := -logit q
end Logistic

namespace GenLogistic
/-- stats/_continuous_distns.py:2471-2472 -/
def logpdf (c x : ℝ) : ℝ := log c - x - (c + 1) * log1p (exp (-x))
/-- stats/_continuous_distns.py:2467-2469 -/
def pdf (c x : ℝ) : ℝ := exp (logpdf c x)
/-- stats/_continuous_distns.py:2474-2476 -/
def cdf (c x : ℝ) : ℝ := (1 + exp (-x)) ^ (-c)
/-- stats/_continuous_distns.py:2478-2480 -/
def ppf (c q : ℝ) : ℝ := -log (q ^ (-1 / c) - 1)
end GenLogistic

namespace HalfLogistic
/-- stats/_continuous_distns.py:3413-3414 -/
def logpdf (x : ℝ) : ℝ := log 2 - x - 2 * log1p (exp (-x))
/-- stats/_continuous_distns.py:3408-3411 -/
def pdf (x : ℝ) : ℝ := exp (logpdf x)
/-- stats/_continuous_distns.py:3416-3417 -/
def cdf (x : ℝ) : ℝ := tanh (x / 2)
/-- stats/_continuous_distns.py:3419-3420 -/
def ppf (q : ℝ) : ℝ := 2 * artanh q
end HalfLogistic

namespace GenHalfLogistic
/-- stats/_continuous_distns.py:3165-3172 -/
def pdf (c x : ℝ) : ℝ :=
  let limit := 1 / c
  let tmp := 1 - c * x
  let tmp0 := tmp ^ (limit - 1)
  let tmp2 := tmp0 * tmp
  2 * tmp0 / (1 + tmp2) ^ 2
/-- stats/_continuous_distns.py:3174-3178 -/
def cdf (c x : ℝ) : ℝ :=
  let limit := 1 / c
  let tmp := 1 - c * x
  let tmp2 := tmp ^ limit
  (1 - tmp2) / (1 + tmp2)
/-- stats/_continuous_distns.py:3180-3181 -/
def ppf (c q : ℝ) : ℝ := 1 / c * (1 - ((1 - q) / (1 + q)) ^ c)
end GenHalfLogistic

namespace HypSecant
/-- stats/_continuous_distns.py:3511-3513 -/
def pdf (x : ℝ) : ℝ := 1 / (π * cosh x)
/-- stats/_continuous_distns.py:3515-3516 -/
def cdf (x : ℝ) : ℝ := 2 / π * arctan (exp x)
/-- stats/_continuous_distns.py:3518-3519 -/
def ppf (q : ℝ) : ℝ := log (tan (π * q / 2))
end HypSecant

namespace Laplace
/-- stats/_continuous_distns.py:4245-4247 -/
def pdf (x : ℝ) : ℝ := 0.5 * exp (-|x|)
/-- stats/_continuous_distns.py:4249-4250 -/
def cdf (x : ℝ) : ℝ := if x > 0 then 1 - 0.5 * exp (-x) else 0.5 * exp x
/-- stats/_continuous_distns.py:4252-4253 -/
def ppf (q : ℝ) : ℝ := if q > 0.5 then -log (2 * (1 - q)) else log (2 * q)
end Laplace

namespace LogLaplace
/-- stats/_continuous_distns.py:4975-4980 -/
def pdf (c x : ℝ) : ℝ :=
  let cd2 := c / 2
  let c' := if x < 1 then c else -c
  cd2 * x ^ (c' - 1)
/-- stats/_continuous_distns.py:4982-4983 -/
def cdf (c x : ℝ) : ℝ := if x < 1 then 0.5 * x ^ c else 1 - 0.5 * x ^ (-c)
/-- stats/_continuous_distns.py:4985-4986 -/
def ppf (c q : ℝ) : ℝ := if q < 0.5 then (2 * q) ^ (1 / c) else (2 * (1 - q)) ^ (-1 / c)
end LogLaplace

/-! ## Distributions with circular functions -/

namespace Anglit
/-- stats/_continuous_distns.py:463-465 -/
def pdf (x : ℝ) : ℝ := cos (2 * x)
/-- stats/_continuous_distns.py:467-468 -/
def cdf (x : ℝ) : ℝ := sin (x + π / 4) ^ (2 : ℝ)
/-- stats/_continuous_distns.py:470-471 -/
def ppf (q : ℝ) : ℝ := arcsin (√q) - π / 4
end Anglit

namespace Arcsine
/-- stats/_continuous_distns.py:503-505 -/
def pdf (x : ℝ) : ℝ := 1 / π / √(x * (1 - x))
/-- stats/_continuous_distns.py:507-508 -/
def cdf (x : ℝ) : ℝ := 2 / π * arcsin (√x)
/-- stats/_continuous_distns.py:510-511 -/
def ppf (q : ℝ) : ℝ := sin (π / 2 * q) ^ (2 : ℝ)
end Arcsine

namespace Cosine
/-- stats/_continuous_distns.py:1351-1353 -/
def pdf (x : ℝ) : ℝ := 1 / 2 / π * (1 + cos x)
/-- stats/_continuous_distns.py:1355-1356 -/
def cdf (x : ℝ) : ℝ := 1 / 2 / π * (π + x + sin x)
end Cosine

namespace Cauchy
/-- stats/_continuous_distns.py:1170-1172 -/
def pdf (x : ℝ) : ℝ := 1 / π / (1 + x * x)
/-- stats/_continuous_distns.py:1174-1175 -/
def cdf (x : ℝ) : ℝ := 0.5 + 1 / π * arctan x
/-- stats/_continuous_distns.py:1177-1178 -/
def ppf (q : ℝ) : ℝ := tan (π * q - π / 2)
/-- stats/_continuous_distns.py:1180-1181 -/
def sf (x : ℝ) : ℝ := 0.5 - 1 / π * arctan x
/-- stats/_continuous_distns.py:1183-1184 -/
def isf (q : ℝ) : ℝ := tan (π / 2 - π * q)
end Cauchy

namespace HalfCauchy
/-- stats/_continuous_distns.py:3364-3366 -/
def pdf (x : ℝ) : ℝ := 2 / π / (1 + x * x)
/-- stats/_continuous_distns.py:3368-3369 -/
def logpdf (x : ℝ) : ℝ := log (2 / π) - log1p (x * x)
/-- stats/_continuous_distns.py:3371-3372 -/
def cdf (x : ℝ) : ℝ := 2 / π * arctan x
/-- stats/_continuous_distns.py:3374-3375 -/
def ppf (q : ℝ) : ℝ := tan (π / 2 * q)
end HalfCauchy

namespace FoldCauchy
/-- stats/_continuous_distns.py:1880-1882 -/
def pdf (c x : ℝ) : ℝ := 1 / π * (1 / (1 + (x - c) ^ 2) + 1 / (1 + (x + c) ^ 2))
/-- stats/_continuous_distns.py:1884-1885 -/
def cdf (c x : ℝ) : ℝ := 1 / π * (arctan (x - c) + arctan (x + c))
end FoldCauchy

namespace Semicircular
/-- stats/_continuous_distns.py:6946-6947 -/
def pdf (x : ℝ) : ℝ := 2 / π * √(1 - x * x)
/-- stats/_continuous_distns.py:6949-6950 -/
def logpdf (x : ℝ) : ℝ := log (2 / π) + 0.5 * log1p (-x * x)
/-- stats/_continuous_distns.py:6952-6953 -/
def cdf (x : ℝ) : ℝ := 0.5 + 1 / π * (x * √(1 - x * x) + arcsin x)
end Semicircular

/-! ## Distributions put together from pieces -/

namespace Uniform
/-- stats/_continuous_distns.py:7613-7614 -/
def pdf (_x : ℝ) : ℝ := 1
/-- stats/_continuous_distns.py:7616-7617 -/
def cdf (x : ℝ) : ℝ := x
/-- stats/_continuous_distns.py:7619-7620 -/
def ppf (q : ℝ) : ℝ := q
end Uniform

namespace Triang
/-- stats/_continuous_distns.py:7132-7133 -/
def argcheck (c : ℝ) : Prop := c ≥ 0 ∧ c ≤ 1
/-- stats/_continuous_distns.py:7135-7150 -/
def pdf (c x : ℝ) : ℝ :=
  if c = 0 then 2 - 2 * x
  else if x < c then 2 * x / c
  else if x ≥ c ∧ c ≠ 1 then 2 * (1 - x) / (1 - c)
  else 2 * x
/-- stats/_continuous_distns.py:7152-7162 -/
def cdf (c x : ℝ) : ℝ :=
  if c = 0 then 2 * x - x * x
  else if x < c then x * x / c
  else if x ≥ c ∧ c ≠ 1 then (x * x - 2 * x + c) / (c - 1)
  else x * x
/-- stats/_continuous_distns.py:7164-7165 -/
def ppf (c q : ℝ) : ℝ := if q < c then √(c * q) else 1 - √((1 - c) * (1 - q))
end Triang

namespace Trapz
/-- stats/_continuous_distns.py:7071-7072 -/
def argcheck (c d : ℝ) : Prop := c ≥ 0 ∧ c ≤ 1 ∧ d ≥ 0 ∧ d ≤ 1 ∧ d ≥ c
/-- stats/_continuous_distns.py:7074-7083 -/
def pdf (c d x : ℝ) : ℝ :=
  let u := 2 / (d - c + 1)
  if x < c then u * x / c
  else if c ≤ x ∧ x ≤ d then u
  else u * (1 - x) / (1 - d)
/-- stats/_continuous_distns.py:7085-7093 -/
def cdf (c d x : ℝ) : ℝ :=
  if x < c then x ^ 2 / c / (d - c + 1)
  else if c ≤ x ∧ x ≤ d then (c + 2 * (x - c)) / (d - c + 1)
  else 1 - (1 - x) ^ 2 / (d - c + 1) / (1 - d)
/-- stats/_continuous_distns.py:7095-7101 -/
def ppf (c d q : ℝ) : ℝ :=
  let qc := cdf c d c
  let qd := cdf c d d
  if q < qc then √(q * c * (1 + d - c))
  else if q ≤ qd then 0.5 * q * (1 + d - c) + 0.5 * c
  else 1 - √((1 - q) * (d - c + 1) * (1 - d))
end Trapz

namespace DWeibull
/-- stats/_continuous_distns.py:1454-1458 -/
def pdf (c x : ℝ) : ℝ := c / 2 * |x| ^ (c - 1) * exp (-(|x| ^ c))
/-- stats/_continuous_distns.py:1460-1462 -/
def logpdf (c x : ℝ) : ℝ := log c - log 2 + xlogy (c - 1) |x| - |x| ^ c
/-- stats/_continuous_distns.py:1464-1466 -/
def cdf (c x : ℝ) : ℝ :=
  let Cx1 := 0.5 * exp (-(|x| ^ c))
  if x > 0 then 1 - Cx1 else Cx1
/-- stats/_continuous_distns.py:1468-1471 -/
def ppf (c q : ℝ) : ℝ :=
  let fac := 2 * (if q ≤ 0.5 then q else 1 - q)
  let fac := (-log fac) ^ (1 / c)
  if q > 0.5 then fac else -fac
end DWeibull

/-! ## The four parameter kappa distribution -/

namespace Kappa4
/-- stats/_continuous_distns.py:5459-5495 -/
def logpdf (h k x : ℝ) : ℝ :=
  if h ≠ 0 ∧ k ≠ 0 then
    xlog1py (1 / k - 1) (-k * x) + xlog1py (1 / h - 1) (-h * (1 - k * x) ^ (1 / k))
  else if h = 0 ∧ k ≠ 0 then xlog1py (1 / k - 1) (-k * x) - (1 - k * x) ^ (1 / k)
  else if h ≠ 0 ∧ k = 0 then -x + xlog1py (1 / h - 1) (-h * exp (-x))
  else -x - exp (-x)
/-- stats/_continuous_distns.py:5454-5457 -/
def pdf (h k x : ℝ) : ℝ := exp (logpdf h k x)
/-- stats/_continuous_distns.py:5500-5533 -/
def logcdf (h k x : ℝ) : ℝ :=
  if h ≠ 0 ∧ k ≠ 0 then 1 / h * log1p (-h * (1 - k * x) ^ (1 / k))
  else if h = 0 ∧ k ≠ 0 then -(1 - k * x) ^ (1 / k)
  else if h ≠ 0 ∧ k = 0 then 1 / h * log1p (-h * exp (-x))
  else -exp (-x)
/-- stats/_continuous_distns.py:5497-5498 -/
def cdf (h k x : ℝ) : ℝ := exp (logcdf h k x)
/-- The logarithm of `numpy`: no real number (`none`) unless the argument is positive. -/
def log? (y : ℝ) : Option ℝ := open Classical in if 0 < y then some (log y) else none
/-- stats/_continuous_distns.py:5535-5558.  In the branch for `k == 0` and `h != 0` logarithms are
taken which may not exist; the value is then `nan`, here `none`. -/
def ppf (h k q : ℝ) : Option ℝ :=
  open Classical in
  if h ≠ 0 ∧ k ≠ 0 then some (1 / k * (1 - ((1 - q ^ h) / h) ^ k))
  else if h = 0 ∧ k ≠ 0 then some (1 / k * (1 - (-log q) ^ k))
  else if h ≠ 0 ∧ k = 0 then
    (log? (1 + -(q ^ h))).bind fun u => (log? h).map fun v => -u + v
  else some (-log (-log q))
/-- The interior of the interval of `_get_support`, stats/_continuous_distns.py:5413-5452 -/
def supp (h k : ℝ) : Set ℝ :=
  {x | (if 0 < h ∧ 0 < k then (1 - h ^ (-k)) / k < x
        else if 0 < h ∧ k = 0 then log h < x
        else if 0 < h ∧ k < 0 then (1 - h ^ (-k)) / k < x
        else if h ≤ 0 ∧ k < 0 then 1 / k < x
        else True) ∧
       (if 0 < k then x < 1 / k else True)}
end Kappa4

end

end Wafo.Dist
