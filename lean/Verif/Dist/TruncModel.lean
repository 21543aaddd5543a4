import Verif.Dist.NormModel
import Mathlib.Data.EReal.Operations

/-!
# The truncated normal distribution

The shape parameters of `truncnorm` are the limits of the interval, which may be infinite: they are extended real
numbers `a < b`.  Functions of `x` are modelled at points `a < x < b` only.  `np.vectorize` is left out.
The Newton iteration `_norm_ilogcdf` (lines 7366-7390) and the root finder `brentq` are parameters of `ppf`.
-/

namespace Wafo.Dist

noncomputable section

open Real Wafo.Gauss

/-- `scipy.special.ndtr` with its limits; stats/_continuous_distns.py:259-260 -/
def ndtr (x : EReal) : ℝ := if x = ⊥ then 0 else if x = ⊤ then 1 else Phi x.toReal

/-- `scipy.special.log_ndtr`; stats/_continuous_distns.py:263-264 -/
def logNdtr (x : EReal) : EReal := if x = ⊥ then ⊥ else ((log (ndtr x) : ℝ) : EReal)

/-- `np.exp` for numbers below infinity. -/
def expE (y : EReal) : ℝ := if y = ⊥ then 0 else exp y.toReal

namespace TruncNorm

/-- `_norm_sf`, stats/_continuous_distns.py:271-272 -/
def nsf (x : EReal) : ℝ := ndtr (-x)
/-- `_norm_logsf`, stats/_continuous_distns.py:275-276 -/
def nlogsf (x : EReal) : EReal := logNdtr (-x)
/-- `TRUNCNORM_TAIL_X`, stats/_continuous_distns.py:7241 -/
def tailX : EReal := 30

/-- The mass of the interval, stats/_continuous_distns.py:7259-7263 and 7269-7273 -/
def mass (a b : EReal) : ℝ := max (if a > 0 then ndtr b - ndtr a else nsf a - nsf b) 0

/-- `_truncnorm_get_delta`, stats/_continuous_distns.py:7256-7264 -/
def getDelta (a b : EReal) : ℝ := if a > tailX ∨ b < -tailX then 0 else mass a b

/-- `_truncnorm_get_logdelta`, stats/_continuous_distns.py:7267-7285 -/
def getLogdelta (a b : EReal) : ℝ :=
  if a ≤ tailX ∧ b ≥ -tailX ∧ mass a b > 0 then log (mass a b)
  else if b < 0 ∨ a.abs ≥ b.abs then
    (logNdtr b).toReal + log1p (-expE (logNdtr a - logNdtr b))
  else (nlogsf a).toReal + log1p (-expE (nlogsf b - nlogsf a))

/-- stats/_continuous_distns.py:7289-7291 -/
def logpdf (a b : EReal) (x : ℝ) : ℝ := Norm.logpdf x - getLogdelta a b

/-- stats/_continuous_distns.py:7295-7299 -/
def pdf (a b : EReal) (x : ℝ) : ℝ :=
  if getDelta a b > 0 then Norm.pdf x / getDelta a b else exp (logpdf a b x)

/-- stats/_continuous_distns.py:7303-7323; the values outside the interval (lines 7307-7310) are left out -/
def logcdf (a b : EReal) (x : ℝ) : ℝ :=
  if getDelta a b > 0 then log ((ndtr x - ndtr a) / getDelta a b)
  else if a < 0 then
    (logNdtr x).toReal + log1p (-expE (logNdtr a - logNdtr x)) -
      ((logNdtr b).toReal + log1p (-expE (logNdtr a - logNdtr b)))
  else log1p (-expE (nlogsf x - nlogsf a)) - log1p (-expE (nlogsf b - nlogsf a))

/-- stats/_continuous_distns.py:7327-7331 -/
def cdf (a b : EReal) (x : ℝ) : ℝ :=
  if getDelta a b > 0 then (ndtr x - ndtr a) / getDelta a b else exp (logcdf a b x)

/-- stats/_continuous_distns.py:7335-7355; the values outside the interval (lines 7339-7342) are left out -/
def logsf (a b : EReal) (x : ℝ) : ℝ :=
  if getDelta a b > 0 then log ((nsf x - nsf b) / getDelta a b)
  else if b < 0 then
    log1p (-expE (logNdtr x - logNdtr b)) - log1p (-expE (logNdtr a - logNdtr b))
  else
    (nlogsf x).toReal + log1p (-expE (nlogsf b - nlogsf x)) -
      ((nlogsf a).toReal + log1p (-expE (nlogsf b - nlogsf a)))

/-- stats/_continuous_distns.py:7359-7363 -/
def sf (a b : EReal) (x : ℝ) : ℝ :=
  if getDelta a b > 0 then (nsf x - nsf b) / getDelta a b else exp (logsf a b x)

/-- stats/_continuous_distns.py:7394-7432, for `0 < q < 1`; `ninv` is `ndtri`, `ilog` is `_norm_ilogcdf`, `root` is
`brentq` on a function and the two ends of the interval -/
def ppf (ninv ilog : ℝ → ℝ) (root : (ℝ → ℝ) → ℝ → ℝ → ℝ) (a b : EReal) (q : ℝ) : ℝ :=
  if getDelta a b > 0 then
    if a > 0 then -ninv (q * nsf b + nsf a * (1.0 - q)) else ninv (q * ndtr b + ndtr a * (1.0 - q))
  else if b = ⊤ then -ilog (log1p (-q) + (nlogsf a).toReal)
  else if a = ⊥ then ilog (log q + (logNdtr b).toReal)
  else if q ≤ 0.5 then root (fun x => logcdf a b x - log q) a.toReal b.toReal
  else root (fun x => logsf a b x - log (1.0 - q)) a.toReal b.toReal

/-- The density at a limit of the interval, `self._pdf([a, b], a, b)`: zero at an infinite one,
stats/_continuous_distns.py:7489 and 7507 -/
def pdfE (a b x : EReal) : ℝ := if x = ⊥ ∨ x = ⊤ then 0 else pdf a b x.toReal

/-- `_lazywhere(probs, [probs, [u, v]], lambda x, y: x * y**k, fillvalue=0)` summed, where `probs = [pA, -pB]` and `u` and `v` are
the limits less `mu`; stats/_continuous_distns.py:7490, 7497-7498, 7511-7524 -/
def edge (a b : EReal) (mu : ℝ) (k : ℕ) : ℝ :=
  (if pdfE a b a ≠ 0 then pdfE a b a * (a.toReal - mu) ^ k else 0) +
    (if -pdfE a b b ≠ 0 then -pdfE a b b * (b.toReal - mu) ^ k else 0)

/-- `_munp`, the loop of stats/_continuous_distns.py:7491-7500: the last two elements of the list `moments` -/
def loop (a b : EReal) : ℕ → ℝ × ℝ
  | 0 => (0, 1)
  | k + 1 => ((loop a b k).2, edge a b 0 k + k * (loop a b k).1)

/-- `_munp` for `n >= 0`, stats/_continuous_distns.py:7483-7504 -/
def munp (n : ℕ) (a b : EReal) : ℝ := (loop a b n).2

/-- stats/_continuous_distns.py:7506-7531 -/
def stats (a b : EReal) : ℝ × ℝ × ℝ × ℝ :=
  let m1 := pdfE a b a - pdfE a b b
  let mu := m1
  let m2 := 1 + edge a b 0 1
  let mu2 := 1 + edge a b mu 1
  let m3 := 2 * m1 + edge a b 0 2
  let m4 := 3 * m2 + edge a b 0 3
  let mu3 := m3 + m1 * (-3 * m2 + 2 * m1 ^ 2)
  let mu4 := m4 + m1 * (-4 * m3 + 3 * m1 * (2 * m2 - m1 ^ 2))
  (mu, mu2, mu3 / mu2 ^ (1.5 : ℝ), mu4 / mu2 ^ 2 - 3)

end TruncNorm

end

end Wafo.Dist
