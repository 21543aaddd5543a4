import Verif.Basic
import Mathlib.Analysis.SpecialFunctions.Log.Basic
import Mathlib.Analysis.SpecialFunctions.Pow.Real
import Mathlib.Analysis.Real.Sqrt

/-!
Model of the transformations between a Gaussian and a non-Gaussian process, `/repo/src/wafo/transform/models.py` and
`/repo/src/wafo/transform/core.py`.

Floats are real numbers; `none` stands for nan (or an infinite value).  Arrays are transformed element by element, so that the
transformations are modelled for one element, except where the code looks at a whole array (`check_forward`).
-/

namespace Wafo.Trf

/-- The attributes set by `TrCommon.__init__`, core.py L39-49. -/
structure Stats where
  /-- mean of the process -/
  mean : ℝ
  /-- standard deviation of the process -/
  sigma : ℝ
  /-- skewness -/
  skew : ℝ
  /-- kurtosis -/
  kurt : ℝ
  /-- mean in the Gaussian world -/
  ymean : ℝ
  /-- standard deviation in the Gaussian world -/
  ysigma : ℝ

/-- `TrCommon.__init__(mean, var, skew, kurt, sigma=, ymean=, ysigma=)`, core.py L39-49. -/
noncomputable def Stats.init (mean var skew kurt : ℝ) (sigma : Option ℝ) (ymean ysigma : ℝ) : Stats :=
  ⟨mean, sigma.getD (Real.sqrt var), skew, kurt, ymean, ysigma⟩

/-! ### `TrLinear`, models.py L359-402 -/

/-- `TrLinear._transform`, L389-394: the transformed value followed by the transformed derivatives. -/
noncomputable def linTransform (ymean ysigma xmean xsigma x : ℝ) (xi : List ℝ) : List ℝ :=
  let sratio := ysigma / xsigma
  ((x - xmean) * sratio + ymean) :: xi.map (· * sratio)

/-- `TrLinear._dat2gauss`, L396-398. -/
noncomputable def linDat2gauss (s : Stats) (x : ℝ) (xi : List ℝ) : List ℝ := linTransform s.ymean s.ysigma s.mean s.sigma x xi

/-- `TrLinear._gauss2dat`, L400-402. -/
noncomputable def linGauss2dat (s : Stats) (y : ℝ) (yi : List ℝ) : List ℝ := linTransform s.mean s.sigma s.ymean s.ysigma y yi

/-! ### `TrOchi`, models.py L405-568 -/

/-- `self._phat`. -/
structure Phat where
  /-- `sigma` for which the parameters were computed -/
  sigma1 : ℝ
  /-- `mean` for which the parameters were computed -/
  mean1 : ℝ
  /-- exponent for positive values -/
  ga : ℝ
  /-- exponent for negative values -/
  gb : ℝ
  /-- normalizing standard deviation -/
  sigma2 : ℝ
  /-- normalizing mean -/
  mean2 : ℝ

/-- The function handed to the root finder, L491-493. -/
noncomputable def g2 (skew x : ℝ) : ℝ := -Real.sqrt (|x - 1| * 2) * (3 * x - 4 * |x - 1|) + |skew|

/-- The parameter `a`, L499. -/
noncomputable def ochiA (skew sig22 : ℝ) : ℝ := SignType.sign skew * Real.sqrt (|sig22 - 1| / 2) / sig22

/-- The parameter `mean2`, L506-507. -/
noncomputable def ochiMean2 (a sig22 : ℝ) : ℝ :=
  let my2 := (-1 - Real.sqrt (1 - 4 * a ^ 2 * sig22)) / a
  a * sig22 / my2

/-- `TrOchi._par_from_stats`, L468-509.  `brentq` is the root finder of scipy. -/
noncomputable def parFromStats (brentq : (ℝ → ℝ) → ℝ → ℝ → ℝ) (s : Stats) : Except PyErr Phat :=
  if |s.skew| > 2.82842712474619 then .error .valueError
  else if s.skew = 0 then .ok ⟨s.sigma, s.mean, 0, 0, 1, 0⟩
  else
    let sig22 := brentq (g2 s.skew) 1 2
    let a := ochiA s.skew sig22
    .ok ⟨s.sigma, s.mean, 1.28 * a, 3 * a, Real.sqrt sig22, ochiMean2 a sig22⟩

/-- A `TrOchi` object: attributes and cached parameters. -/
structure Ochi where
  /-- attributes -/
  st : Stats
  /-- cached parameters, `_phat` -/
  phat : Option Phat

/-- `TrOchi.__init__`, L462-466. -/
noncomputable def Ochi.init (brentq : (ℝ → ℝ) → ℝ → ℝ → ℝ) (s : Stats) : Except PyErr Ochi :=
  (parFromStats brentq s).map (fun p => ⟨s, some p⟩)

/-- `TrOchi._get_par`, L511-524: the parameters in use and the object afterwards. -/
noncomputable def getPar (brentq : (ℝ → ℝ) → ℝ → ℝ → ℝ) (o : Ochi) : Except PyErr (Phat × Ochi) :=
  match o.phat with
  | none => (parFromStats brentq o.st).map (fun p => (p, ⟨o.st, some p⟩))
  | some p =>
    if o.st.sigma ≠ p.sigma1 ∨ o.st.mean ≠ p.mean1 then (parFromStats brentq o.st).map (fun p => (p, ⟨o.st, some p⟩))
    else .ok (p, o)

/-- `log1p`: nan below -1, minus infinity at -1. -/
noncomputable def log1p (u : ℝ) : Option ℝ := if -1 < u then some (Real.log (1 + u)) else none

/-- `expm1`. -/
noncomputable def expm1 (u : ℝ) : ℝ := Real.exp u - 1

/-- One element of `TrOchi._forward`, L541-548 (with `_transform`, L526-529). -/
noncomputable def ochiForward (p : Phat) (xn : ℝ) : ℝ :=
  let gab := if 0 ≤ xn then p.ga else p.gb
  let y2 := if gab ≠ 0 then -expm1 (-gab * xn) / gab else xn
  (y2 - p.mean2) / p.sigma2

/-- One element of `TrOchi._backward`, L531-539 (with `_transform`, L526-529). -/
noncomputable def ochiBackward (p : Phat) (yn : ℝ) : Option ℝ :=
  let y2 := p.sigma2 * yn + p.mean2
  let gab := if 0 ≤ y2 then p.ga else p.gb
  if gab ≠ 0 then (log1p (-gab * y2)).map (fun v => -v / gab) else some y2

/-- `TrOchi._dat2gauss(x)`, L550-553 and L560-567. -/
noncomputable def ochiDat2gauss (brentq : (ℝ → ℝ) → ℝ → ℝ → ℝ) (o : Ochi) (x : ℝ) : Except PyErr (ℝ × Ochi) :=
  (getPar brentq o).map (fun q => (ochiForward q.1 ((x - o.st.mean) / o.st.sigma) * o.st.ysigma + o.st.ymean, q.2))

/-- `TrOchi._gauss2dat(y)`, L555-558 and L560-567. -/
noncomputable def ochiGauss2dat (brentq : (ℝ → ℝ) → ℝ → ℝ → ℝ) (o : Ochi) (y : ℝ) : Except PyErr (Option ℝ × Ochi) :=
  (getPar brentq o).map (fun q =>
    ((ochiBackward q.1 ((y - o.st.ymean) / o.st.ysigma)).map (fun xn => xn * o.st.sigma + o.st.mean), q.2))

/-! ### `TrHermite`, models.py L82-358 -/

/-- A polynomial `np.poly1d([a, b, c, d])`. -/
structure Cubic where
  /-- coefficient of the cube -/
  a : ℝ
  /-- coefficient of the square -/
  b : ℝ
  /-- linear coefficient -/
  c : ℝ
  /-- constant -/
  d : ℝ

/-- `p(x)`. -/
def Cubic.eval (p : Cubic) (x : ℝ) : ℝ := ((p.a * x + p.b) * x + p.c) * x + p.d

/-- `p.order`: leading zeros are trimmed. -/
noncomputable def Cubic.order (p : Cubic) : ℕ := if p.a ≠ 0 then 3 else if p.b ≠ 0 then 2 else if p.c ≠ 0 then 1 else 0

/-- The real roots of `p.deriv()`, L223-225; in exact arithmetic a root is real when its imaginary part is zero (the code
tolerates imaginary parts below the rounding unit). -/
noncomputable def Cubic.critical (p : Cubic) : List ℝ :=
  if p.a ≠ 0 then
    if p.b ^ 2 - 3 * p.a * p.c < 0 then []
    else [(-p.b + Real.sqrt (p.b ^ 2 - 3 * p.a * p.c)) / (3 * p.a), (-p.b - Real.sqrt (p.b ^ 2 - 3 * p.a * p.c)) / (3 * p.a)]
  else if p.b ≠ 0 then [-p.c / (2 * p.b)]
  else []

/-- A power that has to be finite: the base must not be negative (unless the exponent is an integer), nor zero with a negative
exponent. -/
noncomputable def finitePow (base e : ℝ) : Option ℝ :=
  open Classical in
  if (base < 0 ∧ ¬ ∃ k : ℤ, e = k) ∨ (base = 0 ∧ e < 0) then none else some (base ^ e)

/-- `sqrt(_EPS)` is a parameter `tiny > 0`; `_check_c3_c4`, L166-171. -/
noncomputable def checkC4 (tiny c4 : ℝ) : ℝ := if |c4| < tiny then 0 else c4

/-- `_winterstein1988`, L173-181, for positive excess kurtosis. -/
noncomputable def winterstein1988 (tiny skew ek : ℝ) : Except PyErr (ℝ × ℝ) :=
  let c4 := (Real.sqrt (1 + 1.5 * ek) - 1) / 18
  let c3 := skew / (6 * (1 + 6 * c4))
  .ok (c3, checkC4 tiny c4)

/-- `_winterstein1994`, L183-203; a nan or infinite coefficient raises ValueError. -/
noncomputable def winterstein1994 (tiny skew ek : ℝ) : Except PyErr (ℝ × ℝ) :=
  let c3 := skew / 6 * (1 - 0.015 * |skew| + 0.3 * skew ^ 2) / (1 + 0.2 * ek)
  if ek = 0 then .ok (c3, checkC4 tiny 0)
  else
    match finitePow (1 - 1.43 * skew ^ 2 / ek) (1 - 0.1 * (ek + 3) ^ (0.8 : ℝ)) with
    | none => .error .valueError
    | some c41 => .ok (c3, checkC4 tiny (0.1 * ((1 + 1.25 * ek) ^ (1 / 3 : ℝ) - 1) * c41))

/-- `_hardening_parameters`, L205-209. -/
noncomputable def hardening (tiny skew ek : ℝ) : ℝ × ℝ := (skew / 6, checkC4 tiny (ek / 24))

/-- A `TrHermite` object. -/
structure Herm where
  /-- attributes -/
  st : Stats
  /-- the polynomial: `_forward` if hardening, `_backward` otherwise -/
  poly : Cubic
  /-- `kurt <= 3` at construction -/
  hard : Bool
  /-- `_x_limit` -/
  xLimit : Option (List ℝ)

/-- The polynomial of the hardening model, L230-232. -/
noncomputable def hardPoly (c3 c4 : ℝ) : Cubic := ⟨-c4, -c3, 1 + 3 * c4, c3⟩

/-- The polynomial of the softening model, L239-244. -/
noncomputable def softPoly (c3 c4 : ℝ) : Cubic :=
  let Km1 := Real.sqrt (1 + 2 * c3 ^ 2 + 6 * c4 ^ 2)
  ⟨c4 / Km1, c3 / Km1, (1 - 3 * c4) / Km1, -c3 / Km1⟩

/-- `_check_monotonicity` and `_set_x_limit`, L211-227.  The warning text is formatted with `'%g' % self._x_limit`, which raises
TypeError when there are two limits. -/
noncomputable def limits (s : Stats) (p : Cubic) : Except PyErr (Option (List ℝ)) :=
  if p.critical = [] then .ok none
  else
    let lim := if s.kurt ≤ 3 then p.critical else p.critical.map (fun r => s.sigma * p.eval r + s.mean)
    if lim.length = 1 then .ok (some lim) else .error .typeError

/-- `TrHermite.__init__`, L144-152, with `set_poly`, L251-258. -/
noncomputable def Herm.init (tiny : ℝ) (pardef : ℤ) (s : Stats) : Except PyErr Herm :=
  if s.kurt ≤ 3 then
    let c := hardening tiny s.skew (s.kurt - 3)
    let p := hardPoly c.1 c.2
    (limits s p).map (fun l => ⟨s, p, true, l⟩)
  else
    match (if pardef = 2 then winterstein1988 tiny s.skew (s.kurt - 3) else winterstein1994 tiny s.skew (s.kurt - 3)) with
    | .error e => .error e
    | .ok c =>
      let p := softPoly c.1 c.2
      (limits s p).map (fun l => ⟨s, p, false, l⟩)

/-- `check_forward(x)`, L260-274: `x[0]` and `x[-1]` of the array are compared with the limits.  (`sum` of the Booleans is the
number of limits that lie between the first and the last value.) -/
noncomputable def checkForward (lim : Option (List ℝ)) (x : List ℝ) : Except PyErr Unit :=
  match lim with
  | none => .ok ()
  | some roots =>
    match x.head?, x.getLast? with
    | some x0, some x1 =>
      let cdef := if roots.any (fun r => decide (x0 ≤ r) && decide (r ≤ x1)) then 1
        else roots.countP (fun r => xor (decide (r ≤ x0)) (decide (r ≤ x1)))
      if cdef % 2 = 1 then .error .valueError else .ok ()
    | _, _ => .error .indexError

/-- `np.sign`. -/
noncomputable def npSign (x : ℝ) : ℝ := if x < 0 then -1 else if x = 0 then 0 else 1

/-- `_solve_quadratic(p, xn)`, L293-302: nan when the root is not real, and when the denominator vanishes. -/
noncomputable def solveQuadratic (p : Cubic) (xn : ℝ) : Option ℝ :=
  let a := p.b
  let b := p.c
  let c := p.d - xn
  if b ^ 2 - 4 * a * c < 0 then none
  else
    let t := 0.5 * (b + npSign b * Real.sqrt (b ^ 2 - 4 * a * c))
    if t = 0 then none else some (-c / t)

/-- `_solve_third_order(p, xn)`, L315-356.  With a limit (three real roots) the code indexes an array with the float
`ceil(len(xn)/2)`, which raises IndexError.  A negative number to the power 1/3 is nan. -/
noncomputable def solveThird (lim : Option (List ℝ)) (p : Cubic) (xn : ℝ) : Except PyErr (Option ℝ) :=
  let a := p.b / p.a
  let b := p.c / p.a
  let c := p.d / p.a - xn / p.a
  let x0 := a / 3
  let p1 := b / 3 - x0 ^ 2
  let q0 := x0 * (x0 ^ 2 - b / 2) + c / 2
  match lim with
  | some _ => .error .indexError
  | none =>
    if q0 ^ 2 + p1 ^ 3 < 0 then .ok none
    else
      let q1 := Real.sqrt (q0 ^ 2 + p1 ^ 3)
      if q1 - q0 < 0 ∨ q1 + q0 < 0 then .ok none
      else .ok (some ((q1 - q0) ^ (1 / 3 : ℝ) + -(q1 + q0) ^ (1 / 3 : ℝ) - x0))

/-- `_poly_inv(p, xn)`, L304-313. -/
noncomputable def polyInv (lim : Option (List ℝ)) (p : Cubic) (xn : ℝ) : Except PyErr (Option ℝ) :=
  if p.order < 2 then .ok (some xn)
  else if p.order = 2 then .ok (solveQuadratic p xn)
  else solveThird lim p xn

/-- `self._forward`. -/
noncomputable def Herm.forward (h : Herm) (xn : ℝ) : Except PyErr (Option ℝ) :=
  if h.hard then .ok (some (h.poly.eval xn)) else polyInv h.xLimit h.poly xn

/-- `self._backward`. -/
noncomputable def Herm.backward (h : Herm) (yn : ℝ) : Except PyErr (Option ℝ) :=
  if h.hard then polyInv h.xLimit h.poly yn else .ok (some (h.poly.eval yn))

/-- `TrHermite._dat2gauss(x)`, L276-283. -/
noncomputable def hermDat2gauss (h : Herm) (x : List ℝ) : Except PyErr (List (Option ℝ)) :=
  match checkForward h.xLimit x with
  | .error e => .error e
  | .ok _ => x.mapM (fun v =>
      (h.forward ((v - h.st.mean) / h.st.sigma)).map (fun r => r.map (fun yn => yn * h.st.ysigma + h.st.ymean)))

/-- `TrHermite._gauss2dat(y)`, L285-291. -/
noncomputable def hermGauss2dat (h : Herm) (y : List ℝ) : Except PyErr (List (Option ℝ)) :=
  y.mapM (fun v => (h.backward ((v - h.st.ymean) / h.st.ysigma)).map (fun r => r.map (fun xn => h.st.sigma * xn + h.st.mean)))

/-! ### `dist2gauss`, core.py L54-83 -/

/-- `trapz(y, x)`. -/
noncomputable def trapz : List ℝ → List ℝ → ℝ
  | y0 :: y1 :: ys, x0 :: x1 :: xs => (x1 - x0) * (y0 + y1) / 2 + trapz (y1 :: ys) (x1 :: xs)
  | _, _ => 0

/-- `linspace(lo, hi, n)` for `n ≥ 2`. -/
noncomputable def linspace (lo hi : ℝ) (n : ℕ) : List ℝ := (List.range n).map (fun k : ℕ => lo + (k : ℝ) * ((hi - lo) / ((n : ℝ) - 1)))

/-- `dist2gauss(x=None, xnmin, xnmax, n)`; `d2g` is `_dat2gauss`. -/
noncomputable def dist2gauss (s : Stats) (d2g : ℝ → ℝ) (xnmin xnmax : ℝ) (n : ℕ) : ℝ :=
  let xn := linspace xnmin xnmax n
  trapz (xn.map (fun u => (u - (d2g (s.sigma * u + s.mean) - s.ymean) / s.ysigma) ^ 2)) xn

/-- `dist2gauss(x)` for given points. -/
noncomputable def dist2gaussAt (s : Stats) (d2g : ℝ → ℝ) (x : List ℝ) : ℝ :=
  let xn := x.map (fun v => (v - s.mean) / s.sigma)
  trapz (x.map (fun v => ((v - s.mean) / s.sigma - (d2g v - s.ymean) / s.ysigma) ^ 2)) xn

end Wafo.Trf
