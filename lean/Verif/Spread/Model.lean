import Mathlib.Analysis.SpecialFunctions.Gamma.Basic
import Mathlib.Analysis.SpecialFunctions.Complex.Circle
import Mathlib.MeasureTheory.Integral.IntervalIntegral.Basic
import Verif.Basic

/-!
Model of the class `Spreading` of `/repo/src/wafo/spectrum/models.py` (L1327-2056).

Numbers are reals.  The results of the equation solvers in `fourier2a`, `fourier2k`, `fourier2b` are parameters; the complex
exponentials of `wrap_norm` and the discrete Fourier transform are exact.  Warnings are not modelled.
-/

namespace Wafo.Spread

open Real

/-- Exceptions: the ones of `PyErr` and AttributeError. -/
inductive Err where
  | py (e : PyErr)
  | attribute
  deriving DecidableEq

/-- Kinds of spreading functions. -/
inductive SType where
  | cos2s
  | box
  | mises
  | poisson
  | sech2
  | wrap
  deriving DecidableEq

/-- `self._spreadfun[self.type[0]]`, L1515-1517, L1540. -/
def typeOf (s : String) : Except Err SType :=
  match s.toList with
  | [] => .error (.py .indexError)
  | c :: _ =>
    if c = 'c' then .ok .cos2s
    else if c = 'b' then .ok .box
    else if c = 'm' then .ok .mises
    else if c = 'v' then .ok .mises
    else if c = 'p' then .ok .poisson
    else if c = 's' then .ok .sech2
    else if c = 'w' then .ok .wrap
    else .error (.py .keyError)

/-- Kinds of frequency dependence. -/
inductive Method where
  | independent
  | mitsuyasu
  | donelan
  | banner
  deriving DecidableEq

/-- What can be given as `method`. -/
inductive MArg where
  | none
  | int (n : ℤ)
  | str (s : String)

/-- The method setter, L1527-1537. -/
def setMethod : MArg → Except Err Method
  | .none => .ok .independent
  | .int n =>
    if n = 0 then .ok .independent
    else if n = 1 then .ok .mitsuyasu
    else if n = 2 then .ok .donelan
    else if n = 3 then .ok .banner
    else .error (.py .valueError)
  | .str s =>
    match s.toList with
    | [] => .error (.py .indexError)
    | c :: _ =>
      let m := c.toLower
      if m = 'n' then .ok .independent
      else if m = 'm' then .ok .mitsuyasu
      else if m = 'd' then .ok .donelan
      else if m = 'b' then .ok .banner
      else .error (.py .valueError)

/-- The value of the property `method`, L1523-1525. -/
def Method.name : Method → String
  | .independent => "frequency_independent"
  | .mitsuyasu => "mitsuyasu"
  | .donelan => "donelan"
  | .banner => "banner"

/-- A `Spreading` object.  `theta0` is given as the list `_get_main_direction` returns for the normalised frequencies; `wnUp = none`
is infinity. -/
structure Obj where
  type : String
  theta0 : List ℝ → List ℝ
  method : Method
  sa : ℝ
  sb : ℝ
  ma : ℝ
  mb : ℝ
  wnLo : ℝ
  wnC : ℝ
  wnUp : Option ℝ

/-- `_init_frequency_dependent_spreading(wn)`, L1891-1901, for one non-negative frequency. -/
noncomputable def initS (d : Obj) (wn : ℝ) : ℝ :=
  let s := if wn ≤ d.wnC then d.sa * wn ^ d.ma else d.sb * wn ^ d.mb
  if wn ≤ d.wnLo then 0 else s

/-- `_mitsuyasu_spread(wn)`, L1929-1933. -/
noncomputable def mitsuyasu (d : Obj) (wn : ℝ) : ℝ :=
  match d.wnUp with
  | none => initS d wn
  | some u => if u < wn then 0 else initS d wn

/-- The S-parameters before conversion, L1935-1962.  `_donelan_spread` (L1903-1911) and `_banner_spread` (L1913-1927) read the attributes
`r1ofsech2` and `donelan`, which do not exist. -/
noncomputable def spreadS (d : Obj) (wn : List ℝ) : Except Err (List ℝ) :=
  match d.method with
  | .independent => .ok [d.sa]
  | .mitsuyasu => .ok (wn.map (mitsuyasu d))
  | .donelan => .error .attribute
  | .banner => .error .attribute

/-- Solutions of the equations `R1 = sin(A)/A`, `R1 = I1(K)/I0(K)`, `R1 = pi/(2B sinh(pi/(2B)))`. -/
structure Solvers where
  a : ℝ → ℝ
  k : ℝ → ℝ
  b : ℝ → ℝ

/-- Distribution parameter from `r1`, L1801-1889; `none` is infinity.  `fourier2a` is clipped from below by `1e-16`, not modelled; `fourier2k`
and `fourier2b` give zero for `r1 = 0`. -/
noncomputable def distpar (sol : Solvers) (t : SType) (r1 : ℝ) : Option ℝ :=
  match t with
  | .cos2s => some r1
  | .box => some (sol.a r1)
  | .mises => some (if r1 ≠ 0 then sol.k r1 else 0)
  | .poisson => some r1
  | .sech2 => some (if r1 ≠ 0 then |sol.b r1| else 0)
  | .wrap =>
    let r := max (min r1 1) 0
    if r ≤ 0 then none else some (sqrt (-2 * log r))

/-- `spread_parameter_s(wn)`, L1942-1975: one parameter for each frequency, or a single one. -/
noncomputable def spreadPar (sol : Solvers) (d : Obj) (t : SType) (wn : List ℝ) : Except Err (List (Option ℝ)) :=
  match spreadS d wn with
  | .error e => .error e
  | .ok s =>
    if s.any (fun x => decide (x < 0)) then .error (.py .valueError)
    else if t = .cos2s then .ok (s.map some)
    else
      let r1 := s.map fun x => |x / (x + 1)|
      if t = .poisson ∧ r1.any (fun x => decide (1 ≤ x)) then .error (.py .valueError)
      else .ok (r1.map (distpar sol t))

/-- numpy's `mod`. -/
noncomputable def pmod (x y : ℝ) : ℝ := x - y * ⌊x / y⌋

/-- `mod(x + pi, 2*pi) - pi`, L1551, L1556, L1578. -/
noncomputable def wrapAngle (x : ℝ) : ℝ := pmod (x + π) (2 * π) - π

/-- Entry of an axis of length one or `n`. -/
def bcast {α : Type*} (l : List α) (j : ℕ) : Option α := if l.length = 1 then l[0]? else l[j]?

/-- `I0(K)`, the modified Bessel function, by its integral. -/
noncomputable def besselI0 (K : ℝ) : ℝ := 1 / π * ∫ t in (0 : ℝ)..π, exp (K * cos t)

/-- `sp.ive(0, K)`. -/
noncomputable def ive0 (K : ℝ) : ℝ := exp (-|K|) * besselI0 K

/-- `sech(x)`. -/
noncomputable def sech (x : ℝ) : ℝ := 1 / cosh x

/-- The spreading functions for one angle: `cos2s` L1607-1613, `poisson` L1637-1640, `sech2` L1707-1712, `mises` L1737-1740, `box`
L1765-1767.  (`wrap_norm` needs all angles, see below.) -/
noncomputable def density (t : SType) (p th : ℝ) : ℝ :=
  match t with
  | .cos2s => exp (log (Gamma (p + 1)) - log (Gamma (p + 1 / 2))) / (2 * sqrt π) * cos (th / 2) ^ (2 * p)
  | .poisson => (1 - p ^ 2) / (1 - (2 * cos th - p) * p) / (2 * π)
  | .sech2 =>
    let nb := tanh (π * p)
    let nb := if nb = 0 then 1 else nb
    0.5 * p * sech (p * th) ^ 2 / nb
  | .mises => exp (p * (cos th - 1)) / (2 * π * ive0 p)
  | .box => (if -p ≤ th ∧ th ≤ p then 1 else 0) / (2 * p)
  | .wrap => 0

/-- `wrap_norm`, L1664-1682: entry `k` of the transform of length `nt`, `th0` is the first angle. -/
noncomputable def wrapEntry (nt : ℕ) (p : Option ℝ) (th0 : ℝ) (k : ℕ) : ℝ :=
  let fcof : ℕ → ℝ := fun n => (if n = 0 then 1 / 2 else
    match p with
    | none => 0
    | some q => exp (-((n : ℝ) ^ 2) * (q ^ 2 / 2))) / π
  let pcor : ℕ → ℂ := fun n => if n = 0 then 1 else Complex.exp (Complex.I * (n : ℂ) * (th0 : ℂ))
  let v := (∑ n ∈ Finset.range nt, (fcof n : ℂ) * (starRingEnd ℂ) (pcor n)
    * Complex.exp (-(2 * (π : ℂ) * Complex.I * (n : ℂ) * (k : ℂ) / (nt : ℂ)))).re
  if v < 0 then 0 else v

/-- Number of columns of the result. -/
def ncols {α β : Type*} (pars : List α) (dirs : List β) (nw : ℕ) : ℕ :=
  if dirs.length = nw then nw else if pars.length = 1 then 1 else nw

/-- `Spreading.__call__(theta, w, wc)`, L1539-1583 and the spreading functions: the matrix `D`, one row for each angle. -/
noncomputable def call (sol : Solvers) (d : Obj) (theta w : List ℝ) (wc : ℝ) : Except Err (List (List ℝ)) :=
  match typeOf d.type with
  | .error e => .error e
  | .ok t =>
    let wn := w.map (· / wc)
    let th := theta.map wrapAngle
    let dirs := d.theta0 wn
    if dirs.length ≠ wn.length ∧ dirs.length ≠ 1 then .error (.py .valueError)
    else
      match spreadPar sol d t wn with
      | .error e => .error e
      | .ok pars =>
        let cols := List.range (ncols pars dirs wn.length)
        if t = .wrap then
          match th with
          | [] => .error (.py .indexError)
          | x :: _ => .ok ((List.range th.length).map fun k => cols.filterMap fun j =>
              match bcast pars j, bcast dirs j with
              | some p, some t0 => some (wrapEntry th.length p (wrapAngle (x - t0)) k)
              | _, _ => none)
        else
          .ok (th.map fun x => cols.filterMap fun j =>
            match bcast pars j, bcast dirs j with
            | some (some p), some t0 => some (density t p (wrapAngle (x - t0)))
            | _, _ => none)

/-- `_r1ofsech2(B)`, L1983-1992, for `B` within the range of the floating point numbers. -/
noncomputable def r1ofsech2 (B : ℝ) : ℝ :=
  let x := 2 * B
  let xk := π / x
  if x < 100 then xk / sinh xk else -2 * xk / (exp xk * (exp (-2 * xk) - 1))

/-- `_check_theta(theta)`, L1994-2002. -/
noncomputable def checkTheta (eps : ℝ) (theta : List ℝ) : Except Err Unit :=
  match theta.getLast?, theta.head? with
  | some b, some a => if eps < |(|b - a|) - 2 * π| then .error (.py .valueError) else .ok ()
  | _, _ => .error (.py .indexError)

/-- `tospecdata2d`, L2004-2056: the data `D * S` for the angles `theta`. -/
noncomputable def specdata2d (sol : Solvers) (eps : ℝ) (d : Obj) (theta w S : List ℝ) (wc : ℝ) : Except Err (List (List ℝ)) :=
  match checkTheta eps theta with
  | .error e => .error e
  | .ok _ =>
    match call sol d theta w wc with
    | .error e => .error e
    | .ok D => .ok (D.map fun row => (List.range S.length).filterMap fun j =>
        match bcast row j, S[j]? with
        | some x, some s => some (x * s)
        | _, _ => none)

end Wafo.Spread
