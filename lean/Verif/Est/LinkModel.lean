import Mathlib.Analysis.SpecialFunctions.Log.Basic
import Mathlib.Analysis.SpecialFunctions.Pow.Real

/-!
# Model of the link functions of `/repo/src/wafo/stats/estimation.py`

A link function returns one distribution parameter from a quantile, the logarithm of its survival
probability and the other parameters.  Values are real numbers; `none` stands for a value that is
`nan` or infinite.  Simplification: an intermediate infinite value makes the result `none`, and so
does a power of a number that is not positive.
-/

namespace Wafo.Est

/-- The exceptions of the link functions. -/
inductive LinkErr where
  | indexError
  | valueError
  | notImplemented
deriving DecidableEq, Repr

/-- `np.log`, `/repo/src/wafo/stats/estimation.py` L35-38. -/
noncomputable def lg (x : ℝ) : Option ℝ := if 0 < x then some (Real.log x) else none

/-- `scipy.special.log1p`, `/repo/src/wafo/stats/estimation.py` L41-44. -/
noncomputable def lg1p (x : ℝ) : Option ℝ := lg (1 + x)

/-- `scipy.special.expm1` (imported in `/repo/src/wafo/stats/estimation.py` L16). -/
noncomputable def expm1 (x : ℝ) : ℝ := Real.exp x - 1

/-- Division of floats. -/
noncomputable def dv (a b : ℝ) : Option ℝ := if b = 0 then none else some (a / b)

/-- Power of floats, for positive bases. -/
noncomputable def pw (x y : ℝ) : Option ℝ := if 0 < x then some (x ^ y) else none

/-- `np.sqrt`. -/
noncomputable def sq (x : ℝ) : Option ℝ := if 0 ≤ x then some (√x) else none

/-- What a link function returns. -/
abbrev Link := ℝ → ℝ → List ℝ → ℤ → Except LinkErr (Option ℝ)

/-- `/repo/src/wafo/stats/estimation.py` L82-87: `_expon_link`, `phat = [loc, scale]`. -/
noncomputable def exponLink : Link := fun x logsf phat i =>
  if i = 1 then
    match phat[0]? with
    | some loc => .ok (dv (-(x - loc)) logsf)
    | none => .error .indexError
  else if i = 0 then
    match phat[1]? with
    | some scale => .ok (some (x + scale * logsf))
    | none => .error .indexError
  else .error .indexError

/-- `/repo/src/wafo/stats/estimation.py` L90-112: `_weibull_min_link`, `phat = [c, loc, scale]`. -/
noncomputable def weibullMinLink : Link := fun x logsf phat i =>
  match phat with
  | [c, loc, scale] =>
    if i = 0 then .ok do
      let num ← lg (-logsf)
      let xn ← dv (x - loc) scale
      let den ← lg xn
      dv num den
    else if i = 1 then .ok do
      let e ← dv 1 c
      let p ← pw (-logsf) e
      some (x - scale * p)
    else if i = 2 then .ok do
      let e ← dv 1 c
      let p ← pw (-logsf) e
      dv (x - loc) p
    else .error .indexError
  | _ => .error .valueError

/-- `/repo/src/wafo/stats/estimation.py` L115-127: `_exponweib_link`,
`phat = [a, c, loc, scale]`. -/
noncomputable def exponweibLink : Link := fun x logsf phat i =>
  match phat with
  | [a, c, loc, scale] =>
    let logCdf : Option ℝ := do return -(← lg (-expm1 logsf))
    let y : Option ℝ := do
      let l ← logCdf
      let e ← dv 1 a
      let p ← pw l e
      return -(← lg1p (-p))
    let z : Option ℝ := do
      let v ← y
      let e ← dv 1 c
      pw v e
    if i = 0 then .ok do
      let l ← logCdf
      let xn ← dv (x - loc) scale
      let p ← pw xn c
      let den ← lg (-expm1 (-p))
      dv (-l) den
    else if i = 1 then .ok do
      let num ← lg (← y)
      let xn ← dv (x - loc) scale
      dv num (← lg xn)
    else if i = 2 then .ok do return x - (← z) * scale
    else if i = 3 then .ok do dv (x - loc) (← z)
    else .error .indexError
  | _ => .error .valueError

/-- `/repo/src/wafo/stats/estimation.py` L67-79: `_burr_link`,
`phat = [c, d, loc, scale]`. -/
noncomputable def burrLink : Link := fun x logsf phat i =>
  match phat with
  | [c, d, loc, scale] =>
    let logCdf : Option ℝ := lg (-expm1 logsf)
    let y : Option ℝ := do
      let l ← logCdf
      let q ← dv (-l) d
      lg1p (-Real.exp q)
    if i = 1 then .ok do
      let l ← logCdf
      let xn ← dv (x - loc) scale
      let p ← pw xn (-c)
      dv (-l) (← lg1p p)
    else if i = 0 then .ok do
      let v ← y
      let xn ← dv (x - loc) scale
      dv v (← lg xn)
    else if i = 2 then .ok do
      let q ← dv (← y) c
      return x - scale * Real.exp q
    else if i = 3 then .ok do
      let q ← dv (← y) c
      return (x - loc) / Real.exp q
    else .error .indexError
  | _ => .error .valueError

/-- `/repo/src/wafo/stats/estimation.py` L130-150: `_genpareto_link`, `phat = [c, loc, scale]`. -/
noncomputable def genparetoLink : Link := fun x logsf phat i =>
  if i = 0 then .error .notImplemented
  else
    match phat with
    | [c, loc, scale] =>
      if c = 0 then exponLink x logsf [loc, scale] (i - 1)
      else if i = 2 then .ok (dv ((x - loc) * c) (expm1 (-c * logsf)))
      else if i = 1 then .ok (some (x + scale * expm1 (c * logsf) / c))
      else .error .indexError
    | _ => .error .valueError

/-- `/repo/src/wafo/stats/estimation.py` L153-160: `_gumbel_r_link`, `phat = [loc, scale]`; the
second branch tests `i == 1` again. -/
noncomputable def gumbelRLink : Link := fun x logsf phat i =>
  match phat with
  | [loc, scale] =>
    let loglogCdf : Option ℝ := do lg (-(← lg (-expm1 logsf)))
    if i = 1 then .ok do dv (-(x - loc)) (← loglogCdf)
    else if i = 1 then .ok do return x + scale * (← loglogCdf)
    else .error .indexError
  | _ => .error .valueError

/-- `/repo/src/wafo/stats/estimation.py` L163-172: `_genextreme_link`, `phat = [c, loc, scale]`. -/
noncomputable def genextremeLink : Link := fun x logsf phat i =>
  if i = 0 then .error .notImplemented
  else
    match phat with
    | [c, loc, scale] =>
      if c = 0 then gumbelRLink x logsf [loc, scale] (i - 1)
      else
        match (do lg (-(← lg (-expm1 logsf))) : Option ℝ) with
        | some l => genparetoLink x l [-c, loc, scale] i
        | none =>
          -- a value that is not finite reaches the branches of `_genpareto_link`
          if i = 2 ∨ i = 1 then .ok none else .error .indexError
    | _ => .error .valueError

/-- `/repo/src/wafo/stats/estimation.py` L175-185: `_genexpon_link`,
`phat = [a, b, c, loc, scale]`. -/
noncomputable def genexponLink : Link := fun x logsf phat i =>
  match phat with
  | [a, b, c, loc, scale] =>
    let fact1 : Option ℝ := do
      let xn ← dv (x - loc) scale
      return xn + (← dv (expm1 (-c * xn)) c)
    if i = 0 then .ok do return b * (← fact1) + logsf
    else if i = 1 then .ok do dv (a - logsf) (← fact1)
    else if i = 2 ∨ i = 3 ∨ i = 4 then .error .notImplemented
    else .error .indexError
  | _ => .error .valueError

/-- `/repo/src/wafo/stats/estimation.py` L188-193: `_rayleigh_link`, `phat = [loc, scale]`. -/
noncomputable def rayleighLink : Link := fun x logsf phat i =>
  if i = 1 then
    match phat[0]? with
    | some loc => .ok do return x - (← dv loc (← sq (-2 * logsf)))
    | none => .error .indexError
  else if i = 0 then
    match phat[1]? with
    | some scale => .ok do return x - scale * (← sq (-2 * logsf))
    | none => .error .indexError
  else .error .indexError

/-- `/repo/src/wafo/stats/estimation.py` L196-205: `_trunclayleigh_link`,
`phat = [c, loc, scale]`. -/
noncomputable def truncrayleighLink : Link := fun x logsf phat i =>
  match phat with
  | [c, loc, scale] =>
    if i = 0 then .ok do
      let xn ← dv (x - loc) scale
      return (← dv (-2 * logsf) xn) - xn / 2
    else if i = 2 then .ok do
      let s ← sq (c * c - 2 * logsf)
      return x - (← dv loc (s - c))
    else if i = 1 then .ok do
      let s ← sq (c * c - 2 * logsf)
      return x - scale * (s - c)
    else .error .indexError
  | _ => .error .valueError

/-- `/repo/src/wafo/stats/estimation.py` L208-218: `LINKS`, used as `LINKS.get(name)` (L750, L865). -/
noncomputable def links (name : String) : Option Link :=
  if name = "expon" then some exponLink
  else if name = "weibull_min" then some weibullMinLink
  else if name = "frechet_r" then some weibullMinLink
  else if name = "genpareto" then some genparetoLink
  else if name = "genexpon" then some genexponLink
  else if name = "gumbel_r" then some gumbelRLink
  else if name = "rayleigh" then some rayleighLink
  else if name = "trunclayleigh" then some truncrayleighLink
  else if name = "genextreme" then some genextremeLink
  else if name = "exponweib" then some exponweibLink
  else if name = "burr" then some burrLink
  else none

end Wafo.Est
