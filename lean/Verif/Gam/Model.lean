import Mathlib.Analysis.SpecialFunctions.Gamma.Basic
import Mathlib.Analysis.SpecialFunctions.Log.Basic
import Mathlib.Data.EReal.Basic

/-!
Model of `stirlerr`, `binomln`, `_betaln3` and `betaloge` of misc.py, for scalar arguments (the array versions act element by element).  `gammaln` and `betaln`
of scipy are exact; the decimal constants `S0, ..., S4` are the fractions of their comments (they agree to 22 digits); nan is `none`.
-/

namespace Wafo.Gam

/-- `gammaln(x)` of scipy. -/
noncomputable def gammaln (x : ℝ) : ℝ := Real.log (Real.Gamma x)

/-- `stirlerr(n)`, misc.py L1875-1904; not positive arguments give inf or nan in the first formula, here `none`. -/
noncomputable def stirlerr (n : ℝ) : Option ℝ :=
  let nn := n * n
  if n ≤ 0 then none
  else if 500 < n then some ((1 / 12 - 1 / 360 / nn) / n)
  else if 80 < n ∧ n ≤ 500 then some ((1 / 12 - (1 / 360 - 1 / 1260 / nn) / nn) / n)
  else if 35 < n ∧ n ≤ 80 then some ((1 / 12 - (1 / 360 - (1 / 1260 - 1 / 1680 / nn) / nn) / nn) / n)
  else if 15 < n ∧ n ≤ 35 then some ((1 / 12 - (1 / 360 - (1 / 1260 - (1 / 1680 - 1 / 1188 / nn) / nn) / nn) / nn) / n)
  else some (gammaln (n + 1) - Real.log (Real.sqrt (2 * Real.pi * n) * (n / Real.exp 1) ^ n))

/-- `_betaln3(a, b)`, misc.py L2070-2073. -/
noncomputable def betaln3 (a b : ℝ) : Option ℝ :=
  let apb := a + b
  match stirlerr a, stirlerr b, stirlerr apb with
  | some ea, some eb, some eab =>
    let corr := ea + eb - eab
    some (-(1 / 2) * Real.log b + 1 / 2 * Real.log (2 * Real.pi) + corr + (a - 1 / 2) * Real.log (a / apb) + b * Real.log (1 + -a / apb))
  | _, _, _ => none

/-- `betaln(a, b)` of scipy for positive arguments. -/
noncomputable def betaln (a b : ℝ) : ℝ := gammaln a + gammaln b - gammaln (a + b)

/-- `betaloge(z, w)`, misc.py L2105-2119; `huge` is the largest float. -/
noncomputable def betaloge (huge z w : ℝ) : Option EReal :=
  let a := min z w
  let b := max z w
  if a = 0 then some ⊤
  else if 0 < a ∧ huge ≤ b then some ⊥
  else if 10 ≤ a ∧ b < huge then (betaln3 a b).map fun v => (v : EReal)
  else if 0 < a ∧ a < 10 ∧ b < huge then some ((betaln a b : ℝ) : EReal)
  else none

/-- `binomln(z, w)`, misc.py L2046-2062. -/
noncomputable def binomln (huge z w : ℝ) : Option EReal :=
  let zmw := z - w
  let k := if zmw < 2 then zmw else w
  if k < 0 then some ⊥
  else if k = 0 then some 0
  else if k = 1 then some ((Real.log z : ℝ) : EReal)
  else (betaloge huge (z - k + 1) (k + 1)).map fun v => ((-Real.log (z + 1) : ℝ) : EReal) - v

end Wafo.Gam
