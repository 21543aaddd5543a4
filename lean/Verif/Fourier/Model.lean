import Mathlib.Analysis.SpecialFunctions.Trigonometric.Basic
import Verif.Basic
import Verif.Plot.Model

/-!
Model of `fourier` of misc.py (one signal, method 'trapz') and of `num2pistr`.
-/

namespace Wafo.Fourier

/-- The array `t` of times: its values and whether it is one-dimensional (shape `(n,)`) or a row (shape `(1, n)`). -/
structure Times where
  vals : List ℝ
  flat : Bool

/-- `period = t[-1] - t[0] if period is None else period`, misc.py L2892.  For a row `t[-1]` and `t[0]` are the same row: the period is zero.  Without values
the subscript of a one-dimensional array is an IndexError. -/
noncomputable def periodOf (t : Times) (period : Option ℝ) : Except PyErr ℝ :=
  match period with
  | some p => .ok p
  | none =>
    if t.flat then
      match t.vals.getLast?, t.vals.head? with
      | some b, some a => .ok (b - a)
      | _, _ => .error .indexError
    else .ok 0

/-- The coefficients `(a[i], b[i])`, misc.py L2896-2908.  Division by a period zero gives nan in `tmp`, and nan in all coefficients but the first. -/
noncomputable def coefs (x t : List ℝ) (period : ℝ) (i : ℕ) : Option (ℝ × ℝ) :=
  if i = 0 then some (Plot.trapz x t / Real.pi, 0)
  else if period = 0 then none
  else
    let tmp := t.map fun v => 2 * Real.pi * v / period
    some (Plot.trapz (List.zipWith (fun x v => x * Real.cos ((i : ℝ) * v)) x tmp) t / Real.pi,
      Plot.trapz (List.zipWith (fun x v => x * Real.sin ((i : ℝ) * v)) x tmp) t / Real.pi)

/-- `fourier(data, t, period, m)`, misc.py L2886-2908, for one signal: the coefficients, and the array `t` after the call (`np.atleast_1d` returns the array of the caller, and `t.shape = (1, -1)`
changes it in place).  Simplification: times and data of different lengths are a ValueError (numpy accepts some with a length of 2). -/
noncomputable def fourier (x : List ℝ) (t : Times) (period : Option ℝ) (m : Option ℕ) : Except PyErr (List (Option (ℝ × ℝ))) × Times :=
  let m := m.getD x.length
  match periodOf t period with
  | .error e => (.error e, t)
  | .ok p =>
    let t' : Times := ⟨t.vals, false⟩
    if m = 0 then (.error .indexError, t')
    else if x.length ≠ t.vals.length then (.error .valueError, t')
    else (.ok ((List.range m).map fun i => coefs x t.vals p i), t')

/-- `np.arange(n)`, the default for `t`, misc.py L2888. -/
noncomputable def arangeT (n : ℕ) : Times := ⟨(List.range n).map fun k : ℕ => (k : ℝ), true⟩

/-- `_numerator_text(num)`, misc.py L2819-2822. -/
def numText (num : ℤ) : String := if num.natAbs = 1 then (if num = -1 then "-" else "") else toString num

/-- `_denominator_text(den)`, misc.py L2816-2817. -/
def denText (den : ℕ) : String := if den = 1 then "" else "/" ++ toString den

/-- `num2pistr(x, n, numerator_max, denominator_max)`, misc.py L2816-2829; `q` is the fraction found for `x / pi`, `fallback` the number formatted with `n` digits. -/
def num2pistr (q : ℚ) (fallback : String) (nmax dmax : ℤ) : String :=
  if (q.den : ℤ) < dmax ∧ q.num < nmax ∧ q.num ≠ 0 then numText q.num ++ "\\pi" ++ denText q.den else fallback

end Wafo.Fourier
