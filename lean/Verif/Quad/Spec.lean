import Mathlib.MeasureTheory.Integral.IntervalIntegral.Basic
import Mathlib.Analysis.SpecialFunctions.Pow.Real
import Mathlib.Algebra.Polynomial.Eval.Defs
import Mathlib.Algebra.Polynomial.Degree.Defs
import Mathlib.Analysis.SpecialFunctions.Gamma.Basic
import Verif.Quad.Model

/-! The integrals that `qrule` and `gaussq` are documented to approximate. -/

namespace Wafo.Quad

open Polynomial Real MeasureTheory

/-- The table of the docstrings (integrate.py L779-788 and L856-865): the integral of `f` with the
weight function number `wfun`, between `a` and `b` (fixed limits for `wfun` 2 and 3). -/
noncomputable def target (wfun : ℕ) (a b α β : ℝ) (f : ℝ → ℝ) : ℝ :=
  match wfun with
  | 1 => ∫ x in a..b, f x
  | 2 => ∫ x : ℝ, f x * exp (-x ^ 2)
  | 3 => ∫ x in Set.Ioi (0 : ℝ), f x * x ^ α * exp (-x)
  | 4 => ∫ x in a..b, f x * ((x - a) ^ α * (b - x) ^ β)
  | 5 => ∫ x in a..b, f x / √((x - a) * (b - x))
  | 6 => ∫ x in a..b, f x * √((x - a) * (b - x))
  | 7 => ∫ x in a..b, f x * √((x - a) / (b - x))
  | 8 => ∫ x in a..b, f x / √(b - x)
  | 9 => ∫ x in a..b, f x * √(b - x)
  | _ => 0

/-- The interval on which `qrule` works: `[0, 1]` for the last three, otherwise `[-1, 1]`. -/
def refA (wfun : ℕ) : ℝ := if wfun = 7 ∨ wfun = 8 ∨ wfun = 9 then 0 else -1

/-- The rule integrates polynomials of degree less than `d` exactly on the reference interval. -/
def ExactRule (wfun : ℕ) (α β : ℝ) (r : List (ℝ × ℝ)) (d : ℕ) : Prop :=
  ∀ Q : ℝ[X], Q.degree < (d : ℕ) →
    applyRule r (fun t => Q.eval t) = target wfun (refA wfun) 1 α β (fun t => Q.eval t)

end Wafo.Quad
