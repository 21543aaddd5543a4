import Verif.Cheb.Model
import Mathlib.Analysis.SpecialFunctions.Trigonometric.Basic

/-!
Model of the Chebyshev nodes and of `chebfit` of `/repo/src/wafo/polynomial.py` over the real numbers.
-/

namespace Wafo.Cheb

open Wafo.Poly

/-- `chebroot(n, kind)`, polynomial.py L1064-1101. -/
noncomputable def chebroot (n : ℕ) (kind : ℕ) : Except PyErr (List ℝ) :=
  if kind = 1 ∨ kind = 2 then
    .ok ((List.range n).map (fun i : ℕ => -Real.cos (Real.pi * ((i : ℝ) + (kind : ℝ) / 2) / ((n : ℝ) + kind - 1))))
  else .error .valueError

/-- `chebextr(n)`, L1029-1061 (`n = 0` divides by zero). -/
noncomputable def chebextr (n : ℕ) : List ℝ :=
  (List.range (n + 1)).map (fun i : ℕ => -Real.cos (Real.pi * (i : ℝ) / (n : ℝ)))

/-- `scipy.fftpack.dct(f)` (type II, not normalised). -/
noncomputable def dct (f : List ℝ) : List ℝ :=
  (List.range f.length).map (fun k : ℕ =>
    2 * ((List.range f.length).map (fun j : ℕ =>
      f.getD j 0 * Real.cos (Real.pi * (k : ℝ) * (2 * (j : ℝ) + 1) / (2 * (f.length : ℝ))))).sum)

/-- `chebfit(f)` for the values `f` at the nodes, L1227-1240: `ck = dct(f[::-1]) / n; ck[0] /= 2; return ck[::-1]`; an empty
array raises IndexError at `ck[0]`. -/
noncomputable def chebfitVals (f : List ℝ) : Except PyErr (List ℝ) :=
  if f = [] then .error .indexError
  else
    let ck := (dct f.reverse).map (fun v => v / (f.length : ℝ))
    .ok (ck.set 0 (ck.getD 0 0 / 2)).reverse

/-- `chebfit(fun, n, a, b)` for a callable, L1223-1240. -/
noncomputable def chebfit (fn : ℝ → ℝ) (n : ℕ) (a b : ℝ) : Except PyErr (List ℝ) :=
  match chebroot n 1 with
  | .error e => .error e
  | .ok x => chebfitVals (x.map (fun t => fn (mapToInterval t a b)))

/-- `poly2cheb(p, a, b)`, L913-964: `n = len(poly1d(p).coeffs)`. -/
noncomputable def poly2cheb (p : List ℝ) (a b : ℝ) : Except PyErr (List ℝ) := by
  classical exact chebfit (peval p) (trim1 p).length a b

end Wafo.Cheb
