import Mathlib.MeasureTheory.Integral.IntervalIntegral.Basic
import Mathlib.Analysis.Calculus.Deriv.Basic

/-! Specification of the smoothing spline, independent of the model. -/

namespace Wafo.Spline

open MeasureTheory

/-- `f` is twice continuously differentiable on `[a, b]` with derivatives `f1` and `f2`. -/
structure Smooth (a b : ℝ) (f f1 f2 : ℝ → ℝ) : Prop where
  d1 : ∀ t ∈ Set.Icc a b, HasDerivWithinAt f (f1 t) (Set.Icc a b) t
  d2 : ∀ t ∈ Set.Icc a b, HasDerivWithinAt f1 (f2 t) (Set.Icc a b) t
  cont : ContinuousOn f2 (Set.Icc a b)

/-- Sum of the squared distances from the data, each divided by the variance of the point. -/
noncomputable def misfit (n : ℕ) (x y v : ℕ → ℝ) (f : ℝ → ℝ) : ℝ :=
  ∑ i ∈ Finset.range n, (y i - f (x i)) ^ 2 / v i

/-- Integrated squared second derivative. -/
noncomputable def rough (a b : ℝ) (f2 : ℝ → ℝ) : ℝ := ∫ t in a..b, f2 t ^ 2

/-- What the smoothing parameter `p` weighs against each other. -/
noncomputable def cost (p : ℝ) (n : ℕ) (x y v : ℕ → ℝ) (f f2 : ℝ → ℝ) : ℝ :=
  p * misfit n x y v f + (1 - p) * rough (x 0) (x (n - 1)) f2

/-- `S` is the cubic smoothing spline of the points `(x i, y i)`, `i < n`, with variances `v i` and smoothing
parameter `p`; `S1` and `S2` are its derivatives. -/
structure SmoothingSpline (p : ℝ) (n : ℕ) (x y v : ℕ → ℝ) (S S1 S2 : ℝ → ℝ) : Prop where
  d1 : ∀ t, HasDerivAt S (S1 t) t
  d2 : ∀ t, HasDerivAt S1 (S2 t) t
  cont : Continuous S2
  /-- straight lines outside -/
  natural : ∀ t, t ≤ x 0 ∨ x (n - 1) ≤ t → S2 t = 0
  /-- no twice continuously differentiable function costs less … -/
  least : ∀ g g1 g2, Smooth (x 0) (x (n - 1)) g g1 g2 → cost p n x y v S S2 ≤ cost p n x y v g g2
  /-- … and for `0 < p < 1` no other costs as little -/
  unique : 0 < p → p < 1 → ∀ g g1 g2, Smooth (x 0) (x (n - 1)) g g1 g2 → cost p n x y v g g2 ≤ cost p n x y v S S2 →
    ∀ t ∈ Set.Icc (x 0) (x (n - 1)), g t = S t
  /-- `p = 1`: the only interpolating function with the least roughness -/
  interp : p = 1 → (∀ i, i < n → S (x i) = y i) ∧
    ∀ g g1 g2, Smooth (x 0) (x (n - 1)) g g1 g2 → (∀ i, i < n → g (x i) = y i) →
      rough (x 0) (x (n - 1)) S2 ≤ rough (x 0) (x (n - 1)) g2 ∧
      (rough (x 0) (x (n - 1)) g2 ≤ rough (x 0) (x (n - 1)) S2 → ∀ t ∈ Set.Icc (x 0) (x (n - 1)), g t = S t)
  /-- `p = 0`: the straight line of the weighted least squares -/
  line : p = 0 → (∃ A B, ∀ t, S t = A + B * t) ∧
    ∀ A B, misfit n x y v S ≤ misfit n x y v (fun t => A + B * t) ∧
      (misfit n x y v (fun t => A + B * t) ≤ misfit n x y v S → ∀ t, S t = A + B * t)

/-- The data as functions of the index. -/
noncomputable def at' (l : List ℝ) (i : ℕ) : ℝ := l.getD i 0

/-- One variance for all points, or one for each. -/
noncomputable def var' (l : List ℝ) (i : ℕ) : ℝ := if l.length = 1 then l.getD 0 0 else l.getD i 0

/-- The parameter used when the caller gives none: between the second differences of the data and the distances
of the points. -/
noncomputable def defaultP (n : ℕ) (x v : ℕ → ℝ) : ℝ :=
  1 / (1 + (∑ j ∈ Finset.range (n - 2), (v j / (x (j + 1) - x j) ^ 2 +
      v (j + 1) * (1 / (x (j + 1) - x j) + 1 / (x (j + 2) - x (j + 1))) ^ 2 + v (j + 2) / (x (j + 2) - x (j + 1)) ^ 2)) /
    (100 * (∑ j ∈ Finset.range (n - 2), 2 * (x (j + 2) - x j)) ^ 2))

open Classical in
/-- The parameter given by the caller if it is one, otherwise the default. -/
noncomputable def effectiveP (p : Option ℝ) (n : ℕ) (x v : ℕ → ℝ) : ℝ :=
  match p with
  | some p => if 0 ≤ p ∧ p ≤ 1 then p else defaultP n x v
  | none => defaultP n x v

end Wafo.Spline
