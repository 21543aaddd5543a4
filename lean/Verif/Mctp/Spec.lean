import Mathlib.Data.Real.Basic
import Mathlib.Algebra.BigOperators.Intervals

/-!
# Excursions of a Markov chain of turning points

`f r c` is the rate of a minimum in class `c` followed by a maximum in class `r`, `g r c` that of a maximum in class `r`
followed by a minimum in class `c`.  An excursion through the block of the maxima in `I` and the minima in `J`
comes from a minimum outside `J` to a maximum in `I`, goes to and fro within the block, and ends with a minimum
in `J` followed by a maximum outside `I`.
-/

noncomputable section

namespace Wafo.Mctp

/-- The rate of maxima in class `r`. -/
def maxima (N : ℕ) (f : ℕ → ℕ → ℝ) (r : ℕ) : ℝ := ∑ c ∈ Finset.range N, f r c
/-- The rate of minima in class `c`. -/
def minima (N : ℕ) (f : ℕ → ℕ → ℝ) (c : ℕ) : ℝ := ∑ r ∈ Finset.range N, f r c

/-- The probability that from a maximum in class `r` the chain goes to a minimum in `J` and back to a maximum in `I`, `n`
times, then to a minimum in `J` and then to a maximum outside `I`. -/
def leave (N : ℕ) (f g : ℕ → ℕ → ℝ) (I J : Finset ℕ) : ℕ → ℕ → ℝ
  | 0, r => ∑ c ∈ J, g r c / maxima N f r * ((minima N f c - ∑ r' ∈ I, f r' c) / minima N f c)
  | n + 1, r => ∑ c ∈ J, g r c / maxima N f r * ∑ r' ∈ I, f r' c / minima N f c * leave N f g I J n r'

/-- The rate of the excursions through the block which have `n` cycles inside. -/
def excursions (N : ℕ) (f g : ℕ → ℕ → ℝ) (I J : Finset ℕ) (n : ℕ) : ℝ :=
  ∑ r ∈ I, (maxima N f r - ∑ c ∈ J, f r c) * leave N f g I J n r

/-- The sum over a block. -/
def block (R : ℕ → ℕ → ℝ) (I J : Finset ℕ) : ℝ := ∑ r ∈ I, ∑ c ∈ J, R r c

/-- The rates `f r c` of a minimum in class `c` followed by a maximum in class `r`, and `g r c` of a maximum in class `r`
followed by a minimum in class `c`: no class of maxima is left more often than it is entered. -/
structure Rates (N : ℕ) (f g : ℕ → ℕ → ℝ) : Prop where
  f_nonneg : ∀ r c, 0 ≤ f r c
  g_nonneg : ∀ r c, 0 ≤ g r c
  maxima_le : ∀ r, r < N → ∑ c ∈ Finset.range N, g r c ≤ ∑ c ∈ Finset.range N, f r c

/-- The rate of maxima in class `r` which follow a minimum outside `J`. -/
def enter (N : ℕ) (f : ℕ → ℕ → ℝ) (J : Finset ℕ) (r : ℕ) : ℝ := maxima N f r - ∑ c ∈ J, f r c
/-- The probability that a minimum in class `c` is followed by a maximum outside `I`. -/
def exit (N : ℕ) (f : ℕ → ℕ → ℝ) (I : Finset ℕ) (c : ℕ) : ℝ := (minima N f c - ∑ r ∈ I, f r c) / minima N f c

end Wafo.Mctp
