import Mathlib.Analysis.SpecialFunctions.Pow.Real

/-!
# The number of successes in independent trials

The law of the number of successes, as the sum over all outcomes of the trials.
-/

noncomputable section

namespace Wafo.Pbinom

/-- The probability of the outcome `w` of independent trials with success probabilities `ps`. -/
def weight (ps : List ℝ) (w : Fin ps.length → Bool) : ℝ :=
  ∏ i, if w i then ps.get i else 1 - ps.get i

/-- The number of successes. -/
def ones {n : ℕ} (w : Fin n → Bool) : ℕ := ∑ i, if w i then 1 else 0

/-- The probability of an event about the number of successes. -/
def prob (ps : List ℝ) (P : ℕ → Prop) [DecidablePred P] : ℝ :=
  ∑ w, if P (ones w) then weight ps w else 0

/-- The expected value of a function of the number of successes. -/
def expect (ps : List ℝ) (f : ℕ → ℝ) : ℝ := ∑ w, weight ps w * f (ones w)

end Wafo.Pbinom
