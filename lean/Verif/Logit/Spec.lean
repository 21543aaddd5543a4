import Mathlib.Analysis.SpecialFunctions.Log.Basic
import Mathlib.Data.Finset.Card
import Mathlib.Data.Fintype.Basic
import Mathlib.Algebra.BigOperators.Fin

/-! The ordinal logistic regression model, independent of the code. -/

namespace Wafo.Logit

open Finset

/-- The rank of the category of an observation: the number of observed categories below it. -/
def cat {n : ℕ} (y : Fin n → ℤ) (i : Fin n) : ℕ := ((univ.image y).filter fun v => v < y i).card

/-- The probability of one of the first `k` of `m + 1` categories when the linear predictor is `s`: the logistic
distribution function at `theta_k + s`. -/
noncomputable def cum {m : ℕ} (theta : Fin m → ℝ) (s : ℝ) (k : ℕ) : ℝ :=
  if k = 0 then 0 else if h : k - 1 < m then 1 / (1 + Real.exp (-(theta ⟨k - 1, h⟩ + s))) else 1

/-- The probability of category `k` (counted from 0). -/
noncomputable def catProb {m : ℕ} (theta : Fin m → ℝ) (s : ℝ) (k : ℕ) : ℝ := cum theta s (k + 1) - cum theta s k

/-- The log-likelihood of observed categories with covariates. -/
noncomputable def logLik {n m q : ℕ} (y : Fin n → ℤ) (x : Fin n → Fin q → ℝ) (theta : Fin m → ℝ) (beta : Fin q → ℝ) : ℝ :=
  ∑ i, Real.log (catProb theta (∑ k, x i k * beta k) (cat y i))

end Wafo.Logit
