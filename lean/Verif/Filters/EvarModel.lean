import Verif.Dct.Model
import Mathlib.Analysis.SpecialFunctions.Pow.Real

/-!
# `evar`: model for one dimensional data

Source: `/repo/src/wafo/sg_filter/_core.py:186-272`.  Floats are real numbers; `optimize.fminbound` is any function `argmin` from
the score function to a number.
-/

namespace Wafo.Evar

open Finset Dct

/-- `S2` for one dimension (`_core.py:249-258`): note that the code does not square it. -/
noncomputable def S2 (n k : ℕ) : ℝ := 2 * (1 - Real.cos (Real.pi * (k / n)))

/-- `M` (`_core.py:265`, `270`). -/
noncomputable def shrinkage (n : ℕ) (L : ℝ) (k : ℕ) : ℝ := 1 - 1 / (1 + (10 : ℝ) ^ L * S2 n k)

/-- `noisevar` (`_core.py:266`, `271`). -/
noncomputable def noisevar (n : ℕ) (y : ℕ → ℝ) (L : ℝ) : ℝ :=
  (∑ k ∈ range n, dct1 n y k ^ 2 * shrinkage n L k ^ 2) / n

/-- `score_fun` (`_core.py:263-267`). -/
noncomputable def score (n : ℕ) (y : ℕ → ℝ) (L : ℝ) : ℝ :=
  noisevar n y L / ((∑ k ∈ range n, shrinkage n L k) / n) ^ 2

/-- `evar` (`_core.py:186-272`). -/
noncomputable def evar (argmin : (ℝ → ℝ) → ℝ) (n : ℕ) (y : ℕ → ℝ) : ℝ := noisevar n y (argmin (score n y))

end Wafo.Evar
