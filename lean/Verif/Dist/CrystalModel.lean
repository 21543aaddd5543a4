import Verif.Dist.NormModel
import Verif.Dist.GammaModel
import Verif.Dist.MomSpec

/-!
# Moments of the crystal ball distribution

stats/_continuous_distns.py:8181-8205.  The vectorisation over `n` (`np.vectorize`) is left out; `inf` of
`Val` is numpy's positive infinity.
-/

noncomputable section

namespace Wafo.Dist

open Real

namespace CrystalBall

/-- `n_th_moment`, stats/_continuous_distns.py:8188-8201 -/
def nthMoment (n : ℕ) (beta m : ℝ) : ℝ :=
  let A := (m / beta) ^ m * exp (-beta ^ 2 / 2)
  let B := m / beta - beta
  let rhs := 2 ^ (((n : ℝ) - 1) / 2) * Gamma (((n : ℝ) + 1) / 2) *
    (1 + (-1) ^ n * gammainc (((n : ℝ) + 1) / 2) (beta ^ 2 / 2))
  let lhs := ∑ k ∈ Finset.range (n + 1),
    (n.choose k : ℝ) * B ^ (n - k) * (-1) ^ k / (m - k - 1) * (m / beta) ^ (-m + k + 1)
  A * lhs + rhs

/-- `_munp`, stats/_continuous_distns.py:8181-8205 -/
def munp (n : ℕ) (beta m : ℝ) : Val :=
  if (n : ℝ) + 1 < m then .fin (N beta m * nthMoment n beta m) else .inf

end CrystalBall

end Wafo.Dist
