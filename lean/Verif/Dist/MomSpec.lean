import Mathlib.MeasureTheory.Integral.Bochner.Set
import Mathlib.MeasureTheory.Measure.Lebesgue.Basic
import Mathlib.Analysis.SpecialFunctions.Pow.Real
import Mathlib.Analysis.SpecialFunctions.Log.Basic

/-!
# What it means for reported moments and entropies to be those of a density

`_stats` of a distribution class returns mean, variance, skewness and excess kurtosis, `_munp` the
raw moments and `_entropy` the differential entropy.  The specification gives their meaning as
integrals over the support `I` of the density `f`.
-/

namespace Wafo.Dist

open MeasureTheory Set

/-- The `n`-th raw moment of the density `f` on `I` exists and is `m`. -/
def HasMoment (I : Set ℝ) (f : ℝ → ℝ) (n : ℕ) (m : ℝ) : Prop :=
  IntegrableOn (fun x => x ^ n * f x) I ∧ ∫ x in I, x ^ n * f x = m

/-- The density `f` on `I` has no `n`-th moment: the integral does not converge absolutely. -/
def NoMoment (I : Set ℝ) (f : ℝ → ℝ) (n : ℕ) : Prop :=
  ¬ IntegrableOn (fun x => x ^ n * f x) I

/-- The variance of the density `f` on `I` exists and is `v`. -/
def HasVar (I : Set ℝ) (f : ℝ → ℝ) (v : ℝ) : Prop :=
  ∃ m, HasMoment I f 1 m ∧ IntegrableOn (fun x => (x - m) ^ 2 * f x) I ∧
    ∫ x in I, (x - m) ^ 2 * f x = v ∧ 0 < v

/-- The skewness of the density `f` on `I` exists and is `g`. -/
def HasSkew (I : Set ℝ) (f : ℝ → ℝ) (g : ℝ) : Prop :=
  ∃ m v, HasMoment I f 1 m ∧ HasVar I f v ∧ IntegrableOn (fun x => (x - m) ^ 3 * f x) I ∧
    g = (∫ x in I, (x - m) ^ 3 * f x) / v ^ (3 / 2 : ℝ)

/-- The excess kurtosis of the density `f` on `I` exists and is `g`. -/
def HasKurt (I : Set ℝ) (f : ℝ → ℝ) (g : ℝ) : Prop :=
  ∃ m v, HasMoment I f 1 m ∧ HasVar I f v ∧ IntegrableOn (fun x => (x - m) ^ 4 * f x) I ∧
    g = (∫ x in I, (x - m) ^ 4 * f x) / v ^ 2 - 3

/-- `s` lists the mean, the variance, the skewness and the excess kurtosis of the density `f`. -/
structure HasStats (I : Set ℝ) (f : ℝ → ℝ) (s : ℝ × ℝ × ℝ × ℝ) : Prop where
  mean : HasMoment I f 1 s.1
  var : HasVar I f s.2.1
  skew : HasSkew I f s.2.2.1
  kurt : HasKurt I f s.2.2.2

/-- The entropy of the density `f` on `I` exists and is `h`. -/
def HasEntropy (I : Set ℝ) (f : ℝ → ℝ) (h : ℝ) : Prop :=
  IntegrableOn (fun x => f x * Real.log (f x)) I ∧ -∫ x in I, f x * Real.log (f x) = h

/-- A number as numpy has it. -/
inductive Val where
  | fin (x : ℝ)
  | inf
  | nan

/-- A statistic is reported as a finite number when it is one, and as infinite or undefined when the
moment behind it does not exist. -/
def Reports (P : ℝ → Prop) (Q : Prop) : Val → Prop
  | .fin x => P x
  | .inf => Q
  | .nan => Q

/-- As `HasStats` for statistics which need not exist. -/
structure HasStats? (I : Set ℝ) (f : ℝ → ℝ) (s : Val × Val × Val × Val) : Prop where
  mean : Reports (HasMoment I f 1) (NoMoment I f 1) s.1
  var : Reports (HasVar I f) (NoMoment I f 2) s.2.1
  skew : Reports (HasSkew I f) (NoMoment I f 3) s.2.2.1
  kurt : Reports (HasKurt I f) (NoMoment I f 4) s.2.2.2

end Wafo.Dist
