import Mathlib.MeasureTheory.Measure.WithDensity
import Mathlib.MeasureTheory.Measure.Lebesgue.Basic

/-!
# What it means for a random number to have a density
-/

namespace Wafo.Dist

open MeasureTheory Set

/-- The law `μ` of a random number has the density `pdf` on `I` and no mass elsewhere. -/
def HasLaw (μ : Measure ℝ) (I : Set ℝ) (pdf : ℝ → ℝ) : Prop :=
  μ = (volume.restrict I).withDensity fun x => ENNReal.ofReal (pdf x)

/-- The law of a uniform random number. -/
noncomputable def uniformLaw : Measure ℝ := volume.restrict (Ioo 0 1)

end Wafo.Dist
