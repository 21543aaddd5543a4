import Verif.Gauss.Spec
import Mathlib.MeasureTheory.Integral.IntegralEqImproper
import Mathlib.MeasureTheory.Integral.IntervalIntegral.FundThmCalculus
import Mathlib.MeasureTheory.Integral.Prod
import Mathlib.Analysis.SpecialFunctions.Gaussian.GaussianIntegral

/-!
# Facts about the standard normal distribution function
-/

set_option linter.unusedSectionVars false

namespace Wafo.Gauss

open MeasureTheory ProbabilityTheory Set Filter Topology

/-- The standard normal density. -/
noncomputable def phi (x : ℝ) : ℝ := (√(2 * Real.pi))⁻¹ * Real.exp (-x ^ 2 / 2)

theorem phi_eq : gaussianPDFReal 0 1 = phi := by
  funext x
  simp [gaussianPDFReal, phi]

theorem phi_pos (x : ℝ) : 0 < phi x := by
  unfold phi; positivity

theorem phi_neg (x : ℝ) : phi (-x) = phi x := by simp [phi]

theorem continuous_phi : Continuous phi := by
  unfold phi; fun_prop

theorem integrable_phi : Integrable phi := by
  rw [← phi_eq]; exact integrable_gaussianPDFReal 0 1

theorem one_ne : (1 : NNReal) ≠ 0 := one_ne_zero

theorem Phi_eq_integral (x : ℝ) : Phi x = ∫ t in Iic x, phi t := by
  unfold Phi Measure.real
  rw [gaussianReal_apply_eq_integral 0 one_ne, phi_eq, ENNReal.toReal_ofReal]
  exact setIntegral_nonneg measurableSet_Iic fun t _ => (phi_pos t).le

theorem Phi_nonneg (x : ℝ) : 0 ≤ Phi x := measureReal_nonneg

theorem Phi_le_one (x : ℝ) : Phi x ≤ 1 := measureReal_le_one

theorem Phi_mono : Monotone Phi := fun _ _ h =>
  measureReal_mono (Iic_subset_Iic.2 h)

theorem hasDerivAt_Phi (x : ℝ) : HasDerivAt Phi (phi x) x := by
  have h : ∀ y, Phi y = Phi 0 + ∫ t in (0 : ℝ)..y, phi t := by
    intro y
    rw [Phi_eq_integral, Phi_eq_integral,
      ← intervalIntegral.integral_Iic_sub_Iic integrable_phi.integrableOn
        integrable_phi.integrableOn]
    ring
  have h2 : HasDerivAt (fun y => Phi 0 + ∫ t in (0 : ℝ)..y, phi t) (phi x) x :=
    (intervalIntegral.integral_hasDerivAt_right
      (continuous_phi.intervalIntegrable _ _)
      (continuous_phi.stronglyMeasurableAtFilter _ _) continuous_phi.continuousAt).const_add _
  exact h2.congr_of_eventuallyEq (Eventually.of_forall h)

theorem continuous_Phi : Continuous Phi :=
  continuous_iff_continuousAt.2 fun x => (hasDerivAt_Phi x).continuousAt

theorem Phi_eq_cdf : Phi = fun x => cdf stdN x := by
  funext x; rw [cdf_eq_real]; rfl

theorem tendsto_Phi_atTop : Tendsto Phi atTop (𝓝 1) := by
  rw [Phi_eq_cdf]; exact tendsto_cdf_atTop _

theorem tendsto_Phi_atBot : Tendsto Phi atBot (𝓝 0) := by
  rw [Phi_eq_cdf]; exact tendsto_cdf_atBot _

theorem Phi_neg (x : ℝ) : Phi (-x) = 1 - Phi x := by
  have h : ∀ y z : ℝ, Phi (-y) + Phi y = Phi (-z) + Phi z := by
    apply is_const_of_deriv_eq_zero
    · intro y
      exact (((hasDerivAt_Phi (-y)).comp y (hasDerivAt_neg y)).add
        (hasDerivAt_Phi y)).differentiableAt
    · intro y
      have := ((hasDerivAt_Phi (-y)).comp y (hasDerivAt_neg y)).add (hasDerivAt_Phi y)
      rw [phi_neg] at this
      have e : phi y * -1 + phi y = 0 := by ring
      rw [e] at this
      exact this.deriv
  have h1 : Tendsto (fun y : ℝ => Phi (-y) + Phi y) atTop (𝓝 (0 + 1)) :=
    (tendsto_Phi_atBot.comp tendsto_neg_atTop_atBot).add tendsto_Phi_atTop
  have h2 : Tendsto (fun y : ℝ => Phi (-y) + Phi y) atTop (𝓝 (Phi (-x) + Phi x)) := by
    have : (fun y : ℝ => Phi (-y) + Phi y) = fun _ => Phi (-x) + Phi x := by
      funext y; exact h y x
    rw [this]; exact tendsto_const_nhds
  have := tendsto_nhds_unique h1 h2
  linarith

theorem Phi_zero : Phi 0 = 1 / 2 := by
  have := Phi_neg 0
  rw [neg_zero] at this
  linarith

theorem Phi_strictMono : StrictMono Phi := by
  apply strictMono_of_deriv_pos
  intro x
  rw [(hasDerivAt_Phi x).deriv]
  exact phi_pos x

theorem Phi_pos (x : ℝ) : 0 < Phi x :=
  lt_of_le_of_lt (Phi_nonneg (x - 1)) (Phi_strictMono (by linarith))

theorem Phi_lt_one (x : ℝ) : Phi x < 1 :=
  lt_of_lt_of_le (Phi_strictMono (show x < x + 1 by linarith)) (Phi_le_one (x + 1))

/-- `0.5 * erfc(-x/√2)` is the standard normal distribution function. -/
theorem erfc_eq_Phi (x : ℝ) : 0.5 * erfc (-x / √2) = Phi x := by
  have h2 : (0 : ℝ) < √2 := by positivity
  have e1 : Phi x = ∫ t in Ioi (-x), phi t := by
    have := integral_comp_neg_Iic x phi
    simp only [phi_neg] at this
    rw [Phi_eq_integral, this]
  have e2 := integral_comp_mul_left_Ioi (fun t => phi t) (-x / √2) h2
  rw [mul_div_cancel₀ _ h2.ne'] at e2
  rw [e1, show (∫ t in Ioi (-x), phi t) = √2 * ∫ t in Ioi (-x / √2), phi (√2 * t) by
    rw [e2, smul_eq_mul, mul_inv_cancel_left₀ h2.ne']]
  have e3 : ∀ t : ℝ, phi (√2 * t) = (√(2 * Real.pi))⁻¹ * Real.exp (-t ^ 2) := by
    intro t
    unfold phi
    congr 2
    rw [mul_pow, Real.sq_sqrt (by norm_num)]
    ring
  simp only [e3, integral_const_mul, erfc]
  rw [Real.sqrt_mul (by norm_num)]
  have hp : (0 : ℝ) < √Real.pi := by positivity
  field_simp
  norm_num

end Wafo.Gauss
