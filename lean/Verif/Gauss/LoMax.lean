import Verif.Gauss.Model
import Verif.Gauss.Plackett

/-!
# The distribution of local maxima (property C227)
-/

set_option linter.unusedSectionVars false

namespace Wafo.Gauss

open MeasureTheory ProbabilityTheory Set Filter Topology

theorem tendsto_exp_sq : Tendsto (fun t : ℝ => Real.exp (-t ^ 2 / 2)) atTop (𝓝 0) := by
  have h : Tendsto (fun t : ℝ => -t ^ 2 / 2) atTop atBot := by
    have := tendsto_neg_atTop_atBot.comp ((tendsto_pow_atTop (α := ℝ) two_ne_zero).atTop_div_const
      (show (0 : ℝ) < 2 by norm_num))
    refine this.congr fun t => ?_
    simp [neg_div]
  exact Real.tendsto_exp_atBot.comp h

theorem hasDerivAt_exp_sq (t : ℝ) :
    HasDerivAt (fun t : ℝ => Real.exp (-t ^ 2 / 2)) (-(t * Real.exp (-t ^ 2 / 2))) t := by
  have h : HasDerivAt (fun t : ℝ => -t ^ 2 / 2) (-t) t := by
    refine (((hasDerivAt_pow 2 t).neg).div_const 2).congr_deriv ?_
    push_cast
    ring
  exact h.exp.congr_deriv (by ring)

theorem integral_rayleigh (f : ℝ → ℝ) :
    ∫ t, f t ∂rayleigh = ∫ t in Ioi (0 : ℝ), t * Real.exp (-t ^ 2 / 2) * f t := by
  unfold rayleigh
  rw [integral_withDensity_eq_integral_toReal_smul (by fun_prop)
    (Eventually.of_forall fun _ => ENNReal.ofReal_lt_top)]
  refine setIntegral_congr_fun measurableSet_Ioi fun t ht => ?_
  have ht' : (0 : ℝ) < t := ht
  simp only [smul_eq_mul]
  rw [ENNReal.toReal_ofReal (by positivity)]

/-- The Rayleigh law is a probability law. -/
theorem rayleigh_univ : rayleigh univ = 1 := by
  have h1 : ∫ t in Ioi (0 : ℝ), t * Real.exp (-t ^ 2 / 2) = 1 := by
    have := integral_Ioi_of_hasDerivAt_of_nonneg' (a := 0) (g := fun t => -Real.exp (-t ^ 2 / 2))
      (g' := fun t => t * Real.exp (-t ^ 2 / 2)) (l := 0)
      (fun t _ => (hasDerivAt_exp_sq t).neg.congr_deriv (by ring))
      (fun t ht => mul_nonneg (le_of_lt ht) (Real.exp_pos _).le)
      (by simpa using tendsto_exp_sq.neg)
    rw [this]; simp
  have h2 : IntegrableOn (fun t : ℝ => t * Real.exp (-t ^ 2 / 2)) (Ioi 0) :=
    integrableOn_Ioi_deriv_of_nonneg' (g := fun t => -Real.exp (-t ^ 2 / 2)) (l := 0)
      (fun t _ => (hasDerivAt_exp_sq t).neg.congr_deriv (by ring))
      (fun t ht => mul_nonneg (le_of_lt ht) (Real.exp_pos _).le)
      (by simpa using tendsto_exp_sq.neg)
  unfold rayleigh
  rw [withDensity_apply _ MeasurableSet.univ, Measure.restrict_univ,
    ← ofReal_integral_eq_lintegral_ofReal h2, h1, ENNReal.ofReal_one]
  filter_upwards [self_mem_ae_restrict measurableSet_Ioi] with t ht
  exact mul_nonneg (le_of_lt ht) (Real.exp_pos _).le

theorem locMax_integral (y alpha : ℝ) (ha : |alpha| < 1) :
    ∫ t in Ioi (0 : ℝ), t * Real.exp (-t ^ 2 / 2) * Phi ((y - alpha * t) / √(1 - alpha ^ 2)) =
      Phi (y / √(1 - alpha ^ 2)) -
        alpha * Real.exp (-y ^ 2 / 2) * Phi (alpha * (y / √(1 - alpha ^ 2))) := by
  have h1 := one_sub_sq_pos ha
  set s := √(1 - alpha ^ 2) with hsdef
  have hs : 0 < s := Real.sqrt_pos.2 h1
  have hs2 : s ^ 2 = 1 - alpha ^ 2 := Real.sq_sqrt h1.le
  have hd : ∀ t ∈ Ici (0 : ℝ), HasDerivAt
      (fun t => -(Real.exp (-t ^ 2 / 2) * Phi ((y - alpha * t) / s)) -
        alpha * Real.exp (-y ^ 2 / 2) * Phi ((t - alpha * y) / s))
      (t * Real.exp (-t ^ 2 / 2) * Phi ((y - alpha * t) / s)) t := by
    intro t _
    have d1 : HasDerivAt (fun t : ℝ => (y - alpha * t) / s) (-alpha / s) t := by
      refine ((((hasDerivAt_id t).const_mul alpha).const_sub y).div_const s).congr_deriv ?_
      ring
    have d2 : HasDerivAt (fun t : ℝ => (t - alpha * y) / s) (1 / s) t :=
      ((hasDerivAt_id t).sub_const (alpha * y)).div_const s
    have d3 := ((hasDerivAt_exp_sq t).mul ((hasDerivAt_Phi _).comp t d1)).neg.sub
      (((hasDerivAt_Phi _).comp t d2).const_mul (alpha * Real.exp (-y ^ 2 / 2)))
    refine d3.congr_deriv ?_
    have e : Real.exp (-t ^ 2 / 2) * phi ((y - alpha * t) / s) =
        Real.exp (-y ^ 2 / 2) * phi ((t - alpha * y) / s) := by
      unfold phi
      rw [mul_left_comm, mul_left_comm (Real.exp (-y ^ 2 / 2)), ← Real.exp_add, ← Real.exp_add]
      congr 2
      rw [div_pow, div_pow, hs2]
      field_simp
      ring
    have e2 : Real.exp (-t ^ 2 / 2) * (phi ((y - alpha * t) / s) * (-alpha / s)) =
        -(alpha * Real.exp (-y ^ 2 / 2) * (phi ((t - alpha * y) / s) * (1 / s))) := by
      linear_combination (-alpha / s) * e
    simp only [Function.comp]
    linear_combination -e2
  have hlim : Tendsto (fun t => -(Real.exp (-t ^ 2 / 2) * Phi ((y - alpha * t) / s)) -
      alpha * Real.exp (-y ^ 2 / 2) * Phi ((t - alpha * y) / s)) atTop
      (𝓝 (-0 - alpha * Real.exp (-y ^ 2 / 2) * 1)) := by
    refine Tendsto.sub (Tendsto.neg ?_) (Tendsto.const_mul _ ?_)
    · refine squeeze_zero (fun t => mul_nonneg (Real.exp_pos _).le (Phi_nonneg _))
        (fun t => mul_le_of_le_one_right (Real.exp_pos _).le (Phi_le_one _)) tendsto_exp_sq
    · refine tendsto_Phi_atTop.comp ?_
      refine Tendsto.atTop_div_const hs ?_
      exact tendsto_atTop_add_const_right _ (-(alpha * y)) tendsto_id
  rw [integral_Ioi_of_hasDerivAt_of_nonneg' hd
    (fun t ht => mul_nonneg (mul_nonneg (le_of_lt ht) (Real.exp_pos _).le) (Phi_nonneg _)) hlim]
  have e3 : (0 - alpha * y) / s = -(alpha * (y / s)) := by ring
  rw [e3, Phi_neg]
  norm_num
  ring

/-- **C227.** For every irregularity factor below one and every positive variance, `cdflomax`
is the distribution function of `√m0 (√(1-α²) Z + α R)`, the law of the local maxima. -/
theorem C227_cdflomax (x alpha m0 : ℝ) (ha : |alpha| < 1) (hm : 0 < m0) :
    cdflomax x alpha m0 = locMaxCdf x alpha m0 := by
  have h1 := one_sub_sq_pos ha
  have hs : 0 < √(1 - alpha ^ 2) := Real.sqrt_pos.2 h1
  have hq : 0 < √m0 := Real.sqrt_pos.2 hm
  have hS : MeasurableSet {p : ℝ × ℝ | √m0 * (√(1 - alpha ^ 2) * p.2 + alpha * p.1) ≤ x} :=
    measurableSet_le (by fun_prop) measurable_const
  have : IsFiniteMeasure rayleigh := ⟨by rw [rayleigh_univ]; exact ENNReal.one_lt_top⟩
  have e : locMaxCdf x alpha m0 =
      ∫ t, Phi ((x / √m0 - alpha * t) / √(1 - alpha ^ 2)) ∂rayleigh := by
    unfold locMaxCdf Measure.real
    rw [Measure.prod_apply hS, ← integral_toReal (measurable_measure_prodMk_left hS).aemeasurable
      (Eventually.of_forall fun x => measure_lt_top _ _)]
    refine integral_congr_ae (Eventually.of_forall fun t => ?_)
    show (stdN _).toReal = (stdN _).toReal
    congr 2
    ext z
    simp only [mem_preimage, mem_ofPred_eq, mem_Iic]
    rw [le_div_iff₀ hs, le_sub_iff_add_le, le_div_iff₀ hq]
    constructor <;> intro h <;> nlinarith
  rw [e, integral_rayleigh, locMax_integral _ _ ha]
  have e1 : 1 / √(1 - alpha ^ 2) * x / √m0 = x / √m0 / √(1 - alpha ^ 2) := by
    field_simp
  have e2 : -x ^ 2 / 2 / m0 = -(x / √m0) ^ 2 / 2 := by
    rw [div_pow, Real.sq_sqrt hm.le]; ring
  simp only [cdflomax, e1, e2]

/-- It takes values in the unit interval and is monotone in the level, as a distribution
function does. -/
theorem C227_mono (alpha m0 : ℝ) (ha : |alpha| < 1) (hm : 0 < m0) :
    Monotone (fun x => cdflomax x alpha m0) ∧
      ∀ x, 0 ≤ cdflomax x alpha m0 ∧ cdflomax x alpha m0 ≤ 1 := by
  have : IsProbabilityMeasure rayleigh := ⟨rayleigh_univ⟩
  refine ⟨fun x y h => ?_, fun x => ?_⟩
  · simp only [C227_cdflomax _ _ _ ha hm, locMaxCdf]
    exact measureReal_mono fun p hp => le_trans hp h
  · rw [C227_cdflomax _ _ _ ha hm]
    exact ⟨measureReal_nonneg, measureReal_le_one⟩

/-- Narrow and wide band: with irregularity factor 0 the maxima are normal. -/
example (x : ℝ) : locMaxCdf x 0 1 = Phi x := by
  rw [← C227_cdflomax x 0 1 (by norm_num) (by norm_num)]
  simp [cdflomax]

/-- A case with both parts present: the value at the mean level is `(1 - α)/2`. -/
example : locMaxCdf 0 (3 / 5) 2 = 1 / 5 := by
  rw [← C227_cdflomax 0 (3 / 5) 2 (by norm_num [abs_lt]) (by norm_num)]
  norm_num [cdflomax, Phi_zero]

end Wafo.Gauss
