import Verif.Gauss.Lemmas
import Mathlib.Analysis.Calculus.ParametricIntegral
import Mathlib.Analysis.SpecialFunctions.Sqrt

/-!
# The bivariate normal distribution function and its derivative in the correlation
-/

set_option linter.unusedSectionVars false

namespace Wafo.Gauss

open MeasureTheory ProbabilityTheory Set Filter Topology

theorem law_real (r : ℝ) {S : Set (ℝ × ℝ)} (hS : MeasurableSet S) :
    (pairLaw r).real S = ∫ x, phi x * stdN.real {z | (x, r * x + √(1 - r ^ 2) * z) ∈ S} := by
  have hm : Measurable (fun p : ℝ × ℝ => (p.1, r * p.1 + √(1 - r ^ 2) * p.2)) := by fun_prop
  have hS' := hm hS
  unfold pairLaw
  rw [map_measureReal_apply hm hS]
  unfold Measure.real
  rw [Measure.prod_apply hS',
    ← integral_toReal (measurable_measure_prodMk_left hS').aemeasurable
      (Eventually.of_forall fun x => measure_lt_top _ _),
    integral_gaussianReal_eq_integral_smul one_ne, phi_eq]
  rfl

theorem one_sub_sq_pos {r : ℝ} (hr : |r| < 1) : 0 < 1 - r ^ 2 := by
  have := (sq_lt_one_iff_abs_lt_one r).2 hr
  linarith

theorem Phi2_eq {r : ℝ} (hr : |r| < 1) (b1 b2 : ℝ) :
    Phi2 b1 b2 r = ∫ x in Iic b1, phi x * Phi ((b2 - r * x) / √(1 - r ^ 2)) := by
  have hs : 0 < √(1 - r ^ 2) := Real.sqrt_pos.2 (one_sub_sq_pos hr)
  unfold Phi2
  rw [law_real r (measurableSet_Iic.prod measurableSet_Iic), ← integral_indicator measurableSet_Iic]
  refine integral_congr_ae (Eventually.of_forall fun x => ?_)
  by_cases hx : x ≤ b1
  · rw [indicator_of_mem (show x ∈ Iic b1 from hx)]
    show phi x * _ = phi x * _
    congr 1
    unfold Phi
    congr 1
    ext z
    simp only [mem_ofPred_eq, mem_prod, mem_Iic, hx, true_and]
    rw [le_div_iff₀ hs]
    constructor <;> intro h <;> linarith
  · rw [indicator_of_notMem (show x ∉ Iic b1 from hx)]
    simp [hx]

theorem measurable_Phi : Measurable Phi := continuous_Phi.measurable

/-- Bivariate normal density on the boundary, times `2π`. -/
noncomputable def plackett (b1 b2 r : ℝ) : ℝ :=
  (√(1 - r ^ 2))⁻¹ * Real.exp (-(b1 ^ 2 - 2 * r * b1 * b2 + b2 ^ 2) / (2 * (1 - r ^ 2)))

theorem phi_mul_phi {r : ℝ} (hr : |r| < 1) (x b2 : ℝ) :
    phi x * phi ((b2 - r * x) / √(1 - r ^ 2)) =
      (2 * Real.pi)⁻¹ *
        Real.exp (-(x ^ 2 - 2 * r * x * b2 + b2 ^ 2) / (2 * (1 - r ^ 2))) := by
  have h1 := one_sub_sq_pos hr
  unfold phi
  rw [mul_mul_mul_comm, ← Real.exp_add, ← mul_inv, Real.mul_self_sqrt (by positivity), div_pow,
    Real.sq_sqrt h1.le]
  congr 2
  field_simp
  ring

theorem hasDerivAt_z {r : ℝ} (hr : |r| < 1) (x b2 : ℝ) :
    HasDerivAt (fun r : ℝ => (b2 - r * x) / √(1 - r ^ 2))
      ((r * b2 - x) / ((1 - r ^ 2) * √(1 - r ^ 2))) r := by
  have h1 := one_sub_sq_pos hr
  have hs : 0 < √(1 - r ^ 2) := Real.sqrt_pos.2 h1
  have d1 : HasDerivAt (fun r : ℝ => b2 - r * x) (-x) r := by
    simpa using ((hasDerivAt_id r).mul_const x).const_sub b2
  have d2 : HasDerivAt (fun r : ℝ => 1 - r ^ 2) (-(2 * r)) r := by
    simpa using ((hasDerivAt_pow 2 r).const_sub 1)
  refine (d1.div (d2.sqrt h1.ne') hs.ne').congr_deriv ?_
  have e : √(1 - r ^ 2) ^ 2 = 1 - r ^ 2 := Real.sq_sqrt h1.le
  rw [e]
  field_simp
  rw [e]
  ring

theorem integrable_bound (c d : ℝ) : Integrable (fun x : ℝ => phi x * (c + d * |x|)) := by
  have h1 : Integrable (fun x : ℝ => |x| * Real.exp (-(1/2 : ℝ) * x ^ 2)) := by
    have := (integrable_mul_exp_neg_mul_sq (b := (1/2 : ℝ)) (by norm_num)).norm
    simpa [abs_mul] using this
  have h2 : Integrable (fun x : ℝ => phi x * |x|) := by
    refine (h1.const_mul (√(2 * Real.pi))⁻¹).congr (Eventually.of_forall fun x => ?_)
    show (√(2 * Real.pi))⁻¹ * (|x| * Real.exp (-(1/2 : ℝ) * x ^ 2)) = phi x * |x|
    unfold phi
    rw [show -(1/2 : ℝ) * x ^ 2 = -x ^ 2 / 2 by ring]
    ring
  refine ((integrable_phi.const_mul c).add (h2.const_mul d)).congr
    (Eventually.of_forall fun x => ?_)
  show c * phi x + d * (phi x * |x|) = _
  ring

theorem phi_le_one (x : ℝ) : phi x ≤ 1 := by
  unfold phi
  have h1 : (1 : ℝ) ≤ √(2 * Real.pi) := by
    rw [Real.one_le_sqrt]
    have := Real.two_le_pi
    linarith
  have h2 : Real.exp (-x ^ 2 / 2) ≤ 1 := by
    rw [Real.exp_le_one_iff]
    have := sq_nonneg x
    linarith
  calc (√(2 * Real.pi))⁻¹ * Real.exp (-x ^ 2 / 2) ≤ 1 * 1 :=
        mul_le_mul (inv_le_one_of_one_le₀ h1) h2 (Real.exp_pos _).le zero_le_one
    _ = 1 := one_mul 1

/-- The integral over `x ≤ b1` of the derivative in `r`. -/
theorem integral_plackett {r : ℝ} (hr : |r| < 1) (b1 b2 : ℝ)
    (hint : IntegrableOn (fun x : ℝ => phi x * (phi ((b2 - r * x) / √(1 - r ^ 2)) *
      ((r * b2 - x) / ((1 - r ^ 2) * √(1 - r ^ 2))))) (Iic b1)) :
    ∫ x in Iic b1, phi x * (phi ((b2 - r * x) / √(1 - r ^ 2)) *
      ((r * b2 - x) / ((1 - r ^ 2) * √(1 - r ^ 2)))) = (2 * Real.pi)⁻¹ * plackett b1 b2 r := by
  have h1 := one_sub_sq_pos hr
  have hs : 0 < √(1 - r ^ 2) := Real.sqrt_pos.2 h1
  have hd : ∀ x ∈ Iic b1, HasDerivAt (fun x : ℝ => (2 * Real.pi)⁻¹ * plackett x b2 r)
      (phi x * (phi ((b2 - r * x) / √(1 - r ^ 2)) *
      ((r * b2 - x) / ((1 - r ^ 2) * √(1 - r ^ 2))))) x := by
    intro x _
    have d1 : HasDerivAt (fun x : ℝ => -(x ^ 2 - 2 * r * x * b2 + b2 ^ 2) / (2 * (1 - r ^ 2)))
        ((r * b2 - x) / (1 - r ^ 2)) x := by
      have a1 := (hasDerivAt_pow 2 x)
      have a2 : HasDerivAt (fun x : ℝ => 2 * r * x * b2) (2 * r * b2) x := by
        simpa using ((hasDerivAt_id x).const_mul (2 * r)).mul_const b2
      refine ((((a1.sub a2).add_const (b2 ^ 2)).neg).div_const (2 * (1 - r ^ 2))).congr_deriv ?_
      push_cast
      field_simp
      ring
    have d2 := (d1.exp.const_mul (√(1 - r ^ 2))⁻¹).const_mul (2 * Real.pi)⁻¹
    refine d2.congr_deriv ?_
    rw [← mul_assoc (phi x), phi_mul_phi hr]
    field_simp
  have hlim : Tendsto (fun x : ℝ => (2 * Real.pi)⁻¹ * plackett x b2 r) atBot (𝓝 0) := by
    have l1 : Tendsto (fun x : ℝ => -(x ^ 2 - 2 * r * x * b2 + b2 ^ 2) / (2 * (1 - r ^ 2)))
        atBot atBot := by
      have e : (fun x : ℝ => -(x ^ 2 - 2 * r * x * b2 + b2 ^ 2) / (2 * (1 - r ^ 2))) =
          fun x => -((x - r * b2) ^ 2 / (2 * (1 - r ^ 2))) - b2 ^ 2 / 2 := by
        funext x
        field_simp
        ring
      rw [e]
      have l0 : Tendsto (fun x : ℝ => (x - r * b2) ^ 2) atBot atTop :=
        ((tendsto_pow_atTop two_ne_zero).comp (tendsto_abs_atBot_atTop.comp
          (tendsto_atBot_add_const_right _ (-(r * b2)) tendsto_id))).congr fun x => by
            simp [sub_eq_add_neg]
      have l2 := l0.atTop_div_const (show 0 < 2 * (1 - r ^ 2) by positivity)
      exact (tendsto_neg_atTop_atBot.comp l2).atBot_add tendsto_const_nhds
    have := ((Real.tendsto_exp_atBot.comp l1).const_mul (√(1 - r ^ 2))⁻¹).const_mul
      (2 * Real.pi)⁻¹
    rw [mul_zero, mul_zero] at this
    exact this
  have := integral_Iic_of_hasDerivAt_of_tendsto' hd hint hlim
  rw [this, sub_zero]

/-- Plackett's identity: the derivative of the bivariate normal distribution function in the
correlation is the bivariate normal density. -/
theorem hasDerivAt_Phi2 {r : ℝ} (hr : |r| < 1) (b1 b2 : ℝ) :
    HasDerivAt (fun ρ => Phi2 b1 b2 ρ) ((2 * Real.pi)⁻¹ * plackett b1 b2 r) r := by
  obtain ⟨q, hq1, hq2⟩ := exists_between hr
  have hq0 : 0 < q := lt_of_le_of_lt (abs_nonneg r) hq1
  have hset : {ρ : ℝ | |ρ| < q} ∈ 𝓝 r :=
    (isOpen_lt continuous_abs continuous_const).mem_nhds hq1
  have hδ : 0 < 1 - q ^ 2 := by nlinarith
  have key := hasDerivAt_integral_of_dominated_loc_of_deriv_le (μ := volume.restrict (Iic b1))
    (F := fun ρ x => phi x * Phi ((b2 - ρ * x) / √(1 - ρ ^ 2)))
    (F' := fun ρ x => phi x * (phi ((b2 - ρ * x) / √(1 - ρ ^ 2)) *
      ((ρ * b2 - x) / ((1 - ρ ^ 2) * √(1 - ρ ^ 2)))))
    (bound := fun x => phi x * (|b2| / ((1 - q ^ 2) * √(1 - q ^ 2)) +
      1 / ((1 - q ^ 2) * √(1 - q ^ 2)) * |x|)) (x₀ := r) (s := {ρ : ℝ | |ρ| < q}) hset
    (Eventually.of_forall fun ρ => ?_) ?_ ?_ ?_ (integrable_bound _ _).integrableOn ?_
  · obtain ⟨k1, k2⟩ := key
    rw [integral_plackett hr b1 b2 k1] at k2
    refine k2.congr_of_eventuallyEq ?_
    filter_upwards [hset] with ρ hρ
    exact Phi2_eq (lt_trans hρ hq2) b1 b2
  · have : Measurable (fun x => phi x * Phi ((b2 - ρ * x) / √(1 - ρ ^ 2))) := by
      have := measurable_Phi
      have := continuous_phi.measurable
      fun_prop
    exact this.aestronglyMeasurable
  · refine Integrable.mono' integrable_phi.integrableOn ?_ (Eventually.of_forall fun x => ?_)
    · have : Measurable (fun x => phi x * Phi ((b2 - r * x) / √(1 - r ^ 2))) := by
        have := measurable_Phi
        have := continuous_phi.measurable
        fun_prop
      exact this.aestronglyMeasurable
    · rw [Real.norm_of_nonneg (mul_nonneg (phi_pos x).le (Phi_nonneg _))]
      exact mul_le_of_le_one_right (phi_pos x).le (Phi_le_one _)
  · have : Measurable (fun x => phi x * (phi ((b2 - r * x) / √(1 - r ^ 2)) *
      ((r * b2 - x) / ((1 - r ^ 2) * √(1 - r ^ 2))))) := by
      have := continuous_phi.measurable
      fun_prop
    exact this.aestronglyMeasurable
  · refine Eventually.of_forall fun x ρ hρ => ?_
    have hρ' : |ρ| < q := hρ
    rw [norm_mul, Real.norm_of_nonneg (phi_pos x).le]
    refine mul_le_mul_of_nonneg_left ?_ (phi_pos x).le
    rw [norm_mul, Real.norm_of_nonneg (phi_pos _).le, norm_div]
    have h3 : ρ ^ 2 ≤ q ^ 2 := by
      rw [← sq_abs ρ]; exact pow_le_pow_left₀ (abs_nonneg _) hρ'.le 2
    have h4 : 0 < 1 - ρ ^ 2 := by linarith
    have h5 : (1 - q ^ 2) * √(1 - q ^ 2) ≤ (1 - ρ ^ 2) * √(1 - ρ ^ 2) :=
      mul_le_mul (by linarith) (Real.sqrt_le_sqrt (by linarith)) (Real.sqrt_nonneg _) h4.le
    have h6 : 0 < (1 - q ^ 2) * √(1 - q ^ 2) := mul_pos hδ (Real.sqrt_pos.2 hδ)
    have h7 : ‖ρ * b2 - x‖ ≤ |b2| + |x| := by
      rw [Real.norm_eq_abs]
      refine (abs_sub _ _).trans ?_
      rw [abs_mul]
      have : |ρ| * |b2| ≤ 1 * |b2| :=
        mul_le_mul_of_nonneg_right (by linarith) (abs_nonneg _)
      linarith
    rw [Real.norm_of_nonneg (lt_of_lt_of_le h6 h5).le]
    calc phi ((b2 - ρ * x) / √(1 - ρ ^ 2)) * (‖ρ * b2 - x‖ / ((1 - ρ ^ 2) * √(1 - ρ ^ 2)))
        ≤ 1 * ((|b2| + |x|) / ((1 - q ^ 2) * √(1 - q ^ 2))) := by
          refine mul_le_mul (phi_le_one _) (div_le_div₀ (by positivity) h7 h6 h5)
            (div_nonneg (norm_nonneg _) (lt_of_lt_of_le h6 h5).le) zero_le_one
      _ = _ := by ring
  · refine Eventually.of_forall fun x ρ hρ => ?_
    have hρ' : |ρ| < 1 := lt_trans hρ hq2
    exact ((hasDerivAt_Phi _).comp ρ (hasDerivAt_z hρ' x b2)).const_mul (phi x)

theorem Phi2_zero (b1 b2 : ℝ) : Phi2 b1 b2 0 = Phi b1 * Phi b2 := by
  rw [Phi2_eq (by norm_num)]
  simp only [zero_mul, sub_zero, ne_eq, OfNat.ofNat_ne_zero, not_false_eq_true, zero_pow,
    Real.sqrt_one, div_one]
  rw [integral_mul_const, ← Phi_eq_integral]

theorem continuousOn_plackett (b1 b2 : ℝ) : ContinuousOn (plackett b1 b2) (Ioo (-1) 1) := by
  unfold plackett
  have h : ∀ r ∈ Ioo (-1 : ℝ) 1, 0 < 1 - r ^ 2 := fun r hr =>
    one_sub_sq_pos (abs_lt.2 ⟨hr.1, hr.2⟩)
  refine ContinuousOn.mul (ContinuousOn.inv₀ (by fun_prop) fun r hr => ?_)
    (ContinuousOn.rexp (ContinuousOn.div (by fun_prop) (by fun_prop) fun r hr => ?_))
  · exact (Real.sqrt_pos.2 (h r hr)).ne'
  · have := h r hr
    positivity

/-- The distribution function as an integral over the correlation. -/
theorem Phi2_integral {r : ℝ} (hr : |r| < 1) (b1 b2 : ℝ) :
    Phi2 b1 b2 r = Phi b1 * Phi b2 + (2 * Real.pi)⁻¹ * ∫ ρ in (0 : ℝ)..r, plackett b1 b2 ρ := by
  have hsub : uIcc 0 r ⊆ Ioo (-1 : ℝ) 1 := by
    intro ρ hρ
    rw [abs_lt] at hr
    rw [mem_uIcc] at hρ
    rcases hρ with h | h
    · exact ⟨by linarith [h.1], by linarith [h.2, hr.2]⟩
    · exact ⟨by linarith [h.1, hr.1], by linarith [h.2]⟩
  have hc : IntervalIntegrable (fun ρ => (2 * Real.pi)⁻¹ * plackett b1 b2 ρ) volume 0 r :=
    (((continuousOn_plackett b1 b2).mono hsub).intervalIntegrable).const_mul _
  have := intervalIntegral.integral_eq_sub_of_hasDerivAt (f := fun ρ => Phi2 b1 b2 ρ)
    (fun ρ hρ => hasDerivAt_Phi2 (abs_lt.2 (hsub hρ)) b1 b2) hc
  rw [intervalIntegral.integral_const_mul, Phi2_zero] at this
  linarith

end Wafo.Gauss
