import Verif.Gauss.Mid

/-!
# Lemmas for correlations close to one
-/

set_option linter.unusedSectionVars false

namespace Wafo.Gauss

open MeasureTheory ProbabilityTheory Set Filter Topology

/-! ### Perfect correlation -/

theorem Phi2_one (b1 b2 : ℝ) : Phi2 b1 b2 1 = Phi (min b1 b2) := by
  unfold Phi2
  rw [law_real 1 (measurableSet_Iic.prod measurableSet_Iic), Phi_eq_integral,
    ← integral_indicator measurableSet_Iic]
  refine integral_congr_ae (Eventually.of_forall fun x => ?_)
  simp only [one_pow, sub_self, Real.sqrt_zero, zero_mul, add_zero, one_mul, mem_prod, mem_Iic]
  by_cases hx : x ≤ min b1 b2
  · rw [indicator_of_mem (show x ∈ Iic (min b1 b2) from hx)]
    simp [(le_min_iff.1 hx)]
  · rw [indicator_of_notMem (show x ∉ Iic (min b1 b2) from hx)]
    rw [le_min_iff] at hx
    simp [hx]

theorem Phi2_neg_one (b1 b2 : ℝ) : Phi2 b1 b2 (-1) = max 0 (Phi b1 - Phi (-b2)) := by
  have e : Phi2 b1 b2 (-1) = ∫ x in Icc (-b2) b1, phi x := by
    unfold Phi2
    rw [law_real (-1) (measurableSet_Iic.prod measurableSet_Iic),
      ← integral_indicator measurableSet_Icc]
    refine integral_congr_ae (Eventually.of_forall fun x => ?_)
    simp only [even_two, Even.neg_pow, one_pow, sub_self, Real.sqrt_zero, zero_mul, add_zero,
      mem_prod, mem_Iic]
    by_cases hx : x ≤ b1 ∧ -1 * x ≤ b2
    · rw [indicator_of_mem (show x ∈ Icc (-b2) b1 from ⟨by linarith [hx.2], hx.1⟩)]
      simp only [hx, and_self]
      simp
    · rw [indicator_of_notMem (show x ∉ Icc (-b2) b1 from fun h =>
        hx ⟨h.2, by linarith [h.1]⟩)]
      simp only [hx]
      simp
  rw [e]
  by_cases h : -b2 ≤ b1
  · rw [integral_Icc_eq_integral_Ioc, ← intervalIntegral.integral_of_le h,
      ← intervalIntegral.integral_Iic_sub_Iic integrable_phi.integrableOn
        integrable_phi.integrableOn, ← Phi_eq_integral, ← Phi_eq_integral,
      max_eq_right (sub_nonneg.2 (Phi_mono h))]
  · rw [Icc_eq_empty h, max_eq_left (sub_nonpos.2 (Phi_mono (not_le.1 h).le))]
    simp

theorem integrable_Phi2 (b1 b2 r : ℝ) :
    IntegrableOn (fun x => phi x * Phi ((b2 - r * x) / √(1 - r ^ 2))) (Iic b1) := by
  refine Integrable.mono' integrable_phi.integrableOn ?_ (Eventually.of_forall fun x => ?_)
  · have : Measurable (fun x => phi x * Phi ((b2 - r * x) / √(1 - r ^ 2))) := by
      have := measurable_Phi
      have := continuous_phi.measurable
      fun_prop
    exact this.aestronglyMeasurable
  · rw [Real.norm_of_nonneg (mul_nonneg (phi_pos x).le (Phi_nonneg _))]
    exact mul_le_of_le_one_right (phi_pos x).le (Phi_le_one _)

/-- Changing the sign of the second variable. -/
theorem Phi2_reflect {r : ℝ} (hr : |r| < 1) (b1 b2 : ℝ) :
    Phi2 b1 (-b2) (-r) = Phi b1 - Phi2 b1 b2 r := by
  rw [Phi2_eq hr, Phi2_eq (by rwa [abs_neg]), Phi_eq_integral,
    ← integral_sub integrable_phi.integrableOn (integrable_Phi2 b1 b2 r)]
  refine integral_congr_ae (Eventually.of_forall fun x => ?_)
  show phi x * Phi ((-b2 - -r * x) / √(1 - (-r) ^ 2)) = phi x - phi x * Phi _
  rw [show (-b2 - -r * x) / √(1 - (-r) ^ 2) = -((b2 - r * x) / √(1 - r ^ 2)) by
    rw [neg_sq]; ring, Phi_neg]
  ring

theorem tendsto_sqrt_zero : Tendsto (fun r : ℝ => √(1 - r ^ 2)) (𝓝[<] 1) (𝓝[>] 0) := by
  refine tendsto_nhdsWithin_of_tendsto_nhds_of_eventually_within _ ?_ ?_
  · have : Tendsto (fun r : ℝ => √(1 - r ^ 2)) (𝓝 1) (𝓝 √(1 - 1 ^ 2)) := by
      apply Continuous.tendsto; fun_prop
    simp only [one_pow, sub_self, Real.sqrt_zero] at this
    exact this.mono_left nhdsWithin_le_nhds
  · filter_upwards [Ioo_mem_nhdsLT (show (0 : ℝ) < 1 by norm_num)] with r hr
    exact Real.sqrt_pos.2 (one_sub_sq_pos (abs_lt.2 ⟨by linarith [hr.1], hr.2⟩))

/-- The distribution function tends to that of perfect correlation. -/
theorem tendsto_Phi2_one (b1 b2 : ℝ) :
    Tendsto (fun r => Phi2 b1 b2 r) (𝓝[<] 1) (𝓝 (Phi (min b1 b2))) := by
  have key : Tendsto (fun r => ∫ x in Iic b1, phi x * Phi ((b2 - r * x) / √(1 - r ^ 2)))
      (𝓝[<] (1 : ℝ)) (𝓝 (∫ x in Iic b1, (Iic b2).indicator phi x)) := by
    refine tendsto_integral_filter_of_dominated_convergence phi
      (Eventually.of_forall fun r => (integrable_Phi2 b1 b2 r).aestronglyMeasurable)
      (Eventually.of_forall fun r => Eventually.of_forall fun x => ?_)
      integrable_phi.integrableOn ?_
    · rw [Real.norm_of_nonneg (mul_nonneg (phi_pos x).le (Phi_nonneg _))]
      exact mul_le_of_le_one_right (phi_pos x).le (Phi_le_one _)
    · have hne : ∀ᵐ x ∂(volume.restrict (Iic b1)), x ≠ b2 :=
        ae_restrict_of_ae (Measure.ae_ne volume b2)
      filter_upwards [hne] with x hx
      have hinv : Tendsto (fun r : ℝ => (√(1 - r ^ 2))⁻¹) (𝓝[<] 1) atTop :=
        tendsto_inv_nhdsGT_zero.comp tendsto_sqrt_zero
      have hnum : Tendsto (fun r : ℝ => b2 - r * x) (𝓝[<] 1) (𝓝 (b2 - x)) := by
        have : Tendsto (fun r : ℝ => b2 - r * x) (𝓝 1) (𝓝 (b2 - 1 * x)) := by
          apply Continuous.tendsto; fun_prop
        rw [one_mul] at this
        exact this.mono_left nhdsWithin_le_nhds
      rcases lt_or_gt_of_ne hx with h | h
      · rw [indicator_of_mem (show x ∈ Iic b2 from h.le)]
        have := tendsto_Phi_atTop.comp (hnum.pos_mul_atTop (sub_pos.2 h) hinv)
        simpa [div_eq_mul_inv, Function.comp_def] using this.const_mul (phi x)
      · rw [indicator_of_notMem (show x ∉ Iic b2 from not_le.2 h)]
        have := tendsto_Phi_atBot.comp (hnum.neg_mul_atTop (sub_neg.2 h) hinv)
        simpa [div_eq_mul_inv, Function.comp_def] using this.const_mul (phi x)
  have e : ∫ x in Iic b1, (Iic b2).indicator phi x = Phi (min b1 b2) := by
    rw [setIntegral_indicator measurableSet_Iic, Iic_inter_Iic, Phi_eq_integral]
  rw [e] at key
  refine key.congr' ?_
  filter_upwards [Ioo_mem_nhdsLT (show (0 : ℝ) < 1 by norm_num)] with r hr
  exact (Phi2_eq (abs_lt.2 ⟨by linarith [hr.1], hr.2⟩) b1 b2).symm

/-! ### The integral over `x = √(1 - ρ²)` -/

/-- The integrand after the substitution `x = √(1 - ρ²)`. -/
noncomputable def tailInt (bs hk x : ℝ) : ℝ :=
  Real.exp (-bs / (2 * x ^ 2) - hk / (1 + √(1 - x ^ 2))) / √(1 - x ^ 2)

theorem hasDerivAt_tail (b1 b2 : ℝ) {x : ℝ} (hx : x ∈ Ioo (0 : ℝ) 1) :
    HasDerivAt (fun x => Phi2 b1 b2 √(1 - x ^ 2))
      (-(2 * Real.pi)⁻¹ * tailInt ((b1 - b2) ^ 2) (b1 * b2) x) x := by
  obtain ⟨h0, h1⟩ := hx
  have hx2 : 0 < 1 - x ^ 2 := one_sub_sq_pos (abs_lt.2 ⟨by linarith, h1⟩)
  have hρ : 0 < √(1 - x ^ 2) := Real.sqrt_pos.2 hx2
  have hρ2 : √(1 - x ^ 2) ^ 2 = 1 - x ^ 2 := Real.sq_sqrt hx2.le
  have hρ1 : |√(1 - x ^ 2)| < 1 := by
    rw [abs_of_pos hρ, Real.sqrt_lt' one_pos]
    nlinarith [sq_pos_of_pos h0]
  have d2 : HasDerivAt (fun x : ℝ => 1 - x ^ 2) (-(2 * x)) x := by
    simpa using ((hasDerivAt_pow 2 x).const_sub 1)
  have d := (hasDerivAt_Phi2 hρ1 b1 b2).comp x (d2.sqrt hx2.ne')
  refine d.congr_deriv ?_
  unfold plackett tailInt
  set ρ := √(1 - x ^ 2) with hρdef
  have e1 : 1 - ρ ^ 2 = x ^ 2 := by rw [hρ2]; ring
  rw [e1, Real.sqrt_sq h0.le]
  have e2 : -(b1 ^ 2 - 2 * ρ * b1 * b2 + b2 ^ 2) / (2 * x ^ 2) =
      -(b1 - b2) ^ 2 / (2 * x ^ 2) - b1 * b2 / (1 + ρ) := by
    have h3 : x ^ 2 = (1 - ρ) * (1 + ρ) := by rw [← e1]; ring
    have h4 : (1 - ρ) ≠ 0 := by
      intro h
      rw [h, zero_mul] at h3
      exact (pow_ne_zero 2 h0.ne') h3
    have h5 : (1 + ρ) ≠ 0 := by positivity
    rw [h3]
    field_simp
    ring
  rw [e2]
  have hp := Real.pi_ne_zero
  field_simp

theorem measurable_tailInt (bs hk : ℝ) : Measurable (tailInt bs hk) := by
  unfold tailInt
  fun_prop

theorem tailInt_bound {bs hk a x : ℝ} (hbs : 0 ≤ bs) (ha : a < 1) (hx0 : 0 ≤ x) (hxa : x ≤ a) :
    |tailInt bs hk x| ≤ Real.exp |hk| / √(1 - a ^ 2) := by
  have h1 : 0 < 1 - a ^ 2 := one_sub_sq_pos (abs_lt.2 ⟨by linarith, ha⟩)
  have h2 : 1 - a ^ 2 ≤ 1 - x ^ 2 := by nlinarith
  unfold tailInt
  rw [abs_of_nonneg (by positivity)]
  refine div_le_div₀ (Real.exp_pos _).le (Real.exp_le_exp.2 ?_) (Real.sqrt_pos.2 h1)
    (Real.sqrt_le_sqrt h2)
  have h3 : -bs / (2 * x ^ 2) ≤ 0 := by
    rw [neg_div]
    have : 0 ≤ bs / (2 * x ^ 2) := by positivity
    linarith
  have h4 : 1 ≤ 1 + √(1 - x ^ 2) := by have := Real.sqrt_nonneg (1 - x ^ 2); linarith
  have h5 : -(hk / (1 + √(1 - x ^ 2))) ≤ |hk| := by
    refine (neg_le_abs _).trans ?_
    rw [abs_div, abs_of_pos (by linarith : 0 < 1 + √(1 - x ^ 2))]
    exact div_le_self (abs_nonneg _) h4
  linarith

theorem intervalIntegrable_of_bdd {f : ℝ → ℝ} {a C : ℝ} (ha : 0 ≤ a) (hm : Measurable f)
    (hb : ∀ x, 0 < x → x ≤ a → |f x| ≤ C) : IntervalIntegrable f volume 0 a := by
  rw [intervalIntegrable_iff, uIoc_of_le ha]
  refine Measure.integrableOn_of_bounded (M := C) (by simp) hm.aestronglyMeasurable ?_
  filter_upwards [self_mem_ae_restrict measurableSet_Ioc] with x hx
  exact hb x hx.1 hx.2

theorem integrable_tailInt {bs hk a : ℝ} (hbs : 0 ≤ bs) (ha0 : 0 ≤ a) (ha : a < 1) :
    IntervalIntegrable (tailInt bs hk) volume 0 a :=
  intervalIntegrable_of_bdd ha0 (measurable_tailInt bs hk)
    fun _ h1 h2 => tailInt_bound hbs ha h1.le h2

theorem integral_tailInt {r : ℝ} (h0 : 0 < r) (h1 : r < 1) (b1 b2 : ℝ) :
    ∫ x in (0 : ℝ)..√(1 - r ^ 2), tailInt ((b1 - b2) ^ 2) (b1 * b2) x =
      2 * Real.pi * (Phi (min b1 b2) - Phi2 b1 b2 r) := by
  have hr : |r| < 1 := abs_lt.2 ⟨by linarith, h1⟩
  have hr2 := one_sub_sq_pos hr
  have ha : 0 < √(1 - r ^ 2) := Real.sqrt_pos.2 hr2
  have ha1 : √(1 - r ^ 2) < 1 := by
    rw [Real.sqrt_lt' one_pos]; nlinarith [sq_pos_of_pos h0]
  have hi := (integrable_tailInt (bs := (b1 - b2) ^ 2) (hk := b1 * b2) (sq_nonneg _) ha.le
    ha1).const_mul (-(2 * Real.pi)⁻¹)
  have hback : √(1 - √(1 - r ^ 2) ^ 2) = r := by
    rw [Real.sq_sqrt hr2.le, sub_sub_cancel, Real.sqrt_sq h0.le]
  have hz : Tendsto (fun x => Phi2 b1 b2 √(1 - x ^ 2)) (𝓝[>] 0) (𝓝 (Phi (min b1 b2))) := by
    refine (tendsto_Phi2_one b1 b2).comp ?_
    refine tendsto_nhdsWithin_of_tendsto_nhds_of_eventually_within _ ?_ ?_
    · have : Tendsto (fun r : ℝ => √(1 - r ^ 2)) (𝓝 0) (𝓝 √(1 - 0 ^ 2)) := by
        apply Continuous.tendsto; fun_prop
      simp only [ne_eq, OfNat.ofNat_ne_zero, not_false_eq_true, zero_pow, sub_zero,
        Real.sqrt_one] at this
      exact this.mono_left nhdsWithin_le_nhds
    · filter_upwards [Ioo_mem_nhdsGT (show (0 : ℝ) < 1 by norm_num)] with x hx
      show √(1 - x ^ 2) < 1
      rw [Real.sqrt_lt' one_pos]
      nlinarith [sq_pos_of_pos hx.1]
  have hb : Tendsto (fun x => Phi2 b1 b2 √(1 - x ^ 2)) (𝓝[<] √(1 - r ^ 2))
      (𝓝 (Phi2 b1 b2 r)) := by
    have := (hasDerivAt_tail b1 b2 ⟨ha, ha1⟩).continuousAt.tendsto
    rw [hback] at this
    exact this.mono_left nhdsWithin_le_nhds
  have h := intervalIntegral.integral_eq_sub_of_hasDerivAt_of_tendsto ha
    (fun x hx => hasDerivAt_tail b1 b2 ⟨hx.1, hx.2.trans ha1⟩) hi hz hb
  rw [intervalIntegral.integral_const_mul] at h
  have hp := Real.pi_ne_zero
  field_simp at h
  linarith

/-! ### The part integrated in closed form -/

/-- `exp(-(bs/x² + hk)/2)`. -/
noncomputable def gexp (bs hk x : ℝ) : ℝ := Real.exp (-(bs / x ^ 2 + hk) / 2)

/-- The antiderivative used by the code. -/
noncomputable def antider (b hk c d x : ℝ) : ℝ :=
  x * gexp (b * b) hk x * (1 - c * (b * b - x ^ 2) * (1 - d * (b * b) / 5) / 3 +
    c * d * (x ^ 2) ^ 2 / 5) -
  Real.exp (-hk / 2) * √(2 * Real.pi) * Phi (-b / x) * b *
    (1 - c * (b * b) * (1 - d * (b * b) / 5) / 3)

theorem hasDerivAt_antider (b hk c d : ℝ) {x : ℝ} (hx : 0 < x) :
    HasDerivAt (antider b hk c d)
      (gexp (b * b) hk x * (1 + c * x ^ 2 * (1 + d * x ^ 2))) x := by
  have hx0 := hx.ne'
  have dE : HasDerivAt (gexp (b * b) hk) (gexp (b * b) hk x * (b * b / x ^ 3)) x := by
    have d1 : HasDerivAt (fun x : ℝ => -(b * b / x ^ 2 + hk) / 2) (b * b / x ^ 3) x := by
      have := ((((hasDerivAt_const x (b * b)).div (hasDerivAt_pow 2 x)
        (pow_ne_zero 2 hx0)).add_const hk).neg).div_const 2
      refine this.congr_deriv ?_
      push_cast
      field_simp
      ring
    exact d1.exp
  have dP : HasDerivAt (fun x : ℝ => 1 - c * (b * b - x ^ 2) * (1 - d * (b * b) / 5) / 3 +
      c * d * (x ^ 2) ^ 2 / 5)
      (2 * c / 3 * (1 - d * (b * b) / 5) * x + 4 * c * d * x ^ 3 / 5) x := by
    have p2 := hasDerivAt_pow 2 x
    have t1 := (((p2.const_sub (b * b)).const_mul c).mul_const (1 - d * (b * b) / 5)).div_const 3
    have t2 := ((p2.pow 2).const_mul (c * d)).div_const 5
    refine ((t1.const_sub 1).add t2).congr_deriv ?_
    push_cast
    ring
  have dPhi : HasDerivAt (fun x : ℝ => Phi (-b / x)) (phi (-b / x) * (b / x ^ 2)) x := by
    have d1 : HasDerivAt (fun x : ℝ => -b / x) (b / x ^ 2) x := by
      refine ((hasDerivAt_const x (-b)).div (hasDerivAt_id x) hx0).congr_deriv ?_
      simp
    exact (hasDerivAt_Phi _).comp x d1
  have dA := (((hasDerivAt_id x).mul dE).mul dP).sub
    (((dPhi.const_mul (Real.exp (-hk / 2) * √(2 * Real.pi))).mul_const b).mul_const
      (1 - c * (b * b) * (1 - d * (b * b) / 5) / 3))
  refine dA.congr_deriv ?_
  have hs : √(2 * Real.pi) ≠ 0 := by positivity
  have e : Real.exp (-hk / 2) * √(2 * Real.pi) * (phi (-b / x) * (b / x ^ 2)) =
      gexp (b * b) hk x * (b / x ^ 2) := by
    unfold phi gexp
    rw [show -(b * b / x ^ 2 + hk) / 2 = -hk / 2 + -(-b / x) ^ 2 / 2 by
      rw [div_pow]; ring, Real.exp_add]
    field_simp
  rw [e]
  simp only [id, Pi.mul_apply]
  field_simp
  ring

theorem gexp_le {bs hk x : ℝ} (hbs : 0 ≤ bs) : gexp bs hk x ≤ Real.exp (-hk / 2) := by
  unfold gexp
  refine Real.exp_le_exp.2 ?_
  have : 0 ≤ bs / x ^ 2 := by positivity
  linarith

theorem tendsto_antider {b : ℝ} (hb : 0 ≤ b) (hk c d : ℝ) :
    Tendsto (antider b hk c d) (𝓝[>] 0) (𝓝 0) := by
  have hx : Tendsto (fun x : ℝ => x) (𝓝[>] 0) (𝓝 0) :=
    tendsto_id.mono_left nhdsWithin_le_nhds
  have t1 : Tendsto (fun x : ℝ => x * gexp (b * b) hk x) (𝓝[>] 0) (𝓝 0) := by
    have hup : Tendsto (fun x : ℝ => x * Real.exp (-hk / 2)) (𝓝[>] 0) (𝓝 0) := by
      simpa using hx.mul_const (Real.exp (-hk / 2))
    refine squeeze_zero' ?_ ?_ hup
    · filter_upwards [self_mem_nhdsWithin] with x hx
      exact mul_nonneg (le_of_lt hx) (Real.exp_pos _).le
    · filter_upwards [self_mem_nhdsWithin] with x hx
      exact mul_le_mul_of_nonneg_left (gexp_le (mul_self_nonneg b)) (le_of_lt hx)
  have t2 : Tendsto (fun x : ℝ => 1 - c * (b * b - x ^ 2) * (1 - d * (b * b) / 5) / 3 +
      c * d * (x ^ 2) ^ 2 / 5) (𝓝[>] 0) (𝓝 (1 - c * (b * b - 0 ^ 2) * (1 - d * (b * b) / 5) / 3 +
      c * d * (0 ^ 2) ^ 2 / 5)) := by
    refine Tendsto.mono_left ?_ nhdsWithin_le_nhds
    apply Continuous.tendsto
      (f := fun x : ℝ => 1 - c * (b * b - x ^ 2) * (1 - d * (b * b) / 5) / 3 +
      c * d * (x ^ 2) ^ 2 / 5)
    fun_prop
  have t3 : Tendsto (fun x : ℝ => Phi (-b / x) * b) (𝓝[>] 0) (𝓝 0) := by
    rcases hb.eq_or_lt with rfl | hb
    · simp
    · have : Tendsto (fun x : ℝ => -b / x) (𝓝[>] 0) atBot := by
        have := (tendsto_const_nhds (x := -b) (f := 𝓝[>] (0 : ℝ))).neg_mul_atTop
          (neg_neg_of_pos hb) tendsto_inv_nhdsGT_zero
        simpa [div_eq_mul_inv] using this
      simpa using (tendsto_Phi_atBot.comp this).mul_const b
  have t4 := (t1.mul t2).sub ((t3.const_mul (Real.exp (-hk / 2) * √(2 * Real.pi))).mul_const
    (1 - c * (b * b) * (1 - d * (b * b) / 5) / 3))
  rw [zero_mul, mul_zero, zero_mul, sub_zero] at t4
  refine t4.congr fun x => ?_
  unfold antider
  ring

theorem measurable_gexp (bs hk : ℝ) : Measurable (gexp bs hk) := by
  unfold gexp; fun_prop

theorem integrable_poly {b a : ℝ} (ha : 0 ≤ a) (ha1 : a < 1) (hk c d : ℝ) :
    IntervalIntegrable (fun x => gexp (b * b) hk x * (1 + c * x ^ 2 * (1 + d * x ^ 2)))
      volume 0 a := by
  refine intervalIntegrable_of_bdd (C := Real.exp (-hk / 2) * (1 + |c| * (1 + |d|))) ha ?_ ?_
  · have := measurable_gexp (b * b) hk
    fun_prop
  · intro x h1 h2
    rw [abs_mul, abs_of_pos (show 0 < gexp (b * b) hk x from Real.exp_pos _)]
    refine mul_le_mul (gexp_le (mul_self_nonneg b)) ?_ (abs_nonneg _) (Real.exp_pos _).le
    have hx2 : x ^ 2 ≤ 1 := by nlinarith
    have hx0 := sq_nonneg x
    have k1 : |1 + d * x ^ 2| ≤ 1 + |d| := by
      refine (abs_add_le _ _).trans ?_
      rw [abs_one, abs_mul, abs_of_nonneg hx0]
      have := mul_le_mul_of_nonneg_left hx2 (abs_nonneg d)
      linarith
    refine (abs_add_le _ _).trans ?_
    rw [abs_one, abs_mul, abs_mul, abs_of_nonneg hx0]
    have k2 : |c| * x ^ 2 ≤ |c| := by
      have := mul_le_mul_of_nonneg_left hx2 (abs_nonneg c)
      linarith
    have := mul_le_mul k2 k1 (abs_nonneg _) (abs_nonneg c)
    linarith

theorem integral_poly {b a : ℝ} (hb : 0 ≤ b) (ha : 0 < a) (ha1 : a < 1) (hk c d : ℝ) :
    ∫ x in (0 : ℝ)..a, gexp (b * b) hk x * (1 + c * x ^ 2 * (1 + d * x ^ 2)) =
      antider b hk c d a := by
  have hi := integrable_poly (b := b) ha.le ha1 hk c d
  have h := intervalIntegral.integral_eq_sub_of_hasDerivAt_of_tendsto ha
    (fun x hx => hasDerivAt_antider b hk c d hx.1) hi (tendsto_antider hb hk c d)
    ((hasDerivAt_antider b hk c d ha).continuousAt.tendsto.mono_left nhdsWithin_le_nhds)
  rw [h, sub_zero]

end Wafo.Gauss
