import Verif.Dist.WrapModel
import Verif.Dist.Lemmas
import Mathlib.Analysis.Complex.Poisson
import Mathlib.Analysis.SpecialFunctions.Complex.LogDeriv
import Mathlib.Analysis.SpecialFunctions.Trigonometric.ArctanDeriv

/-!
# The wrapped Cauchy distribution
-/

set_option linter.unusedSectionVars false

namespace Wafo.Dist

open MeasureTheory Set Real Metric

namespace WrapCauchy

theorem arctan_cot {y : ℝ} (h0 : 0 < y) (h1 : y < π) : arctan (cos y / sin y) = π / 2 - y := by
  have : cos y / sin y = tan (π / 2 - y) := by rw [tan_eq_sin_div_cos, sin_pi_div_two_sub, cos_pi_div_two_sub]
  rw [this, arctan_tan (by linarith) (by linarith)]

/-- The arctangent with the tangent replaced by the cotangent, which is regular at `pi / 2`. -/
theorem atanTan_eq {v y : ℝ} (hv : 0 < v) (h0 : 0 < y) (h1 : y ≤ π / 2) :
    atanTan v y = π / 2 - arctan (v⁻¹ * (cos y / sin y)) := by
  unfold atanTan
  rcases h1.lt_or_eq with h1 | rfl
  · have hc : 0 < cos y := cos_pos_of_mem_Ioo ⟨by linarith, h1⟩
    have hs : 0 < sin y := sin_pos_of_pos_of_lt_pi h0 (by linarith [pi_pos])
    rw [if_neg hc.ne']
    have e : v * tan y = (v⁻¹ * (cos y / sin y))⁻¹ := by
      rw [tan_eq_sin_div_cos]
      field_simp
    rw [e, arctan_inv_of_pos (by positivity)]
  · rw [if_pos cos_pi_div_two, cos_pi_div_two]
    simp

theorem val_pos {c : ℝ} (h0 : 0 < c) (h1 : c < 1) : 0 < (1.0 + c) / (1.0 - c) :=
  div_pos (by norm_num; linarith) (by norm_num; linarith)

theorem cdf_eq {c : ℝ} (h0 : 0 < c) (h1 : c < 1) {x : ℝ} (hx : x ∈ Ioo 0 (2 * π)) :
    cdf c x = 1 / 2 - arctan ((1 - c) / (1 + c) * (cos (x / 2) / sin (x / 2))) / π := by
  have hp := pi_pos
  have hv := val_pos h0 h1
  have e : ((1.0 + c) / (1.0 - c))⁻¹ = (1 - c) / (1 + c) := by rw [inv_div]; norm_num
  have hx1 := hx.1
  have hx2 := hx.2
  unfold cdf
  simp only
  split_ifs with h
  · rw [show (2.0 : ℝ) = 2 by norm_num, atanTan_eq hv (by linarith) (by linarith), e]
    field_simp
    norm_num
  · rw [show (2.0 : ℝ) = 2 by norm_num, atanTan_eq hv (by linarith) (by linarith), e]
    have e2 : (2 * π - x) / 2 = π - x / 2 := by ring
    rw [e2, cos_pi_sub, sin_pi_sub, neg_div, mul_neg, arctan_neg]
    field_simp
    norm_num
    ring

theorem ppf_eq {c : ℝ} (h0 : 0 < c) (h1 : c < 1) {q : ℝ} (hq0 : 0 < q) (hq1 : q < 1) :
    ppf c q = π - 2 * arctan ((1 + c) / (1 - c) * (cos (π * q) / sin (π * q))) := by
  have hp := pi_pos
  have hv : 0 < (1.0 - c) / (1.0 + c) := div_pos (by norm_num; linarith) (by norm_num; linarith)
  have e : ((1.0 - c) / (1.0 + c))⁻¹ = (1 + c) / (1 - c) := by rw [inv_div]; norm_num
  unfold ppf
  simp only
  split_ifs with h
  · rw [atanTan_eq hv (by positivity) (by norm_num at h; nlinarith), e]
    ring
  · rw [atanTan_eq hv (mul_pos hp (by linarith)) (by norm_num at h; nlinarith), e]
    have e2 : π * (1 - q) = π - π * q := by ring
    rw [e2, cos_pi_sub, sin_pi_sub, neg_div, mul_neg, arctan_neg]
    ring

theorem den_pos {c : ℝ} (h0 : 0 < c) (h1 : c < 1) (x : ℝ) : 0 < 1 + c * c - 2 * c * cos x := by
  nlinarith [cos_le_one x]

theorem cdf_deriv {c : ℝ} (h0 : 0 < c) (h1 : c < 1) {x : ℝ} (hx : x ∈ Ioo 0 (2 * π)) :
    HasDerivAt (cdf c) (pdf c x) x := by
  have hp := pi_pos
  have hs : 0 < sin (x / 2) := sin_pos_of_pos_of_lt_pi (by linarith [hx.1]) (by linarith [hx.2])
  have hd := den_pos h0 h1 x
  have h : HasDerivAt (fun x => 1 / 2 - arctan ((1 - c) / (1 + c) * (cos (x / 2) / sin (x / 2))) / π) (pdf c x) x := by
    have a1 : HasDerivAt (fun x : ℝ => x / 2) (1 / 2) x := (hasDerivAt_id' x).div_const 2
    have a2 : HasDerivAt (fun x => cos (x / 2)) (-sin (x / 2) * (1 / 2)) x := HasDerivAt.cos a1
    have a3 : HasDerivAt (fun x => sin (x / 2)) (cos (x / 2) * (1 / 2)) x := HasDerivAt.sin a1
    have a4 := ((a2.div a3 hs.ne').const_mul ((1 - c) / (1 + c))).arctan
    refine HasDerivAt.congr_deriv ((a4.div_const π).const_sub (1 / 2)) ?_
    have hcos : cos x = 2 * cos (x / 2) ^ 2 - 1 := by rw [← cos_two_mul]; ring_nf
    have hsq : sin (x / 2) ^ 2 = 1 - cos (x / 2) ^ 2 := by rw [← sin_sq_add_cos_sq (x / 2)]; ring
    rw [pdf]
    rw [hcos] at hd ⊢
    have h1c : 1 + c ≠ 0 := by linarith
    have hz : (0 : ℝ) < (1 + c) ^ 2 * sin (x / 2) ^ 2 + (1 - c) ^ 2 * cos (x / 2) ^ 2 := by
      have := mul_pos (pow_pos (by linarith : 0 < 1 + c) 2) (pow_pos hs 2)
      have := mul_nonneg (sq_nonneg (1 - c)) (sq_nonneg (cos (x / 2)))
      linarith
    simp only [Pi.div_apply]
    generalize sin (x / 2) = s at *
    generalize cos (x / 2) = k at *
    have e1 : 1 + ((1 - c) / (1 + c) * (k / s)) ^ 2 = ((1 + c) ^ 2 * s ^ 2 + (1 - c) ^ 2 * k ^ 2) / ((1 + c) ^ 2 * s ^ 2) := by
      field_simp
    have e2 : 1 + c * c - 2 * c * (2 * k ^ 2 - 1) = (1 + c) ^ 2 * s ^ 2 + (1 - c) ^ 2 * k ^ 2 := by
      rw [hsq]; ring
    rw [e1, e2]
    generalize hD : (1 + c) ^ 2 * s ^ 2 + (1 - c) ^ 2 * k ^ 2 = D at *
    have e3 : -s * (1 / 2) * s - k * (k * (1 / 2)) = -(1 / 2) := by
      have : s * s = 1 - k ^ 2 := by rw [← hsq]; ring
      linarith [this]
    rw [e3]
    norm_num
    field_simp
    ring
  refine h.congr_of_eventuallyEq ?_
  filter_upwards [isOpen_Ioo.mem_nhds hx] with y hy
  exact cdf_eq h0 h1 hy

end WrapCauchy

open WrapCauchy

/-- C274 wrapcauchy -/
theorem C274_wrapcauchy (c : ℝ) (h0 : 0 < c) (h1 : c < 1) :
    IsCdf (Ioo 0 (2 * π)) (WrapCauchy.pdf c) (WrapCauchy.cdf c) ∧
    IsPpf (Ioo 0 (2 * π)) (WrapCauchy.cdf c) (WrapCauchy.ppf c) := by
  have hp := pi_pos
  have hc1 : 0 < 1 + c := by linarith
  have hc2 : 0 < 1 - c := by linarith
  have hmem : ∀ q, 0 < q → q < 1 → WrapCauchy.ppf c q ∈ Ioo 0 (2 * π) := fun q q0 q1 => by
    rw [WrapCauchy.ppf_eq h0 h1 q0 q1]
    have := arctan_lt_pi_div_two ((1 + c) / (1 - c) * (cos (π * q) / sin (π * q)))
    have := neg_pi_div_two_lt_arctan ((1 + c) / (1 - c) * (cos (π * q) / sin (π * q)))
    exact ⟨by linarith, by linarith⟩
  have hppf : IsPpf (Ioo 0 (2 * π)) (WrapCauchy.cdf c) (WrapCauchy.ppf c) := by
    have hcm : ∀ x ∈ Ioo 0 (2 * π), 0 < WrapCauchy.cdf c x ∧ WrapCauchy.cdf c x < 1 := fun x hx => by
      rw [WrapCauchy.cdf_eq h0 h1 hx]
      have a := arctan_lt_pi_div_two ((1 - c) / (1 + c) * (cos (x / 2) / sin (x / 2)))
      have b := neg_pi_div_two_lt_arctan ((1 - c) / (1 + c) * (cos (x / 2) / sin (x / 2)))
      constructor
      · have : arctan ((1 - c) / (1 + c) * (cos (x / 2) / sin (x / 2))) / π < 1 / 2 := by
          rw [div_lt_iff₀ hp]; linarith
        linarith
      · have : -(1 / 2) < arctan ((1 - c) / (1 + c) * (cos (x / 2) / sin (x / 2))) / π := by
          rw [lt_div_iff₀ hp]; linarith
        linarith
    refine ⟨hmem, fun q q0 q1 => ?_, hcm, fun x hx => ?_⟩
    · rw [WrapCauchy.cdf_eq h0 h1 (hmem q q0 q1), WrapCauchy.ppf_eq h0 h1 q0 q1]
      set u := arctan ((1 + c) / (1 - c) * (cos (π * q) / sin (π * q))) with hu
      have e : cos ((π - 2 * u) / 2) / sin ((π - 2 * u) / 2) = tan u := by
        rw [show (π - 2 * u) / 2 = π / 2 - u by ring, cos_pi_div_two_sub, sin_pi_div_two_sub, tan_eq_sin_div_cos]
      rw [e, hu, tan_arctan]
      have e2 : (1 - c) / (1 + c) * ((1 + c) / (1 - c) * (cos (π * q) / sin (π * q))) = cos (π * q) / sin (π * q) := by
        field_simp
      rw [e2, arctan_cot (by positivity) (by nlinarith)]
      field_simp
      ring
    · obtain ⟨c0, c1⟩ := hcm x hx
      rw [WrapCauchy.ppf_eq h0 h1 c0 c1, WrapCauchy.cdf_eq h0 h1 hx]
      set u := arctan ((1 - c) / (1 + c) * (cos (x / 2) / sin (x / 2))) with hu
      have e0 : π * (1 / 2 - u / π) = π / 2 - u := by field_simp
      have e : cos (π / 2 - u) / sin (π / 2 - u) = tan u := by
        rw [cos_pi_div_two_sub, sin_pi_div_two_sub, tan_eq_sin_div_cos]
      rw [e0, e, hu, tan_arctan]
      have e2 : (1 + c) / (1 - c) * ((1 - c) / (1 + c) * (cos (x / 2) / sin (x / 2))) = cos (x / 2) / sin (x / 2) := by
        field_simp
      rw [e2, arctan_cot (by linarith [hx.1]) (by linarith [hx.2])]
      ring
  refine ⟨isCdf_of_ppf isOpen_Ioo ordConnected_Ioo (fun x hx => cdf_deriv h0 h1 hx) (fun x _ => ?_) hppf, hppf⟩
  have := den_pos h0 h1 x
  rw [WrapCauchy.pdf]
  refine div_nonneg ?_ (by positivity)
  norm_num
  nlinarith

theorem WrapCauchy.circle {c : ℝ} (h0 : 0 < c) (h1 : c < 1) :
    ∫ θ in (0 : ℝ)..2 * π, WrapCauchy.pdf c θ * log (1 + c * c - 2 * c * cos θ) = 2 * log (1 - c * c) := by
  have hp := pi_pos
  have hs : ∀ z ∈ closedBall (0 : ℂ) 1, (1 - c * z : ℂ) ∈ Complex.slitPlane := fun z hz => by
    refine Complex.mem_slitPlane_iff.2 (.inl ?_)
    have hz : ‖z‖ ≤ 1 := by simpa using hz
    have := (Complex.abs_re_le_norm z).trans hz
    have := abs_le.1 this
    simp
    nlinarith
  have hf : DiffContOnCl ℂ (fun z : ℂ => Complex.log (1 - c * z)) (ball 0 1) := by
    refine DifferentiableOn.diffContOnCl ?_
    rw [closure_ball _ one_ne_zero]
    intro z hz
    have hd : DifferentiableAt ℂ (fun z : ℂ => 1 - c * z) z := by fun_prop
    exact (hd.clog (hs z hz)).differentiableWithinAt
  have hw : (c : ℂ) ∈ ball (0 : ℂ) 1 := by simp [abs_of_pos h0, h1]
  have key := hf.circleAverage_poissonKernel_smul' hw
  rw [circleAverage_def] at key
  have hre := congrArg Complex.re key
  have hlog : (Complex.log (1 - c * c)).re = log (1 - c * c) := by
    rw [show (1 - c * c : ℂ) = ((1 - c * c : ℝ) : ℂ) by push_cast; ring, Complex.log_ofReal_re]
  rw [hlog, Complex.smul_re, smul_eq_mul] at hre
  have hc : Continuous (circleMap 0 1) := continuous_circleMap 0 1
  have hne : ∀ θ : ℝ, ‖circleMap 0 1 θ - 0 - (c - 0)‖ ^ 2 ≠ 0 := fun θ => by
    have h : circleMap 0 1 θ ≠ c := fun h => by
      have := congrArg norm h
      simp [abs_of_pos h0] at this
      linarith
    simpa [sub_eq_zero] using h
  have hint : Continuous (fun θ : ℝ => ((‖circleMap 0 1 θ - 0‖ ^ 2 - ‖(c : ℂ) - 0‖ ^ 2) / ‖circleMap 0 1 θ - 0 - (c - 0)‖ ^ 2) •
      Complex.log (1 - c * circleMap 0 1 θ)) := by
    have hl : Continuous fun θ : ℝ => Complex.log (1 - c * circleMap 0 1 θ) :=
      Continuous.clog (by fun_prop) fun θ => hs _ (by simp)
    have hk : Continuous fun θ : ℝ => (‖circleMap 0 1 θ - 0‖ ^ 2 - ‖(c : ℂ) - 0‖ ^ 2) / ‖circleMap 0 1 θ - 0 - (c - 0)‖ ^ 2 :=
      Continuous.div (by fun_prop) (by fun_prop) hne
    exact hk.smul hl
  have hcomm := Complex.reCLM.intervalIntegral_comp_comm (hint.intervalIntegrable (μ := volume) 0 (2 * π))
  simp only [Complex.reCLM_apply] at hcomm
  rw [← hcomm, ← intervalIntegral.integral_const_mul] at hre
  rw [← hre, ← intervalIntegral.integral_const_mul]
  refine intervalIntegral.integral_congr fun θ _ => ?_
  have hd := den_pos h0 h1 θ
  have e1 : ‖circleMap 0 1 θ - 0‖ = 1 := by simp
  have e2 : ‖(c : ℂ) - 0‖ = c := by simp [abs_of_pos h0]
  have e3 : circleMap 0 1 θ = cos θ + sin θ * Complex.I := by simp [circleMap, Complex.exp_mul_I]
  have e4 : ‖circleMap 0 1 θ - 0 - (c - 0)‖ ^ 2 = 1 + c * c - 2 * c * cos θ := by
    rw [← Complex.normSq_eq_norm_sq, e3, Complex.normSq_apply]
    have hsc := sin_sq_add_cos_sq θ
    generalize cos θ = k at hsc ⊢
    generalize sin θ = s at hsc ⊢
    simp
    linear_combination hsc
  have e5 : ‖1 - c * circleMap 0 1 θ‖ ^ 2 = 1 + c * c - 2 * c * cos θ := by
    rw [← Complex.normSq_eq_norm_sq, e3, Complex.normSq_apply]
    have hsc := sin_sq_add_cos_sq θ
    generalize cos θ = k at hsc ⊢
    generalize sin θ = s at hsc ⊢
    simp
    linear_combination c ^ 2 * hsc
  have e6 : log ‖1 - c * circleMap 0 1 θ‖ = log (1 + c * c - 2 * c * cos θ) / 2 := by
    rw [← e5, log_pow]
    push_cast
    ring
  rw [Complex.smul_re, smul_eq_mul, Complex.log_re, e6, e1, e2, e4, WrapCauchy.pdf]
  norm_num
  field_simp

/-- C274 wrapcauchy: the entropy, by the Poisson formula for the logarithm of `1 - c z`. -/
theorem C274_wrapcauchy_entropy (c : ℝ) (h0 : 0 < c) (h1 : c < 1) :
    HasEntropy (Ioo 0 (2 * π)) (WrapCauchy.pdf c) (WrapCauchy.entropy c) := by
  have hp := pi_pos
  have hc2 : 0 < 1 - c * c := by nlinarith
  have hle : (0 : ℝ) ≤ 2 * π := by positivity
  have hcont : Continuous (WrapCauchy.pdf c) := by
    unfold WrapCauchy.pdf
    refine Continuous.div (by fun_prop) (by fun_prop) fun x => ?_
    have := den_pos h0 h1 x
    positivity
  have hpos : ∀ x, 0 < WrapCauchy.pdf c x := fun x => by
    have := den_pos h0 h1 x
    rw [WrapCauchy.pdf]
    exact div_pos (by norm_num; linarith) (by positivity)
  have hl : Continuous fun x => log (1 + c * c - 2 * c * cos x) :=
    Continuous.log (by fun_prop) fun x => (den_pos h0 h1 x).ne'
  have hi : Continuous fun x => WrapCauchy.pdf c x * log (WrapCauchy.pdf c x) :=
    hcont.mul (hcont.log fun x => (hpos x).ne')
  refine ⟨hi.integrableOn_Icc.mono_set Ioo_subset_Icc_self, ?_⟩
  rw [← integral_Ioc_eq_integral_Ioo, ← intervalIntegral.integral_of_le hle]
  have htot : ∫ x in (0 : ℝ)..2 * π, WrapCauchy.pdf c x = 1 := by
    rw [intervalIntegral.integral_of_le hle, integral_Ioc_eq_integral_Ioo]
    exact (C274_wrapcauchy c h0 h1).1.total
  have e : ∀ x, WrapCauchy.pdf c x * log (WrapCauchy.pdf c x) =
      (log (1 - c * c) - log (2 * π)) * WrapCauchy.pdf c x - WrapCauchy.pdf c x * log (1 + c * c - 2 * c * cos x) := fun x => by
    have hd := den_pos h0 h1 x
    have : log (WrapCauchy.pdf c x) = log (1 - c * c) - log (2 * π) - log (1 + c * c - 2 * c * cos x) := by
      rw [WrapCauchy.pdf, log_div (by norm_num; linarith) (by positivity), log_mul (by positivity) hd.ne']
      norm_num
      ring
    rw [this]
    ring
  simp only [e]
  have hm : Continuous fun x => WrapCauchy.pdf c x * log (1 + c * c - 2 * c * cos x) := hcont.mul hl
  rw [intervalIntegral.integral_sub ((hcont.const_mul _).intervalIntegrable _ _) (hm.intervalIntegrable _ _),
    intervalIntegral.integral_const_mul, htot, WrapCauchy.circle h0 h1, WrapCauchy.entropy, log_mul (by positivity) hc2.ne']
  ring

example : WrapCauchy.pdf (1 / 2) π = 1 / (6 * π) ∧ WrapCauchy.cdf (1 / 2) π = 1 / 2 := by
  have hp := pi_pos
  constructor
  · simp [WrapCauchy.pdf]
    norm_num
    field_simp
    norm_num
  · rw [WrapCauchy.cdf_eq (by norm_num) (by norm_num) ⟨by positivity, by linarith⟩]
    simp

end Wafo.Dist
