import Verif.Dist.EntLemmas
import Verif.Dist.MomBddProps
import Verif.Dist.MomTailProps

/-!
# C262: the reported entropies are those of the densities

`_entropy` of a class returns the integral of `- f log f` over the support.
-/

namespace Wafo.Dist

open MeasureTheory Set Filter Topology Real

set_option linter.unusedSectionVars false

theorem log_1m {q : ℝ} (h : q < 1) : (0 : ℝ) < 1 - q := by linarith

theorem log1p_neg (q : ℝ) : log1p (-q) = log (1 - q) := by rw [log1p, sub_eq_add_neg]

/-! ### The exponential, the Weibull and the extreme value family -/

theorem C262_expon : HasEntropy (Ioi 0) Expon.pdf Expon.entropy := by
  refine entropy_evlogs isOpen_Ioi ordConnected_Ioi C251_expon.1 C251_expon.2.1
    (by unfold Expon.pdf; fun_prop) 0 0 1 0 0 ?_ (by rw [Expon.entropy]; ring)
  intro q h0 h1
  rw [Expon.pdf, log_exp, Expon.ppf, log1p_neg]
  ring

theorem C262_weibull_min (c : ℝ) (hc : 0 < c) :
    HasEntropy (Ioi 0) (WeibullMin.pdf c) (WeibullMin.entropy c) := by
  have hC := C251_weibull_min c hc
  refine entropy_evlogs isOpen_Ioi ordConnected_Ioi hC.1 hC.2.1
    (by unfold WeibullMin.pdf; fun_prop) (log c) 0 1 0 (1 - 1 / c) ?_
    (by rw [WeibullMin.entropy]; ring)
  intro q h0 h1
  have hM : 0 < -log (1 - q) := neg_pos.2 (log_neg (by linarith) (by linarith))
  have hx : 0 < WeibullMin.ppf c q := hC.2.1.mem q h0 h1
  rw [← (hC.2.2.2.1 _ hx).2, WeibullMin.logpdf, xlogy, WeibullMin.ppf, log1p_neg, log_rpow hM,
    ← rpow_mul hM.le, one_div_mul_cancel hc.ne', rpow_one]
  field_simp
  ring

theorem C262_weibull_max (c : ℝ) (hc : 0 < c) :
    HasEntropy (Iio 0) (WeibullMax.pdf c) (WeibullMax.entropy c) := by
  have hC := C251_weibull_max c hc
  refine entropy_evlogs isOpen_Iio ordConnected_Iio hC.1 hC.2.1
    (by unfold WeibullMax.pdf; fun_prop) (log c) 1 0 (1 - 1 / c) 0 ?_
    (by rw [WeibullMax.entropy]; ring)
  intro q h0 h1
  have hM : 0 < -log q := neg_pos.2 (log_neg h0 h1)
  have hx : WeibullMax.ppf c q < 0 := hC.2.1.mem q h0 h1
  rw [← (hC.2.2.2.1 _ hx).2, WeibullMax.logpdf, xlogy, WeibullMax.ppf, neg_neg, log_rpow hM,
    ← rpow_mul hM.le, one_div_mul_cancel hc.ne', rpow_one]
  field_simp
  ring

theorem C262_invweibull (c : ℝ) (hc : 0 < c) :
    HasEntropy (Ioi 0) (InvWeibull.pdf c) (InvWeibull.entropy c) := by
  have hC := C251_invweibull c hc
  refine entropy_evlogs isOpen_Ioi ordConnected_Ioi hC.1 hC.2
    (by unfold InvWeibull.pdf; fun_prop) (log c) 1 0 (1 + 1 / c) 0 ?_
    (by rw [InvWeibull.entropy]; ring)
  intro q h0 h1
  have hM : 0 < -log q := neg_pos.2 (log_neg h0 h1)
  have hx : 0 < InvWeibull.ppf c q := hC.2.mem q h0 h1
  rw [InvWeibull.pdf, log_mul (by positivity) (exp_pos _).ne', log_exp, log_mul hc.ne'
    (by positivity), log_rpow hx, InvWeibull.ppf, log_rpow hM, ← rpow_mul hM.le,
    show -1 / c * -c = 1 by field_simp, rpow_one]
  field_simp
  ring

theorem C262_gumbel_r : HasEntropy univ GumbelR.pdf GumbelR.entropy := by
  refine entropy_evlogs isOpen_univ ordConnected_univ C252_gumbel_r.1 C252_gumbel_r.2.1
    (by unfold GumbelR.pdf GumbelR.logpdf; fun_prop) 0 1 0 1 0 ?_ (by rw [GumbelR.entropy]; ring)
  intro q h0 h1
  have hM : 0 < -log q := neg_pos.2 (log_neg h0 h1)
  rw [GumbelR.pdf, log_exp, GumbelR.logpdf, GumbelR.ppf, neg_neg, exp_log hM]
  ring

theorem C262_gumbel_l : HasEntropy univ GumbelL.pdf GumbelL.entropy := by
  refine entropy_evlogs isOpen_univ ordConnected_univ C252_gumbel_l.1 C252_gumbel_l.2.1
    (by unfold GumbelL.pdf GumbelL.logpdf; fun_prop) 0 0 1 0 1 ?_ (by rw [GumbelL.entropy]; ring)
  intro q h0 h1
  have hM : 0 < -log (1 - q) := neg_pos.2 (log_neg (by linarith) (by linarith))
  rw [GumbelL.pdf, log_exp, GumbelL.logpdf, GumbelL.ppf, log1p_neg, exp_log hM]
  ring

theorem C262_rayleigh : HasEntropy (Ioi 0) Rayleigh.pdf Rayleigh.entropy := by
  refine entropy_evlogs isOpen_Ioi ordConnected_Ioi C251_rayleigh.1 C251_rayleigh.2.1
    (by unfold Rayleigh.pdf Rayleigh.logpdf; fun_prop) (1 / 2 * log 2) 0 1 0 (1 / 2) ?_
    (by rw [Rayleigh.entropy]; ring)
  intro q h0 h1
  have hM : 0 < -log (1 - q) := neg_pos.2 (log_neg (by linarith) (by linarith))
  have h2 : 0 ≤ -2 * log (1 - q) := by linarith
  rw [Rayleigh.pdf, log_exp, Rayleigh.logpdf, Rayleigh.ppf, log1p_neg, mul_assoc, mul_self_sqrt h2,
    log_sqrt h2, show -2 * log (1 - q) = 2 * -log (1 - q) by ring, log_mul two_ne_zero hM.ne']
  ring

theorem C262_genextreme (c : ℝ) :
    HasEntropy (GenExtreme.supp c) (GenExtreme.pdf c) (GenExtreme.entropy c) := by
  have hC := C252_genextreme c
  refine entropy_evlogs (gev_open c).1 (gev_open c).2 hC.1 hC.2.1
    ?_ 0 1 0 (1 - c) 0 ?_ (by rw [GenExtreme.entropy]; ring)
  · by_cases hc : c = 0
    · unfold GenExtreme.pdf GenExtreme.logpdf GenExtreme.loglogcdf log1p
      simp only [hc, ne_eq, not_true_eq_false, if_false]
      fun_prop
    · unfold GenExtreme.pdf GenExtreme.logpdf GenExtreme.loglogcdf log1p
      simp only [hc, ne_eq, not_false_eq_true, if_true]
      fun_prop
  · intro q h0 h1
    have hM : 0 < -log q := neg_pos.2 (log_neg h0 h1)
    by_cases hc : c = 0
    · simp only [GenExtreme.pdf, log_exp, GenExtreme.logpdf, GenExtreme.loglogcdf, GenExtreme.ppf,
        hc, ne_eq, not_true_eq_false, if_false, neg_neg, exp_log hM, log1p, neg_zero, add_zero,
        log_one]
      ring
    · have e : 1 + -(c * (-expm1 (-c * -log (-log q)) / c)) = exp (c * log (-log q)) := by
        rw [expm1, neg_mul_neg]
        field_simp
        ring
      simp only [GenExtreme.pdf, log_exp, GenExtreme.logpdf, GenExtreme.loglogcdf, GenExtreme.ppf,
        hc, ne_eq, not_false_eq_true, if_true, log1p, neg_mul]
      rw [← neg_mul c (-log (-log q)), e, log_exp, mul_div_cancel_left₀ _ hc, exp_log hM]
      ring

example : GenExtreme.entropy 1 = 1 ∧ GenExtreme.entropy 0 = GumbelR.entropy := by
  constructor <;> simp [GenExtreme.entropy, GumbelR.entropy]

/-! ### Powers -/

theorem C262_uniform : HasEntropy (Ioo 0 1) Uniform.pdf Uniform.entropy := by
  simp [HasEntropy, Uniform.pdf, Uniform.entropy]

theorem C262_pareto (b : ℝ) (hb : 0 < b) :
    HasEntropy (Ioi 1) (Pareto.pdf b) (Pareto.entropy b) := by
  have hC := C253_pareto b hb
  refine entropy_evlogs isOpen_Ioi ordConnected_Ioi hC.1 hC.2.1
    (by unfold Pareto.pdf; fun_prop) (log b) 0 (1 + 1 / b) 0 0 ?_ (by rw [Pareto.entropy]; ring)
  intro q h0 h1
  have hM : 0 < 1 - q := by linarith
  rw [Pareto.pdf, Pareto.ppf, ← rpow_mul hM.le, log_mul hb.ne' (by positivity), log_rpow hM]
  field_simp
  ring

theorem C262_lomax (c : ℝ) (hc : 0 < c) :
    HasEntropy (Ioi 0) (Lomax.pdf c) (Lomax.entropy c) := by
  have hC := C253_lomax c hc
  refine entropy_evlogs isOpen_Ioi ordConnected_Ioi hC.1 hC.2.1
    (by unfold Lomax.pdf; fun_prop) (log c) 0 (1 + 1 / c) 0 0 ?_ (by rw [Lomax.entropy]; ring)
  intro q h0 h1
  have hx : 0 < Lomax.ppf c q := hC.2.1.mem q h0 h1
  rw [← (hC.2.2.2.1 _ hx).2, Lomax.logpdf, Lomax.ppf, log1p_neg, log1p, expm1, add_sub_cancel,
    log_exp]
  field_simp
  ring

theorem C262_genpareto (c : ℝ) :
    HasEntropy (GenPareto.supp c) (GenPareto.pdf c) (GenPareto.entropy c) := by
  have hC := C252_genpareto c
  refine entropy_evlogs (gp_open c).1 (gp_open c).2 hC.1 hC.2.1
    ?_ 0 0 (1 + c) 0 0 ?_ (by rw [GenPareto.entropy]; ring)
  · unfold GenPareto.pdf GenPareto.logpdf xlog1py
    by_cases hc : c = 0
    · simp only [hc, ne_eq, not_true_eq_false, if_false]
      fun_prop
    · simp only [hc, ne_eq, not_false_eq_true, if_true]
      fun_prop
  · intro q h0 h1
    have hx := hC.2.1.mem q h0 h1
    have h2 := (hC.2.2.2.2.2 _ hx).2
    rw [hC.2.2.1 _ hx, hC.2.1.cdf_ppf q h0 h1] at h2
    rw [GenPareto.pdf, log_exp, ← h2, GenPareto.logpdf, GenPareto.logsf]
    by_cases hc : c = 0
    · simp [hc]
    · simp only [hc, ne_eq, not_false_eq_true, if_true, xlog1py, log1p]
      ring

theorem C262_powerlaw (a : ℝ) (ha : 0 < a) :
    HasEntropy (Ioo 0 1) (PowerLaw.pdf a) (PowerLaw.entropy a) := by
  have hC := C253_powerlaw a ha
  refine entropy_evlogs isOpen_Ioo ordConnected_Ioo hC.1 hC.2.1
    (by unfold PowerLaw.pdf; fun_prop) (log a) (1 - 1 / a) 0 0 0 ?_ (by rw [PowerLaw.entropy]; ring)
  intro q h0 h1
  rw [PowerLaw.pdf, PowerLaw.ppf, ← rpow_mul h0.le, log_mul ha.ne' (by positivity), log_rpow h0]
  field_simp
  ring

theorem C262_fisk (c : ℝ) (hc : 0 < c) : HasEntropy (Ioi 0) (Fisk.pdf c) (Fisk.entropy c) := by
  have hC := C253_fisk c hc
  refine entropy_evlogs isOpen_Ioi ordConnected_Ioi hC.1 hC.2.1
    ?_ (log c) (1 - 1 / c) (1 + 1 / c) 0 0 ?_ (by rw [Fisk.entropy]; ring)
  · unfold Fisk.pdf Burr.pdf
    exact Measurable.ite (measurableSet_singleton 0) (by fun_prop) (by fun_prop)
  · intro q h0 h1
    have hx : 0 < Fisk.ppf c q := hC.2.1.mem q h0 h1
    have hM : 0 < 1 - q := by linarith
    have e : q ^ (-1 / (1 : ℝ)) - 1 = (1 - q) / q := by
      rw [div_one, rpow_neg_one]
      field_simp
    have hr : 0 < (1 - q) / q := by positivity
    have e1 : Fisk.ppf c q ^ (-c) = (1 - q) / q := by
      rw [Fisk.ppf, Burr.ppf, e, ← rpow_mul hr.le, show -1 / c * -c = 1 by field_simp, rpow_one]
    have e2 : log (Fisk.ppf c q) = -1 / c * (log (1 - q) - log q) := by
      rw [Fisk.ppf, Burr.ppf, e, log_rpow hr, log_div hM.ne' h0.ne']
    rw [← (hC.2.2.2.1 _ hx).2, Fisk.logpdf, Burr.logpdf, if_neg hx.ne', e1, xlogy, xlog1py, e2,
      log_one, show 1 + (1 - q) / q = q⁻¹ by field_simp; ring, log_inv]
    field_simp
    ring

/-! ### The logistic family -/

theorem C262_logistic : HasEntropy univ Logistic.pdf Logistic.entropy := by
  refine entropy_evlogs isOpen_univ ordConnected_univ C254_logistic.1 C254_logistic.2.1
    (by unfold Logistic.pdf Logistic.logpdf log1p; fun_prop) 0 1 1 0 0 ?_
    (by rw [Logistic.entropy]; ring)
  intro q h0 h1
  have hM : 0 < 1 - q := by linarith
  rw [Logistic.pdf, log_exp, Logistic.logpdf, Logistic.ppf, logit, exp_neg,
    exp_log (by positivity), log1p, show 1 + (q / (1 - q))⁻¹ = q⁻¹ by field_simp; ring, log_inv,
    log_div h0.ne' hM.ne']
  ring

theorem hasInt_log_1pq : HasInt (Ioo 0 1) (fun q => log (1 + q)) (2 * log 2 - 1) := by
  refine hasInt_ftc zero_le_one (F := fun q => (1 + q) * log (1 + q) - q) ?_ ?_ ?_ ?_
  · refine ContinuousOn.sub ?_ continuousOn_id
    exact (continuous_mul_log.comp (continuous_const.add continuous_id)).continuousOn
  · intro q hq
    exact (ContinuousAt.log (by fun_prop) (by linarith [hq.1])).continuousWithinAt
  · intro q hq
    have h : (1 + q) ≠ 0 := by linarith [hq.1]
    refine HasDerivAt.congr_deriv ((((hasDerivAt_id q).const_add 1).mul
      (((hasDerivAt_id q).const_add 1).log h)).sub (hasDerivAt_id q)) ?_
    simp only [id]
    field_simp
    ring
  · simp
    norm_num

theorem C262_halflogistic : HasEntropy (Ioi 0) HalfLogistic.pdf HalfLogistic.entropy := by
  have hC := C254_halflogistic
  have hi := (hasInt_logs (-log 2) 0 1).add hasInt_log_1pq
  refine entropy_ppf measurableSet_Ioi ordConnected_Ioi hC.1 hC.2.1
    (by unfold HalfLogistic.pdf HalfLogistic.logpdf log1p; fun_prop) ?_ hi
    (by rw [HalfLogistic.entropy]; ring)
  intro q hq
  have hM : 0 < 1 - q := by linarith [hq.2]
  have hP : 0 < 1 + q := by linarith [hq.1]
  have e : HalfLogistic.ppf q = log ((1 + q) / (1 - q)) := by
    rw [HalfLogistic.ppf, artanh_eq_half_log ⟨by linarith [hq.1], hq.2.le⟩]
    ring
  rw [HalfLogistic.pdf, log_exp, HalfLogistic.logpdf, e, exp_neg, exp_log (by positivity), log1p,
    show 1 + ((1 + q) / (1 - q))⁻¹ = 2 / (1 + q) by field_simp; ring, log_div hP.ne' hM.ne',
    log_div two_ne_zero hP.ne']
  ring

theorem C262_genhalflogistic (c : ℝ) (hc : 0 < c) :
    HasEntropy (Ioo 0 (1 / c)) (GenHalfLogistic.pdf c) (GenHalfLogistic.entropy c) := by
  have hC := C254_genhalflogistic c hc
  have hi := (hasInt_logs (-log 2) 0 (1 - c)).add (hasInt_log_1pq.const_mul (1 + c))
  refine entropy_ppf measurableSet_Ioo ordConnected_Ioo hC.1 hC.2
    (by unfold GenHalfLogistic.pdf; fun_prop) ?_ hi (by rw [GenHalfLogistic.entropy]; ring)
  intro q hq
  have hM : 0 < 1 - q := by linarith [hq.2]
  have hP : 0 < 1 + q := by linarith [hq.1]
  have hr : 0 < (1 - q) / (1 + q) := by positivity
  have ht : 1 - c * GenHalfLogistic.ppf c q = ((1 - q) / (1 + q)) ^ c := by
    rw [GenHalfLogistic.ppf]
    field_simp
    ring
  have e0 : (((1 - q) / (1 + q)) ^ c) ^ (1 / c - 1) = ((1 - q) / (1 + q)) ^ (1 - c) := by
    rw [← rpow_mul hr.le]
    congr 1
    field_simp
  have e1 : ((1 - q) / (1 + q)) ^ (1 - c) * ((1 - q) / (1 + q)) ^ c = (1 - q) / (1 + q) := by
    rw [← rpow_add hr, sub_add_cancel, rpow_one]
  simp only [GenHalfLogistic.pdf, ht, e0, e1]
  rw [show 1 + (1 - q) / (1 + q) = 2 / (1 + q) by field_simp; ring, log_div (by positivity)
    (by positivity), log_mul two_ne_zero (by positivity), log_rpow hr, log_pow,
    log_div hM.ne' hP.ne', log_div two_ne_zero hP.ne']
  push_cast
  ring

end Wafo.Dist
