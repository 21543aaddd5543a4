import Verif.Dist.NormMomProps2

/-!
# C266: the entropies of the normal family, and the mean of the Moyal distribution (C265)
-/

namespace Wafo.Dist

open MeasureTheory Set Filter Topology Real Wafo.Gauss

set_option linter.unusedSectionVars false

theorem hasEntropy_of {I : Set ℝ} (hI : MeasurableSet I) {f l : ℝ → ℝ} {h : ℝ}
    (hl : ∀ x ∈ I, log (f x) = l x) (hi : HasInt I (fun x => l x * f x) (-h)) : HasEntropy I f h := by
  have e : ∀ x ∈ I, f x * log (f x) = l x * f x := fun x hx => by rw [hl x hx, mul_comm]
  exact ⟨(integrableOn_congr_fun e hI).2 hi.1, by
    rw [setIntegral_congr_fun hI e, hi.2, neg_neg]⟩

theorem C266_norm : HasEntropy univ Norm.pdf Norm.entropy := by
  refine hasEntropy_of (l := fun x => -log (2 * π) / 2 - x ^ 2 / 2) MeasurableSet.univ
    (fun x _ => ?_) ?_
  · rw [← norm_logpdf_eq, Norm.logpdf, log_sqrt (by positivity)]
    ring
  · refine (((hasInt_nmom 0).const_mul (-log (2 * π) / 2)).add
      ((hasInt_nmom 2).const_mul (-1 / 2))).congr MeasurableSet.univ (fun x _ => ?_) ?_
    · rw [norm_pdf_eq]
      ring
    · norm_num [nmom, Norm.entropy]
      ring

theorem C266_halfnorm : HasEntropy (Ioi 0) HalfNorm.pdf HalfNorm.entropy := by
  obtain ⟨ninv, hni⟩ := exists_normInv
  have hC := (C263_halfnorm hni).1
  have hL := (C263_halfnorm hni).2.2
  have h0 : HasInt (Ioi 0) (fun x => x ^ 0 * HalfNorm.pdf x) 1 := hasMoment_zero hC
  have hst := C265_halfnorm
  have h1 : HasInt (Ioi 0) (fun x => x ^ 1 * HalfNorm.pdf x) √(2 / π) := hst.mean
  obtain ⟨m, hm, hv1, hv2, _⟩ := hst.var
  have hmm : m = √(2 / π) := hm.2.symm.trans hst.mean.2
  rw [hmm] at hv1 hv2
  have h2 : HasInt (Ioi 0) (fun x => (x - √(2 / π)) ^ 2 * HalfNorm.pdf x) (1 - 2 / π) := ⟨hv1, hv2⟩
  have hq : √(2 / π) ^ 2 = 2 / π := sq_sqrt (by have := pi_pos; positivity)
  refine hasEntropy_of (l := HalfNorm.logpdf) measurableSet_Ioi (fun x hx => (hL x hx).2.symm) ?_
  refine ((h2.const_mul (-1 / 2)).add ((h1.const_mul (-√(2 / π))).add
    (h0.const_mul (0.5 * log (2 / π) + √(2 / π) ^ 2 / 2)))).congr measurableSet_Ioi
    (fun x _ => ?_) ?_
  · rw [HalfNorm.logpdf]
    ring
  · rw [HalfNorm.entropy, ← inv_div 2 π, log_inv]
    linear_combination (1 / 2) * hq

theorem C266_lognorm (s : ℝ) (hs : 0 < s) :
    HasEntropy (Ioi 0) (LogNorm.pdf s) (LogNorm.entropy s) := by
  refine hasEntropy_of (l := LogNorm.logpdf s) measurableSet_Ioi
    (fun x _ => by rw [LogNorm.pdf, log_exp]) ?_
  refine NormTr.expect measurableSet_Ioi (lognorm_tr hs) ?_
  refine ((((hasInt_nmom 2).const_mul (-1 / 2)).add ((hasInt_nmom 1).const_mul (-s))).add
    ((hasInt_nmom 0).const_mul (-log s - log (2 * π) / 2))).congr MeasurableSet.univ
    (fun y _ => ?_) ?_
  · have := exp_pos (s * y)
    rw [LogNorm.logpdf, log_mul (by positivity) (by positivity), log_mul hs.ne' this.ne', log_exp,
      log_sqrt (by positivity)]
    field_simp
    ring
  · norm_num [nmom, LogNorm.entropy]
    ring

example : (0 : ℝ) < 1 ∧ LogNorm.entropy 1 = Gilbrat.entropy := by
  refine ⟨one_pos, ?_⟩
  rw [LogNorm.entropy, Gilbrat.entropy, log_one]
  ring

theorem C266_gilbrat : HasEntropy (Ioi 0) Gilbrat.pdf Gilbrat.entropy := by
  have h := C266_lognorm 1 one_pos
  have e : LogNorm.entropy 1 = Gilbrat.entropy := by
    rw [LogNorm.entropy, Gilbrat.entropy, log_one]
    ring
  rw [e] at h
  exact h

/-- `moyal`: the mean.  Variance, skewness and kurtosis are not treated here. -/
theorem C265_moyal_mean_partial (zeta3 : ℝ) :
    HasMoment univ Moyal.pdf 1 (Moyal.stats zeta3).1 := by
  let μ : Measure ℝ :=
    (volume.restrict (Ioi 0)).withDensity fun t => ENNReal.ofReal (GammaD.pdf 0.5 t)
  have hμ : HasLaw μ (Ioi 0) (GammaD.pdf 0.5) := rfl
  have hlaw := C264_moyal μ hμ
  have hgm : Measurable (GammaD.pdf 0.5) := by
    unfold GammaD.pdf GammaD.logpdf xlogy
    fun_prop
  have hpm : Measurable Moyal.pdf := by
    unfold Moyal.pdf
    fun_prop
  have hrm : Measurable Moyal.rvs := by
    unfold Moyal.rvs
    fun_prop
  have hG : Gamma 0.5 = √π := by
    rw [show (0.5 : ℝ) = 1 / 2 by norm_num, Gamma_one_half_eq]
  have hs : 0 < √π := sqrt_pos.2 pi_pos
  have hpdf : ∀ t ∈ Ioi (0 : ℝ), GammaD.pdf 0.5 t = 1 / √π * (t ^ (1 / 2 - 1 : ℝ) * exp (-t)) := by
    intro t ht
    rw [GammaD.pdf, GammaD.logpdf, xlogy, gammaln, hG, abs_of_pos hs, exp_sub, exp_sub, exp_log hs,
      rpow_def_of_pos ht, show ((0.5 : ℝ) - 1) * log t = log t * (1 / 2 - 1) by ring, exp_neg]
    field_simp
  refine (hlaw.int_iff MeasurableSet.univ hpm (fun x _ => ?_)).1
    ((pint_map hrm (k := fun x => x ^ 1) (by fun_prop)).2
      ((hμ.int_iff measurableSet_Ioi hgm (fun x _ => (exp_pos _).le)).2 ?_))
  · rw [Moyal.pdf]
    positivity
  · have h1 := hasInt_log_gamma (1 / 2) (by norm_num)
    rw [hasDerivAt_Gamma_one_half.deriv] at h1
    have h0 : HasInt (Ioi 0) (fun t : ℝ => t ^ (1 / 2 - 1 : ℝ) * exp (-t)) √π := by
      have h2 := GammaIntegral_convergent (s := 1 / 2) (by norm_num)
      have h3 := Gamma_eq_integral (s := 1 / 2) (by norm_num)
      rw [Gamma_one_half_eq] at h3
      exact (show HasInt (Ioi 0) _ √π from ⟨h2, h3.symm⟩).congr measurableSet_Ioi
        (fun t _ => mul_comm _ _) rfl
    refine ((h1.const_mul (-(1 / √π))).add (h0.const_mul (-(log 2 / √π)))).congr measurableSet_Ioi
      (fun t ht => ?_) ?_
    · rw [hpdf t ht, Moyal.rvs, log_mul two_ne_zero (ne_of_gt (mem_Ioi.1 ht))]
      ring
    · simp only [Moyal.stats]
      field_simp
      ring

example : (Moyal.stats 1).1 = log 2 + eulerMascheroniConstant := rfl

end Wafo.Dist
