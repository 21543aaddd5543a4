import Mathlib.Analysis.SpecialFunctions.Gamma.Basic
import Mathlib.Analysis.SpecialFunctions.Gamma.BohrMollerup
import Mathlib.MeasureTheory.Integral.IntegralEqImproper
import Mathlib.Analysis.SpecialFunctions.ImproperIntegrals
import Mathlib.Tactic.LinearCombination
import Verif.Spec.Model

/-!
Integrals and extremes of the generalised gamma spectrum.
-/

set_option linter.unusedSectionVars false

namespace Wafo.Spec

open Real MeasureTheory Set

/-- Parameters for which the spectrum has finite energy. -/
structure Shape (N M : ℝ) : Prop where
  hN : 1 < N
  hM : 0 < M

theorem gengam_nonpos (N M w : ℝ) (h : w ≤ 0) : gengam N M w = 0 := by
  unfold gengam
  exact if_neg (not_lt.2 h)

theorem gengam_pos (N M w : ℝ) (h : 0 < w) : 0 < gengam N M w := by
  unfold gengam
  rw [if_pos h]
  exact exp_pos _

theorem gengam_nonneg (N M w : ℝ) : 0 ≤ gengam N M w := by
  rcases lt_or_ge 0 w with h | h
  · exact (gengam_pos N M w h).le
  · rw [gengam_nonpos N M w h]

/-- The formula of the documentation. -/
theorem gengam_eq {N M : ℝ} (h : Shape N M) (w : ℝ) (hw : 0 < w) :
    gengam N M w = (N / M) ^ ((N - 1) / M) * M / Gamma ((N - 1) / M) * w ^ (-N) * exp (-(N / M) * w ^ (-M)) := by
  have hN := h.hN
  have hM := h.hM
  have hB : 0 < N / M := div_pos (by linarith) hM
  have hC : 0 < (N - 1) / M := div_pos (by linarith) hM
  have hG := Gamma_pos_of_pos hC
  unfold gengam
  rw [if_pos hw]
  rw [exp_sub, exp_sub, exp_sub, exp_add, exp_log hM, exp_log hG, rpow_def_of_pos hB, rpow_def_of_pos hw, rpow_def_of_pos hw]
  rw [show log (N / M) * ((N - 1) / M) = (N - 1) / M * log (N / M) by ring, show log w * -N = -(N * log w) by ring,
    show log w * -M = -M * log w by ring, exp_neg (N * log w), neg_mul (N / M), exp_neg (N / M * _)]
  field_simp

theorem moment_aux (B M s : ℝ) (hB : 0 < B) (hM : 0 < M) (hs : 0 < s) :
    IntegrableOn (fun w : ℝ => w ^ (-M * s - 1) * exp (-B * w ^ (-M))) (Ioi 0) ∧
    ∫ w in Ioi (0 : ℝ), w ^ (-M * s - 1) * exp (-B * w ^ (-M)) = 1 / M * ((1 / B) ^ s * Gamma s) := by
  have hM' : -M ≠ 0 := by linarith
  have e : ∀ w ∈ Ioi (0 : ℝ), (|-M| * w ^ (-M - 1)) • (fun y : ℝ => y ^ (s - 1) * exp (-(B * y))) (w ^ (-M))
      = M * (w ^ (-M * s - 1) * exp (-B * w ^ (-M))) := by
    intro w hw
    have hw' : 0 < w := hw
    simp only [smul_eq_mul, abs_neg, abs_of_pos hM]
    rw [← rpow_mul hw'.le, show -(B * w ^ (-M)) = -B * w ^ (-M) by ring,
      show -M * s - 1 = (-M - 1) + -M * (s - 1) by ring, rpow_add hw']
    ring
  have h1 := integral_comp_rpow_Ioi (fun y : ℝ => y ^ (s - 1) * exp (-(B * y))) hM'
  have h2 := integrableOn_Ioi_comp_rpow_iff (fun y : ℝ => y ^ (s - 1) * exp (-(B * y))) hM'
  rw [integral_rpow_mul_exp_neg_mul_Ioi hs hB] at h1
  have hi : IntegrableOn (fun y : ℝ => y ^ (s - 1) * exp (-(B * y))) (Ioi 0) := by
    by_contra hc
    have := integral_rpow_mul_exp_neg_mul_Ioi hs hB
    rw [integral_undef hc] at this
    have h3 : 0 < (1 / B) ^ s * Gamma s := mul_pos (rpow_pos_of_pos (by positivity) _) (Gamma_pos_of_pos hs)
    linarith
  have hi2 := h2.2 hi
  rw [integrableOn_congr_fun e measurableSet_Ioi] at hi2
  rw [setIntegral_congr_fun measurableSet_Ioi e, integral_const_mul] at h1
  refine ⟨?_, by rw [← h1]; field_simp⟩
  have := hi2.const_mul (1 / M)
  refine IntegrableOn.congr_fun this (fun w _ => ?_) measurableSet_Ioi
  field_simp

/-- Moments of the dimensionless spectrum. -/
theorem gengam_moment {N M : ℝ} (h : Shape N M) (k : ℝ) (hk : k < N - 1) :
    IntegrableOn (fun w : ℝ => w ^ k * gengam N M w) (Ioi 0) ∧
    ∫ w in Ioi (0 : ℝ), w ^ k * gengam N M w = (N / M) ^ (k / M) * Gamma ((N - 1 - k) / M) / Gamma ((N - 1) / M) := by
  have hN := h.hN
  have hM := h.hM
  have hB : 0 < N / M := div_pos (by linarith) hM
  have hC : 0 < (N - 1) / M := div_pos (by linarith) hM
  have hs : 0 < (N - 1 - k) / M := div_pos (by linarith) hM
  have hG := Gamma_pos_of_pos hC
  obtain ⟨h1, h2⟩ := moment_aux (N / M) M ((N - 1 - k) / M) hB hM hs
  have e : ∀ w ∈ Ioi (0 : ℝ), w ^ k * gengam N M w = ((N / M) ^ ((N - 1) / M) * M / Gamma ((N - 1) / M)) *
      (w ^ (-M * ((N - 1 - k) / M) - 1) * exp (-(N / M) * w ^ (-M))) := by
    intro w hw
    rw [gengam_eq h w hw, show -M * ((N - 1 - k) / M) - 1 = k + -N by field_simp; ring, rpow_add hw]
    ring
  refine ⟨IntegrableOn.congr_fun (h1.const_mul _) (fun w hw => (e w hw).symm) measurableSet_Ioi, ?_⟩
  rw [setIntegral_congr_fun measurableSet_Ioi e, integral_const_mul, h2]
  rw [show k / M = (N - 1) / M - (N - 1 - k) / M by ring, rpow_sub hB, one_div (N / M), inv_rpow hB.le]
  field_simp

theorem gengam_integrable {N M : ℝ} (h : Shape N M) : IntegrableOn (gengam N M) (Ioi 0) := by
  have := (gengam_moment h 0 (by linarith [h.hN])).1
  simpa using this

theorem gengam_integral {N M : ℝ} (h : Shape N M) : ∫ w in Ioi (0 : ℝ), gengam N M w = 1 := by
  have := (gengam_moment h 0 (by linarith [h.hN])).2
  have hG := Gamma_pos_of_pos (div_pos (by linarith [h.hN]) h.hM : 0 < (N - 1) / M)
  simpa [hG.ne'] using this

/-- The only maximum is at one. -/
theorem gengam_lt {N M : ℝ} (hN : 0 < N) (hM : 0 < M) (w : ℝ) (hw : w ≠ 1) : gengam N M w < gengam N M 1 := by
  rcases lt_or_ge 0 w with h | h
  · unfold gengam
    rw [if_pos h, if_pos one_pos]
    simp only [log_one, mul_zero, exp_zero, mul_one, sub_zero]
    rw [exp_lt_exp]
    have ht : 0 < exp (-M * log w) := exp_pos _
    have ht1 : exp (-M * log w) ≠ 1 := by
      intro hc
      rw [exp_eq_one_iff] at hc
      rcases mul_eq_zero.1 hc with hc | hc
      · linarith
      · rcases log_eq_zero.1 hc with hc | hc | hc
        · linarith
        · exact hw hc
        · linarith
    have := log_lt_sub_one_of_pos ht ht1
    rw [log_exp] at this
    have hNM : 0 < N / M := div_pos hN hM
    have e : N * log w = -(N / M) * (-M * log w) := by field_simp
    rw [e]
    nlinarith
  · rw [gengam_nonpos N M w h]
    exact gengam_pos N M 1 one_pos

/-- Rescaling of the frequency axis. -/
theorem scale_integral (f : ℝ → ℝ) (a wp : ℝ) (hwp : 0 < wp) :
    ∫ w in Ioi (0 : ℝ), a / wp * f (w / wp) = a * ∫ u in Ioi (0 : ℝ), f u := by
  have := integral_comp_mul_left_Ioi f 0 (inv_pos.2 hwp)
  simp only [mul_zero, inv_inv, smul_eq_mul] at this
  rw [integral_const_mul]
  simp only [div_eq_inv_mul] at this ⊢
  rw [this]
  field_simp

theorem scale_integrable (f : ℝ → ℝ) (a wp : ℝ) (hwp : 0 < wp) (hf : IntegrableOn f (Ioi 0)) :
    IntegrableOn (fun w => a / wp * f (w / wp)) (Ioi 0) := by
  have := (integrableOn_Ioi_comp_mul_left_iff f 0 (inv_pos.2 hwp)).2 (by simpa using hf)
  simp only [div_eq_inv_mul (_ : ℝ) wp]
  exact this.const_mul _

/-! ### Peak enhancement -/

theorem peakE_one_le {g sa sb : ℝ} (hg : 1 ≤ g) (w : ℝ) : 1 ≤ peakE g sa sb w :=
  one_le_rpow hg (exp_pos _).le

theorem peakE_le {g sa sb : ℝ} (hg : 1 ≤ g) (w : ℝ) : peakE g sa sb w ≤ g := by
  unfold peakE
  conv_rhs => rw [← rpow_one g]
  apply rpow_le_rpow_of_exponent_le hg
  rw [exp_le_one_iff]
  have := sq_nonneg ((max w 0 - 1) / if 1 < max w 0 then sb else sa)
  linarith

theorem peakE_peak (g sa sb : ℝ) : peakE g sa sb 1 = g := by
  unfold peakE
  norm_num

theorem peakE_gt {g sa sb : ℝ} (hg : 1 < g) (w : ℝ) : 1 < peakE g sa sb w :=
  one_lt_rpow hg (exp_pos _)

theorem peakE_gamma_one (sa sb w : ℝ) : peakE 1 sa sb w = 1 := by
  unfold peakE
  exact one_rpow _

theorem peakE_measurable (g sa sb : ℝ) : Measurable (peakE g sa sb) := by
  have h : MeasurableSet {w : ℝ | 1 < max w 0} := measurableSet_lt measurable_const (measurable_id.max measurable_const)
  have h1 : Measurable fun w : ℝ => if 1 < max w 0 then sb else sa := Measurable.ite h measurable_const measurable_const
  exact Measurable.pow measurable_const (measurable_exp.comp
    (((((measurable_id.max measurable_const).sub measurable_const).div h1).pow_const 2).const_mul 0.5).neg)

theorem localspec_integrable {g sa sb N M : ℝ} (hg : 1 ≤ g) (h : Shape N M) :
    IntegrableOn (localspec g sa sb N M) (Ioi 0) := by
  have hi := gengam_integrable h
  refine Integrable.mono' (hi.const_mul g) ?_ ?_
  · exact ((peakE_measurable g sa sb).aestronglyMeasurable).mul hi.aestronglyMeasurable
  · refine ae_of_all _ fun w => ?_
    have h1 := peakE_le (sa := sa) (sb := sb) hg w
    have h2 := peakE_one_le (sa := sa) (sb := sb) hg w
    have h3 := gengam_nonneg N M w
    rw [localspec, norm_of_nonneg (by positivity)]
    exact mul_le_mul_of_nonneg_right h1 h3

theorem localspec_nonneg {g sa sb N M : ℝ} (hg : 1 ≤ g) (w : ℝ) : 0 ≤ localspec g sa sb N M w := by
  have h2 := peakE_one_le (sa := sa) (sb := sb) hg w
  have h3 := gengam_nonneg N M w
  unfold localspec
  positivity

theorem localspec_pos {g sa sb N M : ℝ} (hg : 1 ≤ g) (w : ℝ) (hw : 0 < w) : 0 < localspec g sa sb N M w := by
  have h2 := peakE_one_le (sa := sa) (sb := sb) hg w
  have h3 := gengam_pos N M w hw
  unfold localspec
  positivity

/-- A positive function has a positive integral. -/
theorem pos_integral (f : ℝ → ℝ) (a : ℝ) (hf : IntegrableOn f (Ioi a)) (hpos : ∀ w, a < w → 0 < f w) :
    0 < ∫ w in Ioi a, f w := by
  rw [setIntegral_pos_iff_support_of_nonneg_ae]
  · have : Function.support f ∩ Ioi a = Ioi a := by
      ext w
      simp only [mem_inter_iff, Function.mem_support, mem_Ioi, and_iff_right_iff_imp]
      exact fun hw => (hpos w hw).ne'
    rw [this, Real.volume_Ioi]
    exact ENNReal.zero_lt_top
  · exact (ae_restrict_iff' measurableSet_Ioi).2 (ae_of_all _ fun w hw => (hpos w hw).le)
  · exact hf

theorem localspec_le {g sa sb N M : ℝ} (hg : 1 ≤ g) (h : Shape N M) : ∫ w in Ioi (0 : ℝ), localspec g sa sb N M w ≤ g := by
  have h1 : ∫ w in Ioi (0 : ℝ), g * gengam N M w = g := by rw [integral_const_mul, gengam_integral h, mul_one]
  refine le_trans (setIntegral_mono_on (localspec_integrable hg h) ((gengam_integrable h).const_mul g) measurableSet_Ioi
    fun w _ => ?_) h1.le
  exact mul_le_mul_of_nonneg_right (peakE_le hg w) (gengam_nonneg N M w)

theorem one_lt_localspec {g sa sb N M : ℝ} (hg : 1 < g) (h : Shape N M) : 1 < ∫ w in Ioi (0 : ℝ), localspec g sa sb N M w := by
  have hp : 0 < ∫ w in Ioi (0 : ℝ), (localspec g sa sb N M w - gengam N M w) := by
    refine pos_integral _ 0 ((localspec_integrable hg.le h).sub (gengam_integrable h)) fun w hw => ?_
    have h1 := peakE_gt (sa := sa) (sb := sb) hg w
    have h2 := gengam_pos N M w hw
    unfold localspec
    nlinarith
  rw [integral_sub (localspec_integrable hg.le h) (gengam_integrable h), gengam_integral h] at hp
  linarith

theorem localspec_cut {g sa sb N M c : ℝ} (hg : 1 ≤ g) (h : Shape N M) (hc : 0 < c) :
    0 < ∫ w in (0 : ℝ)..c, localspec g sa sb N M w ∧
    ∫ w in (0 : ℝ)..c, localspec g sa sb N M w < ∫ w in Ioi (0 : ℝ), localspec g sa sb N M w := by
  have hi := localspec_integrable (sa := sa) (sb := sb) hg h
  have hs : ∫ w in Ioi (0 : ℝ), localspec g sa sb N M w
      = (∫ w in (0 : ℝ)..c, localspec g sa sb N M w) + ∫ w in Ioi c, localspec g sa sb N M w := by
    rw [intervalIntegral.integral_of_le hc.le, ← setIntegral_union (by
      rw [Set.disjoint_left]; intro x hx hx'; exact absurd hx.2 (not_le.2 hx')) measurableSet_Ioi
      (hi.mono_set Ioc_subset_Ioi_self) (hi.mono_set (Ioi_subset_Ioi hc.le)), Ioc_union_Ioi_eq_Ioi hc.le]
  have h2 := pos_integral _ c (hi.mono_set (Ioi_subset_Ioi hc.le)) fun w hw => localspec_pos hg w (hc.trans hw)
  refine ⟨?_, by linarith⟩
  refine intervalIntegral.intervalIntegral_pos_of_pos_on ?_ (fun x hx => localspec_pos hg x hx.1) hc
  rw [intervalIntegrable_iff_integrableOn_Ioc_of_le hc.le]
  exact hi.mono_set Ioc_subset_Ioi_self

theorem localspec_lt_peak {g sa sb N M : ℝ} (hg : 1 ≤ g) (hN : 0 < N) (hM : 0 < M) (w : ℝ) (hw : w ≠ 1) :
    localspec g sa sb N M w < localspec g sa sb N M 1 := by
  have h1 := peakE_le (sa := sa) (sb := sb) hg w
  have h2 := peakE_one_le (sa := sa) (sb := sb) hg w
  have h3 := gengam_nonneg N M w
  have h4 := gengam_lt hN hM w hw
  unfold localspec
  rw [peakE_peak]
  nlinarith

end Wafo.Spec
