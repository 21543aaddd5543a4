import Verif.Dist.NormProps4
import Verif.Dist.NormMomLemmas
import Verif.Dist.RvsLemmas
import Verif.Dist.GammaProps
import Mathlib.MeasureTheory.Measure.Prod

/-!
# C264: the sampling methods of the normal family

`stdN` is the law of a standard normal draw; draws of other distributions have laws given by their
densities.  The theorems say that the transformed draw has the density of the class.
-/

namespace Wafo.Dist

open MeasureTheory Set Filter Topology Real Wafo.Gauss ProbabilityTheory

set_option linter.unusedSectionVars false

theorem stdN_law : HasLaw stdN univ phi := by
  rw [HasLaw, Measure.restrict_univ, stdN, gaussianReal_of_var_ne_zero 0 one_ne]
  congr 1
  funext x
  rw [gaussianPDF, phi_eq]

/-- `norm`: the draw itself, stats/_continuous_distns.py:306-307 -/
theorem C264_norm : HasLaw stdN univ Norm.pdf :=
  stdN_law.congr MeasurableSet.univ fun x _ => norm_pdf_eq x

theorem NormTr.law {J : Set ℝ} (hJ : MeasurableSet J) {g gi g' pdf : ℝ → ℝ}
    (t : NormTr J g gi g' pdf) (hm : Measurable gi) : HasLaw (stdN.map gi) J pdf :=
  stdN_law.comp hm hJ (fun _ _ => mem_univ _) (fun y _ => t.mem y) (fun y _ => t.right y) t.left
    t.deriv fun x hx => by rw [t.pdf_eq x hx, abs_of_nonneg (t.nonneg x hx), mul_comm]

/-- `lognorm`: the exponential of a normal draw. -/
theorem C264_lognorm (s : ℝ) (hs : 0 < s) :
    HasLaw (stdN.map (LogNorm.rvs s)) (Ioi 0) (LogNorm.pdf s) :=
  (lognorm_tr hs).law measurableSet_Ioi (by fun_prop)

example : (0 : ℝ) < 1 / 4 ∧ LogNorm.rvs (1 / 4) 4 = exp 1 := ⟨by norm_num, by norm_num [LogNorm.rvs]⟩

/-- `gilbrat`: the exponential of a normal draw. -/
theorem C264_gilbrat : HasLaw (stdN.map Gilbrat.rvs) (Ioi 0) Gilbrat.pdf := by
  have h := C264_lognorm 1 one_pos
  have e : LogNorm.rvs 1 = Gilbrat.rvs := by
    funext z
    rw [LogNorm.rvs, Gilbrat.rvs, one_mul]
  rw [e] at h
  exact h

/-- `foldnorm`: the absolute value of a normal draw around `c`. -/
theorem C264_foldnorm (c : ℝ) : HasLaw (stdN.map (FoldNorm.rvs c)) (Ioi 0) (FoldNorm.pdf c) := by
  refine stdN_law.fold c continuous_phi.measurable (fun x => (phi_pos x).le) (fun y _ => ?_)
  rw [FoldNorm.pdf, norm_pdf_eq, norm_pdf_eq, show -y - c = -(y + c) by ring, phi_neg, add_comm]

example : FoldNorm.rvs 1 (-3) = 2 := by norm_num [FoldNorm.rvs]

/-- `halfnorm`: the absolute value of a normal draw. -/
theorem C264_halfnorm : HasLaw (stdN.map HalfNorm.rvs) (Ioi 0) HalfNorm.pdf := by
  have h := C264_foldnorm 0
  have e : FoldNorm.rvs 0 = HalfNorm.rvs := by
    funext z
    rw [FoldNorm.rvs, HalfNorm.rvs, add_zero]
  rw [e] at h
  refine h.congr measurableSet_Ioi fun x _ => ?_
  rw [FoldNorm.pdf, add_zero, sub_zero, norm_pdf_eq, HalfNorm.pdf, phi, sqrt_div zero_le_two,
    sqrt_mul zero_le_two, show -x * x / 2 = -x ^ 2 / 2 by ring]
  have h2 : √2 * √2 = 2 := mul_self_sqrt zero_le_two
  have h3 : 0 < √π := sqrt_pos.2 pi_pos
  field_simp
  linarith

/-- `fatiguelife`: the function of a normal draw is the quantile function without `ndtri`. -/
theorem C264_fatiguelife (c : ℝ) (hc : 0 < c) :
    HasLaw (stdN.map (FatigueLife.rvs c)) (Ioi 0) (FatigueLife.pdf c) := by
  have e : FatigueLife.rvs c = fun y => 0.25 * (c * y + √((c * y) ^ 2 + 4)) ^ 2 := by
    funext y
    have h1 : √((c * y) ^ 2 + 4) = 2 * √(1 + 0.5 * c * y * (0.5 * c * y)) := by
      rw [show (c * y) ^ 2 + 4 = 2 ^ 2 * (1 + 0.5 * c * y * (0.5 * c * y)) by ring,
        sqrt_mul (by norm_num), sqrt_sq zero_le_two]
    have h2 : √(1 + 0.5 * c * y * (0.5 * c * y)) ^ 2 = 1 + 0.5 * c * y * (0.5 * c * y) :=
      sq_sqrt (by nlinarith [mul_self_nonneg (0.5 * c * y)])
    simp only [FatigueLife.rvs]
    rw [h1]
    generalize √(1 + 0.5 * c * y * (0.5 * c * y)) = w at *
    linear_combination -h2
  rw [e]
  exact (fatigue_tr hc).law measurableSet_Ioi (by fun_prop)

example : (0 : ℝ) < 3 ∧ FatigueLife.rvs 3 0 = 1 := ⟨by norm_num, by norm_num [FatigueLife.rvs]⟩

/-- `recipinvgauss`: the reciprocal of an inverse Gaussian (Wald) draw. -/
theorem C264_recipinvgauss (mu : ℝ) (hmu : 0 < mu) (μ : Measure ℝ)
    (hμ : HasLaw μ (Ioi 0) (InvGauss.pdf mu)) :
    HasLaw (μ.map RecipInvGauss.rvs) (Ioi 0) (RecipInvGauss.pdf mu) := by
  refine hμ.comp (gi := fun y => 1 / y) (gi' := fun y => -(1 / y ^ 2)) ?_ measurableSet_Ioi
    (fun y hy => ?_) (fun x hx => ?_) (fun x _ => one_div_one_div x) (fun x _ => one_div_one_div x)
    (fun y hy => ?_) (fun y hy => ?_)
  · unfold RecipInvGauss.rvs
    fun_prop
  · exact one_div_pos.2 (mem_Ioi.1 hy)
  · exact one_div_pos.2 (mem_Ioi.1 hx)
  · have hy : 0 < y := hy
    simp only [one_div]
    exact hasDerivAt_inv hy.ne'
  · have hy : 0 < y := hy
    have h1 : √(2 * π * (1 / y) ^ (3 : ℝ)) = √(2 * π * y) / y ^ 2 := by
      rw [show (3 : ℝ) = ((3 : ℕ) : ℝ) by norm_num, rpow_natCast,
        show 2 * π * (1 / y) ^ 3 = 2 * π * y / (y ^ 2) ^ 2 by field_simp, sqrt_div (by positivity),
        sqrt_sq (by positivity)]
    have h2 : -1 / (2 * (1 / y)) * ((1 / y - mu) / mu) ^ 2 = -(1 - mu * y) ^ 2 / (2 * y * mu ^ 2) := by
      field_simp
    rw [RecipInvGauss.pdf, InvGauss.pdf, h1, h2, abs_neg, abs_of_pos (by positivity)]
    field_simp

example : (0 : ℝ) < 3 ∧ RecipInvGauss.rvs 4 = 1 / 4 := ⟨by norm_num, rfl⟩

/-- `moyal`: minus the logarithm of twice a gamma draw. -/
theorem C264_moyal (μ : Measure ℝ) (hμ : HasLaw μ (Ioi 0) (GammaD.pdf 0.5)) :
    HasLaw (μ.map Moyal.rvs) univ Moyal.pdf := by
  refine hμ.comp (gi := fun y => exp (-y) / 2) (gi' := fun y => -exp (-y) / 2) ?_ MeasurableSet.univ
    (fun y _ => ?_) (fun x _ => mem_univ _) (fun x hx => ?_) (fun y _ => ?_) (fun y _ => ?_)
    (fun y _ => ?_)
  · unfold Moyal.rvs
    fun_prop
  · exact mem_Ioi.2 (by positivity)
  · have hx : 0 < x := hx
    show exp (-(-log (2 * x))) / 2 = x
    rw [neg_neg, exp_log (by positivity)]
    ring
  · show -log (2 * (exp (-y) / 2)) = y
    rw [mul_div_cancel₀ _ two_ne_zero, log_exp, neg_neg]
  · refine HasDerivAt.congr_deriv ((hasDerivAt_neg y).exp.div_const 2) ?_
    ring
  · have hx : 0 < exp (-y) / 2 := by positivity
    have hG : Gamma 0.5 = √π := by
      rw [show (0.5 : ℝ) = 1 / 2 by norm_num, Gamma_one_half_eq]
    have hs : 0 < √π := sqrt_pos.2 pi_pos
    rw [GammaD.pdf, GammaD.logpdf, xlogy, gammaln, hG, abs_of_pos hs, exp_sub, exp_sub,
      exp_log hs, Moyal.pdf, neg_div, abs_neg, abs_of_pos hx, log_div (exp_ne_zero _) two_ne_zero,
      log_exp]
    have e1 : exp ((0.5 - 1) * (-y - log 2)) = exp (0.5 * y) * √2 := by
      rw [show ((0.5 : ℝ) - 1) * (-y - log 2) = 0.5 * y + log 2 * (1 / 2) by ring, exp_add,
        sqrt_eq_rpow, rpow_def_of_pos two_pos]
    have e2 : exp (-0.5 * (y + exp (-y))) = exp (0.5 * y) * exp (-y) / exp (exp (-y) / 2) := by
      rw [← exp_add, ← exp_sub]
      congr 1
      ring
    have h2 : √2 * √2 = 2 := mul_self_sqrt zero_le_two
    rw [e1, e2, sqrt_mul zero_le_two]
    field_simp
    linear_combination -h2

example : Moyal.rvs (1 / 2) = 0 := by norm_num [Moyal.rvs]

/-- The law of a function of a draw and of an independent normal draw. -/
theorem mix_law {μ : Measure ℝ} [SFinite μ] {G : ℝ × ℝ → ℝ} (hG : Measurable G)
    {h : ℝ → ℝ → ENNReal} (hh : Measurable (fun p : ℝ × ℝ => h p.1 p.2))
    (e : ∀ u, ∀ s, MeasurableSet s → stdN ((fun v => G (u, v)) ⁻¹' s) = ∫⁻ r in s, h u r) :
    (μ.prod stdN).map G = volume.withDensity fun r => ∫⁻ u, h u r ∂μ := by
  refine Measure.ext fun s hs => ?_
  rw [Measure.map_apply hG hs, Measure.prod_apply (hG hs), withDensity_apply _ hs]
  have : ∀ u, stdN (Prod.mk u ⁻¹' (G ⁻¹' s)) = ∫⁻ r in s, h u r := fun u => e u s hs
  simp only [this]
  exact lintegral_lintegral_swap hh.aemeasurable

/-- The law of a shifted and scaled normal draw. -/
theorem affine_law (m c : ℝ) (hc : c ≠ 0) {s : Set ℝ} (hs : MeasurableSet s) :
    stdN ((fun v => m + c * v) ⁻¹' s) = ∫⁻ r in s, ENNReal.ofReal (phi ((r - m) / c) / |c|) := by
  have h : HasLaw (stdN.map fun v => m + c * v) univ (fun r => phi ((r - m) / c) / |c|) := by
    refine stdN_law.comp (gi := fun r => (r - m) / c) (gi' := fun _ => 1 / c) (by fun_prop)
      MeasurableSet.univ (fun _ _ => mem_univ _) (fun _ _ => mem_univ _) (fun x _ => ?_)
      (fun y _ => ?_) (fun y _ => ?_) (fun y _ => ?_)
    · show (m + c * x - m) / c = x
      rw [add_sub_cancel_left, mul_div_cancel_left₀ _ hc]
    · show m + c * ((y - m) / c) = y
      rw [mul_div_cancel₀ _ hc]
      ring
    · exact ((hasDerivAt_id y).sub_const m).div_const c
    · rw [abs_div, abs_one]
      ring
  rw [← Measure.map_apply (by fun_prop) hs, h.apply hs, inter_univ]

theorem phi_ofReal_measurable {m : ℝ → ℝ} (hm : Measurable m) (k : ℝ) :
    Measurable (fun p : ℝ × ℝ => ENNReal.ofReal (phi ((p.2 - m p.1) / k) / |k|)) := by
  have := continuous_phi.measurable
  fun_prop

theorem en_convolution {K : ℝ} (hK : 0 < K) (y : ℝ) :
    ∫⁻ t in Ioi 0, ENNReal.ofReal (exp (-t)) * ENNReal.ofReal (phi (y - t * K))
      = ENNReal.ofReal (ExponNorm.pdf K y) := by
  have e1 : ∀ t, exp (-t) * phi (y - t * K)
      = exp (1 / K * (0.5 * (1 / K) - y)) * phi (y - 1 / K - t * K) := by
    intro t
    rw [phi, phi, mul_left_comm, mul_left_comm (exp (1 / K * (0.5 * (1 / K) - y))), ← exp_add,
      ← exp_add]
    congr 2
    field_simp
    ring
  have hd : ∀ t, HasDerivAt (fun t => -(1 / K) * exp (1 / K * (0.5 * (1 / K) - y))
      * Phi (y - 1 / K - t * K)) (exp (-t) * phi (y - t * K)) t := by
    intro t
    have h1 : HasDerivAt (fun t : ℝ => y - 1 / K - t * K) (-(1 * K)) t :=
      ((hasDerivAt_id t).mul_const K).const_sub _
    refine HasDerivAt.congr_deriv (((hasDerivAt_Phi _).comp t h1).const_mul
      (-(1 / K) * exp (1 / K * (0.5 * (1 / K) - y)))) ?_
    rw [e1]
    field_simp
  have ht : Tendsto (fun t => -(1 / K) * exp (1 / K * (0.5 * (1 / K) - y))
      * Phi (y - 1 / K - t * K)) atTop (𝓝 0) := by
    have h1 : Tendsto (fun t : ℝ => y - 1 / K - t * K) atTop atBot :=
      tendsto_atBot_add_const_left atTop _
        (tendsto_neg_atTop_atBot.comp (tendsto_id.atTop_mul_const hK))
    have := (tendsto_Phi_atBot.comp h1).const_mul (-(1 / K) * exp (1 / K * (0.5 * (1 / K) - y)))
    rwa [mul_zero] at this
  have hn : ∀ t ∈ Ioi (0 : ℝ), 0 ≤ exp (-t) * phi (y - t * K) := fun t _ =>
    mul_nonneg (exp_pos _).le (phi_pos _).le
  have hI := integrableOn_Ioi_deriv_of_nonneg' (fun t _ => hd t) hn ht
  have hV := integral_Ioi_of_hasDerivAt_of_nonneg' (fun t _ => hd t) hn ht
  have e2 : ∀ t : ℝ, ENNReal.ofReal (exp (-t)) * ENNReal.ofReal (phi (y - t * K))
      = ENNReal.ofReal (exp (-t) * phi (y - t * K)) := fun t =>
    (ENNReal.ofReal_mul (exp_pos _).le).symm
  simp only [e2]
  rw [← ofReal_integral_eq_lintegral_ofReal hI
    ((ae_restrict_iff' measurableSet_Ioi).2 (Eventually.of_forall hn)), hV, en_pdf_eq]
  congr 1
  rw [zero_mul, sub_zero]
  ring

theorem en_inner {K : ℝ} (hK : 0 < K) (r : ℝ) {μ : Measure ℝ}
    (hμ : HasLaw μ (Ioi 0) fun t => exp (-t)) :
    ∫⁻ u, ENNReal.ofReal (phi ((r - u * K) / 1) / |1|) ∂μ = ENNReal.ofReal (ExponNorm.pdf K r) := by
  have hm1 : Measurable fun u => ENNReal.ofReal (phi ((r - u * K) / 1) / |1|) := by
    have := continuous_phi.measurable
    fun_prop
  have hm2 : Measurable fun u : ℝ => ENNReal.ofReal (exp (-u)) := by fun_prop
  rw [HasLaw] at hμ
  rw [← en_convolution hK r, hμ, lintegral_withDensity_eq_lintegral_mul _ hm2 hm1]
  simp only [Pi.mul_apply, div_one, abs_one]

/-- `exponnorm`: an exponential draw times `K` plus a normal draw. -/
theorem C264_exponnorm (K : ℝ) (hK : 0 < K) (μ : Measure ℝ)
    (hμ : HasLaw μ (Ioi 0) fun t => exp (-t)) :
    HasLaw ((μ.prod stdN).map fun p => ExponNorm.rvs K p.1 p.2) univ (ExponNorm.pdf K) := by
  have hfin : SFinite μ := by
    rw [HasLaw] at hμ
    rw [hμ]
    infer_instance
  have hm := phi_ofReal_measurable (m := fun u => u * K) (by fun_prop) 1
  have hGm : Measurable fun p : ℝ × ℝ => ExponNorm.rvs K p.1 p.2 := by
    unfold ExponNorm.rvs
    fun_prop
  have h := mix_law (μ := μ) (h := fun u r => ENNReal.ofReal (phi ((r - u * K) / 1) / |1|)) hGm hm
    (fun u s hs => by
      have := affine_law (u * K) 1 one_ne_zero hs
      simpa only [one_mul, ExponNorm.rvs] using this)
  rw [HasLaw, Measure.restrict_univ, h]
  congr 1
  funext r
  exact en_inner hK r hμ

example : (0 : ℝ) < 2 ∧ ExponNorm.rvs 2 3 1 = 7 := ⟨two_pos, by norm_num [ExponNorm.rvs]⟩

theorem sn_facts (a : ℝ) : 0 < √(1 - (a / √(1 + a ^ 2)) ^ 2) ∧
    √(1 - (a / √(1 + a ^ 2)) ^ 2) = 1 / √(1 + a ^ 2) := by
  have h0 : (0 : ℝ) < 1 + a ^ 2 := by positivity
  have h : √(1 - (a / √(1 + a ^ 2)) ^ 2) = 1 / √(1 + a ^ 2) := by
    rw [div_pow, sq_sqrt h0.le, show 1 - a ^ 2 / (1 + a ^ 2) = 1 / (1 + a ^ 2) by field_simp; ring,
      sqrt_div zero_le_one, sqrt_one]
  rw [h]
  exact ⟨by positivity, rfl⟩

/-- The two factors of the joint density of the draws, turned around. -/
theorem sn_phi {d w : ℝ} (hw : 0 < w) (h : d ^ 2 + w ^ 2 = 1) (u r : ℝ) :
    phi u * phi ((r - d * u) / w) = phi r * phi ((u - d * r) / w) := by
  rw [phi, phi, phi, phi, mul_mul_mul_comm, mul_mul_mul_comm _ (exp (-r ^ 2 / 2)), ← exp_add,
    ← exp_add]
  congr 2
  field_simp
  linear_combination (r ^ 2 - u ^ 2) * h

theorem phi_shift_tail {w : ℝ} (hw : 0 < w) (m : ℝ) :
    ∫⁻ u in Ioi 0, ENNReal.ofReal (phi ((u - m) / w) / w) = ENNReal.ofReal (Phi (m / w)) := by
  have hd : ∀ u, HasDerivAt (fun u => Phi ((u - m) / w)) (phi ((u - m) / w) / w) u := by
    intro u
    refine HasDerivAt.congr_deriv ((hasDerivAt_Phi _).comp u
      (((hasDerivAt_id u).sub_const m).div_const w)) ?_
    rw [mul_one_div]
  have ht : Tendsto (fun u => Phi ((u - m) / w)) atTop (𝓝 1) :=
    tendsto_Phi_atTop.comp
      ((tendsto_atTop_add_const_right atTop (-m) tendsto_id).atTop_div_const hw)
  have hn : ∀ u ∈ Ioi (0 : ℝ), 0 ≤ phi ((u - m) / w) / w := fun u _ =>
    div_nonneg (phi_pos _).le hw.le
  have hI := integrableOn_Ioi_deriv_of_nonneg' (fun t _ => hd t) hn ht
  have hV := integral_Ioi_of_hasDerivAt_of_nonneg' (fun t _ => hd t) hn ht
  rw [← ofReal_integral_eq_lintegral_ofReal hI
    ((ae_restrict_iff' measurableSet_Ioi).2 (Eventually.of_forall hn)), hV, zero_sub, neg_div,
    Phi_neg, sub_sub_cancel]

theorem sn_split {w : ℝ} (hw : 0 < w) (m : ℝ) :
    ∫⁻ u, ENNReal.ofReal (phi ((|u| - m) / w) / w) = 2 * ENNReal.ofReal (Phi (m / w)) := by
  have hms : Measurable fun u => ENNReal.ofReal (phi ((|u| - m) / w) / w) := by
    have := continuous_phi.measurable
    fun_prop
  rw [← lintegral_add_compl _ (measurableSet_Ioi (a := (0 : ℝ))), two_mul, ← phi_shift_tail hw m]
  congr 1
  · refine setLIntegral_congr_fun measurableSet_Ioi fun u hu => ?_
    simp only [abs_of_pos (mem_Ioi.1 hu)]
  · rw [compl_Ioi]
    have h1 := (Measure.measurePreserving_neg (volume : Measure ℝ)).setLIntegral_comp_preimage
      (measurableSet_Iic (a := (0 : ℝ))) hms
    rw [← h1]
    have h2 : (Neg.neg : ℝ → ℝ) ⁻¹' Iic 0 = Ici 0 := by
      ext x
      simp
    rw [h2, setLIntegral_congr Ioi_ae_eq_Ici.symm]
    refine setLIntegral_congr_fun measurableSet_Ioi fun u hu => ?_
    simp only [abs_neg, abs_of_pos (mem_Ioi.1 hu)]

theorem sn_inner {d w : ℝ} (hw : 0 < w) (hdw : d ^ 2 + w ^ 2 = 1) (r : ℝ) :
    ∫⁻ u, ENNReal.ofReal (phi ((r - d * |u|) / w) / |w|) ∂stdN
      = ENNReal.ofReal (2 * phi r * Phi (d * r / w)) := by
  have hm1 : Measurable fun u => ENNReal.ofReal (phi ((r - d * |u|) / w) / |w|) := by
    have := continuous_phi.measurable
    fun_prop
  have hms : Measurable fun u => ENNReal.ofReal (phi ((|u| - d * r) / w) / w) := by
    have := continuous_phi.measurable
    fun_prop
  have hmp : Measurable fun u => ENNReal.ofReal (phi u) := continuous_phi.measurable.ennreal_ofReal
  have e0 : ∫⁻ u, ENNReal.ofReal (phi ((r - d * |u|) / w) / |w|) ∂stdN
      = ∫⁻ u, ENNReal.ofReal (phi u) * ENNReal.ofReal (phi ((r - d * |u|) / w) / |w|) := by
    have := stdN_law
    rw [HasLaw, Measure.restrict_univ] at this
    rw [this, lintegral_withDensity_eq_lintegral_mul _ hmp hm1]
    rfl
  have hF : ∀ u, ENNReal.ofReal (phi u) * ENNReal.ofReal (phi ((r - d * |u|) / w) / |w|)
      = ENNReal.ofReal (phi r) * ENNReal.ofReal (phi ((|u| - d * r) / w) / w) := by
    intro u
    rw [← ENNReal.ofReal_mul (phi_pos _).le, ← ENNReal.ofReal_mul (phi_pos _).le, abs_of_pos hw,
      ← mul_div_assoc, ← mul_div_assoc, ← sn_phi hw hdw]
    congr 3
    rcases abs_cases u with h | h
    · rw [h.1]
    · rw [h.1, phi_neg]
  rw [e0]
  simp only [hF]
  rw [lintegral_const_mul _ hms, sn_split hw,
    show (2 : ENNReal) = ENNReal.ofReal 2 by simp, ← ENNReal.ofReal_mul zero_le_two,
    ← ENNReal.ofReal_mul (phi_pos r).le]
  congr 1
  ring

theorem sn_law {d w : ℝ} (hw : 0 < w) (hdw : d ^ 2 + w ^ 2 = 1) (G : ℝ × ℝ → ℝ)
    (hG : ∀ p, G p = d * |p.1| + (if 0 ≤ p.1 then w else -w) * p.2) :
    (stdN.prod stdN).map G
      = volume.withDensity fun r => ENNReal.ofReal (2 * phi r * Phi (d * r / w)) := by
  have hm := phi_ofReal_measurable (m := fun u => d * |u|) (by fun_prop) w
  have hGm : Measurable G := by
    rw [funext hG]
    refine Measurable.add (by fun_prop) (Measurable.mul ?_ measurable_snd)
    exact Measurable.ite (measurableSet_le measurable_const measurable_fst) measurable_const
      measurable_const
  rw [mix_law (h := fun u r => ENNReal.ofReal (phi ((r - d * |u|) / w) / |w|)) hGm hm
    (fun u s hs => ?_)]
  · congr 1
    funext r
    exact sn_inner hw hdw r
  · simp only [hG]
    split_ifs with h
    · exact affine_law (d * |u|) w hw.ne' hs
    · rw [affine_law (d * |u|) (-w) (neg_ne_zero.2 hw.ne') hs]
      refine lintegral_congr fun r => ?_
      rw [abs_neg, div_neg, phi_neg]

/-- `skewnorm`: two normal draws. -/
theorem C264_skewnorm (a : ℝ) :
    HasLaw ((stdN.prod stdN).map fun p => SkewNorm.rvs a p.1 p.2) univ (SkewNorm.pdf a) := by
  obtain ⟨hw, hwe⟩ := sn_facts a
  have h0 : (0 : ℝ) < √(1 + a ^ 2) := by positivity
  have hdw : (a / √(1 + a ^ 2)) ^ 2 + √(1 - (a / √(1 + a ^ 2)) ^ 2) ^ 2 = 1 := by
    rw [hwe, div_pow, div_pow, sq_sqrt (by positivity), ← add_div]
    have : (0 : ℝ) < 1 + a ^ 2 := by positivity
    field_simp
    ring
  rw [sn_law hw hdw (fun p => SkewNorm.rvs a p.1 p.2) (fun p => ?_), HasLaw, Measure.restrict_univ]
  · congr 1
    funext r
    rw [SkewNorm.pdf, norm_pdf_eq, Norm.cdf, hwe]
    congr 3
    field_simp
  · simp only [SkewNorm.rvs]
    split_ifs with h
    · rw [abs_of_nonneg h]
      ring
    · rw [abs_of_neg (not_le.1 h)]
      ring

example : SkewNorm.rvs 0 (-1) 2 = -2 := by norm_num [SkewNorm.rvs]

end Wafo.Dist
