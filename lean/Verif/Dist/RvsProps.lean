import Verif.Dist.RvsModel
import Verif.Dist.RvsLemmas
import Verif.Dist.MomWeibullProps
import Verif.Dist.CircProps

/-!
# C259: the sampling methods draw from the density of their class
-/

namespace Wafo.Dist

open MeasureTheory Set Filter Topology Real

set_option linter.unusedSectionVars false

/-- Inverse transform sampling: `ppf` of a uniform number has the density `pdf`, for every
distribution whose functions fit together. -/
theorem C259_inverse_transform {I : Set ℝ} {pdf cdf ppf : ℝ → ℝ} (hm : MeasurableSet I)
    (hI : OrdConnected I) (h : IsCdf I pdf cdf) (hp : IsPpf I cdf ppf) :
    HasLaw (uniformLaw.map ppf) I pdf :=
  sample_law hm hI h hp

/-- For example the Lomax, Gumbel and arcsine distributions. -/
example (c : ℝ) (hc : 0 < c) : HasLaw (uniformLaw.map (WeibullMin.ppf c)) (Ioi 0) (WeibullMin.pdf c) :=
  C259_inverse_transform measurableSet_Ioi ordConnected_Ioi (C251_weibull_min c hc).1
    (C251_weibull_min c hc).2.1

/-- The square root of a chi-square draw. -/
theorem C259_chi (df : ℝ) (μ : Measure ℝ) (hμ : HasLaw μ (Ioi 0) (Chi2.pdf df)) :
    HasLaw (μ.map Chi.rvs) (Ioi 0) (Chi.pdf df) := by
  refine hμ.comp (g := Chi.rvs) (gi := fun y => y ^ 2) (gi' := fun y => 2 * y) ?_ measurableSet_Ioi
    (fun y hy => ?_) (fun x hx => ?_) (fun x hx => ?_) (fun y hy => ?_) (fun y _ => ?_)
    (fun y hy => ?_)
  · exact Real.continuous_sqrt.measurable
  · exact pow_pos (mem_Ioi.1 hy) 2
  · exact sqrt_pos.2 (mem_Ioi.1 hx)
  · exact sq_sqrt (mem_Ioi.1 hx).le
  · exact sqrt_sq (mem_Ioi.1 hy).le
  · refine HasDerivAt.congr_deriv (hasDerivAt_pow 2 y) ?_
    push_cast
    ring
  · have hy := mem_Ioi.1 hy
    have e : |2 * y| = exp (log 2 + log y) := by
      rw [abs_of_pos (by positivity), exp_add, exp_log two_pos, exp_log hy]
    simp only [e]
    rw [Chi.pdf, Chi2.pdf, ← exp_add, Chi.logpdf, Chi2.logpdf, xlogy, xlogy, log_pow]
    congr 1
    rw [show (0.5 : ℝ) * df = df / 2 by ring_nf]
    push_cast
    ring

/-- A chi draw with three degrees of freedom. -/
theorem C259_maxwell (μ : Measure ℝ) (hμ : HasLaw μ (Ioi 0) (Chi.pdf 3)) :
    HasLaw (μ.map Maxwell.rvs) (Ioi 0) Maxwell.pdf := by
  have e : Maxwell.rvs = id := rfl
  rw [e, Measure.map_id]
  exact hμ.congr measurableSet_Ioi maxwell_eq

/-- A chi draw with two degrees of freedom. -/
theorem C259_rayleigh (μ : Measure ℝ) (hμ : HasLaw μ (Ioi 0) (Chi.pdf 2)) :
    HasLaw (μ.map Rayleigh.rvs) (Ioi 0) Rayleigh.pdf := by
  have e : Rayleigh.rvs = id := rfl
  rw [e, Measure.map_id]
  exact hμ.congr measurableSet_Ioi rayleigh_eq

/-- A gamma draw with a random sign. -/
theorem C259_dgamma (a : ℝ) (ha : 0 < a) (μ : Measure ℝ) (hμ : HasLaw μ (Ioi 0) (GammaD.pdf a)) :
    HasLaw ((uniformLaw.prod μ).map fun p => DGamma.rvs p.1 p.2) univ (DGamma.pdf a) := by
  refine hμ.sign (fun x => ?_) (fun x hx => ?_)
  · rw [DGamma.pdf, DGamma.pdf, abs_neg]
  · have hx := mem_Ioi.1 hx
    have hG := Gamma_pos_of_pos ha
    have e : GammaD.pdf a x = x ^ (a - 1) * exp (-x) / Gamma a * 1 := by
      rw [gamma_pdf_exp ha hx one_pos, GammaD.pdf, GammaD.logpdf, xlogy, log_one, add_zero]
    rw [e, DGamma.pdf, abs_of_pos hx]
    field_simp

/-- A Weibull draw with a random sign. -/
theorem C259_dweibull (c : ℝ) (μ : Measure ℝ) (hμ : HasLaw μ (Ioi 0) (WeibullMin.pdf c)) :
    HasLaw ((uniformLaw.prod μ).map fun p => DWeibull.rvs p.1 p.2) univ (DWeibull.pdf c) := by
  refine hμ.sign (fun x => ?_) (fun x hx => ?_)
  · rw [DWeibull.pdf, DWeibull.pdf, abs_neg]
  · have hx := mem_Ioi.1 hx
    rw [WeibullMin.pdf, DWeibull.pdf, abs_of_pos hx]
    ring

/-- The absolute value of a Cauchy draw around `c`. -/
theorem C259_foldcauchy (c : ℝ) (μ : Measure ℝ) (hμ : HasLaw μ univ Cauchy.pdf) :
    HasLaw (μ.map (FoldCauchy.rvs c)) (Ioi 0) (FoldCauchy.pdf c) := by
  refine hμ.fold c ?_ (fun x => ?_) (fun y _ => ?_)
  · unfold Cauchy.pdf
    fun_prop
  · have := mul_self_nonneg x
    unfold Cauchy.pdf
    positivity
  · rw [FoldCauchy.pdf, Cauchy.pdf, Cauchy.pdf]
    have e : 1 + (-y - c) * (-y - c) = 1 + (y + c) ^ 2 := by ring
    rw [e, ← pow_two]
    ring

/-- The hypothesis is met by the inverse transform. -/
example : HasLaw (uniformLaw.map Cauchy.ppf) univ Cauchy.pdf :=
  C259_inverse_transform MeasurableSet.univ ordConnected_univ C255_cauchy.1 C255_cauchy.2.1

/-! ### Two uniform draws for the semicircular distribution -/

instance : SFinite uniformLaw := by
  unfold uniformLaw
  infer_instance

theorem uniformLaw_law : HasLaw uniformLaw (Ioo 0 1) fun _ => 1 := by
  refine hasLaw_of fun s hs => ?_
  simp [uniformLaw, Measure.restrict_apply hs]

theorem lintegral_sub_zero {A B : Set ℝ} {F : ℝ → ENNReal} (hA : MeasurableSet A)
    (hB : MeasurableSet B) (hAB : A ⊆ B) (h : ∀ x ∈ B \ A, F x = 0) :
    ∫⁻ x in B, F x = ∫⁻ x in A, F x := by
  have e : ∫⁻ x in B \ A, F x = 0 := by
    rw [setLIntegral_congr_fun (hB.diff hA) h]
    simp
  rw [← union_sdiff_cancel hAB, lintegral_union (hB.diff hA) disjoint_sdiff_right, e, add_zero]

theorem cos_law (u : ℝ) (hu : u ∈ Ioo (0 : ℝ) 1) :
    HasLaw (uniformLaw.map fun t => √u * cos (π * t)) (Ioo (-√u) √u)
      fun x => 1 / (π * √(u - x ^ 2)) := by
  have hπ := pi_pos
  have hr := sqrt_pos.2 hu.1
  have hq : √u ^ 2 = u := sq_sqrt hu.1.le
  have hb : ∀ x ∈ Ioo (-√u) √u, -1 < x / √u ∧ x / √u < 1 := fun x hx =>
    ⟨by rw [lt_div_iff₀ hr]; linarith [hx.1], by rw [div_lt_one hr]; exact hx.2⟩
  refine uniformLaw_law.comp (g := fun t => √u * cos (π * t)) (gi := fun x => arccos (x / √u) / π)
    (gi' := fun x => -(1 / √(1 - (x / √u) ^ 2)) * (1 / √u) / π) (by fun_prop) measurableSet_Ioo
    (fun x hx => ?_) (fun t ht => ?_) (fun t ht => ?_) (fun x hx => ?_) (fun x hx => ?_)
    (fun x hx => ?_)
  · obtain ⟨h1, h2⟩ := hb x hx
    refine ⟨div_pos (arccos_pos.2 h2) hπ, (div_lt_one hπ).2 ?_⟩
    rcases (arccos_le_pi (x / √u)).lt_or_eq with h | h
    · exact h
    · rw [arccos_eq_pi] at h
      linarith
  · have h1 : cos (π * t) < 1 := by
      have := strictAntiOn_cos (a := 0) (b := π * t) ⟨le_rfl, hπ.le⟩
        ⟨by nlinarith [ht.1], by nlinarith [ht.2]⟩ (by nlinarith [ht.1])
      rwa [cos_zero] at this
    have h2 : -1 < cos (π * t) := by
      have := strictAntiOn_cos (a := π * t) (b := π) ⟨by nlinarith [ht.1], by nlinarith [ht.2]⟩
        ⟨hπ.le, le_rfl⟩ (by nlinarith [ht.2])
      rwa [cos_pi] at this
    exact ⟨by nlinarith, by nlinarith⟩
  · rw [mul_div_cancel_left₀ _ hr.ne', arccos_cos (by nlinarith [ht.1]) (by nlinarith [ht.2]),
      mul_div_cancel_left₀ _ hπ.ne']
  · obtain ⟨h1, h2⟩ := hb x hx
    rw [mul_div_cancel₀ _ hπ.ne', cos_arccos h1.le h2.le, mul_div_cancel₀ _ hr.ne']
  · obtain ⟨h1, h2⟩ := hb x hx
    exact (HasDerivAt.comp (h₂ := arccos) (h := fun x => x / √u) x
      (hasDerivAt_arccos h1.ne' h2.ne) ((hasDerivAt_id x).div_const √u)).div_const π
  · obtain ⟨h1, h2⟩ := hb x hx
    have h3 : 0 < u - x ^ 2 := by
      rw [← hq]
      nlinarith [hx.1, hx.2]
    have e : 1 - (x / √u) ^ 2 = (u - x ^ 2) / u := by
      rw [div_pow, hq]
      field_simp [hu.1.ne']
    have hs := sqrt_pos.2 h3
    rw [e, sqrt_div h3.le, mul_one, neg_mul, neg_div, abs_neg, abs_of_pos (by positivity)]
    field_simp

theorem radius_int (x : ℝ) (hx : x ∈ Ioo (-1 : ℝ) 1) :
    ∫⁻ u in Ioo (0 : ℝ) 1, ENNReal.ofReal (1 / (π * √(u - x ^ 2))) =
      ENNReal.ofReal (Semicircular.pdf x) := by
  have hπ := pi_pos
  have hx2 : x ^ 2 < 1 := by nlinarith [hx.1, hx.2]
  have hx0 : 0 ≤ x ^ 2 := sq_nonneg x
  have hpos : ∀ u ∈ Ioo (x ^ 2) 1, 0 < √(u - x ^ 2) := fun u hu => sqrt_pos.2 (by linarith [hu.1])
  have hd : ∀ u ∈ Ioo (x ^ 2) 1, HasDerivAt (fun u => 2 / π * √(u - x ^ 2))
      (1 / (π * √(u - x ^ 2))) u := by
    intro u hu
    have h1 := hpos u hu
    refine HasDerivAt.congr_deriv ((((hasDerivAt_id u).sub_const (x ^ 2)).sqrt
      (by simp only [id]; linarith [hu.1])).const_mul (2 / π)) ?_
    simp only [id]
    field_simp
  have hc : ContinuousOn (fun u => 2 / π * √(u - x ^ 2)) (Icc (x ^ 2) 1) := by fun_prop
  have hn : ∀ u ∈ Ioo (x ^ 2) 1, 0 ≤ 1 / (π * √(u - x ^ 2)) := fun u _ => by positivity
  have hi := intervalIntegral.integrableOn_deriv_of_nonneg hc hd hn
  have hv : ∫ u in x ^ 2..1, 1 / (π * √(u - x ^ 2)) = Semicircular.pdf x := by
    rw [intervalIntegral.integral_eq_sub_of_hasDerivAt_of_le hx2.le hc hd
      ((intervalIntegrable_iff_integrableOn_Ioc_of_le hx2.le).2 hi), Semicircular.pdf, sub_self,
      sqrt_zero, mul_zero, sub_zero, pow_two]
  have hsub : ∫⁻ u in Ioo (0 : ℝ) 1, ENNReal.ofReal (1 / (π * √(u - x ^ 2))) =
      ∫⁻ u in Ioo (x ^ 2) 1, ENNReal.ofReal (1 / (π * √(u - x ^ 2))) := by
    refine lintegral_sub_zero measurableSet_Ioo measurableSet_Ioo (Ioo_subset_Ioo_left hx0) ?_
    rintro u ⟨hu, hu'⟩
    have : u ≤ x ^ 2 := by
      by_contra hc
      exact hu' ⟨not_le.1 hc, hu.2⟩
    rw [sqrt_eq_zero_of_nonpos (by linarith)]
    simp
  rw [hsub, ← hv, intervalIntegral.integral_of_le hx2.le, integral_Ioc_eq_integral_Ioo,
    ofReal_integral_eq_lintegral_ofReal (hi.mono_set Ioo_subset_Ioc_self)]
  exact Eventually.of_forall fun u => by positivity

/-- A point of the disk: the projection has the semicircular density. -/
theorem C259_semicircular :
    HasLaw ((uniformLaw.prod uniformLaw).map fun p => Semicircular.rvs p.1 p.2) (Ioo (-1) 1)
      Semicircular.pdf := by
  have hg : Measurable fun p : ℝ × ℝ => Semicircular.rvs p.1 p.2 := by
    unfold Semicircular.rvs
    fun_prop
  refine hasLaw_of fun s hs => ?_
  have hsJ := hs.inter (measurableSet_Ioo (a := (-1 : ℝ)) (b := 1))
  have inner : ∀ u ∈ Ioo (0 : ℝ) 1, uniformLaw (Prod.mk u ⁻¹'
      ((fun p : ℝ × ℝ => Semicircular.rvs p.1 p.2) ⁻¹' s)) =
      ∫⁻ x in s ∩ Ioo (-1) 1, ENNReal.ofReal (1 / (π * √(u - x ^ 2))) := by
    intro u hu
    have h1 := (cos_law u hu).apply hs
    rw [Measure.map_apply (by fun_prop) hs] at h1
    refine h1.trans ?_
    have hr : √u < 1 := by
      rw [sqrt_lt' one_pos]
      linarith [hu.2]
    refine (lintegral_sub_zero (hs.inter measurableSet_Ioo) hsJ (inter_subset_inter_right _
      (Ioo_subset_Ioo (by linarith) hr.le)) ?_).symm
    rintro x ⟨hx, hx'⟩
    have : u ≤ x ^ 2 := by
      by_contra hc
      refine hx' ⟨hx.1, ?_⟩
      rw [mem_Ioo, ← abs_lt]
      exact (lt_sqrt (abs_nonneg x)).2 (by rw [sq_abs]; exact not_le.1 hc)
    rw [sqrt_eq_zero_of_nonpos (by linarith)]
    simp
  rw [Measure.map_apply hg hs, Measure.prod_apply (hg hs)]
  have e1 : ∫⁻ u, uniformLaw (Prod.mk u ⁻¹' ((fun p : ℝ × ℝ => Semicircular.rvs p.1 p.2) ⁻¹' s))
      ∂uniformLaw = ∫⁻ u in Ioo (0 : ℝ) 1, ∫⁻ x in s ∩ Ioo (-1) 1,
        ENNReal.ofReal (1 / (π * √(u - x ^ 2))) :=
    setLIntegral_congr_fun measurableSet_Ioo inner
  rw [e1, lintegral_lintegral_swap]
  · exact setLIntegral_congr_fun hsJ fun x hx => radius_int x hx.2
  · refine Measurable.aemeasurable ?_
    unfold Function.uncurry
    fun_prop

end Wafo.Dist
