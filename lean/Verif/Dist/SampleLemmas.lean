import Verif.Dist.Spec
import Verif.Dist.MomLemmas
import Mathlib.MeasureTheory.Constructions.BorelSpace.Order
import Mathlib.MeasureTheory.Measure.WithDensity
import Mathlib.MeasureTheory.Integral.Bochner.ContinuousLinearMap

/-!
# Inverse transform sampling

If `ppf` inverts the distribution function of a density, then `ppf` of a uniform variable has that
density.
-/

namespace Wafo.Dist

open MeasureTheory Set Filter Topology Real

set_option linter.unusedSectionVars false

theorem IsCdf.mono {I : Set ℝ} {pdf cdf : ℝ → ℝ} (hm : MeasurableSet I) (h : IsCdf I pdf cdf) :
    MonotoneOn cdf I := by
  intro x hx y hy hxy
  rw [← h.below x hx, ← h.below y hy]
  refine setIntegral_mono_set (h.integrable.mono_set inter_subset_left) ?_ ?_
  · refine (ae_restrict_iff' (hm.inter measurableSet_Iic)).2 (Eventually.of_forall fun t ht => ?_)
    exact h.nonneg t ht.1
  · exact (inter_subset_inter_right I (Iic_subset_Iic.2 hxy)).eventuallyLE

theorem IsPpf.le_iff {I : Set ℝ} {pdf cdf ppf : ℝ → ℝ} (hm : MeasurableSet I) (h : IsCdf I pdf cdf)
    (hp : IsPpf I cdf ppf) {x q : ℝ} (hx : x ∈ I) (h0 : 0 < q) (h1 : q < 1) :
    ppf q ≤ x ↔ q ≤ cdf x := by
  constructor
  · intro hle
    have := h.mono hm (hp.mem q h0 h1) hx hle
    rwa [hp.cdf_ppf q h0 h1] at this
  · intro hle
    by_contra hlt
    have h2 := h.mono hm hx (hp.mem q h0 h1) (not_le.1 hlt).le
    rw [hp.cdf_ppf q h0 h1] at h2
    have h3 : q = cdf x := le_antisymm hle h2
    rw [h3, hp.ppf_cdf x hx] at hlt
    exact hlt le_rfl

/-- The set of uniform numbers sent below `x`. -/
theorem sample_below {I : Set ℝ} {pdf cdf ppf : ℝ → ℝ} (hm : MeasurableSet I) (hI : OrdConnected I)
    (h : IsCdf I pdf cdf) (hp : IsPpf I cdf ppf) (x : ℝ) :
    ppf ⁻¹' (Iic x) ∩ Ioo 0 1 = Ioc 0 (∫ t in I ∩ Iic x, pdf t) ∩ Ioo 0 1 := by
  by_cases hx : x ∈ I
  · ext q
    simp only [mem_inter_iff, mem_preimage, mem_Iic, mem_Ioo, mem_Ioc, h.below x hx]
    constructor
    · rintro ⟨h1, h2, h3⟩
      exact ⟨⟨h2, (hp.le_iff hm h hx h2 h3).1 h1⟩, h2, h3⟩
    · rintro ⟨⟨_, h1⟩, h2, h3⟩
      exact ⟨(hp.le_iff hm h hx h2 h3).2 h1, h2, h3⟩
  · have hne : ∀ y ∈ I, y ≠ x := fun y hy he => hx (he ▸ hy)
    by_cases hb : ∃ y ∈ I, y < x
    · obtain ⟨y, hy, hyx⟩ := hb
      have hall : ∀ z ∈ I, z < x := by
        intro z hz
        by_contra hzx
        exact hx (hI.out hy hz ⟨hyx.le, not_lt.1 hzx⟩)
      have e1 : I ∩ Iic x = I := inter_eq_left.2 fun z hz => (hall z hz).le
      rw [e1, h.total]
      ext q
      simp only [mem_inter_iff, mem_preimage, mem_Iic, mem_Ioo, mem_Ioc]
      constructor
      · rintro ⟨_, h2, h3⟩
        exact ⟨⟨h2, h3.le⟩, h2, h3⟩
      · rintro ⟨_, h2, h3⟩
        exact ⟨(hall _ (hp.mem q h2 h3)).le, h2, h3⟩
    · push Not at hb
      have hall : ∀ z ∈ I, x < z := fun z hz => lt_of_le_of_ne (hb z hz) (hne z hz).symm
      have e1 : I ∩ Iic x = ∅ := by
        ext z
        simp only [mem_inter_iff, mem_Iic, mem_empty_iff_false, iff_false, not_and, not_le]
        exact hall z
      rw [e1, Measure.restrict_empty, integral_zero_measure]
      ext q
      simp only [mem_inter_iff, mem_preimage, mem_Iic, mem_Ioo, mem_Ioc]
      constructor
      · rintro ⟨h1, h2, h3⟩
        exact absurd h1 (not_le.2 (hall _ (hp.mem q h2 h3)))
      · rintro ⟨⟨h1, h2⟩, _⟩
        linarith

theorem ppf_aemeasurable {I : Set ℝ} {pdf cdf ppf : ℝ → ℝ} (hm : MeasurableSet I)
    (h : IsCdf I pdf cdf) (hp : IsPpf I cdf ppf) :
    AEMeasurable ppf (volume.restrict (Ioo 0 1)) := by
  refine aemeasurable_restrict_of_monotoneOn measurableSet_Ioo ?_
  intro p hp' q hq hpq
  rw [hp.le_iff hm h (hp.mem q hq.1 hq.2) hp'.1 hp'.2, hp.cdf_ppf q hq.1 hq.2]
  exact hpq

theorem area_le_one {I : Set ℝ} {pdf cdf : ℝ → ℝ} (hm : MeasurableSet I) (h : IsCdf I pdf cdf)
    (x : ℝ) : 0 ≤ ∫ t in I ∩ Iic x, pdf t ∧ ∫ t in I ∩ Iic x, pdf t ≤ 1 := by
  constructor
  · exact setIntegral_nonneg (hm.inter measurableSet_Iic) fun t ht => h.nonneg t ht.1
  · rw [← h.total]
    refine setIntegral_mono_set h.integrable ?_ inter_subset_left.eventuallyLE
    exact (ae_restrict_iff' hm).2 (Eventually.of_forall fun t ht => h.nonneg t ht)

/-- The law of `ppf` of a uniform variable is that of the density. -/
theorem sample_law {I : Set ℝ} {pdf cdf ppf : ℝ → ℝ} (hm : MeasurableSet I) (hI : OrdConnected I)
    (h : IsCdf I pdf cdf) (hp : IsPpf I cdf ppf) :
    Measure.map ppf (volume.restrict (Ioo 0 1)) =
      (volume.restrict I).withDensity fun x => ENNReal.ofReal (pdf x) := by
  have hfin : IsFiniteMeasure (volume.restrict (Ioo (0 : ℝ) 1)) := ⟨by simp⟩
  have hmeas := ppf_aemeasurable hm h hp
  refine Measure.ext_of_Iic _ _ fun x => ?_
  rw [Measure.map_apply_of_aemeasurable hmeas measurableSet_Iic,
    withDensity_apply _ measurableSet_Iic, Measure.restrict_restrict measurableSet_Iic,
    Measure.restrict_apply₀ (hmeas.nullMeasurableSet_preimage measurableSet_Iic),
    sample_below hm hI h hp x, inter_comm (Iic x) I, ← ofReal_integral_eq_lintegral_ofReal
      (h.integrable.mono_set inter_subset_left)
      ((ae_restrict_iff' (hm.inter measurableSet_Iic)).2
        (Eventually.of_forall fun t ht => h.nonneg t ht.1))]
  obtain ⟨h0, h1⟩ := area_le_one hm h x
  generalize (∫ t in I ∩ Iic x, pdf t) = c at h0 h1
  have : (Ioc 0 c ∩ Ioo 0 1 : Set ℝ) =ᵐ[volume] Ioc 0 c := by
    have h2 : (Ioc 0 c ∩ Ioo 0 1 : Set ℝ) =ᵐ[volume] (Ioc 0 c ∩ Ioc 0 1 : Set ℝ) :=
      (ae_eq_refl _).inter Ioo_ae_eq_Ioc
    rwa [inter_eq_left.2 (Ioc_subset_Ioc_right h1)] at h2
  rw [measure_congr this, Real.volume_Ioc, sub_zero]

/-- Expectations are integrals over the uniform numbers. -/
theorem hasInt_ppf {I : Set ℝ} {pdf cdf ppf : ℝ → ℝ} (hm : MeasurableSet I) (hI : OrdConnected I)
    (h : IsCdf I pdf cdf) (hp : IsPpf I cdf ppf) {k : ℝ → ℝ} (hk : Measurable k) {v : ℝ} :
    HasInt I (fun x => k x * pdf x) v ↔ HasInt (Ioo 0 1) (fun q => k (ppf q)) v := by
  have hmeas := ppf_aemeasurable hm h hp
  have hlaw := sample_law hm hI h hp
  have hpm : AEMeasurable (fun x => ENNReal.ofReal (pdf x)) (volume.restrict I) :=
    h.integrable.aestronglyMeasurable.aemeasurable.ennreal_ofReal
  have hlt : ∀ᵐ x ∂(volume.restrict I), ENNReal.ofReal (pdf x) < ⊤ :=
    Eventually.of_forall fun _ => ENNReal.ofReal_lt_top
  have e1 : ∀ x ∈ I, k x * pdf x = (ENNReal.ofReal (pdf x)).toReal • k x := by
    intro x hx
    rw [ENNReal.toReal_ofReal (h.nonneg x hx), smul_eq_mul, mul_comm]
  unfold HasInt
  have i1 : IntegrableOn (fun q => k (ppf q)) (Ioo 0 1) ↔ IntegrableOn (fun x => k x * pdf x) I := by
    rw [integrableOn_congr_fun e1 hm]
    have := integrable_map_measure hk.aestronglyMeasurable hmeas
    rw [hlaw, integrable_withDensity_iff_integrable_smul₀' hpm hlt] at this
    exact this.symm
  have i2 : ∫ q in Ioo 0 1, k (ppf q) = ∫ x in I, k x * pdf x := by
    rw [setIntegral_congr_fun hm e1]
    have := integral_map hmeas (f := k) hk.aestronglyMeasurable
    rw [hlaw, integral_withDensity_eq_integral_toReal_smul₀ hpm hlt] at this
    exact this.symm
  rw [i1, i2]

theorem hasInt_flip {k : ℝ → ℝ} {v : ℝ} :
    HasInt (Ioo 0 1) (fun q => k (1 - q)) v ↔ HasInt (Ioo 0 1) k v := by
  have hd : ∀ x ∈ Ioo (0 : ℝ) 1, HasDerivWithinAt (fun x => 1 - x) (-1) (Ioo 0 1) x := by
    intro x _
    simpa using ((hasDerivAt_id x).const_sub 1).hasDerivWithinAt
  have hinj : InjOn (fun x : ℝ => 1 - x) (Ioo 0 1) := fun x _ y _ h => by
    simpa using h
  have him : (fun x : ℝ => 1 - x) '' Ioo 0 1 = Ioo 0 1 := by
    simp
  have k1 := integral_image_eq_integral_abs_deriv_smul measurableSet_Ioo hd hinj k
  have k2 := integrableOn_image_iff_integrableOn_abs_deriv_smul measurableSet_Ioo hd hinj k
  rw [him] at k1 k2
  simp only [abs_neg, abs_one, one_smul] at k1 k2
  unfold HasInt
  rw [k1, k2]

theorem hasInt_isf {I : Set ℝ} {pdf cdf ppf isf : ℝ → ℝ} (hm : MeasurableSet I)
    (hI : OrdConnected I) (h : IsCdf I pdf cdf) (hp : IsPpf I cdf ppf) (hs : IsIsf ppf isf)
    {k : ℝ → ℝ} (hk : Measurable k) {v : ℝ} :
    HasInt I (fun x => k x * pdf x) v ↔ HasInt (Ioo 0 1) (fun q => k (isf q)) v := by
  rw [hasInt_ppf hm hI h hp hk, ← hasInt_flip]
  constructor
  · intro hh
    exact hh.congr measurableSet_Ioo (fun q hq => by rw [hs q hq.1 hq.2]) rfl
  · intro hh
    exact hh.congr measurableSet_Ioo (fun q hq => by rw [hs q hq.1 hq.2]) rfl

end Wafo.Dist
