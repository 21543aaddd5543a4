import Verif.Dist.RvsSpec
import Verif.Dist.SampleLemmas
import Mathlib.MeasureTheory.Function.JacobianOneDim
import Mathlib.MeasureTheory.Measure.Prod

namespace Wafo.Dist

open MeasureTheory Set Filter Topology Real

set_option linter.unusedSectionVars false

theorem HasLaw.apply {μ : Measure ℝ} {I : Set ℝ} {f : ℝ → ℝ} (h : HasLaw μ I f) {s : Set ℝ}
    (hs : MeasurableSet s) : μ s = ∫⁻ x in s ∩ I, ENNReal.ofReal (f x) := by
  rw [h, withDensity_apply _ hs, Measure.restrict_restrict hs]

theorem hasLaw_of {μ : Measure ℝ} {I : Set ℝ} {f : ℝ → ℝ}
    (h : ∀ s, MeasurableSet s → μ s = ∫⁻ x in s ∩ I, ENNReal.ofReal (f x)) : HasLaw μ I f := by
  refine Measure.ext fun s hs => ?_
  rw [h s hs, withDensity_apply _ hs, Measure.restrict_restrict hs]

theorem HasLaw.congr {μ : Measure ℝ} {I : Set ℝ} (hI : MeasurableSet I) {f g : ℝ → ℝ}
    (h : HasLaw μ I f) (e : ∀ x ∈ I, g x = f x) : HasLaw μ I g := by
  refine hasLaw_of fun s hs => ?_
  rw [h.apply hs]
  exact setLIntegral_congr_fun (hs.inter hI) fun x hx => by simp only [e x hx.2]

/-- A smooth bijection of a draw. -/
theorem HasLaw.comp {μ : Measure ℝ} {I J : Set ℝ} {f pdf g gi gi' : ℝ → ℝ} (hμ : HasLaw μ I f)
    (hg : Measurable g) (hJ : MeasurableSet J) (h1 : ∀ y ∈ J, gi y ∈ I) (h2 : ∀ x ∈ I, g x ∈ J)
    (h3 : ∀ x ∈ I, gi (g x) = x) (h4 : ∀ y ∈ J, g (gi y) = y)
    (hd : ∀ y ∈ J, HasDerivAt gi (gi' y) y) (hp : ∀ y ∈ J, pdf y = |gi' y| * f (gi y)) :
    HasLaw (μ.map g) J pdf := by
  refine hasLaw_of fun s hs => ?_
  have e : g ⁻¹' s ∩ I = gi '' (s ∩ J) := by
    ext x
    constructor
    · rintro ⟨hx, hxI⟩
      exact ⟨g x, ⟨hx, h2 x hxI⟩, h3 x hxI⟩
    · rintro ⟨y, ⟨hy, hyJ⟩, rfl⟩
      refine ⟨?_, h1 y hyJ⟩
      rw [mem_preimage, h4 y hyJ]
      exact hy
  have hinj : InjOn gi (s ∩ J) := fun y hy z hz h => by
    rw [← h4 y hy.2, h, h4 z hz.2]
  rw [Measure.map_apply hg hs, hμ.apply (hg hs), e,
    lintegral_image_eq_lintegral_abs_deriv_mul (hs.inter hJ)
      (fun y hy => (hd y hy.2).hasDerivWithinAt) hinj]
  refine setLIntegral_congr_fun (hs.inter hJ) fun y hy => ?_
  simp only [hp y hy.2]
  rw [ENNReal.ofReal_mul (abs_nonneg _)]

/-- The absolute value of a draw moved by `c`. -/
theorem HasLaw.fold {μ : Measure ℝ} {f pdf : ℝ → ℝ} (c : ℝ) (hμ : HasLaw μ univ f)
    (hf : Measurable f) (hn : ∀ x, 0 ≤ f x)
    (hp : ∀ y ∈ Ioi (0 : ℝ), pdf y = f (y - c) + f (-y - c)) :
    HasLaw (μ.map fun x => |x + c|) (Ioi 0) pdf := by
  have hg : Measurable fun x : ℝ => |x + c| := by fun_prop
  refine hasLaw_of fun s hs => ?_
  have hsI := hs.inter (measurableSet_Ioi (a := (0 : ℝ)))
  have inj1 : InjOn (fun y : ℝ => y - c) (s ∩ Ioi 0) := fun y _ z _ h => by
    have h : y - c = z - c := h
    linarith
  have inj2 : InjOn (fun y : ℝ => -y - c) (s ∩ Ioi 0) := fun y _ z _ h => by
    have h : -y - c = -z - c := h
    linarith
  have e1 := lintegral_image_eq_lintegral_abs_deriv_mul hsI (f := fun y : ℝ => y - c)
    (fun y _ => ((hasDerivAt_id y).sub_const c).hasDerivWithinAt) inj1
    (fun x => ENNReal.ofReal (f x))
  have e2 := lintegral_image_eq_lintegral_abs_deriv_mul hsI (f := fun y : ℝ => -y - c)
    (fun y _ => ((hasDerivAt_id y).neg.sub_const c).hasDerivWithinAt) inj2
    (fun x => ENNReal.ofReal (f x))
  have m2 : MeasurableSet ((fun y : ℝ => -y - c) '' (s ∩ Ioi 0)) :=
    hsI.image_of_measurable_injOn (by fun_prop) inj2
  have hdis : Disjoint ((fun y : ℝ => y - c) '' (s ∩ Ioi 0))
      ((fun y : ℝ => -y - c) '' (s ∩ Ioi 0)) := by
    rw [Set.disjoint_left]
    rintro x ⟨y, hy, rfl⟩ ⟨z, hz, h⟩
    have h : -z - c = y - c := h
    have := mem_Ioi.1 hy.2
    have := mem_Ioi.1 hz.2
    linarith
  have hset : ((fun x : ℝ => |x + c|) ⁻¹' s : Set ℝ) =ᵐ[volume]
      ((fun y : ℝ => y - c) '' (s ∩ Ioi 0) ∪ (fun y : ℝ => -y - c) '' (s ∩ Ioi 0) : Set ℝ) := by
    have h0 : ∀ᵐ x : ℝ, x ≠ -c := by
      rw [ae_iff]
      simp
    filter_upwards [h0] with x hx
    refine propext ⟨fun h => ?_, fun h => ?_⟩
    · have h : |x + c| ∈ s := h
      rcases lt_trichotomy (x + c) 0 with h' | h' | h'
      · rw [abs_of_neg h'] at h
        exact Or.inr ⟨-(x + c), ⟨h, by simp only [mem_Ioi]; linarith⟩, by simp only; ring⟩
      · exact absurd (by linarith) hx
      · rw [abs_of_pos h'] at h
        exact Or.inl ⟨x + c, ⟨h, h'⟩, by simp only; ring⟩
    · rcases h with ⟨y, hy, rfl⟩ | ⟨y, hy, rfl⟩
      · have h0 := mem_Ioi.1 hy.2
        have : |y - c + c| ∈ s := by
          rw [sub_add_cancel, abs_of_pos h0]
          exact hy.1
        exact this
      · have h0 := mem_Ioi.1 hy.2
        have : |-y - c + c| ∈ s := by
          rw [sub_add_cancel, abs_neg, abs_of_pos h0]
          exact hy.1
        exact this
  rw [Measure.map_apply hg hs, hμ.apply (hg hs), inter_univ, setLIntegral_congr hset,
    lintegral_union m2 hdis, e1, e2, ← lintegral_add_left]
  · refine setLIntegral_congr_fun hsI fun y hy => ?_
    simp only [hp y hy.2, abs_one, abs_neg, ENNReal.ofReal_one, one_mul]
    rw [ENNReal.ofReal_add (hn _) (hn _)]
  · simp only [abs_one, ENNReal.ofReal_one, one_mul]
    fun_prop

/-- A positive draw with a random sign. -/
theorem HasLaw.sign {μ : Measure ℝ} {f pdf : ℝ → ℝ} (hμ : HasLaw μ (Ioi 0) f)
    (he : ∀ x, pdf (-x) = pdf x) (hp : ∀ x ∈ Ioi (0 : ℝ), f x = 2 * pdf x) :
    HasLaw ((uniformLaw.prod μ).map fun p => p.2 * (if p.1 ≥ 0.5 then 1 else -1)) univ pdf := by
  have hfin : SFinite μ := by
    rw [HasLaw] at hμ
    rw [hμ]
    infer_instance
  have hg : Measurable fun p : ℝ × ℝ => p.2 * (if p.1 ≥ 0.5 then (1 : ℝ) else -1) := by
    refine measurable_snd.mul (Measurable.ite ?_ measurable_const measurable_const)
    exact measurableSet_le measurable_const measurable_fst
  refine hasLaw_of fun s hs => ?_
  have hpre : (fun p : ℝ × ℝ => p.2 * (if p.1 ≥ 0.5 then (1 : ℝ) else -1)) ⁻¹' s =
      Ici 0.5 ×ˢ s ∪ Iio 0.5 ×ˢ (Neg.neg ⁻¹' s) := by
    ext ⟨u, x⟩
    simp only [mem_preimage, mem_union, mem_prod, mem_Ici, mem_Iio, ge_iff_le]
    rcases le_or_gt 0.5 u with h | h
    · simp [h, not_lt.2 h]
    · simp [h, not_le.2 h]
  have hns : MeasurableSet (Neg.neg ⁻¹' s : Set ℝ) := measurable_neg hs
  have hd : Disjoint (Ici (0.5 : ℝ) ×ˢ s) (Iio 0.5 ×ˢ (Neg.neg ⁻¹' s)) := by
    rw [Set.disjoint_left]
    rintro ⟨u, x⟩ h1 h2
    exact absurd (mem_Ici.1 h1.1) (not_le.2 (mem_Iio.1 h2.1))
  have u1 : uniformLaw (Ici 0.5) = 2⁻¹ := by
    rw [uniformLaw, Measure.restrict_apply measurableSet_Ici,
      show Ici (0.5 : ℝ) ∩ Ioo 0 1 = Ico 0.5 1 by
        ext x
        simp only [mem_inter_iff, mem_Ici, mem_Ioo, mem_Ico]
        constructor
        · intro h
          exact ⟨h.1, h.2.2⟩
        · intro h
          exact ⟨h.1, by linarith [h.1], h.2⟩, Real.volume_Ico]
    norm_num
    rw [one_div, ENNReal.ofReal_inv_of_pos (by norm_num), ENNReal.ofReal_ofNat]
  have u2 : uniformLaw (Iio 0.5) = 2⁻¹ := by
    rw [uniformLaw, Measure.restrict_apply measurableSet_Iio,
      show Iio (0.5 : ℝ) ∩ Ioo 0 1 = Ioo 0 0.5 by
        ext x
        simp only [mem_inter_iff, mem_Iio, mem_Ioo]
        constructor
        · intro h
          exact ⟨h.2.1, h.1⟩
        · intro h
          exact ⟨h.2, h.1, by linarith [h.2]⟩, Real.volume_Ioo]
    norm_num
    rw [one_div, ENNReal.ofReal_inv_of_pos (by norm_num), ENNReal.ofReal_ofNat]
  have half : ∀ t : Set ℝ, MeasurableSet t →
      2⁻¹ * μ t = ∫⁻ x in t ∩ Ioi 0, ENNReal.ofReal (pdf x) := by
    intro t ht
    have htI := ht.inter (measurableSet_Ioi (a := (0 : ℝ)))
    rw [hμ.apply ht, ← lintegral_const_mul' _ _ (by simp)]
    refine setLIntegral_congr_fun htI fun x hx => ?_
    simp only [hp x hx.2]
    rw [ENNReal.ofReal_mul (by norm_num), ← mul_assoc, ENNReal.ofReal_ofNat,
      ENNReal.inv_mul_cancel (by norm_num) (by norm_num), one_mul]
  have flip : ∫⁻ x in (Neg.neg ⁻¹' s) ∩ Ioi 0, ENNReal.ofReal (pdf x) =
      ∫⁻ x in s ∩ Iio 0, ENNReal.ofReal (pdf x) := by
    have hm := hns.inter (measurableSet_Ioi (a := (0 : ℝ)))
    have := lintegral_image_eq_lintegral_abs_deriv_mul hm (f := fun y : ℝ => -y)
      (fun y _ => (hasDerivAt_id y).neg.hasDerivWithinAt) (neg_injective.injOn)
      (fun x => ENNReal.ofReal (pdf x))
    have e : (fun y : ℝ => -y) '' ((Neg.neg ⁻¹' s) ∩ Ioi 0) = s ∩ Iio 0 := by
      ext x
      simp only [mem_image, mem_inter_iff, mem_preimage, mem_Ioi, mem_Iio]
      constructor
      · rintro ⟨y, ⟨h1, h2⟩, rfl⟩
        exact ⟨h1, by linarith⟩
      · rintro ⟨h1, h2⟩
        exact ⟨-x, ⟨by rwa [neg_neg], by linarith⟩, neg_neg x⟩
    rw [e] at this
    rw [this]
    refine setLIntegral_congr_fun hm fun x _ => ?_
    simp only [abs_neg, abs_one, ENNReal.ofReal_one, one_mul, he]
  have hset : (s : Set ℝ) =ᵐ[volume] (s ∩ Ioi 0 ∪ s ∩ Iio 0 : Set ℝ) := by
    have h0 : ∀ᵐ x : ℝ, x ≠ 0 := by
      rw [ae_iff]
      simp
    filter_upwards [h0] with x hx
    refine propext ⟨fun h => ?_, fun h => ?_⟩
    · rcases lt_or_gt_of_ne hx with h' | h'
      · exact Or.inr ⟨h, h'⟩
      · exact Or.inl ⟨h, h'⟩
    · rcases h with h | h <;> exact h.1
  rw [Measure.map_apply hg hs, hpre, measure_union hd (measurableSet_Iio.prod hns),
    Measure.prod_prod, Measure.prod_prod, u1, u2, half s hs, half _ hns, flip, inter_univ,
    setLIntegral_congr hset, lintegral_union (hs.inter measurableSet_Iio)]
  rw [Set.disjoint_left]
  intro x h1 h2
  exact absurd (mem_Ioi.1 h1.2) (not_lt.2 (mem_Iio.1 h2.2).le)

end Wafo.Dist
