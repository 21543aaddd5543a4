import Verif.Dist.BetaModel
import Verif.Dist.GammaLemmas
import Verif.Dist.MomLemmas
import Mathlib.Probability.Distributions.Beta

/-!
# Lemmas for the beta family
-/

namespace Wafo.Dist

open MeasureTheory Set Filter Topology Real

set_option linter.unusedSectionVars false

theorem betaf_pos {a b : ℝ} (ha : 0 < a) (hb : 0 < b) : 0 < betaf a b :=
  ProbabilityTheory.beta_pos ha hb

theorem betaf_comm (a b : ℝ) : betaf a b = betaf b a := by
  rw [betaf, betaf, mul_comm, add_comm]

/-- The beta integral. -/
theorem hasInt_beta {a b : ℝ} (ha : 0 < a) (hb : 0 < b) :
    HasInt (Ioo 0 1) (fun t => t ^ (a - 1) * (1 - t) ^ (b - 1)) (betaf a b) := by
  have hB := betaf_pos ha hb
  have h := ProbabilityTheory.lintegral_betaPDF_eq_one ha hb
  rw [ProbabilityTheory.lintegral_betaPDF] at h
  have hm : Measurable fun t : ℝ => 1 / ProbabilityTheory.beta a b * t ^ (a - 1) * (1 - t) ^ (b - 1) := by
    fun_prop
  have hn : 0 ≤ᵐ[volume.restrict (Ioo (0 : ℝ) 1)]
      fun t : ℝ => 1 / ProbabilityTheory.beta a b * t ^ (a - 1) * (1 - t) ^ (b - 1) := by
    refine (ae_restrict_iff' measurableSet_Ioo).2 (Eventually.of_forall fun t ht => ?_)
    have h1 := rpow_nonneg ht.1.le (a - 1)
    have h2 := rpow_nonneg (sub_nonneg.2 ht.2.le) (b - 1)
    have : 0 < ProbabilityTheory.beta a b := hB
    exact mul_nonneg (mul_nonneg (by positivity) h1) h2
  have hI : HasInt (Ioo 0 1)
      (fun t : ℝ => 1 / ProbabilityTheory.beta a b * t ^ (a - 1) * (1 - t) ^ (b - 1)) 1 := by
    constructor
    · refine ⟨hm.aestronglyMeasurable, ?_⟩
      rw [hasFiniteIntegral_iff_ofReal hn, h]
      exact ENNReal.one_lt_top
    · rw [integral_eq_lintegral_of_nonneg_ae hn hm.aestronglyMeasurable, h, ENNReal.toReal_one]
  have hB' : ProbabilityTheory.beta a b = betaf a b := rfl
  rw [hB'] at hI
  refine (hI.const_mul (betaf a b)).congr measurableSet_Ioo (fun t _ => ?_) (by ring)
  field_simp

theorem beta_ind_integrable {a b : ℝ} (ha : 0 < a) (hb : 0 < b) :
    Integrable ((Ioo (0 : ℝ) 1).indicator (fun t : ℝ => t ^ (a - 1) * (1 - t) ^ (b - 1))) :=
  (integrable_indicator_iff measurableSet_Ioo).2 (hasInt_beta ha hb).1

theorem betainc_eq_interval {a b x : ℝ} (h0 : 0 ≤ x) (h1 : x ≤ 1) : betainc a b x =
    (∫ t in (0 : ℝ)..x, (Ioo (0 : ℝ) 1).indicator (fun t : ℝ => t ^ (a - 1) * (1 - t) ^ (b - 1)) t)
      / betaf a b := by
  unfold betainc
  congr 1
  rw [intervalIntegral.integral_of_le h0, setIntegral_indicator measurableSet_Ioo]
  refine setIntegral_congr_set ?_
  have : Ioc 0 x ∩ Ioo 0 1 ⊆ Ioc 0 x := inter_subset_left
  have hsub : Ioo 0 x ⊆ Ioc 0 x ∩ Ioo 0 1 := fun t ht =>
    ⟨⟨ht.1, ht.2.le⟩, ht.1, ht.2.trans_le h1⟩
  refine (ae_eq_set (μ := (volume : Measure ℝ))).2 ⟨?_, by rw [sdiff_eq_empty.2 this, measure_empty]⟩
  refine measure_mono_null (t := {x}) (fun t ht => ?_) volume_singleton
  by_contra hne
  exact ht.2 (hsub ⟨ht.1.1, lt_of_le_of_ne ht.1.2 hne⟩)

theorem betainc_zero {a b : ℝ} : betainc a b 0 = 0 := by
  simp [betainc]

theorem betainc_one {a b : ℝ} (ha : 0 < a) (hb : 0 < b) : betainc a b 1 = 1 := by
  rw [betainc, integral_Ioc_eq_integral_Ioo, (hasInt_beta ha hb).2, div_self (betaf_pos ha hb).ne']

theorem betainc_cont {a b : ℝ} (ha : 0 < a) (hb : 0 < b) : ContinuousOn (betainc a b) (Icc 0 1) := by
  have h : Continuous fun x : ℝ => (∫ t in (0 : ℝ)..x,
      (Ioo (0 : ℝ) 1).indicator (fun t : ℝ => t ^ (a - 1) * (1 - t) ^ (b - 1)) t) / betaf a b :=
    (intervalIntegral.continuous_primitive
      (fun _ _ => (beta_ind_integrable ha hb).intervalIntegrable) 0).div_const _
  exact h.continuousOn.congr fun x hx => betainc_eq_interval hx.1 hx.2

theorem betainc_deriv {a b x : ℝ} (ha : 0 < a) (hb : 0 < b) (hx : x ∈ Ioo (0 : ℝ) 1) :
    HasDerivAt (betainc a b) (x ^ (a - 1) * (1 - x) ^ (b - 1) / betaf a b) x := by
  have hev : (fun t : ℝ => t ^ (a - 1) * (1 - t) ^ (b - 1)) =ᶠ[𝓝 x]
      (Ioo (0 : ℝ) 1).indicator (fun t : ℝ => t ^ (a - 1) * (1 - t) ^ (b - 1)) := by
    filter_upwards [isOpen_Ioo.mem_nhds hx] with t ht
    rw [indicator_of_mem ht]
  have hc : ContinuousAt ((Ioo (0 : ℝ) 1).indicator
      (fun t : ℝ => t ^ (a - 1) * (1 - t) ^ (b - 1))) x := by
    refine ContinuousAt.congr ?_ hev
    have h1 : ContinuousAt (fun t : ℝ => (1 - t) ^ (b - 1)) x :=
      (continuous_const.sub continuous_id).continuousAt.rpow_const (Or.inl (sub_pos.2 hx.2).ne')
    exact (continuousAt_rpow_const x (a - 1) (Or.inl hx.1.ne')).mul h1
  have h := intervalIntegral.integral_hasDerivAt_right
    ((beta_ind_integrable ha hb).intervalIntegrable (a := 0) (b := x))
    ((beta_ind_integrable ha hb).aestronglyMeasurable.stronglyMeasurableAtFilter) hc
  rw [indicator_of_mem hx] at h
  refine (h.div_const (betaf a b)).congr_of_eventuallyEq ?_
  filter_upwards [isOpen_Ioo.mem_nhds hx] with t ht using betainc_eq_interval ht.1.le ht.2.le

theorem beta_dens_pos {a b x : ℝ} (ha : 0 < a) (hb : 0 < b) (hx : x ∈ Ioo (0 : ℝ) 1) :
    0 < x ^ (a - 1) * (1 - x) ^ (b - 1) / betaf a b :=
  div_pos (mul_pos (rpow_pos_of_pos hx.1 _) (rpow_pos_of_pos (sub_pos.2 hx.2) _)) (betaf_pos ha hb)

theorem betainc_mono {a b : ℝ} (ha : 0 < a) (hb : 0 < b) : StrictMonoOn (betainc a b) (Icc 0 1) := by
  refine strictMonoOn_of_deriv_pos (convex_Icc 0 1) (betainc_cont ha hb) ?_
  intro x hx
  rw [interior_Icc] at hx
  rw [(betainc_deriv ha hb hx).deriv]
  exact beta_dens_pos ha hb hx

theorem betainc_mem {a b x : ℝ} (ha : 0 < a) (hb : 0 < b) (hx : x ∈ Ioo (0 : ℝ) 1) :
    0 < betainc a b x ∧ betainc a b x < 1 := by
  constructor
  · have := betainc_mono ha hb (left_mem_Icc.2 zero_le_one) (Ioo_subset_Icc_self hx) hx.1
    rwa [betainc_zero] at this
  · have := betainc_mono ha hb (Ioo_subset_Icc_self hx) (right_mem_Icc.2 zero_le_one) hx.2
    rwa [betainc_one ha hb] at this

/-- Reflection of the incomplete beta function. -/
theorem betainc_symm {a b x : ℝ} (ha : 0 < a) (hb : 0 < b) (hx : x ∈ Icc (0 : ℝ) 1) :
    betainc a b x = 1 - betainc b a (1 - x) := by
  have hd : ∀ y ∈ Ioo (0 : ℝ) 1,
      HasDerivAt (fun y => betainc a b y + betainc b a (1 - y)) 0 y := by
    intro y hy
    have hy' : 1 - y ∈ Ioo (0 : ℝ) 1 := ⟨by linarith [hy.2], by linarith [hy.1]⟩
    refine HasDerivAt.congr_deriv ((betainc_deriv ha hb hy).add
      ((betainc_deriv hb ha hy').comp y ((hasDerivAt_id y).const_sub 1))) ?_
    rw [betaf_comm b a, show 1 - (1 - y) = y by ring]
    ring
  have hc : ContinuousOn (fun y => betainc a b y + betainc b a (1 - y)) (Icc 0 1) := by
    refine (betainc_cont ha hb).add ((betainc_cont hb ha).comp (by fun_prop) fun y hy => ?_)
    exact ⟨by linarith [hy.2], by linarith [hy.1]⟩
  have := (convex_Icc (0 : ℝ) 1).image_sub_le_mul_sub_of_deriv_le hc
    (fun y hy => by
      rw [interior_Icc] at hy
      exact (hd y hy).differentiableAt.differentiableWithinAt)
    (C := 0) (fun y hy => by
      rw [interior_Icc] at hy
      exact (hd y hy).deriv.le) 0 (left_mem_Icc.2 zero_le_one) x hx hx.1
  have h2 := (convex_Icc (0 : ℝ) 1).mul_sub_le_image_sub_of_le_deriv hc
    (fun y hy => by
      rw [interior_Icc] at hy
      exact (hd y hy).differentiableAt.differentiableWithinAt)
    (C := 0) (fun y hy => by
      rw [interior_Icc] at hy
      exact (hd y hy).deriv.ge) 0 (left_mem_Icc.2 zero_le_one) x hx hx.1
  simp only [betainc_zero, sub_zero, betainc_one hb ha] at this h2
  linarith

/-- What is assumed of `btdtri`: it is the inverse of the incomplete beta function. -/
def IsBetaInv (inv : ℝ → ℝ → ℝ → ℝ) : Prop :=
  ∀ a b, 0 < a → 0 < b → IsPpf (Ioo 0 1) (betainc a b) (inv a b)

/-- A function as assumed in `IsBetaInv` exists. -/
theorem exists_betaInv : ∃ inv, IsBetaInv inv := by
  have h : ∀ a b : ℝ, ∃ P : ℝ → ℝ, 0 < a → 0 < b → IsPpf (Ioo 0 1) (betainc a b) P := by
    intro a b
    by_cases hab : 0 < a ∧ 0 < b
    swap
    · exact ⟨fun _ => 0, fun ha hb => absurd ⟨ha, hb⟩ hab⟩
    obtain ⟨ha, hb⟩ := hab
    have hq : ∀ q : ℝ, ∃ x : ℝ, 0 < q → q < 1 → x ∈ Ioo (0 : ℝ) 1 ∧ betainc a b x = q := by
      intro q
      by_cases hq : 0 < q ∧ q < 1
      · obtain ⟨h0, h1⟩ := hq
        obtain ⟨x, hx, hxq⟩ := intermediate_value_Icc zero_le_one (betainc_cont ha hb)
          (show q ∈ Icc (betainc a b 0) (betainc a b 1) from
            ⟨by rw [betainc_zero]; exact h0.le, by rw [betainc_one ha hb]; exact h1.le⟩)
        refine ⟨x, fun _ _ => ⟨⟨lt_of_le_of_ne hx.1 ?_, lt_of_le_of_ne hx.2 ?_⟩, hxq⟩⟩
        · rintro rfl
          rw [betainc_zero] at hxq
          linarith
        · rintro rfl
          rw [betainc_one ha hb] at hxq
          linarith
      · exact ⟨0, fun h0 h1 => absurd ⟨h0, h1⟩ hq⟩
    choose P hP using hq
    refine ⟨P, fun _ _ => ⟨fun q h0 h1 => (hP q h0 h1).1, fun q h0 h1 => (hP q h0 h1).2,
      fun x hx => betainc_mem ha hb hx, ?_⟩⟩
    intro x hx
    have hm := betainc_mem ha hb hx
    have h2 := hP (betainc a b x) hm.1 hm.2
    exact (betainc_mono ha hb).injOn (Ioo_subset_Icc_self h2.1) (Ioo_subset_Icc_self hx) h2.2
  choose P hP using h
  exact ⟨P, hP⟩

/-- A distribution obtained from the beta distribution by an increasing change of variable. -/
theorem beta_comp {inv : ℝ → ℝ → ℝ → ℝ} (h : IsBetaInv inv) {a b : ℝ} (ha : 0 < a) (hb : 0 < b)
    {J : Set ℝ} (ho : IsOpen J) (hJ : OrdConnected J) {g gi g' pdf : ℝ → ℝ}
    (hg : ∀ x ∈ J, g x ∈ Ioo (0 : ℝ) 1) (hi : ∀ y ∈ Ioo (0 : ℝ) 1, gi y ∈ J)
    (h1 : ∀ x ∈ J, gi (g x) = x) (h2 : ∀ y ∈ Ioo (0 : ℝ) 1, g (gi y) = y)
    (hd : ∀ x ∈ J, HasDerivAt g (g' x) x) (hg' : ∀ x ∈ J, 0 ≤ g' x)
    (hp : ∀ x ∈ J, pdf x = g x ^ (a - 1) * (1 - g x) ^ (b - 1) / betaf a b * g' x) :
    IsCdf J pdf (fun x => betainc a b (g x)) ∧
    IsPpf J (fun x => betainc a b (g x)) (fun q => gi (inv a b q)) := by
  have hP := (h a b ha hb).comp (J := J) (g := g) (gi := gi) hg hi h1 h2
  refine ⟨isCdf_of_ppf ho hJ ?_ ?_ hP, hP⟩
  · intro x hx
    rw [hp x hx]
    exact (betainc_deriv ha hb (hg x hx)).comp x (hd x hx)
  · intro x hx
    rw [hp x hx]
    exact mul_nonneg (beta_dens_pos ha hb (hg x hx)).le (hg' x hx)

theorem exp_betaln {a b : ℝ} (ha : 0 < a) (hb : 0 < b) : exp (betaln a b) = betaf a b := by
  rw [betaln, abs_of_pos (betaf_pos ha hb), exp_log (betaf_pos ha hb)]

end Wafo.Dist
