import Verif.Dist.GammaModel
import Verif.Dist.LogisticProps

/-!
# Lemmas for the gamma family
-/

namespace Wafo.Dist

open MeasureTheory Set Filter Topology Real

set_option linter.unusedSectionVars false

/-- What is assumed of `gammaincinv` and `gammainccinv`: they are the inverses of the incomplete
gamma functions. -/
structure IsGammaInv (inv cinv : ℝ → ℝ → ℝ) : Prop where
  isPpf : ∀ a, 0 < a → IsPpf (Ioi 0) (gammainc a) (inv a)
  isIsf : ∀ a, 0 < a → IsIsf (inv a) (cinv a)
  cinv_one : ∀ a, 0 < a → cinv a 1 = 0

theorem gamma_integrable {a : ℝ} (ha : 0 < a) :
    IntegrableOn (fun t : ℝ => t ^ (a - 1) * exp (-t)) (Ioi 0) := by
  simpa only [mul_comm] using GammaIntegral_convergent ha

theorem gamma_integral {a : ℝ} (ha : 0 < a) :
    ∫ t in Ioi (0 : ℝ), t ^ (a - 1) * exp (-t) = Gamma a := by
  rw [Gamma_eq_integral ha]
  simp only [mul_comm]

theorem gammaincc_eq {a x : ℝ} (ha : 0 < a) (hx : 0 ≤ x) : gammaincc a x = 1 - gammainc a x := by
  unfold gammaincc gammainc
  have hG := Gamma_pos_of_pos ha
  have h : (∫ t in Ioc 0 x, t ^ (a - 1) * exp (-t)) + ∫ t in Ioi x, t ^ (a - 1) * exp (-t)
      = Gamma a := by
    rw [← gamma_integral ha, ← setIntegral_union (by
      rw [Set.disjoint_left]
      intro t h1 h2
      exact absurd h1.2 (not_le.2 h2)) measurableSet_Ioi
      ((gamma_integrable ha).mono_set fun t ht => ht.1)
      ((gamma_integrable ha).mono_set fun t ht => lt_of_le_of_lt hx ht), Ioc_union_Ioi_eq_Ioi hx]
  field_simp
  linarith

theorem gammainc_eq_interval {a : ℝ} (x : ℝ) : gammainc a x =
    (∫ t in (0 : ℝ)..x, (Ioi (0 : ℝ)).indicator (fun t : ℝ => t ^ (a - 1) * exp (-t)) t) / Gamma a := by
  unfold gammainc
  congr 1
  rcases le_total 0 x with h | h
  · rw [intervalIntegral.integral_of_le h, setIntegral_indicator measurableSet_Ioi]
    congr 2
    ext t
    simp only [mem_inter_iff, mem_Ioc, mem_Ioi]
    tauto
  · rw [intervalIntegral.integral_of_ge h, setIntegral_indicator measurableSet_Ioi, Ioc_eq_empty
      (not_lt.2 h)]
    have : Ioc x 0 ∩ Ioi (0 : ℝ) = ∅ := by
      ext t
      simp only [mem_inter_iff, mem_Ioc, mem_Ioi, mem_empty_iff_false, iff_false]
      rintro ⟨⟨_, h1⟩, h2⟩
      linarith
    rw [this]
    simp

theorem gamma_ind_integrable {a : ℝ} (ha : 0 < a) :
    Integrable ((Ioi (0 : ℝ)).indicator (fun t : ℝ => t ^ (a - 1) * exp (-t))) :=
  (integrable_indicator_iff measurableSet_Ioi).2 (gamma_integrable ha)

theorem gammainc_continuous {a : ℝ} (ha : 0 < a) : Continuous (gammainc a) := by
  have : gammainc a = fun x => (∫ t in (0 : ℝ)..x,
      (Ioi (0 : ℝ)).indicator (fun t : ℝ => t ^ (a - 1) * exp (-t)) t) / Gamma a :=
    funext gammainc_eq_interval
  rw [this]
  exact (intervalIntegral.continuous_primitive
    (fun _ _ => (gamma_ind_integrable ha).intervalIntegrable) 0).div_const _

theorem gammainc_zero {a : ℝ} : gammainc a 0 = 0 := by
  simp [gammainc]

theorem gammainc_deriv {a x : ℝ} (ha : 0 < a) (hx : 0 < x) :
    HasDerivAt (gammainc a) (x ^ (a - 1) * exp (-x) / Gamma a) x := by
  have : gammainc a = fun x => (∫ t in (0 : ℝ)..x,
      (Ioi (0 : ℝ)).indicator (fun t : ℝ => t ^ (a - 1) * exp (-t)) t) / Gamma a :=
    funext gammainc_eq_interval
  rw [this]
  have hev : (fun t : ℝ => t ^ (a - 1) * exp (-t)) =ᶠ[𝓝 x]
      (Ioi (0 : ℝ)).indicator (fun t : ℝ => t ^ (a - 1) * exp (-t)) := by
    filter_upwards [lt_mem_nhds hx] with t ht
    rw [indicator_of_mem (show t ∈ Ioi (0 : ℝ) from ht)]
  have hc : ContinuousAt ((Ioi (0 : ℝ)).indicator (fun t : ℝ => t ^ (a - 1) * exp (-t))) x := by
    refine ContinuousAt.congr ?_ hev
    exact (continuousAt_rpow_const x (a - 1) (Or.inl hx.ne')).mul
      (continuous_exp.comp continuous_neg).continuousAt
  have h := intervalIntegral.integral_hasDerivAt_right
    ((gamma_ind_integrable ha).intervalIntegrable (a := 0) (b := x))
    ((gamma_ind_integrable ha).aestronglyMeasurable.stronglyMeasurableAtFilter) hc
  rw [indicator_of_mem (show x ∈ Ioi (0 : ℝ) from hx)] at h
  exact h.div_const _

theorem gammainc_mono {a : ℝ} (ha : 0 < a) : StrictMonoOn (gammainc a) (Ici 0) := by
  refine strictMonoOn_of_deriv_pos (convex_Ici 0) (gammainc_continuous ha).continuousOn ?_
  intro x hx
  rw [interior_Ici] at hx
  have hx : 0 < x := hx
  rw [(gammainc_deriv ha hx).deriv]
  have := Gamma_pos_of_pos ha
  have := rpow_pos_of_pos hx (a - 1)
  positivity

theorem gammainc_lim {a : ℝ} (ha : 0 < a) : Tendsto (gammainc a) atTop (𝓝 1) := by
  have h := intervalIntegral_tendsto_integral_Ioi (0 : ℝ)
    ((gamma_ind_integrable ha).integrableOn (s := Ioi 0)) tendsto_id
  have h2 : (∫ t in Ioi (0 : ℝ), (Ioi (0 : ℝ)).indicator
      (fun t : ℝ => t ^ (a - 1) * exp (-t)) t) = Gamma a := by
    rw [setIntegral_indicator measurableSet_Ioi, inter_self, gamma_integral ha]
  rw [h2] at h
  have h3 := h.div_const (Gamma a)
  rw [div_self (Gamma_pos_of_pos ha).ne'] at h3
  exact h3.congr fun x => (gammainc_eq_interval x).symm

theorem gammainc_mem {a x : ℝ} (ha : 0 < a) (hx : 0 < x) : 0 < gammainc a x ∧ gammainc a x < 1 := by
  constructor
  · have := gammainc_mono ha (mem_Ici.2 le_rfl : (0 : ℝ) ∈ Ici 0) (show x ∈ Ici 0 from hx.le) hx
    rwa [gammainc_zero] at this
  · have h1 := gammainc_mono ha (show x ∈ Ici 0 from hx.le)
      (show x + 1 ∈ Ici (0 : ℝ) from (by simp only [mem_Ici]; linarith)) (by linarith)
    refine lt_of_lt_of_le h1 (ge_of_tendsto (gammainc_lim ha) ?_)
    filter_upwards [eventually_ge_atTop (x + 1)] with y hy
    exact (gammainc_mono ha).monotoneOn (by simp only [mem_Ici]; linarith)
      (by simp only [mem_Ici]; linarith) hy

/-- Functions as assumed in `IsGammaInv` exist. -/
theorem exists_gammaInv : ∃ inv cinv, IsGammaInv inv cinv := by
  have h : ∀ a : ℝ, ∃ P : ℝ → ℝ, 0 < a → IsPpf (Ioi 0) (gammainc a) P ∧ P 0 = 0 := by
    intro a
    by_cases ha : 0 < a
    swap
    · exact ⟨fun _ => 0, fun h => absurd h ha⟩
    have hq : ∀ q : ℝ, ∃ x : ℝ, (0 < q → q < 1 → 0 < x ∧ gammainc a x = q) ∧ (q = 0 → x = 0) := by
      intro q
      by_cases hq : 0 < q ∧ q < 1
      · obtain ⟨h0, h1⟩ := hq
        obtain ⟨b, hb, hb0⟩ := ((gammainc_lim ha).eventually (lt_mem_nhds h1)).exists_forall_of_atTop
          |>.imp (fun b hb => (⟨hb, trivial⟩ : _ ∧ True))
        have hM := hb (max b 0) (le_max_left _ _)
        obtain ⟨x, hx, hxq⟩ := intermediate_value_Icc (le_max_right b 0)
          (gammainc_continuous ha).continuousOn (show q ∈ Icc (gammainc a 0) (gammainc a (max b 0)) from
            ⟨by rw [gammainc_zero]; exact h0.le, hM.le⟩)
        refine ⟨x, fun _ _ => ⟨?_, hxq⟩, fun h => absurd h h0.ne'⟩
        rcases hx.1.lt_or_eq with h | h
        · exact h
        · rw [← h, gammainc_zero] at hxq
          linarith
      · exact ⟨0, fun h0 h1 => absurd ⟨h0, h1⟩ hq, fun _ => rfl⟩
    choose P hP using hq
    refine ⟨P, fun _ => ⟨⟨fun q h0 h1 => ((hP q).1 h0 h1).1, fun q h0 h1 => ((hP q).1 h0 h1).2,
      fun x hx => gammainc_mem ha hx, ?_⟩, (hP 0).2 rfl⟩⟩
    intro x hx
    have hm := gammainc_mem ha hx
    have h2 := (hP (gammainc a x)).1 hm.1 hm.2
    exact (gammainc_mono ha).injOn (show _ ∈ Ici (0 : ℝ) from h2.1.le)
      (mem_Ici.2 (le_of_lt hx)) h2.2
  choose P hP using h
  refine ⟨P, fun a q => P a (1 - q), fun a ha => (hP a ha).1, fun a _ q _ _ => rfl, fun a ha => ?_⟩
  rw [sub_self]
  exact (hP a ha).2

/-- A distribution obtained from the gamma distribution by an increasing change of variable. -/
theorem gamma_comp {inv cinv : ℝ → ℝ → ℝ} (h : IsGammaInv inv cinv) {a : ℝ} (ha : 0 < a) {J : Set ℝ}
    (ho : IsOpen J) (hJ : OrdConnected J) {g gi g' pdf : ℝ → ℝ} (hg : ∀ x ∈ J, 0 < g x)
    (hi : ∀ y, 0 < y → gi y ∈ J) (h1 : ∀ x ∈ J, gi (g x) = x) (h2 : ∀ y, 0 < y → g (gi y) = y)
    (hd : ∀ x ∈ J, HasDerivAt g (g' x) x) (hg' : ∀ x ∈ J, 0 ≤ g' x)
    (hp : ∀ x ∈ J, pdf x = g x ^ (a - 1) * exp (-g x) / Gamma a * g' x) :
    IsCdf J pdf (fun x => gammainc a (g x)) ∧
    IsPpf J (fun x => gammainc a (g x)) (fun q => gi (inv a q)) := by
  have hP := (h.isPpf a ha).comp (J := J) (g := g) (gi := gi) hg hi h1 h2
  refine ⟨isCdf_of_ppf ho hJ ?_ ?_ hP, hP⟩
  · intro x hx
    rw [hp x hx]
    exact (gammainc_deriv ha (hg x hx)).comp x (hd x hx)
  · intro x hx
    rw [hp x hx]
    have := Gamma_pos_of_pos ha
    have := rpow_nonneg (hg x hx).le (a - 1)
    have := hg' x hx
    positivity

/-- A distribution obtained from the gamma distribution by a decreasing change of variable. -/
theorem gamma_comp_rev {inv cinv : ℝ → ℝ → ℝ} (h : IsGammaInv inv cinv) {a : ℝ} (ha : 0 < a)
    {J : Set ℝ} (ho : IsOpen J) (hJ : OrdConnected J) {g gi g' pdf : ℝ → ℝ} (hg : ∀ x ∈ J, 0 < g x)
    (hi : ∀ y, 0 < y → gi y ∈ J) (h1 : ∀ x ∈ J, gi (g x) = x) (h2 : ∀ y, 0 < y → g (gi y) = y)
    (hd : ∀ x ∈ J, HasDerivAt g (-g' x) x) (hg' : ∀ x ∈ J, 0 ≤ g' x)
    (hp : ∀ x ∈ J, pdf x = g x ^ (a - 1) * exp (-g x) / Gamma a * g' x) :
    IsCdf J pdf (fun x => gammaincc a (g x)) ∧
    IsPpf J (fun x => gammaincc a (g x)) (fun q => gi (cinv a q)) := by
  have hP : IsPpf J (fun x => gammaincc a (g x)) (fun q => gi (cinv a q)) := by
    refine ((h.isPpf a ha).rev.comp (J := J) (g := g) (gi := gi) hg hi h1 h2).congr ?_ ?_
    · intro x hx
      exact gammaincc_eq ha (hg x hx).le
    · intro q h0 h1
      show gi (cinv a q) = gi (inv a (1 - q))
      rw [h.isIsf a ha q h0 h1]
  refine ⟨isCdf_of_ppf ho hJ ?_ ?_ hP, hP⟩
  · intro x hx
    have hev : ∀ᶠ y in 𝓝 x, gammaincc a (g y) = 1 - gammainc a (g y) := by
      filter_upwards [ho.mem_nhds hx] with y hy using gammaincc_eq ha (hg y hy).le
    refine HasDerivAt.congr_of_eventuallyEq ?_ hev
    refine HasDerivAt.congr_deriv
      (((gammainc_deriv ha (hg x hx)).comp x (hd x hx)).const_sub 1) ?_
    rw [hp x hx]
    ring
  · intro x hx
    rw [hp x hx]
    have := Gamma_pos_of_pos ha
    have := rpow_nonneg (hg x hx).le (a - 1)
    have := hg' x hx
    positivity

/-- The symmetric distribution whose absolute value has the distribution function `F`. -/
theorem two_sided {F P pdf : ℝ → ℝ} (h : IsPpf (Ioi 0) F P) (hF0 : F 0 = 0) (hc : Continuous F)
    (hd : ∀ x, 0 < x → HasDerivAt F (2 * pdf x) x) (hn : ∀ x, 0 ≤ pdf x)
    (he : ∀ x, pdf (-x) = pdf x) {cdf ppf : ℝ → ℝ}
    (h1 : ∀ x, 0 ≤ x → cdf x = 1 / 2 + F x / 2) (h2 : ∀ x, x ≤ 0 → cdf x = 1 / 2 - F (-x) / 2)
    (h3 : ∀ q, 1 / 2 < q → q < 1 → ppf q = P (2 * q - 1))
    (h4 : ∀ q, 0 < q → q < 1 / 2 → ppf q = -P (1 - 2 * q)) (h5 : ppf (1 / 2) = 0) :
    IsCdf univ pdf cdf ∧ IsPpf univ cdf ppf := by
  have hP : IsPpf univ cdf ppf := by
    refine ⟨fun _ _ _ => mem_univ _, ?_, ?_, ?_⟩
    · intro q q0 q1
      rcases lt_trichotomy q (1 / 2) with hq | hq | hq
      · have hm : 0 < P (1 - 2 * q) := h.mem (1 - 2 * q) (by linarith) (by linarith)
        rw [h4 q q0 hq, h2 _ (by linarith), neg_neg, h.cdf_ppf _ (by linarith) (by linarith)]
        ring
      · rw [hq, h5, h1 0 le_rfl, hF0]
        norm_num
      · have hm : 0 < P (2 * q - 1) := h.mem (2 * q - 1) (by linarith) (by linarith)
        rw [h3 q hq q1, h1 _ hm.le, h.cdf_ppf _ (by linarith) (by linarith)]
        ring
    · intro x _
      rcases lt_trichotomy x 0 with hx | hx | hx
      · have := h.cdf_mem (-x) (show -x ∈ Ioi 0 from neg_pos.2 hx)
        rw [h2 x hx.le]
        constructor <;> linarith
      · rw [hx, h1 0 le_rfl, hF0]
        norm_num
      · have := h.cdf_mem x hx
        rw [h1 x hx.le]
        constructor <;> linarith
    · intro x _
      rcases lt_trichotomy x 0 with hx | hx | hx
      · have hm := h.cdf_mem (-x) (show -x ∈ Ioi 0 from neg_pos.2 hx)
        rw [h2 x hx.le, h4 _ (by linarith) (by linarith),
          show 1 - 2 * (1 / 2 - F (-x) / 2) = F (-x) by ring,
          h.ppf_cdf _ (show -x ∈ Ioi 0 from neg_pos.2 hx), neg_neg]
      · rw [hx, h1 0 le_rfl, hF0, zero_div, add_zero, h5]
      · have hm := h.cdf_mem x hx
        rw [h1 x hx.le, h3 _ (by linarith) (by linarith),
          show 2 * (1 / 2 + F x / 2) - 1 = F x by ring, h.ppf_cdf _ hx]
  refine ⟨isCdf_of_ppf' {0} isOpen_univ ordConnected_univ ?_ ?_ (fun x _ => hn x) hP, hP⟩
  · intro x _
    refine (glue_continuousAt (p := 0) h2 h1 ?_ ?_).continuousWithinAt
    · intro _
      exact (continuous_const.add (hc.div_const 2)).continuousAt
    · intro _
      exact (continuous_const.sub ((hc.comp continuous_neg).div_const 2)).continuousAt
  · intro x _ hx0
    have hx0 : x ≠ 0 := by simpa using hx0
    rcases lt_or_gt_of_ne hx0 with hx | hx
    · refine HasDerivAt.congr_of_eventuallyEq (f := fun y => 1 / 2 - F (-y) / 2) ?_ ?_
      · have hd' := hd (-x) (neg_pos.2 hx)
        refine HasDerivAt.congr_deriv
          (((hd'.comp x (hasDerivAt_neg x)).div_const 2).const_sub (1 / 2)) ?_
        rw [he]
        ring
      · filter_upwards [gt_mem_nhds hx] with y hy using h2 y (le_of_lt hy)
    · refine HasDerivAt.congr_of_eventuallyEq (f := fun y => 1 / 2 + F y / 2) ?_ ?_
      · refine HasDerivAt.congr_deriv (((hd x hx).div_const 2).const_add (1 / 2)) ?_
        ring
      · filter_upwards [lt_mem_nhds hx] with y hy using h1 y (le_of_lt hy)

theorem gammaln_eq {a : ℝ} (ha : 0 < a) : exp (gammaln a) = Gamma a := by
  rw [gammaln, exp_log (abs_pos.2 (Gamma_pos_of_pos ha).ne'), abs_of_pos (Gamma_pos_of_pos ha)]

end Wafo.Dist
