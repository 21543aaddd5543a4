import Verif.Dist.Spec
import Mathlib.Analysis.SpecificLimits.Basic

/-!
# From derivatives to areas

A continuous function with values between `0` and `1`, as near to both as one likes, whose derivative
is `pdf ≥ 0` except perhaps at finitely many points, is the distribution function of `pdf`.
-/

namespace Wafo.Dist

open MeasureTheory Set Filter Topology

set_option linter.unusedSectionVars false

/-- The area under a nonnegative derivative, with exceptional points. -/
theorem area_of_deriv {pdf cdf : ℝ → ℝ} (E : Finset ℝ) : ∀ {a b : ℝ}, a ≤ b →
    ContinuousOn cdf (Icc a b) → (∀ x ∈ Ioo a b, x ∉ E → HasDerivAt cdf (pdf x) x) →
    (∀ x ∈ Ioo a b, x ∉ E → 0 ≤ pdf x) →
    IntegrableOn pdf (Ioc a b) ∧ ∫ t in Ioc a b, pdf t = cdf b - cdf a := by
  classical
  induction E using Finset.induction_on with
  | empty =>
    intro a b hab hc hd hn
    have hi : IntegrableOn pdf (Ioc a b) :=
      intervalIntegral.integrableOn_deriv_of_nonneg hc
        (fun x hx => hd x hx (Finset.notMem_empty x)) (fun x hx => hn x hx (Finset.notMem_empty x))
    refine ⟨hi, ?_⟩
    rw [← intervalIntegral.integral_of_le hab]
    exact intervalIntegral.integral_eq_sub_of_hasDerivAt_of_le hab hc
      (fun x hx => hd x hx (Finset.notMem_empty x))
      ((intervalIntegrable_iff_integrableOn_Ioc_of_le hab).2 hi)
  | insert p E _ ih =>
    intro a b hab hc hd hn
    by_cases hpm : p ∈ Ioo a b
    · have hl := ih hpm.1.le (hc.mono (Icc_subset_Icc_right hpm.2.le))
        (fun x hx hE => hd x ⟨hx.1, hx.2.trans hpm.2⟩ (by simp [hx.2.ne, hE]))
        (fun x hx hE => hn x ⟨hx.1, hx.2.trans hpm.2⟩ (by simp [hx.2.ne, hE]))
      have hr := ih hpm.2.le (hc.mono (Icc_subset_Icc_left hpm.1.le))
        (fun x hx hE => hd x ⟨hpm.1.trans hx.1, hx.2⟩ (by simp [hx.1.ne', hE]))
        (fun x hx hE => hn x ⟨hpm.1.trans hx.1, hx.2⟩ (by simp [hx.1.ne', hE]))
      have hu : Ioc a b = Ioc a p ∪ Ioc p b := (Ioc_union_Ioc_eq_Ioc hpm.1.le hpm.2.le).symm
      have hdj : Disjoint (Ioc a p) (Ioc p b) := by
        rw [Set.disjoint_left]
        intro x h1 h2
        exact absurd h2.1 (not_lt.2 h1.2)
      rw [hu]
      refine ⟨hl.1.union hr.1, ?_⟩
      rw [setIntegral_union hdj measurableSet_Ioc hl.1 hr.1, hl.2, hr.2]
      ring
    · have hne : ∀ x ∈ Ioo a b, x ≠ p := fun x hx h => hpm (h ▸ hx)
      exact ih hab hc (fun x hx hE => hd x hx (by simp [hne x hx, hE]))
        (fun x hx hE => hn x hx (by simp [hne x hx, hE]))

/-- The area over a set exhausted by intervals. -/
theorem area_exhaust {pdf cdf : ℝ → ℝ} {J : Set ℝ} (hJ : MeasurableSet J) {a b : ℕ → ℝ} {L : ℝ}
    (hn : ∀ x ∈ J, 0 ≤ pdf x) (hsub : ∀ n, Ioc (a n) (b n) ⊆ J)
    (hfin : ∀ n, IntegrableOn pdf (Ioc (a n) (b n)) ∧
      ∫ t in Ioc (a n) (b n), pdf t = cdf (b n) - cdf (a n))
    (hex : ∀ t ∈ J, ∀ᶠ n in atTop, t ∈ Ioc (a n) (b n))
    (hlim : Tendsto (fun n => cdf (b n) - cdf (a n)) atTop (𝓝 L)) :
    IntegrableOn pdf J ∧ ∫ t in J, pdf t = L := by
  have hcov : AECover (volume.restrict J) atTop (fun n => Ioc (a n) (b n)) :=
    ⟨by
      filter_upwards [ae_restrict_mem hJ] with t ht using hex t ht,
     fun _ => measurableSet_Ioc⟩
  have hres : ∀ n, (volume.restrict J).restrict (Ioc (a n) (b n)) =
      volume.restrict (Ioc (a n) (b n)) := by
    intro n
    rw [Measure.restrict_restrict measurableSet_Ioc, Set.inter_eq_left.2 (hsub n)]
  have hnn : 0 ≤ᵐ[volume.restrict J] pdf := by
    filter_upwards [ae_restrict_mem hJ] with t ht using hn t ht
  have hi : ∀ n, IntegrableOn pdf (Ioc (a n) (b n)) (volume.restrict J) := by
    intro n
    rw [IntegrableOn, hres n]
    exact (hfin n).1
  have ht : Tendsto (fun n => ∫ x in Ioc (a n) (b n), pdf x ∂(volume.restrict J)) atTop (𝓝 L) := by
    refine hlim.congr ?_
    intro n
    rw [hres n, (hfin n).2]
  exact ⟨hcov.integrable_of_integral_tendsto_of_nonneg_ae L hi hnn ht,
    hcov.integral_eq_of_tendsto_of_nonneg_ae L hnn hi ht⟩

/-- From the derivative to the areas. -/
theorem isCdf_of_deriv' {I : Set ℝ} {pdf cdf : ℝ → ℝ} (E : Finset ℝ) (ho : IsOpen I)
    (hI : OrdConnected I) (hc : ContinuousOn cdf I)
    (hd : ∀ x ∈ I, x ∉ E → HasDerivAt cdf (pdf x) x)
    (hn : ∀ x ∈ I, 0 ≤ pdf x)
    (hr : ∀ x ∈ I, 0 < cdf x ∧ cdf x < 1)
    (hlo : ∀ ε : ℝ, 0 < ε → ∃ x ∈ I, cdf x < ε)
    (hhi : ∀ ε : ℝ, 0 < ε → ∃ x ∈ I, 1 - ε < cdf x) :
    IsCdf I pdf cdf := by
  have hfin : ∀ u ∈ I, ∀ v ∈ I, u ≤ v → IntegrableOn pdf (Ioc u v) ∧
      ∫ t in Ioc u v, pdf t = cdf v - cdf u := by
    intro u hu v hv huv
    have hs : Icc u v ⊆ I := hI.out hu hv
    exact area_of_deriv E huv (hc.mono hs)
      (fun x hx => hd x (hs (Ioo_subset_Icc_self hx)))
      (fun x hx _ => hn x (hs (Ioo_subset_Icc_self hx)))
  have hmono : ∀ u ∈ I, ∀ v ∈ I, u ≤ v → cdf u ≤ cdf v := by
    intro u hu v hv huv
    have h := (hfin u hu v hv huv).2
    have hp : 0 ≤ ∫ t in Ioc u v, pdf t :=
      setIntegral_nonneg measurableSet_Ioc
        (fun x hx => hn x (hI.out hu hv (Ioc_subset_Icc_self hx)))
    linarith
  have hpos : ∀ n : ℕ, (0 : ℝ) < 1 / ((n : ℝ) + 1) := fun n => by positivity
  choose a haI ha using fun n : ℕ => hlo (1 / ((n : ℝ) + 1)) (hpos n)
  choose b hbI hb using fun n : ℕ => hhi (1 / ((n : ℝ) + 1)) (hpos n)
  have h0 : Tendsto (fun n : ℕ => (1 : ℝ) / ((n : ℝ) + 1)) atTop (𝓝 0) :=
    tendsto_one_div_add_atTop_nhds_zero_nat
  have hta : Tendsto (fun n => cdf (a n)) atTop (𝓝 0) :=
    tendsto_of_tendsto_of_tendsto_of_le_of_le tendsto_const_nhds h0
      (fun n => (hr _ (haI n)).1.le) (fun n => (ha n).le)
  have htb : Tendsto (fun n => cdf (b n)) atTop (𝓝 1) := by
    have h1 : Tendsto (fun n : ℕ => 1 - (1 : ℝ) / ((n : ℝ) + 1)) atTop (𝓝 1) := by
      simpa using tendsto_const_nhds.sub h0
    exact tendsto_of_tendsto_of_tendsto_of_le_of_le h1 tendsto_const_nhds
      (fun n => (hb n).le) (fun n => (hr _ (hbI n)).2.le)
  have hea : ∀ t ∈ I, ∀ᶠ n in atTop, a n < t := by
    intro t ht
    filter_upwards [hta.eventually (gt_mem_nhds (hr t ht).1)] with n hn'
    by_contra h
    exact absurd (hmono t ht (a n) (haI n) (not_lt.1 h)) (not_le.2 hn')
  have heb : ∀ t ∈ I, ∀ᶠ n in atTop, t < b n := by
    intro t ht
    filter_upwards [htb.eventually (lt_mem_nhds (hr t ht).2)] with n hn'
    by_contra h
    exact absurd (hmono (b n) (hbI n) t ht (not_lt.1 h)) (not_le.2 hn')
  have hIm : MeasurableSet I := ho.measurableSet
  -- the intervals, made nonempty in the sense `min ≤ max`
  have hT : IntegrableOn pdf I ∧ ∫ t in I, pdf t = 1 := by
    refine area_exhaust (cdf := cdf) (a := a) (b := fun n => max (a n) (b n)) hIm hn ?_ ?_ ?_ ?_
    · intro n x hx
      rcases max_choice (a n) (b n) with h | h
      · rw [h] at hx
        exact absurd hx.1 (not_lt.2 hx.2)
      · rw [h] at hx
        exact hI.out (haI n) (hbI n) ⟨hx.1.le, hx.2⟩
    · intro n
      refine hfin _ (haI n) _ ?_ (le_max_left _ _)
      rcases max_choice (a n) (b n) with h | h
      · rw [h]; exact haI n
      · rw [h]; exact hbI n
    · intro t ht
      filter_upwards [hea t ht, heb t ht] with n h1 h2
      exact ⟨h1, le_trans h2.le (le_max_right _ _)⟩
    · have hm : ∀ n, cdf (b n) ≤ cdf (max (a n) (b n)) ∧ cdf (max (a n) (b n)) ≤ 1 := by
        intro n
        have hmI : max (a n) (b n) ∈ I := by
          rcases max_choice (a n) (b n) with h | h
          · rw [h]; exact haI n
          · rw [h]; exact hbI n
        exact ⟨hmono _ (hbI n) _ hmI (le_max_right _ _), (hr _ hmI).2.le⟩
      have h1 : Tendsto (fun n => cdf (max (a n) (b n))) atTop (𝓝 1) :=
        tendsto_of_tendsto_of_tendsto_of_le_of_le htb tendsto_const_nhds
          (fun n => (hm n).1) (fun n => (hm n).2)
      simpa using h1.sub hta
  have hB : ∀ x ∈ I, ∫ t in I ∩ Iic x, pdf t = cdf x := by
    intro x hx
    have hmin : ∀ n, min (a n) x ∈ I := by
      intro n
      rcases min_choice (a n) x with h | h
      · rw [h]; exact haI n
      · rw [h]; exact hx
    refine (area_exhaust (cdf := cdf) (J := I ∩ Iic x) (a := fun n => min (a n) x) (b := fun _ => x)
      (hIm.inter measurableSet_Iic) (fun t ht => hn t ht.1) ?_ ?_ ?_ ?_).2
    · intro n t ht
      exact ⟨hI.out (hmin n) hx ⟨ht.1.le, ht.2⟩, ht.2⟩
    · intro n
      exact hfin _ (hmin n) _ hx (min_le_right _ _)
    · intro t ht
      filter_upwards [hea t ht.1] with n h1
      exact ⟨lt_of_le_of_lt (min_le_left _ _) h1, ht.2⟩
    · have hm : Tendsto (fun n => cdf (min (a n) x)) atTop (𝓝 0) :=
        tendsto_of_tendsto_of_tendsto_of_le_of_le tendsto_const_nhds hta
          (fun n => (hr _ (hmin n)).1.le) (fun n => hmono _ (hmin n) _ (haI n) (min_le_left _ _))
      simpa using (tendsto_const_nhds (x := cdf x)).sub hm
  refine ⟨hn, hT.1, hT.2, hB, ?_⟩
  intro x hx
  have hu : I = (I ∩ Iic x) ∪ (I ∩ Ioi x) := by
    rw [← inter_union_distrib_left, Iic_union_Ioi, inter_univ]
  have hdj : Disjoint (I ∩ Iic x) (I ∩ Ioi x) := by
    rw [Set.disjoint_left]
    intro t h1 h2
    exact absurd (mem_Ioi.1 h2.2) (not_lt.2 (mem_Iic.1 h1.2))
  have h := hT.2
  rw [hu, setIntegral_union hdj (hIm.inter measurableSet_Ioi) (hT.1.mono_set inter_subset_left)
    (hT.1.mono_set inter_subset_left), hB x hx] at h
  linarith

/-- The derivative except at finitely many points, and an inverse of the distribution function. -/
theorem isCdf_of_ppf' {I : Set ℝ} {pdf cdf ppf : ℝ → ℝ} (E : Finset ℝ) (ho : IsOpen I)
    (hI : OrdConnected I) (hc : ContinuousOn cdf I)
    (hd : ∀ x ∈ I, x ∉ E → HasDerivAt cdf (pdf x) x) (hn : ∀ x ∈ I, 0 ≤ pdf x)
    (hp : IsPpf I cdf ppf) : IsCdf I pdf cdf := by
  refine isCdf_of_deriv' E ho hI hc hd hn hp.cdf_mem ?_ ?_
  · intro ε hε
    have h1 : 0 < min ε 1 / 2 := by positivity
    have h2 : min ε 1 / 2 < 1 := by
      have := min_le_right ε 1
      linarith
    have h3 : min ε 1 / 2 < ε := by
      have := min_le_left ε 1
      linarith
    exact ⟨_, hp.mem _ h1 h2, by rw [hp.cdf_ppf _ h1 h2]; exact h3⟩
  · intro ε hε
    have h1 : 0 < 1 - min ε 1 / 2 := by
      have := min_le_right ε 1
      linarith
    have h2 : 1 - min ε 1 / 2 < 1 := by
      have : 0 < min ε 1 := by positivity
      linarith
    have h3 : 1 - ε < 1 - min ε 1 / 2 := by
      have := min_le_left ε 1
      linarith
    exact ⟨_, hp.mem _ h1 h2, by rw [hp.cdf_ppf _ h1 h2]; exact h3⟩

/-- The derivative everywhere, and an inverse of the distribution function. -/
theorem isCdf_of_ppf {I : Set ℝ} {pdf cdf ppf : ℝ → ℝ} (ho : IsOpen I) (hI : OrdConnected I)
    (hd : ∀ x ∈ I, HasDerivAt cdf (pdf x) x) (hn : ∀ x ∈ I, 0 ≤ pdf x)
    (hp : IsPpf I cdf ppf) : IsCdf I pdf cdf :=
  isCdf_of_ppf' ∅ ho hI (fun x hx => (hd x hx).continuousAt.continuousWithinAt)
    (fun x hx _ => hd x hx) hn hp

/-- A change of variable in a distribution function and its inverse. -/
theorem IsPpf.comp {I J : Set ℝ} {F P g gi : ℝ → ℝ} (h : IsPpf I F P) (hg : ∀ x ∈ J, g x ∈ I)
    (hi : ∀ y ∈ I, gi y ∈ J) (h1 : ∀ x ∈ J, gi (g x) = x) (h2 : ∀ y ∈ I, g (gi y) = y) :
    IsPpf J (fun x => F (g x)) (fun q => gi (P q)) where
  mem q h0 h1 := hi _ (h.mem q h0 h1)
  cdf_ppf q h0 h1 := by
    show F (g (gi (P q))) = q
    rw [h2 _ (h.mem q h0 h1), h.cdf_ppf q h0 h1]
  cdf_mem x hx := h.cdf_mem _ (hg x hx)
  ppf_cdf x hx := by
    show gi (P (F (g x))) = x
    rw [h.ppf_cdf _ (hg x hx), h1 x hx]

/-- The change of variable `x ↦ -x`, and more generally a decreasing one. -/
theorem IsPpf.rev {I : Set ℝ} {F P : ℝ → ℝ} (h : IsPpf I F P) :
    IsPpf I (fun x => 1 - F x) (fun q => P (1 - q)) where
  mem q h0 h1 := h.mem _ (by linarith) (by linarith)
  cdf_ppf q h0 h1 := by
    show 1 - F (P (1 - q)) = q
    rw [h.cdf_ppf _ (by linarith) (by linarith)]
    ring
  cdf_mem x hx := by
    have := h.cdf_mem x hx
    constructor <;> linarith
  ppf_cdf x hx := by
    show P (1 - (1 - F x)) = x
    rw [sub_sub_cancel, h.ppf_cdf x hx]

/-- Other formulas for the same functions. -/
theorem IsPpf.congr {I : Set ℝ} {F P F' P' : ℝ → ℝ} (h : IsPpf I F P) (hF : ∀ x ∈ I, F' x = F x)
    (hP : ∀ q, 0 < q → q < 1 → P' q = P q) : IsPpf I F' P' where
  mem q h0 h1 := by rw [hP q h0 h1]; exact h.mem q h0 h1
  cdf_ppf q h0 h1 := by
    rw [hP q h0 h1, hF _ (h.mem q h0 h1)]; exact h.cdf_ppf q h0 h1
  cdf_mem x hx := by rw [hF x hx]; exact h.cdf_mem x hx
  ppf_cdf x hx := by
    rw [hF x hx, hP _ (h.cdf_mem x hx).1 (h.cdf_mem x hx).2]
    exact h.ppf_cdf x hx

/-- The derivative everywhere, and limits at the two ends along some filters. -/
theorem isCdf_of_lim {I : Set ℝ} {pdf cdf : ℝ → ℝ} (ho : IsOpen I) (hI : OrdConnected I)
    (hd : ∀ x ∈ I, HasDerivAt cdf (pdf x) x) (hn : ∀ x ∈ I, 0 < pdf x)
    {l u : Filter ℝ} [l.NeBot] [u.NeBot] (hl : ∀ᶠ x in l, x ∈ I) (hu : ∀ᶠ x in u, x ∈ I)
    (hcl : Tendsto cdf l (𝓝 0)) (hcu : Tendsto cdf u (𝓝 1))
    (hll : ∀ x ∈ I, ∀ᶠ y in l, y < x) (huu : ∀ x ∈ I, ∀ᶠ y in u, x < y) : IsCdf I pdf cdf := by
  have hmono : StrictMonoOn cdf I := by
    refine strictMonoOn_of_deriv_pos hI.convex
      (fun x hx => (hd x hx).continuousAt.continuousWithinAt) ?_
    intro x hx
    rw [ho.interior_eq] at hx
    rw [(hd x hx).deriv]
    exact hn x hx
  have hrange : ∀ x ∈ I, 0 < cdf x ∧ cdf x < 1 := by
    intro x hx
    constructor
    · obtain ⟨y, hyI, hyx⟩ := (hl.and (hll x hx)).exists
      have h0 : 0 ≤ cdf y := by
        refine le_of_tendsto hcl ?_
        filter_upwards [hl, hll y hyI] with z h1 h2
        exact (hmono h1 hyI h2).le
      exact lt_of_le_of_lt h0 (hmono hyI hx hyx)
    · obtain ⟨y, hyI, hyx⟩ := (hu.and (huu x hx)).exists
      have h0 : cdf y ≤ 1 := by
        refine ge_of_tendsto hcu ?_
        filter_upwards [hu, huu y hyI] with z h1 h2
        exact (hmono hyI h1 h2).le
      exact lt_of_lt_of_le (hmono hx hyI hyx) h0
  refine isCdf_of_deriv' ∅ ho hI (fun x hx => (hd x hx).continuousAt.continuousWithinAt)
    (fun x hx _ => hd x hx) (fun x hx => (hn x hx).le) hrange ?_ ?_
  · intro ε hε
    obtain ⟨x, h1, h2⟩ := (hl.and (hcl.eventually (gt_mem_nhds hε))).exists
    exact ⟨x, h1, h2⟩
  · intro ε hε
    obtain ⟨x, h1, h2⟩ := (hu.and (hcu.eventually (lt_mem_nhds (by linarith : 1 - ε < 1)))).exists
    exact ⟨x, h1, h2⟩

/-- The derivative of a function put together from two pieces. -/
theorem glue_deriv {f A B : ℝ → ℝ} {d p x : ℝ} (hB : ∀ y, y ≤ p → f y = B y)
    (hA : ∀ y, p ≤ y → f y = A y) (h1 : p ≤ x → HasDerivAt A d x)
    (h2 : x ≤ p → HasDerivAt B d x) : HasDerivAt f d x := by
  rcases lt_trichotomy x p with h | h | h
  · refine (h2 h.le).congr_of_eventuallyEq ?_
    filter_upwards [gt_mem_nhds h] with y hy using hB y (le_of_lt hy)
  · have hl : HasDerivWithinAt f d (Iic x) x :=
      (h2 h.le).hasDerivWithinAt.congr (fun y hy => hB y (h ▸ hy)) (hB x h.le)
    have hr : HasDerivWithinAt f d (Ici x) x :=
      (h1 h.ge).hasDerivWithinAt.congr (fun y hy => hA y (h ▸ hy)) (hA x h.ge)
    have := hl.union hr
    rwa [Iic_union_Ici, hasDerivWithinAt_univ] at this
  · refine (h1 h.le).congr_of_eventuallyEq ?_
    filter_upwards [lt_mem_nhds h] with y hy using hA y (le_of_lt hy)

/-- The continuity of a function put together from two pieces. -/
theorem glue_continuousAt {f A B : ℝ → ℝ} {p x : ℝ} (hB : ∀ y, y ≤ p → f y = B y)
    (hA : ∀ y, p ≤ y → f y = A y) (h1 : p ≤ x → ContinuousAt A x)
    (h2 : x ≤ p → ContinuousAt B x) : ContinuousAt f x := by
  rcases lt_trichotomy x p with h | h | h
  · refine (h2 h.le).congr ?_
    filter_upwards [gt_mem_nhds h] with y hy using (hB y (le_of_lt hy)).symm
  · have hl : ContinuousWithinAt f (Iic x) x :=
      (h2 h.le).continuousWithinAt.congr (fun y hy => hB y (h ▸ hy)) (hB x h.le)
    have hr : ContinuousWithinAt f (Ici x) x :=
      (h1 h.ge).continuousWithinAt.congr (fun y hy => hA y (h ▸ hy)) (hA x h.ge)
    have := hl.union hr
    rwa [Iic_union_Ici, continuousWithinAt_univ] at this
  · refine (h1 h.le).congr ?_
    filter_upwards [lt_mem_nhds h] with y hy using (hA y (le_of_lt hy)).symm

end Wafo.Dist
