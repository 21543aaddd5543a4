import Verif.Dist.WrapModel
import Verif.Dist.EntLemmas
import Mathlib.Topology.Order.MonotoneContinuity
import Mathlib.Analysis.Calculus.Deriv.Inverse
import Mathlib.Analysis.SpecialFunctions.Pow.Asymptotics

/-!
# The Tukey lambda distribution

The distribution is given by its quantiles.  The distribution function has no formula: it is
`scipy.special.tklmbda`, which stands here for any monotone function that inverts the quantiles.
`exists_tkl` says that there is one.
-/

set_option linter.unusedSectionVars false

namespace Wafo.Dist

open MeasureTheory Set Real Filter Topology

namespace TukeyLambda

/-- The interior of the support. -/
def tsupp (lam : ℝ) : Set ℝ := {x | 0 < lam → |x| < 1 / lam}

/-- `tkl` inverts the quantiles: what `scipy.special.tklmbda` is documented to do. -/
structure IsTkl (tkl : ℝ → ℝ → ℝ) : Prop where
  mono : ∀ lam, Monotone fun x => tkl x lam
  inv : ∀ lam, IsPpf (tsupp lam) (fun x => tkl x lam) (ppf lam)

theorem boxcox_deriv (lam : ℝ) {q : ℝ} (hq : 0 < q) :
    HasDerivAt (fun q => boxcox q lam) (q ^ (lam - 1)) q := by
  unfold boxcox
  by_cases h : lam = 0
  · simp only [h, if_true]
    refine (hasDerivAt_log hq.ne').congr_deriv ?_
    rw [zero_sub, rpow_neg_one]
  · simp only [h, if_false]
    refine (((hasDerivAt_rpow_const (p := lam) (Or.inl hq.ne')).sub_const 1).div_const lam).congr_deriv ?_
    field_simp

theorem boxcox1p_eq (q lam : ℝ) : boxcox1p (-q) lam = boxcox (1 - q) lam := by
  unfold boxcox1p boxcox
  rw [show 1 + -q = 1 - q by ring]

theorem ppf_eq (lam q : ℝ) : ppf lam q = boxcox q lam - boxcox (1 - q) lam := by
  rw [ppf, boxcox1p_eq]

theorem ppf_symm (lam q : ℝ) : ppf lam (1 - q) = -ppf lam q := by
  rw [ppf_eq, ppf_eq, sub_sub_cancel]; ring

/-- The derivative of the quantiles. -/
noncomputable def slope (lam q : ℝ) : ℝ := q ^ (lam - 1) + (1 - q) ^ (lam - 1)

theorem slope_pos (lam : ℝ) {q : ℝ} (h : q ∈ Ioo (0 : ℝ) 1) : 0 < slope lam q :=
  add_pos (rpow_pos_of_pos h.1 _) (rpow_pos_of_pos (by linarith [h.2]) _)

theorem ppf_deriv (lam : ℝ) {q : ℝ} (h : q ∈ Ioo (0 : ℝ) 1) :
    HasDerivAt (ppf lam) (slope lam q) q := by
  have h1 : (0 : ℝ) < 1 - q := by linarith [h.2]
  have e : ppf lam = fun q => boxcox q lam - boxcox (1 - q) lam := funext (ppf_eq lam)
  rw [e]
  have h2 : HasDerivAt (fun q => boxcox (1 - q) lam) ((1 - q) ^ (lam - 1) * (-1)) q :=
    HasDerivAt.comp q (boxcox_deriv lam h1) ((hasDerivAt_id q).const_sub 1)
  refine ((boxcox_deriv lam h.1).sub h2).congr_deriv ?_
  unfold slope; ring

theorem ppf_strictMono (lam : ℝ) : StrictMonoOn (ppf lam) (Ioo 0 1) := by
  refine strictMonoOn_of_deriv_pos (convex_Ioo 0 1)
    (fun q hq => (ppf_deriv lam hq).continuousAt.continuousWithinAt) ?_
  intro q hq
  rw [interior_Ioo] at hq
  rw [(ppf_deriv lam hq).deriv]
  exact slope_pos lam hq

theorem ppf_low {lam : ℝ} (h : lam ≤ 0) : Tendsto (ppf lam) (𝓝[>] 0) atBot := by
  have e : ppf lam = fun q => boxcox q lam + -boxcox (1 - q) lam := by
    funext q; rw [ppf_eq]; ring
  rw [e]
  have h2 : Tendsto (fun q : ℝ => -boxcox (1 - q) lam) (𝓝[>] 0) (𝓝 (-boxcox (1 - 0) lam)) := by
    have : ContinuousAt (fun q : ℝ => boxcox (1 - q) lam) 0 := by
      have := (boxcox_deriv lam (q := 1 - 0) (by norm_num)).continuousAt
      exact ContinuousAt.comp (f := fun q : ℝ => 1 - q) this (by fun_prop)
    exact (this.neg.tendsto).mono_left nhdsWithin_le_nhds
  refine Tendsto.atBot_add ?_ h2
  unfold boxcox
  rcases h.lt_or_eq with h | rfl
  · simp only [h.ne, if_false]
    have h3 := (tendsto_rpow_neg_nhdsGT_zero h)
    exact (tendsto_atTop_add_const_right _ (-1) h3).atTop_div_const_of_neg h
  · simpa using tendsto_log_nhdsGT_zero

theorem ppf_unbdd {lam : ℝ} (h : lam ≤ 0) (y : ℝ) : ∃ q ∈ Ioo (0 : ℝ) 1, ppf lam q < y := by
  have h1 := (ppf_low h).eventually (eventually_lt_atBot y)
  have h2 : ∀ᶠ q in 𝓝[>] (0 : ℝ), q ∈ Ioo (0 : ℝ) 1 := Ioo_mem_nhdsGT one_pos
  obtain ⟨q, hq⟩ := (h1.and h2).exists
  exact ⟨q, hq.2, hq.1⟩

theorem ppf_cont_pos {lam : ℝ} (h : 0 < lam) : Continuous (ppf lam) := by
  have e : ppf lam = fun q => (q ^ lam - 1) / lam - ((1 - q) ^ lam - 1) / lam := by
    funext q; rw [ppf_eq]; simp [boxcox, h.ne']
  rw [e]
  have h1 : Continuous fun q : ℝ => q ^ lam := continuous_id.rpow_const fun _ => Or.inr h.le
  have h2 : Continuous fun q : ℝ => (1 - q) ^ lam :=
    (continuous_const.sub continuous_id).rpow_const fun _ => Or.inr h.le
  fun_prop

theorem ppf_ends {lam : ℝ} (h : 0 < lam) : ppf lam 0 = -(1 / lam) ∧ ppf lam 1 = 1 / lam := by
  have h0 : ppf lam 0 = -(1 / lam) := by
    rw [ppf_eq]; simp [boxcox, h.ne', zero_rpow h.ne', neg_div]
  refine ⟨h0, ?_⟩
  have := ppf_symm lam 0
  rw [h0, sub_zero, neg_neg] at this
  exact this

theorem ppf_image (lam : ℝ) : ppf lam '' Ioo 0 1 = tsupp lam := by
  have hc : ContinuousOn (ppf lam) (Ioo 0 1) :=
    fun q hq => (ppf_deriv lam hq).continuousAt.continuousWithinAt
  rcases le_or_gt lam 0 with h | h
  · have e : tsupp lam = univ := by
      ext x; simp only [tsupp, mem_ofPred_eq, mem_univ, iff_true]; intro h'; linarith
    rw [e]
    refine eq_univ_of_forall fun y => ?_
    obtain ⟨a, ha, hay⟩ := ppf_unbdd h y
    obtain ⟨b, hb, hby⟩ := ppf_unbdd h (-y)
    have hb' : 1 - b ∈ Ioo (0 : ℝ) 1 := ⟨by linarith [hb.2], by linarith [hb.1]⟩
    have := isPreconnected_Ioo.intermediate_value ha hb' hc
    exact this ⟨hay.le, by rw [ppf_symm]; linarith⟩
  · have hc' := ppf_cont_pos h
    obtain ⟨h0, h1⟩ := ppf_ends h
    have hm : StrictMonoOn (ppf lam) (Icc 0 1) := by
      refine strictMonoOn_of_deriv_pos (convex_Icc 0 1) hc'.continuousOn ?_
      intro q hq
      rw [interior_Icc] at hq
      rw [(ppf_deriv lam hq).deriv]
      exact slope_pos lam hq
    ext y
    simp only [tsupp, mem_ofPred_eq, h, forall_const]
    constructor
    · rintro ⟨q, hq, rfl⟩
      rw [abs_lt, ← h0, ← h1]
      exact ⟨hm (left_mem_Icc.2 zero_le_one) (Ioo_subset_Icc_self hq) hq.1,
        hm (Ioo_subset_Icc_self hq) (right_mem_Icc.2 zero_le_one) hq.2⟩
    · intro hy
      rw [abs_lt, ← h0, ← h1] at hy
      exact intermediate_value_Ioo zero_le_one hc'.continuousOn hy

theorem isOpen_tsupp (lam : ℝ) : IsOpen (tsupp lam) := by
  rcases le_or_gt lam 0 with h | h
  · have e : tsupp lam = univ := by
      ext x; simp only [tsupp, mem_ofPred_eq, mem_univ, iff_true]; intro h'; linarith
    rw [e]; exact isOpen_univ
  · simp only [tsupp, h, forall_const]
    exact isOpen_lt continuous_abs continuous_const

theorem ordConnected_tsupp (lam : ℝ) : OrdConnected (tsupp lam) := by
  rw [← ppf_image]
  exact (isPreconnected_Ioo.image _
    fun q hq => (ppf_deriv lam hq).continuousAt.continuousWithinAt).ordConnected

/-- There is a function as `scipy.special.tklmbda` is documented to be. -/
theorem exists_tkl : ∃ tkl, IsTkl tkl := by
  classical
  refine ⟨fun x lam => sSup {q | q = 0 ∨ (q ∈ Ioo (0 : ℝ) 1 ∧ ppf lam q ≤ x)}, ?_, ?_⟩
  · intro lam x y hxy
    refine csSup_le_csSup ⟨1, ?_⟩ ⟨0, Or.inl rfl⟩ ?_
    · rintro q (rfl | h)
      · exact zero_le_one
      · exact h.1.2.le
    · rintro q (rfl | h)
      · exact Or.inl rfl
      · exact Or.inr ⟨h.1, h.2.trans hxy⟩
  · intro lam
    have key : ∀ q ∈ Ioo (0 : ℝ) 1,
        sSup {p | p = 0 ∨ (p ∈ Ioo (0 : ℝ) 1 ∧ ppf lam p ≤ ppf lam q)} = q := by
      intro q hq
      refine IsGreatest.csSup_eq ⟨Or.inr ⟨hq, le_rfl⟩, ?_⟩
      rintro p (rfl | h)
      · exact hq.1.le
      · exact ((ppf_strictMono lam).le_iff_le h.1 hq).1 h.2
    constructor
    · intro q h0 h1
      rw [← ppf_image]
      exact ⟨q, ⟨h0, h1⟩, rfl⟩
    · intro q h0 h1
      exact key q ⟨h0, h1⟩
    · intro x hx
      rw [← ppf_image] at hx
      obtain ⟨q, hq, rfl⟩ := hx
      show 0 < sSup _ ∧ sSup _ < 1
      rw [key q hq]
      exact hq
    · intro x hx
      rw [← ppf_image] at hx
      obtain ⟨q, hq, rfl⟩ := hx
      show ppf lam (sSup _) = _
      rw [key q hq]

variable {tkl : ℝ → ℝ → ℝ}

theorem tkl_deriv (ht : IsTkl tkl) (lam : ℝ) {x : ℝ} (hx : x ∈ tsupp lam) :
    HasDerivAt (fun x => tkl x lam) (slope lam (tkl x lam))⁻¹ x := by
  have hp := ht.inv lam
  have hn : tsupp lam ∈ 𝓝 x := (isOpen_tsupp lam).mem_nhds hx
  have hmem : tkl x lam ∈ Ioo (0 : ℝ) 1 := hp.cdf_mem x hx
  have hs : StrictMonoOn (fun x => tkl x lam) (tsupp lam) := by
    intro a ha b hb hab
    refine lt_of_le_of_ne (ht.mono lam hab.le) fun e => ?_
    have h1 := hp.ppf_cdf a ha
    have h2 := hp.ppf_cdf b hb
    simp only at e h1 h2
    rw [e, h2] at h1
    linarith
  have him : (fun x => tkl x lam) '' tsupp lam ∈ 𝓝 (tkl x lam) := by
    refine Filter.mem_of_superset (isOpen_Ioo.mem_nhds hmem) ?_
    intro q hq
    exact ⟨ppf lam q, hp.mem q hq.1 hq.2, hp.cdf_ppf q hq.1 hq.2⟩
  have hc : ContinuousAt (fun x => tkl x lam) x := hs.continuousAt_of_image_mem_nhds hn him
  refine HasDerivAt.of_local_left_inverse hc (ppf_deriv lam hmem) (slope_pos lam hmem).ne' ?_
  filter_upwards [hn] with y hy
  exact hp.ppf_cdf y hy

theorem pdf_in (lam : ℝ) {x : ℝ} (hx : x ∈ tsupp lam) :
    pdf tkl lam x = (slope lam (tkl x lam))⁻¹ := by
  have h : lam ≤ 0 ∨ |x| < 1.0 / lam := by
    rcases le_or_gt lam 0 with h | h
    · exact Or.inl h
    · right
      norm_num
      have := hx h
      rwa [one_div] at this
  simp only [pdf, if_pos h, slope]
  norm_num

/-- The density, the distribution function and the quantiles agree; the density vanishes beyond the
support. -/
theorem C274_tukeylambda (ht : IsTkl tkl) (lam : ℝ) :
    IsCdf (tsupp lam) (pdf tkl lam) (cdf tkl lam) ∧ IsPpf (tsupp lam) (cdf tkl lam) (ppf lam) ∧
    ∀ x, 0 < lam → 1 / lam ≤ |x| → pdf tkl lam x = 0 := by
  have hp : IsPpf (tsupp lam) (cdf tkl lam) (ppf lam) := ht.inv lam
  refine ⟨?_, hp, ?_⟩
  · refine isCdf_of_ppf (isOpen_tsupp lam) (ordConnected_tsupp lam) ?_ ?_ hp
    · intro x hx
      rw [pdf_in lam hx]
      exact tkl_deriv ht lam hx
    · intro x hx
      rw [pdf_in lam hx]
      exact inv_nonneg.2 (slope_pos lam (hp.cdf_mem x hx)).le
  · intro x h hx
    rw [pdf, if_neg]
    rintro (h1 | h1)
    · linarith
    · norm_num at h1
      rw [one_div] at hx
      linarith

theorem log_slope_bound (lam : ℝ) {q : ℝ} (h : q ∈ Ioo (0 : ℝ) 1) :
    |log (slope lam q)| ≤ log 2 + (|lam - 1| * |log q| + |lam - 1| * |log (1 - q)|) := by
  have h1 : (0 : ℝ) < 1 - q := by linarith [h.2]
  have l2 : 0 < log 2 := log_pos (by norm_num)
  set a := lam - 1
  have pa : 0 < q ^ a := rpow_pos_of_pos h.1 _
  have pb : 0 < (1 - q) ^ a := rpow_pos_of_pos h1 _
  have la : log (q ^ a) = a * log q := log_rpow h.1 a
  have lb : log ((1 - q) ^ a) = a * log (1 - q) := log_rpow h1 a
  have ba : |a * log q| = |a| * |log q| := abs_mul _ _
  have bb : |a * log (1 - q)| = |a| * |log (1 - q)| := abs_mul _ _
  have hlow : a * log q ≤ log (slope lam q) := by
    rw [← la]; exact log_le_log pa (by unfold slope; linarith)
  have na := neg_abs_le (a * log q)
  have nb := neg_abs_le (a * log (1 - q))
  have ua := le_abs_self (a * log q)
  have ub := le_abs_self (a * log (1 - q))
  have za := abs_nonneg (a * log q)
  have zb := abs_nonneg (a * log (1 - q))
  rw [← ba, ← bb, abs_le]
  constructor
  · linarith
  · rcases le_total (q ^ a) ((1 - q) ^ a) with hh | hh
    · have : log (slope lam q) ≤ log (2 * (1 - q) ^ a) :=
        log_le_log (slope_pos lam h) (by unfold slope; linarith)
      rw [log_mul two_ne_zero pb.ne', lb] at this
      linarith
    · have : log (slope lam q) ≤ log (2 * q ^ a) :=
        log_le_log (slope_pos lam h) (by unfold slope; linarith)
      rw [log_mul two_ne_zero pa.ne', la] at this
      linarith

theorem log_slope_int (lam : ℝ) : IntegrableOn (fun q => log (slope lam q)) (Ioo 0 1) := by
  have hm : Measurable fun q => log (slope lam q) := by unfold slope; fun_prop
  refine Integrable.mono' (g := fun q => log 2 + (|lam - 1| * |log q| + |lam - 1| * |log (1 - q)|)) ?_
    hm.aestronglyMeasurable ?_
  · have i1 : IntegrableOn (fun q : ℝ => |lam - 1| * |log q|) (Ioo 0 1) :=
      hasInt_log_q.1.norm.const_mul _
    have i2 : IntegrableOn (fun q : ℝ => |lam - 1| * |log (1 - q)|) (Ioo 0 1) :=
      hasInt_log_1q.1.norm.const_mul _
    have i0 : IntegrableOn (fun _ : ℝ => log 2) (Ioo 0 1) := by simp
    exact i0.add (i1.add i2)
  · refine (ae_restrict_iff' measurableSet_Ioo).2 (Eventually.of_forall fun q hq => ?_)
    exact log_slope_bound lam hq

/-- The entropy is that of the density. -/
theorem C274_tukeylambda_entropy (ht : IsTkl tkl) (lam : ℝ) :
    HasEntropy (tsupp lam) (pdf tkl lam) (entropy lam) := by
  obtain ⟨h1, h2, -⟩ := C274_tukeylambda ht lam
  have hmt : Measurable fun x => tkl x lam := (ht.mono lam).measurable
  have hm : Measurable (pdf tkl lam) := by
    unfold pdf
    refine Measurable.ite ?_ (by fun_prop) measurable_const
    have : MeasurableSet {x : ℝ | |x| < 1.0 / lam} :=
      measurableSet_lt continuous_abs.measurable measurable_const
    exact (MeasurableSet.const (lam ≤ 0)).union this
  refine entropy_ppf (isOpen_tsupp lam).measurableSet (ordConnected_tsupp lam) h1 h2 hm
    (L := fun q => -log (slope lam q)) (v := -∫ q in Ioo (0 : ℝ) 1, log (slope lam q)) ?_
    ⟨(log_slope_int lam).neg, integral_neg _⟩ ?_
  · intro q hq
    rw [pdf_in lam (h2.mem q hq.1 hq.2), log_inv]
    have := h2.cdf_ppf q hq.1 hq.2
    simp only [cdf] at this
    rw [this]
  · rw [neg_neg, entropy, intervalIntegral.integral_of_le zero_le_one, integral_Ioc_eq_integral_Ioo]
    rfl

example : ∃ tkl, IsTkl tkl ∧ IsCdf (tsupp 2) (pdf tkl 2) (cdf tkl 2) ∧
    IsCdf (tsupp (-1 / 2)) (pdf tkl (-1 / 2)) (cdf tkl (-1 / 2)) := by
  obtain ⟨tkl, h⟩ := exists_tkl
  exact ⟨tkl, h, (C274_tukeylambda h 2).1, (C274_tukeylambda h _).1⟩

end TukeyLambda

end Wafo.Dist
