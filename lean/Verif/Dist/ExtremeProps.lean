import Verif.Dist.ExpProps

/-!
# C252: the functions of the extreme value distributions and of the generalised Pareto distribution
fit together
-/

namespace Wafo.Dist

open MeasureTheory Set Filter Topology Real

set_option linter.unusedSectionVars false

/-- The Gumbel distribution of maxima. -/
theorem C252_gumbel_r :
    IsCdf univ GumbelR.pdf GumbelR.cdf ∧ IsPpf univ GumbelR.cdf GumbelR.ppf ∧
    IsLog univ GumbelR.pdf GumbelR.logpdf ∧ IsLog univ GumbelR.cdf GumbelR.logcdf := by
  have hp : IsPpf univ GumbelR.cdf GumbelR.ppf := by
    have h := (C251_expon.2.1.rev).comp (J := univ) (g := fun x => exp (-x))
      (gi := fun y => -log y) (fun x _ => exp_pos _) (fun _ _ => mem_univ _)
      (fun x _ => by simp) (fun y hy => by simp [exp_log (mem_Ioi.1 hy)])
    refine h.congr ?_ ?_
    · intro x _
      simp only [GumbelR.cdf, Expon.cdf, expm1]
      ring
    · intro q _ _
      simp only [GumbelR.ppf, Expon.ppf, log1p]
      rw [show 1 + -(1 - q) = q by ring]
  refine ⟨isCdf_of_ppf isOpen_univ ordConnected_univ ?_ (fun x _ => (exp_pos _).le) hp, hp,
    fun x _ => ⟨exp_pos _, (log_exp _).symm⟩, fun x _ => ⟨exp_pos _, (log_exp _).symm⟩⟩
  intro x _
  refine HasDerivAt.congr_deriv ((hasDerivAt_id x).neg.exp.neg.exp) ?_
  simp only [GumbelR.pdf, GumbelR.logpdf, Pi.neg_apply, id_eq, sub_eq_add_neg, exp_add]
  ring

example : GumbelR.cdf 0 = exp (-1) := by simp [GumbelR.cdf]

/-- The Gumbel distribution of minima. -/
theorem C252_gumbel_l :
    IsCdf univ GumbelL.pdf GumbelL.cdf ∧ IsPpf univ GumbelL.cdf GumbelL.ppf ∧
    IsSf univ GumbelL.cdf GumbelL.sf ∧ IsIsf GumbelL.ppf GumbelL.isf ∧
    IsLog univ GumbelL.pdf GumbelL.logpdf ∧ IsLog univ GumbelL.sf GumbelL.logsf := by
  have hp : IsPpf univ GumbelL.cdf GumbelL.ppf :=
    C251_expon.2.1.comp (J := univ) (g := fun x => exp x)
      (gi := fun y => log y) (fun x _ => exp_pos _) (fun _ _ => mem_univ _)
      (fun x _ => log_exp x) (fun y hy => exp_log (mem_Ioi.1 hy))
  refine ⟨isCdf_of_ppf isOpen_univ ordConnected_univ ?_ (fun x _ => (exp_pos _).le) hp, hp, ?_, ?_,
    fun x _ => ⟨exp_pos _, (log_exp _).symm⟩, fun x _ => ⟨exp_pos _, (log_exp _).symm⟩⟩
  · intro x _
    refine HasDerivAt.congr_deriv (((hasDerivAt_exp x).neg.exp).sub_const 1).neg ?_
    simp only [GumbelL.pdf, GumbelL.logpdf, Pi.neg_apply, sub_eq_add_neg, exp_add]
    ring
  · intro x _
    simp only [GumbelL.cdf, GumbelL.sf, expm1]
    ring
  · intro q _ _
    simp only [GumbelL.isf, GumbelL.ppf, log1p]
    rw [show 1 + -(1 - q) = q by ring]

example : GumbelL.sf 0 = exp (-1) := by simp [GumbelL.sf]

theorem gp_pos {c x : ℝ} (hx : x ∈ GenPareto.supp c) : 0 < 1 + c * x := by
  obtain ⟨h0, h1⟩ := hx
  rcases lt_or_ge c 0 with hc | hc
  · have h2 := h1 hc
    rw [lt_div_iff_of_neg hc] at h2
    nlinarith
  · positivity

theorem gp_mem {c x : ℝ} (h0 : 0 < x) (h1 : 0 < 1 + c * x) : x ∈ GenPareto.supp c := by
  refine ⟨h0, fun hc => ?_⟩
  rw [lt_div_iff_of_neg hc]
  nlinarith

theorem gp_open (c : ℝ) : IsOpen (GenPareto.supp c) ∧ OrdConnected (GenPareto.supp c) := by
  rcases lt_or_ge c 0 with hc | hc
  · have : GenPareto.supp c = Ioo 0 (-1 / c) := by
      ext x
      simp [GenPareto.supp, hc]
    rw [this]
    exact ⟨isOpen_Ioo, ordConnected_Ioo⟩
  · have : GenPareto.supp c = Ioi 0 := by
      ext x
      simp [GenPareto.supp, not_lt.2 hc]
    rw [this]
    exact ⟨isOpen_Ioi, ordConnected_Ioi⟩

/-- The formula for the logarithm of the survival function is the change of variable to the
exponential distribution. -/
theorem gp_logsf_pos {c x : ℝ} (hx : x ∈ GenPareto.supp c) : GenPareto.logsf c x < 0 := by
  have h1 := gp_pos hx
  have h0 := hx.1
  unfold GenPareto.logsf log1p
  split_ifs with hc
  · rcases lt_or_gt_of_ne hc with hc' | hc'
    · have : log (1 + c * x) < 0 := log_neg h1 (by nlinarith)
      rw [neg_div]
      have := div_pos_of_neg_of_neg this hc'
      linarith
    · have : 0 < log (1 + c * x) := log_pos (by nlinarith)
      rw [neg_div]
      have := div_pos this hc'
      linarith
  · linarith

theorem gp_sf {c x : ℝ} (hx : x ∈ GenPareto.supp c) :
    GenPareto.sf c x = exp (GenPareto.logsf c x) := by
  have h1 := gp_pos hx
  unfold GenPareto.sf GenPareto.logsf invBoxcox log1p
  by_cases hc : c = 0
  · simp [hc]
  · rw [if_neg (neg_ne_zero.2 hc), if_pos hc, neg_mul_neg, add_comm, rpow_def_of_pos h1]
    congr 1
    field_simp

theorem gp_cdf {c x : ℝ} : GenPareto.cdf c x = 1 - GenPareto.sf c x := by
  unfold GenPareto.cdf GenPareto.sf invBoxcox invBoxcox1p
  split_ifs <;> ring

theorem gp_isf {c q : ℝ} (h0 : 0 < q) : GenPareto.isf c q =
    if c ≠ 0 then (exp (c * -log q) - 1) / c else -log q := by
  unfold GenPareto.isf boxcox
  by_cases hc : c = 0
  · simp [hc]
  · rw [if_neg (neg_ne_zero.2 hc), if_pos hc, rpow_def_of_pos h0, ← neg_div_neg_eq]
    rw [show log q * -c = c * -log q by ring, neg_neg, neg_div]
    ring

theorem gp_isf_ppf (c : ℝ) : IsIsf (GenPareto.ppf c) (GenPareto.isf c) := by
  intro q _ _
  unfold GenPareto.isf GenPareto.ppf boxcox boxcox1p
  rw [show 1 + -(1 - q) = q by ring]

theorem gp_ppf (c : ℝ) : IsPpf (GenPareto.supp c) (GenPareto.cdf c) (GenPareto.ppf c) := by
  have h := C251_expon.2.1.comp (J := GenPareto.supp c) (g := fun x => -GenPareto.logsf c x)
    (gi := fun y => if c ≠ 0 then (exp (c * y) - 1) / c else y)
    (fun x hx => by have := gp_logsf_pos hx; simp only [mem_Ioi]; linarith)
    (fun y hy => by
      have hy0 := mem_Ioi.1 hy
      by_cases hc : c = 0
      · simp only [hc, ne_eq, not_true_eq_false, if_false]
        exact gp_mem hy0 (by simp)
      · simp only [ne_eq, hc, not_false_eq_true, if_true]
        refine gp_mem ?_ ?_
        · rcases lt_or_gt_of_ne hc with hc' | hc'
          · have : exp (c * y) < 1 := exp_lt_one_iff.2 (by nlinarith)
            exact div_pos_of_neg_of_neg (by linarith) hc'
          · have : 1 < exp (c * y) := one_lt_exp_iff.2 (by positivity)
            exact div_pos (by linarith) hc'
        · rw [mul_div_cancel₀ _ hc]
          have := exp_pos (c * y)
          linarith)
    (fun x hx => by
      have h1 := gp_pos hx
      by_cases hc : c = 0
      · simp [hc, GenPareto.logsf]
      · simp only [ne_eq, hc, not_false_eq_true, if_true, GenPareto.logsf, log1p]
        rw [neg_div, neg_neg, mul_div_cancel₀ _ hc, exp_log h1, add_sub_cancel_left,
          mul_div_cancel_left₀ _ hc])
    (fun y hy => by
      by_cases hc : c = 0
      · simp [hc, GenPareto.logsf]
      · simp only [ne_eq, hc, not_false_eq_true, if_true, GenPareto.logsf, log1p]
        rw [mul_div_cancel₀ _ hc, add_sub_cancel, log_exp, neg_div, neg_neg,
          mul_div_cancel_left₀ _ hc])
  refine h.congr ?_ ?_
  · intro x hx
    rw [gp_cdf, gp_sf hx]
    simp only [Expon.cdf, expm1, neg_neg]
    ring
  · intro q h0 h1
    have h2 := gp_isf_ppf c (1 - q) (by linarith) (by linarith)
    rw [sub_sub_cancel] at h2
    rw [← h2, gp_isf (by linarith)]
    simp only [Expon.ppf, log1p]
    rw [show 1 + -q = 1 - q by ring]

theorem gp_deriv {c x : ℝ} (hx : x ∈ GenPareto.supp c) :
    HasDerivAt (GenPareto.cdf c) (GenPareto.pdf c x) x := by
  have h1 := gp_pos hx
  have hev : ∀ᶠ y in 𝓝 x, GenPareto.cdf c y = 1 - exp (GenPareto.logsf c y) := by
    filter_upwards [(gp_open c).1.mem_nhds hx] with y hy
    rw [gp_cdf, gp_sf hy]
  refine HasDerivAt.congr_of_eventuallyEq ?_ hev
  by_cases hc : c = 0
  · have hf : (fun y => 1 - exp (GenPareto.logsf c y)) = fun y : ℝ => 1 - exp (-y) := by
      funext y
      simp [GenPareto.logsf, hc]
    rw [hf]
    refine HasDerivAt.congr_deriv ((hasDerivAt_id x).neg.exp.const_sub 1) ?_
    simp [GenPareto.pdf, GenPareto.logpdf, hc]
  · have hf : (fun y => 1 - exp (GenPareto.logsf c y)) =
        fun y : ℝ => 1 - exp (-log (1 + c * y) / c) := by
      funext y
      simp [GenPareto.logsf, hc, log1p]
    rw [hf]
    refine HasDerivAt.congr_deriv
      (((((((hasDerivAt_id x).const_mul c).const_add 1).log h1.ne').neg.div_const c).exp).const_sub
        1) ?_
    simp only [GenPareto.pdf, GenPareto.logpdf, ne_eq, hc, not_false_eq_true, if_true, xlog1py,
      id_eq, Pi.neg_apply]
    rw [show -((c + 1) * log (1 + c * x)) / c = -log (1 + c * x) / c + -log (1 + c * x) by
      field_simp; ring, exp_add, exp_neg (log (1 + c * x)), exp_log h1]
    field_simp

/-- The generalised Pareto distribution, for every real shape `c`. -/
theorem C252_genpareto (c : ℝ) :
    IsCdf (GenPareto.supp c) (GenPareto.pdf c) (GenPareto.cdf c) ∧
    IsPpf (GenPareto.supp c) (GenPareto.cdf c) (GenPareto.ppf c) ∧
    IsSf (GenPareto.supp c) (GenPareto.cdf c) (GenPareto.sf c) ∧
    IsIsf (GenPareto.ppf c) (GenPareto.isf c) ∧
    IsLog (GenPareto.supp c) (GenPareto.pdf c) (GenPareto.logpdf c) ∧
    IsLog (GenPareto.supp c) (GenPareto.sf c) (GenPareto.logsf c) := by
  refine ⟨isCdf_of_ppf (gp_open c).1 (gp_open c).2 (fun x hx => gp_deriv hx)
    (fun x _ => (exp_pos _).le) (gp_ppf c),
    gp_ppf c, ?_, gp_isf_ppf c, fun x _ => ⟨exp_pos _, (log_exp _).symm⟩, ?_⟩
  · intro x _
    rw [gp_cdf]
    ring
  · intro x hx
    rw [gp_sf hx]
    exact ⟨exp_pos _, (log_exp _).symm⟩

example : (1 : ℝ) ∈ GenPareto.supp (-1 / 2) ∧ (3 : ℝ) ∉ GenPareto.supp (-1 / 2) ∧
    GenPareto.cdf (-1 / 2) 1 = 3 / 4 := by
  refine ⟨⟨by norm_num, by norm_num⟩, ?_, ?_⟩
  · intro h
    have := h.2 (by norm_num)
    norm_num at this
  · simp only [GenPareto.cdf, invBoxcox1p]
    norm_num

theorem gev_pos {c x : ℝ} (hx : x ∈ GenExtreme.supp c) : 0 < 1 + -c * x := by
  obtain ⟨h1, h2⟩ := hx
  rcases lt_trichotomy c 0 with hc | hc | hc
  · have h := h2 hc
    rw [div_lt_iff_of_neg hc] at h
    linarith
  · simp [hc]
  · have h := h1 hc
    rw [lt_div_iff₀ hc] at h
    linarith

theorem gev_mem {c x : ℝ} (h : 0 < 1 + -c * x) : x ∈ GenExtreme.supp c := by
  refine ⟨fun hc => ?_, fun hc => ?_⟩
  · rw [lt_div_iff₀ hc]
    linarith
  · rw [div_lt_iff_of_neg hc]
    linarith

theorem gev_open (c : ℝ) : IsOpen (GenExtreme.supp c) ∧ OrdConnected (GenExtreme.supp c) := by
  rcases lt_trichotomy c 0 with hc | hc | hc
  · have : GenExtreme.supp c = Ioi (1 / c) := by
      ext x
      simp [GenExtreme.supp, hc, hc.le]
    rw [this]
    exact ⟨isOpen_Ioi, ordConnected_Ioi⟩
  · have : GenExtreme.supp c = univ := by
      ext x
      simp [GenExtreme.supp, hc]
    rw [this]
    exact ⟨isOpen_univ, ordConnected_univ⟩
  · have : GenExtreme.supp c = Iio (1 / c) := by
      ext x
      simp [GenExtreme.supp, hc, not_lt.2 hc.le]
    rw [this]
    exact ⟨isOpen_Iio, ordConnected_Iio⟩

/-- The generalised extreme value distribution, for every real shape `c`. -/
theorem C252_genextreme (c : ℝ) :
    IsCdf (GenExtreme.supp c) (GenExtreme.pdf c) (GenExtreme.cdf c) ∧
    IsPpf (GenExtreme.supp c) (GenExtreme.cdf c) (GenExtreme.ppf c) ∧
    IsSf (GenExtreme.supp c) (GenExtreme.cdf c) (GenExtreme.sf c) ∧
    IsIsf (GenExtreme.ppf c) (GenExtreme.isf c) ∧
    IsLog (GenExtreme.supp c) (GenExtreme.pdf c) (GenExtreme.logpdf c) ∧
    IsLog (GenExtreme.supp c) (GenExtreme.cdf c) (GenExtreme.logcdf c) := by
  have hp : IsPpf (GenExtreme.supp c) (GenExtreme.cdf c) (GenExtreme.ppf c) := by
    have h := C252_gumbel_r.2.1.comp (J := GenExtreme.supp c)
      (g := fun x => -GenExtreme.loglogcdf c x)
      (gi := fun x => if c ≠ 0 then -expm1 (-c * x) / c else x) (fun _ _ => mem_univ _)
      (fun x _ => by
        by_cases hc : c = 0
        · simp only [hc, ne_eq, not_true_eq_false, if_false]
          exact gev_mem (by simp)
        · simp only [ne_eq, hc, not_false_eq_true, if_true]
          refine gev_mem ?_
          rw [neg_mul, mul_div_cancel₀ _ hc, neg_neg, expm1, add_sub_cancel]
          exact exp_pos _)
      (fun x hx => by
        have h1 := gev_pos hx
        by_cases hc : c = 0
        · simp [hc, GenExtreme.loglogcdf]
        · simp only [ne_eq, hc, not_false_eq_true, if_true, GenExtreme.loglogcdf, log1p, expm1]
          rw [neg_mul_neg, mul_div_cancel₀ _ hc, exp_log h1]
          field_simp
          ring)
      (fun y _ => by
        by_cases hc : c = 0
        · simp [hc, GenExtreme.loglogcdf]
        · simp only [ne_eq, hc, not_false_eq_true, if_true, GenExtreme.loglogcdf, log1p, expm1]
          rw [show 1 + -c * (-(exp (-c * y) - 1) / c) = exp (-c * y) by field_simp; ring, log_exp]
          field_simp)
    refine h.congr ?_ ?_
    · intro x _
      simp only [GenExtreme.cdf, GenExtreme.logcdf, GumbelR.cdf, neg_neg]
    · intro q _ _
      simp only [GenExtreme.ppf, GumbelR.ppf]
  refine ⟨isCdf_of_ppf (gev_open c).1 (gev_open c).2 ?_ (fun x _ => (exp_pos _).le) hp, hp, ?_, ?_,
    fun x _ => ⟨exp_pos _, (log_exp _).symm⟩, fun x _ => ⟨exp_pos _, (log_exp _).symm⟩⟩
  · intro x hx
    have h1 := gev_pos hx
    by_cases hc : c = 0
    · have hf : GenExtreme.cdf c = GumbelR.cdf := by
        funext y
        simp [GenExtreme.cdf, GenExtreme.logcdf, GenExtreme.loglogcdf, GumbelR.cdf, hc]
      rw [hf]
      refine HasDerivAt.congr_deriv ((hasDerivAt_id x).neg.exp.neg.exp) ?_
      simp only [GenExtreme.pdf, GenExtreme.logpdf, GenExtreme.loglogcdf, hc, log1p, Pi.neg_apply,
        id_eq, ne_eq, not_true_eq_false, if_false, neg_zero, add_zero, log_one, sub_zero, exp_add]
      ring
    · have hf : GenExtreme.cdf c = fun y => exp (-exp (log (1 + -c * y) / c)) := by
        funext y
        simp [GenExtreme.cdf, GenExtreme.logcdf, GenExtreme.loglogcdf, hc, log1p]
      rw [hf]
      refine HasDerivAt.congr_deriv
        ((((((hasDerivAt_id x).const_mul (-c)).const_add 1).log h1.ne').div_const c).exp.neg.exp) ?_
      simp only [GenExtreme.pdf, GenExtreme.logpdf, GenExtreme.loglogcdf, hc, log1p, Pi.neg_apply,
        id_eq, ne_eq, not_false_eq_true, if_true, exp_add, exp_sub]
      rw [show 1 + -(c * x) = 1 + -c * x by ring, exp_log h1]
      field_simp
  · intro x _
    simp only [GenExtreme.cdf, GenExtreme.sf, expm1]
    ring
  · intro q _ _
    simp only [GenExtreme.isf, GenExtreme.ppf, log1p]
    rw [show 1 + -q = 1 - q by ring]

example : (1 : ℝ) ∈ GenExtreme.supp (1 / 2) ∧ (3 : ℝ) ∉ GenExtreme.supp (1 / 2) ∧
    GenExtreme.cdf (1 / 2) 0 = exp (-1) := by
  refine ⟨⟨by norm_num, by norm_num⟩, ?_, ?_⟩
  · intro h
    have := h.1 (by norm_num)
    norm_num at this
  · simp [GenExtreme.cdf, GenExtreme.logcdf, GenExtreme.loglogcdf, log1p]

end Wafo.Dist
