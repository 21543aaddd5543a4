import Verif.Dist.ExpProps

/-!
# C253: the functions of the Pareto and Burr distributions fit together
-/

namespace Wafo.Dist

open MeasureTheory Set Filter Topology Real

set_option linter.unusedSectionVars false

/-- The uniform distribution. -/
theorem C253_uniform :
    IsCdf (Ioo 0 1) Uniform.pdf Uniform.cdf ∧ IsPpf (Ioo 0 1) Uniform.cdf Uniform.ppf := by
  have hp : IsPpf (Ioo 0 1) Uniform.cdf Uniform.ppf :=
    ⟨fun q h0 h1 => ⟨h0, h1⟩, fun q _ _ => rfl, fun x hx => hx, fun x _ => rfl⟩
  exact ⟨isCdf_of_ppf isOpen_Ioo ordConnected_Ioo (fun x _ => hasDerivAt_id x)
    (fun x _ => zero_le_one) hp, hp⟩

example : Uniform.cdf (1 / 3) = 1 / 3 := rfl

/-- The Pareto distribution. -/
theorem C253_pareto (b : ℝ) (hb : 0 < b) :
    IsCdf (Ioi 1) (Pareto.pdf b) (Pareto.cdf b) ∧ IsPpf (Ioi 1) (Pareto.cdf b) (Pareto.ppf b) ∧
    IsSf (Ioi 1) (Pareto.cdf b) (Pareto.sf b) := by
  have hp : IsPpf (Ioi 1) (Pareto.cdf b) (Pareto.ppf b) := by
    have h := C251_expon.2.1.comp (J := Ioi 1) (g := fun x => b * log x) (gi := fun y => exp (y / b))
      (fun x hx => mul_pos hb (log_pos hx))
      (fun y hy => one_lt_exp_iff.2 (div_pos hy hb))
      (fun x hx => by
        have := mem_Ioi.1 hx
        simp only [mul_div_cancel_left₀ _ hb.ne', exp_log (by linarith : 0 < x)])
      (fun y _ => by simp only [log_exp, mul_div_cancel₀ _ hb.ne'])
    refine h.congr ?_ ?_
    · intro x hx
      have := mem_Ioi.1 hx
      simp only [Pareto.cdf, Expon.cdf, expm1]
      rw [rpow_def_of_pos (by linarith), show log x * -b = -(b * log x) by ring]
      ring
    · intro q h0 h1
      simp only [Pareto.ppf, Expon.ppf, log1p]
      rw [rpow_def_of_pos (by linarith), show 1 + -q = 1 - q by ring]
      congr 1
      ring
  refine ⟨isCdf_of_ppf isOpen_Ioi ordConnected_Ioi ?_ ?_ hp, hp, ?_⟩
  · intro x hx
    have := mem_Ioi.1 hx
    refine HasDerivAt.congr_deriv
      ((hasDerivAt_rpow_const (p := -b) (Or.inl (by linarith : x ≠ 0))).const_sub 1) ?_
    simp only [Pareto.pdf]
    ring
  · intro x hx
    have := mem_Ioi.1 hx
    have := rpow_pos_of_pos (by linarith : 0 < x) (-b - 1)
    unfold Pareto.pdf
    positivity
  · intro x _
    simp only [Pareto.cdf, Pareto.sf]
    ring

example : (0 : ℝ) < 1 ∧ Pareto.cdf 1 4 = 3 / 4 := by
  refine ⟨by norm_num, ?_⟩
  simp only [Pareto.cdf, rpow_neg_one]
  norm_num

/-- The Lomax distribution. -/
theorem C253_lomax (c : ℝ) (hc : 0 < c) :
    IsCdf (Ioi 0) (Lomax.pdf c) (Lomax.cdf c) ∧ IsPpf (Ioi 0) (Lomax.cdf c) (Lomax.ppf c) ∧
    IsSf (Ioi 0) (Lomax.cdf c) (Lomax.sf c) ∧ IsLog (Ioi 0) (Lomax.pdf c) (Lomax.logpdf c) ∧
    IsLog (Ioi 0) (Lomax.sf c) (Lomax.logsf c) := by
  have hp : IsPpf (Ioi 0) (Lomax.cdf c) (Lomax.ppf c) := by
    have h := C251_expon.2.1.comp (J := Ioi 0) (g := fun x => c * log1p x)
      (gi := fun y => expm1 (y / c))
      (fun x hx => mul_pos hc (log_pos (by linarith [mem_Ioi.1 hx])))
      (fun y hy => by
        have := one_lt_exp_iff.2 (div_pos (mem_Ioi.1 hy) hc)
        simp only [expm1, mem_Ioi]
        linarith)
      (fun x hx => by
        have := mem_Ioi.1 hx
        simp only [mul_div_cancel_left₀ _ hc.ne', log1p, expm1]
        rw [exp_log (by linarith)]
        ring)
      (fun y _ => by
        simp only [log1p, expm1]
        rw [add_sub_cancel, log_exp, mul_div_cancel₀ _ hc.ne'])
    refine h.congr ?_ ?_
    · intro x hx
      simp only [Lomax.cdf, Expon.cdf, neg_mul]
    · intro q h0 h1
      simp only [Lomax.ppf, Expon.ppf]
  have hpos : ∀ x ∈ Ioi (0 : ℝ), 0 < Lomax.pdf c x := by
    intro x hx
    have := mem_Ioi.1 hx
    have := rpow_pos_of_pos (by linarith : 0 < 1 + x) (c + 1)
    unfold Lomax.pdf
    positivity
  refine ⟨isCdf_of_ppf isOpen_Ioi ordConnected_Ioi ?_ (fun x hx => (hpos x hx).le) hp, hp, ?_, ?_,
    fun x _ => ⟨exp_pos _, (log_exp _).symm⟩⟩
  · intro x hx
    have := mem_Ioi.1 hx
    have h1 : 0 < 1 + x := by linarith
    refine HasDerivAt.congr_deriv
      ((((((hasDerivAt_id x).const_add 1).log h1.ne').const_mul (-c)).exp).sub_const 1).neg ?_
    simp only [Lomax.pdf, id_eq]
    rw [rpow_add h1, rpow_one, rpow_def_of_pos h1, show -c * log (1 + x) = -(log (1 + x) * c) by ring,
      exp_neg]
    have := exp_pos (log (1 + x) * c)
    field_simp
  · intro x _
    simp only [Lomax.cdf, Lomax.sf, expm1]
    ring
  · intro x hx
    have := mem_Ioi.1 hx
    have h1 : 0 < 1 + x := by linarith
    refine ⟨hpos x hx, ?_⟩
    have h2 := rpow_pos_of_pos h1 (c + 1)
    unfold Lomax.pdf Lomax.logpdf log1p
    rw [mul_one, log_div hc.ne' h2.ne', log_rpow h1]

example : (0 : ℝ) < 1 ∧ Lomax.pdf 1 1 = 1 / 4 := by
  refine ⟨by norm_num, ?_⟩
  simp only [Lomax.pdf]
  norm_num

/-- The power law. -/
theorem C253_powerlaw (a : ℝ) (ha : 0 < a) :
    IsCdf (Ioo 0 1) (PowerLaw.pdf a) (PowerLaw.cdf a) ∧
    IsPpf (Ioo 0 1) (PowerLaw.cdf a) (PowerLaw.ppf a) ∧
    IsLog (Ioo 0 1) (PowerLaw.pdf a) (PowerLaw.logpdf a) ∧
    IsLog (Ioo 0 1) (PowerLaw.cdf a) (PowerLaw.logcdf a) := by
  have hp : IsPpf (Ioo 0 1) (PowerLaw.cdf a) (PowerLaw.ppf a) := by
    have h := C253_uniform.2.comp (J := Ioo 0 1) (g := fun x => x ^ a) (gi := fun y => y ^ (1 / a))
      (fun x hx => ⟨rpow_pos_of_pos hx.1 _, rpow_lt_one hx.1.le hx.2 ha⟩)
      (fun x hx => ⟨rpow_pos_of_pos hx.1 _, rpow_lt_one hx.1.le hx.2 (by positivity)⟩)
      (fun x hx => rpow_inv_cancel hx.1 ha.ne') (fun x hx => rpow_inv_cancel' hx.1 ha.ne')
    refine h.congr ?_ ?_
    · intro x _
      simp only [PowerLaw.cdf, Uniform.cdf, mul_one]
    · intro q _ _
      simp only [PowerLaw.ppf, Uniform.ppf]
  have hpos : ∀ x ∈ Ioo (0 : ℝ) 1, 0 < PowerLaw.pdf a x :=
    fun x hx => mul_pos ha (rpow_pos_of_pos hx.1 _)
  refine ⟨isCdf_of_ppf isOpen_Ioo ordConnected_Ioo ?_ (fun x hx => (hpos x hx).le) hp, hp, ?_, ?_⟩
  · intro x hx
    refine HasDerivAt.congr_deriv
      (hasDerivAt_rpow_const (p := a * 1) (Or.inl hx.1.ne')) ?_
    simp only [PowerLaw.pdf, mul_one]
  · intro x hx
    refine ⟨hpos x hx, ?_⟩
    unfold PowerLaw.pdf PowerLaw.logpdf xlogy
    rw [log_mul ha.ne' (rpow_pos_of_pos hx.1 _).ne', log_rpow hx.1]
  · intro x hx
    refine ⟨rpow_pos_of_pos hx.1 _, ?_⟩
    unfold PowerLaw.cdf PowerLaw.logcdf
    rw [log_rpow hx.1, mul_one]

example : (0 : ℝ) < 2 ∧ PowerLaw.cdf 2 (1 / 2) = 1 / 4 := by
  refine ⟨by norm_num, ?_⟩
  simp only [PowerLaw.cdf]
  norm_num

/-- The reciprocal distribution. -/
theorem C253_reciprocal (a b : ℝ) (ha : 0 < a) (hab : a < b) :
    IsCdf (Ioo a b) (Reciprocal.pdf a b) (Reciprocal.cdf a b) ∧
    IsPpf (Ioo a b) (Reciprocal.cdf a b) (Reciprocal.ppf a b) ∧
    IsLog (Ioo a b) (Reciprocal.pdf a b) (Reciprocal.logpdf a b) := by
  have hb : 0 < b := ha.trans hab
  have hd : b * 1 / a = b / a := by rw [mul_one]
  have hba : 1 < b / a := (one_lt_div ha).2 hab
  have hL : 0 < log (b / a) := log_pos hba
  have hp : IsPpf (Ioo a b) (Reciprocal.cdf a b) (Reciprocal.ppf a b) := by
    refine ⟨?_, ?_, ?_, ?_⟩
    · intro q h0 h1
      simp only [Reciprocal.ppf, hd]
      have h2 : 1 < (b / a) ^ q := one_lt_rpow hba h0
      have h3 : (b / a) ^ q < (b / a) ^ (1 : ℝ) := rpow_lt_rpow_of_exponent_lt hba h1
      rw [rpow_one] at h3
      have h4 : a * (b / a) = b := mul_div_cancel₀ _ ha.ne'
      constructor <;> nlinarith
    · intro q h0 h1
      simp only [Reciprocal.ppf, Reciprocal.cdf, hd]
      rw [log_mul ha.ne' (rpow_pos_of_pos (by positivity) _).ne', log_rpow (by positivity),
        add_sub_cancel_left, mul_div_cancel_right₀ _ hL.ne']
    · intro x hx
      have h1 := log_lt_log ha hx.1
      have h2 := log_lt_log (ha.trans hx.1) hx.2
      simp only [Reciprocal.cdf, hd]
      rw [div_lt_one hL]
      rw [log_div hb.ne' ha.ne'] at hL ⊢
      exact ⟨div_pos (by linarith) hL, by linarith⟩
    · intro x hx
      have hx0 := ha.trans hx.1
      simp only [Reciprocal.ppf, Reciprocal.cdf, hd]
      rw [rpow_def_of_pos (by positivity), mul_div_cancel₀ _ hL.ne', exp_sub, exp_log hx0,
        exp_log ha, mul_div_cancel₀ _ ha.ne']
  have hpos : ∀ x ∈ Ioo a b, 0 < Reciprocal.pdf a b x := by
    intro x hx
    have hx0 := ha.trans hx.1
    simp only [Reciprocal.pdf, hd]
    positivity
  refine ⟨isCdf_of_ppf isOpen_Ioo ordConnected_Ioo ?_ (fun x hx => (hpos x hx).le) hp, hp, ?_⟩
  · intro x hx
    have hx0 := ha.trans hx.1
    refine HasDerivAt.congr_deriv
      (((hasDerivAt_log hx0.ne').sub_const (log a)).div_const (log (b * 1 / a))) ?_
    simp only [Reciprocal.pdf, hd]
    field_simp
  · intro x hx
    have hx0 := ha.trans hx.1
    refine ⟨hpos x hx, ?_⟩
    simp only [Reciprocal.pdf, Reciprocal.logpdf, hd]
    rw [log_div one_ne_zero (by positivity), log_one, log_mul hx0.ne' hL.ne']
    ring

example : (0 : ℝ) < 1 ∧ (1 : ℝ) < 4 ∧ Reciprocal.ppf 1 4 (1 / 2) = 2 := by
  refine ⟨by norm_num, by norm_num, ?_⟩
  simp only [Reciprocal.ppf]
  rw [← sqrt_eq_rpow, show (4 : ℝ) * 1 / 1 = 2 ^ 2 by norm_num, sqrt_sq (by norm_num)]
  norm_num

/-- The Bradford distribution. -/
theorem C253_bradford (c : ℝ) (hc : 0 < c) :
    IsCdf (Ioo 0 1) (Bradford.pdf c) (Bradford.cdf c) ∧
    IsPpf (Ioo 0 1) (Bradford.cdf c) (Bradford.ppf c) := by
  have hL : 0 < log1p c := log_pos (by linarith)
  have hp : IsPpf (Ioo 0 1) (Bradford.cdf c) (Bradford.ppf c) := by
    refine ⟨?_, ?_, ?_, ?_⟩
    · intro q h0 h1
      have h2 : 1 < exp (q * log1p c) := one_lt_exp_iff.2 (by positivity)
      have h3 : exp (q * log1p c) < exp (log1p c) := exp_lt_exp.2 (by nlinarith)
      rw [log1p, exp_log (by linarith), ← log1p] at h3
      simp only [Bradford.ppf, expm1]
      exact ⟨div_pos (by linarith) hc, by rw [div_lt_one hc]; linarith⟩
    · intro q h0 h1
      simp only [Bradford.ppf, Bradford.cdf, expm1]
      rw [mul_div_cancel₀ _ hc.ne']
      conv_lhs => rw [log1p, add_sub_cancel, log_exp, mul_div_cancel_right₀ _ hL.ne']
    · intro x hx
      have h1 := mul_pos hc hx.1
      have h2 : c * x < c := by nlinarith [hx.2]
      simp only [Bradford.cdf]
      rw [div_lt_one hL]
      refine ⟨div_pos (log_pos (by linarith)) hL, log_lt_log (by linarith) (by linarith)⟩
    · intro x hx
      have h1 := mul_pos hc hx.1
      simp only [Bradford.ppf, Bradford.cdf]
      rw [div_mul_cancel₀ _ hL.ne', expm1, log1p, exp_log (by linarith), add_sub_cancel_left,
        mul_div_cancel_left₀ _ hc.ne']
  refine ⟨isCdf_of_ppf isOpen_Ioo ordConnected_Ioo ?_ ?_ hp, hp⟩
  · intro x hx
    have h1 := mul_pos hc hx.1
    have h2 : 0 < 1 + c * x := by linarith
    refine HasDerivAt.congr_deriv
      (((((hasDerivAt_id x).const_mul c).const_add 1).log h2.ne').div_const (log1p c)) ?_
    simp only [Bradford.pdf, id_eq, mul_one, add_comm]
  · intro x hx
    have h1 := mul_pos hc hx.1
    unfold Bradford.pdf
    positivity

example : (0 : ℝ) < 3 ∧ Bradford.cdf 3 (1 / 3) = log 2 / log 4 := by
  refine ⟨by norm_num, ?_⟩
  simp only [Bradford.cdf, log1p]
  norm_num

/-- The inverse pair of the Burr distribution. -/
theorem burr_ppf (c d : ℝ) (hc : 0 < c) (hd : 0 < d) :
    IsPpf (Ioi 0) (Burr.cdf c d) (Burr.ppf c d) := by
  have h := (C251_expon.2.1.rev).comp (J := Ioi 0) (g := fun x => d * log (1 + x))
    (gi := fun y => exp (y / d) - 1)
    (fun x hx => mul_pos hd (log_pos (by linarith [mem_Ioi.1 hx])))
    (fun y hy => by
      have := one_lt_exp_iff.2 (div_pos (mem_Ioi.1 hy) hd)
      simp only [mem_Ioi]
      linarith)
    (fun x hx => by
      have := mem_Ioi.1 hx
      simp only [mul_div_cancel_left₀ _ hd.ne']
      rw [exp_log (by linarith)]
      ring)
    (fun y _ => by
      simp only [add_sub_cancel, log_exp]
      rw [mul_div_cancel₀ _ hd.ne'])
  refine (h.pow (c := -c) (by linarith)).congr ?_ ?_
  · intro x hx
    have h1 := rpow_pos_of_pos (mem_Ioi.1 hx) (-c)
    simp only [Burr.cdf, Expon.cdf, expm1]
    rw [rpow_def_of_pos (by linarith), show log (1 + x ^ (-c)) * -d = -(d * log (1 + x ^ (-c))) by
      ring]
    ring
  · intro q h0 h1
    simp only [Burr.ppf, Expon.ppf, log1p]
    rw [show 1 + -(1 - q) = q by ring, rpow_def_of_pos h0, show 1 / -c = -1 / c by
      rw [div_neg, neg_div], show log q * (-1 / d) = -log q / d by ring]

theorem burr_pos {c d x : ℝ} (hc : 0 < c) (hd : 0 < d) (hx : 0 < x) : 0 < Burr.pdf c d x := by
  have h1 := rpow_pos_of_pos hx (-c)
  have h2 := rpow_pos_of_pos hx (-c - 1)
  have h3 := rpow_pos_of_pos (by linarith : 0 < 1 + x ^ (-c)) (d + 1)
  rw [Burr.pdf, if_neg hx.ne']
  positivity

/-- The Burr distribution of type III. -/
theorem C253_burr (c d : ℝ) (hc : 0 < c) (hd : 0 < d) :
    IsCdf (Ioi 0) (Burr.pdf c d) (Burr.cdf c d) ∧ IsPpf (Ioi 0) (Burr.cdf c d) (Burr.ppf c d) ∧
    IsSf (Ioi 0) (Burr.cdf c d) (Burr.sf c d) ∧ IsLog (Ioi 0) (Burr.pdf c d) (Burr.logpdf c d) ∧
    IsLog (Ioi 0) (Burr.cdf c d) (Burr.logcdf c d) ∧
    IsLog (Ioi 0) (Burr.sf c d) (Burr.logsf c d) := by
  have hp := burr_ppf c d hc hd
  refine ⟨isCdf_of_ppf isOpen_Ioi ordConnected_Ioi ?_ (fun x hx => (burr_pos hc hd hx).le) hp, hp,
    ?_, ?_, ?_, fun x _ => ⟨exp_pos _, (log_exp _).symm⟩⟩
  · intro x hx
    have hx0 := mem_Ioi.1 hx
    have h1 := rpow_pos_of_pos hx0 (-c)
    have h2 : 0 < 1 + x ^ (-c) := by linarith
    refine HasDerivAt.congr_deriv
      (((hasDerivAt_rpow_const (p := -c) (Or.inl hx0.ne')).const_add 1).rpow_const
        (p := -d) (Or.inl h2.ne')) ?_
    rw [Burr.pdf, if_neg hx0.ne', show -d - 1 = -(d + 1) by ring, rpow_neg h2.le]
    ring
  · intro x hx
    have h := hp.cdf_mem x hx
    simp only [Burr.sf, Burr.logsf, log1p]
    rw [show (1 : ℝ) + -(1 + x ^ (-c)) ^ (-d) = 1 - Burr.cdf c d x by rw [Burr.cdf]; ring,
      exp_log (by linarith)]
  · intro x hx
    have hx0 := mem_Ioi.1 hx
    have h1 := rpow_pos_of_pos hx0 (-c)
    have h2 : 0 < 1 + x ^ (-c) := by linarith
    have h3 := rpow_pos_of_pos h2 (d + 1)
    have h4 := rpow_pos_of_pos hx0 (-c - 1)
    refine ⟨burr_pos hc hd hx0, ?_⟩
    rw [Burr.pdf, Burr.logpdf, if_neg hx0.ne', if_neg hx0.ne', log_div (by positivity) h3.ne',
      log_mul (by positivity) h4.ne', log_mul hc.ne' hd.ne', log_rpow hx0, log_rpow h2, xlogy,
      xlog1py]
  · intro x hx
    have hx0 := mem_Ioi.1 hx
    have h1 := rpow_pos_of_pos hx0 (-c)
    have h2 : 0 < 1 + x ^ (-c) := by linarith
    refine ⟨(hp.cdf_mem x hx).1, ?_⟩
    rw [Burr.cdf, Burr.logcdf, log_rpow h2, log1p]
    ring

example : (0 : ℝ) < 1 ∧ (0 : ℝ) < 2 ∧ Burr.cdf 1 2 1 = 1 / 4 := by
  refine ⟨by norm_num, by norm_num, ?_⟩
  simp only [Burr.cdf, one_rpow]
  rw [rpow_neg (by norm_num)]
  norm_num

/-- The Fisk distribution. -/
theorem C253_fisk (c : ℝ) (hc : 0 < c) :
    IsCdf (Ioi 0) (Fisk.pdf c) (Fisk.cdf c) ∧ IsPpf (Ioi 0) (Fisk.cdf c) (Fisk.ppf c) ∧
    IsSf (Ioi 0) (Fisk.cdf c) (Fisk.sf c) ∧ IsLog (Ioi 0) (Fisk.pdf c) (Fisk.logpdf c) ∧
    IsLog (Ioi 0) (Fisk.cdf c) (Fisk.logcdf c) ∧ IsLog (Ioi 0) (Fisk.sf c) (Fisk.logsf c) ∧
    ∀ x : ℝ, 0 < x → Fisk.cdf c x = x ^ c / (1 + x ^ c) := by
  have h := C253_burr c 1 hc one_pos
  refine ⟨h.1, h.2.1, h.2.2.1, h.2.2.2.1, h.2.2.2.2.1, h.2.2.2.2.2, ?_⟩
  intro x hx
  have := rpow_pos_of_pos hx c
  unfold Fisk.cdf Burr.cdf
  rw [rpow_neg_one, rpow_neg hx.le]
  field_simp
  ring

example : (0 : ℝ) < 2 ∧ Fisk.cdf 2 2 = 4 / 5 := by
  refine ⟨by norm_num, ?_⟩
  rw [(C253_fisk 2 (by norm_num)).2.2.2.2.2.2 2 (by norm_num)]
  norm_num

/-- The Burr distribution of type XII. -/
theorem C253_burr12 (c d : ℝ) (hc : 0 < c) (hd : 0 < d) :
    IsCdf (Ioi 0) (Burr12.pdf c d) (Burr12.cdf c d) ∧
    IsPpf (Ioi 0) (Burr12.cdf c d) (Burr12.ppf c d) ∧
    IsSf (Ioi 0) (Burr12.cdf c d) (Burr12.sf c d) ∧
    IsLog (Ioi 0) (Burr12.pdf c d) (Burr12.logpdf c d) ∧
    IsLog (Ioi 0) (Burr12.cdf c d) (Burr12.logcdf c d) ∧
    IsLog (Ioi 0) (Burr12.sf c d) (Burr12.logsf c d) := by
  have hp : IsPpf (Ioi 0) (Burr12.cdf c d) (Burr12.ppf c d) := by
    refine ((C253_lomax d hd).2.1.pow hc.ne').congr ?_ ?_
    · intro x _
      simp only [Burr12.cdf, Burr12.logsf, Lomax.cdf, xlog1py, log1p]
    · intro q _ _
      simp only [Burr12.ppf, Lomax.ppf]
      congr 2
      ring
  refine ⟨isCdf_of_ppf isOpen_Ioi ordConnected_Ioi ?_ (fun x _ => (exp_pos _).le) hp, hp, ?_,
    fun x _ => ⟨exp_pos _, (log_exp _).symm⟩, ?_, fun x _ => ⟨exp_pos _, (log_exp _).symm⟩⟩
  · intro x hx
    have hx0 := mem_Ioi.1 hx
    have h1 := rpow_pos_of_pos hx0 c
    have h2 : 0 < 1 + x ^ c := by linarith
    refine HasDerivAt.congr_deriv
      (((((((hasDerivAt_rpow_const (p := c) (Or.inl hx0.ne')).const_add 1).log h2.ne').const_mul
        (-d)).exp).sub_const 1).neg) ?_
    simp only [Burr12.pdf, Burr12.logpdf, exp_add, xlogy_rpow hx0, exp_log hc, exp_log hd, xlog1py]
    rw [show (-d - 1) * log (1 + x ^ c) = -d * log (1 + x ^ c) + -log (1 + x ^ c) by ring, exp_add,
      exp_neg (log (1 + x ^ c)), exp_log h2]
    ring
  · intro x _
    simp only [Burr12.cdf, Burr12.sf, expm1]
    ring
  · intro x hx
    have hx0 := mem_Ioi.1 hx
    have h1 := rpow_pos_of_pos hx0 c
    have h2 : 0 < 1 + x ^ c := by linarith
    refine ⟨(hp.cdf_mem x hx).1, ?_⟩
    simp only [Burr12.cdf, Burr12.logcdf, Burr12.logsf, expm1, log1p, xlog1py]
    rw [rpow_def_of_pos h2, mul_comm (log (1 + x ^ c))]
    congr 1
    ring

example : (0 : ℝ) < 2 ∧ (0 : ℝ) < 1 ∧ Burr12.sf 2 1 1 = 1 / 2 := by
  refine ⟨by norm_num, by norm_num, ?_⟩
  simp only [Burr12.sf, Burr12.logsf, xlog1py, one_rpow]
  rw [show -1 * log (1 + 1) = -log 2 by norm_num, exp_neg, exp_log (by norm_num)]
  norm_num

/-- Mielke's distribution: the Burr distribution with other parameters. -/
theorem C253_mielke (k s : ℝ) (hk : 0 < k) (hs : 0 < s) :
    IsCdf (Ioi 0) (Mielke.pdf k s) (Mielke.cdf k s) ∧
    IsPpf (Ioi 0) (Mielke.cdf k s) (Mielke.ppf k s) ∧
    IsLog (Ioi 0) (Mielke.pdf k s) (Mielke.logpdf k s) ∧
    ∀ x : ℝ, 0 < x → Mielke.cdf k s x = Burr.cdf s (k / s) x := by
  have hks : 0 < k / s := div_pos hk hs
  have heq : ∀ x : ℝ, 0 < x → Mielke.cdf k s x = Burr.cdf s (k / s) x := by
    intro x hx
    have h1 := rpow_pos_of_pos hx s
    have h2 : 0 < 1 + x ^ s := by linarith
    simp only [Mielke.cdf, Burr.cdf, mul_one]
    rw [show 1 + x ^ (-s) = (1 + x ^ s) * (x ^ s)⁻¹ by rw [rpow_neg hx.le]; field_simp; ring,
      mul_rpow h2.le (by positivity), rpow_neg h2.le, inv_rpow h1.le, rpow_neg h1.le, inv_inv,
      ← rpow_mul hx.le, mul_div_cancel₀ _ hs.ne']
    ring
  have hp : IsPpf (Ioi 0) (Mielke.cdf k s) (Mielke.ppf k s) := by
    refine (burr_ppf s (k / s) hs hks).congr (fun x hx => heq x hx) ?_
    intro q h0 h1
    have h2 : 0 < q ^ (s / k) := rpow_pos_of_pos h0 _
    have h3 : q ^ (s / k) < 1 := rpow_lt_one h0.le h1 (by positivity)
    simp only [Mielke.ppf, Burr.ppf, mul_one]
    rw [show -1 / (k / s) = -(s / k) by rw [neg_div, one_div_div], rpow_neg h0.le,
      show -1 / s = -(1 / s) by ring, rpow_neg (by
        have := (one_lt_inv₀ h2).2 h3
        linarith), ← inv_rpow (by
        have := (one_lt_inv₀ h2).2 h3
        linarith)]
    congr 1
    have : 1 - q ^ (s / k) ≠ 0 := by linarith
    field_simp
  have hpos : ∀ x ∈ Ioi (0 : ℝ), 0 < Mielke.pdf k s x := by
    intro x hx
    have hx0 := mem_Ioi.1 hx
    have h1 := rpow_pos_of_pos hx0 s
    have h2 := rpow_pos_of_pos hx0 (k - 1)
    have h3 := rpow_pos_of_pos (by linarith : 0 < 1 + x ^ s) (1 + k * 1 / s)
    unfold Mielke.pdf
    positivity
  refine ⟨isCdf_of_ppf isOpen_Ioi ordConnected_Ioi ?_ (fun x hx => (hpos x hx).le) hp, hp, ?_, heq⟩
  · intro x hx
    have hx0 := mem_Ioi.1 hx
    have h1 := rpow_pos_of_pos hx0 s
    have h2 : 0 < 1 + x ^ s := by linarith
    have h3 := rpow_pos_of_pos h2 (k * 1 / s)
    refine HasDerivAt.congr_deriv
      ((hasDerivAt_rpow_const (p := k) (Or.inl hx0.ne')).div
        (((hasDerivAt_rpow_const (p := s) (Or.inl hx0.ne')).const_add 1).rpow_const
          (p := k * 1 / s) (Or.inl h2.ne')) h3.ne') ?_
    simp only [Mielke.pdf]
    rw [add_comm 1 (k * 1 / s), rpow_add h2, rpow_one, rpow_sub h2, rpow_one, rpow_sub hx0,
      rpow_sub hx0, rpow_one]
    field_simp
    ring
  · intro x hx
    have hx0 := mem_Ioi.1 hx
    have h1 := rpow_pos_of_pos hx0 s
    have h2 : 0 < 1 + x ^ s := by linarith
    refine ⟨hpos x hx, ?_⟩
    have h3 := rpow_pos_of_pos h2 (1 + k * 1 / s)
    have h4 := rpow_pos_of_pos hx0 (k - 1)
    unfold Mielke.pdf Mielke.logpdf log1p
    rw [log_div (by positivity) h3.ne', log_mul hk.ne' h4.ne', log_rpow hx0, log_rpow h2]
    ring

example : (0 : ℝ) < 2 ∧ (0 : ℝ) < 1 ∧ Mielke.cdf 2 1 1 = 1 / 4 := by
  refine ⟨by norm_num, by norm_num, ?_⟩
  simp only [Mielke.cdf, one_rpow]
  norm_num

/-- The three parameter kappa distribution. -/
theorem C253_kappa3 (a : ℝ) (ha : 0 < a) :
    IsCdf (Ioi 0) (Kappa3.pdf a) (Kappa3.cdf a) ∧ IsPpf (Ioi 0) (Kappa3.cdf a) (Kappa3.ppf a) := by
  have hp : IsPpf (Ioi 0) (Kappa3.cdf a) (Kappa3.ppf a) := by
    refine ⟨?_, ?_, ?_, ?_⟩
    · intro q h0 h1
      have h2 : 1 < q ^ (-a) := one_lt_rpow_of_pos_of_lt_one_of_neg h0 h1 (by linarith)
      exact rpow_pos_of_pos (div_pos ha (by linarith)) _
    · intro q h0 h1
      have h2 : 1 < q ^ (-a) := one_lt_rpow_of_pos_of_lt_one_of_neg h0 h1 (by linarith)
      have h3 : 0 < q ^ (-a) - 1 := by linarith
      have h4 : 0 < a / (q ^ (-a) - 1) := div_pos ha h3
      simp only [Kappa3.ppf, Kappa3.cdf]
      rw [rpow_inv_cancel' h4 ha.ne']
      rw [show a + a / (q ^ (-a) - 1) = a / (q ^ (-a) - 1) * q ^ (-a) by field_simp; ring,
        mul_rpow h4.le (by linarith), ← rpow_mul h0.le, ← mul_assoc, ← rpow_add h4]
      rw [show -a * (-1 / a) = 1 by field_simp, rpow_one, show 1 / a + -1 / a = 0 by ring, rpow_zero,
        one_mul]
    · intro x hx
      have hx0 := mem_Ioi.1 hx
      have h1 := rpow_pos_of_pos hx0 a
      simp only [Kappa3.cdf]
      refine ⟨mul_pos hx0 (rpow_pos_of_pos (by linarith) _), ?_⟩
      rw [neg_div, rpow_neg (by linarith), ← div_eq_mul_inv,
        div_lt_one (rpow_pos_of_pos (by linarith) _)]
      calc x = (x ^ a) ^ (1 / a) := (rpow_inv_cancel hx0 ha.ne').symm
        _ < (a + x ^ a) ^ (1 / a) := rpow_lt_rpow h1.le (by linarith) (by positivity)
    · intro x hx
      have hx0 := mem_Ioi.1 hx
      have h1 := rpow_pos_of_pos hx0 a
      have h2 : 0 < a + x ^ a := by linarith
      simp only [Kappa3.cdf, Kappa3.ppf]
      rw [mul_rpow hx0.le (rpow_pos_of_pos h2 _).le, ← rpow_mul h2.le,
        show -1 / a * -a = 1 by field_simp, rpow_one, rpow_neg hx0.le,
        show a / ((x ^ a)⁻¹ * (a + x ^ a) - 1) = x ^ a by field_simp; ring_nf; field_simp,
        rpow_inv_cancel hx0 ha.ne']
  refine ⟨isCdf_of_ppf isOpen_Ioi ordConnected_Ioi ?_ ?_ hp, hp⟩
  · intro x hx
    have hx0 := mem_Ioi.1 hx
    have h1 := rpow_pos_of_pos hx0 a
    have h2 : 0 < a + x ^ a := by linarith
    refine HasDerivAt.congr_deriv
      ((hasDerivAt_id x).mul (((hasDerivAt_rpow_const (p := a) (Or.inl hx0.ne')).const_add a).rpow_const
          (p := -1 / a) (Or.inl h2.ne'))) ?_
    simp only [Kappa3.pdf, id_eq]
    rw [rpow_sub h2, rpow_one, rpow_sub hx0, rpow_one]
    field_simp
    ring
  · intro x hx
    have h1 := rpow_pos_of_pos (mem_Ioi.1 hx) a
    have := rpow_pos_of_pos (by linarith : 0 < a + x ^ a) (-1 / a - 1)
    unfold Kappa3.pdf
    positivity

example : (0 : ℝ) < 1 ∧ Kappa3.cdf 1 3 = 3 / 4 := by
  refine ⟨by norm_num, ?_⟩
  simp only [Kappa3.cdf]
  rw [show (-1 / 1 : ℝ) = -1 by norm_num, rpow_neg_one, rpow_one]
  norm_num

end Wafo.Dist
