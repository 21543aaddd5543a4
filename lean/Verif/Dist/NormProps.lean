import Verif.Dist.NormLemmas

/-!
# C263: the functions of the distributions of the normal family fit together

`IsNormInv ninv` says that `ninv` inverts the normal distribution function and `IsErfcInv einv` that
`einv` inverts the complementary error function; `exists_normInv` and `exists_erfcInv` show that there
are such functions.
-/

namespace Wafo.Dist

open MeasureTheory Set Filter Topology Real Wafo.Gauss

set_option linter.unusedSectionVars false

example : (∃ ninv, IsNormInv ninv) ∧ ∃ einv, IsErfcInv einv := ⟨exists_normInv, exists_erfcInv⟩

/-- The normal distribution. -/
theorem C263_norm {ninv : ℝ → ℝ} (h : IsNormInv ninv) :
    IsCdf univ Norm.pdf Norm.cdf ∧ IsPpf univ Norm.cdf (Norm.ppf ninv) ∧
    IsSf univ Norm.cdf Norm.sf ∧ IsIsf (Norm.ppf ninv) (Norm.isf ninv) ∧
    IsLog univ Norm.pdf Norm.logpdf ∧ IsLog univ Norm.cdf Norm.logcdf ∧
    IsLog univ Norm.sf Norm.logsf := by
  have t : NormTr univ id id (fun _ => 1) Norm.pdf := ⟨fun _ => mem_univ _, fun _ _ => rfl,
    fun _ => rfl, fun x _ => hasDerivAt_id x, fun _ _ => zero_le_one, fun x _ => by
      rw [norm_pdf_eq, mul_one]; rfl⟩
  have hm := t.isCdf h isOpen_univ ordConnected_univ
  refine ⟨hm.1, hm.2, fun x _ => Phi_neg x, fun q h0 h1 => (h.neg h0 h1).symm,
    fun x _ => ⟨norm_pdf_pos x, norm_logpdf_eq x⟩, fun x _ => ⟨Phi_pos x, rfl⟩,
    fun x _ => ⟨Phi_pos _, rfl⟩⟩

example : Norm.cdf 0 = 1 / 2 := Phi_zero

theorem lognorm_tr {s : ℝ} (hs : 0 < s) :
    NormTr (Ioi 0) (fun x => log x / s) (fun y => exp (s * y)) (fun x => x⁻¹ / s) (LogNorm.pdf s) := by
  refine ⟨?_, ?_, ?_, ?_, ?_, ?_⟩
  · exact fun _ => exp_pos _
  · exact fun x hx => by
        show exp (s * (log x / s)) = x
        rw [mul_div_cancel₀ _ hs.ne', exp_log hx]
  · exact fun y => by
        show log (exp (s * y)) / s = y
        rw [log_exp, mul_div_cancel_left₀ _ hs.ne']
  · exact fun x hx => (hasDerivAt_log (ne_of_gt hx)).div_const s
  · exact fun x hx => by have := mem_Ioi.1 hx; positivity
  · exact fun x hx => by
        have hx : 0 < x := hx
        rw [LogNorm.pdf, LogNorm.logpdf, phi, exp_sub, exp_log (by positivity)]
        have : -log x ^ 2 / (2 * s ^ 2) = -(log x / s) ^ 2 / 2 := by field_simp
        rw [this]
        field_simp

/-- The lognormal distribution. -/
theorem C263_lognorm {ninv : ℝ → ℝ} (h : IsNormInv ninv) (s : ℝ) (hs : 0 < s) :
    IsCdf (Ioi 0) (LogNorm.pdf s) (LogNorm.cdf s) ∧
    IsPpf (Ioi 0) (LogNorm.cdf s) (LogNorm.ppf ninv s) ∧
    IsSf (Ioi 0) (LogNorm.cdf s) (LogNorm.sf s) ∧
    IsLog (Ioi 0) (LogNorm.pdf s) (LogNorm.logpdf s) ∧
    IsLog (Ioi 0) (LogNorm.cdf s) (LogNorm.logcdf s) ∧
    IsLog (Ioi 0) (LogNorm.sf s) (LogNorm.logsf s) := by
  have hm := (lognorm_tr hs).isCdf h isOpen_Ioi ordConnected_Ioi
  exact ⟨hm.1, hm.2, fun x _ => Phi_neg _, fun x _ => ⟨exp_pos _, (log_exp _).symm⟩,
    fun x _ => ⟨Phi_pos _, rfl⟩, fun x _ => ⟨Phi_pos _, rfl⟩⟩

example : (0 : ℝ) < 1 / 2 ∧ LogNorm.cdf (1 / 2) 1 = 1 / 2 := by
  refine ⟨by norm_num, ?_⟩
  rw [LogNorm.cdf, log_one, zero_div]
  exact Phi_zero

/-- The Gilbrat distribution. -/
theorem C263_gilbrat {ninv : ℝ → ℝ} (h : IsNormInv ninv) :
    IsCdf (Ioi 0) Gilbrat.pdf Gilbrat.cdf ∧ IsPpf (Ioi 0) Gilbrat.cdf (Gilbrat.ppf ninv) ∧
    IsLog (Ioi 0) Gilbrat.pdf Gilbrat.logpdf := by
  have hm := C263_lognorm h 1 one_pos
  have e1 : Gilbrat.cdf = LogNorm.cdf 1 := by
    funext x
    rw [Gilbrat.cdf, LogNorm.cdf, div_one]
  have e2 : Gilbrat.ppf ninv = LogNorm.ppf ninv 1 := by
    funext x
    rw [Gilbrat.ppf, LogNorm.ppf, one_mul]
  rw [e1, e2]
  exact ⟨hm.1, hm.2.1, fun x _ => ⟨exp_pos _, (log_exp _).symm⟩⟩

example : Gilbrat.cdf 1 = 1 / 2 := by
  rw [Gilbrat.cdf, log_one]
  exact Phi_zero

/-- The half normal distribution. -/
theorem C263_halfnorm {ninv : ℝ → ℝ} (h : IsNormInv ninv) :
    IsCdf (Ioi 0) HalfNorm.pdf HalfNorm.cdf ∧ IsPpf (Ioi 0) HalfNorm.cdf (HalfNorm.ppf ninv) ∧
    IsLog (Ioi 0) HalfNorm.pdf HalfNorm.logpdf := by
  have hpos : ∀ x, 0 < HalfNorm.pdf x := fun x => by
    have := pi_pos
    rw [HalfNorm.pdf]
    positivity
  refine ⟨isCdf_of_ppf isOpen_Ioi ordConnected_Ioi (fun x hx => ?_) (fun x _ => (hpos x).le)
    (half_isPpf h), half_isPpf h, fun x _ => ⟨hpos x, ?_⟩⟩
  · refine HasDerivAt.congr_deriv (((hasDerivAt_Phi x).mul_const 2).sub_const 1) ?_
    rw [HalfNorm.pdf, phi, sqrt_div zero_le_two, sqrt_mul zero_le_two,
      show -x * x / 2 = -x ^ 2 / 2 by ring]
    have h2 : √2 * √2 = 2 := mul_self_sqrt zero_le_two
    have h3 : 0 < √π := sqrt_pos.2 pi_pos
    field_simp
    linarith
  · have := pi_pos
    rw [HalfNorm.pdf, HalfNorm.logpdf, log_mul (by positivity) (exp_ne_zero _), log_exp,
      log_sqrt (by positivity)]
    ring

example : HalfNorm.cdf 0 = 0 := by
  rw [HalfNorm.cdf, Norm.cdf, Phi_zero]
  norm_num

/-- The folded normal distribution. -/
theorem C263_foldnorm (c : ℝ) : IsCdf (Ioi 0) (FoldNorm.pdf c) (FoldNorm.cdf c) := by
  have hd : ∀ x, HasDerivAt (FoldNorm.cdf c) (FoldNorm.pdf c x) x := by
    intro x
    have h1 := (hasDerivAt_Phi (x - c)).comp x ((hasDerivAt_id x).sub_const c)
    have h2 := (hasDerivAt_Phi (x + c)).comp x ((hasDerivAt_id x).add_const c)
    refine HasDerivAt.congr_deriv ((h1.add h2).sub_const 1) ?_
    rw [FoldNorm.pdf, norm_pdf_eq, norm_pdf_eq]
    ring
  refine isCdf_of_lim isOpen_Ioi ordConnected_Ioi (fun x _ => hd x)
    (fun x _ => add_pos (norm_pdf_pos _) (norm_pdf_pos _)) (l := 𝓝[>] 0) (u := atTop)
    self_mem_nhdsWithin (eventually_gt_atTop 0) ?_ ?_ ?_ ?_
  · have := (hd 0).continuousAt.tendsto
    have h0 : FoldNorm.cdf c 0 = 0 := by
      rw [FoldNorm.cdf, zero_sub, zero_add, Norm.cdf, Norm.cdf, Phi_neg]
      ring
    rw [h0] at this
    exact this.mono_left nhdsWithin_le_nhds
  · have h1 := tendsto_Phi_atTop.comp (tendsto_atTop_add_const_right atTop (-c) tendsto_id)
    have h2 := tendsto_Phi_atTop.comp (tendsto_atTop_add_const_right atTop c tendsto_id)
    have := (h1.add h2).sub_const 1
    norm_num at this
    refine this.congr fun x => ?_
    show Phi (x + -c) + Phi (x + c) - 1 = FoldNorm.cdf c x
    rw [FoldNorm.cdf, Norm.cdf, Norm.cdf, ← sub_eq_add_neg]
  · intro x hx
    exact mem_nhdsWithin_of_mem_nhds (gt_mem_nhds hx)
  · intro x _
    exact eventually_gt_atTop x

example : FoldNorm.cdf 2 0 = 0 := by
  rw [FoldNorm.cdf, zero_sub, zero_add, Norm.cdf, Norm.cdf, Phi_neg]
  ring

/-- The alpha distribution. -/
theorem C263_alpha {ninv : ℝ → ℝ} (h : IsNormInv ninv) (a : ℝ) :
    IsCdf (Ioi 0) (Alpha.pdf a) (Alpha.cdf a) ∧ IsPpf (Ioi 0) (Alpha.cdf a) (Alpha.ppf ninv a) ∧
    IsLog (Ioi 0) (Alpha.pdf a) (Alpha.logpdf a) := by
  have ha := Phi_pos a
  have hb : IsPpf (Iio a) (fun y => Phi y / Phi a) (fun q => ninv (q * Phi a)) := by
    have hq : ∀ q, 0 < q → q < 1 → Phi (ninv (q * Phi a)) = q * Phi a := fun q h0 h1 =>
      h _ (by positivity) (by nlinarith [Phi_lt_one a])
    refine ⟨?_, ?_, ?_, ?_⟩
    · intro q h0 h1
      refine Phi_strictMono.lt_iff_lt.1 ?_
      rw [hq q h0 h1]
      nlinarith
    · intro q h0 h1
      show Phi (ninv (q * Phi a)) / Phi a = q
      rw [hq q h0 h1, mul_div_cancel_right₀ _ ha.ne']
    · intro y hy
      exact ⟨div_pos (Phi_pos y) ha, (div_lt_one ha).2 (Phi_strictMono hy)⟩
    · intro y hy
      show ninv (Phi y / Phi a * Phi a) = y
      rw [div_mul_cancel₀ _ ha.ne']
      exact Phi_inj (h _ (Phi_pos y) (Phi_lt_one y))
  have hP : IsPpf (Ioi 0) (Alpha.cdf a) (Alpha.ppf ninv a) :=
    hb.comp (J := Ioi 0) (g := fun x => a - 1 / x) (gi := fun y => 1 / (a - y))
      (fun x hx => by
        have : 0 < 1 / x := one_div_pos.2 hx
        simp only [mem_Iio]
        linarith)
      (fun y hy => mem_Ioi.2 (one_div_pos.2 (sub_pos.2 hy)))
      (fun x _ => by simp only [sub_sub_cancel, one_div_one_div])
      (fun y _ => by simp only [one_div_one_div, sub_sub_cancel])
  have hpos : ∀ x ∈ Ioi (0 : ℝ), 0 < Alpha.pdf a x := fun x hx => by
    have hx : 0 < x := hx
    have := norm_pdf_pos (a - 1 / x)
    rw [Alpha.pdf, Norm.cdf]
    positivity
  refine ⟨isCdf_of_ppf isOpen_Ioi ordConnected_Ioi (fun x hx => ?_) (fun x hx => (hpos x hx).le) hP,
    hP, fun x hx => ⟨hpos x hx, ?_⟩⟩
  · have hx : 0 < x := hx
    have h1 : HasDerivAt (fun x : ℝ => a - 1 / x) (1 / x ^ 2) x := by
      have := (hasDerivAt_inv hx.ne').const_sub a
      simp only [one_div]
      refine this.congr_deriv ?_
      ring
    refine HasDerivAt.congr_deriv (((hasDerivAt_Phi _).comp x h1).div_const (Phi a)) ?_
    rw [Alpha.pdf, norm_pdf_eq, Norm.cdf]
    ring
  · have hx : 0 < x := hx
    have := norm_pdf_pos (a - 1 / x)
    rw [Alpha.pdf, Alpha.logpdf, norm_logpdf_eq, Norm.cdf, log_mul (by positivity) this.ne',
      log_div (by positivity) ha.ne', log_div one_ne_zero (by positivity), log_one, log_pow]
    push_cast
    ring

example : Alpha.cdf 0 1 = 2 * Phi (-1) := by
  simp only [Alpha.cdf, Norm.cdf, Phi_zero]
  norm_num
  ring

theorem fatigue_aux {y w : ℝ} (hw : 0 < w) (h : w ^ 2 = y ^ 2 + 4) : 0 < y + w ∧
    (y + w) / 2 - 1 / ((y + w) / 2) = y := by
  have h1 : 0 < y + w := by nlinarith [sq_nonneg (y + w), sq_nonneg (y - w)]
  refine ⟨h1, ?_⟩
  field_simp
  nlinarith

theorem fatigue_tr {c : ℝ} (hc : 0 < c) :
    NormTr (Ioi 0) (fun x => 1 / c * (√x - 1 / √x))
      (fun y => 0.25 * (c * y + √((c * y) ^ 2 + 4)) ^ 2)
      (fun x => 1 / c * (1 / (2 * √x) + 1 / (2 * √x) / √x ^ 2)) (FatigueLife.pdf c) := by
  have aux : ∀ y : ℝ, 0 < c * y + √((c * y) ^ 2 + 4) ∧
      (c * y + √((c * y) ^ 2 + 4)) / 2 - 1 / ((c * y + √((c * y) ^ 2 + 4)) / 2) = c * y := fun y =>
    fatigue_aux (by positivity) (sq_sqrt (by positivity))
  have hsq : ∀ y : ℝ, √(0.25 * (c * y + √((c * y) ^ 2 + 4)) ^ 2)
      = (c * y + √((c * y) ^ 2 + 4)) / 2 := fun y => by
    rw [show 0.25 * (c * y + √((c * y) ^ 2 + 4)) ^ 2 = ((c * y + √((c * y) ^ 2 + 4)) / 2) ^ 2 by
      ring, sqrt_sq (half_pos (aux y).1).le]
  refine ⟨?_, ?_, ?_, ?_, ?_, ?_⟩
  · exact fun y => by
        have := (aux y).1
        rw [mem_Ioi]
        positivity
  · exact fun x hx => by
        have hx : 0 < x := hx
        have hw : 0 < √x := sqrt_pos.2 hx
        have e1 : c * (1 / c * (√x - 1 / √x)) = √x - 1 / √x := by field_simp
        have e2 : √((√x - 1 / √x) ^ 2 + 4) = √x + 1 / √x := by
          rw [show (√x - 1 / √x) ^ 2 + 4 = (√x + 1 / √x) ^ 2 by field_simp; ring,
            sqrt_sq (by positivity)]
        simp only [e1, e2]
        rw [show 0.25 * (√x - 1 / √x + (√x + 1 / √x)) ^ 2 = √x ^ 2 by ring, sq_sqrt hx.le]
  · exact fun y => by
        simp only [hsq y]
        rw [(aux y).2]
        field_simp
  · exact fun x hx => by
        have hx : 0 < x := hx
        have hw : 0 < √x := sqrt_pos.2 hx
        have h1 := hasDerivAt_sqrt hx.ne'
        refine HasDerivAt.congr_deriv ((h1.sub (h1.inv hw.ne')).const_mul (1 / c)) ?_ |>.congr_of_eventuallyEq ?_
        · ring
        · filter_upwards with y
          simp only [Pi.sub_apply, Pi.inv_apply, one_div]
  · exact fun x hx => by positivity
  · exact fun x hx => by
        have hx : 0 < x := hx
        have hw : 0 < √x := sqrt_pos.2 hx
        have hx2 : √x ^ 2 = x := sq_sqrt hx.le
        have e1 : exp (0.5 * (log (2 * π) + 3 * log x)) = √(2 * π) * (x * √x) := by
          have h2 : (0 : ℝ) < 2 * π := by positivity
          rw [show 0.5 * (log (2 * π) + 3 * log x) = 1 / 2 * log (2 * π) + (log x + 1 / 2 * log x) by
            ring, exp_add, exp_add, exp_log hx]
          congr 2
          · rw [sqrt_eq_rpow, rpow_def_of_pos h2, mul_comm]
          · rw [sqrt_eq_rpow, rpow_def_of_pos hx, mul_comm (log x)]
        rw [FatigueLife.pdf, FatigueLife.logpdf, phi, exp_sub, exp_sub, exp_sub, e1,
          exp_log (by positivity), exp_log (by positivity)]
        have e2 : -(1 / c * (√x - 1 / √x)) ^ 2 / 2 = -((x - 1) ^ 2 / (2 * x * c ^ 2)) := by
          field_simp
          rw [hx2]
          ring
        rw [e2, exp_neg]
        rw [show 1 / (2 * √x) + 1 / (2 * √x) / √x ^ 2 = (x + 1) / (2 * (x * √x)) by
          rw [hx2]; field_simp]
        field_simp

/-- The fatigue life distribution. -/
theorem C263_fatiguelife {ninv : ℝ → ℝ} (h : IsNormInv ninv) (c : ℝ) (hc : 0 < c) :
    IsCdf (Ioi 0) (FatigueLife.pdf c) (FatigueLife.cdf c) ∧
    IsPpf (Ioi 0) (FatigueLife.cdf c) (FatigueLife.ppf ninv c) ∧
    IsLog (Ioi 0) (FatigueLife.pdf c) (FatigueLife.logpdf c) := by
  have hm := (fatigue_tr hc).isCdf h isOpen_Ioi ordConnected_Ioi
  exact ⟨hm.1, hm.2, fun x _ => ⟨exp_pos _, (log_exp _).symm⟩⟩

example : (0 : ℝ) < 2 ∧ FatigueLife.cdf 2 1 = 1 / 2 := by
  refine ⟨two_pos, ?_⟩
  simp [FatigueLife.cdf, Norm.cdf, Phi_zero]

/-- The Johnson SB distribution. -/
theorem C263_johnsonsb {ninv : ℝ → ℝ} (h : IsNormInv ninv) (a b : ℝ) (hb : 0 < b) :
    IsCdf (Ioo 0 1) (JohnsonSB.pdf a b) (JohnsonSB.cdf a b) ∧
    IsPpf (Ioo 0 1) (JohnsonSB.cdf a b) (JohnsonSB.ppf ninv a b) :=
  NormTr.isCdf h isOpen_Ioo ordConnected_Ioo (g := fun x => a + b * log (x / (1 - x)))
    (gi := fun y => 1 / (1 + exp (-1 / b * (y - a)))) (g' := fun x => b * (1 / (x * (1 - x))))
    (pdf := JohnsonSB.pdf a b) (by
    refine ⟨?_, ?_, ?_, ?_, ?_, ?_⟩
    · exact fun y => by
          have := exp_pos (-1 / b * (y - a))
          exact ⟨by positivity, by rw [div_lt_one (by positivity)]; linarith⟩
    · exact fun x hx => by
          have h0 := hx.1
          have h1 : 0 < 1 - x := sub_pos.2 hx.2
          have : -1 / b * (a + b * log (x / (1 - x)) - a) = -log (x / (1 - x)) := by field_simp; ring
          simp only [this]
          rw [exp_neg, exp_log (by positivity)]
          field_simp
          ring
    · exact fun y => by
          have := exp_pos (-1 / b * (y - a))
          have e : 1 / (1 + exp (-1 / b * (y - a))) / (1 - 1 / (1 + exp (-1 / b * (y - a))))
              = (exp (-1 / b * (y - a)))⁻¹ := by
            generalize exp (-1 / b * (y - a)) = w at *
            have : 1 - 1 / (1 + w) = w / (1 + w) := by field_simp; ring
            rw [this]
            field_simp
          simp only [e]
          rw [log_inv, log_exp]
          field_simp
          ring
    · exact fun x hx => by
          have h0 := hx.1
          have h1 : 0 < 1 - x := sub_pos.2 hx.2
          have h2 : HasDerivAt (fun x : ℝ => x / (1 - x)) (1 / (1 - x) ^ 2) x := by
            refine HasDerivAt.congr_deriv
              ((hasDerivAt_id x).div ((hasDerivAt_id x).const_sub 1) h1.ne') ?_
            simp only [id]
            field_simp
            ring
          refine HasDerivAt.congr_deriv (((h2.log (by positivity)).const_mul b).const_add a) ?_
          field_simp
    · exact fun x hx => by
          have h0 := hx.1
          have h1 : 0 < 1 - x := sub_pos.2 hx.2
          positivity
    · exact fun x hx => by
          rw [JohnsonSB.pdf, norm_pdf_eq]
          ring)

example : (0 : ℝ) < 3 ∧ JohnsonSB.cdf 0 3 (1 / 2) = 1 / 2 := by
  refine ⟨by norm_num, ?_⟩
  rw [JohnsonSB.cdf, Norm.cdf, show (1 / 2 : ℝ) / (1 - 1 / 2) = 1 by norm_num, log_one,
    mul_zero, add_zero, Phi_zero]

/-- The Johnson SU distribution. -/
theorem C263_johnsonsu {ninv : ℝ → ℝ} (h : IsNormInv ninv) (a b : ℝ) (hb : 0 < b) :
    IsCdf univ (JohnsonSU.pdf a b) (JohnsonSU.cdf a b) ∧
    IsPpf univ (JohnsonSU.cdf a b) (JohnsonSU.ppf ninv a b) := by
  have ha : ∀ x : ℝ, log (x + √(x * x + 1)) = arsinh x := fun x => by
    rw [arsinh, show x * x + 1 = 1 + x ^ 2 by ring]
  have e1 : JohnsonSU.cdf a b = fun x => Phi (a + b * arsinh x) := by
    funext x
    rw [JohnsonSU.cdf, ha, Norm.cdf]
  rw [e1]
  exact NormTr.isCdf h isOpen_univ ordConnected_univ (g := fun x => a + b * arsinh x)
    (gi := fun y => sinh ((y - a) / b)) (g' := fun x => b * (√(1 + x ^ 2))⁻¹)
    (pdf := JohnsonSU.pdf a b) (by
    refine ⟨?_, ?_, ?_, ?_, ?_, ?_⟩
    · exact fun _ => mem_univ _
    · exact fun x _ => by
          show sinh ((a + b * arsinh x - a) / b) = x
          rw [add_sub_cancel_left, mul_div_cancel_left₀ _ hb.ne', sinh_arsinh]
    · exact fun y => by
          show a + b * arsinh (sinh ((y - a) / b)) = y
          rw [arsinh_sinh, mul_div_cancel₀ _ hb.ne']
          ring
    · exact fun x _ => ((hasDerivAt_arsinh x).const_mul b).const_add a
    · exact fun x _ => by positivity
    · exact fun x _ => by
          simp only [JohnsonSU.pdf]
          rw [ha, norm_pdf_eq, show x * x + 1 = 1 + x ^ 2 by ring]
          ring)

example : (0 : ℝ) < 3 ∧ JohnsonSU.cdf 0 3 0 = 1 / 2 := by
  refine ⟨by norm_num, ?_⟩
  simp [JohnsonSU.cdf, Norm.cdf, Phi_zero]

end Wafo.Dist
