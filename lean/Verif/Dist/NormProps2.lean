import Verif.Dist.NormProps

/-!
# C263, continued: distributions of powers and of reciprocals of normal variables
-/

namespace Wafo.Dist

open MeasureTheory Set Filter Topology Real Wafo.Gauss

set_option linter.unusedSectionVars false

theorem half_rev {ninv : ℝ → ℝ} (h : IsNormInv ninv) :
    IsPpf (Ioi 0) (fun x => 2 * Phi (-x)) (fun q => -ninv (q / 2)) :=
  (half_isPpf h).rev.congr (fun x _ => by rw [Phi_neg]; ring) (fun q h0 h1 => by
    rw [← h.neg (by linarith) (by linarith)]
    congr 1
    ring)

theorem levy_deriv {x : ℝ} (hx : 0 < x) :
    HasDerivAt (fun x => 1 / √x) (-(1 / (2 * √x * x))) x := by
  have hw : 0 < √x := sqrt_pos.2 hx
  have h1 := (hasDerivAt_sqrt hx.ne').inv hw.ne'
  simp only [one_div]
  refine HasDerivAt.congr_deriv h1 ?_
  rw [sq_sqrt hx.le]
  field_simp

theorem levy_phi {x : ℝ} (hx : 0 < x) :
    2 * phi (1 / √x) * (1 / (2 * √x * x)) = 1 / √(2 * π * x) / x * exp (-1 / (2 * x)) := by
  have hw : 0 < √x := sqrt_pos.2 hx
  rw [phi, sqrt_mul (by positivity) x, div_pow, sq_sqrt hx.le,
    show -(1 ^ 2 / x) / 2 = -1 / (2 * x) by field_simp]
  field_simp

theorem levy_cdf_eq (x : ℝ) : Levy.cdf x = 2 * Phi (-(1 / √x)) := by
  rw [Levy.cdf, erfc_eq, ← sqrt_mul zero_le_two, show 2 * (0.5 / x) = 1 / x by ring, sqrt_div
    zero_le_one, sqrt_one]

/-- The Lévy distribution. -/
theorem C263_levy {ninv : ℝ → ℝ} (h : IsNormInv ninv) :
    IsCdf (Ioi 0) Levy.pdf Levy.cdf ∧ IsPpf (Ioi 0) Levy.cdf (Levy.ppf ninv) := by
  have hP : IsPpf (Ioi 0) Levy.cdf (Levy.ppf ninv) := by
    refine ((half_rev h).comp (J := Ioi 0) (g := fun x => 1 / √x) (gi := fun y => 1 / (y * y))
      (fun x hx => ?_) (fun y hy => ?_) (fun x hx => ?_) (fun y hy => ?_)).congr
      (fun x _ => levy_cdf_eq x) (fun q _ _ => rfl)
    · have := sqrt_pos.2 hx
      exact mem_Ioi.2 (by positivity)
    · have hy : 0 < y := hy
      exact mem_Ioi.2 (by positivity)
    · have hx : 0 < x := hx
      show 1 / (1 / √x * (1 / √x)) = x
      rw [div_mul_div_comm, mul_self_sqrt hx.le, one_mul, one_div_one_div]
    · have hy : 0 < y := hy
      show 1 / √(1 / (y * y)) = y
      rw [sqrt_div zero_le_one, sqrt_mul_self hy.le, sqrt_one, one_div_one_div]
  refine ⟨isCdf_of_ppf isOpen_Ioi ordConnected_Ioi (fun x hx => ?_) (fun x hx => ?_) hP, hP⟩
  · have hx : 0 < x := hx
    rw [show Levy.cdf = fun x => 2 * Phi (-(1 / √x)) from funext levy_cdf_eq]
    refine HasDerivAt.congr_deriv
      (((hasDerivAt_Phi _).comp x (levy_deriv hx).neg).const_mul 2) ?_
    rw [Levy.pdf, ← levy_phi hx]
    simp only [Pi.neg_apply, phi_neg]
    ring
  · have hx : 0 < x := hx
    rw [Levy.pdf]
    positivity

example : Levy.cdf 1 = 2 * Phi (-1) := by
  rw [levy_cdf_eq]
  norm_num

/-- The left-skewed Lévy distribution. -/
theorem C263_levy_l {ninv : ℝ → ℝ} (h : IsNormInv ninv) :
    IsCdf (Iio 0) LevyL.pdf LevyL.cdf ∧ IsPpf (Iio 0) LevyL.cdf (LevyL.ppf ninv) := by
  have hP : IsPpf (Iio 0) LevyL.cdf (LevyL.ppf ninv) := by
    refine ((half_isPpf h).comp (J := Iio 0) (g := fun x => 1 / √(|x|))
      (gi := fun y => -1 / (y * y))
      (fun x hx => ?_) (fun y hy => ?_) (fun x hx => ?_) (fun y hy => ?_)).congr
      (fun x _ => by rw [LevyL.cdf, Norm.cdf, mul_comm]) (fun q _ _ => by
        simp only [LevyL.ppf, Norm.ppf, add_comm])
    · have := sqrt_pos.2 (abs_pos_of_neg hx)
      exact mem_Ioi.2 (by positivity)
    · have hy : 0 < y := hy
      exact mem_Iio.2 (div_neg_of_neg_of_pos (by norm_num) (by positivity))
    · have hx : x < 0 := hx
      show -1 / (1 / √(|x|) * (1 / √(|x|))) = x
      rw [div_mul_div_comm, mul_self_sqrt (abs_nonneg x), one_mul, div_div_eq_mul_div, abs_of_neg hx]
      ring
    · have hy : 0 < y := hy
      show 1 / √(|(-1) / (y * y)|) = y
      rw [abs_div, abs_neg, abs_one, abs_of_pos (mul_pos hy hy), sqrt_div zero_le_one, sqrt_mul_self hy.le, sqrt_one, one_div_one_div]
  refine ⟨isCdf_of_ppf isOpen_Iio ordConnected_Iio (fun x hx => ?_) (fun x hx => ?_) hP, hP⟩
  · have hx : x < 0 := hx
    have hy : 0 < -x := neg_pos.2 hx
    have hev : ∀ᶠ y in 𝓝 x, LevyL.cdf y = 2 * Phi (1 / √(-y)) - 1 := by
      filter_upwards [gt_mem_nhds hx] with y hy
      rw [LevyL.cdf, Norm.cdf, abs_of_neg hy]
    refine HasDerivAt.congr_of_eventuallyEq ?_ hev
    have h1 := (levy_deriv hy).comp x (hasDerivAt_neg x)
    refine HasDerivAt.congr_deriv
      ((((hasDerivAt_Phi _).comp x h1).const_mul 2).sub_const 1) ?_
    rw [LevyL.pdf, abs_of_neg hx, ← levy_phi hy]
    simp only [Function.comp_apply]
    ring
  · have : 0 < |x| := abs_pos_of_neg hx
    rw [LevyL.pdf]
    positivity

example : LevyL.cdf (-4) = 2 * Phi (1 / 2) - 1 := by
  rw [LevyL.cdf, Norm.cdf, show |(-4 : ℝ)| = 2 ^ 2 by norm_num, sqrt_sq zero_le_two]

theorem moyal_cdf_eq (x : ℝ) : Moyal.cdf x = 2 * Phi (-exp (-0.5 * x)) := by
  have : √2 ≠ 0 := by positivity
  rw [Moyal.cdf, erfc_eq, mul_div_cancel₀ _ this]

/-- The Moyal distribution. -/
theorem C263_moyal {einv : ℝ → ℝ} (he : IsErfcInv einv) :
    IsCdf univ Moyal.pdf Moyal.cdf ∧ IsPpf univ Moyal.cdf (Moyal.ppf einv) ∧
    IsSf univ Moyal.cdf Moyal.sf := by
  obtain ⟨ninv, h⟩ := exists_normInv
  have hP : IsPpf univ Moyal.cdf (Moyal.ppf einv) := by
    refine ((half_rev h).comp (J := univ) (g := fun x => exp (-0.5 * x))
      (gi := fun y => -log (y ^ 2))
      (fun x hx => exp_pos _) (fun y hy => mem_univ _) (fun x hx => ?_) (fun y hy => ?_)).congr
      (fun x _ => moyal_cdf_eq x) (fun q h0 h1 => ?_)
    · show -log (exp (-0.5 * x) ^ 2) = x
      rw [log_pow, log_exp]
      push_cast
      ring
    · have hy : 0 < y := hy
      show exp (-0.5 * -log (y ^ 2)) = y
      rw [log_pow, show -0.5 * -((2 : ℕ) * log y) = log y by push_cast; ring, exp_log hy]
    · show -log (2 * einv q ^ 2) = -log ((-ninv (q / 2)) ^ 2)
      rw [he.eq h h0 (by linarith), div_pow, sq_sqrt zero_le_two, mul_div_cancel₀ _ two_ne_zero]
  refine ⟨isCdf_of_ppf isOpen_univ ordConnected_univ (fun x hx => ?_) (fun x hx => ?_) hP, hP,
    fun x _ => rfl⟩
  · rw [show Moyal.cdf = fun x => 2 * Phi (-exp (-0.5 * x)) from funext moyal_cdf_eq]
    have h1 := (((hasDerivAt_id x).const_mul (-0.5)).exp).neg
    refine HasDerivAt.congr_deriv (((hasDerivAt_Phi _).comp x h1).const_mul 2) ?_
    have e : exp (-0.5 * x) ^ 2 = exp (-x) := by
      rw [← exp_nat_mul]
      congr 1
      push_cast
      ring
    rw [Moyal.pdf, phi]
    simp only [id, Pi.neg_apply, neg_sq]
    rw [e, show -0.5 * (x + exp (-x)) = -0.5 * x + -exp (-x) / 2 by ring, exp_add]
    ring
  · rw [Moyal.pdf]
    positivity

example : Moyal.cdf 0 = 2 * Phi (-1) := by
  rw [moyal_cdf_eq]
  norm_num

theorem IsNormInv.isPpf_neg {ninv : ℝ → ℝ} (h : IsNormInv ninv) :
    IsPpf univ (fun x => Phi (-x)) (fun q => -ninv q) :=
  h.isPpf.comp (J := univ) (g := fun x => -x) (gi := fun x => -x) (fun _ _ => mem_univ _)
    (fun _ _ => mem_univ _) (fun x _ => neg_neg x) (fun x _ => neg_neg x)

/-- The power normal distribution. -/
theorem C263_powernorm {ninv : ℝ → ℝ} (h : IsNormInv ninv) (c : ℝ) (hc : 0 < c) :
    IsCdf univ (PowerNorm.pdf c) (PowerNorm.cdf c) ∧
    IsPpf univ (PowerNorm.cdf c) (PowerNorm.ppf ninv c) ∧
    IsLog univ (PowerNorm.pdf c) (PowerNorm.logpdf c) := by
  have hP : IsPpf univ (PowerNorm.cdf c) (PowerNorm.ppf ninv c) :=
    (h.isPpf_neg.cdf_pow hc).rev.congr (fun x _ => by rw [PowerNorm.cdf, Norm.cdf, mul_one])
      (fun q _ _ => rfl)
  have hpos : ∀ x, 0 < PowerNorm.pdf c x := fun x => by
    have h1 := norm_pdf_pos x
    have h2 := rpow_pos_of_pos (Phi_pos (-x)) (c - 1)
    rw [PowerNorm.pdf, Norm.cdf]
    positivity
  refine ⟨isCdf_of_ppf isOpen_univ ordConnected_univ (fun x hx => ?_) (fun x hx => (hpos x).le) hP,
    hP, fun x _ => ⟨hpos x, ?_⟩⟩
  · have h1 := (hasDerivAt_Phi (-x)).comp x (hasDerivAt_neg x)
    have h2 := (h1.rpow_const (p := c * 1) (Or.inl (Phi_pos (-x)).ne')).const_sub 1
    refine HasDerivAt.congr_deriv h2 ?_
    rw [PowerNorm.pdf, norm_pdf_eq, Norm.cdf, phi_neg, mul_one]
    simp only [Function.comp_apply]
    ring
  · have h1 := norm_pdf_pos x
    have h2 := rpow_pos_of_pos (Phi_pos (-x)) (c - 1)
    rw [PowerNorm.pdf, PowerNorm.logpdf, Norm.cdf, log_mul (by positivity) h2.ne',
      log_mul hc.ne' h1.ne', log_rpow (Phi_pos _), norm_logpdf_eq, Norm.logcdf]

example : (0 : ℝ) < 2 ∧ PowerNorm.cdf 2 0 = 3 / 4 := by
  refine ⟨two_pos, ?_⟩
  rw [PowerNorm.cdf, Norm.cdf, neg_zero, Phi_zero, mul_one]
  norm_num

/-- The power lognormal distribution. -/
theorem C263_powerlognorm {ninv : ℝ → ℝ} (h : IsNormInv ninv) (c s : ℝ) (hc : 0 < c) (hs : 0 < s) :
    IsCdf (Ioi 0) (PowerLogNorm.pdf c s) (PowerLogNorm.cdf c s) ∧
    IsPpf (Ioi 0) (PowerLogNorm.cdf c s) (PowerLogNorm.ppf ninv c s) := by
  have hb := (C263_powernorm h c hc).2.1
  have hP : IsPpf (Ioi 0) (PowerLogNorm.cdf c s) (PowerLogNorm.ppf ninv c s) := by
    refine (hb.comp (J := Ioi 0) (g := fun x => log x / s) (gi := fun y => exp (s * y))
      (fun _ _ => mem_univ _) (fun y _ => exp_pos _) (fun x hx => ?_) (fun y _ => ?_)).congr
      (fun x _ => by rw [PowerLogNorm.cdf, PowerNorm.cdf, neg_div]) (fun q _ _ => by
        simp only [PowerLogNorm.ppf, PowerNorm.ppf]
        congr 1
        ring)
    · show exp (s * (log x / s)) = x
      rw [mul_div_cancel₀ _ hs.ne', exp_log hx]
    · show log (exp (s * y)) / s = y
      rw [log_exp, mul_div_cancel_left₀ _ hs.ne']
  refine ⟨isCdf_of_ppf isOpen_Ioi ordConnected_Ioi (fun x hx => ?_) (fun x hx => ?_) hP, hP⟩
  · have hx : 0 < x := hx
    have h0 := ((hasDerivAt_log hx.ne').neg).div_const s
    have h1 := (hasDerivAt_Phi (-log x / s)).comp x h0
    have h2 := (h1.rpow_const (p := c * 1) (Or.inl (Phi_pos _).ne')).const_sub 1
    refine HasDerivAt.congr_deriv h2 ?_
    rw [PowerLogNorm.pdf, norm_pdf_eq, Norm.cdf, ← phi_neg (log x / s), neg_div]
    simp only [Function.comp_apply, mul_one, neg_div, Pi.neg_apply]
    field_simp
  · have hx : 0 < x := hx
    have h1 := norm_pdf_pos (log x / s)
    have h2 := rpow_pos_of_pos (Phi_pos (-log x / s)) (c * 1 - 1)
    rw [PowerLogNorm.pdf, Norm.cdf]
    positivity

example : (0 : ℝ) < 2 ∧ PowerLogNorm.cdf 2 3 1 = 3 / 4 := by
  refine ⟨two_pos, ?_⟩
  rw [PowerLogNorm.cdf, Norm.cdf, log_one, neg_zero, zero_div, Phi_zero, mul_one]
  norm_num

end Wafo.Dist
