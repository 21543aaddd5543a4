import Verif.Dist.ParetoProps
import Mathlib.Analysis.SpecialFunctions.Trigonometric.Deriv
import Mathlib.Analysis.SpecialFunctions.Trigonometric.ArctanDeriv
import Mathlib.Analysis.SpecialFunctions.Trigonometric.DerivHyp

/-!
# C254: the functions of the logistic and Laplace distributions fit together
-/

namespace Wafo.Dist

open MeasureTheory Set Filter Topology Real

set_option linter.unusedSectionVars false

/-- The logistic distribution. -/
theorem C254_logistic :
    IsCdf univ Logistic.pdf Logistic.cdf ∧ IsPpf univ Logistic.cdf Logistic.ppf ∧
    IsSf univ Logistic.cdf Logistic.sf ∧ IsIsf Logistic.ppf Logistic.isf ∧
    IsLog univ Logistic.pdf Logistic.logpdf := by
  have hp : IsPpf univ Logistic.cdf Logistic.ppf := by
    refine ⟨fun _ _ _ => mem_univ _, ?_, ?_, ?_⟩
    · intro q h0 h1
      simp only [Logistic.cdf, Logistic.ppf, expit, logit]
      have h2 : 0 < 1 - q := by linarith
      rw [exp_neg, exp_log (div_pos h0 h2)]
      field_simp
      ring
    · intro x _
      have := exp_pos (-x)
      simp only [Logistic.cdf, expit]
      exact ⟨by positivity, by rw [div_lt_one (by linarith)]; linarith⟩
    · intro x _
      have := exp_pos x
      simp only [Logistic.cdf, Logistic.ppf, expit, logit]
      rw [show 1 / (1 + exp (-x)) / (1 - 1 / (1 + exp (-x))) = exp x by
        rw [exp_neg]; field_simp; ring, log_exp]
  refine ⟨isCdf_of_ppf isOpen_univ ordConnected_univ ?_ (fun x _ => (exp_pos _).le) hp, hp, ?_, ?_,
    fun x _ => ⟨exp_pos _, (log_exp _).symm⟩⟩
  · intro x _
    have h1 : (0 : ℝ) < 1 + exp (-x) := by positivity
    have hf : Logistic.cdf = fun y => (1 + exp (-y))⁻¹ := by
      funext y
      simp [Logistic.cdf, expit]
    rw [hf]
    refine HasDerivAt.congr_deriv (((hasDerivAt_id x).neg.exp.const_add 1).inv h1.ne') ?_
    simp only [Logistic.pdf, Logistic.logpdf, log1p, exp_sub, Pi.neg_apply, id_eq]
    rw [show 2 * log (1 + exp (-x)) = log (1 + exp (-x)) + log (1 + exp (-x)) by ring, exp_add,
      exp_log h1]
    field_simp
  · intro x _
    simp only [Logistic.cdf, Logistic.sf, expit, neg_neg]
    rw [exp_neg]
    have := exp_pos x
    field_simp
    ring
  · intro q h0 h1
    simp only [Logistic.isf, Logistic.ppf, logit]
    rw [← log_inv, inv_div, sub_sub_cancel]

example : Logistic.cdf 0 = 1 / 2 := by
  simp only [Logistic.cdf, expit]
  norm_num

/-- The generalised logistic distribution. -/
theorem C254_genlogistic (c : ℝ) (hc : 0 < c) :
    IsCdf univ (GenLogistic.pdf c) (GenLogistic.cdf c) ∧
    IsPpf univ (GenLogistic.cdf c) (GenLogistic.ppf c) ∧
    IsLog univ (GenLogistic.pdf c) (GenLogistic.logpdf c) := by
  have hp : IsPpf univ (GenLogistic.cdf c) (GenLogistic.ppf c) := by
    have h := (burr_ppf 1 c one_pos hc).comp (J := univ) (g := exp) (gi := log)
      (fun x _ => exp_pos x) (fun _ _ => mem_univ _) (fun x _ => log_exp x)
      (fun y hy => exp_log hy)
    refine h.congr ?_ ?_
    · intro x _
      simp only [GenLogistic.cdf, Burr.cdf]
      rw [rpow_neg_one, exp_neg]
    · intro q h0 h1
      have h2 : 1 < q ^ (-1 / c) :=
        one_lt_rpow_of_pos_of_lt_one_of_neg h0 h1 (div_neg_of_neg_of_pos (by norm_num) hc)
      simp only [GenLogistic.ppf, Burr.ppf]
      rw [log_rpow (by linarith)]
      ring
  refine ⟨isCdf_of_ppf isOpen_univ ordConnected_univ ?_ (fun x _ => (exp_pos _).le) hp, hp,
    fun x _ => ⟨exp_pos _, (log_exp _).symm⟩⟩
  intro x _
  have h1 : (0 : ℝ) < 1 + exp (-x) := by positivity
  refine HasDerivAt.congr_deriv
    (((hasDerivAt_id x).neg.exp.const_add 1).rpow_const (p := -c) (Or.inl h1.ne')) ?_
  simp only [GenLogistic.pdf, GenLogistic.logpdf, log1p, exp_sub, Pi.neg_apply, id_eq, exp_log hc]
  rw [rpow_def_of_pos h1, show log (1 + exp (-x)) * (-c - 1) = -((c + 1) * log (1 + exp (-x))) by
    ring, exp_neg, exp_neg]
  field_simp

example : (0 : ℝ) < 1 ∧ GenLogistic.cdf 1 0 = 1 / 2 := by
  refine ⟨by norm_num, ?_⟩
  simp only [GenLogistic.cdf, rpow_neg_one]
  norm_num

/-- The half logistic distribution. -/
theorem C254_halflogistic :
    IsCdf (Ioi 0) HalfLogistic.pdf HalfLogistic.cdf ∧
    IsPpf (Ioi 0) HalfLogistic.cdf HalfLogistic.ppf ∧
    IsLog (Ioi 0) HalfLogistic.pdf HalfLogistic.logpdf := by
  have hp : IsPpf (Ioi 0) HalfLogistic.cdf HalfLogistic.ppf := by
    refine ⟨?_, ?_, ?_, ?_⟩
    · intro q h0 h1
      have := artanh_pos ⟨h0, h1⟩
      simp only [HalfLogistic.ppf, mem_Ioi]
      linarith
    · intro q h0 h1
      simp only [HalfLogistic.ppf, HalfLogistic.cdf]
      rw [mul_div_cancel_left₀ _ two_ne_zero, tanh_artanh ⟨by linarith, h1⟩]
    · intro x hx
      have hx0 := mem_Ioi.1 hx
      simp only [HalfLogistic.cdf]
      refine ⟨?_, tanh_lt_one _⟩
      rw [tanh_eq_sinh_div_cosh]
      exact div_pos (sinh_pos_iff.2 (by linarith)) (cosh_pos _)
    · intro x _
      simp only [HalfLogistic.ppf, HalfLogistic.cdf, artanh_tanh]
      ring
  refine ⟨isCdf_of_ppf isOpen_Ioi ordConnected_Ioi ?_ (fun x _ => (exp_pos _).le) hp, hp,
    fun x _ => ⟨exp_pos _, (log_exp _).symm⟩⟩
  intro x _
  have hf : HalfLogistic.cdf = fun y => sinh (y / 2) / cosh (y / 2) := by
    funext y
    simp [HalfLogistic.cdf, tanh_eq_sinh_div_cosh]
  rw [hf]
  have h2 := (hasDerivAt_id x).div_const 2
  refine HasDerivAt.congr_deriv (h2.sinh.div h2.cosh (cosh_pos _).ne') ?_
  have h1 : (0 : ℝ) < 1 + exp (-x) := by positivity
  simp only [HalfLogistic.pdf, HalfLogistic.logpdf, log1p, exp_sub, id_eq,
    exp_log (by norm_num : (0 : ℝ) < 2)]
  rw [show 2 * log (1 + exp (-x)) = log (1 + exp (-x)) + log (1 + exp (-x)) by ring, exp_add,
    exp_log h1, cosh_eq, sinh_eq, exp_neg x, exp_neg (x / 2),
    show exp x = exp (x / 2) * exp (x / 2) by rw [← exp_add]; ring_nf]
  have := exp_pos (x / 2)
  field_simp
  ring

example : HalfLogistic.cdf (2 * artanh (1 / 3)) = 1 / 3 := by
  simp only [HalfLogistic.cdf]
  rw [mul_div_cancel_left₀ _ two_ne_zero, tanh_artanh ⟨by norm_num, by norm_num⟩]

/-- The generalised half logistic distribution. -/
theorem C254_genhalflogistic (c : ℝ) (hc : 0 < c) :
    IsCdf (Ioo 0 (1 / c)) (GenHalfLogistic.pdf c) (GenHalfLogistic.cdf c) ∧
    IsPpf (Ioo 0 (1 / c)) (GenHalfLogistic.cdf c) (GenHalfLogistic.ppf c) := by
  have hbase : ∀ x ∈ Ioo 0 (1 / c), 0 < 1 - c * x ∧ 1 - c * x < 1 := by
    intro x hx
    have h1 := hx.2
    rw [lt_div_iff₀ hc] at h1
    have h2 := mul_pos hc hx.1
    constructor <;> linarith
  have hp : IsPpf (Ioo 0 (1 / c)) (GenHalfLogistic.cdf c) (GenHalfLogistic.ppf c) := by
    refine ⟨?_, ?_, ?_, ?_⟩
    · intro q h0 h1
      have h2 : 0 < (1 - q) / (1 + q) := div_pos (by linarith) (by linarith)
      have h3 : (1 - q) / (1 + q) < 1 := by rw [div_lt_one (by linarith)]; linarith
      have h4 := rpow_pos_of_pos h2 c
      have h5 := rpow_lt_one h2.le h3 hc
      have h6 : 0 < 1 / c := by positivity
      simp only [GenHalfLogistic.ppf]
      constructor
      · exact mul_pos h6 (by linarith)
      · nlinarith
    · intro q h0 h1
      have h2 : 0 < (1 - q) / (1 + q) := div_pos (by linarith) (by linarith)
      simp only [GenHalfLogistic.ppf, GenHalfLogistic.cdf]
      rw [show 1 - c * (1 / c * (1 - ((1 - q) / (1 + q)) ^ c)) = ((1 - q) / (1 + q)) ^ c by
        field_simp; ring, rpow_inv_cancel h2 hc.ne']
      field_simp
      ring
    · intro x hx
      obtain ⟨h1, h2⟩ := hbase x hx
      have h3 := rpow_pos_of_pos h1 (1 / c)
      have h4 := rpow_lt_one h1.le h2 (by positivity : 0 < 1 / c)
      simp only [GenHalfLogistic.cdf]
      exact ⟨div_pos (by linarith) (by linarith), by rw [div_lt_one (by linarith)]; linarith⟩
    · intro x hx
      obtain ⟨h1, h2⟩ := hbase x hx
      have h3 := rpow_pos_of_pos h1 (1 / c)
      simp only [GenHalfLogistic.ppf, GenHalfLogistic.cdf]
      rw [show (1 - (1 - (1 - c * x) ^ (1 / c)) / (1 + (1 - c * x) ^ (1 / c))) /
          (1 + (1 - (1 - c * x) ^ (1 / c)) / (1 + (1 - c * x) ^ (1 / c))) = (1 - c * x) ^ (1 / c) by
        generalize (1 - c * x) ^ (1 / c) = t at h3 ⊢
        have h5 : 1 + t ≠ 0 := by positivity
        rw [show 1 - (1 - t) / (1 + t) = 2 * t / (1 + t) by field_simp; ring,
          show 1 + (1 - t) / (1 + t) = 2 / (1 + t) by field_simp; ring]
        field_simp, rpow_inv_cancel' h1 hc.ne']
      field_simp
      ring
  refine ⟨isCdf_of_ppf isOpen_Ioo ordConnected_Ioo ?_ ?_ hp, hp⟩
  · intro x hx
    obtain ⟨h1, h2⟩ := hbase x hx
    have h3 := rpow_pos_of_pos h1 (1 / c)
    have hd := (((hasDerivAt_id x).const_mul c).const_sub 1).rpow_const (p := 1 / c)
      (Or.inl h1.ne')
    refine HasDerivAt.congr_deriv ((hd.const_sub 1).div (hd.const_add 1)
      (add_pos one_pos h3).ne') ?_
    have h4 : (1 - c * x) ^ (1 / c - 1) * (1 - c * x) = (1 - c * x) ^ (1 / c) := by
      rw [rpow_sub h1, rpow_one, div_mul_cancel₀ _ h1.ne']
    simp only [GenHalfLogistic.pdf, id_eq, h4]
    field_simp
    ring
  · intro x hx
    obtain ⟨h1, h2⟩ := hbase x hx
    have h3 := rpow_pos_of_pos h1 (1 / c - 1)
    simp only [GenHalfLogistic.pdf]
    positivity

example : (0 : ℝ) < 1 ∧ GenHalfLogistic.cdf 1 (1 / 2) = 1 / 3 := by
  refine ⟨by norm_num, ?_⟩
  simp only [GenHalfLogistic.cdf]
  norm_num

/-- The hyperbolic secant distribution. -/
theorem C254_hypsecant :
    IsCdf univ HypSecant.pdf HypSecant.cdf ∧ IsPpf univ HypSecant.cdf HypSecant.ppf := by
  have hpi := pi_pos
  have hp : IsPpf univ HypSecant.cdf HypSecant.ppf := by
    refine ⟨fun _ _ _ => mem_univ _, ?_, ?_, ?_⟩
    · intro q h0 h1
      have h2 : 0 < π * q / 2 := by positivity
      have h3 : π * q / 2 < π / 2 := by nlinarith
      simp only [HypSecant.cdf, HypSecant.ppf]
      rw [exp_log (tan_pos_of_pos_of_lt_pi_div_two h2 h3), arctan_tan (by linarith) h3]
      field_simp
    · intro x _
      have h1 := arctan_pos.2 (exp_pos x)
      have h2 := arctan_lt_pi_div_two (exp x)
      simp only [HypSecant.cdf]
      refine ⟨by positivity, ?_⟩
      calc 2 / π * arctan (exp x) < 2 / π * (π / 2) := by gcongr
        _ = 1 := by field_simp
    · intro x _
      simp only [HypSecant.cdf, HypSecant.ppf]
      rw [show π * (2 / π * arctan (exp x)) / 2 = arctan (exp x) by field_simp, tan_arctan, log_exp]
  refine ⟨isCdf_of_ppf isOpen_univ ordConnected_univ ?_ ?_ hp, hp⟩
  · intro x _
    refine HasDerivAt.congr_deriv ((hasDerivAt_exp x).arctan.const_mul (2 / π)) ?_
    simp only [HypSecant.pdf]
    rw [cosh_eq, exp_neg]
    have := exp_pos x
    field_simp
    ring
  · intro x _
    have := cosh_pos x
    unfold HypSecant.pdf
    positivity

example : HypSecant.cdf 0 = 1 / 2 := by
  simp only [HypSecant.cdf, exp_zero, arctan_one]
  have := pi_pos
  field_simp
  norm_num

/-- The Laplace distribution. -/
theorem C254_laplace :
    IsCdf univ Laplace.pdf Laplace.cdf ∧ IsPpf univ Laplace.cdf Laplace.ppf := by
  have hB : ∀ x, x ≤ 0 → Laplace.cdf x = 0.5 * exp x := by
    intro x hx
    rw [Laplace.cdf, if_neg (not_lt.2 hx)]
  have hA : ∀ x, 0 ≤ x → Laplace.cdf x = 1 - 0.5 * exp (-x) := by
    intro x hx
    rcases hx.lt_or_eq with h | h
    · rw [Laplace.cdf, if_pos h]
    · rw [← h, hB 0 le_rfl]
      norm_num
  have hp : IsPpf univ Laplace.cdf Laplace.ppf := by
    refine ⟨fun _ _ _ => mem_univ _, ?_, ?_, ?_⟩
    · intro q h0 h1
      unfold Laplace.ppf
      split_ifs with h
      · norm_num at h
        have h2 : log (2 * (1 - q)) < 0 := log_neg (by linarith) (by linarith)
        rw [hA _ (by linarith), neg_neg, exp_log (by linarith)]
        ring
      · norm_num at h
        have h2 : log (2 * q) ≤ 0 := log_nonpos (by linarith) (by linarith)
        rw [hB _ h2, exp_log (by linarith)]
        ring
    · intro x _
      rcases le_or_gt x 0 with h | h
      · rw [hB x h]
        have h1 := exp_pos x
        have h2 := exp_le_one_iff.2 h
        constructor <;> norm_num <;> linarith
      · rw [hA x h.le]
        have h1 := exp_pos (-x)
        have h2 := exp_le_one_iff.2 (by linarith : -x ≤ 0)
        norm_num
        constructor <;> linarith
    · intro x _
      rcases le_or_gt x 0 with h | h
      · have h2 := exp_le_one_iff.2 h
        rw [hB x h, Laplace.ppf, if_neg (by norm_num; linarith),
          show 2 * (0.5 * exp x) = exp x by ring, log_exp]
      · have h2 := exp_lt_one_iff.2 (by linarith : -x < 0)
        rw [hA x h.le, Laplace.ppf, if_pos (by norm_num; linarith),
          show 2 * (1 - (1 - 0.5 * exp (-x))) = exp (-x) by ring, log_exp, neg_neg]
  refine ⟨isCdf_of_ppf isOpen_univ ordConnected_univ ?_ ?_ hp, hp⟩
  · intro x _
    refine glue_deriv (p := 0) hB hA ?_ ?_
    · intro h
      refine HasDerivAt.congr_deriv (((hasDerivAt_id x).neg.exp.const_mul 0.5).const_sub 1) ?_
      simp only [Laplace.pdf, abs_of_nonneg h, Pi.neg_apply, id_eq]
      ring
    · intro h
      refine HasDerivAt.congr_deriv ((hasDerivAt_exp x).const_mul 0.5) ?_
      simp only [Laplace.pdf, abs_of_nonpos h, neg_neg]
  · intro x _
    have := exp_pos (-|x|)
    unfold Laplace.pdf
    positivity

example : Laplace.cdf 0 = 1 / 2 ∧ Laplace.ppf (3 / 4) = log 2 := by
  constructor
  · simp [Laplace.cdf]
    norm_num
  · rw [Laplace.ppf, if_pos (by norm_num), ← log_inv]
    norm_num

/-- The distribution whose logarithm has the Laplace distribution. -/
theorem C254_loglaplace (c : ℝ) (hc : 0 < c) :
    IsCdf (Ioi 0) (LogLaplace.pdf c) (LogLaplace.cdf c) ∧
    IsPpf (Ioi 0) (LogLaplace.cdf c) (LogLaplace.ppf c) ∧
    ∀ x : ℝ, 0 < x → LogLaplace.cdf c x = Laplace.cdf (c * log x) := by
  have hA : ∀ x, 1 ≤ x → LogLaplace.cdf c x = 1 - 0.5 * x ^ (-c) := by
    intro x hx
    rw [LogLaplace.cdf, if_neg (not_lt.2 hx)]
  have hB : ∀ x, x ≤ 1 → LogLaplace.cdf c x = 0.5 * x ^ c := by
    intro x hx
    rcases hx.lt_or_eq with h | h
    · rw [LogLaplace.cdf, if_pos h]
    · rw [h, hA 1 le_rfl]
      norm_num
  have heq : ∀ x : ℝ, 0 < x → LogLaplace.cdf c x = Laplace.cdf (c * log x) := by
    intro x hx
    rcases le_or_gt x 1 with h | h
    · have : c * log x ≤ 0 := mul_nonpos_of_nonneg_of_nonpos hc.le (log_nonpos hx.le h)
      rw [hB x h, Laplace.cdf, if_neg (not_lt.2 this), rpow_def_of_pos hx, mul_comm c]
    · have : 0 < c * log x := mul_pos hc (log_pos h)
      rw [hA x h.le, Laplace.cdf, if_pos this, rpow_def_of_pos hx]
      ring_nf
  have hp : IsPpf (Ioi 0) (LogLaplace.cdf c) (LogLaplace.ppf c) := by
    have h := C254_laplace.2.comp (J := Ioi 0) (g := fun x => c * log x) (gi := fun y => exp (y / c))
      (fun _ _ => mem_univ _) (fun y _ => exp_pos _)
      (fun x hx => by simp only [mul_div_cancel_left₀ _ hc.ne', exp_log (mem_Ioi.1 hx)])
      (fun y _ => by simp only [log_exp, mul_div_cancel₀ _ hc.ne'])
    refine h.congr (fun x hx => heq x hx) ?_
    intro q h0 h1
    unfold LogLaplace.ppf Laplace.ppf
    rcases lt_trichotomy q 0.5 with h | h | h
    · have h2 : q < 1 / 2 := by norm_num at h; exact h
      rw [if_pos h, if_neg (not_lt.2 h.le), rpow_def_of_pos (by linarith)]
      congr 1
      ring
    · rw [h]
      norm_num
    · have h2 : 1 / 2 < q := by norm_num at h; exact h
      rw [if_neg (not_lt.2 h.le), if_pos h, rpow_def_of_pos (by linarith)]
      congr 1
      ring
  refine ⟨isCdf_of_ppf isOpen_Ioi ordConnected_Ioi ?_ ?_ hp, hp, heq⟩
  · intro x hx
    have hx0 := mem_Ioi.1 hx
    refine glue_deriv (p := 1) hB hA ?_ ?_
    · intro h
      refine HasDerivAt.congr_deriv
        (((hasDerivAt_rpow_const (p := -c) (Or.inl hx0.ne')).const_mul 0.5).const_sub 1) ?_
      simp only [LogLaplace.pdf, if_neg (not_lt.2 h)]
      ring
    · intro h
      refine HasDerivAt.congr_deriv
        ((hasDerivAt_rpow_const (p := c) (Or.inl hx0.ne')).const_mul 0.5) ?_
      rcases h.lt_or_eq with h | h
      · simp only [LogLaplace.pdf, if_pos h]
        ring
      · simp only [LogLaplace.pdf, h, lt_irrefl, if_false, one_rpow]
        ring
  · intro x hx
    have h1 := rpow_pos_of_pos (mem_Ioi.1 hx) ((if x < 1 then c else -c) - 1)
    simp only [LogLaplace.pdf]
    positivity

example : (0 : ℝ) < 1 ∧ LogLaplace.cdf 1 (1 / 2) = 1 / 4 ∧ LogLaplace.cdf 1 2 = 3 / 4 := by
  refine ⟨by norm_num, ?_, ?_⟩
  · rw [LogLaplace.cdf, if_pos (by norm_num)]
    norm_num
  · rw [LogLaplace.cdf, if_neg (by norm_num), rpow_neg_one]
    norm_num

end Wafo.Dist
