import Verif.Dist.GammaLemmas
import Mathlib.Analysis.SpecialFunctions.Gaussian.GaussianIntegral

/-!
# C258: the functions of the distributions of the gamma family fit together

`IsGammaInv inv cinv` says that `inv` and `cinv` are the inverses of the incomplete gamma functions;
`exists_gammaInv` shows that there are such functions.
-/

namespace Wafo.Dist

open MeasureTheory Set Filter Topology Real

set_option linter.unusedSectionVars false

example : ∃ inv cinv, IsGammaInv inv cinv := exists_gammaInv

theorem gamma_pdf_exp {a y d : ℝ} (ha : 0 < a) (hy : 0 < y) (hd : 0 < d) :
    y ^ (a - 1) * exp (-y) / Gamma a * d = exp ((a - 1) * log y - y - gammaln a + log d) := by
  rw [rpow_def_of_pos hy, ← gammaln_eq ha, exp_add, exp_sub, exp_sub, exp_log hd, exp_neg,
    mul_comm (log y)]
  ring

/-- The gamma distribution. -/
theorem C258_gamma {inv cinv : ℝ → ℝ → ℝ} (h : IsGammaInv inv cinv) (a : ℝ) (ha : 0 < a) :
    IsCdf (Ioi 0) (GammaD.pdf a) (GammaD.cdf a) ∧
    IsPpf (Ioi 0) (GammaD.cdf a) (GammaD.ppf inv a) ∧
    IsSf (Ioi 0) (GammaD.cdf a) (GammaD.sf a) ∧
    IsLog (Ioi 0) (GammaD.pdf a) (GammaD.logpdf a) := by
  have hm := gamma_comp h ha isOpen_Ioi ordConnected_Ioi (g := id) (gi := id) (g' := fun _ => 1)
    (pdf := GammaD.pdf a) (fun x hx => hx) (fun y hy => hy) (fun _ _ => rfl) (fun _ _ => rfl)
    (fun x _ => hasDerivAt_id x) (fun _ _ => zero_le_one) (fun x hx => by
      rw [id, gamma_pdf_exp ha hx one_pos, GammaD.pdf, GammaD.logpdf, xlogy, log_one, add_zero])
  exact ⟨hm.1, hm.2, fun x hx => gammaincc_eq ha (le_of_lt hx),
    fun x _ => ⟨exp_pos _, (log_exp _).symm⟩⟩

example : (0 : ℝ) < 5 / 2 ∧ GammaD.pdf 1 2 = exp (-2) := by
  refine ⟨by norm_num, ?_⟩
  simp [GammaD.pdf, GammaD.logpdf, xlogy, gammaln]

/-- The chi-square distribution. -/
theorem C258_chi2 {inv cinv : ℝ → ℝ → ℝ} (h : IsGammaInv inv cinv) (df : ℝ) (hdf : 0 < df) :
    IsCdf (Ioi 0) (Chi2.pdf df) (Chi2.cdf df) ∧
    IsPpf (Ioi 0) (Chi2.cdf df) (Chi2.ppf inv df) ∧
    IsSf (Ioi 0) (Chi2.cdf df) (Chi2.sf df) ∧
    IsIsf (Chi2.ppf inv df) (Chi2.isf cinv df) ∧
    IsLog (Ioi 0) (Chi2.pdf df) (Chi2.logpdf df) := by
  have ha : 0 < df / 2 := by positivity
  have hm := gamma_comp h ha isOpen_Ioi ordConnected_Ioi (g := fun x => x / 2)
    (gi := fun y => 2 * y) (g' := fun _ => 1 / 2) (pdf := Chi2.pdf df)
    (fun x hx => half_pos hx) (fun y hy => by simp only [mem_Ioi]; linarith)
    (fun x _ => by ring) (fun y _ => by ring)
    (fun x _ => (hasDerivAt_id x).div_const 2) (fun _ _ => by norm_num) (fun x hx => by
      have hx : 0 < x := hx
      rw [gamma_pdf_exp ha (half_pos hx) (by norm_num), Chi2.pdf, Chi2.logpdf, xlogy]
      congr 1
      rw [log_div hx.ne' two_ne_zero, log_div one_ne_zero two_ne_zero, log_one]
      ring)
  refine ⟨hm.1, hm.2, fun x hx => gammaincc_eq ha (half_pos hx).le, ?_,
    fun x _ => ⟨exp_pos _, (log_exp _).symm⟩⟩
  intro q h0 h1
  simp only [Chi2.isf, Chi2.ppf, h.isIsf _ ha q h0 h1]

example : (0 : ℝ) < 3 ∧ Chi2.pdf 2 2 = exp (-1) / 2 := by
  refine ⟨by norm_num, ?_⟩
  simp [Chi2.pdf, Chi2.logpdf, xlogy, gammaln, exp_sub, exp_log]

theorem sqrt_half {x : ℝ} (hx : 0 < x) : √(2 * (0.5 * x ^ 2)) = x := by
  rw [show 2 * (0.5 * x ^ 2) = x ^ 2 by ring, sqrt_sq hx.le]

/-- The chi distribution. -/
theorem C258_chi {inv cinv : ℝ → ℝ → ℝ} (h : IsGammaInv inv cinv) (df : ℝ) (hdf : 0 < df) :
    IsCdf (Ioi 0) (Chi.pdf df) (Chi.cdf df) ∧
    IsPpf (Ioi 0) (Chi.cdf df) (Chi.ppf inv df) ∧
    IsLog (Ioi 0) (Chi.pdf df) (Chi.logpdf df) := by
  have ha : 0 < 0.5 * df := by positivity
  have hm := gamma_comp h ha isOpen_Ioi ordConnected_Ioi (g := fun x => 0.5 * x ^ 2)
    (gi := fun y => √(2 * y)) (g' := fun x => x) (pdf := Chi.pdf df)
    (fun x hx => by have hx : 0 < x := hx; positivity)
    (fun y hy => sqrt_pos.2 (by positivity)) (fun x hx => sqrt_half hx)
    (fun y hy => by rw [sq_sqrt (by positivity)]; ring)
    (fun x _ => by
      refine HasDerivAt.congr_deriv ((hasDerivAt_pow 2 x).const_mul 0.5) ?_
      push_cast
      ring) (fun x hx => le_of_lt hx) (fun x hx => by
      have hx : 0 < x := hx
      rw [gamma_pdf_exp ha (by positivity) hx, Chi.pdf, Chi.logpdf, xlogy]
      congr 1
      rw [show (0.5 : ℝ) * x ^ 2 = x ^ 2 / 2 by ring, log_div (by positivity) two_ne_zero, log_pow]
      push_cast
      ring)
  exact ⟨hm.1, hm.2, fun x _ => ⟨exp_pos _, (log_exp _).symm⟩⟩

example : (0 : ℝ) < 3 ∧ Chi.pdf 2 1 = exp (-1 / 2) := by
  refine ⟨by norm_num, ?_⟩
  simp [Chi.pdf, Chi.logpdf, xlogy, gammaln]
  norm_num
  ring

theorem gamma_three_half : Gamma 1.5 = √π / 2 := by
  rw [show (1.5 : ℝ) = 1 / 2 + 1 by norm_num, Gamma_add_one (by norm_num), Gamma_one_half_eq]
  ring

/-- The Maxwell distribution. -/
theorem C258_maxwell {inv cinv : ℝ → ℝ → ℝ} (h : IsGammaInv inv cinv) :
    IsCdf (Ioi 0) Maxwell.pdf Maxwell.cdf ∧ IsPpf (Ioi 0) Maxwell.cdf (Maxwell.ppf inv) := by
  have ha : (0 : ℝ) < 1.5 := by norm_num
  exact gamma_comp h ha isOpen_Ioi ordConnected_Ioi (g := fun x => x * x / 2)
    (gi := fun y => √(2 * y)) (g' := fun x => x) (pdf := Maxwell.pdf)
    (fun x hx => by have hx : 0 < x := hx; positivity)
    (fun y hy => sqrt_pos.2 (by positivity))
    (fun x hx => by rw [mul_div_cancel₀ _ two_ne_zero, sqrt_mul_self (le_of_lt hx)])
    (fun y hy => by rw [mul_self_sqrt (by positivity)]; ring)
    (fun x _ => by
      refine HasDerivAt.congr_deriv (((hasDerivAt_id x).mul (hasDerivAt_id x)).div_const 2) ?_
      simp only [id_eq]
      ring) (fun x hx => le_of_lt hx) (fun x hx => by
      have hx : 0 < x := hx
      have hπ := pi_pos
      have h1 : (x * x / 2) ^ (1.5 - 1 : ℝ) = x / √2 := by
        rw [show (1.5 - 1 : ℝ) = 1 / 2 by norm_num, ← sqrt_eq_rpow, sqrt_div (by positivity),
          sqrt_mul_self hx.le]
      have h2 : 0 < √π := sqrt_pos.2 hπ
      have h3 : √2 * √2 = 2 := mul_self_sqrt (by norm_num)
      have h4 : 0 < √(2 : ℝ) := by positivity
      rw [h1, gamma_three_half, Maxwell.pdf, sqrt_div (by norm_num),
        show -x * x / 2 = -(x * x / 2) by ring]
      field_simp
      linear_combination h3)

example : (1 : ℝ) ∈ Ioi (0 : ℝ) ∧ Maxwell.pdf 1 = √(2 / π) * exp (-1 / 2) := by
  refine ⟨by simp, ?_⟩
  simp [Maxwell.pdf]

/-- The Nakagami distribution. -/
theorem C258_nakagami {inv cinv : ℝ → ℝ → ℝ} (h : IsGammaInv inv cinv) (nu : ℝ) (hnu : 0 < nu) :
    IsCdf (Ioi 0) (Nakagami.pdf nu) (Nakagami.cdf nu) ∧
    IsPpf (Ioi 0) (Nakagami.cdf nu) (Nakagami.ppf inv nu) := by
  exact gamma_comp h hnu isOpen_Ioi ordConnected_Ioi (g := fun x => nu * x * x)
    (gi := fun y => √(1 / nu * y)) (g' := fun x => 2 * nu * x) (pdf := Nakagami.pdf nu)
    (fun x hx => by have hx : 0 < x := hx; positivity)
    (fun y hy => sqrt_pos.2 (by positivity))
    (fun x hx => by
      rw [show 1 / nu * (nu * x * x) = x * x by field_simp, sqrt_mul_self (le_of_lt hx)])
    (fun y hy => by
      rw [mul_assoc, mul_self_sqrt (by positivity)]
      field_simp)
    (fun x _ => by
      refine HasDerivAt.congr_deriv (((hasDerivAt_id x).const_mul nu).mul (hasDerivAt_id x)) ?_
      simp only [id_eq]
      ring) (fun x hx => by have hx : 0 < x := hx; positivity) (fun x hx => by
      have hx : 0 < x := hx
      rw [gamma_pdf_exp hnu (by positivity) (by positivity), Nakagami.pdf, rpow_def_of_pos hnu,
        rpow_def_of_pos hx, ← gammaln_eq hnu, mul_assoc nu x x, log_mul hnu.ne' (by positivity),
        log_mul hx.ne' hx.ne', log_mul (by positivity) hx.ne', log_mul two_ne_zero hnu.ne',
        show -nu * x * x = -(nu * (x * x)) by ring]
      rw [show 2 * exp (log nu * nu) / exp (gammaln nu) * exp (log x * (2 * nu - 1)) *
          exp (-(nu * (x * x))) = exp (log 2) * exp (log nu * nu) / exp (gammaln nu) *
          exp (log x * (2 * nu - 1)) * exp (-(nu * (x * x))) by rw [exp_log two_pos], ← exp_add,
        ← exp_sub, ← exp_add, ← exp_add]
      congr 1
      ring)

example : (0 : ℝ) < 1 ∧ Nakagami.pdf 1 1 = 2 * exp (-1) := by
  refine ⟨by norm_num, ?_⟩
  simp [Nakagami.pdf]

/-- The generalised gamma distribution, for positive and negative `c`. -/
theorem C258_gengamma {inv cinv : ℝ → ℝ → ℝ} (h : IsGammaInv inv cinv) (a c : ℝ)
    (hac : GenGamma.argcheck a c) :
    IsCdf (Ioi 0) (GenGamma.pdf a c) (GenGamma.cdf a c) ∧
    IsPpf (Ioi 0) (GenGamma.cdf a c) (GenGamma.ppf inv cinv a c) ∧
    IsSf (Ioi 0) (GenGamma.cdf a c) (GenGamma.sf a c) ∧
    IsIsf (GenGamma.ppf inv cinv a c) (GenGamma.isf inv cinv a c) ∧
    IsLog (Ioi 0) (GenGamma.pdf a c) (GenGamma.logpdf a c) := by
  obtain ⟨ha, hc⟩ := hac
  have hpdf : ∀ x ∈ Ioi (0 : ℝ), GenGamma.pdf a c x =
      (x ^ c) ^ (a - 1) * exp (-x ^ c) / Gamma a * (|c| * x ^ (c - 1)) := by
    intro x hx
    have hx : 0 < x := hx
    have h1 := rpow_pos_of_pos hx c
    have h2 := rpow_pos_of_pos hx (c - 1)
    have h3 := abs_pos.2 hc
    rw [gamma_pdf_exp ha h1 (by positivity), GenGamma.pdf, GenGamma.logpdf, xlogy,
      log_mul h3.ne' h2.ne', log_rpow hx, log_rpow hx]
    congr 1
    ring
  have hfg : ∀ x ∈ Ioi (0 : ℝ), (x ^ c) ^ (1 / c) = x := by
    intro x hx
    rw [← rpow_mul (le_of_lt hx), mul_one_div_cancel hc, rpow_one]
  have hgf : ∀ y : ℝ, 0 < y → (y ^ (1 / c)) ^ c = y := by
    intro y hy
    rw [← rpow_mul hy.le, one_div_mul_cancel hc, rpow_one]
  refine ⟨?_, ?_, ?_, ?_, fun x _ => ⟨exp_pos _, (log_exp _).symm⟩⟩
  rotate_left 2
  · intro x hx
    have h1 := rpow_pos_of_pos (mem_Ioi.1 hx) c
    unfold GenGamma.sf GenGamma.cdf
    split_ifs
    · exact gammaincc_eq ha h1.le
    · rw [gammaincc_eq ha h1.le]
      ring
  · intro q h0 h1
    unfold GenGamma.isf GenGamma.ppf
    split_ifs
    · rw [h.isIsf a ha q h0 h1]
    · rw [h.isIsf a ha (1 - q) (by linarith) (by linarith), sub_sub_cancel]
  all_goals
    rcases lt_or_gt_of_ne hc with hc' | hc'
    · have hm := gamma_comp_rev h ha isOpen_Ioi ordConnected_Ioi (g := fun x => x ^ c)
        (gi := fun y => y ^ (1 / c)) (g' := fun x => |c| * x ^ (c - 1)) (pdf := GenGamma.pdf a c)
        (fun x hx => rpow_pos_of_pos hx c) (fun y hy => rpow_pos_of_pos hy _) hfg hgf
        (fun x hx => by
          refine HasDerivAt.congr_deriv (hasDerivAt_rpow_const (p := c) (Or.inl (ne_of_gt hx))) ?_
          rw [abs_of_neg hc']
          ring)
        (fun x hx => mul_nonneg (abs_nonneg c) (rpow_nonneg (le_of_lt hx) _)) hpdf
      have e1 : GenGamma.cdf a c = fun x => gammaincc a (x ^ c) := by
        funext x
        rw [GenGamma.cdf, if_neg (not_lt.2 hc'.le)]
      have e2 : GenGamma.ppf inv cinv a c = fun q => cinv a q ^ (1 / c) := by
        funext q
        rw [GenGamma.ppf, if_neg (not_lt.2 hc'.le)]
      rw [e1]
      first
      | exact hm.1
      | rw [e2]; exact hm.2
    · have hm := gamma_comp h ha isOpen_Ioi ordConnected_Ioi (g := fun x => x ^ c)
        (gi := fun y => y ^ (1 / c)) (g' := fun x => |c| * x ^ (c - 1)) (pdf := GenGamma.pdf a c)
        (fun x hx => rpow_pos_of_pos hx c) (fun y hy => rpow_pos_of_pos hy _) hfg hgf
        (fun x hx => by
          refine HasDerivAt.congr_deriv (hasDerivAt_rpow_const (p := c) (Or.inl (ne_of_gt hx))) ?_
          rw [abs_of_pos hc'])
        (fun x hx => mul_nonneg (abs_nonneg c) (rpow_nonneg (le_of_lt hx) _)) hpdf
      have e1 : GenGamma.cdf a c = fun x => gammainc a (x ^ c) := by
        funext x
        rw [GenGamma.cdf, if_pos hc']
      have e2 : GenGamma.ppf inv cinv a c = fun q => inv a q ^ (1 / c) := by
        funext q
        rw [GenGamma.ppf, if_pos hc']
      rw [e1]
      first
      | exact hm.1
      | rw [e2]; exact hm.2

example : GenGamma.argcheck 2 (-1) ∧ GenGamma.pdf 1 (-1) 1 = exp (-1) := by
  refine ⟨⟨by norm_num, by norm_num⟩, ?_⟩
  simp [GenGamma.pdf, GenGamma.logpdf, xlogy, gammaln]

/-- The inverse gamma distribution. -/
theorem C258_invgamma {inv cinv : ℝ → ℝ → ℝ} (h : IsGammaInv inv cinv) (a : ℝ) (ha : 0 < a) :
    IsCdf (Ioi 0) (InvGamma.pdf a) (InvGamma.cdf a) ∧
    IsPpf (Ioi 0) (InvGamma.cdf a) (InvGamma.ppf cinv a) ∧
    IsSf (Ioi 0) (InvGamma.cdf a) (InvGamma.sf a) ∧
    IsIsf (InvGamma.ppf cinv a) (InvGamma.isf inv a) ∧
    IsLog (Ioi 0) (InvGamma.pdf a) (InvGamma.logpdf a) := by
  have hm := gamma_comp_rev h ha isOpen_Ioi ordConnected_Ioi (g := fun x => 1 / x)
    (gi := fun y => 1 / y) (g' := fun x => 1 / x ^ 2) (pdf := InvGamma.pdf a)
    (fun x hx => one_div_pos.2 hx) (fun y hy => one_div_pos.2 hy) (fun x _ => one_div_one_div x)
    (fun y _ => one_div_one_div y)
    (fun x hx => by
      have hx : 0 < x := hx
      refine HasDerivAt.congr_deriv (((hasDerivAt_id x).inv hx.ne').congr_of_eventuallyEq ?_) ?_
      · exact Filter.Eventually.of_forall fun y => one_div y
      · simp only [id_eq]
        ring)
    (fun x _ => by positivity) (fun x hx => by
      have hx : 0 < x := hx
      rw [gamma_pdf_exp ha (by positivity) (by positivity), InvGamma.pdf, InvGamma.logpdf,
        log_div one_ne_zero hx.ne', log_div one_ne_zero (by positivity), log_one, log_pow]
      congr 1
      push_cast
      ring)
  refine ⟨hm.1, hm.2, fun x hx => ?_, ?_, fun x _ => ⟨exp_pos _, (log_exp _).symm⟩⟩
  · rw [InvGamma.sf, InvGamma.cdf, gammaincc_eq ha (one_div_pos.2 hx).le]
    ring
  · intro q h0 h1
    rw [InvGamma.isf, InvGamma.ppf, h.isIsf a ha (1 - q) (by linarith) (by linarith),
      sub_sub_cancel]

example : (0 : ℝ) < 2 ∧ InvGamma.pdf 1 1 = exp (-1) := by
  refine ⟨by norm_num, ?_⟩
  simp [InvGamma.pdf, InvGamma.logpdf, gammaln]

/-- The upper half of the generalised normal distribution. -/
theorem C258_halfgennorm {inv cinv : ℝ → ℝ → ℝ} (h : IsGammaInv inv cinv) (beta : ℝ)
    (hb : 0 < beta) :
    IsCdf (Ioi 0) (HalfGenNorm.pdf beta) (HalfGenNorm.cdf beta) ∧
    IsPpf (Ioi 0) (HalfGenNorm.cdf beta) (HalfGenNorm.ppf inv beta) ∧
    IsSf (Ioi 0) (HalfGenNorm.cdf beta) (HalfGenNorm.sf beta) ∧
    IsIsf (HalfGenNorm.ppf inv beta) (HalfGenNorm.isf cinv beta) ∧
    IsLog (Ioi 0) (HalfGenNorm.pdf beta) (HalfGenNorm.logpdf beta) := by
  have ha : 0 < 1 / beta := by positivity
  have hm := gamma_comp h ha isOpen_Ioi ordConnected_Ioi (g := fun x => x ^ beta)
    (gi := fun y => y ^ (1 / beta)) (g' := fun x => beta * x ^ (beta - 1))
    (pdf := HalfGenNorm.pdf beta)
    (fun x hx => rpow_pos_of_pos hx _) (fun y hy => rpow_pos_of_pos hy _)
    (fun x hx => by rw [← rpow_mul (le_of_lt hx), mul_one_div_cancel hb.ne', rpow_one])
    (fun y hy => by rw [← rpow_mul hy.le, one_div_mul_cancel hb.ne', rpow_one])
    (fun x hx => hasDerivAt_rpow_const (p := beta) (Or.inl (ne_of_gt hx)))
    (fun x hx => mul_nonneg hb.le (rpow_nonneg (le_of_lt hx) _)) (fun x hx => by
      have hx : 0 < x := hx
      have h1 := rpow_pos_of_pos hx beta
      have h2 := rpow_pos_of_pos hx (beta - 1)
      rw [gamma_pdf_exp ha h1 (by positivity), HalfGenNorm.pdf, HalfGenNorm.logpdf,
        log_mul hb.ne' h2.ne', log_rpow hx, log_rpow hx]
      congr 1
      field_simp
      ring)
  refine ⟨hm.1, hm.2, fun x hx => gammaincc_eq ha (rpow_nonneg (le_of_lt hx) _), ?_,
    fun x _ => ⟨exp_pos _, (log_exp _).symm⟩⟩
  intro q h0 h1
  simp only [HalfGenNorm.isf, HalfGenNorm.ppf, h.isIsf _ ha q h0 h1]

example : (0 : ℝ) < 1 / 2 ∧ HalfGenNorm.pdf 1 3 = exp (-3) := by
  refine ⟨by norm_num, ?_⟩
  simp [HalfGenNorm.pdf, HalfGenNorm.logpdf, gammaln]

/-- The double gamma distribution; the density has no finite value at `0` when `a < 1`. -/
theorem C258_dgamma {inv cinv : ℝ → ℝ → ℝ} (h : IsGammaInv inv cinv) (a : ℝ) (ha : 0 < a) :
    IsCdf univ (DGamma.pdf a) (DGamma.cdf a) ∧ IsPpf univ (DGamma.cdf a) (DGamma.ppf cinv a) ∧
    IsSf univ (DGamma.cdf a) (DGamma.sf a) ∧ IsLog {0}ᶜ (DGamma.pdf a) (DGamma.logpdf a) := by
  have hG := Gamma_pos_of_pos ha
  have hn : ∀ x, 0 ≤ DGamma.pdf a x := by
    intro x
    have := rpow_nonneg (abs_nonneg x) (a - 1)
    unfold DGamma.pdf
    positivity
  have hm := two_sided (h.isPpf a ha) gammainc_zero (gammainc_continuous ha) (pdf := DGamma.pdf a)
    (cdf := DGamma.cdf a) (ppf := DGamma.ppf cinv a)
    (fun x hx => by
      refine HasDerivAt.congr_deriv (gammainc_deriv ha hx) ?_
      rw [DGamma.pdf, abs_of_pos hx]
      field_simp) hn (fun x => by simp only [DGamma.pdf, abs_neg])
    (fun x hx => by
      simp only [DGamma.cdf]
      rcases hx.lt_or_eq with h1 | h1
      · rw [if_pos h1, abs_of_pos h1]
        ring
      · rw [← h1, abs_zero, gammainc_zero, if_neg (lt_irrefl _)]
        norm_num)
    (fun x hx => by
      simp only [DGamma.cdf]
      rw [if_neg (not_lt.2 hx), abs_of_nonpos hx]
      ring)
    (fun q h0 h1 => by
      simp only [DGamma.ppf]
      rw [if_pos (by norm_num; exact h0), abs_of_pos (by linarith),
        h.isIsf a ha _ (by linarith) (by linarith), sub_sub_cancel])
    (fun q h0 h1 => by
      simp only [DGamma.ppf]
      rw [if_neg (by norm_num; exact h1.le), abs_of_neg (by linarith),
        h.isIsf a ha _ (by linarith) (by linarith), sub_sub_cancel]
      congr 2
      ring)
    (by
      simp only [DGamma.ppf]
      rw [if_neg (by norm_num)]
      norm_num
      exact h.cinv_one a ha)
  refine ⟨hm.1, hm.2, ?_, ?_⟩
  · intro x _
    simp only [DGamma.sf, DGamma.cdf]
    split_ifs <;> ring
  · intro x hx
    have hx0 : x ≠ 0 := by simpa using hx
    have h1 := rpow_pos_of_pos (abs_pos.2 hx0) (a - 1)
    refine ⟨by unfold DGamma.pdf; positivity, ?_⟩
    rw [DGamma.pdf, DGamma.logpdf, log_mul (by positivity) (exp_pos _).ne',
      log_mul (by positivity) h1.ne', log_exp, log_rpow (abs_pos.2 hx0), one_div, log_inv,
      log_mul two_ne_zero hG.ne', xlogy, gammaln, abs_of_pos hG]
    ring

example : (0 : ℝ) < 1 / 2 ∧ DGamma.pdf 1 (-2) = 1 / 2 * exp (-2) := by
  refine ⟨by norm_num, ?_⟩
  simp [DGamma.pdf]

/-- The generalised normal distribution. -/
theorem C258_gennorm {inv cinv : ℝ → ℝ → ℝ} (h : IsGammaInv inv cinv) (beta : ℝ) (hb : 0 < beta) :
    IsCdf univ (GenNorm.pdf beta) (GenNorm.cdf beta) ∧
    IsPpf univ (GenNorm.cdf beta) (GenNorm.ppf cinv beta) ∧
    IsSf univ (GenNorm.cdf beta) (GenNorm.sf beta) ∧
    IsIsf (GenNorm.ppf cinv beta) (GenNorm.isf cinv beta) ∧
    IsLog univ (GenNorm.pdf beta) (GenNorm.logpdf beta) := by
  have ha : 0 < 1 / beta := by positivity
  have hh := C258_halfgennorm h beta hb
  have hP : IsPpf (Ioi 0) (fun x => gammainc (1 / beta) (|x| ^ beta)) (HalfGenNorm.ppf inv beta) :=
    hh.2.1.congr (fun x hx => by rw [HalfGenNorm.cdf, abs_of_pos hx]) (fun _ _ _ => rfl)
  have hpos : ∀ x, 0 ≤ x → GenNorm.cdf beta x = 1 / 2 + gammainc (1 / beta) (|x| ^ beta) / 2 := by
    intro x hx
    simp only [GenNorm.cdf]
    rw [gammaincc_eq ha (rpow_nonneg (abs_nonneg x) _)]
    rcases hx.lt_or_eq with h1 | h1
    · rw [Real.sign_of_pos h1]
      ring
    · rw [← h1, Real.sign_zero, abs_zero, zero_rpow hb.ne', gammainc_zero]
      norm_num
  have hneg : ∀ x, x ≤ 0 →
      GenNorm.cdf beta x = 1 / 2 - gammainc (1 / beta) (|(-x)| ^ beta) / 2 := by
    intro x hx
    simp only [GenNorm.cdf, abs_neg]
    rw [gammaincc_eq ha (rpow_nonneg (abs_nonneg x) _)]
    rcases hx.lt_or_eq with h1 | h1
    · rw [Real.sign_of_neg h1]
      ring
    · rw [h1, Real.sign_zero, abs_zero, zero_rpow hb.ne', gammainc_zero]
      norm_num
  have hm := two_sided hP (by
      simp only [abs_zero, zero_rpow hb.ne', gammainc_zero])
    ((gammainc_continuous ha).comp (continuous_abs.rpow_const fun _ => Or.inr hb.le))
    (pdf := GenNorm.pdf beta) (cdf := GenNorm.cdf beta) (ppf := GenNorm.ppf cinv beta)
    (fun x hx => by
      have h1 := rpow_pos_of_pos hx beta
      have h2 := rpow_pos_of_pos hx (beta - 1)
      have hev : ∀ᶠ y in 𝓝 x, gammainc (1 / beta) (|y| ^ beta) = gammainc (1 / beta) (y ^ beta) := by
        filter_upwards [lt_mem_nhds hx] with y hy
        rw [abs_of_pos (show 0 < y from hy)]
      refine HasDerivAt.congr_of_eventuallyEq ?_ hev
      refine HasDerivAt.congr_deriv (HasDerivAt.comp (h₂ := gammainc (1 / beta))
        (h := fun y => y ^ beta) x (gammainc_deriv ha h1) (hasDerivAt_rpow_const (p := beta) (Or.inl hx.ne'))) ?_
      rw [gamma_pdf_exp ha h1 (by positivity), GenNorm.pdf, GenNorm.logpdf, abs_of_pos hx,
        log_mul hb.ne' h2.ne', log_rpow hx, log_rpow hx, ← exp_log (two_pos : (0 : ℝ) < 2), ← exp_add,
        show (0.5 : ℝ) * beta = beta / 2 by ring, log_div hb.ne' two_ne_zero]
      congr 1
      field_simp
      ring) (fun x => (exp_pos _).le) (fun x => by
      simp only [GenNorm.pdf, GenNorm.logpdf, abs_neg]) hpos hneg
    (fun q h0 h1 => by
      simp only [GenNorm.ppf, HalfGenNorm.ppf]
      rw [Real.sign_of_pos (by norm_num; linarith), one_mul,
        h.isIsf _ ha _ (by linarith) (by linarith)]
      congr 2
      ring)
    (fun q h0 h1 => by
      simp only [GenNorm.ppf, HalfGenNorm.ppf]
      rw [Real.sign_of_neg (by norm_num; linarith), neg_one_mul,
        h.isIsf _ ha _ (by linarith) (by linarith)]
      congr 3
      ring)
    (by
      simp only [GenNorm.ppf]
      rw [show (1 / 2 - 0.5 : ℝ) = 0 by norm_num, Real.sign_zero, zero_mul])
  refine ⟨hm.1, hm.2, ?_, ?_, fun x _ => ⟨exp_pos _, (log_exp _).symm⟩⟩
  · intro x _
    rw [GenNorm.sf]
    rcases le_total 0 x with hx | hx
    · rw [hneg (-x) (by linarith), hpos x hx, neg_neg]
      ring
    · rw [hpos (-x) (by linarith), hneg x hx]
      ring
  · intro q h0 h1
    simp only [GenNorm.isf, GenNorm.ppf]
    rw [show (1 - q - 0.5 : ℝ) = -(q - 0.5) by norm_num; ring, Real.sign_neg, ← neg_mul]
    congr 3
    ring

example : (0 : ℝ) < 1 / 2 ∧ GenNorm.cdf 3 0 = 1 / 2 := by
  refine ⟨by norm_num, ?_⟩
  simp [GenNorm.cdf]
  norm_num

end Wafo.Dist
