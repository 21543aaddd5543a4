import Verif.Dist.EntProps

/-!
# C262: the entropies of the gamma family, the circular and the bounded distributions
-/

namespace Wafo.Dist

open MeasureTheory Set Filter Topology Real

set_option linter.unusedSectionVars false

/-! ### The gamma family -/

theorem C262_gamma (a : ℝ) (ha : 0 < a) :
    HasEntropy (Ioi 0) (GammaD.pdf a) (GammaD.entropy a) := by
  refine gamma_entropy (g := id) (gi := id) (g' := fun _ => 1) measurableSet_Ioi ha
    (fun x hx => hx) (fun y hy => hy) (fun _ _ => rfl) (fun _ _ => rfl)
    (fun x _ => hasDerivAt_id x) (fun x hx => ?_) 0 0 0 (fun x _ => by simp)
    (by rw [GammaD.entropy]; ring)
  have hx : 0 < x := hx
  rw [abs_one, gamma_pdf_exp ha (by exact hx) one_pos, GammaD.pdf, GammaD.logpdf, xlogy, log_one]
  simp

theorem gengamma_entropy (a c : ℝ) (hac : GenGamma.argcheck a c) :
    HasEntropy (Ioi 0) (GenGamma.pdf a c) (GenGamma.entropy a c) := by
  obtain ⟨ha, hc⟩ := hac
  refine gamma_entropy (g := fun x => x ^ c) (gi := fun y => y ^ (1 / c))
    (g' := fun x => c * x ^ (c - 1)) measurableSet_Ioi ha
    (fun x hx => rpow_pos_of_pos hx c) (fun y hy => rpow_pos_of_pos hy _)
    (fun x hx => by rw [← rpow_mul (le_of_lt hx), mul_one_div_cancel hc, rpow_one])
    (fun y hy => by rw [← rpow_mul hy.le, one_div_mul_cancel hc, rpow_one])
    (fun x hx => hasDerivAt_rpow_const (p := c) (Or.inl (ne_of_gt hx)))
    (fun x hx => ?_) (log |c|) (1 - 1 / c) 0 (fun x hx => ?_) ?_
  · have hx : 0 < x := hx
    have h1 := rpow_pos_of_pos hx c
    have h2 := rpow_pos_of_pos hx (c - 1)
    have h3 := abs_pos.2 hc
    rw [abs_mul, abs_of_pos h2, gamma_pdf_exp ha h1 (by positivity), GenGamma.pdf,
      GenGamma.logpdf, xlogy, log_mul h3.ne' h2.ne', log_rpow hx, log_rpow hx]
    congr 1
    ring
  · have hx : 0 < x := hx
    have h2 := rpow_pos_of_pos hx (c - 1)
    rw [abs_mul, abs_of_pos h2, zero_mul, add_zero, exp_add, exp_log (abs_pos.2 hc), log_rpow hx,
      rpow_def_of_pos hx]
    congr 2
    field_simp
  · simp only [GenGamma.entropy]
    ring

/-- The entropy of the generalised gamma distribution. -/
theorem C262_gengamma (a c : ℝ) (hac : GenGamma.argcheck a c) :
    HasEntropy (Ioi 0) (GenGamma.pdf a c) (GenGamma.entropy a c) := gengamma_entropy a c hac

example : GenGamma.argcheck 2 (-3) ∧ GenGamma.entropy 1 1 = Expon.entropy := by
  refine ⟨⟨by norm_num, by norm_num⟩, ?_⟩
  simp only [GenGamma.entropy, gammaln_one, Expon.entropy, abs_one, log_one]
  ring

theorem C262_invgamma (a : ℝ) (ha : 0 < a) :
    HasEntropy (Ioi 0) (InvGamma.pdf a) (InvGamma.entropy a) := by
  refine gamma_entropy (g := fun x => 1 / x) (gi := fun y => 1 / y)
    (g' := fun x => -(1 / x ^ 2)) measurableSet_Ioi ha
    (fun x hx => one_div_pos.2 hx) (fun y hy => one_div_pos.2 hy) (fun x _ => one_div_one_div x)
    (fun y _ => one_div_one_div y) (fun x hx => ?_) (fun x hx => ?_) 0 2 0 (fun x hx => ?_) ?_
  · have hx : 0 < x := hx
    refine HasDerivAt.congr_deriv (((hasDerivAt_id x).inv hx.ne').congr_of_eventuallyEq ?_) ?_
    · exact Filter.Eventually.of_forall fun y => one_div y
    · simp only [id_eq]
      ring
  · have hx : 0 < x := hx
    rw [abs_neg, abs_of_pos (by positivity), gamma_pdf_exp ha (by positivity) (by positivity),
      InvGamma.pdf, InvGamma.logpdf, log_div one_ne_zero hx.ne',
      log_div one_ne_zero (by positivity), log_one, log_pow]
    congr 1
    push_cast
    ring
  · have hx : 0 < x := hx
    rw [abs_neg, abs_of_pos (by positivity), zero_add, zero_mul, add_zero,
      show (2 : ℝ) * log (1 / x) = log ((1 / x) ^ 2) by rw [log_pow]; push_cast; ring,
      exp_log (by positivity)]
    ring
  · rw [InvGamma.entropy]
    ring

theorem C262_halfgennorm (beta : ℝ) (hb : 0 < beta) :
    HasEntropy (Ioi 0) (HalfGenNorm.pdf beta) (HalfGenNorm.entropy beta) := by
  have h := gengamma_entropy (1 / beta) beta ⟨by positivity, hb.ne'⟩
  have e : ∀ x ∈ Ioi (0 : ℝ), HalfGenNorm.pdf beta x = GenGamma.pdf (1 / beta) beta x := by
    intro x _
    rw [HalfGenNorm.pdf, GenGamma.pdf, HalfGenNorm.logpdf, GenGamma.logpdf, xlogy,
      mul_one_div_cancel hb.ne', abs_of_pos hb]
    congr 1
    ring
  have e2 : HalfGenNorm.entropy beta = GenGamma.entropy (1 / beta) beta := by
    simp only [HalfGenNorm.entropy, GenGamma.entropy, abs_of_pos hb]
    ring
  have e3 : ∀ x ∈ Ioi (0 : ℝ), HalfGenNorm.pdf beta x * log (HalfGenNorm.pdf beta x) =
      GenGamma.pdf (1 / beta) beta x * log (GenGamma.pdf (1 / beta) beta x) := by
    intro x hx
    rw [e x hx]
  exact ⟨(integrableOn_congr_fun e3 measurableSet_Ioi).2 h.1, by
    rw [setIntegral_congr_fun measurableSet_Ioi e3, h.2, e2]⟩

theorem C262_gennorm (beta : ℝ) (hb : 0 < beta) :
    HasEntropy univ (GenNorm.pdf beta) (GenNorm.entropy beta) := by
  have h := C262_halfgennorm beta hb
  have e : ∀ x ∈ Ioi (0 : ℝ), 2 * GenNorm.pdf beta x = HalfGenNorm.pdf beta x := by
    intro x hx
    have hx : 0 < x := hx
    rw [GenNorm.pdf, GenNorm.logpdf, HalfGenNorm.pdf, HalfGenNorm.logpdf, abs_of_pos hx,
      log_mul (by norm_num) hb.ne', show log (0.5 : ℝ) = -log 2 by
        rw [show (0.5 : ℝ) = 2⁻¹ by norm_num, log_inv],
      show -log 2 + log beta - gammaln (1 / beta) - x ^ beta =
        -log 2 + (log beta - gammaln (1 / beta) - x ^ beta) by ring, exp_add, exp_neg,
      exp_log two_pos]
    ring
  have h0 : HasInt (Ioi 0) (fun x => 2 * GenNorm.pdf beta x) 1 := by
    have hm := (gengamma_moment (1 / beta) beta ⟨by positivity, hb.ne'⟩ 0).1 (by
      push_cast; rw [zero_div, add_zero]; positivity)
    have hG : 0 < Gamma (1 / beta) := Gamma_pos_of_pos (by positivity)
    refine HasInt.congr measurableSet_Ioi (show HasInt _ _ _ from hm) ?_ ?_
    · intro x hx
      rw [e x hx, pow_zero, one_mul, HalfGenNorm.pdf, GenGamma.pdf, HalfGenNorm.logpdf,
        GenGamma.logpdf, xlogy, mul_one_div_cancel hb.ne', abs_of_pos hb]
      congr 1
      ring
    · simp only [GenGamma.munp]
      push_cast
      rw [zero_div, add_zero, div_self hG.ne']
  have e3 : ∀ x ∈ Ioi (0 : ℝ), 2 * GenNorm.pdf beta x * log (2 * GenNorm.pdf beta x) =
      HalfGenNorm.pdf beta x * log (HalfGenNorm.pdf beta x) := by
    intro x hx
    rw [e x hx]
  have h1 : HasEntropy (Ioi 0) (fun x => 2 * GenNorm.pdf beta x) (HalfGenNorm.entropy beta) :=
    ⟨(integrableOn_congr_fun e3 measurableSet_Ioi).2 h.1, by
      rw [setIntegral_congr_fun measurableSet_Ioi e3, h.2]⟩
  have h2 := even_entropy (f := GenNorm.pdf beta)
    (fun x => by rw [GenNorm.pdf, GenNorm.pdf, GenNorm.logpdf, GenNorm.logpdf, abs_neg])
    (fun x _ => exp_pos _) h0 h1
  have e4 : GenNorm.entropy beta = HalfGenNorm.entropy beta + log 2 := by
    rw [GenNorm.entropy, HalfGenNorm.entropy, log_mul (by norm_num) hb.ne',
      show log (0.5 : ℝ) = -log 2 by rw [show (0.5 : ℝ) = 2⁻¹ by norm_num, log_inv]]
    ring
  rw [e4]
  exact h2

example : GenNorm.entropy 1 = Laplace.entropy := by
  rw [GenNorm.entropy, Laplace.entropy, div_one, gammaln_one, mul_one,
    show (0.5 : ℝ) = 2⁻¹ by norm_num, log_inv]
  ring

theorem psi_threehalf : psi (3 / 2) = 2 - euler - 2 * log 2 := by
  have h1 := hasDerivAt_Gamma_one_half
  have h2 : HasDerivAt (fun s : ℝ => Gamma (s + 1)) (deriv Gamma (3 / 2)) (1 / 2) := by
    have h3 : DifferentiableAt ℝ Gamma (1 / 2 + 1) :=
      differentiableAt_Gamma fun m => by
        have : (0 : ℝ) ≤ m := m.cast_nonneg
        intro h
        linarith
    have := h3.hasDerivAt.comp_add_const (1 / 2 : ℝ) 1
    rwa [show (1 / 2 + 1 : ℝ) = 3 / 2 by norm_num] at this
  have h3 : HasDerivAt (fun s : ℝ => s * Gamma s)
      (1 * Gamma (1 / 2) + 1 / 2 * (-√π * (eulerMascheroniConstant + 2 * log 2))) (1 / 2) :=
    (hasDerivAt_id (1 / 2 : ℝ)).mul h1
  have h4 : (fun s : ℝ => Gamma (s + 1)) =ᶠ[𝓝 (1 / 2)] fun s => s * Gamma s := by
    filter_upwards [lt_mem_nhds (show (0 : ℝ) < 1 / 2 by norm_num)] with s hs
    exact Gamma_add_one hs.ne'
  have h5 := h2.unique (h3.congr_of_eventuallyEq h4)
  have h6 : Gamma (3 / 2) = 1 / 2 * √π := by
    rw [show (3 / 2 : ℝ) = 1 / 2 + 1 by norm_num, Gamma_add_one (by norm_num), Gamma_one_half_eq]
  have h7 : 0 < √π := sqrt_pos.2 pi_pos
  rw [psi, h5, h6, Gamma_one_half_eq, euler]
  field_simp
  ring

theorem C262_maxwell : HasEntropy (Ioi 0) Maxwell.pdf Maxwell.entropy := by
  have hπ := pi_pos
  have hs := sqrt_pos.2 hπ
  have ha : (0 : ℝ) < 3 / 2 := by norm_num
  have hG : Gamma (3 / 2) = 1 / 2 * √π := by
    rw [show (3 / 2 : ℝ) = 1 / 2 + 1 by norm_num, Gamma_add_one (by norm_num), Gamma_one_half_eq]
  refine gamma_entropy (g := fun x => x * x / 2) (gi := fun y => √(2 * y)) (g' := fun x => x)
    measurableSet_Ioi ha (fun x hx => by have hx : 0 < x := hx; positivity)
    (fun y hy => sqrt_pos.2 (by positivity))
    (fun x hx => by
      have hx : 0 < x := hx
      rw [show 2 * (x * x / 2) = x * x by ring, sqrt_mul_self hx.le])
    (fun y hy => by
      rw [mul_self_sqrt (by positivity)]
      ring)
    (fun x _ => by
      refine HasDerivAt.congr_deriv (((hasDerivAt_id x).mul (hasDerivAt_id x)).div_const 2) ?_
      simp only [id]
      ring)
    (fun x hx => ?_) (1 / 2 * log 2) (1 / 2) 0 (fun x hx => ?_) ?_
  · have hx : 0 < x := hx
    have e1 : (x * x / 2) ^ (3 / 2 - 1 : ℝ) = x / √2 := by
      rw [show (3 / 2 - 1 : ℝ) = 1 / 2 by norm_num, ← sqrt_eq_rpow, sqrt_div (by positivity),
        sqrt_mul_self hx.le]
    have h2 : √2 * √2 = (2 : ℝ) := mul_self_sqrt (by norm_num)
    rw [e1, hG, abs_of_pos hx, Maxwell.pdf, sqrt_div (by norm_num),
      show -(x * x / 2) = -x * x / 2 by ring]
    have h22 : 0 < √(2 : ℝ) := sqrt_pos.2 two_pos
    generalize √(2 : ℝ) = w at *
    generalize √π = z at *
    field_simp
    nlinarith
  · have hx : 0 < x := hx
    have e : 1 / 2 * log 2 + 1 / 2 * log (x * x / 2) + 0 * (x * x / 2) = log x := by
      rw [log_div (by positivity) two_ne_zero, log_mul hx.ne' hx.ne']
      ring
    rw [e, exp_log hx, abs_of_pos hx]
  · rw [psi_threehalf, gammaln, hG, abs_of_pos (by positivity), log_mul (by norm_num) hs.ne',
      log_sqrt hπ.le, one_div, log_inv, Maxwell.entropy, log_mul two_ne_zero hπ.ne']
    ring

end Wafo.Dist
