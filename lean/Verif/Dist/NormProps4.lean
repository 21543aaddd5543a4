import Verif.Dist.NormProps3

/-!
# C263, continued: crystal ball and skew normal distributions
-/

namespace Wafo.Dist

open MeasureTheory Set Filter Topology Real Wafo.Gauss

set_option linter.unusedSectionVars false

theorem cb_N_pos {beta m : ℝ} (hb : 0 < beta) (hm : 1 < m) : 0 < CrystalBall.N beta m := by
  have h1 : 0 < m - 1 := sub_pos.2 hm
  have h2 : 0 < m := by linarith
  have h3 := Phi_pos beta
  rw [CrystalBall.N, Norm.cdf]
  positivity

theorem cb_N_eq (beta m : ℝ) : CrystalBall.N beta m =
    1 / ((m / beta) * exp (-beta ^ 2 / 2) / (m - 1) + √(2 * π) * Phi beta) := by
  rw [CrystalBall.N, Norm.cdf]
  congr 2
  ring

theorem cb_pdf_pos {beta m : ℝ} (hb : 0 < beta) (hm : 1 < m) (x : ℝ) :
    0 < CrystalBall.pdf beta m x := by
  have h1 := cb_N_pos hb hm
  have h2 : 0 < m / beta := div_pos (by linarith) hb
  rw [CrystalBall.pdf]
  split_ifs with h
  · positivity
  · have h3 : 0 < m / beta - beta - x := by linarith
    have := rpow_pos_of_pos h3 (-m)
    have := rpow_pos_of_pos h2 m
    positivity

theorem cb_lower {beta m x : ℝ} (hx : x ≤ -beta) : CrystalBall.cdf beta m x =
    CrystalBall.N beta m * ((m / beta) ^ m * exp (-beta ^ 2 / 2) *
      (m / beta - beta - x) ^ (-m + 1) / (m - 1)) := by
  rw [CrystalBall.cdf, if_neg (not_lt.2 hx)]

theorem cb_upper {beta m x : ℝ} (hb : 0 < beta) (hm : 1 < m) (hx : -beta ≤ x) :
    CrystalBall.cdf beta m x = CrystalBall.N beta m * ((m / beta) * exp (-beta ^ 2 / 2) / (m - 1)
      + √(2 * π) * (Phi x - Phi (-beta))) := by
  rcases hx.lt_or_eq with h | h
  · rw [CrystalBall.cdf, if_pos h]
    rfl
  · have h2 : 0 < m / beta := div_pos (by linarith) hb
    rw [cb_lower h.ge, ← h, sub_self, mul_zero, add_zero,
      show m / beta - beta - -beta = m / beta by ring, rpow_add h2, rpow_neg h2.le, rpow_one]
    have := rpow_pos_of_pos h2 m
    have h3 : m - 1 ≠ 0 := by linarith
    congr 1
    field_simp

theorem cb_deriv {beta m : ℝ} (hb : 0 < beta) (hm : 1 < m) (x : ℝ) :
    HasDerivAt (CrystalBall.cdf beta m) (CrystalBall.pdf beta m x) x := by
  have h2 : 0 < m / beta := div_pos (by linarith) hb
  have h1 : m - 1 ≠ 0 := by linarith
  refine glue_deriv (p := -beta) (fun y hy => cb_lower hy) (fun y hy => cb_upper hb hm hy) ?_ ?_
  · intro hx
    refine HasDerivAt.congr_deriv ((((((hasDerivAt_Phi x).sub_const (Phi (-beta))).const_mul
      (√(2 * π))).const_add _).const_mul (CrystalBall.N beta m))) ?_
    have e : √(2 * π) * phi x = exp (-x ^ 2 / 2) := by
      rw [phi]
      have : 0 < √(2 * π) := by positivity
      field_simp
    rw [e, CrystalBall.pdf]
    split_ifs with h
    · rfl
    · have hx : x = -beta := le_antisymm (not_lt.1 h) hx
      rw [hx, show m / beta - beta - -beta = m / beta by ring, rpow_neg h2.le, neg_sq]
      have := rpow_pos_of_pos h2 m
      field_simp
  · intro hx
    have h3 : 0 < m / beta - beta - x := by linarith
    have h4 : HasDerivAt (fun x : ℝ => m / beta - beta - x) (-1) x :=
      (hasDerivAt_id x).const_sub _
    refine HasDerivAt.congr_deriv ((((h4.rpow_const (p := -m + 1) (Or.inl h3.ne')).const_mul
      ((m / beta) ^ m * exp (-beta ^ 2 / 2))).div_const (m - 1)).const_mul
      (CrystalBall.N beta m)) ?_
    rw [CrystalBall.pdf, if_neg (not_lt.2 hx), add_sub_cancel_right]
    field_simp
    ring

theorem cb_mono {beta m : ℝ} (hb : 0 < beta) (hm : 1 < m) : StrictMono (CrystalBall.cdf beta m) :=
  strictMono_of_deriv_pos fun x => by
    rw [(cb_deriv hb hm x).deriv]
    exact cb_pdf_pos hb hm x

theorem cb_mem {beta m : ℝ} (hb : 0 < beta) (hm : 1 < m) (x : ℝ) :
    0 < CrystalBall.cdf beta m x ∧ CrystalBall.cdf beta m x < 1 := by
  have h2 : 0 < m / beta := div_pos (by linarith) hb
  have h1 : 0 < m - 1 := by linarith
  have hN := cb_N_pos hb hm
  constructor
  · rcases le_total x (-beta) with h | h
    · have h3 : 0 < m / beta - beta - x := by linarith
      have := rpow_pos_of_pos h3 (-m + 1)
      have := rpow_pos_of_pos h2 m
      rw [cb_lower h]
      positivity
    · rw [cb_upper hb hm h]
      have : 0 ≤ Phi x - Phi (-beta) := sub_nonneg.2 (Phi_mono h)
      positivity
  · refine lt_of_le_of_lt ((cb_mono hb hm).monotone (le_max_left x (-beta))) ?_
    rw [cb_upper hb hm (le_max_right x (-beta))]
    have h3 := Phi_lt_one (max x (-beta))
    generalize max x (-beta) = y at *
    rw [cb_N_eq, one_div, inv_mul_lt_iff₀ (by have := Phi_pos beta; positivity), mul_one, Phi_neg]
    have : 0 < √(2 * π) := by positivity
    nlinarith

/-- The crystal ball distribution. -/
theorem C263_crystalball {ninv : ℝ → ℝ} (h : IsNormInv ninv) (beta m : ℝ) (hb : 0 < beta)
    (hm : 1 < m) :
    IsCdf univ (CrystalBall.pdf beta m) (CrystalBall.cdf beta m) ∧
    IsPpf univ (CrystalBall.cdf beta m) (CrystalBall.ppf ninv beta m) ∧
    IsLog univ (CrystalBall.pdf beta m) (CrystalBall.logpdf beta m) := by
  have h2 : 0 < m / beta := div_pos (by linarith) hb
  have h1 : 0 < m - 1 := by linarith
  have hN := cb_N_pos hb hm
  have hE := exp_pos (-beta ^ 2 / 2)
  have hR := rpow_pos_of_pos h2 m
  have hs : 0 < √(2 * π) := by positivity
  have hcp : ∀ q, 0 < q → q < 1 → CrystalBall.cdf beta m (CrystalBall.ppf ninv beta m q) = q := by
    intro q h0 hq1
    simp only [CrystalBall.ppf, Norm.cdf, Norm.ppf]
    rw [← cb_N_eq]
    split_ifs with hq
    · have hw : 0 < (m - 1) * (m / beta) ^ (-m) / exp (-beta ^ 2 / 2) * q / CrystalBall.N beta m := by
        have := rpow_pos_of_pos h2 (-m)
        positivity
      have hlt : (m - 1) * (m / beta) ^ (-m) / exp (-beta ^ 2 / 2) * q / CrystalBall.N beta m
          < (m / beta) ^ (1 - m) := by
        rw [show 1 - m = -m + 1 by ring, rpow_add h2, rpow_one]
        have := rpow_pos_of_pos h2 (-m)
        rw [div_mul_eq_mul_div, div_div, div_lt_iff₀ (by positivity)]
        rw [lt_div_iff₀ h1] at hq
        nlinarith
      have he : (1 : ℝ) / (1 - m) < 0 := div_neg_of_pos_of_neg one_pos (by linarith)
      have hne : 1 - m ≠ 0 := by linarith
      have hgt : m / beta < ((m - 1) * (m / beta) ^ (-m) / exp (-beta ^ 2 / 2) * q
          / CrystalBall.N beta m) ^ (1 / (1 - m)) := by
        have := rpow_lt_rpow_of_neg hw hlt he
        rwa [← rpow_mul h2.le, mul_one_div_cancel hne, rpow_one] at this
      rw [cb_lower (by linarith)]
      rw [sub_sub_cancel, ← rpow_mul hw.le, show 1 / (1 - m) * (-m + 1) = 1 by field_simp; ring,
        rpow_one, rpow_neg h2.le]
      field_simp
    · have hq : CrystalBall.N beta m * (m / beta) * exp (-beta ^ 2 / 2) / (m - 1) ≤ q := not_lt.1 hq
      have hqN : m / beta * exp (-beta ^ 2 / 2) / (m - 1) ≤ q / CrystalBall.N beta m := by
        rw [le_div_iff₀ hN]
        refine le_trans (le_of_eq ?_) hq
        ring
      have hq2 : q / CrystalBall.N beta m
          < m / beta * exp (-beta ^ 2 / 2) / (m - 1) + √(2 * π) * Phi beta := by
        have h3 := Phi_pos beta
        rw [cb_N_eq, div_div_eq_mul_div, div_one]
        have : 0 < m / beta * exp (-beta ^ 2 / 2) / (m - 1) + √(2 * π) * Phi beta := by positivity
        nlinarith
      have hu0 : 0 ≤ 1 / √(2 * π) * (q / CrystalBall.N beta m
          - m / beta * exp (-beta ^ 2 / 2) / (m - 1)) := by
        have := sub_nonneg.2 hqN
        positivity
      have hu1 : 1 / √(2 * π) * (q / CrystalBall.N beta m
          - m / beta * exp (-beta ^ 2 / 2) / (m - 1)) < Phi beta := by
        rw [one_div, inv_mul_lt_iff₀ hs]
        linarith
      have hP := h (Phi (-beta) + 1 / √(2 * π) * (q / CrystalBall.N beta m
          - m / beta * exp (-beta ^ 2 / 2) / (m - 1))) (by
            have := Phi_pos (-beta)
            linarith) (by
            rw [Phi_neg]
            linarith)
      have hle : -beta ≤ ninv (Phi (-beta) + 1 / √(2 * π) * (q / CrystalBall.N beta m
          - m / beta * exp (-beta ^ 2 / 2) / (m - 1))) := by
        refine Phi_strictMono.le_iff_le.1 ?_
        rw [hP]
        linarith
      rw [cb_upper hb hm hle, hP]
      field_simp
      ring
  have hP : IsPpf univ (CrystalBall.cdf beta m) (CrystalBall.ppf ninv beta m) :=
    ⟨fun _ _ _ => mem_univ _, hcp, fun x _ => cb_mem hb hm x, fun x _ =>
      (cb_mono hb hm).injective (hcp _ (cb_mem hb hm x).1 (cb_mem hb hm x).2)⟩
  refine ⟨isCdf_of_ppf isOpen_univ ordConnected_univ (fun x _ => cb_deriv hb hm x)
    (fun x _ => (cb_pdf_pos hb hm x).le) hP, hP, fun x _ => ⟨cb_pdf_pos hb hm x, ?_⟩⟩
  rw [CrystalBall.pdf, CrystalBall.logpdf]
  split_ifs with hx
  · rw [log_mul hN.ne' (exp_ne_zero _), log_exp]
  · have h3 : 0 < m / beta - beta - x := by linarith
    have := rpow_pos_of_pos h3 (-m)
    rw [log_mul hN.ne' (by positivity), log_mul (by positivity) (by positivity),
      log_mul (by positivity) (by positivity), log_exp, log_rpow h2, log_rpow h3]
    ring

example : (0 : ℝ) < 1 ∧ (1 : ℝ) < 3 ∧ CrystalBall.pdf 1 2 0 = CrystalBall.N 1 2 := by
  refine ⟨one_pos, by norm_num, ?_⟩
  rw [CrystalBall.pdf, if_pos (by norm_num)]
  simp

/-- What is assumed of `scipy.integrate.quad`: it returns the integral over the interval. -/
structure IsQuad (quad : (ℝ → ℝ) → Option ℝ → Option ℝ → ℝ) : Prop where
  left : ∀ f b, Integrable f → quad f none (some b) = ∫ t in Iic b, f t
  mid : ∀ f a b, a ≤ b → Integrable f → quad f (some a) (some b) = ∫ t in Ioc a b, f t

theorem exists_quad : ∃ quad, IsQuad quad :=
  ⟨fun f a b => match a, b with
    | none, some b => ∫ t in Iic b, f t
    | some a, some b => ∫ t in Ioc a b, f t
    | _, none => 0, ⟨fun _ _ _ => rfl, fun _ _ _ _ _ => rfl⟩⟩

theorem sn_integrable (a : ℝ) : Integrable (SkewNorm.pdf a) := by
  have h : SkewNorm.pdf a = fun x => 2 * (phi x * Phi (a * x)) := by
    funext x
    rw [SkewNorm.pdf, norm_pdf_eq, Norm.cdf]
    ring
  rw [h]
  refine (integrable_phi.mul_bdd (c := 1) ?_ (Eventually.of_forall fun x => ?_)).const_mul 2
  · exact (continuous_Phi.comp (continuous_const.mul continuous_id)).aestronglyMeasurable
  · rw [norm_of_nonneg (Phi_nonneg _)]
    exact Phi_le_one _

theorem sn_nonneg (a x : ℝ) : 0 ≤ SkewNorm.pdf a x := by
  have h1 := norm_pdf_pos x
  have h2 := Phi_pos (a * x)
  rw [SkewNorm.pdf, Norm.cdf]
  positivity

theorem sn_neg (a x : ℝ) : SkewNorm.pdf a (-x) = SkewNorm.pdf (-a) x := by
  rw [SkewNorm.pdf, SkewNorm.pdf, norm_pdf_eq, norm_pdf_eq, phi_neg, neg_mul, mul_neg]

theorem sn_total (a : ℝ) : ∫ t, SkewNorm.pdf a t = 1 := by
  have h1 : ∫ t, SkewNorm.pdf a t = ∫ t, SkewNorm.pdf (-a) t := by
    rw [← integral_neg_eq_self]
    simp only [sn_neg]
  have h2 : (∫ t, SkewNorm.pdf a t) + ∫ t, SkewNorm.pdf (-a) t = 2 := by
    rw [← integral_add (sn_integrable a) (sn_integrable (-a))]
    have : ∀ t, SkewNorm.pdf a t + SkewNorm.pdf (-a) t = 2 * phi t := by
      intro t
      rw [SkewNorm.pdf, SkewNorm.pdf, norm_pdf_eq, Norm.cdf, Norm.cdf, neg_mul, Phi_neg]
      ring
    simp only [this]
    rw [integral_const_mul, ← phi_eq, ProbabilityTheory.integral_gaussianPDFReal_eq_one 0 one_ne,
      mul_one]
  linarith

theorem sn_cdf_eq {quad : (ℝ → ℝ) → Option ℝ → Option ℝ → ℝ} (hq : IsQuad quad) (a x : ℝ) :
    SkewNorm.cdf quad a x = ∫ t in Iic x, SkewNorm.pdf a t := by
  have hI := sn_integrable a
  have h1 : (if x ≤ 0 then quad (SkewNorm.pdf a) none (some x)
      else quad (SkewNorm.pdf a) none (some 0) + quad (SkewNorm.pdf a) (some 0) (some x))
      = ∫ t in Iic x, SkewNorm.pdf a t := by
    split_ifs with h
    · exact hq.left _ _ hI
    · have h : 0 ≤ x := (not_le.1 h).le
      rw [hq.left _ _ hI, hq.mid _ _ _ h hI, ← setIntegral_union (by
        rw [Set.disjoint_left]
        intro t h1 h2
        exact absurd h1 (not_le.2 h2.1)) measurableSet_Ioc hI.integrableOn hI.integrableOn,
        Iic_union_Ioc_eq_Iic h]
  have h2 : ∫ t in Iic x, SkewNorm.pdf a t ≤ 1 := by
    rw [← sn_total a]
    exact setIntegral_le_integral hI (Eventually.of_forall fun t => sn_nonneg a t)
  simp only [SkewNorm.cdf]
  rw [h1, if_neg (not_lt.2 h2)]

/-- The skew normal distribution. -/
theorem C263_skewnorm {quad : (ℝ → ℝ) → Option ℝ → Option ℝ → ℝ} (hq : IsQuad quad) (a : ℝ) :
    IsCdf univ (SkewNorm.pdf a) (SkewNorm.cdf quad a) ∧
    IsSf univ (SkewNorm.cdf quad a) (SkewNorm.sf quad a) := by
  have hI := sn_integrable a
  have hs : ∀ x, (∫ t in Iic x, SkewNorm.pdf a t) + ∫ t in Ioi x, SkewNorm.pdf a t = 1 := by
    intro x
    rw [← sn_total a]
    exact intervalIntegral.integral_Iic_add_Ioi hI.integrableOn hI.integrableOn
  refine ⟨⟨fun x _ => sn_nonneg a x, hI.integrableOn, ?_, fun x _ => ?_, fun x _ => ?_⟩,
    fun x _ => ?_⟩
  · rw [setIntegral_univ, sn_total]
  · rw [univ_inter, sn_cdf_eq hq]
  · rw [univ_inter, sn_cdf_eq hq]
    linarith [hs x]
  · rw [SkewNorm.sf, sn_cdf_eq hq, sn_cdf_eq hq]
    have h1 := integral_comp_neg_Iic (-x) (SkewNorm.pdf a)
    simp only [sn_neg, neg_neg] at h1
    rw [h1]
    linarith [hs x]

example : (∃ quad, IsQuad quad) ∧ SkewNorm.pdf 5 0 = Norm.pdf 0 := by
  refine ⟨exists_quad, ?_⟩
  rw [SkewNorm.pdf, mul_zero, Norm.cdf, Phi_zero]
  ring

end Wafo.Dist
