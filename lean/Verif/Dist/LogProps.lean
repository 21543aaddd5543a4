import Verif.Dist.LogLemmas
import Verif.Dist.NormEntProps

/-!
# C267: logarithms of gamma variables

Density, distribution function, quantiles and sampling of `loggamma`; the reported moments of
`loggamma`, `gumbel_l`, `gumbel_r`, `moyal`, `genlogistic` and `logistic`.
-/

namespace Wafo.Dist

open MeasureTheory Set Filter Topology Real

set_option linter.unusedSectionVars false

/-! ### Cumulants -/

/-- The first four cumulants of a function on a probability space. -/
structure Cum {Ω : Type*} [MeasurableSpace Ω] (μ : Measure Ω) (F : Ω → ℝ) (k1 k2 k3 k4 : ℝ) : Prop where
  m0 : PInt μ (fun p => F p ^ 0) 1
  m1 : PInt μ (fun p => F p ^ 1) k1
  m2 : PInt μ (fun p => F p ^ 2) (k1 ^ 2 + k2)
  m3 : PInt μ (fun p => F p ^ 3) (k1 ^ 3 + 3 * k1 * k2 + k3)
  m4 : PInt μ (fun p => F p ^ 4) (k1 ^ 4 + 6 * k1 ^ 2 * k2 + 3 * k2 ^ 2 + 4 * k1 * k3 + k4)

theorem Cum.affine {Ω : Type*} [MeasurableSpace Ω] {μ : Measure Ω} {F : Ω → ℝ} {k1 k2 k3 k4 : ℝ}
    (h : Cum μ F k1 k2 k3 k4) (e b : ℝ) :
    Cum μ (fun p => e * F p + b) (e * k1 + b) (e ^ 2 * k2) (e ^ 3 * k3) (e ^ 4 * k4) := by
  obtain ⟨m0, m1, m2, m3, m4⟩ := h
  refine ⟨?_, ?_, ?_, ?_, ?_⟩
  · exact m0.congr (fun p => by rw [pow_zero, pow_zero]) rfl
  · exact ((m1.const_mul e).add (m0.const_mul b)).congr (fun p => by ring) (by ring)
  · exact (((m2.const_mul (e ^ 2)).add (m1.const_mul (2 * e * b))).add (m0.const_mul (b ^ 2))).congr
      (fun p => by ring) (by ring)
  · exact ((((m3.const_mul (e ^ 3)).add (m2.const_mul (3 * e ^ 2 * b))).add
      (m1.const_mul (3 * e * b ^ 2))).add (m0.const_mul (b ^ 3))).congr
      (fun p => by ring) (by ring)
  · exact (((((m4.const_mul (e ^ 4)).add (m3.const_mul (4 * e ^ 3 * b))).add
      (m2.const_mul (6 * e ^ 2 * b ^ 2))).add (m1.const_mul (4 * e * b ^ 3))).add
      (m0.const_mul (b ^ 4))).congr (fun p => by ring) (by ring)

/-- Cumulants of independent variables add. -/
theorem Cum.add {μ ν : Measure ℝ} [SFinite μ] [SFinite ν] {F G : ℝ → ℝ} {k1 k2 k3 k4 l1 l2 l3 l4 : ℝ}
    (h : Cum μ F k1 k2 k3 k4) (g : Cum ν G l1 l2 l3 l4) :
    Cum (μ.prod ν) (fun p => F p.1 + G p.2) (k1 + l1) (k2 + l2) (k3 + l3) (k4 + l4) := by
  obtain ⟨m0, m1, m2, m3, m4⟩ := h
  obtain ⟨n0, n1, n2, n3, n4⟩ := g
  refine ⟨?_, ?_, ?_, ?_, ?_⟩
  · exact (m0.prod n0).congr (fun p => by norm_num) (by norm_num)
  · exact ((m1.prod n0).add (m0.prod n1)).congr (fun p => by ring) (by ring)
  · exact (((m2.prod n0).add ((m1.prod n1).const_mul 2)).add (m0.prod n2)).congr
      (fun p => by ring) (by ring)
  · exact ((((m3.prod n0).add ((m2.prod n1).const_mul 3)).add ((m1.prod n2).const_mul 3)).add
      (m0.prod n3)).congr (fun p => by ring) (by ring)
  · exact (((((m4.prod n0).add ((m3.prod n1).const_mul 4)).add ((m2.prod n2).const_mul 6)).add
      ((m1.prod n3).const_mul 4)).add (m0.prod n4)).congr (fun p => by ring) (by ring)

/-- The raw moments of a variable with known cumulants and law. -/
theorem Cum.moments {Ω : Type*} [MeasurableSpace Ω] {μ : Measure Ω} {F : Ω → ℝ} {k1 k2 k3 k4 : ℝ}
    (h : Cum μ F k1 k2 k3 k4) (hF : Measurable F) {pdf : ℝ → ℝ} (hl : HasLaw (μ.map F) univ pdf)
    (hm : Measurable pdf) (hn : ∀ x ∈ univ, 0 ≤ pdf x) :
    HasMoment univ pdf 0 1 ∧ HasMoment univ pdf 1 k1 ∧ HasMoment univ pdf 2 (k1 ^ 2 + k2) ∧
    HasMoment univ pdf 3 (k1 ^ 3 + 3 * k1 * k2 + k3) ∧
    HasMoment univ pdf 4 (k1 ^ 4 + 6 * k1 ^ 2 * k2 + 3 * k2 ^ 2 + 4 * k1 * k3 + k4) := by
  have fin : ∀ (n : ℕ) (v : ℝ), PInt μ (fun p => F p ^ n) v → HasMoment univ pdf n v := fun n v h =>
    (hl.int_iff MeasurableSet.univ hm hn).1 ((pint_map hF (k := fun x => x ^ n) (by fun_prop)).2 h)
  exact ⟨fin 0 _ h.m0, fin 1 _ h.m1, fin 2 _ h.m2, fin 3 _ h.m3, fin 4 _ h.m4⟩

theorem Cum.stats {Ω : Type*} [MeasurableSpace Ω] {μ : Measure Ω} {F : Ω → ℝ} {k1 k2 k3 k4 : ℝ}
    (h : Cum μ F k1 k2 k3 k4) (hF : Measurable F) {pdf : ℝ → ℝ} (hl : HasLaw (μ.map F) univ pdf)
    (hm : Measurable pdf) (hn : ∀ x ∈ univ, 0 ≤ pdf x) {m v g1 g2 : ℝ} (h1 : m = k1) (h2 : v = k2)
    (h3 : 0 < v → g1 * v ^ (3 / 2 : ℝ) = k3) (h4 : 0 < v → g2 * v ^ 2 = k4) :
    HasStats univ pdf (m, v, g1, g2) := by
  obtain ⟨m0, m1, m2, m3, m4⟩ := h.moments hF hl hm hn
  subst h1
  refine hasStats_of_raw MeasurableSet.univ hn m0 m1 m2 m3 m4 ?_ (fun hv => ?_) (fun hv => ?_)
  · rw [h2]
    ring
  · rw [h3 hv]
    ring
  · rw [add_mul, h4 hv, h2]
    ring

/-! ### The logarithm of a gamma variable -/

theorem gamma_pdf_meas (c : ℝ) : Measurable (GammaD.pdf c) := by
  unfold GammaD.pdf GammaD.logpdf xlogy
  fun_prop

theorem gamma_pdf_eq {c t : ℝ} (hc : 0 < c) (ht : 0 < t) :
    GammaD.pdf c t = 1 / Gamma c * (t ^ (c - 1) * exp (-t)) := by
  have hG := Gamma_pos_of_pos hc
  rw [GammaD.pdf, GammaD.logpdf, xlogy, gammaln, abs_of_pos hG, exp_sub, exp_sub, exp_log hG,
    rpow_def_of_pos ht, mul_comm (c - 1), exp_neg]
  field_simp

theorem loggamma_cum {c : ℝ} (hc : 0 < c) {μ : Measure ℝ} (hμ : HasLaw μ (Ioi 0) (GammaD.pdf c)) :
    Cum μ log (psi c) (polygamma 1 c) (polygamma 2 c) (polygamma 3 c) := by
  have hG := Gamma_pos_of_pos hc
  obtain ⟨e0, e1, e2, e3, e4⟩ := Gamma_iter c hc
  have fin : ∀ (n : ℕ) (v : ℝ), iteratedDeriv n Gamma c = Gamma c * v →
      PInt μ (fun t => log t ^ n) v := fun n v hv =>
    (hμ.int_iff measurableSet_Ioi (gamma_pdf_meas c) (fun x _ => (exp_pos _).le)).2
      (((hasInt_log_pow n hc).const_mul (1 / Gamma c)).congr measurableSet_Ioi
        (fun t ht => by rw [gamma_pdf_eq hc ht]; ring) (by rw [hv]; field_simp))
  exact ⟨fin 0 _ (by rw [e0, mul_one]), fin 1 _ e1, fin 2 _ e2, fin 3 _ e3, fin 4 _ e4⟩

/-- `loggamma`: density, distribution function and quantiles. -/
theorem C267_loggamma {inv cinv : ℝ → ℝ → ℝ} (h : IsGammaInv inv cinv) (c : ℝ) (hc : 0 < c) :
    IsCdf univ (LogGamma.pdf c) (LogGamma.cdf c) ∧
    IsPpf univ (LogGamma.cdf c) (LogGamma.ppf inv c) := by
  have hG := Gamma_pos_of_pos hc
  exact gamma_comp h hc isOpen_univ ordConnected_univ (g := exp) (gi := log) (g' := exp)
    (fun x _ => exp_pos x) (fun y _ => mem_univ _) (fun x _ => log_exp x) (fun y hy => exp_log hy)
    (fun x _ => hasDerivAt_exp x) (fun x _ => (exp_pos x).le) (fun x _ => by
      rw [LogGamma.pdf, gammaln, abs_of_pos hG, exp_sub, exp_sub, exp_log hG,
        rpow_def_of_pos (exp_pos x), log_exp, exp_neg, show c * x = x * (c - 1) + x by ring, exp_add]
      field_simp)

example : (0 : ℝ) < 1 ∧ LogGamma.pdf 1 0 = exp (-1) := by
  refine ⟨one_pos, ?_⟩
  norm_num [LogGamma.pdf, gammaln]

/-- `loggamma`: the logarithm of a gamma draw. -/
theorem C267_loggamma_rvs (c : ℝ) (hc : 0 < c) (μ : Measure ℝ) (hμ : HasLaw μ (Ioi 0) (GammaD.pdf c)) :
    HasLaw (μ.map LogGamma.rvs) univ (LogGamma.pdf c) := by
  have hG := Gamma_pos_of_pos hc
  refine hμ.comp (gi := exp) (gi' := exp) measurable_log MeasurableSet.univ
    (fun x _ => exp_pos x) (fun x _ => mem_univ _) (fun x hx => exp_log hx) (fun x _ => log_exp x)
    (fun x _ => hasDerivAt_exp x) (fun x _ => ?_)
  rw [GammaD.pdf, GammaD.logpdf, xlogy, log_exp, abs_of_pos (exp_pos x), ← exp_add, LogGamma.pdf]
  congr 1
  ring

theorem loggamma_meas (c : ℝ) : Measurable (LogGamma.pdf c) := by
  unfold LogGamma.pdf
  fun_prop

theorem C267_loggamma_stats (c : ℝ) (hc : 0 < c) :
    HasStats univ (LogGamma.pdf c) (LogGamma.stats c) := by
  have hμ : HasLaw ((volume.restrict (Ioi 0)).withDensity fun t => ENNReal.ofReal (GammaD.pdf c t))
    (Ioi 0) (GammaD.pdf c) := rfl
  refine (loggamma_cum hc hμ).stats measurable_log (C267_loggamma_rvs c hc _ hμ) (loggamma_meas c)
    (fun x _ => (exp_pos _).le) rfl rfl (fun hv => ?_) (fun hv => ?_)
  · rw [onehalf_eq, div_mul_cancel₀ _ (rpow_pos_of_pos hv _).ne']
  · rw [← sq, div_mul_cancel₀ _ (pow_pos hv 2).ne']

/-! ### Gumbel distributions -/

theorem gumbel_k : polygamma 1 1 = π * π / 6 ∧ polygamma 2 1 = -2 * hzeta 3 1 ∧
    polygamma 3 1 = π ^ 4 / 15 := by
  obtain ⟨h1, h2, h3⟩ := polygamma_hzeta one_pos
  refine ⟨?_, h2, ?_⟩
  · rw [h1, hzeta_two_one]
    ring
  · rw [h3, hzeta_four_one]
    ring

theorem gumbel_skew : 12 * √6 / π ^ 3 * (π * π / 6) ^ (3 / 2 : ℝ) = 2 := by
  have hp := pi_pos
  have h6 : √6 ^ 2 = 6 := sq_sqrt (by norm_num)
  have : (0 : ℝ) < √6 := by positivity
  rw [rpow_threehalf (by positivity), sqrt_div (by positivity), sqrt_mul_self hp.le]
  field_simp
  norm_num

theorem expon_gamma {μ : Measure ℝ} (hμ : HasLaw μ (Ioi 0) (GammaD.pdf 1)) :
    HasLaw μ (Ioi 0) fun t => exp (-t) :=
  hμ.congr measurableSet_Ioi fun t ht => by
    rw [gamma_pdf_eq one_pos ht, Gamma_one, sub_self, rpow_zero]
    ring

theorem C267_gumbel_l_stats : HasStats univ GumbelL.pdf GumbelL.stats := by
  have hμ : HasLaw ((volume.restrict (Ioi 0)).withDensity fun t => ENNReal.ofReal (GammaD.pdf 1 t))
    (Ioi 0) (GammaD.pdf 1) := rfl
  obtain ⟨h1, h2, h3⟩ := gumbel_k
  have hp := pi_pos
  have e : LogGamma.pdf 1 = GumbelL.pdf := by
    funext x
    simp [LogGamma.pdf, GumbelL.pdf, GumbelL.logpdf, gammaln]
  have hl := C267_loggamma_rvs 1 one_pos _ hμ
  have hm := loggamma_meas 1
  rw [e] at hl hm
  refine (loggamma_cum one_pos hμ).stats measurable_log hl hm
    (fun x _ => (exp_pos _).le) psi_at_one.symm h1.symm (fun hv => ?_) (fun hv => ?_)
  · rw [h2]
    have := gumbel_skew
    linear_combination (-hzeta 3 1) * this
  · rw [h3]
    ring

theorem C267_gumbel_r_stats : HasStats univ GumbelR.pdf GumbelR.stats := by
  have hμ : HasLaw ((volume.restrict (Ioi 0)).withDensity fun t => ENNReal.ofReal (GammaD.pdf 1 t))
    (Ioi 0) (GammaD.pdf 1) := rfl
  obtain ⟨h1, h2, h3⟩ := gumbel_k
  have hp := pi_pos
  have hm : Measurable fun t => -1 * log t + 0 := by fun_prop
  have hl := (expon_gamma hμ).comp (g := fun t => -1 * log t + 0) (gi := fun x => exp (-x))
    (gi' := fun x => -exp (-x)) (pdf := GumbelR.pdf) hm MeasurableSet.univ (fun x _ => exp_pos _)
    (fun x _ => mem_univ _) (fun x hx => by
      show exp (-(-1 * log x + 0)) = x
      rw [show -(-1 * log x + 0) = log x by ring, exp_log hx])
    (fun x _ => by
      show -1 * log (exp (-x)) + 0 = x
      rw [log_exp]
      ring)
    (fun x _ => HasDerivAt.congr_deriv (hasDerivAt_neg x).exp (by ring))
    (fun x _ => by
      rw [abs_neg, abs_of_pos (exp_pos _), ← exp_add, GumbelR.pdf, GumbelR.logpdf]
      congr 1)
  have hpm : Measurable GumbelR.pdf := by
    unfold GumbelR.pdf GumbelR.logpdf
    fun_prop
  refine ((loggamma_cum one_pos hμ).affine (-1) 0).stats hm hl hpm
    (fun x _ => (exp_pos _).le) ?_ ?_ (fun hv => ?_) (fun hv => ?_)
  · rw [psi_at_one]
    ring
  · rw [h1]
    ring
  · rw [h2]
    have := gumbel_skew
    linear_combination (hzeta 3 1) * this
  · rw [h3]
    ring

example : GumbelR.stats.2.1 = π * π / 6 := rfl

/-! ### Moyal -/

theorem moyal_cum {μ : Measure ℝ} (hμ : HasLaw μ (Ioi 0) (GammaD.pdf 0.5)) :
    Cum μ (fun t => -1 * log t + -log 2) (log 2 + eulerMascheroniConstant) (π ^ 2 / 2)
      (14 * hzeta 3 1) (π ^ 4) := by
  have e : (0.5 : ℝ) = 1 / 2 := by norm_num
  rw [e] at hμ
  have h := (loggamma_cum (by norm_num) hμ).affine (-1) (-log 2)
  obtain ⟨h1, h2, h3⟩ := polygamma_hzeta (a := 1 / 2) (by norm_num)
  rw [psi_half, h1, h2, h3, hzeta_half le_rfl, hzeta_half (by norm_num), hzeta_half (by norm_num),
    hzeta_two_one, hzeta_four_one] at h
  convert h using 1 <;> ring

theorem moyal_law {μ : Measure ℝ} (hμ : HasLaw μ (Ioi 0) (GammaD.pdf 0.5)) :
    HasLaw (μ.map fun t => -1 * log t + -log 2) univ Moyal.pdf := by
  have h := C264_moyal μ hμ
  have : μ.map Moyal.rvs = μ.map fun t => -1 * log t + -log 2 := by
    refine Measure.map_congr ?_
    have hz : ∀ᵐ t ∂μ, t ∈ Ioi (0 : ℝ) := by
      rw [HasLaw] at hμ
      rw [hμ]
      exact (withDensity_absolutelyContinuous _ _).ae_le (ae_restrict_mem measurableSet_Ioi)
    filter_upwards [hz] with t ht
    rw [Moyal.rvs, log_mul two_ne_zero (ne_of_gt ht)]
    ring
  rwa [this] at h

theorem moyal_meas : Measurable Moyal.pdf := by
  unfold Moyal.pdf
  fun_prop

theorem moyal_nonneg : ∀ x ∈ univ, 0 ≤ Moyal.pdf x := fun x _ => by
  rw [Moyal.pdf]
  positivity

/-- `moyal`: all four statistics. -/
theorem C267_moyal_stats : HasStats univ Moyal.pdf (Moyal.stats (hzeta 3 1)) := by
  have hμ : HasLaw ((volume.restrict (Ioi 0)).withDensity fun t => ENNReal.ofReal (GammaD.pdf 0.5 t))
    (Ioi 0) (GammaD.pdf 0.5) := rfl
  refine (moyal_cum hμ).stats (by fun_prop) (moyal_law hμ) moyal_meas moyal_nonneg rfl rfl
    (fun hv => ?_) (fun hv => ?_)
  · have hp := pi_pos
    have h2 : √2 ^ 2 = 2 := sq_sqrt (by norm_num)
    have : (0 : ℝ) < √2 := by positivity
    rw [rpow_threehalf (by positivity), sqrt_div (by positivity), sqrt_sq hp.le]
    field_simp
    ring
  · ring

/-- `moyal`: the raw moments of order one to four. -/
theorem C267_moyal_munp (mom1 : ℕ → ℝ) (n : ℕ) (h1 : 1 ≤ n) (h4 : n ≤ 4) :
    HasMoment univ Moyal.pdf n (Moyal.munp mom1 n) := by
  have hμ : HasLaw ((volume.restrict (Ioi 0)).withDensity fun t => ENNReal.ofReal (GammaD.pdf 0.5 t))
    (Ioi 0) (GammaD.pdf 0.5) := rfl
  obtain ⟨-, m1, m2, m3, m4⟩ :=
    (moyal_cum hμ).moments (by fun_prop) (moyal_law hμ) moyal_meas moyal_nonneg
  interval_cases n
  · exact m1
  · convert m2 using 1
    norm_num [Moyal.munp]
    ring
  · convert m3 using 1
    norm_num [Moyal.munp]
    ring
  · convert m4 using 1
    norm_num [Moyal.munp]
    ring

/-! ### Generalised logistic distribution -/

theorem mix_law_ae {μ ν : Measure ℝ} [SFinite μ] [SFinite ν] {G : ℝ × ℝ → ℝ} (hG : Measurable G)
    {h : ℝ → ℝ → ENNReal} (hh : Measurable (fun p : ℝ × ℝ => h p.1 p.2))
    (e : ∀ᵐ u ∂μ, ∀ s, MeasurableSet s → ν ((fun v => G (u, v)) ⁻¹' s) = ∫⁻ r in s, h u r) :
    (μ.prod ν).map G = volume.withDensity fun r => ∫⁻ u, h u r ∂μ := by
  refine Measure.ext fun s hs => ?_
  rw [Measure.map_apply hG hs, Measure.prod_apply (hG hs), withDensity_apply _ hs]
  have : ∫⁻ u, ν (Prod.mk u ⁻¹' (G ⁻¹' s)) ∂μ = ∫⁻ u, (∫⁻ r in s, h u r) ∂μ := by
    refine lintegral_congr_ae ?_
    filter_upwards [e] with u hu using hu s hs
  rw [this]
  exact lintegral_lintegral_swap hh.aemeasurable

theorem gl_inner {c : ℝ} (hc : 0 < c) (x : ℝ) :
    ∫⁻ u in Ioi 0, ENNReal.ofReal (GammaD.pdf c u) * ENNReal.ofReal (u * exp (-x) * exp (-(u * exp (-x))))
      = ENNReal.ofReal (GenLogistic.pdf c x) := by
  have hG := Gamma_pos_of_pos hc
  have hr : 0 < 1 + exp (-x) := by positivity
  have e1 : ∀ u ∈ Ioi (0 : ℝ),
      ENNReal.ofReal (GammaD.pdf c u) * ENNReal.ofReal (u * exp (-x) * exp (-(u * exp (-x))))
      = ENNReal.ofReal (exp (-x) / Gamma c * (u ^ (c + 1 - 1) * exp (-((1 + exp (-x)) * u)))) := by
    intro u hu
    have hu : 0 < u := hu
    rw [← ENNReal.ofReal_mul (show 0 ≤ GammaD.pdf c u from (exp_pos _).le), gamma_pdf_eq hc hu, add_sub_cancel_right, rpow_sub_one hu.ne',
      show -((1 + exp (-x)) * u) = -u + -(u * exp (-x)) by ring, exp_add]
    congr 1
    field_simp
  have hI : IntegrableOn (fun u : ℝ => exp (-x) / Gamma c
      * (u ^ (c + 1 - 1) * exp (-((1 + exp (-x)) * u)))) (Ioi 0) := by
    refine Integrable.const_mul ?_ _
    refine (integrableOn_congr_fun (fun u _ => ?_) measurableSet_Ioi).2
      (integrableOn_rpow_mul_exp_neg_mul_rpow (s := c) (p := 1) (by linarith) one_pos hr)
    rw [rpow_one, add_sub_cancel_right, neg_mul]
  rw [setLIntegral_congr_fun measurableSet_Ioi e1, ← ofReal_integral_eq_lintegral_ofReal hI
    ((ae_restrict_iff' measurableSet_Ioi).2 (Eventually.of_forall fun u hu => ?_)),
    integral_const_mul, integral_rpow_mul_exp_neg_mul_Ioi (by linarith) hr, Gamma_add_one hc.ne']
  · congr 1
    rw [GenLogistic.pdf, GenLogistic.logpdf, log1p, exp_sub, exp_sub, exp_log hc, mul_comm (c + 1),
      ← rpow_def_of_pos hr, one_div, inv_rpow hr.le, exp_neg]
    field_simp
  · have hu : 0 < u := hu
    positivity

/-- The logarithm of the quotient of a gamma and an exponential variable. -/
theorem gl_law {c : ℝ} (hc : 0 < c) {μ ν : Measure ℝ} [SFinite μ] [SFinite ν]
    (hμ : HasLaw μ (Ioi 0) (GammaD.pdf c)) (hν : HasLaw ν (Ioi 0) fun t => exp (-t)) :
    HasLaw ((μ.prod ν).map fun p => log p.1 + (-1 * log p.2 + 0)) univ (GenLogistic.pdf c) := by
  have hz : ∀ᵐ t ∂μ, t ∈ Ioi (0 : ℝ) := by
    rw [HasLaw] at hμ
    rw [hμ]
    exact (withDensity_absolutelyContinuous _ _).ae_le (ae_restrict_mem measurableSet_Ioi)
  have hh : Measurable (fun p : ℝ × ℝ => ENNReal.ofReal (p.1 * exp (-p.2) * exp (-(p.1 * exp (-p.2))))) := by
    fun_prop
  have hu : ∀ u : ℝ, 0 < u → ∀ s, MeasurableSet s → ν ((fun v => log u + (-1 * log v + 0)) ⁻¹' s)
      = ∫⁻ r in s, ENNReal.ofReal (u * exp (-r) * exp (-(u * exp (-r)))) := by
    intro u hu s hs
    have hm : Measurable fun v => log u + (-1 * log v + 0) := by fun_prop
    have hl := hν.comp (g := fun v => log u + (-1 * log v + 0)) (gi := fun x => u * exp (-x))
      (gi' := fun x => -(u * exp (-x))) (pdf := fun x => u * exp (-x) * exp (-(u * exp (-x)))) hm
      MeasurableSet.univ (fun x _ => mul_pos hu (exp_pos _))
      (fun x _ => mem_univ _) (fun v hv => by
        have hv : 0 < v := hv
        show u * exp (-(log u + (-1 * log v + 0))) = v
        rw [show -(log u + (-1 * log v + 0)) = log v - log u by ring, exp_sub, exp_log hv, exp_log hu]
        field_simp)
      (fun x _ => by
        show log u + (-1 * log (u * exp (-x)) + 0) = x
        rw [log_mul hu.ne' (exp_ne_zero _), log_exp]
        ring)
      (fun x _ => HasDerivAt.congr_deriv ((hasDerivAt_neg x).exp.const_mul u) (by ring))
      (fun x _ => by
        rw [abs_neg, abs_of_pos (mul_pos hu (exp_pos _))])
    rw [← Measure.map_apply hm hs, hl.apply hs, inter_univ]
  rw [mix_law_ae (by fun_prop) hh (by
    filter_upwards [hz] with u hu0 using hu u hu0), HasLaw, Measure.restrict_univ]
  congr 1
  funext r
  have hm1 : Measurable fun u : ℝ => ENNReal.ofReal (u * exp (-r) * exp (-(u * exp (-r)))) := by fun_prop
  rw [HasLaw] at hμ
  rw [← gl_inner hc r, hμ, lintegral_withDensity_eq_lintegral_mul _ (gamma_pdf_meas c).ennreal_ofReal hm1]
  rfl

theorem C267_genlogistic_stats (c : ℝ) (hc : 0 < c) :
    HasStats univ (GenLogistic.pdf c) (GenLogistic.stats c) := by
  have hμ : HasLaw ((volume.restrict (Ioi 0)).withDensity fun t => ENNReal.ofReal (GammaD.pdf c t))
    (Ioi 0) (GammaD.pdf c) := rfl
  have hν : HasLaw ((volume.restrict (Ioi 0)).withDensity fun t => ENNReal.ofReal (GammaD.pdf 1 t))
    (Ioi 0) (GammaD.pdf 1) := rfl
  obtain ⟨h1, h2, h3⟩ := gumbel_k
  obtain ⟨a1, a2, a3⟩ := polygamma_hzeta hc
  have hpm : Measurable (GenLogistic.pdf c) := by
    unfold GenLogistic.pdf GenLogistic.logpdf log1p
    fun_prop
  refine ((loggamma_cum hc hμ).add ((loggamma_cum one_pos hν).affine (-1) 0)).stats (by fun_prop)
    (gl_law hc hμ (expon_gamma hν)) hpm (fun x _ => (exp_pos _).le) ?_ ?_ (fun hv => ?_) (fun hv => ?_)
  · rw [psi_at_one]
    ring
  · rw [h1, a1]
    ring
  · rw [h2, a2, onehalf_eq, div_mul_cancel₀ _ (rpow_pos_of_pos hv _).ne']
    ring
  · rw [h3, a3, div_mul_cancel₀ _ (pow_pos hv 2).ne']
    ring

theorem C267_logistic_stats : HasStats univ Logistic.pdf Logistic.stats := by
  have h := C267_genlogistic_stats 1 one_pos
  have hp := pi_pos
  have e1 : GenLogistic.pdf 1 = Logistic.pdf := by
    funext x
    simp only [GenLogistic.pdf, GenLogistic.logpdf, Logistic.pdf, Logistic.logpdf, log_one]
    congr 1
    ring
  have e2 : GenLogistic.stats 1 = Logistic.stats := by
    simp only [GenLogistic.stats, Logistic.stats, psi_at_one, hzeta_two_one, hzeta_four_one, Prod.mk.injEq]
    refine ⟨by ring, by ring, ?_, ?_⟩
    · rw [show -2 * hzeta 3 1 + 2 * hzeta 3 1 = 0 by ring, zero_div]
    · field_simp
      ring
  rwa [e1, e2] at h

example : Logistic.stats.2.2.2 = 6 / 5 := rfl

end Wafo.Dist
