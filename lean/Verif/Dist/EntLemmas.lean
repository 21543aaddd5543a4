import Verif.Dist.MomPowProps
import Verif.Dist.ExpProps
import Verif.Dist.EntModel
import Mathlib.NumberTheory.Harmonic.GammaDeriv
import Mathlib.Analysis.SpecialFunctions.Integrals.LogTrigonometric

namespace Wafo.Dist

open MeasureTheory Set Filter Topology Real

set_option linter.unusedSectionVars false

/-- The derivative of the gamma function as an integral. -/
theorem hasInt_log_gamma (a : ℝ) (ha : 0 < a) :
    HasInt (Ioi 0) (fun t => log t * (t ^ (a - 1) * exp (-t))) (deriv Gamma a) := by
  have hs : 0 < (a : ℂ).re := by simpa using ha
  have hm := mellin_hasDerivAt_of_isBigO_rpow (E := ℂ) (f := fun t : ℝ => ((exp (-t) : ℝ) : ℂ))
    (a := (a : ℂ).re + 1) (b := 0) (s := (a : ℂ)) ?_ ?_ (lt_add_one _) ?_ hs
  rotate_left
  · refine (Continuous.continuousOn ?_).locallyIntegrableOn measurableSet_Ioi
    exact Complex.continuous_ofReal.comp (Real.continuous_exp.comp continuous_neg)
  · rw [← Asymptotics.isBigO_norm_left]
    simp_rw [Complex.norm_real, Asymptotics.isBigO_norm_left]
    simpa only [neg_one_mul] using (isLittleO_exp_neg_mul_rpow_atTop zero_lt_one _).isBigO
  · simp_rw [neg_zero, rpow_zero]
    refine Asymptotics.isBigO_const_of_tendsto (?_ : Tendsto _ _ (𝓝 (1 : ℂ))) one_ne_zero
    rw [(by simp : (1 : ℂ) = Real.exp (-0))]
    exact (Complex.continuous_ofReal.comp (Real.continuous_exp.comp continuous_neg)).continuousWithinAt
  have e : ∀ t ∈ Ioi (0 : ℝ), (t : ℂ) ^ ((a : ℂ) - 1) • (log t • ((exp (-t) : ℝ) : ℂ)) =
      ((log t * (t ^ (a - 1) * exp (-t)) : ℝ) : ℂ) := by
    intro t ht
    rw [show (a : ℂ) - 1 = ((a - 1 : ℝ) : ℂ) by push_cast; ring,
      ← Complex.ofReal_cpow (mem_Ioi.1 ht).le, smul_eq_mul, Complex.real_smul]
    push_cast
    ring
  have hint : IntegrableOn (fun t => log t * (t ^ (a - 1) * exp (-t))) (Ioi 0) := by
    have h1 := hm.1
    unfold MellinConvergent at h1
    have h2 := IntegrableOn.congr_fun h1 e measurableSet_Ioi
    have h3 := h2.re
    refine h3.congr ?_
    exact Eventually.of_forall fun t => Complex.ofReal_re _
  refine ⟨hint, ?_⟩
  have h4 : HasDerivAt Complex.Gamma
      ((∫ t in Ioi (0 : ℝ), log t * (t ^ (a - 1) * exp (-t)) : ℝ) : ℂ) (a : ℂ) := by
    have h5 := hm.2
    unfold mellin at h5
    rw [setIntegral_congr_fun measurableSet_Ioi e, integral_complex_ofReal] at h5
    refine h5.congr_of_eventuallyEq ?_
    have : ∀ᶠ z in 𝓝 (a : ℂ), 0 < z.re :=
      (Complex.continuous_re.continuousAt).eventually (lt_mem_nhds hs)
    filter_upwards [this] with z hz
    rw [Complex.Gamma_eq_integral hz, Complex.GammaIntegral_eq_mellin]
    rfl
  have h6 := h4.real_of_complex
  have h7 : HasDerivAt Gamma (∫ t in Ioi (0 : ℝ), log t * (t ^ (a - 1) * exp (-t))) a := by
    rw [Complex.ofReal_re] at h6
    refine h6.congr_of_eventuallyEq ?_
    filter_upwards with x
    rw [Complex.Gamma_ofReal, Complex.ofReal_re]
  exact h7.deriv.symm

/-- Change of variables from a function of a gamma variable to the gamma variable. -/
theorem gamma_subst {I : Set ℝ} (hI : MeasurableSet I) {a : ℝ} {g gi g' pdf : ℝ → ℝ}
    (hg : ∀ x ∈ I, 0 < g x) (hi : ∀ y : ℝ, 0 < y → gi y ∈ I)
    (h1 : ∀ x ∈ I, gi (g x) = x) (h2 : ∀ y : ℝ, 0 < y → g (gi y) = y)
    (hd : ∀ x ∈ I, HasDerivAt g (g' x) x)
    (hp : ∀ x ∈ I, pdf x = g x ^ (a - 1) * exp (-g x) / Gamma a * |g' x|) {k : ℝ → ℝ} {v : ℝ}
    (hk : HasInt (Ioi 0) (fun y => k y * (y ^ (a - 1) * exp (-y) / Gamma a)) v) :
    HasInt I (fun x => k (g x) * pdf x) v := by
  have hinj : InjOn g I := fun x hx y hy h => by rw [← h1 x hx, ← h1 y hy, h]
  have him : g '' I = Ioi 0 := by
    apply Subset.antisymm
    · rintro _ ⟨x, hx, rfl⟩
      exact hg x hx
    · intro y hy
      exact ⟨gi y, hi y hy, h2 y hy⟩
  have hd' : ∀ x ∈ I, HasDerivWithinAt g (g' x) I x := fun x hx => (hd x hx).hasDerivWithinAt
  have key := integral_image_eq_integral_abs_deriv_smul hI hd' hinj
    (fun y => k y * (y ^ (a - 1) * exp (-y) / Gamma a))
  have keyi := integrableOn_image_iff_integrableOn_abs_deriv_smul hI hd' hinj
    (fun y => k y * (y ^ (a - 1) * exp (-y) / Gamma a))
  rw [him] at key keyi
  have e1 : ∀ x ∈ I, k (g x) * pdf x =
      |g' x| • (k (g x) * (g x ^ (a - 1) * exp (-g x) / Gamma a)) := by
    intro x hx
    rw [hp x hx, smul_eq_mul]
    ring
  exact ⟨(integrableOn_congr_fun e1 hI).2 (keyi.1 hk.1), by
    rw [setIntegral_congr_fun hI e1, ← key, hk.2]⟩

/-- The expected values of a gamma variable, its logarithm and a constant. -/
theorem gamma_expect {a : ℝ} (ha : 0 < a) (u v w : ℝ) :
    HasInt (Ioi 0) (fun y => (u + v * log y + w * y) * (y ^ (a - 1) * exp (-y) / Gamma a))
      (u + v * psi a + w * a) := by
  have hG := (Gamma_pos_of_pos ha).ne'
  have i0 : HasInt (Ioi 0) (fun y => exp (-y) * y ^ (a - 1)) (Gamma a) :=
    ⟨GammaIntegral_convergent ha, (Gamma_eq_integral ha).symm⟩
  have i1 : HasInt (Ioi 0) (fun y => exp (-y) * y ^ (a + 1 - 1)) (Gamma (a + 1)) :=
    ⟨GammaIntegral_convergent (by linarith), (Gamma_eq_integral (by linarith)).symm⟩
  refine HasInt.congr measurableSet_Ioi (((i0.const_mul (u / Gamma a)).add
    ((hasInt_log_gamma a ha).const_mul (v / Gamma a))).add (i1.const_mul (w / Gamma a))) ?_ ?_
  · intro y hy
    have hy : 0 < y := hy
    have : y ^ (a + 1 - 1) = y * y ^ (a - 1) := by
      rw [show a + 1 - 1 = 1 + (a - 1) by ring, rpow_add hy, rpow_one]
    simp only [this]
    field_simp
  · rw [Gamma_add_one ha.ne', psi]
    field_simp

/-- The entropy of a function of a gamma variable whose density has, apart from the factor of the
gamma density, the logarithm `A + B log g + D g`. -/
theorem gamma_entropy {I : Set ℝ} (hI : MeasurableSet I) {a : ℝ} (ha : 0 < a)
    {g gi g' pdf : ℝ → ℝ} (hg : ∀ x ∈ I, 0 < g x) (hi : ∀ y : ℝ, 0 < y → gi y ∈ I)
    (h1 : ∀ x ∈ I, gi (g x) = x) (h2 : ∀ y : ℝ, 0 < y → g (gi y) = y)
    (hd : ∀ x ∈ I, HasDerivAt g (g' x) x)
    (hp : ∀ x ∈ I, pdf x = g x ^ (a - 1) * exp (-g x) / Gamma a * |g' x|) (A B D : ℝ)
    (hA : ∀ x ∈ I, |g' x| = exp (A + B * log (g x) + D * g x)) {h : ℝ}
    (hh : h = a + gammaln a - A - (a - 1 + B) * psi a - D * a) : HasEntropy I pdf h := by
  have hG := Gamma_pos_of_pos ha
  have key := gamma_subst hI hg hi h1 h2 hd hp
    (gamma_expect ha (A - gammaln a) (a - 1 + B) (D - 1))
  have key' : HasInt I (fun x => pdf x * log (pdf x)) (-h) := by
    refine HasInt.congr hI key ?_ (by rw [hh]; ring)
    intro x hx
    have hgx := hg x hx
    have : log (pdf x) = A - gammaln a + (a - 1 + B) * log (g x) + (D - 1) * g x := by
      rw [hp x hx, hA x hx, log_mul (by positivity) (exp_pos _).ne', log_exp,
        log_div (by positivity) hG.ne', log_mul (by positivity) (exp_pos _).ne', log_exp,
        log_rpow hgx, gammaln, abs_of_pos hG]
      ring
    rw [this]
    ring
  exact ⟨key'.1, by rw [key'.2]; ring⟩

theorem psi_one : psi 1 = -euler := by
  rw [psi, Gamma_one, div_one, euler, eulerMascheroniConstant_eq_neg_deriv, neg_neg]

theorem gammaln_one : gammaln 1 = 0 := by
  rw [gammaln, Gamma_one, abs_one, log_one]

/-- The case of an exponential variable. -/
theorem expon_entropy {I : Set ℝ} (hI : MeasurableSet I)
    {g gi g' pdf : ℝ → ℝ} (hg : ∀ x ∈ I, 0 < g x) (hi : ∀ y : ℝ, 0 < y → gi y ∈ I)
    (h1 : ∀ x ∈ I, gi (g x) = x) (h2 : ∀ y : ℝ, 0 < y → g (gi y) = y)
    (hd : ∀ x ∈ I, HasDerivAt g (g' x) x)
    (hp : ∀ x ∈ I, pdf x = exp (-g x) * |g' x|) (A B D : ℝ)
    (hA : ∀ x ∈ I, |g' x| = exp (A + B * log (g x) + D * g x)) {h : ℝ}
    (hh : h = 1 - A + B * euler - D) : HasEntropy I pdf h := by
  refine gamma_entropy hI one_pos hg hi h1 h2 hd (fun x hx => ?_) A B D hA ?_
  · rw [hp x hx, sub_self, rpow_zero, Gamma_one]
    ring
  · rw [hh, psi_one, gammaln_one]
    ring

/-- The entropy through the quantiles. -/
theorem entropy_ppf {I : Set ℝ} {pdf cdf ppf : ℝ → ℝ} (hm : MeasurableSet I) (hI : OrdConnected I)
    (h : IsCdf I pdf cdf) (hp : IsPpf I cdf ppf) (hk : Measurable pdf) {L : ℝ → ℝ} {v e : ℝ}
    (hL : ∀ q ∈ Ioo (0 : ℝ) 1, log (pdf (ppf q)) = L q) (hi : HasInt (Ioo 0 1) L v)
    (he : e = -v) : HasEntropy I pdf e := by
  have key := (hasInt_ppf hm hI h hp (k := fun x => log (pdf x)) (v := v) (by fun_prop)).2
    (hi.congr measurableSet_Ioo hL rfl)
  have key' := HasInt.congr hm key (g := fun x => pdf x * log (pdf x)) (fun x _ => mul_comm _ _) rfl
  exact ⟨key'.1, by rw [key'.2, he]⟩

theorem hasInt_log_q : HasInt (Ioo 0 1) (fun q => log q) (-1) := by
  have h : IntervalIntegrable log volume 0 1 := intervalIntegral.intervalIntegrable_log'
  refine ⟨(integrableOn_Ioc_iff_integrableOn_Ioo).1
    ((intervalIntegrable_iff_integrableOn_Ioc_of_le zero_le_one).1 h), ?_⟩
  rw [← integral_Ioc_eq_integral_Ioo, ← intervalIntegral.integral_of_le zero_le_one,
    integral_log]
  simp

theorem hasInt_log_1q : HasInt (Ioo 0 1) (fun q => log (1 - q)) (-1) :=
  hasInt_flip.2 hasInt_log_q

theorem hasInt_one : HasInt (Ioo 0 1) (fun _ => (1 : ℝ)) 1 :=
  ⟨by simp, by simp⟩

/-- A linear combination of the logarithms of `q` and of `1 - q`. -/
theorem hasInt_logs (a b c : ℝ) :
    HasInt (Ioo 0 1) (fun q => a + b * log q + c * log (1 - q)) (a - b - c) := by
  refine HasInt.congr measurableSet_Ioo (((hasInt_one.const_mul a).add
    (hasInt_log_q.const_mul b)).add (hasInt_log_1q.const_mul c)) (fun q _ => by ring) (by ring)

theorem hasInt_log_sin_pi : HasInt (Ioo 0 1) (fun q => log (sin (π * q))) (-log 2) := by
  have hpi := pi_pos
  have h : IntervalIntegrable (fun x => log (sin x)) volume (π * 0) (π * 1) :=
    intervalIntegrable_log_sin
  have h2 := h.comp_mul_left (c := π)
  have e := intervalIntegral.integral_comp_mul_left (fun x => log (sin x)) hpi.ne' (a := 0) (b := 1)
  rw [mul_div_cancel_left₀ _ hpi.ne', mul_div_cancel_left₀ _ hpi.ne'] at h2
  refine ⟨(integrableOn_Ioc_iff_integrableOn_Ioo).1
    ((intervalIntegrable_iff_integrableOn_Ioc_of_le zero_le_one).1 h2), ?_⟩
  rw [← integral_Ioc_eq_integral_Ioo, ← intervalIntegral.integral_of_le zero_le_one, e, mul_zero,
    mul_one, integral_log_sin_zero_pi, smul_eq_mul]
  field_simp

theorem hasInt_log_sin_half : HasInt (Ioo 0 1) (fun q => log (sin (π / 2 * q))) (-log 2) := by
  have hpi : 0 < π / 2 := by positivity
  have h : IntervalIntegrable (fun x => log (sin x)) volume (π / 2 * 0) (π / 2 * 1) :=
    intervalIntegrable_log_sin
  have h2 := h.comp_mul_left (c := π / 2)
  have e := intervalIntegral.integral_comp_mul_left (fun x => log (sin x)) hpi.ne' (a := 0) (b := 1)
  rw [mul_div_cancel_left₀ _ hpi.ne', mul_div_cancel_left₀ _ hpi.ne'] at h2
  refine ⟨(integrableOn_Ioc_iff_integrableOn_Ioo).1
    ((intervalIntegrable_iff_integrableOn_Ioc_of_le zero_le_one).1 h2), ?_⟩
  rw [← integral_Ioc_eq_integral_Ioo, ← intervalIntegral.integral_of_le zero_le_one, e, mul_zero,
    mul_one, integral_log_sin_zero_pi_div_two, smul_eq_mul]
  field_simp

theorem hasInt_loglog : HasInt (Ioo 0 1) (fun q => log (-log q)) (-euler) := by
  have h := gamma_expect one_pos 0 1 0
  have h2 : HasInt (Ioi 0) (fun x => log x * Expon.pdf x) (-euler) := by
    refine HasInt.congr measurableSet_Ioi h ?_ (by rw [psi_one]; ring)
    intro x _
    rw [Expon.pdf, sub_self, rpow_zero, Gamma_one]
    ring
  exact (hasInt_isf measurableSet_Ioi ordConnected_Ioi C251_expon.1 C251_expon.2.1
    C251_expon.2.2.2.1 measurable_log).1 h2

theorem hasInt_evlogs (a b c d e : ℝ) :
    HasInt (Ioo 0 1) (fun q => a + b * log q + c * log (1 - q) + d * log (-log q) +
      e * log (-log (1 - q))) (a - b - c - d * euler - e * euler) := by
  have h1 := hasInt_loglog
  have h2 : HasInt (Ioo 0 1) (fun q => log (-log (1 - q))) (-euler) :=
    hasInt_flip (k := fun q => log (-log q)) |>.2 h1
  exact HasInt.congr measurableSet_Ioo (((hasInt_logs a b c).add (h1.const_mul d)).add
    (h2.const_mul e)) (fun q _ => by ring) (by ring)

/-- The entropy of a density whose logarithm at the quantiles combines logarithms of the
probability. -/
theorem entropy_evlogs {I : Set ℝ} {pdf cdf ppf : ℝ → ℝ} (hm : IsOpen I) (hI : OrdConnected I)
    (h : IsCdf I pdf cdf) (hp : IsPpf I cdf ppf) (hk : Measurable pdf) (a b c d e : ℝ) {v : ℝ}
    (hL : ∀ q : ℝ, 0 < q → q < 1 → log (pdf (ppf q)) =
      a + b * log q + c * log (1 - q) + d * log (-log q) + e * log (-log (1 - q)))
    (hv : v = b + c + d * euler + e * euler - a) : HasEntropy I pdf v :=
  entropy_ppf hm.measurableSet hI h hp hk (fun q hq => hL q hq.1 hq.2) (hasInt_evlogs a b c d e)
    (by rw [hv]; ring)

/-- The entropy of an even density. -/
theorem even_entropy {f : ℝ → ℝ} (he : ∀ x, f (-x) = f x) (hn : ∀ x ∈ Ioi (0 : ℝ), 0 < f x)
    (h0 : HasInt (Ioi 0) (fun x => 2 * f x) 1) {h : ℝ}
    (h1 : HasEntropy (Ioi 0) (fun x => 2 * f x) h) : HasEntropy univ f (h + log 2) := by
  have i1 : HasInt (Ioi 0) (fun x => 2 * f x * log (2 * f x)) (-h) :=
    ⟨h1.1, by rw [← h1.2, neg_neg]⟩
  have i2 : HasMoment (Ioi 0) (fun x => 2 * (f x * log (f x))) 0 (-h - log 2) := by
    refine HasInt.congr measurableSet_Ioi (i1.add (h0.const_mul (-log 2))) ?_ (by ring)
    intro x hx
    rw [log_mul two_ne_zero (hn x hx).ne']
    ring
  have i3 := even_moment (f := fun x => f x * log (f x)) (fun x => by simp only [he]) i2
  have i4 : HasInt univ (fun x => f x * log (f x)) (-h - log 2) := by
    refine HasInt.congr MeasurableSet.univ (show HasInt univ _ _ from i3) (fun x _ => by simp) ?_
    simp
  exact ⟨i4.1, by rw [i4.2]; ring⟩

end Wafo.Dist
