import Verif.Dist.LogModel
import Verif.Dist.MomLemmas
import Verif.Dist.GammaLemmas
import Mathlib.Probability.Moments.MGFAnalytic
import Mathlib.Analysis.SpecialFunctions.Gamma.Deriv
import Mathlib.Analysis.SpecialFunctions.Log.Deriv
import Mathlib.Analysis.Calculus.SmoothSeries
import Mathlib.Analysis.PSeries
import Mathlib.Analysis.SpecialFunctions.Trigonometric.DerivHyp
import Mathlib.NumberTheory.ZetaValues
import Mathlib.NumberTheory.Harmonic.GammaDeriv

/-!
# Derivatives of the gamma function as moments, and the series of the polygamma functions
-/

namespace Wafo.Dist

open MeasureTheory Set Filter Topology Real ProbabilityTheory

set_option linter.unusedSectionVars false

/-- The measure on the positive axis with respect to which `Gamma` is a moment generating function. -/
noncomputable def gbase : Measure ℝ :=
  (volume.restrict (Ioi 0)).withDensity fun t => ENNReal.ofReal (exp (-t) / t)

theorem gbase_iff {k : ℝ → ℝ} : (Integrable k gbase ↔ IntegrableOn (fun t => k t * (exp (-t) / t)) (Ioi 0)) ∧
    ∫ t, k t ∂gbase = ∫ t in Ioi 0, k t * (exp (-t) / t) := by
  have hm : Measurable fun t : ℝ => ENNReal.ofReal (exp (-t) / t) := by fun_prop
  have hlt : ∀ᵐ x : ℝ ∂volume.restrict (Ioi 0), ENNReal.ofReal (exp (-x) / x) < ⊤ :=
    Eventually.of_forall fun x => ENNReal.ofReal_lt_top
  have e : ∀ x ∈ Ioi (0 : ℝ), (ENNReal.ofReal (exp (-x) / x)).toReal • k x = k x * (exp (-x) / x) :=
    fun x hx => by
      rw [ENNReal.toReal_ofReal (div_nonneg (exp_pos _).le (le_of_lt hx)), smul_eq_mul, mul_comm]
  rw [gbase, integrable_withDensity_iff_integrable_smul' hm hlt,
    integral_withDensity_eq_integral_toReal_smul hm hlt, setIntegral_congr_fun measurableSet_Ioi e]
  exact ⟨integrableOn_congr_fun e measurableSet_Ioi, rfl⟩

theorem gbase_exp (a : ℝ) (n : ℕ) : ∀ t ∈ Ioi (0 : ℝ), log t ^ n * exp (a * log t) * (exp (-t) / t)
    = log t ^ n * (t ^ (a - 1) * exp (-t)) := by
  intro t ht
  have ht : 0 < t := ht
  rw [rpow_sub_one ht.ne', rpow_def_of_pos ht, mul_comm a]
  ring

theorem gbase_mem {a : ℝ} (ha : 0 < a) : a ∈ integrableExpSet log gbase := by
  show Integrable (fun t => exp (a * log t)) gbase
  rw [gbase_iff.1]
  refine (integrableOn_congr_fun (fun t ht => ?_) measurableSet_Ioi).2 (gamma_integrable ha)
  have := gbase_exp a 0 t ht
  simpa using this

theorem gbase_interior {a : ℝ} (ha : 0 < a) : a ∈ interior (integrableExpSet log gbase) :=
  mem_interior.2 ⟨Ioi 0, fun _ hb => gbase_mem hb, isOpen_Ioi, ha⟩

theorem gbase_mgf {a : ℝ} (ha : 0 < a) : mgf log gbase a = Gamma a := by
  rw [mgf, gbase_iff.2, Gamma_eq_integral ha]
  refine setIntegral_congr_fun measurableSet_Ioi fun t ht => ?_
  have := gbase_exp a 0 t ht
  simp only [pow_zero, one_mul] at this
  rw [this, mul_comm]

theorem gbase_ev {a : ℝ} (ha : 0 < a) : mgf log gbase =ᶠ[𝓝 a] Gamma := by
  filter_upwards [lt_mem_nhds ha] with b hb using gbase_mgf hb

theorem analyticAt_Gamma {a : ℝ} (ha : 0 < a) : AnalyticAt ℝ Gamma a :=
  (analyticAt_mgf (gbase_interior ha)).congr (gbase_ev ha)

/-- The derivatives of the gamma function. -/
theorem hasInt_log_pow (n : ℕ) {a : ℝ} (ha : 0 < a) :
    HasInt (Ioi 0) (fun t => log t ^ n * (t ^ (a - 1) * exp (-t))) (iteratedDeriv n Gamma a) := by
  have h1 := integrable_pow_mul_exp_of_mem_interior_integrableExpSet (gbase_interior ha) n
  have h2 := iteratedDeriv_mgf (gbase_interior ha) n
  rw [gbase_iff.1] at h1
  rw [(gbase_ev ha).iteratedDeriv_eq n, gbase_iff.2] at h2
  exact ⟨(integrableOn_congr_fun (gbase_exp a n) measurableSet_Ioi).1 h1, by
    rw [h2, setIntegral_congr_fun measurableSet_Ioi (gbase_exp a n)]⟩

/-! ### Polygamma functions -/

theorem analyticAt_psi {a : ℝ} (ha : 0 < a) : AnalyticAt ℝ psi a :=
  (analyticAt_Gamma ha).deriv.div (analyticAt_Gamma ha) (Gamma_pos_of_pos ha).ne'

theorem polygamma_deriv (n : ℕ) {a : ℝ} (ha : 0 < a) :
    HasDerivAt (polygamma n) (polygamma (n + 1) a) a := by
  have h : DifferentiableAt ℝ (iteratedDeriv n psi) a := by
    have h1 := (analyticAt_psi ha).iterated_deriv n
    rw [← iteratedDeriv_eq_iterate] at h1
    exact h1.differentiableAt
  have := h.hasDerivAt
  rwa [← iteratedDeriv_succ] at this

theorem psi_deriv {a : ℝ} (ha : 0 < a) : HasDerivAt psi (polygamma 1 a) a := by
  have := polygamma_deriv 0 ha
  have e : polygamma 0 = psi := by
    funext x
    rw [polygamma, iteratedDeriv_zero]
  rwa [e] at this

theorem Gamma_deriv {a : ℝ} (ha : 0 < a) : HasDerivAt Gamma (Gamma a * psi a) a := by
  have h := (analyticAt_Gamma ha).differentiableAt.hasDerivAt
  rwa [psi, mul_div_cancel₀ _ (Gamma_pos_of_pos ha).ne']

theorem iter_step {f h h' : ℝ → ℝ} {n : ℕ} (he : ∀ a, 0 < a → iteratedDeriv n f a = h a)
    (hd : ∀ a, 0 < a → HasDerivAt h (h' a) a) : ∀ a, 0 < a → iteratedDeriv (n + 1) f a = h' a := by
  intro a ha
  have hev : iteratedDeriv n f =ᶠ[𝓝 a] h := by
    filter_upwards [lt_mem_nhds ha] with b hb using he b hb
  rw [iteratedDeriv_succ, hev.deriv_eq, (hd a ha).deriv]

theorem Gamma_iter : ∀ a, 0 < a →
    iteratedDeriv 0 Gamma a = Gamma a ∧
    iteratedDeriv 1 Gamma a = Gamma a * psi a ∧
    iteratedDeriv 2 Gamma a = Gamma a * (psi a ^ 2 + polygamma 1 a) ∧
    iteratedDeriv 3 Gamma a = Gamma a * (psi a ^ 3 + 3 * psi a * polygamma 1 a + polygamma 2 a) ∧
    iteratedDeriv 4 Gamma a = Gamma a * (psi a ^ 4 + 6 * psi a ^ 2 * polygamma 1 a
      + 3 * polygamma 1 a ^ 2 + 4 * psi a * polygamma 2 a + polygamma 3 a) := by
  have s0 : ∀ a : ℝ, 0 < a → iteratedDeriv 0 Gamma a = Gamma a := fun a _ => by rw [iteratedDeriv_zero]
  have s1 := iter_step s0 fun a ha => Gamma_deriv ha
  have s2 := iter_step s1 fun a ha => (Gamma_deriv ha).mul (psi_deriv ha)
  have s2' : ∀ a : ℝ, 0 < a → iteratedDeriv 2 Gamma a = Gamma a * (psi a ^ 2 + polygamma 1 a) :=
    fun a ha => by
      rw [s2 a ha]
      ring
  have s3 := iter_step s2' fun a ha =>
    (Gamma_deriv ha).mul (((psi_deriv ha).pow 2).add (polygamma_deriv 1 ha))
  have s3' : ∀ a : ℝ, 0 < a → iteratedDeriv 3 Gamma a
      = Gamma a * (psi a ^ 3 + 3 * psi a * polygamma 1 a + polygamma 2 a) :=
    fun a ha => by
      rw [s3 a ha]
      push_cast
      ring
  have s4 := iter_step s3' fun a ha =>
    (Gamma_deriv ha).mul ((((psi_deriv ha).pow 3).add
      (((psi_deriv ha).const_mul 3).mul (polygamma_deriv 1 ha))).add (polygamma_deriv 2 ha))
  intro a ha
  refine ⟨s0 a ha, s1 a ha, s2' a ha, s3' a ha, ?_⟩
  rw [s4 a ha]
  push_cast
  ring

/-- The variance of the logarithm of a gamma variable is small for large shapes. -/
theorem log_sq_le {r : ℝ} (hr : 0 < r) : log r ^ 2 ≤ r - 2 + 1 / r := by
  have h1 : r = exp (log r / 2) ^ 2 := by
    rw [← exp_nat_mul]
    push_cast
    rw [mul_div_cancel₀ _ two_ne_zero, exp_log hr]
  have h2 : |log r / 2| ≤ |sinh (log r / 2)| := by
    rcases le_total 0 (log r / 2) with h | h
    · rw [abs_of_nonneg h, abs_of_nonneg (sinh_nonneg_iff.2 h)]
      exact self_le_sinh_iff.2 h
    · rw [abs_of_nonpos h, abs_of_nonpos (sinh_nonpos_iff.2 h)]
      have := sinh_le_self_iff.2 h
      linarith
  have h3 : (log r / 2) ^ 2 ≤ sinh (log r / 2) ^ 2 := sq_le_sq.2 h2
  have h4 : r - 2 + 1 / r = 4 * sinh (log r / 2) ^ 2 := by
    rw [sinh_eq, exp_neg]
    have he : 0 < exp (log r / 2) := exp_pos _
    generalize exp (log r / 2) = w at *
    rw [h1]
    field_simp
    ring
  rw [h4]
  linarith

theorem gamma_int {a : ℝ} (ha : 0 < a) : HasInt (Ioi 0) (fun t => t ^ (a - 1) * exp (-t)) (Gamma a) := by
  have h := hasInt_log_pow 0 ha
  rw [iteratedDeriv_zero] at h
  exact h.congr measurableSet_Ioi (fun t _ => by rw [pow_zero, one_mul]) rfl

theorem polygamma_one_le {a : ℝ} (ha : 1 < a) : polygamma 1 a ≤ 1 / (a - 1) := by
  have ha0 : 0 < a := by linarith
  have ha1 : 0 < a - 1 := by linarith
  obtain ⟨-, e1, e2, -, -⟩ := Gamma_iter a ha0
  have h1 := hasInt_log_pow 1 ha0
  have h2 := hasInt_log_pow 2 ha0
  rw [e1] at h1
  rw [e2] at h2
  have h0 := gamma_int ha0
  have hG := Gamma_pos_of_pos ha0
  -- the expected value of `(log (t / a))²`
  have hL := ((h2.add (h1.const_mul (-2 * log a))).add (h0.const_mul (log a ^ 2)))
  -- and of its bound
  have hp := gamma_int (by linarith : (0 : ℝ) < a + 1)
  have hq := gamma_int ha1
  have hGp : Gamma (a + 1) = a * Gamma a := Gamma_add_one ha0.ne'
  have hGq : Gamma (a - 1) = Gamma a / (a - 1) := by
    have := Gamma_add_one ha1.ne'
    rw [sub_add_cancel] at this
    rw [this]
    field_simp
  have hR := ((hp.const_mul (1 / a)).add (h0.const_mul (-2))).add (hq.const_mul a)
  have hle := setIntegral_mono_on hL.1 hR.1 measurableSet_Ioi (fun t ht => by
    have ht : 0 < t := ht
    have hb := log_sq_le (div_pos ht ha0)
    rw [log_div ht.ne' ha0.ne'] at hb
    have hw : 0 < t ^ (a - 1) * exp (-t) := mul_pos (rpow_pos_of_pos ht _) (exp_pos _)
    have r1 : t ^ (a + 1 - 1) = t ^ (a - 1) * t := by
      rw [add_sub_cancel_right, rpow_sub_one ht.ne']
      field_simp
    have r2 : t ^ (a - 1 - 1) = t ^ (a - 1) / t := by rw [rpow_sub_one ht.ne']
    rw [r1, r2]
    generalize t ^ (a - 1) = w at *
    have := mul_le_mul_of_nonneg_right hb hw.le
    calc _ = (log t - log a) ^ 2 * (w * exp (-t)) := by ring
      _ ≤ _ := this
      _ = _ := by
        field_simp
        ring)
  rw [hL.2, hR.2, hGp, hGq] at hle
  have hle2 : Gamma a * (polygamma 1 a + (psi a - log a) ^ 2) ≤ Gamma a * (1 / (a - 1)) := by
    calc _ = _ := by ring
      _ ≤ _ := hle
      _ = _ := by
        field_simp
        ring
  have := le_of_mul_le_mul_left hle2 hG
  nlinarith [sq_nonneg (psi a - log a)]

theorem psi_add_one {a : ℝ} (ha : 0 < a) : psi (a + 1) = psi a + 1 / a := by
  have h1 : HasDerivAt (fun x => Gamma (x + 1)) (Gamma (a + 1) * psi (a + 1)) a := by
    have := (Gamma_deriv (by linarith : 0 < a + 1)).comp a ((hasDerivAt_id a).add_const 1)
    rwa [mul_one] at this
  have h2 : HasDerivAt (fun x => x * Gamma x) (1 * Gamma a + a * (Gamma a * psi a)) a :=
    (hasDerivAt_id a).mul (Gamma_deriv ha)
  have hev : (fun x => Gamma (x + 1)) =ᶠ[𝓝 a] fun x => x * Gamma x := by
    filter_upwards [lt_mem_nhds ha] with b hb using Gamma_add_one hb.ne'
  have h := (h1.congr_of_eventuallyEq hev.symm).unique h2
  rw [Gamma_add_one ha.ne'] at h
  have hG := Gamma_pos_of_pos ha
  have : a * psi (a + 1) = 1 + a * psi a := by
    have : Gamma a * (a * psi (a + 1)) = Gamma a * (1 + a * psi a) := by linarith
    exact mul_left_cancel₀ hG.ne' this
  field_simp
  linarith

theorem polygamma_one_add_one {a : ℝ} (ha : 0 < a) : polygamma 1 (a + 1) = polygamma 1 a - 1 / a ^ 2 := by
  have h1 : HasDerivAt (fun x => psi (x + 1)) (polygamma 1 (a + 1)) a := by
    have := (psi_deriv (by linarith : 0 < a + 1)).comp a ((hasDerivAt_id a).add_const 1)
    rwa [mul_one] at this
  have h2 : HasDerivAt (fun x => psi x + x⁻¹) (polygamma 1 a + -(a ^ 2)⁻¹) a :=
    (psi_deriv ha).add (hasDerivAt_inv ha.ne')
  have hev : (fun x => psi (x + 1)) =ᶠ[𝓝 a] fun x => psi x + x⁻¹ := by
    filter_upwards [lt_mem_nhds ha] with b hb
    rw [psi_add_one hb, one_div]
  have h := (h1.congr_of_eventuallyEq hev.symm).unique h2
  rw [h, one_div, sub_eq_add_neg]

theorem polygamma_one_nonneg {a : ℝ} (ha : 0 < a) : 0 ≤ polygamma 1 a := by
  obtain ⟨-, e1, e2, -, -⟩ := Gamma_iter a ha
  have h1 := hasInt_log_pow 1 ha
  have h2 := hasInt_log_pow 2 ha
  rw [e1] at h1
  rw [e2] at h2
  have h0 := gamma_int ha
  have hG := Gamma_pos_of_pos ha
  have hL : HasInt (Ioi 0) (fun t => (log t - psi a) ^ 2 * (t ^ (a - 1) * exp (-t)))
      (Gamma a * polygamma 1 a) :=
    ((h2.add (h1.const_mul (-2 * psi a))).add (h0.const_mul (psi a ^ 2))).congr measurableSet_Ioi
      (fun t _ => by ring) (by ring)
  have : 0 ≤ Gamma a * polygamma 1 a := by
    rw [← hL.2]
    exact setIntegral_nonneg measurableSet_Ioi fun t ht =>
      mul_nonneg (sq_nonneg _) (mul_pos (rpow_pos_of_pos ht _) (exp_pos _)).le
  exact nonneg_of_mul_nonneg_right this hG

theorem polygamma_one_sum {a : ℝ} (ha : 0 < a) : HasSum (fun k : ℕ => 1 / (a + k) ^ 2) (polygamma 1 a) := by
  have hs : ∀ N : ℕ, ∑ k ∈ Finset.range N, 1 / (a + k) ^ 2 = polygamma 1 a - polygamma 1 (a + N) := by
    intro N
    induction N with
    | zero => simp
    | succ N ih =>
      have : 0 < a + N := by positivity
      rw [Finset.sum_range_succ, ih]
      push_cast
      rw [← add_assoc, polygamma_one_add_one this]
      ring
  have hb : Tendsto (fun N : ℕ => polygamma 1 (a + N)) atTop (𝓝 0) := by
    have h1 : Tendsto (fun N : ℕ => 1 / (a + N - 1)) atTop (𝓝 0) := by
      simp only [one_div]
      refine tendsto_inv_atTop_zero.comp ?_
      refine tendsto_atTop_add_const_right atTop (-1) ?_
      exact tendsto_atTop_add_const_left atTop a tendsto_natCast_atTop_atTop
    refine squeeze_zero' (Eventually.of_forall fun N => polygamma_one_nonneg (by positivity)) ?_ h1
    filter_upwards [eventually_ge_atTop 1] with N hN
    have : (1 : ℝ) ≤ N := by exact_mod_cast hN
    exact polygamma_one_le (by linarith)
  rw [hasSum_iff_tendsto_nat_of_nonneg (fun k => by positivity)]
  simp only [hs]
  have := hb.const_sub (polygamma 1 a)
  rwa [sub_zero] at this

theorem hzeta_summable {s : ℕ} (hs : 2 ≤ s) {a : ℝ} (ha : 0 < a) :
    Summable fun k : ℕ => 1 / (a + k) ^ s := by
  have h := (polygamma_one_sum ha).summable
  have hc : ∀ k : ℕ, 1 / (a + k) ^ s ≤ (1 / a) ^ (s - 2) * (1 / (a + k) ^ 2) := by
    intro k
    have hk : 0 < a + k := by positivity
    have e : (a + k) ^ s = (a + k) ^ (s - 2) * (a + k) ^ 2 := by
      rw [← pow_add]
      congr 1
      omega
    have : a ^ (s - 2) ≤ (a + k) ^ (s - 2) := by
      refine pow_le_pow_left₀ ha.le ?_ _
      have : (0 : ℝ) ≤ k := Nat.cast_nonneg k
      linarith
    rw [e, one_div_pow, one_div_mul_one_div]
    exact one_div_le_one_div_of_le (by positivity) (by gcongr)
  exact Summable.of_nonneg_of_le (fun k => by positivity) hc (h.mul_left _)

theorem hzeta_deriv {s : ℕ} (hs : 2 ≤ s) {a : ℝ} (ha : 0 < a) :
    HasDerivAt (hzeta s) (-s * hzeta (s + 1) a) a := by
  have h := hasDerivAt_tsum_of_isPreconnected (g := fun (k : ℕ) (x : ℝ) => 1 / (x + k) ^ s)
    (g' := fun (k : ℕ) (x : ℝ) => -s * (1 / (x + k) ^ (s + 1)))
    (u := fun k : ℕ => s * (1 / (a / 2 + k) ^ (s + 1)))
    ((hzeta_summable (by omega) (by linarith : 0 < a / 2)).mul_left _) (isOpen_Ioi (a := a / 2))
    isPreconnected_Ioi (fun k y hy => ?_) (fun k y hy => ?_) (y₀ := a) (mem_Ioi.2 (by linarith))
    (hzeta_summable hs ha) (y := a) (mem_Ioi.2 (by linarith))
  · rw [tsum_mul_left] at h
    exact h
  · have hy : a / 2 < y := hy
    have hk : (0 : ℝ) ≤ k := Nat.cast_nonneg k
    have hyk : 0 < y + k := by linarith
    have h1 := (((hasDerivAt_id y).add_const (k : ℝ)).pow s).inv (pow_pos hyk s).ne'
    simp only [one_div]
    refine HasDerivAt.congr_deriv h1 ?_
    simp only [id, mul_one, Pi.pow_apply]
    obtain ⟨m, rfl⟩ : ∃ m, s = m + 1 := ⟨s - 1, by omega⟩
    rw [Nat.add_sub_cancel]
    field_simp
    ring
  · have hy : a / 2 < y := hy
    have hk : (0 : ℝ) ≤ k := Nat.cast_nonneg k
    have hyk : 0 < y + k := by linarith
    rw [norm_mul, norm_neg, norm_of_nonneg (Nat.cast_nonneg s), norm_of_nonneg (by positivity)]
    gcongr

theorem polygamma_hzeta {a : ℝ} (ha : 0 < a) : polygamma 1 a = hzeta 2 a ∧
    polygamma 2 a = -2 * hzeta 3 a ∧ polygamma 3 a = 6 * hzeta 4 a := by
  have h1 : ∀ a, 0 < a → iteratedDeriv 1 psi a = hzeta 2 a := fun a ha => (polygamma_one_sum ha).tsum_eq.symm
  have h2 := iter_step h1 fun a ha => hzeta_deriv le_rfl ha
  have h3 := iter_step h2 fun a ha => (hzeta_deriv (s := 3) (by norm_num) ha).const_mul (-((2 : ℕ) : ℝ))
  refine ⟨h1 a ha, ?_, ?_⟩
  · rw [polygamma, h2 a ha]
    norm_num
  · rw [polygamma, h3 a ha]
    push_cast
    ring

/-! ### Values -/

theorem hzeta_one {s : ℕ} (hs : 2 ≤ s) {v : ℝ} (h : HasSum (fun n : ℕ => 1 / (n : ℝ) ^ s) v) :
    hzeta s 1 = v := by
  have h1 := (hasSum_nat_add_iff' 1).2 h
  simp only [Finset.range_one, Finset.sum_singleton, Nat.cast_zero] at h1
  rw [zero_pow (by omega), div_zero, sub_zero] at h1
  rw [hzeta, ← h1.tsum_eq]
  refine tsum_congr fun k => ?_
  push_cast
  rw [add_comm]

theorem hzeta_two_one : hzeta 2 1 = π ^ 2 / 6 := hzeta_one le_rfl hasSum_zeta_two

theorem hzeta_four_one : hzeta 4 1 = π ^ 4 / 90 := hzeta_one (by norm_num) hasSum_zeta_four

/-- Half-integer arguments. -/
theorem hzeta_half {s : ℕ} (hs : 2 ≤ s) : hzeta s (1 / 2) = (2 ^ s - 1) * hzeta s 1 := by
  have h1 := hzeta_summable hs (a := 1) one_pos
  have he := (hzeta_summable hs (a := 1 / 2) (by norm_num)).hasSum
  have ho := h1.hasSum
  -- split the sum over all positive integers into odd and even ones
  have e1 : HasSum (fun k : ℕ => 1 / ((1 : ℝ) + ((2 * k : ℕ) : ℝ)) ^ s) (hzeta s (1 / 2) / 2 ^ s) := by
    have := he.div_const (2 ^ s)
    refine (congrArg (fun f => HasSum f _) (funext fun k => ?_)).mp this
    push_cast
    rw [div_div, ← mul_pow]
    congr 2
    ring
  have e2 : HasSum (fun k : ℕ => 1 / ((1 : ℝ) + ((2 * k + 1 : ℕ) : ℝ)) ^ s) (hzeta s 1 / 2 ^ s) := by
    have := ho.div_const (2 ^ s)
    refine (congrArg (fun f => HasSum f _) (funext fun k => ?_)).mp this
    push_cast
    rw [div_div, ← mul_pow]
    congr 2
    ring
  have h := (e1.even_add_odd (f := fun k : ℕ => 1 / ((1 : ℝ) + k) ^ s) e2).unique ho
  have h2 : (0 : ℝ) < 2 ^ s := by positivity
  rw [show ∑' (b : ℕ), 1 / ((1 : ℝ) + b) ^ s = hzeta s 1 from rfl] at h
  field_simp at h
  linarith

theorem psi_at_one : psi 1 = -eulerMascheroniConstant := by
  rw [psi, Gamma_one, div_one, eulerMascheroniConstant_eq_neg_deriv, neg_neg]

theorem psi_half : psi (1 / 2) = -(eulerMascheroniConstant + 2 * log 2) := by
  have : 0 < √π := sqrt_pos.2 pi_pos
  rw [psi, hasDerivAt_Gamma_one_half.deriv, Gamma_one_half_eq]
  field_simp

end Wafo.Dist
