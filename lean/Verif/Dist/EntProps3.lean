import Verif.Dist.EntProps2

/-!
# C262: the entropies of the circular and the bounded distributions
-/

namespace Wafo.Dist

open MeasureTheory Set Filter Topology Real

set_option linter.unusedSectionVars false

/-! ### The circular family -/

theorem C262_anglit : HasEntropy (Ioo (-(π / 4)) (π / 4)) Anglit.pdf Anglit.entropy := by
  refine entropy_evlogs isOpen_Ioo ordConnected_Ioo C255_anglit.1 C255_anglit.2
    (by unfold Anglit.pdf; fun_prop) (log 2) (1 / 2) (1 / 2) 0 0 ?_
    (by rw [Anglit.entropy]; ring)
  intro q h0 h1
  have hM : 0 < 1 - q := by linarith
  have e : Anglit.pdf (Anglit.ppf q) = 2 * √q * √(1 - q) := by
    rw [Anglit.pdf, Anglit.ppf, show 2 * (arcsin √q - π / 4) = 2 * arcsin √q - π / 2 by ring,
      cos_sub_pi_div_two, sin_two_mul, sin_arcsin (by linarith [sqrt_nonneg q])
      (sqrt_le_one.2 h1.le), cos_arcsin, sq_sqrt h0.le]
  rw [e, log_mul (by positivity) (by positivity), log_mul two_ne_zero (by positivity),
    log_sqrt h0.le, log_sqrt hM.le]
  ring

theorem C262_cauchy : HasEntropy univ Cauchy.pdf Cauchy.entropy := by
  have hpi := pi_pos
  have hi := (hasInt_logs (-log π) 0 0).add (hasInt_log_sin_pi.const_mul 2)
  refine entropy_ppf MeasurableSet.univ ordConnected_univ C255_cauchy.1 C255_cauchy.2.1
    (by unfold Cauchy.pdf; fun_prop) ?_ hi ?_
  · intro q hq
    have hs : 0 < sin (π * q) := sin_pos_of_pos_of_lt_pi (by nlinarith [hq.1]) (by nlinarith [hq.2])
    have ec : cos (π * q - π / 2) = sin (π * q) := cos_sub_pi_div_two _
    have e : 1 + Cauchy.ppf q * Cauchy.ppf q = (sin (π * q) ^ 2)⁻¹ := by
      rw [Cauchy.ppf, ← sq, ← ec, ← inv_one_add_tan_sq (by rw [ec]; exact hs.ne')]
      simp
    rw [Cauchy.pdf, e, log_div (by positivity) (by positivity), one_div, log_inv, log_inv, log_pow]
    push_cast
    ring
  · rw [Cauchy.entropy, log_mul (by norm_num) hpi.ne', show (4 : ℝ) = 2 ^ 2 by norm_num, log_pow]
    push_cast
    ring

theorem C262_halfcauchy : HasEntropy (Ioi 0) HalfCauchy.pdf HalfCauchy.entropy := by
  have hpi := pi_pos
  have hc : HasInt (Ioo 0 1) (fun q => log (sin (π / 2 * (1 - q)))) (-log 2) :=
    hasInt_flip (k := fun q => log (sin (π / 2 * q))) |>.2 hasInt_log_sin_half
  have hi := (hasInt_logs (log 2 - log π) 0 0).add (hc.const_mul 2)
  refine entropy_ppf measurableSet_Ioi ordConnected_Ioi C255_halfcauchy.1 C255_halfcauchy.2.1
    (by unfold HalfCauchy.pdf; fun_prop) ?_ hi ?_
  · intro q hq
    have hs : 0 < sin (π / 2 * (1 - q)) :=
      sin_pos_of_pos_of_lt_pi (by nlinarith [hq.2]) (by nlinarith [hq.1])
    have ec : cos (π / 2 * q) = sin (π / 2 * (1 - q)) := by
      rw [← sin_pi_div_two_sub]
      congr 1
      ring
    have e : 1 + HalfCauchy.ppf q * HalfCauchy.ppf q = (sin (π / 2 * (1 - q)) ^ 2)⁻¹ := by
      rw [HalfCauchy.ppf, ← sq, ← ec, ← inv_one_add_tan_sq (by rw [ec]; exact hs.ne')]
      simp
    rw [HalfCauchy.pdf, e, log_div (by positivity) (by positivity), log_inv, log_pow,
      log_div two_ne_zero hpi.ne']
    push_cast
    ring
  · rw [HalfCauchy.entropy, log_mul two_ne_zero hpi.ne']
    ring

theorem C262_hypsecant : HasEntropy univ HypSecant.pdf HypSecant.entropy := by
  have hpi := pi_pos
  have hi := (hasInt_logs (-log π) 0 0).add hasInt_log_sin_pi
  refine entropy_ppf MeasurableSet.univ ordConnected_univ C254_hypsecant.1 C254_hypsecant.2
    (by unfold HypSecant.pdf; fun_prop) ?_ hi ?_
  · intro q hq
    have hs : 0 < sin (π * q) := sin_pos_of_pos_of_lt_pi (by nlinarith [hq.1]) (by nlinarith [hq.2])
    have h1 : 0 < sin (π * q / 2) :=
      sin_pos_of_pos_of_lt_pi (by nlinarith [hq.1]) (by nlinarith [hq.2])
    have h2 : 0 < cos (π * q / 2) :=
      cos_pos_of_mem_Ioo ⟨by nlinarith [hq.1], by nlinarith [hq.2]⟩
    have e : cosh (HypSecant.ppf q) = (sin (π * q))⁻¹ := by
      rw [cosh_eq, HypSecant.ppf, exp_neg, exp_log (by rw [tan_eq_sin_div_cos]; positivity),
        tan_eq_sin_div_cos, show π * q = 2 * (π * q / 2) by ring, sin_two_mul,
        show 2 * (π * q / 2) / 2 = π * q / 2 by ring]
      have h3 := sin_sq_add_cos_sq (π * q / 2)
      field_simp
      linarith
    rw [HypSecant.pdf, e, log_div one_ne_zero (by positivity), log_one,
      log_mul hpi.ne' (by positivity), log_inv]
    ring
  · rw [HypSecant.entropy, log_mul two_ne_zero hpi.ne']
    ring

/-! ### Densities on bounded intervals and two-sided densities -/

theorem C262_reciprocal (a b : ℝ) (ha : 0 < a) (hab : a < b) :
    HasEntropy (Ioo a b) (Reciprocal.pdf a b) (Reciprocal.entropy a b) := by
  have hb : 0 < b := ha.trans hab
  have hL : 0 < log (b / a) := log_pos ((one_lt_div ha).2 hab)
  have hC := C253_reciprocal a b ha hab
  have hq : HasInt (Ioo 0 1) (fun q : ℝ => q) (1 / 2) := by
    refine hasInt_ftc zero_le_one (F := fun q => q ^ 2 / 2) (by fun_prop) (by fun_prop) ?_ (by simp)
    intro q _
    refine HasDerivAt.congr_deriv ((hasDerivAt_pow 2 q).div_const 2) ?_
    push_cast
    ring
  have hi := (hasInt_logs (-log a - log (log (b / a))) 0 0).add (hq.const_mul (-log (b / a)))
  refine entropy_ppf measurableSet_Ioo ordConnected_Ioo hC.1 hC.2.1
    (by unfold Reciprocal.pdf; fun_prop) ?_ hi ?_
  · intro q hq
    have hr : 0 < b / a := by positivity
    rw [Reciprocal.pdf, Reciprocal.ppf, mul_one, log_div one_ne_zero (by positivity), log_one,
      log_mul (by positivity) hL.ne', log_mul ha.ne' (by positivity), log_rpow hr]
    ring
  · rw [Reciprocal.entropy, mul_one, log_mul ha.ne' hb.ne', log_div hb.ne' ha.ne']
    ring

example : (1 : ℝ) < exp 2 ∧ Reciprocal.entropy 1 (exp 2) = 1 + log 2 := by
  refine ⟨one_lt_exp_iff.2 two_pos, ?_⟩
  rw [Reciprocal.entropy, one_mul, mul_one, div_one, log_exp]
  ring

theorem C262_bradford (c : ℝ) (hc : 0 < c) :
    HasEntropy (Ioo 0 1) (Bradford.pdf c) (Bradford.entropy c) := by
  have hL : 0 < log1p c := log_pos (by linarith)
  have hC := C253_bradford c hc
  have hq : HasInt (Ioo 0 1) (fun q : ℝ => q) (1 / 2) := by
    refine hasInt_ftc zero_le_one (F := fun q => q ^ 2 / 2) (by fun_prop) (by fun_prop) ?_ (by simp)
    intro q _
    refine HasDerivAt.congr_deriv ((hasDerivAt_pow 2 q).div_const 2) ?_
    push_cast
    ring
  have hi := (hasInt_logs (log c - log (log1p c)) 0 0).add (hq.const_mul (-log1p c))
  refine entropy_ppf measurableSet_Ioo ordConnected_Ioo hC.1 hC.2
    (by unfold Bradford.pdf; fun_prop) ?_ hi ?_
  · intro q hq
    have e : c * Bradford.ppf c q + 1 = exp (q * log1p c) := by
      rw [Bradford.ppf, mul_div_cancel₀ _ hc.ne', expm1, sub_add_cancel]
    rw [Bradford.pdf, e, log_div (by positivity) hL.ne', log_div hc.ne' (exp_pos _).ne', log_exp]
    ring
  · simp only [Bradford.entropy]
    rw [log_div hc.ne' hL.ne']
    ring

theorem C262_truncexpon (b : ℝ) (hb : 0 < b) :
    HasEntropy (Ioo 0 b) (TruncExpon.pdf b) (TruncExpon.entropy b) := by
  have hE : 0 < -expm1 (-b) := by
    have := exp_lt_one_iff.2 (show -b < 0 by linarith)
    simp only [expm1]
    linarith
  have hC := C251_truncexpon b hb
  have h0 : HasInt (Ioo 0 b) (TruncExpon.pdf b) 1 := ⟨hC.1.integrable, hC.1.total⟩
  have h1 : HasMoment (Ioo 0 b) (TruncExpon.pdf b) 1 ((1 - (b + 1) * exp (-b)) / -expm1 (-b)) :=
    C261_truncexpon 1 b _ hb (by simp [TruncExpon.munp])
  have h1' : HasInt (Ioo 0 b) (fun x => x ^ 1 * TruncExpon.pdf b x) _ := h1
  have key : HasInt (Ioo 0 b) (fun x => TruncExpon.pdf b x * log (TruncExpon.pdf b x))
      (-TruncExpon.entropy b) := by
    refine HasInt.congr measurableSet_Ioo ((h1'.const_mul (-1)).add
      (h0.const_mul (-log (-expm1 (-b))))) ?_ ?_
    · intro x hx
      rw [← (hC.2.2 x hx).2, TruncExpon.logpdf]
      ring
    · simp only [TruncExpon.entropy]
      have hB : 1 < exp b := one_lt_exp_iff.2 hb
      have e : -expm1 (-b) = (exp b - 1) / exp b := by
        rw [expm1, exp_neg]
        field_simp
        ring
      rw [e, log_div (by linarith) (exp_pos _).ne', log_exp, exp_neg]
      have h2 : exp b - 1 ≠ 0 := by linarith
      have h3 : 1 - exp b ≠ 0 := by linarith
      have h4 := exp_pos b
      generalize exp b = w at *
      field_simp
      ring
  exact ⟨key.1, by rw [key.2, neg_neg]⟩

theorem C262_laplace : HasEntropy univ Laplace.pdf Laplace.entropy := by
  have e : ∀ x ∈ Ioi (0 : ℝ), 2 * Laplace.pdf x = Expon.pdf x := by
    intro x hx
    have hx : 0 < x := hx
    rw [Laplace.pdf, Expon.pdf, abs_of_pos hx]
    ring
  have e3 : ∀ x ∈ Ioi (0 : ℝ), 2 * Laplace.pdf x * log (2 * Laplace.pdf x) =
      Expon.pdf x * log (Expon.pdf x) := by
    intro x hx
    rw [e x hx]
  have h0 : HasInt (Ioi 0) Expon.pdf 1 := ⟨C251_expon.1.integrable, C251_expon.1.total⟩
  have h1 : HasEntropy (Ioi 0) (fun x => 2 * Laplace.pdf x) Expon.entropy :=
    ⟨(integrableOn_congr_fun e3 measurableSet_Ioi).2 C262_expon.1, by
      rw [setIntegral_congr_fun measurableSet_Ioi e3, C262_expon.2]⟩
  have h2 := even_entropy (f := Laplace.pdf) (fun x => by rw [Laplace.pdf, Laplace.pdf, abs_neg])
    (fun x _ => by rw [Laplace.pdf]; positivity) (h0.congr measurableSet_Ioi e rfl) h1
  rwa [show Expon.entropy + log 2 = Laplace.entropy by rw [Expon.entropy, Laplace.entropy]; ring]
    at h2

theorem hasInt_log_half : HasInt (Ioo 0 (1 / 2)) (fun q => log (2 * q)) (-1 / 2) := by
  have h : IntervalIntegrable log volume (2 * 0) (2 * (1 / 2)) :=
    intervalIntegral.intervalIntegrable_log'
  have h2 := h.comp_mul_left (c := 2)
  have e := intervalIntegral.integral_comp_mul_left log (two_ne_zero (α := ℝ)) (a := 0) (b := 1 / 2)
  rw [mul_div_cancel_left₀ _ two_ne_zero, mul_div_cancel_left₀ _ two_ne_zero] at h2
  have hle : (0 : ℝ) ≤ 1 / 2 := by norm_num
  refine ⟨(integrableOn_Ioc_iff_integrableOn_Ioo).1
    ((intervalIntegrable_iff_integrableOn_Ioc_of_le hle).1 h2), ?_⟩
  rw [← integral_Ioc_eq_integral_Ioo, ← intervalIntegral.integral_of_le hle, e, integral_log]
  norm_num

theorem hasInt_log_half' : HasInt (Ioo (1 / 2) 1) (fun q => log (2 * (1 - q))) (-1 / 2) := by
  have h : IntervalIntegrable (fun q => log (2 * q)) volume 0 (1 / 2) := by
    refine (intervalIntegrable_iff_integrableOn_Ioc_of_le (by norm_num)).2
      ((integrableOn_Ioc_iff_integrableOn_Ioo).2 hasInt_log_half.1)
  have h2 := (h.comp_sub_left 1).symm
  rw [show (1 : ℝ) - 1 / 2 = 1 / 2 by norm_num, sub_zero] at h2
  have hle : (1 / 2 : ℝ) ≤ 1 := by norm_num
  have e := intervalIntegral.integral_comp_sub_left (fun q => log (2 * q)) 1 (a := 1 / 2) (b := 1)
  refine ⟨(integrableOn_Ioc_iff_integrableOn_Ioo).1
    ((intervalIntegrable_iff_integrableOn_Ioc_of_le hle).1 h2), ?_⟩
  rw [← integral_Ioc_eq_integral_Ioo, ← intervalIntegral.integral_of_le hle, e, sub_self,
    show (1 : ℝ) - 1 / 2 = 1 / 2 by norm_num, intervalIntegral.integral_of_le (by norm_num),
    integral_Ioc_eq_integral_Ioo, hasInt_log_half.2]

theorem C262_loglaplace (c : ℝ) (hc : 0 < c) :
    HasEntropy (Ioi 0) (LogLaplace.pdf c) (LogLaplace.entropy c) := by
  have hC := C254_loglaplace c hc
  have one1 : HasInt (Ioo 0 (1 / 2)) (fun _ => (1 : ℝ)) (1 / 2) := ⟨by simp, by simp⟩
  have one2 : HasInt (Ioo (1 / 2) 1) (fun _ => (1 : ℝ)) (1 / 2) := ⟨by simp, by simp; norm_num⟩
  have hP : ∀ q, 0 < q → q < 1 → 0 < LogLaplace.ppf c q := fun q h0 h1 => hC.2.1.mem q h0 h1
  have i1 : HasInt (Ioo 0 (1 / 2)) (fun q => log (LogLaplace.pdf c (LogLaplace.ppf c q)))
      (1 / 2 * log (c / 2) - 1 / 2 * (1 - 1 / c)) := by
    refine HasInt.congr measurableSet_Ioo ((one1.const_mul (log (c / 2))).add
      (hasInt_log_half.const_mul (1 - 1 / c))) ?_ (by ring)
    intro q hq
    have h1 : q < 1 / 2 := hq.2
    have h2 : 0 < 2 * q := by linarith [hq.1]
    have h3 : (2 * q) ^ (1 / c) < 1 := rpow_lt_one h2.le (by linarith) (by positivity)
    simp only [LogLaplace.pdf, LogLaplace.ppf, if_pos (show q < 0.5 by norm_num; linarith),
      if_pos h3]
    rw [log_mul (by positivity) (by positivity), log_rpow (by positivity), log_rpow h2]
    field_simp
  have i2 : HasInt (Ioo (1 / 2) 1) (fun q => log (LogLaplace.pdf c (LogLaplace.ppf c q)))
      (1 / 2 * log (c / 2) - 1 / 2 * (1 + 1 / c)) := by
    refine HasInt.congr measurableSet_Ioo ((one2.const_mul (log (c / 2))).add
      (hasInt_log_half'.const_mul (1 + 1 / c))) ?_ (by ring)
    intro q hq
    have h1 : 1 / 2 < q := hq.1
    have h2 : 0 < 2 * (1 - q) := by linarith [hq.2]
    have h3 : 1 < (2 * (1 - q)) ^ (-1 / c) :=
      one_lt_rpow_of_pos_of_lt_one_of_neg h2 (by linarith) (by
        rw [neg_div]
        exact neg_neg_of_pos (by positivity))
    simp only [LogLaplace.pdf, LogLaplace.ppf, if_neg (show ¬ q < 0.5 by norm_num; linarith),
      if_neg (not_lt.2 h3.le)]
    rw [log_mul (by positivity) (by positivity), log_rpow (by positivity), log_rpow h2]
    field_simp
    ring
  have hi := hasInt_union (show (0 : ℝ) ≤ 1 / 2 by norm_num) (show (1 / 2 : ℝ) ≤ 1 by norm_num) i1 i2
  refine entropy_ppf measurableSet_Ioi ordConnected_Ioi hC.1 hC.2.1 ?_ (fun q _ => rfl) hi ?_
  · unfold LogLaplace.pdf
    refine Measurable.mul measurable_const ?_
    have : Measurable fun x : ℝ => (if x < 1 then c else -c) - 1 :=
      (Measurable.ite measurableSet_Iio measurable_const measurable_const).sub_const 1
    exact measurable_id.pow this
  · rw [LogLaplace.entropy, log_div two_ne_zero hc.ne', log_div hc.ne' two_ne_zero]
    ring

theorem hasInt_tri {k u0 u1 a b : ℝ} (hk : k ≠ 0) (hab : a ≤ b) (m : ℝ)
    (h0 : k * a + m = u0) (h1 : k * b + m = u1) (hu : ∀ x ∈ Ioo a b, k * x + m ≠ 0) :
    HasInt (Ioo a b) (fun x => (k * x + m) * log (k * x + m))
      ((u1 ^ 2 / 2 * log u1 - u1 ^ 2 / 4 - (u0 ^ 2 / 2 * log u0 - u0 ^ 2 / 4)) / k) := by
  have hc : Continuous fun x : ℝ => k * x + m := by fun_prop
  have hml := continuous_mul_log.comp hc
  refine hasInt_ftc hab (F := fun x => ((k * x + m) * ((k * x + m) * log (k * x + m)) / 2 -
    (k * x + m) ^ 2 / 4) / k) ?_ hml.continuousOn ?_ ?_
  · exact ((((hc.mul hml).div_const 2).sub ((hc.pow 2).div_const 4)).div_const k).continuousOn
  · intro x hx
    have hne := hu x hx
    have hl : HasDerivAt (fun x => k * x + m) k x := by
      refine HasDerivAt.congr_deriv (((hasDerivAt_id x).const_mul k).add_const m) ?_
      ring
    refine HasDerivAt.congr_deriv ((((hl.mul (hl.mul (hl.log hne))).div_const 2).sub
      ((hl.pow 2).div_const 4)).div_const k) ?_
    simp only [Pi.mul_apply, Function.comp_apply]
    push_cast
    field_simp
    ring
  · simp only [h0, h1]
    ring

theorem C262_triang (c : ℝ) (hc : Triang.argcheck c) :
    HasEntropy (Ioo 0 1) (Triang.pdf c) (Triang.entropy c) := by
  obtain ⟨hc0, hc1⟩ := hc
  have key : HasInt (Ioo 0 1) (fun x => Triang.pdf c x * log (Triang.pdf c x)) (log 2 - 1 / 2) := by
    have i1 : HasInt (Ioo 0 c) (fun x => Triang.pdf c x * log (Triang.pdf c x))
        (c * (log 2 - 1 / 2)) := by
      rcases hc0.eq_or_lt with h | h
      · rw [← h]
        exact ⟨by simp, by simp⟩
      · refine HasInt.congr measurableSet_Ioo (hasInt_tri (k := 2 / c) (u0 := 0) (u1 := 2)
          (by positivity) hc0 0 (by simp) (by field_simp; ring) ?_) ?_ ?_
        · intro x hx
          have := hx.1
          positivity
        · intro x hx
          simp only [Triang.pdf, if_neg h.ne', if_pos hx.2]
          rw [add_zero, show 2 / c * x = 2 * x / c by ring]
        · simp
          field_simp
          ring
    have i2 : HasInt (Ioo c 1) (fun x => Triang.pdf c x * log (Triang.pdf c x))
        ((1 - c) * (log 2 - 1 / 2)) := by
      rcases hc1.eq_or_lt with h | h
      · rw [h]
        exact ⟨by simp, by simp⟩
      · have h' : 0 < 1 - c := by linarith
        refine HasInt.congr measurableSet_Ioo (hasInt_tri (k := -2 / (1 - c)) (u0 := 2) (u1 := 0)
          (div_ne_zero (by norm_num) h'.ne') hc1 (2 / (1 - c)) (by field_simp; ring)
          (by field_simp; ring) ?_) ?_ ?_
        · intro x hx
          have h2 : 0 < 1 - x := by linarith [hx.2]
          rw [show -2 / (1 - c) * x + 2 / (1 - c) = 2 * (1 - x) / (1 - c) by ring]
          positivity
        · intro x hx
          have e : -2 / (1 - c) * x + 2 / (1 - c) = 2 * (1 - x) / (1 - c) := by ring
          simp only [e]
          by_cases hz : c = 0
          · simp only [Triang.pdf, if_pos hz]
            rw [hz, sub_zero, div_one, show 2 * (1 - x) = 2 - 2 * x by ring]
          · simp only [Triang.pdf, if_neg hz, if_neg (not_lt.2 hx.1.le),
              if_pos (show x ≥ c ∧ c ≠ 1 from ⟨hx.1.le, h.ne⟩)]
        · simp
          field_simp
          ring
    refine HasInt.congr measurableSet_Ioo (hasInt_union hc0 hc1 i1 i2) (fun x _ => rfl) (by ring)
  exact ⟨key.1, by rw [key.2, Triang.entropy]; norm_num⟩

example : Triang.argcheck 0 ∧ Triang.argcheck (1 / 3) ∧ Triang.argcheck 1 := by
  refine ⟨⟨?_, ?_⟩, ⟨?_, ?_⟩, ⟨?_, ?_⟩⟩ <;> norm_num

theorem hasInt_log_cos_half : HasInt (Ioo (-π) π) (fun x => log (cos (1 / 2 * x)))
    (-(2 * π * log 2)) := by
  have hpi := pi_pos
  have hle : -π ≤ π := by linarith
  have h : IntervalIntegrable (fun x => log (cos x)) volume (1 / 2 * -π) (1 / 2 * π) :=
    intervalIntegrable_log_cos
  have h2 := h.comp_mul_left (c := 1 / 2)
  have e := intervalIntegral.integral_comp_mul_left (fun x => log (cos x))
    (show (1 / 2 : ℝ) ≠ 0 by norm_num) (a := -π) (b := π)
  rw [mul_div_cancel_left₀ _ (by norm_num), mul_div_cancel_left₀ _ (by norm_num)] at h2
  have e2 : ∫ x in (1 / 2 * -π)..(1 / 2 * π), log (cos x) = -log 2 * π := by
    have h3 := intervalIntegral.integral_comp_add_right (fun x => log (sin x)) (π / 2)
      (a := 1 / 2 * -π) (b := 1 / 2 * π)
    rw [show 1 / 2 * -π + π / 2 = 0 by ring, show 1 / 2 * π + π / 2 = π by ring,
      integral_log_sin_zero_pi] at h3
    rw [← h3]
    simp only [sin_add_pi_div_two]
  refine ⟨(integrableOn_Ioc_iff_integrableOn_Ioo).1
    ((intervalIntegrable_iff_integrableOn_Ioc_of_le hle).1 h2), ?_⟩
  rw [← integral_Ioc_eq_integral_Ioo, ← intervalIntegral.integral_of_le hle, e, e2, smul_eq_mul]
  ring

theorem C262_cosine : HasEntropy (Ioo (-π) π) Cosine.pdf Cosine.entropy := by
  have hpi := pi_pos
  have hle : -π ≤ π := by linarith
  have hcp : ∀ x ∈ Ioo (-π) π, 0 < cos (1 / 2 * x) := fun x hx =>
    cos_pos_of_mem_Ioo ⟨by linarith [hx.1], by linarith [hx.2]⟩
  have hsq : ∀ x : ℝ, 1 + cos x = 2 * cos (1 / 2 * x) ^ 2 := by
    intro x
    have := cos_sq (1 / 2 * x)
    rw [show 2 * (1 / 2 * x) = x by ring] at this
    rw [this]
    ring
  have hlog : ∀ x ∈ Ioo (-π) π, log (1 + cos x) = log 2 + 2 * log (cos (1 / 2 * x)) := by
    intro x hx
    have := hcp x hx
    rw [hsq, log_mul two_ne_zero (by positivity), log_pow]
    push_cast
    ring
  have one : HasInt (Ioo (-π) π) (fun _ => (1 : ℝ)) (2 * π) :=
    hasInt_ftc hle (F := fun x => x) (by fun_prop) (by fun_prop) (fun x _ => hasDerivAt_id x)
      (by ring)
  have hcos : HasInt (Ioo (-π) π) cos 0 :=
    hasInt_ftc hle (F := sin) (by fun_prop) (by fun_prop) (fun x _ => hasDerivAt_sin x) (by simp)
  have i1 : HasInt (Ioo (-π) π) (fun x => log (1 + cos x)) (-(2 * π * log 2)) :=
    HasInt.congr measurableSet_Ioo ((one.const_mul (log 2)).add (hasInt_log_cos_half.const_mul 2))
      (fun x hx => by rw [hlog x hx]; ring) (by ring)
  have hc1 : Continuous fun x : ℝ => 1 + cos x := by fun_prop
  have hG : IntegrableOn (fun x => (1 + cos x) * log (1 + cos x)) (Ioo (-π) π) :=
    ((continuous_mul_log.comp hc1).continuousOn.integrableOn_Icc).mono_set Ioo_subset_Icc_self
  have hg : IntegrableOn (fun x => cos x * log (1 + cos x) - (1 - cos x)) (Ioo (-π) π) := by
    have h1 := (Integrable.sub hG i1.1).sub (Integrable.sub one.1 hcos.1)
    refine IntegrableOn.congr_fun h1 (fun x _ => ?_) measurableSet_Ioo
    simp only [Pi.sub_apply]
    ring
  have i2 : HasInt (Ioo (-π) π) (fun x => cos x * log (1 + cos x) - (1 - cos x)) 0 := by
    refine ⟨hg, ?_⟩
    have hcc : Continuous fun x : ℝ => cos (1 / 2 * x) := by fun_prop
    have hF : ContinuousOn (fun x : ℝ => 2 * sin (1 / 2 * x) * (log 2 * cos (1 / 2 * x) +
        2 * (cos (1 / 2 * x) * log (cos (1 / 2 * x))))) (Icc (-π) π) := by
      have := continuous_mul_log.comp hcc
      refine Continuous.continuousOn ?_
      exact (by fun_prop : Continuous fun x : ℝ => 2 * sin (1 / 2 * x)).mul
        ((continuous_const.mul hcc).add (continuous_const.mul this))
    rw [← integral_Ioc_eq_integral_Ioo, ← intervalIntegral.integral_of_le hle,
      intervalIntegral.integral_eq_sub_of_hasDerivAt_of_le hle hF ?_
        ((intervalIntegrable_iff_integrableOn_Ioc_of_le hle).2
          ((integrableOn_Ioc_iff_integrableOn_Ioo).2 hg))]
    · rw [show 1 / 2 * π = π / 2 by ring, show 1 / 2 * -π = -(π / 2) by ring, cos_neg,
        cos_pi_div_two]
      simp
    · intro x hx
      have hp : 1 + cos x ≠ 0 := by
        rw [hsq]
        have := hcp x hx
        positivity
      have hd : HasDerivAt (fun x => sin x * log (1 + cos x))
          (cos x * log (1 + cos x) - (1 - cos x)) x := by
        refine HasDerivAt.congr_deriv ((hasDerivAt_sin x).mul
          (((hasDerivAt_cos x).const_add 1).log hp)) ?_
        have h3 : sin x * sin x = (1 - cos x) * (1 + cos x) := by
          have := sin_sq_add_cos_sq x
          linarith
        rw [mul_div_assoc', mul_neg, h3, neg_div, mul_div_assoc, div_self hp]
        ring
      refine hd.congr_of_eventuallyEq ?_
      filter_upwards [isOpen_Ioo.mem_nhds hx] with y hy
      rw [hlog y hy, show sin y = 2 * sin (1 / 2 * y) * cos (1 / 2 * y) by
        rw [← sin_two_mul]; congr 1; ring]
      ring
  have key : HasInt (Ioo (-π) π) (fun x => Cosine.pdf x * log (Cosine.pdf x))
      (-Cosine.entropy) := by
    refine HasInt.congr measurableSet_Ioo ((((i1.add i2).add (one.add (hcos.const_mul (-1)))).add
      ((one.add hcos).const_mul (-log (2 * π)))).const_mul (1 / (2 * π))) ?_ ?_
    · intro x hx
      have h3 : 0 < 1 + cos x := by
        rw [hsq]
        have := hcp x hx
        positivity
      rw [Cosine.pdf, show 1 / 2 / π * (1 + cos x) = (1 + cos x) / (2 * π) by field_simp,
        log_div h3.ne' (by positivity)]
      field_simp
      ring
    · rw [Cosine.entropy, show (4 * π) = 2 * (2 * π) by ring, log_mul two_ne_zero (by positivity)]
      field_simp
      ring
  exact ⟨key.1, by rw [key.2, neg_neg]⟩

/-! ### Gompertz -/

theorem hasInt_exp_log_add {c : ℝ} (hc : 0 < c) :
    HasInt (Ioi 0) (fun t => (log (c + t) - t) * Expon.pdf t) (log c + exp c * expn1 c - 1) := by
  have e0 : HasInt (Ioi 0) (fun t => exp (-t)) 1 := ⟨C251_expon.1.integrable, C251_expon.1.total⟩
  have e1 : HasInt (Ioi 0) (fun t => t * exp (-t)) 1 := by
    refine HasInt.congr measurableSet_Ioi (gamma_expect one_pos 0 0 1) ?_ (by ring)
    intro y _
    rw [sub_self, rpow_zero, Gamma_one]
    ring
  have i1 : IntegrableOn (fun t => exp (-t) / (c + t)) (Ioi 0) := by
    refine Integrable.mono' (e0.1.const_mul (1 / c)) ?_ ?_
    · refine ContinuousOn.aestronglyMeasurable ?_ measurableSet_Ioi
      exact ContinuousOn.div (by fun_prop) (by fun_prop)
        (fun t ht => by have := mem_Ioi.1 ht; positivity)
    · refine (ae_restrict_iff' measurableSet_Ioi).2 (Eventually.of_forall fun t ht => ?_)
      have ht : 0 < t := ht
      rw [norm_of_nonneg (by positivity), div_eq_mul_inv, mul_comm, one_div]
      gcongr
      linarith
  have i2 : IntegrableOn (fun t => exp (-t) * log (c + t)) (Ioi 0) := by
    refine Integrable.mono' ((e0.1.const_mul |log c|).add (e1.1.const_mul (1 / c))) ?_ ?_
    · refine ContinuousOn.aestronglyMeasurable ?_ measurableSet_Ioi
      exact ContinuousOn.mul (by fun_prop) (ContinuousOn.log (by fun_prop)
        (fun t ht => by have := mem_Ioi.1 ht; positivity))
    · refine (ae_restrict_iff' measurableSet_Ioi).2 (Eventually.of_forall fun t ht => ?_)
      have ht : 0 < t := ht
      rw [norm_mul, norm_of_nonneg (exp_pos _).le]
      have h1 : log (c + t) = log c + log (1 + t / c) := by
        rw [← log_mul hc.ne' (by positivity)]
        congr 1
        field_simp
      have h2 : 0 ≤ log (1 + t / c) := log_nonneg (by
        have : 0 < t / c := by positivity
        linarith)
      have h3 : log (1 + t / c) ≤ t / c := by
        have := log_le_sub_one_of_pos (show 0 < 1 + t / c by positivity)
        linarith
      have h4 : ‖log (c + t)‖ ≤ |log c| + t / c := by
        rw [h1, norm_eq_abs]
        refine (abs_add_le _ _).trans ?_
        rw [abs_of_nonneg h2]
        linarith
      simp only [Pi.add_apply]
      have h5 := exp_pos (-t)
      calc exp (-t) * ‖log (c + t)‖ ≤ exp (-t) * (|log c| + t / c) := by gcongr
        _ = |log c| * exp (-t) + 1 / c * (t * exp (-t)) := by ring
  have hd : ∀ t ∈ Ioi (0 : ℝ), HasDerivAt (fun t => -(exp (-t) * log (c + t)))
      (exp (-t) * log (c + t) - exp (-t) / (c + t)) t := by
    intro t ht
    have ht : 0 < t := ht
    refine HasDerivAt.congr_deriv ((((hasDerivAt_id t).neg.exp).mul
      (((hasDerivAt_id t).const_add c).log (by simp only [id]; positivity))).neg) ?_
    simp only [Pi.neg_apply, id]
    ring
  have hcont : ContinuousWithinAt (fun t => -(exp (-t) * log (c + t))) (Ici 0) 0 := by
    refine ContinuousAt.continuousWithinAt ?_
    refine (ContinuousAt.mul (by fun_prop) (ContinuousAt.log (by fun_prop) (by simpa using hc.ne'))).neg
  have hlim : Tendsto (fun t => -(exp (-t) * log (c + t))) atTop (𝓝 0) := by
    have h1 : Tendsto (fun t : ℝ => exp (-t)) atTop (𝓝 0) := tendsto_exp_neg_atTop_nhds_zero
    have h2 : Tendsto (fun t : ℝ => t ^ 1 * exp (-t)) atTop (𝓝 0) :=
      tendsto_pow_mul_exp_neg_atTop_nhds_zero 1
    have h3 : Tendsto (fun t : ℝ => |log c| * exp (-t) + 1 / c * (t ^ 1 * exp (-t))) atTop
        (𝓝 0) := by
      simpa using (h1.const_mul |log c|).add (h2.const_mul (1 / c))
    refine squeeze_zero_norm' ?_ h3
    filter_upwards [eventually_gt_atTop 0] with t ht
    rw [norm_neg, norm_mul, norm_of_nonneg (exp_pos _).le]
    have h1 : log (c + t) = log c + log (1 + t / c) := by
      rw [← log_mul hc.ne' (by positivity)]
      congr 1
      field_simp
    have h2 : 0 ≤ log (1 + t / c) := log_nonneg (by
      have : 0 < t / c := by positivity
      linarith)
    have h3 : log (1 + t / c) ≤ t / c := by
      have := log_le_sub_one_of_pos (show 0 < 1 + t / c by positivity)
      linarith
    have h4 : ‖log (c + t)‖ ≤ |log c| + t / c := by
      rw [h1, norm_eq_abs]
      refine (abs_add_le _ _).trans ?_
      rw [abs_of_nonneg h2]
      linarith
    have h5 := exp_pos (-t)
    calc exp (-t) * ‖log (c + t)‖ ≤ exp (-t) * (|log c| + t / c) := by gcongr
      _ = |log c| * exp (-t) + 1 / c * (t ^ 1 * exp (-t)) := by ring
  have hint := integral_Ioi_of_hasDerivAt_of_tendsto hcont hd (Integrable.sub i2 i1) hlim
  have hsub : ∫ t in Ioi (0 : ℝ), exp (-t) / (c + t) = exp c * expn1 c := by
    have h := integral_image_eq_integral_abs_deriv_smul (s := Ioi (0 : ℝ)) (f := fun t => c + t)
      (f' := fun _ => 1) measurableSet_Ioi
      (fun t _ => ((hasDerivAt_id t).const_add c).hasDerivWithinAt)
      (fun x _ y _ h => by simpa using h) (fun s => exp (-s) / s)
    rw [show (fun t : ℝ => c + t) '' Ioi 0 = Ioi c by simp] at h
    rw [expn1, h, ← integral_const_mul]
    refine setIntegral_congr_fun measurableSet_Ioi fun t _ => ?_
    simp only [abs_one, one_smul]
    rw [neg_add, exp_add, exp_neg c]
    have := exp_pos c
    field_simp
  rw [integral_sub i2 i1, hsub] at hint
  have i3 : HasInt (Ioi 0) (fun t => exp (-t) * log (c + t)) (log c + exp c * expn1 c) := by
    refine ⟨i2, ?_⟩
    simp only [neg_zero, exp_zero, add_zero, one_mul] at hint
    linarith
  refine HasInt.congr measurableSet_Ioi (i3.add (e1.const_mul (-1))) ?_ (by ring)
  intro t _
  rw [Expon.pdf]
  ring

theorem C262_gompertz (c : ℝ) (hc : 0 < c) :
    HasEntropy (Ioi 0) (Gompertz.pdf c) (Gompertz.entropy c) := by
  have hC := C251_gompertz c hc
  have hi := (hasInt_ppf measurableSet_Ioi ordConnected_Ioi C251_expon.1 C251_expon.2.1
    (k := fun t => log (c + t) - t) (by fun_prop)).1 (hasInt_exp_log_add hc)
  refine entropy_ppf measurableSet_Ioi ordConnected_Ioi hC.1 hC.2.1
    (by unfold Gompertz.pdf Gompertz.logpdf expm1; fun_prop) ?_ hi
    (by rw [Gompertz.entropy]; ring)
  intro q hq
  have hM : 0 < -log (1 - q) := neg_pos.2 (log_neg (by linarith [hq.2]) (by linarith [hq.1]))
  have h1 : 0 < 1 + -1 / c * log (1 - q) := by
    rw [show 1 + -1 / c * log (1 - q) = 1 + -log (1 - q) / c by ring]
    positivity
  rw [Gompertz.pdf, log_exp, Gompertz.logpdf, Gompertz.ppf, Expon.ppf, log1p_neg, log1p, expm1,
    exp_log h1, show c + -log (1 - q) = c * (1 + -1 / c * log (1 - q)) by field_simp,
    log_mul hc.ne' h1.ne']
  field_simp
  ring

/-! ### The truncated Rayleigh distribution -/

/-- Without truncation the entropy reported for the truncated Rayleigh distribution is right.  The
method ignores the parameter `c`; see `C262_truncrayleigh_wrong` for `c > 0`. -/
theorem C262_truncrayleigh_partial :
    HasEntropy (Ioi 0) (TruncRayleigh.pdf 0) (TruncRayleigh.entropy 0) := by
  have e : ∀ x ∈ Ioi (0 : ℝ), TruncRayleigh.pdf 0 x = Rayleigh.pdf x := by
    intro x hx
    have hx : 0 < x := hx
    rw [TruncRayleigh.pdf, Rayleigh.pdf, Rayleigh.logpdf, exp_sub, exp_log hx, add_zero, mul_zero,
      sub_zero, neg_div, exp_neg, show 0.5 * x * x = x * x / 2 by ring]
    ring
  have e3 : ∀ x ∈ Ioi (0 : ℝ), TruncRayleigh.pdf 0 x * log (TruncRayleigh.pdf 0 x) =
      Rayleigh.pdf x * log (Rayleigh.pdf x) := by
    intro x hx
    rw [e x hx]
  exact ⟨(integrableOn_congr_fun e3 measurableSet_Ioi).2 C262_rayleigh.1, by
    rw [setIntegral_congr_fun measurableSet_Ioi e3, C262_rayleigh.2]
    rfl⟩

/-- The entropy reported for the truncated Rayleigh distribution is wrong when `c` is not zero. -/
theorem C262_truncrayleigh_wrong :
    ¬ HasEntropy (Ioi 0) (TruncRayleigh.pdf 3) (TruncRayleigh.entropy 3) := by
  intro h
  have hC := C251_truncrayleigh 3 (by norm_num)
  have h0 : HasInt (Ioi 0) (TruncRayleigh.pdf 3) 1 := ⟨hC.1.integrable, hC.1.total⟩
  have h1 : HasInt (Ioi 0) (fun r => ((r + 3) * (r + 3) - 3 * 3) / 2 * TruncRayleigh.pdf 3 r) 1 := by
    refine (hasInt_ppf measurableSet_Ioi ordConnected_Ioi hC.1 hC.2.1
      (k := fun r => ((r + 3) * (r + 3) - 3 * 3) / 2) (by fun_prop)).2 ?_
    refine HasInt.congr measurableSet_Ioo (hasInt_logs 0 0 (-1)) ?_ (by ring)
    intro q hq
    have hM : 0 < -log (1 - q) := neg_pos.2 (log_neg (by linarith [hq.2]) (by linarith [hq.1]))
    rw [TruncRayleigh.ppf, log1p_neg, sub_add_cancel, mul_self_sqrt (by linarith)]
    ring
  have h2 := (h0.const_mul (log 3)).add (h1.const_mul (-1))
  have hmono := setIntegral_mono_on h2.1 h.1 measurableSet_Ioi (fun r hr => ?_)
  · rw [h2.2] at hmono
    have h3 := h.2
    have h4 : TruncRayleigh.entropy 3 ≤ 1 - log 3 := by linarith
    have h5 : 1 < log 3 := (lt_log_iff_exp_lt (by norm_num)).2 exp_one_lt_three
    have h6 : log 2 < 1 := by linarith [log_two_lt_d9]
    have h7 := one_half_lt_eulerMascheroniConstant
    rw [TruncRayleigh.entropy, euler] at h4
    norm_num at h4
    linarith
  · have hr : 0 < r := hr
    have hf : 0 ≤ TruncRayleigh.pdf 3 r := hC.1.nonneg r hr
    have hl : log 3 ≤ log (r + 3) := log_le_log (by norm_num) (by linarith)
    rw [← (hC.2.2.2.1 r hr).2, TruncRayleigh.logpdf]
    have := mul_le_mul_of_nonneg_left hl hf
    nlinarith

end Wafo.Dist
