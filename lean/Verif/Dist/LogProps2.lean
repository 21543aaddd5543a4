import Verif.Dist.LogProps

/-!
# C267: the raw moments of the half-logistic distribution
-/

namespace Wafo.Dist

open MeasureTheory Set Filter Topology Real

set_option linter.unusedSectionVars false

theorem hl_pdf_eq (x : ℝ) : HalfLogistic.pdf x = 2 * exp (-x) / (1 + exp (-x)) ^ 2 := by
  have h : 0 < 1 + exp (-x) := by positivity
  rw [HalfLogistic.pdf, HalfLogistic.logpdf, log1p, exp_sub, exp_sub, exp_log two_pos,
    show (2 : ℝ) * log (1 + exp (-x)) = ((2 : ℕ) : ℝ) * log (1 + exp (-x)) by norm_num, exp_nat_mul,
    exp_log h, exp_neg]
  field_simp

/-- The alternating sum. -/
theorem eta_sum {n : ℕ} (hn : 2 ≤ n) :
    HasSum (fun k : ℕ => (-1 : ℝ) ^ k * (1 / (1 + (k : ℝ)) ^ n)) ((1 - 2 * (1 / 2) ^ n) * hzeta n 1) := by
  have hs := hzeta_summable hn (a := 1) one_pos
  have ho := hs.hasSum
  have hc := (hzeta_summable hn (a := 1 / 2) (by norm_num)).hasSum
  have e1 : HasSum (fun k : ℕ => (-1 : ℝ) ^ (2 * k) * (1 / ((1 : ℝ) + ((2 * k : ℕ) : ℝ)) ^ n))
      (hzeta n (1 / 2) / 2 ^ n) := by
    have := hc.div_const (2 ^ n)
    refine (congrArg (fun f => HasSum f _) (funext fun k => ?_)).mp this
    rw [pow_mul, neg_one_sq, one_pow, one_mul]
    push_cast
    rw [div_div, ← mul_pow]
    congr 2
    ring
  have e2 : HasSum (fun k : ℕ => (-1 : ℝ) ^ (2 * k + 1) * (1 / ((1 : ℝ) + ((2 * k + 1 : ℕ) : ℝ)) ^ n))
      (-(hzeta n 1 / 2 ^ n)) := by
    have := (ho.div_const (2 ^ n)).neg
    refine (congrArg (fun f => HasSum f _) (funext fun k => ?_)).mp this
    rw [pow_succ, pow_mul, neg_one_sq, one_pow, one_mul, neg_one_mul]
    push_cast
    rw [div_div, ← mul_pow]
    congr 3
    ring
  have h := e1.even_add_odd (f := fun k : ℕ => (-1 : ℝ) ^ k * (1 / ((1 : ℝ) + k) ^ n)) e2
  rw [hzeta_half hn] at h
  convert h using 1
  rw [one_div, inv_pow]
  have : (0 : ℝ) < 2 ^ n := by positivity
  field_simp
  ring

theorem hasInt_pow_exp (n : ℕ) {r : ℝ} (hr : 0 < r) :
    HasInt (Ioi 0) (fun x => x ^ n * exp (-(r * x))) ((1 / r) ^ (n + 1) * Gamma (n + 1)) := by
  constructor
  · refine (integrableOn_congr_fun (fun u _ => ?_) measurableSet_Ioi).2
      (integrableOn_rpow_mul_exp_neg_mul_rpow (s := n) (p := 1)
        (by linarith [(n.cast_nonneg : (0 : ℝ) ≤ n)]) one_pos hr)
    rw [rpow_one, rpow_natCast, neg_mul]
  · have := integral_rpow_mul_exp_neg_mul_Ioi (a := n + 1) (r := r) (by positivity) hr
    rw [add_sub_cancel_right] at this
    rw [← rpow_natCast (1 / r), Nat.cast_add_one, ← this]
    refine setIntegral_congr_fun measurableSet_Ioi fun x _ => ?_
    simp only [rpow_natCast]

theorem hl_moment {n : ℕ} (hn : 2 ≤ n) :
    HasMoment (Ioi 0) HalfLogistic.pdf n (2 * (1 - 2 * (1 / 2) ^ n) * Gamma (n + 1) * hzeta n 1) := by
  -- the terms of the series
  set F : ℕ → ℝ → ℝ := fun k x => (2 * (-1) ^ k * (1 + (k : ℝ))) * (x ^ n * exp (-((1 + (k : ℝ)) * x)))
  have hF : ∀ k, HasInt (Ioi 0) (F k) ((2 * (-1) ^ k * (1 + (k : ℝ)))
      * ((1 / (1 + (k : ℝ))) ^ (n + 1) * Gamma (n + 1))) := fun k =>
    (hasInt_pow_exp n (by positivity)).const_mul _
  have hN : ∀ k, ∫ x in Ioi (0 : ℝ), ‖F k x‖ = 2 * Gamma (n + 1) * (1 / (1 + (k : ℝ)) ^ n) := by
    intro k
    have hk : (0 : ℝ) < 1 + k := by positivity
    have : ∀ x ∈ Ioi (0 : ℝ), ‖F k x‖ = 2 * (1 + (k : ℝ)) * (x ^ n * exp (-((1 + (k : ℝ)) * x))) := by
      intro x hx
      have hx : 0 < x := hx
      simp only [F, norm_mul, norm_pow, norm_neg, norm_one, one_pow, Real.norm_ofNat]
      rw [norm_of_nonneg hk.le, norm_of_nonneg hx.le, norm_of_nonneg (exp_pos _).le]
      ring
    rw [setIntegral_congr_fun measurableSet_Ioi this, integral_const_mul, (hasInt_pow_exp n hk).2,
      one_div_pow, pow_succ]
    field_simp
  have hsum : Summable fun k => ∫ x in Ioi (0 : ℝ), ‖F k x‖ := by
    simp only [hN]
    exact (hzeta_summable hn one_pos).mul_left _
  have h := hasSum_integral_of_summable_integral_norm (μ := volume.restrict (Ioi (0 : ℝ)))
    (fun k => (hF k).1) hsum
  have hv : ∀ k, ∫ x in Ioi (0 : ℝ), F k x = 2 * Gamma (n + 1) * ((-1) ^ k * (1 / (1 + (k : ℝ)) ^ n)) := by
    intro k
    have hk : (0 : ℝ) < 1 + k := by positivity
    rw [(hF k).2, one_div_pow, pow_succ]
    field_simp
  simp only [hv] at h
  have h2 := h.unique ((eta_sum hn).mul_left (2 * Gamma (n + 1)))
  have hser : ∀ x ∈ Ioi (0 : ℝ), x ^ n * HalfLogistic.pdf x = ∑' k, F k x := by
    intro x hx
    have hx : 0 < x := hx
    have hr : ‖-exp (-x)‖ < 1 := by
      rw [norm_neg, norm_of_nonneg (exp_pos _).le]
      rw [← exp_zero]
      exact exp_lt_exp.2 (by linarith)
    have hg := hasSum_coe_mul_geometric_of_norm_lt_one hr
    have hg' := (hasSum_nat_add_iff' 1).2 hg
    simp only [Finset.range_one, Finset.sum_singleton, Nat.cast_zero, zero_mul, sub_zero] at hg'
    have hg2 := hg'.mul_left (-2 * x ^ n)
    have e : (fun k : ℕ => -2 * x ^ n * (((k + 1 : ℕ) : ℝ) * (-exp (-x)) ^ (k + 1))) = fun k => F k x := by
      funext k
      simp only [F]
      rw [neg_pow, ← exp_nat_mul, pow_succ]
      push_cast
      rw [show ((k : ℝ) + 1) * -x = -((1 + (k : ℝ)) * x) by ring]
      ring
    rw [e] at hg2
    rw [hg2.tsum_eq, hl_pdf_eq]
    ring
  constructor
  · have hdom : IntegrableOn (fun x : ℝ => 2 * (x ^ n * exp (-(1 * x)))) (Ioi 0) :=
      ((hasInt_pow_exp n one_pos).const_mul 2).1
    refine Integrable.mono' hdom ?_ ?_
    · have : Measurable HalfLogistic.pdf := by
        unfold HalfLogistic.pdf HalfLogistic.logpdf log1p
        fun_prop
      fun_prop
    · refine (ae_restrict_iff' measurableSet_Ioi).2 (Eventually.of_forall fun x hx => ?_)
      have hx : 0 < x := hx
      have he := exp_pos (-x)
      rw [hl_pdf_eq, norm_of_nonneg (by positivity), one_mul,
        show 2 * (x ^ n * exp (-x)) = x ^ n * (2 * exp (-x)) by ring]
      gcongr
      exact div_le_self (by positivity) (one_le_pow₀ (by linarith))
  · rw [setIntegral_congr_fun measurableSet_Ioi hser, h2]
    ring

theorem hl_mean : HasMoment (Ioi 0) HalfLogistic.pdf 1 (2 * log 2) := by
  -- an antiderivative
  set G : ℝ → ℝ := fun x => -(x * (2 * exp (-x) / (1 + exp (-x)))) - 2 * log (1 + exp (-x))
  have hd : ∀ x ∈ Ici (0 : ℝ), HasDerivAt G (x ^ 1 * HalfLogistic.pdf x) x := by
    intro x _
    have h : 0 < 1 + exp (-x) := by positivity
    have he : HasDerivAt (fun x => exp (-x)) (-exp (-x)) x :=
      HasDerivAt.congr_deriv (hasDerivAt_neg x).exp (by ring)
    have h1 : HasDerivAt (fun x => 2 * exp (-x) / (1 + exp (-x)))
        ((2 * -exp (-x) * (1 + exp (-x)) - 2 * exp (-x) * -exp (-x)) / (1 + exp (-x)) ^ 2) x :=
      (he.const_mul 2).div (he.const_add 1) h.ne'
    have h2 : HasDerivAt (fun x => log (1 + exp (-x))) (-exp (-x) / (1 + exp (-x))) x :=
      (he.const_add 1).log h.ne'
    refine HasDerivAt.congr_deriv (((hasDerivAt_id' x).mul h1).neg.sub (h2.const_mul 2)) ?_
    rw [hl_pdf_eq]
    field_simp
    ring
  have hl : Tendsto G atTop (𝓝 0) := by
    have he : Tendsto (fun x : ℝ => exp (-x)) atTop (𝓝 0) := tendsto_exp_neg_atTop_nhds_zero
    have h1 : Tendsto (fun x : ℝ => 1 + exp (-x)) atTop (𝓝 1) := by simpa using he.const_add 1
    have h2 : Tendsto (fun x : ℝ => x * exp (-x)) atTop (𝓝 0) := by
      simpa using tendsto_pow_mul_exp_neg_atTop_nhds_zero 1
    have h3 : Tendsto (fun x : ℝ => x * (2 * exp (-x) / (1 + exp (-x)))) atTop (𝓝 0) := by
      have := (h2.const_mul 2).div h1 one_ne_zero
      rw [mul_zero, zero_div] at this
      refine this.congr fun x => ?_
      show 2 * (x * exp (-x)) / (1 + exp (-x)) = _
      ring
    have h4 : Tendsto (fun x : ℝ => 2 * log (1 + exp (-x))) atTop (𝓝 0) := by
      have := (h1.log one_ne_zero).const_mul 2
      rwa [log_one, mul_zero] at this
    simpa using h3.neg.sub h4
  have hn : ∀ x ∈ Ioi (0 : ℝ), 0 ≤ x ^ 1 * HalfLogistic.pdf x := fun x hx => by
    have hx : 0 < x := hx
    have : 0 < HalfLogistic.pdf x := exp_pos _
    positivity
  refine ⟨integrableOn_Ioi_deriv_of_nonneg' hd hn hl, ?_⟩
  rw [integral_Ioi_of_hasDerivAt_of_nonneg' hd hn hl]
  simp only [G, neg_zero, exp_zero, zero_mul, zero_sub, sub_neg_eq_add, zero_add]
  norm_num

/-- `halflogistic`: raw moments of every positive order. -/
theorem C267_halflogistic_munp (n : ℕ) (hn : 1 ≤ n) :
    HasMoment (Ioi 0) HalfLogistic.pdf n (HalfLogistic.munp n) := by
  rcases hn.lt_or_eq with h | rfl
  swap
  · exact hl_mean
  · have hm := hl_moment (n := n) (by omega)
    convert hm using 1
    unfold HalfLogistic.munp
    split_ifs with c1 c2 c3 c4
    · omega
    · subst n
      have : Gamma ((2 : ℕ) + 1 : ℝ) = 2 := by
        rw [Gamma_nat_eq_factorial]
        norm_num [Nat.factorial]
      rw [this, hzeta_two_one]
      ring
    · subst n
      have : Gamma ((3 : ℕ) + 1 : ℝ) = 6 := by
        rw [Gamma_nat_eq_factorial]
        norm_num [Nat.factorial]
      rw [this]
      ring
    · subst n
      have : Gamma ((4 : ℕ) + 1 : ℝ) = 24 := by
        rw [Gamma_nat_eq_factorial]
        norm_num [Nat.factorial]
      rw [this, hzeta_four_one]
      ring
    · rw [rpow_sub two_pos, rpow_one, rpow_natCast, one_div_pow]
      ring

example : HalfLogistic.munp 3 = 9 * hzeta 3 1 := by
  simp [HalfLogistic.munp]

end Wafo.Dist
