import Verif.Dist.MomGammaProps

/-!
# C260, continued: generalised gamma, inverse gamma, Weibull and two-sided distributions
-/

namespace Wafo.Dist

open MeasureTheory Set Filter Topology Real

set_option linter.unusedSectionVars false

/-! ### Generalised gamma -/

theorem gengamma_moment (a c : ℝ) (hac : GenGamma.argcheck a c) (n : ℕ) :
    (0 < a + n / c → HasMoment (Ioi 0) (GenGamma.pdf a c) n (GenGamma.munp n a c)) ∧
    (a + n / c ≤ 0 → NoMoment (Ioi 0) (GenGamma.pdf a c) n) := by
  obtain ⟨ha, hc⟩ := hac
  have := gamma_moment (s := 1) (r := 1 / c) (g := fun x => x ^ c) (gi := fun y => y ^ (1 / c))
    (g' := fun x => c * x ^ (c - 1)) (pdf := GenGamma.pdf a c) ha one_pos
    (fun x hx => rpow_pos_of_pos hx c) (fun y hy => rpow_pos_of_pos hy _)
    (fun x hx => by rw [← rpow_mul (le_of_lt hx), mul_one_div_cancel hc, rpow_one])
    (fun y hy => by rw [← rpow_mul hy.le, one_div_mul_cancel hc, rpow_one])
    (fun x hx => hasDerivAt_rpow_const (p := c) (Or.inl (ne_of_gt hx)))
    (fun x hx => by
      have hx : 0 < x := hx
      have h1 := rpow_pos_of_pos hx c
      have h2 := rpow_pos_of_pos hx (c - 1)
      have h3 := abs_pos.2 hc
      rw [abs_mul, abs_of_pos h2, gamma_pdf_exp ha h1 (by positivity), GenGamma.pdf,
        GenGamma.logpdf, xlogy, log_mul h3.ne' h2.ne', log_rpow hx, log_rpow hx]
      congr 1
      ring) (fun y _ => by rw [one_mul]) n
  simpa only [one_pow, one_mul, mul_one_div, GenGamma.munp] using this

/-- The raw moments of the generalised gamma distribution, where they exist. -/
theorem C260_gengamma_partial (a c : ℝ) (hac : GenGamma.argcheck a c) (n : ℕ) (h : 0 < a + n / c) :
    HasMoment (Ioi 0) (GenGamma.pdf a c) n (GenGamma.munp n a c) :=
  (gengamma_moment a c hac n).1 h

example : GenGamma.argcheck 2 3 ∧ (0 : ℝ) < 2 + (4 : ℕ) / 3 ∧ GenGamma.munp 3 2 3 = 2 := by
  refine ⟨⟨by norm_num, by norm_num⟩, by norm_num, ?_⟩
  have h2 : Gamma (2 : ℝ) = 1 := by
    rw [show (2 : ℝ) = 1 + 1 by norm_num, Gamma_add_one one_ne_zero, Gamma_one, one_mul]
  have h3 : Gamma (3 : ℝ) = 2 := by
    rw [show (3 : ℝ) = 2 + 1 by norm_num, Gamma_add_one two_ne_zero, h2, mul_one]
  rw [GenGamma.munp, show (2 : ℝ) + (3 : ℕ) / 3 = 3 by norm_num, h2, h3, div_one]

theorem gamma_neg_half : Gamma (-1 / 2) = -2 * √π := by
  have h := Gamma_add_one (s := -1 / 2) (by norm_num)
  rw [show (-1 / 2 + 1 : ℝ) = 1 / 2 by norm_num, Gamma_one_half_eq] at h
  linarith

/-- The disagreement: a negative number is reported for the mean of a positive variable which has no
mean. -/
theorem C260_gengamma_no_mean : GenGamma.argcheck (1 / 2) (-1) ∧
    NoMoment (Ioi 0) (GenGamma.pdf (1 / 2) (-1)) 1 ∧ GenGamma.munp 1 (1 / 2) (-1) = -2 := by
  refine ⟨⟨by norm_num, by norm_num⟩,
    (gengamma_moment (1 / 2) (-1) ⟨by norm_num, by norm_num⟩ 1).2 (by norm_num), ?_⟩
  have hπ := sqrt_pos.2 pi_pos
  rw [GenGamma.munp, show (1 / 2 : ℝ) + (1 : ℕ) / -1 = -1 / 2 by norm_num, gamma_neg_half,
    Gamma_one_half_eq]
  field_simp

/-! ### Inverse gamma -/

theorem invgamma_moment (a : ℝ) (ha : 0 < a) (n : ℕ) :
    (n < a → HasMoment (Ioi 0) (InvGamma.pdf a) n (Gamma (a - n) / Gamma a)) ∧
    (a ≤ n → NoMoment (Ioi 0) (InvGamma.pdf a) n) := by
  have := gamma_moment (s := 1) (r := -1) (g := fun x => 1 / x) (gi := fun y => 1 / y)
    (g' := fun x => -(1 / x ^ 2)) (pdf := InvGamma.pdf a) ha one_pos
    (fun x hx => one_div_pos.2 hx) (fun y hy => one_div_pos.2 hy) (fun x _ => one_div_one_div x)
    (fun y _ => one_div_one_div y)
    (fun x hx => by
      have hx : 0 < x := hx
      refine HasDerivAt.congr_deriv (((hasDerivAt_id x).inv hx.ne').congr_of_eventuallyEq ?_) ?_
      · exact Filter.Eventually.of_forall fun y => one_div y
      · simp only [id_eq]
        ring)
    (fun x hx => by
      have hx : 0 < x := hx
      rw [abs_neg, abs_of_pos (by positivity), gamma_pdf_exp ha (by positivity) (by positivity),
        InvGamma.pdf, InvGamma.logpdf, log_div one_ne_zero hx.ne',
        log_div one_ne_zero (by positivity), log_one, log_pow]
      congr 1
      push_cast
      ring) (fun y hy => by rw [one_mul, rpow_neg_one, one_div]) n
  simp only [one_pow, one_mul, mul_neg, mul_one, ← sub_eq_add_neg, sub_pos, sub_nonpos] at this
  exact this

theorem gamma_sub {a : ℝ} (h : 1 < a) : Gamma a = (a - 1) * Gamma (a - 1) := by
  have := Gamma_add_one (s := a - 1) (by linarith)
  rwa [sub_add_cancel] at this

/-- The statistics of the inverse gamma distribution, finite or not. -/
theorem C260_invgamma (a : ℝ) (ha : 0 < a) :
    HasStats? (Ioi 0) (InvGamma.pdf a) (InvGamma.stats a) := by
  have hn : ∀ x ∈ Ioi (0 : ℝ), 0 ≤ InvGamma.pdf a x := fun x _ => (exp_pos _).le
  have hG := Gamma_pos_of_pos ha
  have k0 : HasMoment (Ioi 0) (InvGamma.pdf a) 0 1 := by
    have := (invgamma_moment a ha 0).1 (by exact_mod_cast ha)
    push_cast at this
    rwa [sub_zero, div_self hG.ne'] at this
  have k1 : 1 < a → HasMoment (Ioi 0) (InvGamma.pdf a) 1 (1 / (a - 1)) := by
    intro h
    have h1 : 0 < a - 1 := by linarith
    have hg := Gamma_pos_of_pos h1
    convert (invgamma_moment a ha 1).1 (by exact_mod_cast h) using 1
    push_cast
    rw [gamma_sub h]
    field_simp
  have k2 : 2 < a → HasMoment (Ioi 0) (InvGamma.pdf a) 2 (1 / ((a - 1) * (a - 2))) := by
    intro h
    have h1 : 0 < a - 1 := by linarith
    have h2 : 0 < a - 2 := by linarith
    have hg := Gamma_pos_of_pos h2
    convert (invgamma_moment a ha 2).1 (by exact_mod_cast h) using 1
    push_cast
    rw [gamma_sub (by linarith : 1 < a), gamma_sub (by linarith : 1 < a - 1),
      show a - 1 - 1 = a - 2 by ring]
    field_simp
  have k3 : 3 < a → HasMoment (Ioi 0) (InvGamma.pdf a) 3 (1 / ((a - 1) * (a - 2) * (a - 3))) := by
    intro h
    have h1 : 0 < a - 1 := by linarith
    have h2 : 0 < a - 2 := by linarith
    have h3 : 0 < a - 3 := by linarith
    have hg := Gamma_pos_of_pos h3
    convert (invgamma_moment a ha 3).1 (by exact_mod_cast h) using 1
    push_cast
    rw [gamma_sub (by linarith : 1 < a), gamma_sub (by linarith : 1 < a - 1),
      show a - 1 - 1 = a - 2 by ring, gamma_sub (by linarith : 1 < a - 2),
      show a - 2 - 1 = a - 3 by ring]
    field_simp
  have k4 : 4 < a → HasMoment (Ioi 0) (InvGamma.pdf a) 4
      (1 / ((a - 1) * (a - 2) * (a - 3) * (a - 4))) := by
    intro h
    have h1 : 0 < a - 1 := by linarith
    have h2 : 0 < a - 2 := by linarith
    have h3 : 0 < a - 3 := by linarith
    have h4 : 0 < a - 4 := by linarith
    have hg := Gamma_pos_of_pos h4
    convert (invgamma_moment a ha 4).1 (by exact_mod_cast h) using 1
    push_cast
    rw [gamma_sub (by linarith : 1 < a), gamma_sub (by linarith : 1 < a - 1),
      show a - 1 - 1 = a - 2 by ring, gamma_sub (by linarith : 1 < a - 2),
      show a - 2 - 1 = a - 3 by ring, gamma_sub (by linarith : 1 < a - 3),
      show a - 3 - 1 = a - 4 by ring]
    field_simp
  constructor
  · simp only [InvGamma.stats]
    split_ifs with h
    · exact k1 h
    · exact (invgamma_moment a ha 1).2 (by exact_mod_cast not_lt.1 h)
  · simp only [InvGamma.stats]
    split_ifs with h
    · have h1 : a - 1 ≠ 0 := by linarith
      have h2 : a - 2 ≠ 0 := by linarith
      refine hasVar_of_raw measurableSet_Ioi hn k0 (k1 (by linarith)) (k2 h) ?_
      field_simp
      ring
    · exact (invgamma_moment a ha 2).2 (by exact_mod_cast not_lt.1 h)
  · simp only [InvGamma.stats]
    split_ifs with h
    · have h1 : a - 1 ≠ 0 := by linarith
      have h2 : 0 < a - 2 := by linarith
      have h3 : a - 3 ≠ 0 := by linarith
      refine hasSkew_of_raw (v := 1 / (a - 1) ^ 2 / (a - 2)) measurableSet_Ioi hn k0
        (k1 (by linarith)) (k2 (by linarith)) (k3 h) ?_ (fun hv => ?_)
      · field_simp
        ring
      · have hs := sqrt_pos.2 h2
        have e : √(1 / (a - 1) ^ 2 / (a - 2)) = 1 / ((a - 1) * √(a - 2)) := by
          rw [sqrt_div (by positivity), sqrt_div zero_le_one, sqrt_one,
            sqrt_sq (by linarith : (0 : ℝ) ≤ a - 1), div_div]
        rw [rpow_threehalf hv.le, e]
        have h2' := h2.ne'
        generalize √(a - 2) = w at *
        field_simp
        ring
    · exact (invgamma_moment a ha 3).2 (by exact_mod_cast not_lt.1 h)
  · simp only [InvGamma.stats]
    split_ifs with h
    · have h1 : a - 1 ≠ 0 := by linarith
      have h2 : a - 2 ≠ 0 := by linarith
      have h3 : a - 3 ≠ 0 := by linarith
      have h4 : a - 4 ≠ 0 := by linarith
      refine hasKurt_of_raw (v := 1 / (a - 1) ^ 2 / (a - 2)) measurableSet_Ioi hn k0
        (k1 (by linarith)) (k2 (by linarith)) (k3 (by linarith)) (k4 h) ?_ (fun hv => ?_)
      · field_simp
        ring
      · field_simp
        ring
    · exact (invgamma_moment a ha 4).2 (by exact_mod_cast not_lt.1 h)

example : (0 : ℝ) < 3 / 2 ∧ (InvGamma.stats (3 / 2)).1 = .fin 2 ∧
    (InvGamma.stats (3 / 2)).2.1 = .inf := by
  refine ⟨by norm_num, ?_, ?_⟩
  · simp only [InvGamma.stats]
    rw [if_pos (by norm_num)]
    norm_num
  · simp only [InvGamma.stats]
    rw [if_neg (by norm_num)]

/-! ### Weibull and exponential -/

theorem weibull_eq (c : ℝ) (hc : 0 < c) (x : ℝ) (hx : x ∈ Ioi (0 : ℝ)) :
    WeibullMin.pdf c x = GenGamma.pdf 1 c x := by
  have hx : 0 < x := hx
  rw [WeibullMin.pdf, GenGamma.pdf, GenGamma.logpdf, xlogy, gammaln, Gamma_one, abs_one, log_one,
    abs_of_pos hc, sub_zero, exp_sub, exp_add, exp_log hc, rpow_def_of_pos hx, exp_neg, mul_one,
    mul_comm (log x)]
  rfl

theorem C260_weibull_min (n : ℕ) (c : ℝ) (hc : 0 < c) :
    HasMoment (Ioi 0) (WeibullMin.pdf c) n (WeibullMin.munp n c) := by
  refine ((gengamma_moment 1 c ⟨one_pos, hc.ne'⟩ n).1 (by positivity)).congr measurableSet_Ioi
    (weibull_eq c hc) ?_
  rw [WeibullMin.munp, GenGamma.munp, Gamma_one, div_one, mul_one]

example : (0 : ℝ) < 2 ∧ WeibullMin.munp 2 2 = 1 := by
  refine ⟨by norm_num, ?_⟩
  rw [WeibullMin.munp, show (1 + (2 : ℕ) * 1 / 2 : ℝ) = 1 + 1 by norm_num,
    Gamma_add_one one_ne_zero, Gamma_one, one_mul]

theorem neg_moment {f g : ℝ → ℝ} {n : ℕ} {m : ℝ} (h : HasMoment (Ioi 0) f n m)
    (hg : ∀ x ∈ Iio (0 : ℝ), g x = f (-x)) : HasMoment (Iio 0) g n ((-1) ^ n * m) := by
  have h1 : HasInt (Ioi 0) (fun x => x ^ n * f x) m := h
  have h2 : HasInt (Iio 0) (fun x => (-x) ^ n * f (-x)) m := by
    refine ⟨?_, ?_⟩
    · have h5 := h1.1
      rw [← neg_zero] at h5
      exact IntegrableOn.comp_neg_Iio h5
    · have := integral_comp_neg_Iic 0 (fun x => x ^ n * f x)
      rw [neg_zero, h1.2] at this
      rw [← integral_Iic_eq_integral_Iio]
      exact this
  refine (h2.const_mul ((-1) ^ n)).congr measurableSet_Iio (fun x hx => ?_) rfl
  rw [hg x hx, ← mul_assoc, ← mul_pow, neg_one_mul, neg_neg]

theorem C260_weibull_max (n : ℕ) (c : ℝ) (hc : 0 < c) :
    HasMoment (Iio 0) (WeibullMax.pdf c) n (WeibullMax.munp n c) := by
  have := neg_moment (g := WeibullMax.pdf c) (C260_weibull_min n c hc) (fun x _ => rfl)
  convert this using 1
  simp only [WeibullMax.munp, WeibullMin.munp]
  rcases Nat.even_or_odd n with h | h
  · rw [h.neg_one_pow, if_neg (by rw [Nat.even_iff.1 h]; decide)]
  · rw [h.neg_one_pow, if_pos (by rw [Nat.odd_iff.1 h]; decide)]

example : (0 : ℝ) < 1 ∧ WeibullMax.munp 1 1 = -1 := by
  refine ⟨by norm_num, ?_⟩
  simp only [WeibullMax.munp]
  rw [show (1 + (1 : ℕ) * 1 / 1 : ℝ) = 1 + 1 by norm_num, Gamma_add_one one_ne_zero, Gamma_one]
  norm_num

theorem C260_dweibull (n : ℕ) (c : ℝ) (hc : 0 < c) :
    HasMoment univ (DWeibull.pdf c) n (DWeibull.munp n c) := by
  have := even_moment (f := DWeibull.pdf c) (fun x => by simp only [DWeibull.pdf, abs_neg])
    ((C260_weibull_min n c hc).congr measurableSet_Ioi (g := fun x => 2 * DWeibull.pdf c x)
      (fun x hx => by
        have hx : 0 < x := hx
        simp only [DWeibull.pdf, WeibullMin.pdf, abs_of_pos hx]
        ring) rfl)
  convert this using 1
  simp only [DWeibull.munp, WeibullMin.munp]
  rcases Nat.mod_two_eq_zero_or_one n with h | h
  · rw [h, if_pos rfl]
    push_cast
    rw [sub_zero, one_mul, mul_one, one_mul]
  · rw [h, if_neg (by decide)]
    push_cast
    rw [sub_self, zero_mul]

example : (0 : ℝ) < 1 ∧ DWeibull.munp 1 1 = 0 ∧ DWeibull.munp 2 2 = 1 := by
  refine ⟨by norm_num, by simp [DWeibull.munp], ?_⟩
  rw [DWeibull.munp, show (1 + 1 * (2 : ℕ) / 2 : ℝ) = 1 + 1 by norm_num,
    Gamma_add_one one_ne_zero, Gamma_one]
  norm_num

theorem expon_eq (x : ℝ) (_ : x ∈ Ioi (0 : ℝ)) : Expon.pdf x = GammaD.pdf 1 x := by
  rw [Expon.pdf, GammaD.pdf, GammaD.logpdf, xlogy, gammaln, Gamma_one, abs_one, log_one]
  congr 1
  ring

theorem C260_expon : HasStats (Ioi 0) Expon.pdf Expon.stats := by
  have h := fun n => (gammaD_moment 1 one_pos n).congr measurableSet_Ioi expon_eq rfl
  simp only [Gamma_one, div_one] at h
  have h0 := h 0
  have h1 := h 1
  have h2 := h 2
  have h3 := h 3
  have h4 := h 4
  push_cast at h0 h1 h2 h3 h4
  rw [add_zero, Gamma_one] at h0
  rw [Gamma_add_one one_ne_zero, Gamma_one] at h1
  rw [gamma_add_two one_pos, Gamma_one] at h2
  rw [gamma_add_three one_pos, Gamma_one] at h3
  rw [gamma_add_four one_pos, Gamma_one] at h4
  rw [show Expon.stats = (1 * 1, 1, 2, 6) by rw [Expon.stats, mul_one]]
  refine hasStats_of_raw measurableSet_Ioi (fun x _ => (exp_pos _).le) h0 h1 h2 h3 h4 (by norm_num)
    (fun _ => by rw [one_rpow]; norm_num) (fun _ => by norm_num)

example : Expon.stats.2.2.1 = 2 := rfl

/-! ### Distributions symmetric about zero -/

/-- Statistics of a symmetric density from the second and fourth moments of the upper half. -/
theorem even_stats {f h : ℝ → ℝ} (he : ∀ x, f (-x) = f x) (hn : ∀ x, 0 ≤ f x)
    (hh : ∀ x ∈ Ioi (0 : ℝ), 2 * f x = h x) {M : ℕ → ℝ}
    (hM : ∀ n, HasMoment (Ioi 0) h n (M n)) (h0 : M 0 = 1) {g : ℝ}
    (hg : 0 < M 2 → (g + 3) * M 2 ^ 2 = M 4) : HasStats univ f (0, M 2, 0, g) := by
  have hm := fun n => even_moment he ((hM n).congr measurableSet_Ioi hh rfl)
  have k0 := hm 0
  have k1 := hm 1
  have k2 := hm 2
  have k3 := hm 3
  have k4 := hm 4
  rw [if_pos (by decide)] at k0 k2 k4
  rw [if_neg (by decide)] at k1 k3
  rw [h0] at k0
  exact hasStats_of_raw MeasurableSet.univ (fun x _ => hn x) k0 k1 k2 k3 k4 (by ring)
    (fun _ => by ring) (fun hv => by rw [hg hv]; ring)

theorem C260_laplace : HasStats univ Laplace.pdf Laplace.stats := by
  have := even_stats (f := Laplace.pdf) (h := Expon.pdf)
    (fun x => by simp only [Laplace.pdf, abs_neg]) (fun x => by unfold Laplace.pdf; positivity)
    (fun x hx => by
      rw [Laplace.pdf, Expon.pdf, abs_of_pos hx]
      ring) (fun n => (gammaD_moment 1 one_pos n).congr measurableSet_Ioi expon_eq rfl)
    (by push_cast; rw [add_zero, Gamma_one, div_one]) (g := 3) (fun _ => by
      push_cast
      rw [gamma_add_two one_pos, gamma_add_four one_pos, Gamma_one]
      norm_num)
  push_cast at this
  rw [gamma_add_two one_pos, Gamma_one] at this
  rw [Laplace.stats]
  convert this using 3
  norm_num

example : Laplace.stats.2.1 = 2 := rfl

theorem C260_dgamma (a : ℝ) (ha : 0 < a) : HasStats univ (DGamma.pdf a) (DGamma.stats a) := by
  have hG := Gamma_pos_of_pos ha
  have := even_stats (f := DGamma.pdf a) (h := GammaD.pdf a)
    (fun x => by simp only [DGamma.pdf, abs_neg])
    (fun x => by
      have := rpow_nonneg (abs_nonneg x) (a - 1)
      unfold DGamma.pdf
      positivity)
    (fun x hx => by
      have hx : 0 < x := hx
      rw [DGamma.pdf, abs_of_pos hx, GammaD.pdf, GammaD.logpdf, xlogy, exp_sub, exp_sub,
        gammaln_eq ha, rpow_def_of_pos hx, exp_neg, mul_comm (log x)]
      field_simp) (gammaD_moment a ha)
    (by push_cast; rw [add_zero, div_self hG.ne'])
    (g := (a + 2) * (a + 3) / (a * (a + 1)) - 3) (fun _ => by
      push_cast
      rw [gamma_add_two ha, gamma_add_four ha]
      field_simp
      ring)
  push_cast at this
  rw [gamma_add_two ha, mul_div_cancel_right₀ _ hG.ne'] at this
  rw [DGamma.stats]
  convert this using 3
  ring

example : (0 : ℝ) < 1 ∧ DGamma.stats 1 = (0, 2, 0, 3) := by
  refine ⟨by norm_num, ?_⟩
  simp only [DGamma.stats]
  norm_num

theorem halfgennorm_moment (beta : ℝ) (hb : 0 < beta) (n : ℕ) :
    HasMoment (Ioi 0) (HalfGenNorm.pdf beta) n (Gamma ((1 + n) / beta) / Gamma (1 / beta)) := by
  refine ((gengamma_moment (1 / beta) beta ⟨by positivity, hb.ne'⟩ n).1 (by positivity)).congr
    measurableSet_Ioi (fun x _ => ?_) ?_
  · rw [HalfGenNorm.pdf, HalfGenNorm.logpdf, GenGamma.pdf, GenGamma.logpdf, abs_of_pos hb, xlogy,
      mul_one_div_cancel hb.ne', sub_self, zero_mul]
    congr 1
    ring
  · rw [GenGamma.munp, add_div]

theorem C260_gennorm (beta : ℝ) (hb : 0 < beta) :
    HasStats univ (GenNorm.pdf beta) (GenNorm.stats beta) := by
  have g1 := Gamma_pos_of_pos (show 0 < 1 / beta by positivity)
  have g3 := Gamma_pos_of_pos (show 0 < 3 / beta by positivity)
  have g5 := Gamma_pos_of_pos (show 0 < 5 / beta by positivity)
  have := even_stats (f := GenNorm.pdf beta) (h := HalfGenNorm.pdf beta)
    (fun x => by simp only [GenNorm.pdf, GenNorm.logpdf, abs_neg]) (fun x => (exp_pos _).le)
    (fun x hx => by
      have hx : 0 < x := hx
      rw [GenNorm.pdf, GenNorm.logpdf, HalfGenNorm.pdf, HalfGenNorm.logpdf, abs_of_pos hx,
        show (0.5 : ℝ) * beta = beta / 2 by ring, exp_sub, exp_sub, exp_sub, exp_sub,
        exp_log (by positivity), exp_log hb]
      ring) (halfgennorm_moment beta hb)
    (by push_cast; rw [add_zero, div_self g1.ne'])
    (g := exp (gammaln (5 / beta) + gammaln (1 / beta) - 2 * gammaln (3 / beta)) - 3) (fun _ => by
      push_cast
      rw [show (1 + 2 : ℝ) = 3 by norm_num, show (1 + 4 : ℝ) = 5 by norm_num, sub_add_cancel, exp_sub,
        exp_add, two_mul, exp_add, gammaln_eq (by positivity), gammaln_eq (by positivity),
        gammaln_eq (by positivity)]
      field_simp)
  push_cast at this
  rw [GenNorm.stats]
  convert this using 3
  rw [exp_sub, gammaln_eq (by positivity), gammaln_eq (by positivity)]
  norm_num

example : (0 : ℝ) < 1 / 2 ∧ (GenNorm.stats 1).2.1 = Gamma 3 := by
  refine ⟨by norm_num, ?_⟩
  simp only [GenNorm.stats, div_one]
  rw [exp_sub, gammaln_eq (by norm_num), gammaln_eq (by norm_num), Gamma_one, div_one]

/-! ### The inverse Weibull distribution -/

theorem invweibull_moment (c : ℝ) (hc : 0 < c) (n : ℕ) :
    (n < c → HasMoment (Ioi 0) (InvWeibull.pdf c) n (InvWeibull.munp n c)) ∧
    (c ≤ n → NoMoment (Ioi 0) (InvWeibull.pdf c) n) := by
  have hh := gengamma_moment 1 (-c) ⟨one_pos, by linarith⟩ n
  have he : ∀ x ∈ Ioi (0 : ℝ), InvWeibull.pdf c x = GenGamma.pdf 1 (-c) x := by
    intro x hx
    have hx : 0 < x := hx
    rw [InvWeibull.pdf, GenGamma.pdf, GenGamma.logpdf, xlogy, gammaln, Gamma_one, abs_one, log_one,
      abs_neg, abs_of_pos hc, sub_zero, exp_sub, exp_add, exp_log hc, rpow_def_of_pos hx, exp_neg,
      mul_one, mul_comm (log x)]
    rfl
  constructor
  · intro h
    refine (hh.1 ?_).congr measurableSet_Ioi he ?_
    · rw [div_neg, ← sub_eq_add_neg, sub_pos, div_lt_one hc]
      exact h
    · rw [InvWeibull.munp, GenGamma.munp, Gamma_one, div_one, div_neg, sub_eq_add_neg]
  · intro h
    have h1 := hh.2 (by
      rw [div_neg, ← sub_eq_add_neg, sub_nonpos, one_le_div hc]
      exact h)
    intro h2
    exact h1 ((integrableOn_congr_fun (fun x hx => by rw [he x hx]) measurableSet_Ioi).1 h2)

/-- The raw moments of the inverse Weibull distribution, where they exist. -/
theorem C260_invweibull_partial (n : ℕ) (c : ℝ) (hc : 0 < c) (h : n < c) :
    HasMoment (Ioi 0) (InvWeibull.pdf c) n (InvWeibull.munp n c) :=
  (invweibull_moment c hc n).1 h

example : (0 : ℝ) < 2 ∧ ((1 : ℕ) : ℝ) < 2 ∧ InvWeibull.munp 1 2 = √π := by
  refine ⟨by norm_num, by norm_num, ?_⟩
  rw [InvWeibull.munp, show (1 - (1 : ℕ) / 2 : ℝ) = 1 / 2 by norm_num, Gamma_one_half_eq]

/-- The disagreement: a negative number is reported for the third moment of a positive variable
which has no third moment. -/
theorem C260_invweibull_no_moment :
    NoMoment (Ioi 0) (InvWeibull.pdf 2) 3 ∧ InvWeibull.munp 3 2 = -2 * √π := by
  refine ⟨(invweibull_moment 2 two_pos 3).2 (by norm_num), ?_⟩
  rw [InvWeibull.munp, show (1 - (3 : ℕ) / 2 : ℝ) = -1 / 2 by norm_num, gamma_neg_half]

end Wafo.Dist
