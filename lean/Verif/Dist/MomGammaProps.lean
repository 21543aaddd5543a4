import Verif.Dist.GammaProps
import Verif.Dist.MomLemmas
import Verif.Dist.MomModel

/-!
# C260: the reported moments of the gamma and Weibull families are those of the densities
-/

namespace Wafo.Dist

open MeasureTheory Set Filter Topology Real

set_option linter.unusedSectionVars false

theorem gamma_add_two {a : ℝ} (ha : 0 < a) : Gamma (a + 2) = (a + 1) * a * Gamma a := by
  rw [show a + 2 = (a + 1) + 1 by ring, Gamma_add_one (by positivity), Gamma_add_one ha.ne']
  ring

theorem gamma_add_three {a : ℝ} (ha : 0 < a) :
    Gamma (a + 3) = (a + 2) * (a + 1) * a * Gamma a := by
  rw [show a + 3 = (a + 2) + 1 by ring, Gamma_add_one (by positivity), gamma_add_two ha]
  ring

theorem gamma_add_four {a : ℝ} (ha : 0 < a) :
    Gamma (a + 4) = (a + 3) * (a + 2) * (a + 1) * a * Gamma a := by
  rw [show a + 4 = (a + 3) + 1 by ring, Gamma_add_one (by positivity), gamma_add_three ha]
  ring

theorem rpow_threehalf {v : ℝ} (hv : 0 ≤ v) : v ^ (3 / 2 : ℝ) = v * √v := by
  rw [show (3 / 2 : ℝ) = 1 + 1 / 2 by norm_num, rpow_add_of_nonneg hv zero_le_one (by norm_num),
    rpow_one, sqrt_eq_rpow]

theorem onehalf_eq : (1.5 : ℝ) = 3 / 2 := by norm_num

/-! ### Gamma -/

theorem gammaD_moment (a : ℝ) (ha : 0 < a) (n : ℕ) :
    HasMoment (Ioi 0) (GammaD.pdf a) n (Gamma (a + n) / Gamma a) := by
  have := (gamma_moment (s := 1) (r := 1) (g := id) (gi := id) (g' := fun _ => 1)
    (pdf := GammaD.pdf a) ha one_pos (fun x hx => hx) (fun y hy => hy) (fun _ _ => rfl)
    (fun _ _ => rfl) (fun x _ => hasDerivAt_id x) (fun x hx => by
      rw [id, abs_one, gamma_pdf_exp ha hx one_pos, GammaD.pdf, GammaD.logpdf, xlogy, log_one,
        add_zero]) (fun y _ => by rw [rpow_one, one_mul, id]) n).1 (by positivity)
  simpa using this

theorem C260_gamma (a : ℝ) (ha : 0 < a) :
    HasStats (Ioi 0) (GammaD.pdf a) (GammaD.stats a) := by
  have hG := (Gamma_pos_of_pos ha).ne'
  have h0 := gammaD_moment a ha 0
  have h1 := gammaD_moment a ha 1
  have h2 := gammaD_moment a ha 2
  have h3 := gammaD_moment a ha 3
  have h4 := gammaD_moment a ha 4
  push_cast at h0 h1 h2 h3 h4
  rw [add_zero, div_self hG] at h0
  rw [Gamma_add_one ha.ne', mul_div_cancel_right₀ _ hG] at h1
  rw [gamma_add_two ha, mul_div_cancel_right₀ _ hG] at h2
  rw [gamma_add_three ha, mul_div_cancel_right₀ _ hG] at h3
  rw [gamma_add_four ha, mul_div_cancel_right₀ _ hG] at h4
  refine hasStats_of_raw measurableSet_Ioi (fun x _ => (exp_pos _).le) h0 h1 h2 h3 h4 (by ring)
    (fun _ => ?_) (fun _ => ?_)
  · have hs : 0 < √a := sqrt_pos.2 ha
    have hss : √a * √a = a := mul_self_sqrt ha.le
    rw [rpow_threehalf ha.le]
    field_simp
    ring
  · field_simp
    ring

example : (0 : ℝ) < 4 ∧ GammaD.stats 4 = (4, 4, 1, 3 / 2) := by
  refine ⟨by norm_num, ?_⟩
  have : √(4 : ℝ) = 2 := by rw [show (4 : ℝ) = 2 ^ 2 by norm_num, sqrt_sq (by norm_num)]
  simp only [GammaD.stats, this]
  norm_num

/-! ### Chi-square -/

theorem chi2_moment (df : ℝ) (hdf : 0 < df) (n : ℕ) :
    HasMoment (Ioi 0) (Chi2.pdf df) n (2 ^ n * Gamma (df / 2 + n) / Gamma (df / 2)) := by
  have ha : 0 < df / 2 := by positivity
  have := (gamma_moment (s := 2) (r := 1) (g := fun x => x / 2) (gi := fun y => 2 * y)
    (g' := fun _ => 1 / 2) (pdf := Chi2.pdf df) ha two_pos
    (fun x hx => half_pos hx) (fun y hy => by simp only [mem_Ioi]; linarith)
    (fun x _ => by ring) (fun y _ => by ring) (fun x _ => (hasDerivAt_id x).div_const 2)
    (fun x hx => by
      have hx : 0 < x := hx
      rw [abs_of_pos (by norm_num : (0 : ℝ) < 1 / 2),
        gamma_pdf_exp ha (half_pos hx) (by norm_num), Chi2.pdf, Chi2.logpdf, xlogy]
      congr 1
      rw [log_div hx.ne' two_ne_zero, log_div one_ne_zero two_ne_zero, log_one]
      ring) (fun y _ => by rw [rpow_one]) n).1 (by positivity)
  simpa using this

theorem C260_chi2 (df : ℝ) (hdf : 0 < df) :
    HasStats (Ioi 0) (Chi2.pdf df) (Chi2.stats df) := by
  have ha : 0 < df / 2 := by positivity
  have hG := (Gamma_pos_of_pos ha).ne'
  have h0 := chi2_moment df hdf 0
  have h1 := chi2_moment df hdf 1
  have h2 := chi2_moment df hdf 2
  have h3 := chi2_moment df hdf 3
  have h4 := chi2_moment df hdf 4
  push_cast at h0 h1 h2 h3 h4
  rw [add_zero, pow_zero, one_mul, div_self hG] at h0
  rw [Gamma_add_one ha.ne', ← mul_assoc, mul_div_cancel_right₀ _ hG] at h1
  rw [gamma_add_two ha, ← mul_assoc, mul_div_cancel_right₀ _ hG] at h2
  rw [gamma_add_three ha, ← mul_assoc, mul_div_cancel_right₀ _ hG] at h3
  rw [gamma_add_four ha, ← mul_assoc, mul_div_cancel_right₀ _ hG] at h4
  have h1' : HasMoment (Ioi 0) (Chi2.pdf df) 1 df := by
    convert h1 using 1
    ring
  refine hasStats_of_raw measurableSet_Ioi (fun x _ => (exp_pos _).le) h0 h1' h2 h3 h4 (by ring)
    (fun _ => ?_) (fun _ => ?_)
  · have h2df : √(2 / df) * √(2 * df) = 2 := by
      rw [← sqrt_mul (by positivity), show 2 / df * (2 * df) = 2 * 2 by field_simp,
        sqrt_mul_self (by norm_num)]
    rw [rpow_threehalf (by positivity)]
    calc 2 * √(2 / df) * (2 * df * √(2 * df)) = 4 * df * (√(2 / df) * √(2 * df)) := by ring
      _ = _ := by rw [h2df]; ring
  · field_simp
    ring

example : (0 : ℝ) < 8 ∧ Chi2.stats 8 = (8, 16, 1, 3 / 2) := by
  refine ⟨by norm_num, ?_⟩
  have : √(2 / 8 : ℝ) = 1 / 2 := by
    rw [show (2 / 8 : ℝ) = (1 / 2) ^ 2 by norm_num, sqrt_sq (by norm_num)]
  simp only [Chi2.stats, this]
  norm_num

/-! ### Chi, Maxwell, Rayleigh -/

theorem chi_moment (df : ℝ) (hdf : 0 < df) (n : ℕ) :
    HasMoment (Ioi 0) (Chi.pdf df) n (√2 ^ n * Gamma (df / 2 + n * (1 / 2)) / Gamma (df / 2)) := by
  have e : 0.5 * df = df / 2 := by ring
  have ha : 0 < df / 2 := by positivity
  exact (gamma_moment (s := √2) (r := 1 / 2) (g := fun x => 0.5 * x ^ 2) (gi := fun y => √(2 * y))
    (g' := fun x => x) (pdf := Chi.pdf df) ha (by positivity)
    (fun x hx => by have hx : 0 < x := hx; positivity)
    (fun y hy => sqrt_pos.2 (by positivity)) (fun x hx => sqrt_half hx)
    (fun y hy => by rw [sq_sqrt (by positivity)]; ring)
    (fun x _ => by
      refine HasDerivAt.congr_deriv ((hasDerivAt_pow 2 x).const_mul 0.5) ?_
      push_cast
      ring)
    (fun x hx => by
      have hx : 0 < x := hx
      rw [abs_of_pos hx, gamma_pdf_exp ha (by positivity) hx, Chi.pdf, Chi.logpdf, xlogy, e]
      congr 1
      rw [show (0.5 : ℝ) * x ^ 2 = x ^ 2 / 2 by ring, log_div (by positivity) two_ne_zero, log_pow]
      push_cast
      ring)
    (fun y hy => by rw [sqrt_mul (by norm_num), sqrt_eq_rpow y]) n).1 (by positivity)

/-- The first four moments in terms of the mean. -/
theorem chi_moments (df : ℝ) (hdf : 0 < df) :
    let mu := √2 * Gamma (df / 2 + 0.5) / Gamma (df / 2)
    HasMoment (Ioi 0) (Chi.pdf df) 0 1 ∧ HasMoment (Ioi 0) (Chi.pdf df) 1 mu ∧
    HasMoment (Ioi 0) (Chi.pdf df) 2 df ∧ HasMoment (Ioi 0) (Chi.pdf df) 3 ((df + 1) * mu) ∧
    HasMoment (Ioi 0) (Chi.pdf df) 4 (df * (df + 2)) := by
  intro mu
  have ha : 0 < df / 2 := by positivity
  have hG := (Gamma_pos_of_pos ha).ne'
  have h2' : √2 ^ 2 = (2 : ℝ) := sq_sqrt (by norm_num)
  have h0 := chi_moment df hdf 0
  have h1 := chi_moment df hdf 1
  have h2 := chi_moment df hdf 2
  have h3 := chi_moment df hdf 3
  have h4 := chi_moment df hdf 4
  push_cast at h0 h1 h2 h3 h4
  refine ⟨?_, ?_, ?_, ?_, ?_⟩
  · rwa [zero_mul, add_zero, pow_zero, one_mul, div_self hG] at h0
  · convert h1 using 1
    simp only [mu]
    norm_num
  · convert h2 using 1
    rw [h2', show df / 2 + 2 * (1 / 2) = df / 2 + 1 by ring, Gamma_add_one ha.ne']
    field_simp
  · convert h3 using 1
    simp only [mu]
    rw [show df / 2 + 3 * (1 / 2) = (df / 2 + 0.5) + 1 by norm_num; ring,
      Gamma_add_one (by positivity), show √2 ^ 3 = √2 ^ 2 * √(2 : ℝ) by ring, h2']
    ring
  · convert h4 using 1
    rw [show df / 2 + 4 * (1 / 2) = df / 2 + 2 by ring, gamma_add_two ha,
      show √2 ^ 4 = (√2 ^ 2) ^ 2 by ring, h2']
    field_simp

theorem C260_chi (df : ℝ) (hdf : 0 < df) : HasStats (Ioi 0) (Chi.pdf df) (Chi.stats df) := by
  obtain ⟨h0, h1, h2, h3, h4⟩ := chi_moments df hdf
  simp only [Chi.stats]
  generalize √2 * Gamma (df / 2 + 0.5) / Gamma (df / 2) = mu at *
  refine hasStats_of_raw measurableSet_Ioi (fun x _ => (exp_pos _).le) h0 h1 h2 h3 h4 (by ring)
    (fun hv => ?_) (fun hv => ?_)
  · rw [onehalf_eq, div_mul_cancel₀ _ (rpow_pos_of_pos hv _).ne']
    ring
  · rw [add_mul, div_mul_cancel₀ _ (pow_pos hv 2).ne']
    ring

example : (0 : ℝ) < 2 ∧ (Chi.stats 2).1 = √2 * Gamma 1.5 := by
  refine ⟨by norm_num, ?_⟩
  simp only [Chi.stats]
  norm_num

theorem HasMoment.congr {I : Set ℝ} (hI : MeasurableSet I) {f g : ℝ → ℝ} {n : ℕ} {m m' : ℝ}
    (h : HasMoment I f n m) (hf : ∀ x ∈ I, g x = f x) (hm : m' = m) : HasMoment I g n m' :=
  HasInt.congr hI (f := fun x => x ^ n * f x) h (fun x hx => by rw [hf x hx]) hm

theorem maxwell_eq (x : ℝ) (hx : x ∈ Ioi (0 : ℝ)) : Maxwell.pdf x = Chi.pdf 3 x := by
  have hx : 0 < x := hx
  have hπ := pi_pos
  have h3 := gamma_three_half
  rw [Maxwell.pdf, Chi.pdf, Chi.logpdf, xlogy, show (0.5 : ℝ) * 3 = 1.5 by norm_num, gammaln, h3,
    abs_of_pos (by positivity), log_div (by positivity) two_ne_zero]
  have e : √(2 / π) * x * x * exp (-x * x / 2) =
      exp (log (√(2 / π)) + 2 * log x - x * x / 2) := by
    rw [sub_eq_add_neg, exp_add, exp_add, exp_log (by positivity), two_mul, exp_add, exp_log hx]
    ring_nf
  rw [e, log_sqrt (by positivity), log_sqrt hπ.le, log_div two_ne_zero hπ.ne']
  congr 1
  ring

theorem C260_maxwell : HasStats (Ioi 0) Maxwell.pdf Maxwell.stats := by
  obtain ⟨h0, h1, h2, h3, h4⟩ := chi_moments 3 (by norm_num)
  have hπ := pi_pos
  have hs : 0 < √π := sqrt_pos.2 hπ
  have hss : √π ^ 2 = π := sq_sqrt hπ.le
  have h22 : √2 ^ 2 = (2 : ℝ) := sq_sqrt (by norm_num)
  have hmu : √2 * Gamma (3 / 2 + 0.5) / Gamma (3 / 2) = 2 * √(2 / π) := by
    rw [← onehalf_eq, gamma_three_half, show (1.5 + 0.5 : ℝ) = 2 by norm_num, show (2 : ℝ) = 1 + 1 by norm_num, Gamma_add_one one_ne_zero, Gamma_one,
      show (1 + 1 : ℝ) = 2 by norm_num,
      sqrt_div (by norm_num)]
    field_simp
  rw [hmu] at h1 h3
  have hm2 : (2 * √(2 / π)) ^ 2 = 8 / π := by
    rw [mul_pow, sq_sqrt (by positivity)]
    ring
  have hn : ∀ x ∈ Ioi (0 : ℝ), 0 ≤ Maxwell.pdf x := fun x hx => by
    rw [maxwell_eq x hx]
    exact (exp_pos _).le
  refine hasStats_of_raw measurableSet_Ioi hn (h0.congr measurableSet_Ioi maxwell_eq rfl)
    (h1.congr measurableSet_Ioi maxwell_eq rfl) (h2.congr measurableSet_Ioi maxwell_eq rfl)
    (h3.congr measurableSet_Ioi maxwell_eq rfl) (h4.congr measurableSet_Ioi maxwell_eq rfl)
    (by rw [hm2]) (fun hv => ?_) (fun hv => ?_)
  · have e : 3 - 8 / π = (3 * π - 8) / π := by field_simp
    have hval : 0 < 3 * π - 8 := by
      rw [e] at hv
      exact (div_pos_iff_of_pos_right hπ).1 hv
    rw [onehalf_eq, e, rpow_threehalf (by positivity : (0 : ℝ) ≤ (3 * π - 8) / π), rpow_threehalf hval.le,
      sqrt_div hval.le, show (2 * √(2 / π)) ^ 3 = (2 * √(2 / π)) ^ 2 * (2 * √(2 / π)) by ring, hm2,
      sqrt_div (by norm_num)]
    have hw := sqrt_pos.2 hval
    generalize √(3 * π - 8) = w at *
    have : π * 3 - 8 ≠ 0 := by rw [mul_comm]; exact hval.ne'
    field_simp
    ring
  · have e : 3 - 8 / π = (3 * π - 8) / π := by field_simp
    have hval : 0 < 3 * π - 8 := by
      rw [e] at hv
      exact (div_pos_iff_of_pos_right hπ).1 hv
    rw [show 4 * (2 * √(2 / π)) * ((3 + 1) * (2 * √(2 / π))) = 16 * (2 * √(2 / π)) ^ 2 by ring,
      show (2 * √(2 / π)) ^ 4 = ((2 * √(2 / π)) ^ 2) ^ 2 by ring, hm2, e]
    have : π * 3 - 8 ≠ 0 := by rw [mul_comm]; exact hval.ne'
    field_simp
    ring

example : Maxwell.stats.1 = 2 * √(2 / π) := rfl

theorem rayleigh_eq (x : ℝ) (_ : x ∈ Ioi (0 : ℝ)) : Rayleigh.pdf x = Chi.pdf 2 x := by
  rw [Rayleigh.pdf, Chi.pdf, Rayleigh.logpdf, Chi.logpdf, xlogy,
    show (0.5 : ℝ) * 2 = 1 by norm_num, gammaln, Gamma_one, abs_one, log_one]
  congr 1
  ring

theorem C260_rayleigh : HasStats (Ioi 0) Rayleigh.pdf Rayleigh.stats := by
  obtain ⟨h0, h1, h2, h3, h4⟩ := chi_moments 2 (by norm_num)
  have hπ := pi_pos
  have hss : √π ^ 2 = π := sq_sqrt hπ.le
  have h22 : √2 ^ 2 = (2 : ℝ) := sq_sqrt (by norm_num)
  have hmu : √2 * Gamma (2 / 2 + 0.5) / Gamma (2 / 2) = √(π / 2) := by
    rw [show (2 / 2 + 0.5 : ℝ) = 1.5 by norm_num, gamma_three_half, div_self two_ne_zero, Gamma_one,
      sqrt_div hπ.le, div_one]
    have : 0 < √(2 : ℝ) := by positivity
    field_simp
    rw [h22]
  rw [hmu] at h1 h3
  have hm2 : √(π / 2) ^ 2 = π / 2 := sq_sqrt (by positivity)
  have hn : ∀ x ∈ Ioi (0 : ℝ), 0 ≤ Rayleigh.pdf x := fun x _ => (exp_pos _).le
  refine hasStats_of_raw measurableSet_Ioi hn (h0.congr measurableSet_Ioi rayleigh_eq rfl)
    (h1.congr measurableSet_Ioi rayleigh_eq rfl) (h2.congr measurableSet_Ioi rayleigh_eq rfl)
    (h3.congr measurableSet_Ioi rayleigh_eq rfl) (h4.congr measurableSet_Ioi rayleigh_eq rfl)
    (by rw [hm2]; ring) (fun hv => ?_) (fun hv => ?_)
  · have hval : 0 < 4 - π := by linarith
    rw [onehalf_eq, rpow_threehalf (by positivity : (0 : ℝ) ≤ (4 - π) / 2), rpow_threehalf hval.le,
      sqrt_div hval.le, show √(π / 2) ^ 3 = √(π / 2) ^ 2 * √(π / 2) by ring, hm2,
      sqrt_div hπ.le]
    have := sqrt_pos.2 hval
    field_simp
    ring
  · have hval : 0 < 4 - π := by linarith
    rw [show 4 * √(π / 2) * ((2 + 1) * √(π / 2)) = 12 * √(π / 2) ^ 2 by ring,
      show √(π / 2) ^ 4 = (√(π / 2) ^ 2) ^ 2 by ring, hm2]
    have := hval.ne'
    field_simp
    ring

example : Rayleigh.stats.1 = √(π / 2) := rfl

/-! ### Nakagami -/

theorem nakagami_moment (nu : ℝ) (hnu : 0 < nu) (n : ℕ) :
    HasMoment (Ioi 0) (Nakagami.pdf nu) n
      ((√nu)⁻¹ ^ n * Gamma (nu + n * (1 / 2)) / Gamma nu) := by
  have hs : 0 < √nu := sqrt_pos.2 hnu
  exact (gamma_moment (s := (√nu)⁻¹) (r := 1 / 2) (g := fun x => nu * x * x)
    (gi := fun y => √(1 / nu * y)) (g' := fun x => 2 * nu * x) (pdf := Nakagami.pdf nu) hnu
    (by positivity)
    (fun x hx => by have hx : 0 < x := hx; positivity)
    (fun y hy => sqrt_pos.2 (by positivity))
    (fun x hx => by
      rw [show 1 / nu * (nu * x * x) = x * x by field_simp, sqrt_mul_self (le_of_lt hx)])
    (fun y hy => by
      rw [mul_assoc, mul_self_sqrt (by positivity)]
      field_simp)
    (fun x _ => by
      refine HasDerivAt.congr_deriv (((hasDerivAt_id x).const_mul nu).mul (hasDerivAt_id x)) ?_
      simp only [id_eq]
      ring) (fun x hx => by
      have hx : 0 < x := hx
      rw [abs_of_pos (by positivity), gamma_pdf_exp hnu (by positivity) (by positivity),
        Nakagami.pdf, rpow_def_of_pos hnu,
        rpow_def_of_pos hx, ← gammaln_eq hnu, mul_assoc nu x x, log_mul hnu.ne' (by positivity),
        log_mul hx.ne' hx.ne', log_mul (by positivity) hx.ne', log_mul two_ne_zero hnu.ne',
        show -nu * x * x = -(nu * (x * x)) by ring]
      rw [show 2 * exp (log nu * nu) / exp (gammaln nu) * exp (log x * (2 * nu - 1)) *
          exp (-(nu * (x * x))) = exp (log 2) * exp (log nu * nu) / exp (gammaln nu) *
          exp (log x * (2 * nu - 1)) * exp (-(nu * (x * x))) by rw [exp_log two_pos], ← exp_add,
        ← exp_sub, ← exp_add, ← exp_add]
      congr 1
      ring)
    (fun y hy => by
      rw [sqrt_mul (by positivity), one_div, sqrt_inv, sqrt_eq_rpow y]) n).1 (by positivity)

theorem C260_nakagami (nu : ℝ) (hnu : 0 < nu) :
    HasStats (Ioi 0) (Nakagami.pdf nu) (Nakagami.stats nu) := by
  have hs : 0 < √nu := sqrt_pos.2 hnu
  have hss : √nu ^ 2 = nu := sq_sqrt hnu.le
  have hG := Gamma_pos_of_pos hnu
  have h0 := nakagami_moment nu hnu 0
  have h1 := nakagami_moment nu hnu 1
  have h2 := nakagami_moment nu hnu 2
  have h3 := nakagami_moment nu hnu 3
  have h4 := nakagami_moment nu hnu 4
  push_cast at h0 h1 h2 h3 h4
  have k0 : HasMoment (Ioi 0) (Nakagami.pdf nu) 0 1 := by
    convert h0 using 1
    rw [zero_mul, add_zero, pow_zero, one_mul, div_self hG.ne']
  have k1 : HasMoment (Ioi 0) (Nakagami.pdf nu) 1 (Gamma (nu + 0.5) / Gamma nu / √nu) := by
    convert h1 using 1
    rw [one_mul, pow_one, show (0.5 : ℝ) = 1 / 2 by norm_num]
    field_simp
  have k2 : HasMoment (Ioi 0) (Nakagami.pdf nu) 2 1 := by
    convert h2 using 1
    rw [show nu + 2 * (1 / 2) = nu + 1 by ring, Gamma_add_one hnu.ne', inv_pow, hss]
    field_simp
  have k3 : HasMoment (Ioi 0) (Nakagami.pdf nu) 3
      ((nu + 0.5) / nu * (Gamma (nu + 0.5) / Gamma nu / √nu)) := by
    convert h3 using 1
    rw [show nu + 3 * (1 / 2) = nu + 0.5 + 1 by norm_num; ring, Gamma_add_one (by positivity),
      inv_pow, show √nu ^ 3 = √nu ^ 2 * √nu by ring, hss]
    field_simp
  have k4 : HasMoment (Ioi 0) (Nakagami.pdf nu) 4 ((nu + 1) / nu) := by
    convert h4 using 1
    rw [show nu + 4 * (1 / 2) = nu + 2 by ring, gamma_add_two hnu, inv_pow,
      show √nu ^ 4 = (√nu ^ 2) ^ 2 by ring, hss]
    field_simp
  have hn : ∀ x ∈ Ioi (0 : ℝ), 0 ≤ Nakagami.pdf nu x := by
    intro x hx
    have := rpow_pos_of_pos (mem_Ioi.1 hx) (2 * nu - 1)
    have := rpow_pos_of_pos hnu nu
    unfold Nakagami.pdf
    positivity
  simp only [Nakagami.stats]
  generalize Gamma (nu + 0.5) / Gamma nu / √nu = mu at *
  refine hasStats_of_raw measurableSet_Ioi hn k0 k1 k2 k3 k4 (by ring)
    (fun hv => ?_) (fun hv => ?_)
  · rw [onehalf_eq, div_mul_cancel₀ _ (rpow_pos_of_pos hv _).ne',
      show (0.5 : ℝ) = 1 / 2 by norm_num]
    field_simp
    ring
  · have : 1 - mu ^ 2 ≠ 0 := by
      rw [sq]
      exact hv.ne'
    rw [show (0.5 : ℝ) = 1 / 2 by norm_num]
    field_simp
    ring

example : (0 : ℝ) < 1 ∧ (Nakagami.stats 1).1 = Gamma 1.5 := by
  refine ⟨by norm_num, ?_⟩
  simp only [Nakagami.stats]
  norm_num

end Wafo.Dist
