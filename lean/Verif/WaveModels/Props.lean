import Verif.WaveModels.Model
import Mathlib.MeasureTheory.Integral.Gamma
import Mathlib.MeasureTheory.Integral.IntegralEqImproper
import Mathlib.Analysis.SpecialFunctions.Gaussian.GaussianIntegral

/-!
# `lh83pdf` and `cav76pdf`: properties
-/

set_option linter.unusedSectionVars false

namespace Wafo.WaveModels

open Real MeasureTheory Set Filter

/-! ## C353: `lh83pdf` is a density -/

theorem sq_exp_integral {b : ℝ} (hb : 0 < b) : ∫ h in Ioi (0 : ℝ), h ^ 2 * exp (-b * h ^ 2) = √π / (4 * (b * √b)) := by
  have h := integral_rpow_mul_exp_neg_mul_rpow (p := 2) (q := 2) (b := b) (by norm_num) (by norm_num) hb
  have e : ∀ x : ℝ, x ^ (2 : ℝ) = x ^ 2 := fun x => by
    rw [← rpow_natCast]
    norm_num
  simp only [e] at h
  rw [h, show ((2 : ℝ) + 1) / 2 = 1 / 2 + 1 by norm_num, Gamma_add_one (by norm_num), Gamma_one_half_eq,
    show -((2 : ℝ) + 1) / 2 = -(1 + 1 / 2) by norm_num, rpow_neg hb.le, rpow_add hb, rpow_one, ← sqrt_eq_rpow]
  have := (sqrt_pos.mpr hb).ne'
  field_simp
  norm_num

/-- Distribution function of the scaled period. -/
noncomputable def periodCdf (e T : ℝ) : ℝ :=
  (1 - (1 - T) / √(e ^ 2 * T ^ 2 + (1 - T) ^ 2)) / (1 + 1 / √(1 + e ^ 2))

theorem quad_pos {e : ℝ} (he : 0 < e) (T : ℝ) : 0 < e ^ 2 * T ^ 2 + (1 - T) ^ 2 := by
  by_cases h : T = 0
  · subst h; norm_num
  · have : 0 < e ^ 2 * T ^ 2 := by positivity
    have := sq_nonneg (1 - T)
    linarith

theorem periodCdf_deriv {e : ℝ} (he : 0 < e) (T : ℝ) :
    HasDerivAt (periodCdf e) (e ^ 2 * T / ((e ^ 2 * T ^ 2 + (1 - T) ^ 2) * √(e ^ 2 * T ^ 2 + (1 - T) ^ 2)) /
      (1 + 1 / √(1 + e ^ 2))) T := by
  have hq := quad_pos he T
  have hs := sqrt_pos.mpr hq
  have h1 : HasDerivAt (fun T : ℝ => 1 - T) (-1) T := by
    simpa using (hasDerivAt_id T).const_sub 1
  have h2 : HasDerivAt (fun T : ℝ => e ^ 2 * T ^ 2 + (1 - T) ^ 2) (e ^ 2 * (2 * T) + 2 * (1 - T) * (-1)) T := by
    refine (((hasDerivAt_pow 2 T).const_mul (e ^ 2)).add (h1.pow 2)).congr_deriv ?_
    norm_num
  have h3 := h2.sqrt hq.ne'
  have h4 := (h1.div h3 hs.ne').const_sub 1
  refine (h4.div_const (1 + 1 / √(1 + e ^ 2))).congr_deriv ?_
  congr 1
  have hsq : √(e ^ 2 * T ^ 2 + (1 - T) ^ 2) ^ 2 = e ^ 2 * T ^ 2 + (1 - T) ^ 2 := sq_sqrt hq.le
  set S := √(e ^ 2 * T ^ 2 + (1 - T) ^ 2)
  rw [← hsq]
  field_simp
  have hsq' : S ^ 2 = e ^ 2 * T ^ 2 + (1 - T) ^ 2 := hsq
  linear_combination hsq'

theorem periodCdf_zero (e : ℝ) : periodCdf e 0 = 0 := by simp [periodCdf]

theorem periodCdf_tendsto {e : ℝ} (he : 0 < e) : Tendsto (periodCdf e) atTop (nhds 1) := by
  have hN : 0 < 1 + 1 / √(1 + e ^ 2) := by positivity
  have hinv : Tendsto (fun T : ℝ => T⁻¹ - 1) atTop (nhds (0 - 1)) := tendsto_inv_atTop_zero.sub_const 1
  have hden : Tendsto (fun T : ℝ => √(e ^ 2 + (T⁻¹ - 1) ^ 2)) atTop (nhds √(e ^ 2 + (0 - 1) ^ 2)) :=
    (continuous_sqrt.tendsto _).comp ((hinv.pow 2).const_add (e ^ 2))
  have hd0 : √(e ^ 2 + (0 - 1) ^ 2) ≠ 0 := (sqrt_pos.mpr (by positivity)).ne'
  have h := (((hinv.div hden hd0).const_sub 1).div_const (1 + 1 / √(1 + e ^ 2)))
  have hval : (1 - (0 - 1) / √(e ^ 2 + (0 - 1) ^ 2)) / (1 + 1 / √(1 + e ^ 2)) = 1 := by
    rw [show e ^ 2 + ((0 : ℝ) - 1) ^ 2 = 1 + e ^ 2 by ring, div_eq_one_iff_eq hN.ne']
    ring
  rw [hval] at h
  refine h.congr' ?_
  filter_upwards [eventually_gt_atTop 0] with T hT
  simp only [Pi.div_apply]
  rw [periodCdf]
  have e1 : e ^ 2 * T ^ 2 + (1 - T) ^ 2 = T ^ 2 * (e ^ 2 + (T⁻¹ - 1) ^ 2) := by
    field_simp
  rw [e1, sqrt_mul (by positivity), sqrt_sq hT.le]
  congr 2
  have hq : 0 < √(e ^ 2 + (T⁻¹ - 1) ^ 2) := sqrt_pos.mpr (by positivity)
  field_simp

/-- Scaled period: twice the half period divided by the mean period. -/
noncomputable def scaled (m0 m1 t : ℝ) : ℝ := 2 * (t / (m0 / (m1 / (2 * π))))

/-- C353: summed over the amplitudes, the density of the half period `t` is the derivative of an explicit distribution function. -/
theorem C353_period_density {m0 m1 e t : ℝ} (h0 : 0 < m0) (h1 : 0 < m1) (he : 0 < e) (ht : 0 < t) :
    HasDerivAt (fun t => periodCdf e (scaled m0 m1 t))
      (∫ h in Ioi (0 : ℝ), lhValue m0 m1 e t (gaussOf m0 h).1 (gaussOf m0 h).2) t := by
  set Tb := m0 / (m1 / (2 * π)) with hTb
  have hTb0 : 0 < Tb := by positivity
  set T := scaled m0 m1 t with hT
  have hT0 : 0 < T := by
    rw [hT, scaled]
    positivity
  have hs0 : 0 < √m0 := sqrt_pos.mpr h0
  have hs0' : √m0 ^ 2 = m0 := sq_sqrt h0.le
  have h2 : √2 ^ 2 = (2 : ℝ) := sq_sqrt (by norm_num)
  have h2' : 0 < √(2 : ℝ) := sqrt_pos.mpr (by norm_num)
  have hpi : 0 < √π := sqrt_pos.mpr pi_pos
  set a := 1 + ((1 - 1 / T) / e) ^ 2 with ha
  have ha0 : 0 < a := by positivity
  have hN : 0 < 1 + 1 / √(1 + e ^ 2) := by positivity
  have hf : ∀ h : ℝ, lhValue m0 m1 e t (gaussOf m0 h).1 (gaussOf m0 h).2 =
      lhConst e / (√m0 * (2 * m0) * T ^ 2 * (Tb * √2 / 2)) * (h ^ 2 * exp (-(a / (2 * m0)) * h ^ 2)) := by
    intro h
    simp only [lhValue, gaussOf]
    rw [← hTb, abs_of_pos (by positivity : 0 < 1 / √m0)]
    rw [show 2 * (t / Tb) = T from rfl, ← ha]
    have e1 : (h / √m0 / √2) ^ 2 = h ^ 2 / (2 * m0) := by
      rw [div_pow, div_pow, hs0', h2]
      field_simp
    rw [show -(h / √m0 / √2) ^ 2 * a = -(a / (2 * m0)) * h ^ 2 by rw [e1]; ring, div_pow (h / √m0 / √2) T, e1]
    field_simp
  have hint : ∫ h in Ioi (0 : ℝ), lhValue m0 m1 e t (gaussOf m0 h).1 (gaussOf m0 h).2 =
      e ^ 2 * T / ((e ^ 2 * T ^ 2 + (1 - T) ^ 2) * √(e ^ 2 * T ^ 2 + (1 - T) ^ 2)) / (1 + 1 / √(1 + e ^ 2)) * (2 / Tb) := by
    simp only [hf]
    rw [integral_const_mul, sq_exp_integral (by positivity)]
    have hq := quad_pos he T
    have ea : a = (e ^ 2 * T ^ 2 + (1 - T) ^ 2) / (e * T) ^ 2 := by
      rw [ha]
      field_simp
      ring
    have eb : a / (2 * m0) = (e ^ 2 * T ^ 2 + (1 - T) ^ 2) / (e * T * (√2 * √m0)) ^ 2 := by
      rw [ea, mul_pow (e * T), mul_pow √2, h2, hs0']
      field_simp
    have ec : √(a / (2 * m0)) = √(e ^ 2 * T ^ 2 + (1 - T) ^ 2) / (e * T * (√2 * √m0)) := by
      rw [eb, sqrt_div hq.le, sqrt_sq (by positivity)]
    rw [ec, eb, lhConst]
    set S := √(e ^ 2 * T ^ 2 + (1 - T) ^ 2) with hS
    have hS0 : 0 < S := sqrt_pos.mpr hq
    set N := 1 + 1 / √(1 + e ^ 2)
    have hD := hq.ne'
    set D := e ^ 2 * T ^ 2 + (1 - T) ^ 2
    field_simp
    rw [show √m0 ^ 2 = m0 from hs0', h2]
    ring
  rw [hint]
  have hlin : HasDerivAt (fun t => scaled m0 m1 t) (2 / Tb) t := by
    have : HasDerivAt (fun t : ℝ => 2 * (t / Tb)) (2 * (1 / Tb)) t := ((hasDerivAt_id t).div_const Tb).const_mul 2
    refine this.congr_deriv (by ring)
  exact (periodCdf_deriv he T).comp t hlin

/-- C353: the density of `lh83pdf` with the default transformation is not negative and has the integral one over all
half periods and amplitudes. -/
theorem C353_total_mass {m0 m1 e : ℝ} (h0 : 0 < m0) (h1 : 0 < m1) (he : 0 < e) :
    (∀ t h, 0 ≤ lhValue m0 m1 e t (gaussOf m0 h).1 (gaussOf m0 h).2) ∧
      ∫ t in Ioi (0 : ℝ), ∫ h in Ioi (0 : ℝ), lhValue m0 m1 e t (gaussOf m0 h).1 (gaussOf m0 h).2 = 1 := by
  have hnn : ∀ t h, 0 ≤ lhValue m0 m1 e t (gaussOf m0 h).1 (gaussOf m0 h).2 := by
    intro t h
    simp only [lhValue, lhConst]
    positivity
  refine ⟨hnn, ?_⟩
  have hTb0 : 0 < m0 / (m1 / (2 * π)) := by positivity
  have hsc : Tendsto (scaled m0 m1) atTop atTop := by
    have : Tendsto (fun t : ℝ => 2 * (t / (m0 / (m1 / (2 * π))))) atTop atTop :=
      (tendsto_id.atTop_div_const hTb0).const_mul_atTop two_pos
    exact this
  have hlim := (periodCdf_tendsto he).comp hsc
  have hcont : ContinuousWithinAt (fun t => periodCdf e (scaled m0 m1 t)) (Ici 0) 0 := by
    have hl : HasDerivAt (scaled m0 m1) (2 * (1 / (m0 / (m1 / (2 * π))))) 0 :=
      ((hasDerivAt_id (0 : ℝ)).div_const _).const_mul 2
    exact ((periodCdf_deriv he (scaled m0 m1 0)).comp 0 hl).continuousAt.continuousWithinAt
  have := integral_Ioi_of_hasDerivAt_of_nonneg hcont (fun t ht => C353_period_density h0 h1 he ht)
    (fun t _ => setIntegral_nonneg measurableSet_Ioi fun h _ => hnn t h) hlim
  rw [this]
  have hz : scaled m0 m1 0 = 0 := by simp [scaled]
  rw [hz, periodCdf_zero, sub_zero]

/-- Moments 1, 1, 2: `eps2` is 1, and the entries are those of the density. -/
example (t y d : ℝ) : lh83 1 1 2 3 t y d = some (lhValue 1 1 1 t y d) := by
  have : eps2 1 1 2 = some 1 := by
    unfold eps2
    have hpi := pi_pos.ne'
    have hv : (2 : ℝ) / (2 * π) ^ 2 * 1 / (1 / (2 * π)) ^ 2 - 1 = 1 := by
      field_simp
      norm_num
    simp only [hv, sqrt_one]
    exact if_neg (by norm_num)
  simp [lh83, this]

/-! ## C354: moments that are not those of a spectrum -/

theorem eps2_ratio (m0 m2 : ℝ) {m1 : ℝ} (h1 : m1 ≠ 0) :
    m2 / (2 * π) ^ 2 * m0 / (m1 / (2 * π)) ^ 2 = m0 * m2 / m1 ^ 2 := by
  have hpi := pi_pos
  field_simp

/-- C354: moments with `m0*m2 < m1^2`, which no spectrum has, and those with equality, are not rejected: every entry but those of the
first column is NaN. -/
theorem C354_wrong_moments_refuted {m0 m1 m2 : ℝ} (h1 : m1 ≠ 0) (h : m0 * m2 ≤ m1 ^ 2) (j : ℕ) (t y d : ℝ) :
    lh83 m0 m1 m2 (j + 1) t y d = none := by
  rcases h.lt_or_eq with h | h
  · have : eps2 m0 m1 m2 = none := by
      unfold eps2
      refine if_pos ?_
      rw [eps2_ratio m0 m2 h1, sub_neg, div_lt_one (by positivity)]
      exact h
    simp [lh83, this]
  · have : eps2 m0 m1 m2 = some 0 := by
      unfold eps2
      simp only [eps2_ratio m0 m2 h1, h, div_self (pow_ne_zero 2 h1), sub_self, sqrt_zero]
      exact if_neg (lt_irrefl _)
    simp [lh83, this]

/-- Moments 1, 2, 1 and, with equality, 1, 1, 1. -/
example (t y d : ℝ) : lh83 1 2 1 1 t y d = none ∧ lh83 1 1 1 1 t y d = none :=
  ⟨C354_wrong_moments_refuted two_ne_zero (by norm_num) 0 t y d, C354_wrong_moments_refuted one_ne_zero (by norm_num) 0 t y d⟩

/-- C354: the moments of a spectrum (`m0*m2 > m1^2`) give numbers, with a positive band width. -/
theorem C354_partial {m0 m1 m2 : ℝ} (h1 : 0 < m1) (h : m1 ^ 2 < m0 * m2) :
    ∃ e, 0 < e ∧ e ^ 2 = m0 * m2 / m1 ^ 2 - 1 ∧ ∀ (j : ℕ) (t y d : ℝ), lh83 m0 m1 m2 (j + 1) t y d = some (lhValue m0 m1 e t y d) := by
  have hpi := pi_pos
  have e : m2 / (2 * π) ^ 2 * m0 / (m1 / (2 * π)) ^ 2 = m0 * m2 / m1 ^ 2 := by
    field_simp
  have hv : 0 < m0 * m2 / m1 ^ 2 - 1 := by
    rw [sub_pos, one_lt_div (by positivity)]
    exact h
  have : eps2 m0 m1 m2 = some (√(m0 * m2 / m1 ^ 2 - 1)) := by
    unfold eps2
    simp only [e]
    exact if_neg hv.not_gt
  exact ⟨_, sqrt_pos.mpr hv, sq_sqrt hv.le, fun j t y d => by simp [lh83, this, (sqrt_pos.mpr hv).ne']⟩

/-! ## C355: `cav76pdf` -/

/-- Specification (Rice; Lindgren and Rychlik 1982): joint density of the height `u` and the curvature `-z` at a local maximum above
zero of a Gaussian process with spectral moments `m0`, `m2`, `m4`. -/
noncomputable def maximumDensity (m0 m2 m4 u z : ℝ) : ℝ :=
  2 / (1 + m2 / √(m0 * m4)) * (1 / √(2 * π * (m0 - m2 ^ 2 / m4))) *
    exp (-(u - m2 / m4 * z) ^ 2 / (2 * (m0 - m2 ^ 2 / m4))) * (z / m4 * exp (-z ^ 2 / (2 * m4)))

/-- C355: the entry of `cav76pdf` is the density of height and curvature at a positive maximum, in the variables half period and height
of a cosine wave with this height and curvature, `z = h * (pi/t)^2`: times the derivative `2 * pi^2 * h / t^3` of `z`. -/
theorem C355_change_of_variables {m0 m2 m4 t h : ℝ} (h0 : 0 < m0) (h4 : 0 < m4) (h2 : 0 < m2) (hm : m2 ^ 2 < m0 * m4)
    (ht : 0 < t) (j : ℕ) :
    cav76 m0 m2 m4 (j + 1) t (gaussOf m0 h).1 (gaussOf m0 h).2 =
      maximumDensity m0 m2 m4 h (h * (π / t) ^ 2) * (2 * π ^ 2 * h / t ^ 3) := by
  have hs0 : 0 < √m0 := sqrt_pos.mpr h0
  have hal : alfa m0 m2 m4 ^ 2 = m2 ^ 2 / (m0 * m4) := by
    rw [alfa, div_pow, sq_sqrt (by positivity)]
  have hv : m0 * (1 - m2 ^ 2 / (m0 * m4)) = m0 - m2 ^ 2 / m4 := by
    field_simp
  have hpos : 0 < m0 - m2 ^ 2 / m4 := by
    rw [sub_pos, div_lt_iff₀ h4]
    exact hm
  have hpos1 : 0 < 1 - m2 ^ 2 / (m0 * m4) := by
    rw [sub_pos, div_lt_one (by positivity)]
    exact hm
  simp only [cav76, gaussOf, if_neg (Nat.succ_ne_zero j), hal, maximumDensity]
  rw [show √m0 * (h / √m0) = h by field_simp, abs_of_pos (by positivity : 0 < 1 / √m0), hv]
  have hroot : √(2 * π * (m0 - m2 ^ 2 / m4)) = √(2 * π) * (√m0 * √(1 - m2 ^ 2 / (m0 * m4))) := by
    rw [sqrt_mul (by positivity), ← hv, sqrt_mul h0.le]
  have hexp : exp (-(1 / 2) * (h / t ^ 2) ^ 2 * ((t ^ 2 - π ^ 2 * m2 / m4) ^ 2 / (m0 - m2 ^ 2 / m4) + π ^ 4 / m4)) =
      exp (-(h - m2 / m4 * (h * (π / t) ^ 2)) ^ 2 / (2 * (m0 - m2 ^ 2 / m4))) * exp (-(h * (π / t) ^ 2) ^ 2 / (2 * m4)) := by
    rw [← exp_add]
    congr 1
    set V := m0 - m2 ^ 2 / m4
    field_simp
    ring
  rw [hexp, hroot, show m2 / √(m0 * m4) = alfa m0 m2 m4 from rfl]
  have hp2 : 0 < √(2 * π) := sqrt_pos.mpr (by positivity)
  have hr : 0 < √(1 - m2 ^ 2 / (m0 * m4)) := sqrt_pos.mpr hpos1
  have ha : 0 < 1 + alfa m0 m2 m4 := by
    rw [alfa]
    positivity
  set E1 := exp (-(h - m2 / m4 * (h * (π / t) ^ 2)) ^ 2 / (2 * (m0 - m2 ^ 2 / m4)))
  set E2 := exp (-(h * (π / t) ^ 2) ^ 2 / (2 * m4))
  set R := √(1 - m2 ^ 2 / (m0 * m4))
  field_simp

/-- Moments 1, 1, 2 meet the hypotheses. -/
example (t h : ℝ) (ht : 0 < t) : cav76 1 1 2 1 t (gaussOf 1 h).1 (gaussOf 1 h).2 =
    maximumDensity 1 1 2 h (h * (π / t) ^ 2) * (2 * π ^ 2 * h / t ^ 3) :=
  C355_change_of_variables one_pos two_pos one_pos (by norm_num) ht 0

/-! ## C356: the first period -/

/-- C356: the first column of `cav76pdf` is zero also for a positive period, which has a positive entry in a later column. -/
theorem C356_first_column_cav76_refuted {m0 m2 m4 t h : ℝ} (h0 : 0 < m0) (h4 : 0 < m4) (h2 : 0 < m2) (hm : m2 ^ 2 < m0 * m4)
    (ht : 0 < t) (hh : 0 < h) (j : ℕ) :
    cav76 m0 m2 m4 0 t (gaussOf m0 h).1 (gaussOf m0 h).2 = 0 ∧
      0 < cav76 m0 m2 m4 (j + 1) t (gaussOf m0 h).1 (gaussOf m0 h).2 := by
  refine ⟨by simp [cav76], ?_⟩
  rw [C355_change_of_variables h0 h4 h2 hm ht j]
  have hpos : 0 < m0 - m2 ^ 2 / m4 := by
    rw [sub_pos, div_lt_iff₀ h4]
    exact hm
  have := pi_pos
  unfold maximumDensity
  positivity

/-- C356: the entries for the first period are zero, also when it is positive; the same period in a later column has a positive
entry. -/
theorem C356_first_column_refuted {m0 m1 m2 t h : ℝ} (h0 : 0 < m0) (h1 : 0 < m1) (hm : m1 ^ 2 < m0 * m2) (ht : 0 < t) (hh : 0 < h)
    (j : ℕ) :
    lh83 m0 m1 m2 0 t (gaussOf m0 h).1 (gaussOf m0 h).2 = some 0 ∧
      ∃ v, 0 < v ∧ lh83 m0 m1 m2 (j + 1) t (gaussOf m0 h).1 (gaussOf m0 h).2 = some v := by
  obtain ⟨e, he, -, hv⟩ := C354_partial h1 hm
  refine ⟨by simp [lh83], _, ?_, hv j t _ _⟩
  have hs0 : 0 < √m0 := sqrt_pos.mpr h0
  have hN : 0 < 1 + 1 / √(1 + e ^ 2) := by positivity
  simp only [lhValue, gaussOf, lhConst]
  have := pi_pos
  positivity

/-- Moments 1, 1, 2, half period and amplitude 1. -/
example : lh83 1 1 2 0 1 (gaussOf 1 1).1 (gaussOf 1 1).2 = some 0 ∧
    ∃ v, 0 < v ∧ lh83 1 1 2 1 1 (gaussOf 1 1).1 (gaussOf 1 1).2 = some v :=
  C356_first_column_refuted one_pos one_pos (by norm_num) one_pos one_pos 0

end Wafo.WaveModels
