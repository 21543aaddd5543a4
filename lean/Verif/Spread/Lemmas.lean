import Mathlib.Analysis.SpecialFunctions.Trigonometric.DerivHyp
import Mathlib.MeasureTheory.Function.Jacobian
import Mathlib.MeasureTheory.Integral.IntervalIntegral.Periodic
import Mathlib.Analysis.SpecialFunctions.Integrals.Basic
import Mathlib.Analysis.SpecialFunctions.Gamma.Beta
import Verif.Quad.JacobiInt
import Verif.Spread.Model

/-!
Integrals of the spreading functions over a full turn.
-/

set_option linter.unusedSectionVars false

namespace Wafo.Spread

open Real MeasureTheory Set

/-! ### Angles -/

theorem wrapAngle_range (x : ℝ) : -π ≤ wrapAngle x ∧ wrapAngle x < π := by
  have h := pi_pos
  unfold wrapAngle pmod
  have h1 := Int.floor_le ((x + π) / (2 * π))
  have h2 := Int.lt_floor_add_one ((x + π) / (2 * π))
  rw [le_div_iff₀ (by positivity)] at h1
  rw [div_lt_iff₀ (by positivity)] at h2
  constructor <;> nlinarith

theorem wrapAngle_congr (x : ℝ) : ∃ n : ℤ, wrapAngle x = x + n * (2 * π) :=
  ⟨-⌊(x + π) / (2 * π)⌋, by unfold wrapAngle pmod; push_cast; ring⟩

theorem wrapAngle_add (x : ℝ) (n : ℤ) : wrapAngle (x + n * (2 * π)) = wrapAngle x := by
  have h := pi_pos
  unfold wrapAngle pmod
  have : (x + n * (2 * π) + π) / (2 * π) = (x + π) / (2 * π) + n := by field_simp; ring
  rw [this, Int.floor_add_intCast]
  push_cast
  ring

theorem wrapAngle_id {x : ℝ} (h1 : -π ≤ x) (h2 : x < π) : wrapAngle x = x := by
  have h := pi_pos
  unfold wrapAngle pmod
  have : ⌊(x + π) / (2 * π)⌋ = 0 := by
    rw [Int.floor_eq_zero_iff]
    constructor
    · apply div_nonneg <;> linarith
    · rw [div_lt_one (by positivity)]; linarith
  rw [this]
  simp

theorem wrapAngle_wrap (x y : ℝ) : wrapAngle (wrapAngle x - y) = wrapAngle (x - y) := by
  obtain ⟨n, hn⟩ := wrapAngle_congr x
  rw [hn, show x + n * (2 * π) - y = (x - y) + n * (2 * π) by ring, wrapAngle_add]

/-- The mean over a turn does not depend on the main direction. -/
theorem integral_wrap (f : ℝ → ℝ) (t0 : ℝ) : ∫ x in (-π)..π, f (wrapAngle (x - t0)) = ∫ x in (-π)..π, f x := by
  have hper : Function.Periodic (fun x => f (wrapAngle x)) (2 * π) := by
    intro x
    have := wrapAngle_add x 1
    simp only [Int.cast_one, one_mul] at this
    simp only [this]
  have h1 : ∫ x in (-π)..π, f (wrapAngle (x - t0)) = ∫ x in (-π - t0)..(π - t0), f (wrapAngle x) :=
    intervalIntegral.integral_comp_sub_right (fun x => f (wrapAngle x)) t0
  have h2 := hper.intervalIntegral_add_eq (-π - t0) (-π)
  rw [show -π - t0 + 2 * π = π - t0 by ring, show -π + 2 * π = π by ring] at h2
  rw [h1, h2]
  rw [intervalIntegral.integral_of_le (by linarith [pi_pos]), intervalIntegral.integral_of_le (by linarith [pi_pos]),
    integral_Ioc_eq_integral_Ioo, integral_Ioc_eq_integral_Ioo]
  refine setIntegral_congr_fun measurableSet_Ioo fun x hx => ?_
  rw [wrapAngle_id hx.1.le hx.2]

theorem cos_wrap (x : ℝ) : cos (wrapAngle x) = cos x := by
  obtain ⟨n, hn⟩ := wrapAngle_congr x
  rw [hn]
  exact Real.cos_add_int_mul_two_pi x n

/-! ### `cos2s` -/

theorem half_map : (fun t : ℝ => cos (t / 2) ^ 2) '' Ioo 0 π = Ioo 0 1 := by
  have hp := pi_pos
  ext y
  constructor
  · rintro ⟨t, ht, rfl⟩
    have h1 : 0 < cos (t / 2) := cos_pos_of_mem_Ioo ⟨by linarith [ht.1], by linarith [ht.2]⟩
    have h2 : 0 < sin (t / 2) := sin_pos_of_pos_of_lt_pi (by linarith [ht.1]) (by linarith [ht.2])
    have := sin_sq_add_cos_sq (t / 2)
    constructor
    · positivity
    · simp only; nlinarith
  · rintro ⟨h0, h1⟩
    have hs0 : 0 < √y := sqrt_pos.2 h0
    have hs1 : √y < 1 := by rw [sqrt_lt' one_pos]; simpa using h1
    refine ⟨2 * arccos (√y), ⟨?_, ?_⟩, ?_⟩
    · have := arccos_pos.2 hs1; linarith
    · have : arccos (√y) < π / 2 := arccos_lt_pi_div_two.2 hs0
      linarith
    · simp only
      rw [mul_div_cancel_left₀ _ two_ne_zero, cos_arccos (by linarith) hs1.le, sq_sqrt h0.le]

theorem half_inj : InjOn (fun t : ℝ => cos (t / 2) ^ 2) (Ioo 0 π) := by
  intro a ha b hb h
  have h1 : 0 < cos (a / 2) := cos_pos_of_mem_Ioo ⟨by linarith [ha.1, pi_pos], by linarith [ha.2]⟩
  have h2 : 0 < cos (b / 2) := cos_pos_of_mem_Ioo ⟨by linarith [hb.1, pi_pos], by linarith [hb.2]⟩
  have h3 : cos (a / 2) = cos (b / 2) := (sq_eq_sq₀ h1.le h2.le).1 h
  have := injOn_cos ⟨by linarith [ha.1], by linarith [ha.2, pi_pos]⟩ ⟨by linarith [hb.1], by linarith [hb.2, pi_pos]⟩ h3
  linarith

/-- `2 sqrt(pi) Gamma(S+1/2)/Gamma(S+1)`. -/
noncomputable def cosI (S : ℝ) : ℝ := 2 * √π * Gamma (S + 1 / 2) / Gamma (S + 1)

theorem half_integral {S : ℝ} (hS : 0 ≤ S) : ∫ t in Ioo 0 π, cos (t / 2) ^ (2 * S) = cosI S / 2 := by
  have hb := Quad.beta_real (u := S + 1 / 2) (v := 1 / 2) (by linarith) (by norm_num)
  rw [intervalIntegral.integral_of_le zero_le_one, integral_Ioc_eq_integral_Ioo, ← half_map] at hb
  have hd : ∀ t ∈ Ioo 0 π, HasDerivWithinAt (fun t : ℝ => cos (t / 2) ^ 2) (-(cos (t / 2) * sin (t / 2))) (Ioo 0 π) t := by
    intro t _
    have h1 : HasDerivAt (fun t : ℝ => t / 2) (1 / 2) t := (hasDerivAt_id t).div_const 2
    have h2 := (h1.cos).pow 2
    refine (h2.congr_deriv ?_).hasDerivWithinAt
    simp
    ring
  rw [integral_image_eq_integral_abs_deriv_smul measurableSet_Ioo hd half_inj] at hb
  have e : ∫ t in Ioo 0 π, cos (t / 2) ^ (2 * S) = ∫ t in Ioo 0 π, |-(cos (t / 2) * sin (t / 2))| • ((cos (t / 2) ^ 2) ^ (S + 1 / 2 - 1) * (1 - cos (t / 2) ^ 2) ^ ((1 : ℝ) / 2 - 1)) := by
    refine setIntegral_congr_fun measurableSet_Ioo fun t ht => ?_
    have h1 : 0 < cos (t / 2) := cos_pos_of_mem_Ioo ⟨by linarith [ht.1, pi_pos], by linarith [ht.2]⟩
    have h2 : 0 < sin (t / 2) := sin_pos_of_pos_of_lt_pi (by linarith [ht.1]) (by linarith [ht.2, pi_pos])
    have h3 : 1 - cos (t / 2) ^ 2 = sin (t / 2) ^ 2 := by linarith [sin_sq_add_cos_sq (t / 2)]
    simp only [smul_eq_mul]
    rw [abs_neg, abs_of_pos (mul_pos h1 h2), h3]
    have e1 : (sin (t / 2) ^ 2) ^ ((1 : ℝ) / 2 - 1) = (sin (t / 2))⁻¹ := by
      rw [← rpow_natCast, ← rpow_mul h2.le, ← rpow_neg_one]
      norm_num
    have e2 : (cos (t / 2) ^ 2) ^ (S + 1 / 2 - 1) = cos (t / 2) ^ (2 * S) * (cos (t / 2))⁻¹ := by
      rw [← rpow_natCast, ← rpow_mul h1.le, ← rpow_neg_one, ← rpow_add h1]
      congr 1
      push_cast
      ring
    rw [e1, e2]
    field_simp
  rw [e, hb, Gamma_one_half_eq, cosI, show S + 1 / 2 + 1 / 2 = S + 1 by ring]
  ring

theorem cos_half_integrable {S : ℝ} (hS : 0 ≤ S) (a b : ℝ) : IntervalIntegrable (fun t => cos (t / 2) ^ (2 * S)) volume a b := by
  apply Continuous.intervalIntegrable
  exact (continuous_cos.comp (continuous_id.div_const 2)).rpow_const fun _ => Or.inr (by positivity)

theorem cos_half_integral {S : ℝ} (hS : 0 ≤ S) : ∫ t in (-π)..π, cos (t / 2) ^ (2 * S) = cosI S := by
  have h1 : ∫ t in (0 : ℝ)..π, cos (t / 2) ^ (2 * S) = cosI S / 2 := by
    rw [intervalIntegral.integral_of_le pi_pos.le, integral_Ioc_eq_integral_Ioo, half_integral hS]
  have h2 : ∫ t in (-π)..0, cos (t / 2) ^ (2 * S) = cosI S / 2 := by
    have := intervalIntegral.integral_comp_neg (a := 0) (b := π) (fun t => cos (t / 2) ^ (2 * S))
    rw [neg_zero] at this
    rw [← this, ← h1]
    congr 1
    funext t
    rw [neg_div, cos_neg]
  rw [← intervalIntegral.integral_add_adjacent_intervals (cos_half_integrable hS _ 0) (cos_half_integrable hS 0 _), h1, h2]
  ring

theorem cosI_pos {S : ℝ} (hS : 0 ≤ S) : 0 < cosI S := by
  have h1 := Gamma_pos_of_pos (by linarith : 0 < S + 1 / 2)
  have h2 := Gamma_pos_of_pos (by linarith : 0 < S + 1)
  have h3 := sqrt_pos.2 pi_pos
  unfold cosI
  positivity

theorem cosI_succ {S : ℝ} (hS : 0 ≤ S) : cosI (S + 1) = cosI S * ((S + 1 / 2) / (S + 1)) := by
  have h1 := Gamma_pos_of_pos (by linarith : 0 < S + 1 / 2)
  have h2 := Gamma_pos_of_pos (by linarith : 0 < S + 1)
  unfold cosI
  rw [show S + 1 + 1 / 2 = (S + 1 / 2) + 1 by ring, Gamma_add_one (by linarith : S + 1 / 2 ≠ 0), Gamma_add_one (by linarith : S + 1 ≠ 0)]
  field_simp

theorem cos2s_eq {S : ℝ} (hS : 0 ≤ S) (th : ℝ) : density .cos2s S th = cos (th / 2) ^ (2 * S) / cosI S := by
  have h1 := Gamma_pos_of_pos (by linarith : 0 < S + 1 / 2)
  have h2 := Gamma_pos_of_pos (by linarith : 0 < S + 1)
  have h3 := sqrt_pos.2 pi_pos
  unfold density cosI
  simp only
  rw [exp_sub, exp_log h1, exp_log h2]
  field_simp

theorem cos2s_integral {S : ℝ} (hS : 0 ≤ S) : ∫ t in (-π)..π, density .cos2s S t = 1 := by
  simp only [cos2s_eq hS]
  rw [intervalIntegral.integral_div, cos_half_integral hS, div_self (cosI_pos hS).ne']

theorem cos2s_first {S : ℝ} (hS : 0 ≤ S) : ∫ t in (-π)..π, density .cos2s S t * cos t = S / (S + 1) := by
  have e : ∫ t in (-π)..π, density .cos2s S t * cos t = ∫ t in (-π)..π, (2 * cos (t / 2) ^ (2 * (S + 1)) - cos (t / 2) ^ (2 * S)) / cosI S := by
    refine intervalIntegral.integral_congr fun t ht => ?_
    rw [uIcc_of_le (by linarith [pi_pos])] at ht
    have h1 : 0 ≤ cos (t / 2) := cos_nonneg_of_mem_Icc ⟨by linarith [ht.1], by linarith [ht.2]⟩
    simp only [cos2s_eq hS]
    have hc : cos t = 2 * cos (t / 2) ^ 2 - 1 := by rw [← cos_two_mul]; ring_nf
    have e2 : cos (t / 2) ^ (2 * (S + 1)) = cos (t / 2) ^ (2 * S) * cos (t / 2) ^ 2 := by
      rw [show 2 * (S + 1) = 2 * S + 2 by ring, rpow_add_of_nonneg h1 (by positivity) (by norm_num)]
      norm_num
    rw [hc, e2]
    ring
  have hp := cosI_pos hS
  rw [e, intervalIntegral.integral_div, intervalIntegral.integral_sub ((cos_half_integrable (by linarith) _ _).const_mul 2) (cos_half_integrable hS _ _),
    intervalIntegral.integral_const_mul, cos_half_integral (by linarith), cos_half_integral hS, cosI_succ hS]
  field_simp
  ring

/-! ### `sech2` -/

theorem sech2_eq {B : ℝ} (hB : 0 < B) (th : ℝ) : density .sech2 B th = 0.5 * B * (1 / cosh (B * th) ^ 2) / tanh (π * B) := by
  have h : 0 < tanh (π * B) := by
    rw [tanh_eq_sinh_div_cosh]
    exact div_pos (sinh_pos_iff.2 (by positivity)) (cosh_pos _)
  unfold density sech
  simp only [if_neg h.ne']
  rw [div_pow, one_pow]

theorem sech2_integral {B : ℝ} (hB : 0 < B) : ∫ t in (-π)..π, density .sech2 B t = 1 := by
  have h : 0 < tanh (π * B) := by
    rw [tanh_eq_sinh_div_cosh]
    exact div_pos (sinh_pos_iff.2 (by positivity)) (cosh_pos _)
  have hd : ∀ t ∈ uIcc (-π) π, HasDerivAt (fun t => 0.5 * (sinh (B * t) / cosh (B * t)) / tanh (π * B)) (density .sech2 B t) t := by
    intro t _
    rw [sech2_eq hB]
    have h1 : HasDerivAt (fun t : ℝ => B * t) B t := by simpa using (hasDerivAt_id t).const_mul B
    have h2 := (h1.sinh).div (h1.cosh) (cosh_pos _).ne'
    refine ((h2.const_mul 0.5).div_const (tanh (π * B))).congr_deriv ?_
    have := cosh_sq (B * t)
    have hc := (cosh_pos (B * t)).ne'
    congr 1
    field_simp
    rw [this]
    ring
  have hc : Continuous (density .sech2 B) := by
    have : density .sech2 B = fun th => 0.5 * B * (1 / cosh (B * th) ^ 2) / tanh (π * B) := funext (sech2_eq hB)
    rw [this]
    refine Continuous.div_const (Continuous.mul continuous_const ?_) _
    refine Continuous.div continuous_const ((continuous_cosh.comp (continuous_const.mul continuous_id)).pow 2) fun x => ?_
    exact pow_ne_zero 2 (cosh_pos _).ne'
  rw [intervalIntegral.integral_eq_sub_of_hasDerivAt hd (hc.intervalIntegrable _ _)]
  rw [show B * -π = -(B * π) by ring, sinh_neg, cosh_neg, neg_div, ← tanh_eq_sinh_div_cosh, mul_comm B π]
  field_simp
  norm_num

/-! ### `box` -/

theorem box_eq (A th : ℝ) : density .box A th = (Icc (-A) A).indicator (fun _ => 1 / (2 * A)) th := by
  unfold density
  simp only [indicator, mem_Icc]
  split_ifs <;> simp

theorem box_integral {A : ℝ} (h0 : 0 < A) (h1 : A ≤ π) (f : ℝ → ℝ) :
    ∫ t in (-π)..π, density .box A t * f t = (∫ t in (-A)..A, f t) / (2 * A) := by
  rw [intervalIntegral.integral_of_le (by linarith [pi_pos]), ← integral_Icc_eq_integral_Ioc]
  have e : (fun t => density .box A t * f t) = (Icc (-A) A).indicator (fun t => 1 / (2 * A) * f t) := by
    funext t
    rw [box_eq]
    unfold indicator
    split_ifs <;> simp
  rw [e, setIntegral_indicator measurableSet_Icc, inter_eq_right.2 (Icc_subset_Icc (by linarith) h1), integral_Icc_eq_integral_Ioc,
    ← intervalIntegral.integral_of_le (by linarith), intervalIntegral.integral_const_mul]
  ring

/-! ### `poisson` -/

theorem poisson_hasSum {X : ℝ} (h0 : 0 ≤ X) (h1 : X < 1) (t : ℝ) :
    HasSum (fun n : ℕ => X ^ (n + 1) * cos ((n + 1 : ℕ) * t)) ((X * cos t - X ^ 2) / (1 - (2 * cos t - X) * X)) := by
  set z : ℂ := X * Complex.exp (t * Complex.I) with hz
  have hnz : ‖z‖ < 1 := by
    rw [hz, norm_mul, Complex.norm_exp_ofReal_mul_I, mul_one, Complex.norm_real, norm_of_nonneg h0]
    exact h1
  have hs : HasSum (fun n : ℕ => z * z ^ n) (z * (1 - z)⁻¹) := (hasSum_geometric_of_norm_lt_one hnz).mul_left z
  have hre := Complex.hasSum_re hs
  have e1 : (fun n : ℕ => (z * z ^ n).re) = fun n : ℕ => X ^ (n + 1) * cos ((n + 1 : ℕ) * t) := by
    funext n
    rw [← pow_succ', hz, mul_pow, ← Complex.exp_nat_mul]
    have : ((n + 1 : ℕ) : ℂ) * (t * Complex.I) = (((n + 1 : ℕ) * t : ℝ) : ℂ) * Complex.I := by push_cast; ring
    rw [this, ← Complex.ofReal_pow, Complex.re_ofReal_mul, Complex.exp_ofReal_mul_I_re]
  have e2 : (z * (1 - z)⁻¹).re = (X * cos t - X ^ 2) / (1 - (2 * cos t - X) * X) := by
    have zr : z.re = X * cos t := by rw [hz, Complex.re_ofReal_mul, Complex.exp_ofReal_mul_I_re]
    have zi : z.im = X * sin t := by rw [hz, Complex.im_ofReal_mul, Complex.exp_ofReal_mul_I_im]
    have hsc := sin_sq_add_cos_sq t
    have hn : Complex.normSq (1 - z) = 1 - (2 * cos t - X) * X := by
      rw [Complex.normSq_apply]
      simp only [Complex.sub_re, Complex.sub_im, Complex.one_re, Complex.one_im, zr, zi]
      linear_combination X ^ 2 * hsc
    rw [Complex.mul_re, Complex.inv_re, Complex.inv_im, hn]
    simp only [Complex.sub_re, Complex.sub_im, Complex.one_re, Complex.one_im, zr, zi]
    rw [← mul_div_assoc, ← mul_div_assoc, ← sub_div]
    congr 1
    linear_combination -X ^ 2 * hsc
  rw [e1, e2] at hre
  exact hre

theorem poisson_den {X : ℝ} (h0 : 0 ≤ X) (h1 : X < 1) (t : ℝ) : 0 < 1 - (2 * cos t - X) * X := by
  have := cos_le_one t
  nlinarith [sq_nonneg (1 - X), mul_nonneg h0 (by linarith : 0 ≤ 1 - cos t)]

/-- The Fourier series of the Poisson kernel. -/
theorem poisson_series {X : ℝ} (h0 : 0 ≤ X) (h1 : X < 1) (t : ℝ) :
    HasSum (fun n : ℕ => X ^ (n + 1) * cos ((n + 1 : ℕ) * t)) (π * density .poisson X t - 1 / 2) := by
  have h := poisson_hasSum h0 h1 t
  have hd := (poisson_den h0 h1 t).ne'
  have hp := pi_pos.ne'
  have e : π * density .poisson X t - 1 / 2 = (X * cos t - X ^ 2) / (1 - (2 * cos t - X) * X) := by
    unfold density
    simp only
    generalize hD : 1 - (2 * cos t - X) * X = D at hd
    field_simp
    linear_combination hD
  rw [e]
  exact h

theorem cos_int_integral (n : ℤ) (hn : n ≠ 0) : ∫ t in (-π)..π, cos (n * t) = 0 := by
  have hn' : (n : ℝ) ≠ 0 := by exact_mod_cast hn
  rw [intervalIntegral.integral_comp_mul_left (fun x => cos x) hn', integral_cos]
  have : sin ((n : ℝ) * -π) = 0 := by rw [mul_neg, sin_neg, sin_int_mul_pi]; simp
  rw [this, sin_int_mul_pi]
  simp

theorem cos_mul_cos_integral (n : ℕ) : ∫ t in (-π)..π, cos ((n + 1 : ℕ) * t) * cos t = if n = 0 then π else 0 := by
  have e : ∀ t : ℝ, cos ((n + 1 : ℕ) * t) * cos t = 1 / 2 * (cos (((n + 2 : ℕ) : ℤ) * t) + cos (((n : ℕ) : ℤ) * t)) := by
    intro t
    have h1 := cos_add (((n + 1 : ℕ) : ℝ) * t) t
    have h2 := cos_sub (((n + 1 : ℕ) : ℝ) * t) t
    have e1 : (((n + 2 : ℕ) : ℤ) : ℝ) * t = ((n + 1 : ℕ) : ℝ) * t + t := by push_cast; ring
    have e2 : (((n : ℕ) : ℤ) : ℝ) * t = ((n + 1 : ℕ) : ℝ) * t - t := by push_cast; ring
    rw [e1, e2, h1, h2]
    ring
  have hi : ∀ c : ℝ, IntervalIntegrable (fun t : ℝ => cos (c * t)) volume (-π) π := fun c =>
    (continuous_cos.comp (continuous_const.mul continuous_id)).intervalIntegrable _ _
  simp only [e]
  rw [intervalIntegral.integral_const_mul, intervalIntegral.integral_add (hi _) (hi _), cos_int_integral _ (by omega)]
  by_cases h : n = 0
  · subst h
    simp
    ring
  · rw [if_neg h, cos_int_integral _ (by omega)]
    ring

theorem poisson_termwise {X : ℝ} (h0 : 0 ≤ X) (h1 : X < 1) (f : C(ℝ, ℝ)) (hf : ∀ t, |f t| ≤ 1) :
    HasSum (fun n : ℕ => X ^ (n + 1) * ∫ t in (-π)..π, cos ((n + 1 : ℕ) * t) * f t) (∫ t in (-π)..π, (π * density .poisson X t - 1 / 2) * f t) := by
  have hsum : Summable fun n : ℕ => X ^ (n + 1) := (summable_nat_add_iff 1).2 (summable_geometric_of_lt_one h0 h1)
  have := intervalIntegral.hasSum_integral_of_dominated_convergence (μ := volume) (a := -π) (b := π)
    (F := fun (n : ℕ) t => X ^ (n + 1) * (cos ((n + 1 : ℕ) * t) * f t)) (f := fun t => (π * density .poisson X t - 1 / 2) * f t)
    (fun n _ => X ^ (n + 1)) (fun n => ?_) (fun n => ?_) ?_ ?_ ?_
  · simpa only [intervalIntegral.integral_const_mul] using this
  · exact (continuous_const.mul ((continuous_cos.comp (continuous_const.mul continuous_id)).mul f.continuous)).aestronglyMeasurable
  · refine Filter.Eventually.of_forall fun t _ => ?_
    rw [norm_eq_abs, abs_mul, abs_mul, abs_of_nonneg (pow_nonneg h0 _)]
    have h2 := abs_cos_le_one (((n + 1 : ℕ) : ℝ) * t)
    have h3 := hf t
    have : |cos (((n + 1 : ℕ) : ℝ) * t)| * |f t| ≤ 1 * 1 := mul_le_mul h2 h3 (abs_nonneg _) one_pos.le
    have h4 := pow_nonneg h0 (n + 1)
    nlinarith
  · exact Filter.Eventually.of_forall fun t _ => hsum
  · exact intervalIntegrable_const
  · refine Filter.Eventually.of_forall fun t _ => ?_
    have := (poisson_series h0 h1 t).mul_right (f t)
    simpa only [mul_assoc] using this

theorem poisson_continuous {X : ℝ} (h0 : 0 ≤ X) (h1 : X < 1) : Continuous (density .poisson X) := by
  have : density .poisson X = fun th => (1 - X ^ 2) / (1 - (2 * cos th - X) * X) / (2 * π) := rfl
  rw [this]
  refine Continuous.div_const (Continuous.div continuous_const (by fun_prop) fun t => (poisson_den h0 h1 t).ne') _

theorem poisson_integral {X : ℝ} (h0 : 0 ≤ X) (h1 : X < 1) : ∫ t in (-π)..π, density .poisson X t = 1 := by
  have h := poisson_termwise h0 h1 ⟨fun _ => 1, continuous_const⟩ (by simp)
  simp only [ContinuousMap.coe_mk, mul_one] at h
  have e : (fun n : ℕ => X ^ (n + 1) * ∫ t in (-π)..π, cos ((n + 1 : ℕ) * t)) = fun _ => 0 := by
    funext n
    have := cos_int_integral ((n + 1 : ℕ) : ℤ) (by omega)
    simp only [Int.cast_natCast] at this
    rw [this, mul_zero]
  rw [e] at h
  have h2 := h.unique hasSum_zero
  have hi := (poisson_continuous h0 h1).intervalIntegrable (μ := volume) (-π) π
  rw [intervalIntegral.integral_sub (hi.const_mul π) intervalIntegrable_const, intervalIntegral.integral_const_mul, intervalIntegral.integral_const] at h2
  have hp := pi_pos
  simp only [smul_eq_mul] at h2
  have : π * (∫ t in (-π)..π, density .poisson X t) = π * 1 := by linarith
  exact mul_left_cancel₀ hp.ne' this

theorem poisson_first {X : ℝ} (h0 : 0 ≤ X) (h1 : X < 1) : ∫ t in (-π)..π, density .poisson X t * cos t = X := by
  have h := poisson_termwise h0 h1 ⟨cos, continuous_cos⟩ abs_cos_le_one
  simp only [ContinuousMap.coe_mk, cos_mul_cos_integral] at h
  have h1' : HasSum (fun n : ℕ => X ^ (n + 1) * if n = 0 then π else 0) (X ^ (0 + 1) * if (0 : ℕ) = 0 then π else 0) := by
    apply hasSum_single
    intro n hn
    rw [if_neg hn, mul_zero]
  have h2 := h.unique h1'
  simp only [if_true, zero_add, pow_one] at h2
  have hi : IntervalIntegrable (fun t => density .poisson X t * cos t) volume (-π) π :=
    ((poisson_continuous h0 h1).mul continuous_cos).intervalIntegrable _ _
  have hc := (continuous_cos.intervalIntegrable (μ := volume) (-π) π)
  have e : ∀ t, (π * density .poisson X t - 1 / 2) * cos t = π * (density .poisson X t * cos t) - 1 / 2 * cos t := fun t => by ring
  simp only [e] at h2
  rw [intervalIntegral.integral_sub (hi.const_mul π) (hc.const_mul _), intervalIntegral.integral_const_mul, intervalIntegral.integral_const_mul, integral_cos] at h2
  simp at h2
  have hp := pi_pos
  exact mul_left_cancel₀ hp.ne' (by linarith)

/-! ### `mises` -/

theorem even_integral (f : ℝ → ℝ) (hf : Continuous f) (he : ∀ t, f (-t) = f t) : ∫ t in (-π)..π, f t = 2 * ∫ t in (0 : ℝ)..π, f t := by
  have h2 : ∫ t in (-π)..0, f t = ∫ t in (0 : ℝ)..π, f t := by
    have := intervalIntegral.integral_comp_neg (a := 0) (b := π) f
    rw [neg_zero] at this
    rw [← this]
    congr 1
    funext t
    rw [he]
  rw [← intervalIntegral.integral_add_adjacent_intervals (hf.intervalIntegrable _ 0) (hf.intervalIntegrable 0 _), h2]
  ring

theorem besselI0_pos (K : ℝ) : 0 < besselI0 K := by
  unfold besselI0
  have : 0 < ∫ t in (0 : ℝ)..π, exp (K * cos t) :=
    intervalIntegral.intervalIntegral_pos_of_pos ((continuous_exp.comp (continuous_const.mul continuous_cos)).intervalIntegrable _ _) (fun t => exp_pos _) pi_pos
  have := pi_pos
  positivity

/-- `I1(K)` by its integral. -/
noncomputable def besselI1 (K : ℝ) : ℝ := 1 / π * ∫ t in (0 : ℝ)..π, exp (K * cos t) * cos t

theorem mises_eq {K : ℝ} (hK : 0 ≤ K) (t : ℝ) : density .mises K t = exp (K * cos t) / (2 * π * besselI0 K) := by
  have h := besselI0_pos K
  have hp := pi_pos
  unfold density ive0
  simp only
  rw [abs_of_nonneg hK, show K * (cos t - 1) = K * cos t + -K by ring, exp_add]
  have := exp_pos (-K)
  field_simp

theorem mises_moment {K : ℝ} (hK : 0 ≤ K) (f : ℝ → ℝ) (hf : Continuous f) (he : ∀ t, f (-t) = f t) :
    ∫ t in (-π)..π, density .mises K t * f t = 1 / π * (∫ t in (0 : ℝ)..π, exp (K * cos t) * f t) / besselI0 K := by
  simp only [mises_eq hK, div_mul_eq_mul_div]
  rw [intervalIntegral.integral_div, even_integral (fun t => exp (K * cos t) * f t) (by fun_prop) (fun t => by simp only [cos_neg, he])]
  have := besselI0_pos K
  have hp := pi_pos
  field_simp

theorem mises_integral {K : ℝ} (hK : 0 ≤ K) : ∫ t in (-π)..π, density .mises K t = 1 := by
  have h := mises_moment hK (fun _ => 1) continuous_const (fun _ => rfl)
  simp only [mul_one] at h
  rw [h]
  exact div_self (besselI0_pos K).ne'

theorem mises_first {K : ℝ} (hK : 0 ≤ K) : ∫ t in (-π)..π, density .mises K t * cos t = besselI1 K / besselI0 K :=
  mises_moment hK cos continuous_cos cos_neg

end Wafo.Spread
