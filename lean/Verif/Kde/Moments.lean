import Mathlib.Analysis.SpecialFunctions.Gaussian.GaussianIntegral
import Mathlib.Analysis.SpecialFunctions.Integrals.Basic
import Mathlib.MeasureTheory.Integral.Gamma
import Mathlib.Tactic.LinearCombination
import Verif.Kde.Logistic

/-! Moments of the one dimensional kernels. -/

set_option linter.unusedSectionVars false

namespace Wafo.Kde

open Real MeasureTheory Filter Topology

/-- Integral of a function which agrees with `g` on [-1, 1] and vanishes elsewhere. -/
theorem integral_supp (f g : ℝ → ℝ) (h1 : ∀ x, -1 < x → x < 1 → f x = g x) (h0 : ∀ x, x < -1 ∨ 1 < x → f x = 0) :
    ∫ x, f x = ∫ x in (-1 : ℝ)..1, g x := by
  rw [intervalIntegral.integral_of_le (by norm_num), integral_Ioc_eq_integral_Ioo,
    ← integral_indicator measurableSet_Ioo]
  have hn : (volume ({-1, 1} : Set ℝ)) = 0 := (Set.toFinite _).measure_zero _
  refine integral_congr_ae ?_
  have : ∀ᵐ x : ℝ, x ∉ ({-1, 1} : Set ℝ) := measure_eq_zero_iff_ae_notMem.mp hn
  filter_upwards [this] with x hx
  have hx1 : x ≠ -1 := fun h => hx (by simp [h])
  have hx2 : x ≠ 1 := fun h => hx (by simp [h])
  by_cases hm : x ∈ Set.Ioo (-1 : ℝ) 1
  · rw [Set.indicator_of_mem hm]
    exact h1 x hm.1 hm.2
  · rw [Set.indicator_of_notMem hm]
    refine h0 x ?_
    by_contra hc
    push Not at hc
    exact hm ⟨lt_of_le_of_ne hc.1 (Ne.symm hx1), lt_of_le_of_ne hc.2 hx2⟩

theorem integral_even (n : ℕ) (c : ℕ → ℝ) :
    ∫ x in (-1 : ℝ)..1, ∑ k ∈ Finset.range n, c k * x ^ (2 * k)
      = ∑ k ∈ Finset.range n, c k * (2 / (2 * k + 1)) := by
  rw [intervalIntegral.integral_finsetSum]
  · refine Finset.sum_congr rfl fun k _ => ?_
    rw [intervalIntegral.integral_const_mul, integral_pow]
    rw [Odd.neg_one_pow ⟨k, rfl⟩]
    push_cast
    rw [one_pow]
    ring
  · intro k _
    exact Continuous.intervalIntegrable (by fun_prop) _ _

/-- `max (1 - x²) 0`. -/
theorem clip_in (x : ℝ) (h1 : -1 < x) (h2 : x < 1) : max (1 - x ^ 2) 0 = 1 - x ^ 2 :=
  max_eq_left (by nlinarith)

theorem clip_out (x : ℝ) (h : x < -1 ∨ 1 < x) : max (1 - x ^ 2) 0 = 0 :=
  max_eq_right (by rcases h with h | h <;> nlinarith)

/-- Integral of a function that is an even polynomial on the support. -/
theorem integral_clip_poly (f : ℝ → ℝ) (cs : List ℝ)
    (h1 : ∀ x, -1 < x → x < 1 → f x = ∑ k ∈ Finset.range cs.length, cs.getD k 0 * x ^ (2 * k))
    (h0 : ∀ x, x < -1 ∨ 1 < x → f x = 0) :
    ∫ x, f x = ∑ k ∈ Finset.range cs.length, cs.getD k 0 * (2 / (2 * k + 1)) := by
  rw [integral_supp f _ h1 h0, integral_even]

theorem epan_mu2 : ∫ x : ℝ, x ^ 2 * (3 / 4 * max (1 - x ^ 2) 0 ^ 1) = 1 / 5 := by
  rw [integral_clip_poly _ [0, 3 / 4, -3 / 4]]
  · norm_num [Finset.sum_range_succ]
  · intro x h1 h2
    rw [clip_in x h1 h2]
    norm_num [Finset.sum_range_succ]
    ring
  · intro x h
    rw [clip_out x h]
    norm_num

theorem epan_R : ∫ x : ℝ, (3 / 4 * max (1 - x ^ 2) 0 ^ 1) ^ 2 = 3 / 5 := by
  rw [integral_clip_poly _ [9 / 16, -9 / 8, 9 / 16]]
  · norm_num [Finset.sum_range_succ]
  · intro x h1 h2
    rw [clip_in x h1 h2]
    norm_num [Finset.sum_range_succ]
    ring
  · intro x h
    rw [clip_out x h]
    norm_num

theorem biwe_mu2 : ∫ x : ℝ, x ^ 2 * (15 / 16 * max (1 - x ^ 2) 0 ^ 2) = 1 / 7 := by
  rw [integral_clip_poly _ [0, 15 / 16, -15 / 8, 15 / 16]]
  · norm_num [Finset.sum_range_succ]
  · intro x h1 h2
    rw [clip_in x h1 h2]
    norm_num [Finset.sum_range_succ]
    ring
  · intro x h
    rw [clip_out x h]
    norm_num

theorem biwe_R : ∫ x : ℝ, (15 / 16 * max (1 - x ^ 2) 0 ^ 2) ^ 2 = 5 / 7 := by
  rw [integral_clip_poly _ [225 / 256, -225 / 64, 675 / 128, -225 / 64, 225 / 256]]
  · norm_num [Finset.sum_range_succ]
  · intro x h1 h2
    rw [clip_in x h1 h2]
    norm_num [Finset.sum_range_succ]
    ring
  · intro x h
    rw [clip_out x h]
    norm_num

theorem triw_mu2 : ∫ x : ℝ, x ^ 2 * (35 / 32 * max (1 - x ^ 2) 0 ^ 3) = 1 / 9 := by
  rw [integral_clip_poly _ [0, 35 / 32, -105 / 32, 105 / 32, -35 / 32]]
  · norm_num [Finset.sum_range_succ]
  · intro x h1 h2
    rw [clip_in x h1 h2]
    norm_num [Finset.sum_range_succ]
    ring
  · intro x h
    rw [clip_out x h]
    norm_num

theorem triw_R : ∫ x : ℝ, (35 / 32 * max (1 - x ^ 2) 0 ^ 3) ^ 2 = 350 / 429 := by
  rw [integral_clip_poly _ [1225 / 1024, -7350 / 1024, 18375 / 1024, -24500 / 1024, 18375 / 1024, -7350 / 1024,
    1225 / 1024]]
  · norm_num [Finset.sum_range_succ]
  · intro x h1 h2
    rw [clip_in x h1 h2]
    norm_num [Finset.sum_range_succ]
    ring
  · intro x h
    rw [clip_out x h]
    norm_num

/-- Second derivative of `c (1 - x²)₊^p` off the points -1 and 1. -/
theorem clip_dd_in (c : ℝ) (p : ℕ) (x : ℝ) (h1 : -1 < x) (h2 : x < 1) :
    deriv (deriv fun t : ℝ => c * max (1 - t ^ 2) 0 ^ p) x = deriv (deriv fun t : ℝ => c * (1 - t ^ 2) ^ p) x := by
  have e : ∀ᶠ y in 𝓝 x, (fun t : ℝ => c * max (1 - t ^ 2) 0 ^ p) y = (fun t : ℝ => c * (1 - t ^ 2) ^ p) y := by
    filter_upwards [Ioo_mem_nhds h1 h2] with y hy
    rw [clip_in y hy.1 hy.2]
  exact (EventuallyEq.deriv (f₁ := fun t : ℝ => c * max (1 - t ^ 2) 0 ^ p) e).deriv_eq

theorem clip_dd_out (c : ℝ) (p : ℕ) (hp : p ≠ 0) (x : ℝ) (h : x < -1 ∨ 1 < x) :
    deriv (deriv fun t : ℝ => c * max (1 - t ^ 2) 0 ^ p) x = 0 := by
  have hs : {y : ℝ | y < -1 ∨ 1 < y} ∈ 𝓝 x := by
    have : IsOpen {y : ℝ | y < -1 ∨ 1 < y} := (isOpen_lt continuous_id continuous_const).union
      (isOpen_lt continuous_const continuous_id)
    exact this.mem_nhds h
  have e : ∀ᶠ y in 𝓝 x, (fun t : ℝ => c * max (1 - t ^ 2) 0 ^ p) y = (fun _ : ℝ => (0 : ℝ)) y := by
    filter_upwards [hs] with y hy
    rw [clip_out y hy, zero_pow hp, mul_zero]
  rw [(EventuallyEq.deriv (f₁ := fun t : ℝ => c * max (1 - t ^ 2) 0 ^ p) e).deriv_eq]
  simp

theorem poly_dd2 (c x : ℝ) : deriv (deriv fun t : ℝ => c * (1 - t ^ 2) ^ 2) x = c * (12 * x ^ 2 - 4) := by
  have h1 : ∀ t : ℝ, HasDerivAt (fun t : ℝ => c * (1 - t ^ 2) ^ 2) (c * (4 * t ^ 3 - 4 * t)) t := by
    intro t
    have := (((hasDerivAt_const t (1 : ℝ)).sub (hasDerivAt_pow 2 t)).pow 2).const_mul c
    refine this.congr_deriv ?_
    simp only [Pi.sub_apply]
    push_cast
    ring
  have e : (deriv fun t : ℝ => c * (1 - t ^ 2) ^ 2) = fun t => c * (4 * t ^ 3 - 4 * t) := funext fun t => (h1 t).deriv
  rw [e]
  have := (((hasDerivAt_pow 3 x).const_mul 4).sub ((hasDerivAt_id' x).const_mul 4)).const_mul c
  have h2 : HasDerivAt (fun t : ℝ => c * (4 * t ^ 3 - 4 * t)) (c * (12 * x ^ 2 - 4)) x := by
    refine this.congr_deriv ?_
    push_cast
    ring
  exact h2.deriv

theorem poly_dd3 (c x : ℝ) :
    deriv (deriv fun t : ℝ => c * (1 - t ^ 2) ^ 3) x = c * (-6 + 36 * x ^ 2 - 30 * x ^ 4) := by
  have h1 : ∀ t : ℝ, HasDerivAt (fun t : ℝ => c * (1 - t ^ 2) ^ 3) (c * (-6 * t + 12 * t ^ 3 - 6 * t ^ 5)) t := by
    intro t
    have := (((hasDerivAt_const t (1 : ℝ)).sub (hasDerivAt_pow 2 t)).pow 3).const_mul c
    refine this.congr_deriv ?_
    simp only [Pi.sub_apply]
    push_cast
    ring
  have e : (deriv fun t : ℝ => c * (1 - t ^ 2) ^ 3) = fun t => c * (-6 * t + 12 * t ^ 3 - 6 * t ^ 5) :=
    funext fun t => (h1 t).deriv
  rw [e]
  have := ((((hasDerivAt_id' x).const_mul (-6)).add ((hasDerivAt_pow 3 x).const_mul 12)).sub
    ((hasDerivAt_pow 5 x).const_mul 6)).const_mul c
  have h2 : HasDerivAt (fun t : ℝ => c * (-6 * t + 12 * t ^ 3 - 6 * t ^ 5)) (c * (-6 + 36 * x ^ 2 - 30 * x ^ 4)) x := by
    refine this.congr_deriv ?_
    push_cast
    ring
  exact h2.deriv

theorem biwe_Rdd : ∫ x : ℝ, (deriv (deriv fun t : ℝ => 15 / 16 * max (1 - t ^ 2) 0 ^ 2) x) ^ 2 = 45 / 2 := by
  rw [integral_clip_poly _ [225 / 16, -675 / 8, 2025 / 16]]
  · norm_num [Finset.sum_range_succ]
  · intro x h1 h2
    rw [clip_dd_in _ _ x h1 h2, poly_dd2]
    norm_num [Finset.sum_range_succ]
    ring
  · intro x h
    rw [clip_dd_out _ _ two_ne_zero x h]
    norm_num

theorem triw_Rdd : ∫ x : ℝ, (deriv (deriv fun t : ℝ => 35 / 32 * max (1 - t ^ 2) 0 ^ 3) x) ^ 2 = 35 := by
  rw [integral_clip_poly _ [(35 / 32) ^ 2 * 36, -(35 / 32) ^ 2 * 432, (35 / 32) ^ 2 * 1656, -(35 / 32) ^ 2 * 2160,
    (35 / 32) ^ 2 * 900]]
  · norm_num [Finset.sum_range_succ]
  · intro x h1 h2
    rw [clip_dd_in _ _ x h1 h2, poly_dd3]
    norm_num [Finset.sum_range_succ]
    ring
  · intro x h
    rw [clip_dd_out _ _ three_ne_zero x h]
    norm_num

theorem rect_mu2 : ∫ x : ℝ, x ^ 2 * ((if |x| ≤ 1 then (1 : ℝ) else 0) / 2) = 1 / 3 := by
  rw [integral_clip_poly _ [0, 1 / 2]]
  · norm_num [Finset.sum_range_succ]
  · intro x h1 h2
    rw [if_pos (abs_le.mpr ⟨h1.le, h2.le⟩)]
    norm_num [Finset.sum_range_succ]
    ring
  · intro x h
    have h0 : ¬ |x| ≤ 1 := by
      rw [abs_le]
      rcases h with h | h
      · exact fun hc => absurd hc.1 (not_le.mpr h)
      · exact fun hc => absurd hc.2 (not_le.mpr h)
    rw [if_neg h0]
    norm_num

theorem rect_R : ∫ x : ℝ, ((if |x| ≤ 1 then (1 : ℝ) else 0) / 2) ^ 2 = 1 / 2 := by
  rw [integral_clip_poly _ [1 / 4]]
  · norm_num [Finset.sum_range_succ]
  · intro x h1 h2
    rw [if_pos (abs_le.mpr ⟨h1.le, h2.le⟩)]
    norm_num [Finset.sum_range_succ]
  · intro x h
    have h0 : ¬ |x| ≤ 1 := by
      rw [abs_le]
      rcases h with h | h
      · exact fun hc => absurd hc.1 (not_le.mpr h)
      · exact fun hc => absurd hc.2 (not_le.mpr h)
    rw [if_neg h0]
    norm_num

/-- Twice the integral over [0, 1] for an even function with support in [-1, 1]. -/
theorem integral_supp_abs (g : ℝ → ℝ) (h0 : ∀ x, 1 < x → g x = 0) :
    ∫ x : ℝ, g |x| = 2 * ∫ x in (0 : ℝ)..1, g x := by
  rw [integral_comp_abs (f := g)]
  congr 1
  rw [intervalIntegral.integral_of_le (by norm_num)]
  refine setIntegral_eq_of_subset_of_forall_sdiff_eq_zero measurableSet_Ioi Set.Ioc_subset_Ioi_self ?_
  intro x hx
  have h1 : (0 : ℝ) < x := hx.1
  have h2 : ¬ (0 < x ∧ x ≤ 1) := hx.2
  exact h0 x (by
    by_contra hc
    exact h2 ⟨h1, not_lt.mp hc⟩)

theorem tria_mu2 : ∫ x : ℝ, x ^ 2 * max (1 - |x|) 0 = 1 / 6 := by
  have h : ∀ x : ℝ, x ^ 2 * max (1 - |x|) 0 = (fun y => y ^ 2 * max (1 - y) 0) |x| := by
    intro x; simp [sq_abs]
  simp only [h]
  rw [integral_supp_abs (fun y => y ^ 2 * max (1 - y) 0) fun x hx => by
    rw [max_eq_right (by linarith), mul_zero]]
  have e : ∫ x in (0 : ℝ)..1, x ^ 2 * max (1 - x) 0 = ∫ x in (0 : ℝ)..1, (x ^ 2 - x ^ 3) := by
    refine intervalIntegral.integral_congr ?_
    intro x hx
    rw [Set.uIcc_of_le (by norm_num)] at hx
    simp only
    rw [max_eq_left (by linarith [hx.2])]
    ring
  rw [e, intervalIntegral.integral_sub (by simp) (by simp), integral_pow, integral_pow]
  norm_num

theorem tria_R : ∫ x : ℝ, (max (1 - |x|) 0) ^ 2 = 2 / 3 := by
  rw [show (∫ x : ℝ, (max (1 - |x|) 0) ^ 2) = ∫ x : ℝ, (fun y => (max (1 - y) 0) ^ 2) |x| from rfl,
    integral_supp_abs (fun y => (max (1 - y) 0) ^ 2) fun x hx => by
    rw [max_eq_right (by linarith)]; norm_num]
  have e : ∫ x in (0 : ℝ)..1, (max (1 - x) 0) ^ 2 = ∫ x in (0 : ℝ)..1, (fun y => y ^ 2) (1 - x) := by
    refine intervalIntegral.integral_congr ?_
    intro x hx
    rw [Set.uIcc_of_le (by norm_num)] at hx
    simp only
    rw [max_eq_left (by linarith [hx.2])]
  rw [e, intervalIntegral.integral_comp_sub_left (fun y => y ^ 2), integral_pow]
  norm_num

theorem lapl_mu2 : ∫ x : ℝ, x ^ 2 * (exp (-|x|) / 2) = 2 := by
  have h : ∀ x : ℝ, x ^ 2 * (exp (-|x|) / 2) = (fun y => y ^ 2 * exp (-y)) |x| / 2 := by
    intro x; simp only [sq_abs]; ring
  simp only [h]
  rw [integral_div, integral_comp_abs (f := fun y => y ^ 2 * exp (-y))]
  have := integral_sq_exp 1 one_ne_zero
  simp only [Nat.cast_one, one_mul] at this
  rw [this]
  norm_num

theorem lapl_R : ∫ x : ℝ, (exp (-|x|) / 2) ^ 2 = 1 / 4 := by
  have h : ∀ x : ℝ, (exp (-|x|) / 2) ^ 2 = (fun y => exp (-2 * y)) |x| / 4 := by
    intro x
    simp only
    rw [div_pow, ← exp_nat_mul]
    congr 2
    · push_cast; ring
    · norm_num
  simp only [h]
  rw [integral_div, integral_comp_abs (f := fun y => exp (-2 * y)), integral_exp_mul_Ioi (by norm_num)]
  norm_num

/-! ### Gaussian moments -/

theorem integral_even_gauss (m : ℕ) (b : ℝ) (hb : 0 < b) :
    ∫ x : ℝ, x ^ (2 * m) * exp (-b * x ^ 2) = b ^ (-((m : ℝ) + 1 / 2)) * Gamma (m + 1 / 2) := by
  have h : ∀ x : ℝ, x ^ (2 * m) * exp (-b * x ^ 2) = (fun y => y ^ (2 * m) * exp (-b * y ^ 2)) |x| := by
    intro x
    simp only [sq_abs]
    rw [pow_mul, pow_mul, sq_abs]
  rw [integral_congr_ae (ae_of_all _ h), integral_comp_abs (f := fun y => y ^ (2 * m) * exp (-b * y ^ 2))]
  have := integral_rpow_mul_exp_neg_mul_rpow (p := 2) (q := 2 * m) (b := b) (by norm_num) (by
    have : (0 : ℝ) ≤ m := by positivity
    linarith) hb
  have e : ∫ x in Set.Ioi (0 : ℝ), x ^ (2 * m) * exp (-b * x ^ 2)
      = ∫ x in Set.Ioi (0 : ℝ), x ^ (2 * (m : ℝ)) * exp (-b * x ^ (2 : ℝ)) := by
    refine setIntegral_congr_fun measurableSet_Ioi fun x _ => ?_
    rw [← rpow_natCast, ← rpow_natCast]
    push_cast
    rfl
  rw [e, this]
  rw [show -(2 * (m : ℝ) + 1) / 2 = -((m : ℝ) + 1 / 2) by ring,
    show (2 * (m : ℝ) + 1) / 2 = (m : ℝ) + 1 / 2 by ring]
  ring

end Wafo.Kde
