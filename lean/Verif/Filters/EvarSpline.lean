import Verif.Filters.EvarProps

/-!
# `evar`: which smoothing its residuals belong to
-/

set_option linter.unusedSectionVars false

namespace Wafo.Evar

open Finset Dct

/-- Sum of squares of a combination of the cosines. -/
theorem combination_sq {n : ℕ} (a : ℕ → ℝ) :
    ∑ i ∈ range n, (∑ k ∈ range n, a k * cosMat n k i) ^ 2 = ∑ k ∈ range n, a k ^ 2 := by
  have h : ∀ i ∈ range n, (∑ k ∈ range n, a k * cosMat n k i) ^ 2 =
      ∑ k ∈ range n, ∑ l ∈ range n, a k * a l * (cosMat n k i * cosMat n l i) := by
    intro i _
    rw [sq, sum_mul_sum]
    exact sum_congr rfl fun k _ => sum_congr rfl fun l _ => by ring
  rw [sum_congr rfl h, sum_comm]
  refine sum_congr rfl fun k hk => ?_
  rw [sum_comm]
  have : ∀ l ∈ range n, ∑ i ∈ range n, a k * a l * (cosMat n k i * cosMat n l i) = if k = l then a k * a l else 0 := by
    intro l hl
    rw [← mul_sum, cosMat_orth' n k l (mem_range.mp hk) (mem_range.mp hl)]
    split_ifs <;> ring
  rw [sum_congr rfl this, sum_ite_eq, if_pos hk]
  ring

/-- Residual of a smoothing that multiplies the coefficients. -/
theorem residual_sq {n : ℕ} (hn : 0 < n) (y μ : ℕ → ℝ) :
    ∑ i ∈ range n, (y i - ∑ k ∈ range n, (μ k * dct1 n y k) * cosMat n k i) ^ 2 =
      ∑ k ∈ range n, dct1 n y k ^ 2 * (1 - μ k) ^ 2 := by
  have h : ∀ i ∈ range n, (y i - ∑ k ∈ range n, (μ k * dct1 n y k) * cosMat n k i) ^ 2 =
      (∑ k ∈ range n, (dct1 n y k * (1 - μ k)) * cosMat n k i) ^ 2 := by
    intro i hi
    rw [← inverse y (mem_range.mp hi), ← sum_sub_distrib]
    congr 1
    exact sum_congr rfl fun k _ => by ring
  rw [sum_congr rfl h, combination_sq]
  exact sum_congr rfl fun k _ => by ring

/-- The mean square of the residuals of `smoothn` with the parameter `s`. -/
noncomputable def splineResidual (n : ℕ) (y : ℕ → ℝ) (s : ℝ) : ℝ :=
  (∑ i ∈ range n, (y i - Smooth.shrink s n y i) ^ 2) / n

theorem splineResidual_eq {n : ℕ} (hn : 0 < n) (y : ℕ → ℝ) (s : ℝ) :
    splineResidual n y s = (∑ k ∈ range n, dct1 n y k ^ 2 * (1 - Smooth.gamma s n k) ^ 2) / n := by
  rw [splineResidual, ← residual_sq hn]
  congr 1
  refine sum_congr rfl fun i _ => ?_
  rw [Smooth.shrink_sum s hn]
  simp only [dct1_matrix n y _ hn]

theorem dct_cos {n m k : ℕ} (hm : m < n) (hk : k < n) : dct1 n (fun j => cosMat n m j) k = if k = m then 1 else 0 := by
  rw [dct1_matrix n _ k (by omega)]
  exact cosMat_orth' n k m hk hm

theorem cos_two_thirds : Real.cos (Real.pi * (2 / 3)) = -(1 / 2) := by
  rw [show Real.pi * (2 / 3) = 2 * (Real.pi / 3) by ring, Real.cos_two_mul, Real.cos_pi_div_three]
  norm_num

theorem noisevar_cos {n m : ℕ} (hm : m < n) (L : ℝ) : noisevar n (fun j => cosMat n m j) L = shrinkage n L m ^ 2 / n := by
  rw [noisevar, sum_eq_single_of_mem m (mem_range.mpr hm) fun k hk hkm => by
    rw [dct_cos hm (mem_range.mp hk), if_neg hkm]; ring, dct_cos hm hm, if_pos rfl]
  ring

theorem splineResidual_cos {n m : ℕ} (hm : m < n) (s : ℝ) :
    splineResidual n (fun j => cosMat n m j) s = (1 - Smooth.gamma s n m) ^ 2 / n := by
  rw [splineResidual_eq (by omega), sum_eq_single_of_mem m (mem_range.mpr hm) fun k hk hkm => by
    rw [dct_cos hm (mem_range.mp hk), if_neg hkm]; ring, dct_cos hm hm, if_pos rfl]
  ring

theorem part_inj {a b : ℝ} (ha : 0 ≤ a) (hb : 0 ≤ b) (h : (1 - 1 / (1 + a)) ^ 2 / 3 = (1 - 1 / (1 + b)) ^ 2 / 3) : a = b := by
  have e1 : 1 - 1 / (1 + a) = a / (1 + a) := by field_simp; ring
  have e2 : 1 - 1 / (1 + b) = b / (1 + b) := by field_simp; ring
  rw [e1, e2] at h
  have h1 : (a / (1 + a)) ^ 2 = (b / (1 + b)) ^ 2 := by linarith
  have h2 : a / (1 + a) = b / (1 + b) := by
    have p1 : 0 ≤ a / (1 + a) := by positivity
    have p2 : 0 ≤ b / (1 + b) := by positivity
    exact (pow_left_inj₀ p1 p2 two_ne_zero).mp h1
  rw [div_eq_div_iff (by positivity) (by positivity)] at h2
  linarith

/-- C350: the residuals are not those of the thin plate smoothing spline of the documentation, that is of `smoothn`: already for
three values there are no parameters for which the two mean squares agree for all data. -/
theorem C350_not_the_spline (L s : ℝ) (hs : 0 ≤ s) : ∃ y : ℕ → ℝ, noisevar 3 y L ≠ splineResidual 3 y s := by
  by_contra hcon
  push Not at hcon
  have h1 := hcon (fun j => cosMat 3 1 j)
  have h2 := hcon (fun j => cosMat 3 2 j)
  rw [noisevar_cos (by norm_num), splineResidual_cos (by norm_num)] at h1 h2
  have c1 : Real.cos (Real.pi * (((1 : ℕ) : ℝ) / ((3 : ℕ) : ℝ))) = 1 / 2 := by
    rw [show Real.pi * (((1 : ℕ) : ℝ) / ((3 : ℕ) : ℝ)) = Real.pi / 3 by push_cast; ring, Real.cos_pi_div_three]
  have c2 : Real.cos (Real.pi * (((2 : ℕ) : ℝ) / ((3 : ℕ) : ℝ))) = -(1 / 2) := by
    push_cast
    exact cos_two_thirds
  have d1 : Real.cos (Real.pi * ((1 : ℕ) : ℝ) / ((3 : ℕ) : ℝ)) = 1 / 2 := by rw [mul_div_assoc, c1]
  have d2 : Real.cos (Real.pi * ((2 : ℕ) : ℝ) / ((3 : ℕ) : ℝ)) = -(1 / 2) := by rw [mul_div_assoc, c2]
  have ht : 0 < (10 : ℝ) ^ L := Real.rpow_pos_of_pos (by norm_num) L
  simp only [shrinkage, S2, Smooth.gamma, Smooth.lam] at h1 h2
  rw [c1, d1] at h1
  rw [c2, d2] at h2
  set t := (10 : ℝ) ^ L
  norm_num at h1 h2
  have e1 : t = s := part_inj ht.le hs (by simpa using h1)
  have e2 : t * 3 = s * 9 := part_inj (by positivity) (by positivity) (by simpa using h2)
  linarith

/-- C350: what is computed is the mean square of the residuals of a smoothing `z - 10^L * (second difference of z) = y`, the
one that penalizes first differences. -/
theorem C350_membrane_partial {n : ℕ} (hn : 0 < n) (y : ℕ → ℝ) (L : ℝ) :
    ∃ z : ℕ → ℝ, (∀ i < n, z i - (10 : ℝ) ^ L * Smooth.secondDiff n z i = y i) ∧
      noisevar n y L = (∑ i ∈ range n, (y i - z i) ^ 2) / n := by
  have ht : 0 < (10 : ℝ) ^ L := Real.rpow_pos_of_pos (by norm_num) L
  refine ⟨fun i => ∑ k ∈ range n, ((1 / (1 + (10 : ℝ) ^ L * S2 n k)) * dct1 n y k) * cosMat n k i, fun i hi => ?_, ?_⟩
  · rw [Smooth.secondDiff_sum]
    rw [mul_sum, ← sum_sub_distrib, ← inverse y hi]
    refine sum_congr rfl fun k _ => ?_
    rw [Smooth.secondDiff_mul, Smooth.secondDiff_cos n k i hi]
    have hl : Smooth.lam n k = -S2 n k := by
      rw [Smooth.lam, S2, mul_div_assoc]
      ring
    have hd : 1 + (10 : ℝ) ^ L * S2 n k ≠ 0 := by
      have := mul_nonneg ht.le (S2_nonneg n k)
      linarith
    rw [hl]
    field_simp
    ring
  · rw [residual_sq hn y (fun k => 1 / (1 + (10 : ℝ) ^ L * S2 n k))]
    rfl

end Wafo.Evar
