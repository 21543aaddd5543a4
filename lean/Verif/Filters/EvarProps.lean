import Verif.Filters.EvarModel
import Verif.Filters.SmoothLemmas
import Mathlib.Algebra.Order.BigOperators.Ring.Finset

/-!
# `evar`: properties
-/

set_option linter.unusedSectionVars false

namespace Wafo.Evar

open Finset Dct

/-- Specification: the variance of the first `n` values about their mean. -/
noncomputable def variance (n : ℕ) (y : ℕ → ℝ) : ℝ :=
  (∑ i ∈ range n, (y i - (∑ j ∈ range n, y j) / n) ^ 2) / n

theorem cos_lt {n k : ℕ} (hk : 0 < k) (hkn : k < n) : 0 < S2 n k := by
  have hn : (0 : ℝ) < n := by
    have : 0 < n := by omega
    exact_mod_cast this
  have hk' : (0 : ℝ) < k := by exact_mod_cast hk
  have hkn' : (k : ℝ) < n := by exact_mod_cast hkn
  have hx0 : 0 < Real.pi * (k / n) := mul_pos Real.pi_pos (div_pos hk' hn)
  have hx1 : Real.pi * (k / n) ≤ Real.pi := by
    have : (k : ℝ) / n ≤ 1 := (div_le_one hn).mpr hkn'.le
    nlinarith [Real.pi_pos]
  have := Real.strictAntiOn_cos ⟨le_rfl, Real.pi_pos.le⟩ ⟨hx0.le, hx1⟩ hx0
  rw [Real.cos_zero] at this
  rw [S2]
  linarith

theorem S2_nonneg (n k : ℕ) : 0 ≤ S2 n k := by
  rw [S2]
  have := Real.cos_le_one (Real.pi * (k / n))
  linarith

theorem shrinkage_zero (n : ℕ) (L : ℝ) : shrinkage n L 0 = 0 := by
  simp [shrinkage, S2]

theorem shrinkage_nonneg (n : ℕ) (L : ℝ) (k : ℕ) : 0 ≤ shrinkage n L k ∧ shrinkage n L k ≤ 1 := by
  have h := mul_nonneg (Real.rpow_pos_of_pos (by norm_num : (0 : ℝ) < 10) L).le (S2_nonneg n k)
  have h1 : 1 / (1 + (10 : ℝ) ^ L * S2 n k) ≤ 1 := by
    rw [div_le_one (by linarith)]
    linarith
  have h2 : 0 ≤ 1 / (1 + (10 : ℝ) ^ L * S2 n k) := by positivity
  rw [shrinkage]
  constructor <;> linarith

theorem shrinkage_pos {n k : ℕ} (L : ℝ) (hk : 0 < k) (hkn : k < n) : 0 < shrinkage n L k := by
  have h := mul_pos (Real.rpow_pos_of_pos (by norm_num : (0 : ℝ) < 10) L) (cos_lt hk hkn)
  have h1 : 1 / (1 + (10 : ℝ) ^ L * S2 n k) < 1 := by
    rw [div_lt_one (by linarith)]
    linarith
  rw [shrinkage]
  linarith

theorem cosMat_zero {n : ℕ} (hn : 0 < n) (j : ℕ) : cosMat n 0 j = 1 / Real.sqrt n := by
  rw [cosMat, ← orthoFactor_zero n hn]
  simp

theorem sqrt_ne {n : ℕ} (hn : 0 < n) : Real.sqrt n ≠ 0 :=
  (Real.sqrt_pos.mpr (by exact_mod_cast hn)).ne'

theorem dct_zero {n : ℕ} (hn : 0 < n) (y : ℕ → ℝ) : dct1 n y 0 = (∑ j ∈ range n, y j) / Real.sqrt n := by
  rw [dct1_matrix n y 0 hn, sum_div]
  refine sum_congr rfl fun j _ => ?_
  rw [cosMat_zero hn]
  ring

theorem cosMat_sum {n k : ℕ} (hk : 0 < k) (hkn : k < n) : ∑ j ∈ range n, cosMat n k j = 0 := by
  have h := cosMat_orth' n k 0 hkn (by omega)
  rw [if_neg (by omega)] at h
  simp only [cosMat_zero (by omega : 0 < n)] at h
  rw [← sum_mul] at h
  exact (mul_eq_zero.mp h).resolve_right (one_div_ne_zero (sqrt_ne (by omega)))

theorem inverse {n : ℕ} (y : ℕ → ℝ) {j : ℕ} (hj : j < n) : ∑ k ∈ range n, dct1 n y k * cosMat n k j = y j := by
  have h := Smooth.shrink_solves (s := 0) le_rfl n y hj
  rw [zero_mul, add_zero, Smooth.shrink_sum 0 (by omega)] at h
  rw [← h]
  refine sum_congr rfl fun k _ => ?_
  rw [dct1_matrix n y k (by omega), Smooth.gamma]
  ring

/-- The transform keeps the sum of squares. -/
theorem parseval {n : ℕ} (hn : 0 < n) (y : ℕ → ℝ) : ∑ k ∈ range n, dct1 n y k ^ 2 = ∑ j ∈ range n, y j ^ 2 := by
  have h1 : ∀ k ∈ range n, dct1 n y k ^ 2 = ∑ j ∈ range n, dct1 n y k * cosMat n k j * y j := by
    intro k _
    rw [show ∑ j ∈ range n, dct1 n y k * cosMat n k j * y j = dct1 n y k * ∑ j ∈ range n, cosMat n k j * y j by
      rw [mul_sum]; exact sum_congr rfl fun j _ => by ring, ← dct1_matrix n y k hn]
    ring
  rw [sum_congr rfl h1, sum_comm]
  refine sum_congr rfl fun j hj => ?_
  rw [← sum_mul, inverse y (mem_range.mp hj)]
  ring

theorem variance_eq {n : ℕ} (hn : 0 < n) (y : ℕ → ℝ) :
    variance n y = (∑ k ∈ Ico 1 n, dct1 n y k ^ 2) / n := by
  have hn' : (0 : ℝ) < n := by exact_mod_cast hn
  have h0 : ∑ k ∈ range n, dct1 n y k ^ 2 = dct1 n y 0 ^ 2 + ∑ k ∈ Ico 1 n, dct1 n y k ^ 2 := by
    rw [range_eq_Ico, sum_eq_sum_Ico_succ_bot hn]
  rw [parseval hn, dct_zero hn] at h0
  set m := ∑ j ∈ range n, y j with hm
  have h1 : ∑ i ∈ range n, (y i - m / n) ^ 2 = ∑ i ∈ range n, y i ^ 2 - m ^ 2 / n := by
    have : ∀ i ∈ range n, (y i - m / n) ^ 2 = y i ^ 2 - 2 * (m / n) * y i + (m / n) ^ 2 := fun i _ => by ring
    rw [sum_congr rfl this, sum_add_distrib, sum_sub_distrib, ← mul_sum, ← hm, sum_const, card_range, nsmul_eq_mul]
    field_simp
    ring
  rw [variance, h1, h0, div_pow, Real.sq_sqrt hn'.le]
  congr 1
  ring

theorem noisevar_eq {n : ℕ} (hn : 0 < n) (y : ℕ → ℝ) (L : ℝ) :
    noisevar n y L = (∑ k ∈ Ico 1 n, dct1 n y k ^ 2 * shrinkage n L k ^ 2) / n := by
  rw [noisevar, range_eq_Ico, sum_eq_sum_Ico_succ_bot hn, shrinkage_zero]
  simp

/-- C349: whatever the optimizer returns, the noise variance is between zero and the variance of the data. -/
theorem C349_between_zero_and_variance (argmin : (ℝ → ℝ) → ℝ) {n : ℕ} (hn : 0 < n) (y : ℕ → ℝ) :
    0 ≤ evar argmin n y ∧ evar argmin n y ≤ variance n y := by
  have hn' : (0 : ℝ) < n := by exact_mod_cast hn
  rw [evar, noisevar_eq hn, variance_eq hn]
  refine ⟨div_nonneg (sum_nonneg fun _ _ => by positivity) hn'.le, div_le_div_of_nonneg_right (sum_le_sum fun k _ => ?_) hn'.le⟩
  obtain ⟨h0, h1⟩ := shrinkage_nonneg n (argmin (score n y)) k
  have : shrinkage n (argmin (score n y)) k ^ 2 ≤ 1 := by nlinarith
  nlinarith [sq_nonneg (dct1 n y k)]

/-- C349: the noise variance is zero exactly for constant data. -/
theorem C349_zero_iff_constant (argmin : (ℝ → ℝ) → ℝ) {n : ℕ} (hn : 0 < n) (y : ℕ → ℝ) :
    evar argmin n y = 0 ↔ ∀ i < n, y i = y 0 := by
  have hn' : (0 : ℝ) < n := by exact_mod_cast hn
  constructor
  · intro h
    rw [evar, noisevar_eq hn, div_eq_zero_iff] at h
    have h := h.resolve_right hn'.ne'
    have hz : ∀ k, 0 < k → k < n → dct1 n y k = 0 := by
      intro k hk hkn
      have := (sum_eq_zero_iff_of_nonneg fun k _ =>
        mul_nonneg (sq_nonneg (dct1 n y k)) (sq_nonneg (shrinkage n (argmin (score n y)) k))).mp h k (mem_Ico.mpr ⟨hk, hkn⟩)
      have hp := shrinkage_pos (argmin (score n y)) hk hkn
      exact pow_eq_zero_iff two_ne_zero |>.mp ((mul_eq_zero.mp this).resolve_right (by positivity))
    have hy : ∀ i < n, y i = dct1 n y 0 * (1 / Real.sqrt n) := by
      intro i hi
      have := inverse y hi
      rw [range_eq_Ico, sum_eq_sum_Ico_succ_bot hn, sum_eq_zero (s := Ico (0 + 1) n) fun k hk => by
        rw [hz k (by have := mem_Ico.mp hk; omega) (mem_Ico.mp hk).2]; ring, cosMat_zero hn, add_zero] at this
      exact this.symm
    intro i hi
    rw [hy i hi, ← hy 0 hn]
  · intro h
    have hv : variance n y = 0 := by
      rw [variance]
      have hs : ∑ j ∈ range n, y j = n * y 0 := by
        rw [sum_congr rfl fun j hj => h j (mem_range.mp hj)]
        simp
      rw [hs, sum_eq_zero fun i hi => ?_, zero_div]
      rw [h i (mem_range.mp hi)]
      field_simp
      ring
    have := C349_between_zero_and_variance argmin hn y
    rw [hv] at this
    exact le_antisymm this.2 this.1

theorem dct_affine {n k : ℕ} (hk : 0 < k) (hkn : k < n) (c a : ℝ) (y : ℕ → ℝ) :
    dct1 n (fun i => c * y i + a) k = c * dct1 n y k := by
  rw [dct1_matrix n _ k (by omega), dct1_matrix n y k (by omega)]
  have : ∀ j ∈ range n, cosMat n k j * (c * y j + a) = c * (cosMat n k j * y j) + a * cosMat n k j := fun j _ => by ring
  rw [sum_congr rfl this, sum_add_distrib, ← mul_sum, ← mul_sum, cosMat_sum hk hkn]
  ring

theorem noisevar_affine {n : ℕ} (hn : 0 < n) (c a : ℝ) (y : ℕ → ℝ) (L : ℝ) :
    noisevar n (fun i => c * y i + a) L = c ^ 2 * noisevar n y L := by
  rw [noisevar_eq hn, noisevar_eq hn, ← mul_div_assoc, mul_sum]
  congr 1
  refine sum_congr rfl fun k hk => ?_
  obtain ⟨h1, h2⟩ := mem_Ico.mp hk
  rw [dct_affine (by omega) h2]
  ring

/-- C349: adding a constant to the data changes nothing, for every optimizer. -/
theorem C349_shift (argmin : (ℝ → ℝ) → ℝ) {n : ℕ} (hn : 0 < n) (a : ℝ) (y : ℕ → ℝ) :
    evar argmin n (fun i => y i + a) = evar argmin n y := by
  have h : ∀ L, noisevar n (fun i => y i + a) L = noisevar n y L := by
    intro L
    have := noisevar_affine hn 1 a y L
    simpa using this
  have hs : score n (fun i => y i + a) = score n y := by
    funext L
    rw [score, score, h]
  rw [evar, evar, hs, h]

/-- C349: data times `c` have `c^2` times the noise variance, for an optimizer that does not depend on the scale of its function. -/
theorem C349_scale (argmin : (ℝ → ℝ) → ℝ) (harg : ∀ (f : ℝ → ℝ) (b : ℝ), 0 < b → argmin (fun L => b * f L) = argmin f)
    {n : ℕ} (hn : 0 < n) {c : ℝ} (hc : c ≠ 0) (y : ℕ → ℝ) :
    evar argmin n (fun i => c * y i) = c ^ 2 * evar argmin n y := by
  have h : ∀ L, noisevar n (fun i => c * y i) L = c ^ 2 * noisevar n y L := by
    intro L
    have := noisevar_affine hn c 0 y L
    simpa using this
  have hs : score n (fun i => c * y i) = fun L => c ^ 2 * score n y L := by
    funext L
    rw [score, score, h]
    ring
  rw [evar, evar, hs, harg _ _ (by positivity), h]

/-- Two values: a quarter of the square of the difference is the variance, and `evar` is positive. -/
example (argmin : (ℝ → ℝ) → ℝ) : 0 < evar argmin 2 (fun i => (i : ℝ)) ∧ evar argmin 2 (fun i => (i : ℝ)) ≤ 1 / 4 := by
  obtain ⟨h0, h1⟩ := C349_between_zero_and_variance argmin (n := 2) two_pos (fun i => (i : ℝ))
  refine ⟨lt_of_le_of_ne h0 fun h => ?_, h1.trans_eq ?_⟩
  · have := (C349_zero_iff_constant argmin (n := 2) two_pos (fun i => (i : ℝ))).mp h.symm 1 (by norm_num)
    norm_num at this
  · norm_num [variance, sum_range_succ]

end Wafo.Evar
