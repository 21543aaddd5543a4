import Verif.Cov.Model

/-! Lemmas on the autocovariance by two Fourier transforms. -/

set_option linter.unusedSectionVars false

namespace Wafo.Cov
open Finset

noncomputable section

/-- The sum of the products at distance `l` of the first `n` values. -/
def lagSum (y : ℕ → ℝ) (n l : ℕ) : ℝ := ∑ j ∈ range (n - l), y j * y (j + l)

theorem power_eq (N : ℕ) (x : List ℝ) (k : ℕ) :
    ‖fft N (toC x) k‖ ^ 2 =
      ∑ i ∈ range N, ∑ j ∈ range N, x.getD i 0 * x.getD j 0 * Real.cos (2 * Real.pi * ((i : ℤ) - j : ℤ) * k / N) := by
  rw [Complex.sq_norm, Complex.normSq_apply, fft_re, fft_im, neg_mul_neg, sum_mul_sum, sum_mul_sum, ← sum_add_distrib]
  refine sum_congr rfl fun i _ => ?_
  rw [← sum_add_distrib]
  refine sum_congr rfl fun j _ => ?_
  rw [show 2 * Real.pi * (((i : ℤ) - j : ℤ) : ℝ) * k / N = 2 * Real.pi * i * k / N - 2 * Real.pi * j * k / N by push_cast; ring,
    Real.cos_sub]
  ring

theorem getD_map_range (f : ℕ → ℝ) (N j : ℕ) (hj : j < N) : ((List.range N).map f).getD j 0 = f j := by
  rw [List.getD_eq_getElem?_getD, List.getElem?_map, List.getElem?_range hj]
  rfl

theorem double_transform (N : ℕ) (hN : 0 < N) (y : ℕ → ℝ) (l : ℕ) :
    ∑ k ∈ range N, (∑ i ∈ range N, ∑ j ∈ range N, y i * y j * Real.cos (2 * Real.pi * ((i : ℤ) - j : ℤ) * k / N)) *
        Real.cos (2 * Real.pi * k * l / N) =
      N * ∑ j ∈ range N, ∑ i ∈ range N, y i * y j * (if (N : ℤ) ∣ (i : ℤ) - j - l then 1 else 0) := by
  have h1 : ∀ i j : ℕ, ∑ k ∈ range N, y i * y j * Real.cos (2 * Real.pi * ((i : ℤ) - j : ℤ) * k / N) *
      Real.cos (2 * Real.pi * k * l / N) = y i * y j *
      (((if (N : ℤ) ∣ (i : ℤ) - j - l then (N : ℝ) else 0) + (if (N : ℤ) ∣ (i : ℤ) - j + l then (N : ℝ) else 0)) / 2) := by
    intro i j
    rw [← sum_cos_cos N hN, mul_sum]
    refine sum_congr rfl fun k _ => ?_
    rw [show 2 * Real.pi * (k : ℝ) * l / N = 2 * Real.pi * ((l : ℤ) : ℝ) * k / N by push_cast; ring]
    ring
  have h2 : ∑ k ∈ range N, (∑ i ∈ range N, ∑ j ∈ range N, y i * y j * Real.cos (2 * Real.pi * ((i : ℤ) - j : ℤ) * k / N)) *
        Real.cos (2 * Real.pi * k * l / N) =
      ∑ i ∈ range N, ∑ j ∈ range N, y i * y j *
      (((if (N : ℤ) ∣ (i : ℤ) - j - l then (N : ℝ) else 0) + (if (N : ℤ) ∣ (i : ℤ) - j + l then (N : ℝ) else 0)) / 2) := by
    simp only [sum_mul]
    rw [sum_comm]
    refine sum_congr rfl fun i _ => ?_
    rw [sum_comm]
    exact sum_congr rfl fun j _ => h1 i j
  rw [h2]
  have h3 : ∑ i ∈ range N, ∑ j ∈ range N, y i * y j * (if (N : ℤ) ∣ (i : ℤ) - j + l then (N : ℝ) else 0) =
      ∑ j ∈ range N, ∑ i ∈ range N, y i * y j * (if (N : ℤ) ∣ (i : ℤ) - j - l then (N : ℝ) else 0) := by
    refine sum_congr rfl fun i _ => sum_congr rfl fun j _ => ?_
    have : ((N : ℤ) ∣ (i : ℤ) - j + l) ↔ ((N : ℤ) ∣ (j : ℤ) - i - l) := by
      rw [← dvd_neg, show -((i : ℤ) - j + l) = (j : ℤ) - i - l by ring]
    simp only [this]
    ring
  have h4 : ∑ i ∈ range N, ∑ j ∈ range N, y i * y j * (if (N : ℤ) ∣ (i : ℤ) - j - l then (N : ℝ) else 0) =
      ∑ j ∈ range N, ∑ i ∈ range N, y i * y j * (if (N : ℤ) ∣ (i : ℤ) - j - l then (N : ℝ) else 0) := sum_comm
  have h5 : ∀ i j : ℕ, y i * y j *
      (((if (N : ℤ) ∣ (i : ℤ) - j - l then (N : ℝ) else 0) + (if (N : ℤ) ∣ (i : ℤ) - j + l then (N : ℝ) else 0)) / 2) =
      y i * y j * (if (N : ℤ) ∣ (i : ℤ) - j - l then (N : ℝ) else 0) / 2 +
      y i * y j * (if (N : ℤ) ∣ (i : ℤ) - j + l then (N : ℝ) else 0) / 2 := fun i j => by ring
  simp only [h5, sum_add_distrib, ← sum_div]
  rw [h3, h4, add_halves, mul_sum]
  refine sum_congr rfl fun j _ => ?_
  rw [mul_sum]
  refine sum_congr rfl fun i _ => ?_
  split <;> ring

theorem coincide (N : ℕ) (y : ℕ → ℝ) (l : ℕ) (hl : l < N) (j : ℕ) (hj : j < N) :
    ∑ i ∈ range N, y i * y j * (if (N : ℤ) ∣ (i : ℤ) - j - l then (1 : ℝ) else 0) =
      y j * y (if j + l < N then j + l else j + l - N) := by
  set c : ℕ := if j + l < N then j + l else j + l - N with hc
  have hcN : c < N := by rw [hc]; split <;> omega
  have hcd : (N : ℤ) ∣ (c : ℤ) - j - l := by
    rw [hc]
    split
    · exact ⟨0, by push_cast; ring⟩
    · next h => exact ⟨-1, by rw [Nat.cast_sub (by omega)]; push_cast; ring⟩
  rw [sum_eq_single c]
  · rw [if_pos hcd]; ring
  · intro i hi hne
    rw [if_neg, mul_zero]
    intro hd
    have h2 : (N : ℤ) ∣ (i : ℤ) - c := by
      have := dvd_sub hd hcd
      rwa [show (i : ℤ) - j - l - (c - j - l) = i - c by ring] at this
    have := mem_range.1 hi
    have h0 := Int.eq_zero_of_abs_lt_dvd h2 (by rw [abs_lt]; omega)
    omega
  · intro h
    exact absurd (mem_range.2 hcN) h

theorem circular (N : ℕ) (y : ℕ → ℝ) (l : ℕ) (hl : l < N) :
    ∑ j ∈ range N, ∑ i ∈ range N, y i * y j * (if (N : ℤ) ∣ (i : ℤ) - j - l then (1 : ℝ) else 0) =
      lagSum y N l + lagSum y N (N - l) := by
  rw [sum_congr rfl fun j hj => coincide N y l hl j (mem_range.1 hj)]
  unfold lagSum
  conv_lhs => rw [show N = (N - l) + l by omega]
  rw [sum_range_add]
  congr 1
  · refine sum_congr rfl fun j hj => ?_
    have := mem_range.1 hj
    rw [if_pos (by omega)]
  · rw [show N - (N - l) = l by omega]
    refine sum_congr rfl fun j hj => ?_
    have := mem_range.1 hj
    rw [if_neg (by omega), show N - l + j + l - (N - l + l) = j by omega, Nat.add_comm (N - l) j, mul_comm]

theorem lagSum_cut (y : ℕ → ℝ) (n N l : ℕ) (hnN : n ≤ N) (hy : ∀ j, n ≤ j → y j = 0) : lagSum y N l = lagSum y n l := by
  unfold lagSum
  symm
  apply sum_subset
  · intro j hj
    have := mem_range.1 hj
    exact mem_range.2 (by omega)
  · intro j hj hj'
    have h2 : ¬ j < n - l := fun h => hj' (mem_range.2 h)
    rw [hy (j + l) (by omega), mul_zero]

theorem autoCov_length (x : List ℝ) (n ncens : ℕ) : (autoCov x n ncens).length = pow2 n := by simp [autoCov]

/-- The raw autocovariance is the sum of the products at the distances `l` and `nfft - l`. -/
theorem autoCov_get (x : List ℝ) (n ncens : ℕ) (hx : x.length ≤ pow2 n) (l : ℕ) (hl : l < pow2 n) :
    (autoCov x n ncens)[l]? =
      some ((lagSum (fun j => x.getD j 0) x.length l + lagSum (fun j => x.getD j 0) x.length (pow2 n - l)) / ncens) := by
  have hN := pow2_pos n
  have hN' : (pow2 n : ℝ) ≠ 0 := by exact_mod_cast hN.ne'
  have hz : ∀ j, x.length ≤ j → x.getD j 0 = 0 := fun j hj => by
    rw [List.getD_eq_getElem?_getD, List.getElem?_eq_none hj]; rfl
  unfold autoCov
  rw [List.getElem?_map, List.getElem?_range hl, Option.map_some]
  congr 1
  rw [fft_re]
  rw [sum_congr rfl fun k hk => by rw [getD_map_range _ _ _ (mem_range.1 hk), power_eq]]
  have h := double_transform (pow2 n) hN (fun j => x.getD j 0) l
  rw [circular _ _ _ hl, lagSum_cut _ _ _ _ hx hz, lagSum_cut _ _ _ _ hx hz] at h
  have e : ∀ k : ℕ, (∑ i ∈ range (pow2 n), ∑ j ∈ range (pow2 n), x.getD i 0 * x.getD j 0 *
      Real.cos (2 * Real.pi * ((i : ℤ) - j : ℤ) * k / (pow2 n : ℝ))) / ncens * Real.cos (2 * Real.pi * k * l / (pow2 n : ℝ)) =
      (∑ i ∈ range (pow2 n), ∑ j ∈ range (pow2 n), x.getD i 0 * x.getD j 0 *
      Real.cos (2 * Real.pi * ((i : ℤ) - j : ℤ) * k / (pow2 n : ℝ))) * Real.cos (2 * Real.pi * k * l / (pow2 n : ℝ)) / ncens :=
    fun k => by ring
  rw [sum_congr rfl fun k _ => e k, ← sum_div, h]
  field_simp

/-- The largest raw autocovariance is that at lag zero. -/
theorem autoCov_abs (x : List ℝ) (n ncens : ℕ) (l : ℕ) (v v0 : ℝ) (h0 : (autoCov x n ncens)[0]? = some v0)
    (hv : (autoCov x n ncens)[l]? = some v) : |v| ≤ v0 := by
  have hN := pow2_pos n
  have hl : l < pow2 n := by
    by_contra h
    rw [List.getElem?_eq_none (by rw [autoCov_length]; omega)] at hv
    exact absurd hv (by simp)
  unfold autoCov at h0 hv
  rw [List.getElem?_map, List.getElem?_range hN, Option.map_some, Option.some.injEq, fft_re] at h0
  rw [List.getElem?_map, List.getElem?_range hl, Option.map_some, Option.some.injEq, fft_re] at hv
  rw [← h0, ← hv, abs_div, abs_of_pos (by exact_mod_cast hN : (0 : ℝ) < pow2 n)]
  apply div_le_div_of_nonneg_right _ (by positivity)
  refine (abs_sum_le_sum_abs _ _).trans (sum_le_sum fun k hk => ?_)
  rw [getD_map_range _ _ _ (mem_range.1 hk), abs_mul]
  rw [abs_of_nonneg (by positivity)]
  rw [show Real.cos (2 * Real.pi * (k : ℝ) * ((0 : ℕ) : ℝ) / (pow2 n : ℝ)) = 1 by simp]
  exact mul_le_mul_of_nonneg_left (Real.abs_cos_le_one _) (by positivity)

end

end Wafo.Cov
