import Verif.Filters.SgModel
import Mathlib.Algebra.BigOperators.Intervals
import Mathlib.Algebra.BigOperators.Ring.Finset
import Mathlib.Data.List.GetD
import Mathlib.Tactic.LinearCombination
import Mathlib.Tactic.Linarith
import Mathlib.Tactic.NormNum.Abs

/-!
# `SavitzkyGolay`: properties
-/

set_option linter.unusedSectionVars false

namespace Wafo.Sg

open Finset

variable {α : Type*} [Field α] [LinearOrder α] [IsStrictOrderedRing α]

theorem zip_sum : ∀ (w c : List α), w.length = c.length →
    (List.zipWith (· * ·) w c).sum = ∑ m ∈ range c.length, c.getD m 0 * w.getD m 0
  | [], [], _ => by simp
  | a :: w, b :: c, h => by
    rw [List.zipWith_cons_cons, List.sum_cons, zip_sum w c (by simpa using h), List.length_cons, sum_range_succ']
    simp only [List.getD_cons_succ, List.getD_cons_zero]
    ring
  | [], _ :: _, h => by simp at h
  | _ :: _, [], h => by simp at h

theorem head_length {n : ℕ} {y : List α} (h : n < y.length) : (headReversed n y).length = n := by
  simp [headReversed]
  omega

theorem tail_length {n : ℕ} {y : List α} (h : n < y.length) : (tailReversed n y).length = n := by
  simp [tailReversed]
  omega

theorem getD_window {p : List α} {a b m : ℕ} (h : b + m < a) : ((p.take a).drop b).getD m 0 = p.getD (b + m) 0 := by
  rw [List.getD_eq_getElem?_getD, List.getD_eq_getElem?_getD, List.getElem?_drop, List.getElem?_take, if_pos h]

theorem padded_ok {n : ℕ} {y : List α} (h : n < y.length) : ∃ p, padded n y = .ok p ∧ p.length = y.length + 2 * n ∧
    (∀ j < y.length, p.getD (n + j) 0 = y.getD j 0) ∧
    ∀ j, 1 ≤ j → j ≤ n → p.getD (n + y.length - 1 + j) 0 =
      y.getD (y.length - 1) 0 + |y.getD (y.length - 1 - j) 0 - y.getD (y.length - 1) 0| := by
  have hne : y ≠ [] := by
    rintro rfl
    simp at h
  have hh : y.head? = some (y.head hne) := List.head?_eq_some_head hne
  have hl : y.getLast? = some (y.getLast hne) := List.getLast?_eq_some_getLast hne
  refine ⟨_, by rw [padded, hh, hl], ?_, ?_, ?_⟩
  · simp only [List.length_append, List.length_map, head_length h, tail_length h]
    omega
  · intro j hj
    rw [List.getD_eq_getElem?_getD, List.getD_eq_getElem?_getD, List.append_assoc, List.getElem?_append_right
      (by rw [List.length_map, head_length h]; omega), List.length_map, head_length h, Nat.add_sub_cancel_left,
      List.getElem?_append_left hj]
  · intro j hj1 hjn
    have hlast : y.getD (y.length - 1) 0 = y.getLast hne := by
      rw [List.getLast_eq_getElem, List.getD_eq_getElem _ _ (by omega)]
    have hlen : ((headReversed n y).map (fun v => y.head hne - |v - y.head hne|) ++ y).length = n + y.length := by
      rw [List.length_append, List.length_map, head_length h]
    rw [List.getD_eq_getElem?_getD, List.getElem?_append_right (by rw [hlen]; omega), hlen,
      show n + y.length - 1 + j - (n + y.length) = j - 1 by omega, List.getElem?_map, hlast]
    have : (tailReversed n y)[j - 1]? = some (y.getD (y.length - 1 - j) 0) := by
      rw [tailReversed, List.getElem?_take, if_pos (by omega), List.getElem?_reverse (by simp; omega), List.length_dropLast,
        List.getElem?_dropLast, if_pos (by omega), List.getD_eq_getElem _ _ (by omega),
        List.getElem?_eq_getElem (by omega)]
      congr 2
      omega
    rw [this]
    rfl

/-- The value as a sum over the window of the padded signal. -/
theorem smoothLast_sum {n k : ℕ} {c y : List α} (hc : c.length = 2 * n + 1) (hy : n < y.length) (hk : 1 ≤ k)
    (hky : k < y.length) :
    ∃ p, padded n y = .ok p ∧ smoothLast c y k = .ok (∑ m ∈ range (2 * n + 1), c.getD m 0 * p.getD (y.length - 1 - k + m) 0) := by
  obtain ⟨p, hp, hl, -, -⟩ := padded_ok hy
  refine ⟨p, hp, ?_⟩
  have hn : (c.length - 1) / 2 = n := by omega
  simp only [smoothLast, hn, hp]
  have hw : (lastWindow n k p).length = c.length := by
    rw [lastWindow, if_neg (by omega)]
    simp [hl, hc]
    omega
  unfold weightedSum
  rw [if_pos hw, zip_sum _ _ hw, hc]
  congr 1
  refine sum_congr rfl fun m hm => ?_
  rw [mem_range] at hm
  rw [lastWindow, if_neg (by omega), getD_window (by omega)]
  congr 2
  omega

/-- C351: away from the edge `smooth_last(signal, k)` with coefficients that read the same from both ends is the value of `smooth` at
the place `k` before the last; so `k = 1`, the default, belongs to the last value but one. -/
theorem C351_is_smooth_before_last_partial {n k : ℕ} {c y : List α} (hc : c.length = 2 * n + 1) (hsym : c.reverse = c)
    (hk : 1 ≤ k) (hnk : n ≤ k) (hky : k + n < y.length) :
    smoothLast c y k = .ok (smoothAt c y (y.length - 1 - k)) := by
  obtain ⟨p, hp, e⟩ := smoothLast_sum hc (by omega) hk (by omega : k < y.length)
  obtain ⟨p', hp', -, hin, -⟩ := padded_ok (n := n) (y := y) (by omega)
  rw [hp] at hp'
  cases hp'
  rw [e, smoothAt, hc]
  congr 1
  rw [← sum_range_reflect]
  refine sum_congr rfl fun m hm => ?_
  rw [mem_range] at hm
  have h1 : c.getD (2 * n + 1 - 1 - m) 0 = c.getD m 0 := by
    conv_rhs => rw [← hsym]
    rw [List.getD_eq_getElem?_getD, List.getD_eq_getElem?_getD, List.getElem?_reverse (by omega), hc]
  have h2 : y.length - 1 - k + (2 * n + 1 - 1 - m) = n + (y.length - 1 - k + n - m) := by omega
  rw [h1, h2, hin _ (by omega)]
  congr 2
  omega

/-- C351: for a derivative the coefficients change sign when they are turned round, and so does the result of `smooth_last`: it is
minus the derivative `smooth` gives at the same place. -/
theorem C351_derivative_sign {n k : ℕ} {c y : List α} (hc : c.length = 2 * n + 1) (hanti : c.reverse = c.map (- ·))
    (hk : 1 ≤ k) (hnk : n ≤ k) (hky : k + n < y.length) :
    smoothLast c y k = .ok (-smoothAt c y (y.length - 1 - k)) := by
  obtain ⟨p, hp, e⟩ := smoothLast_sum hc (by omega) hk (by omega : k < y.length)
  obtain ⟨p', hp', -, hin, -⟩ := padded_ok (n := n) (y := y) (by omega)
  rw [hp] at hp'
  cases hp'
  rw [e, smoothAt, hc, ← sum_neg_distrib]
  congr 1
  rw [← sum_range_reflect]
  refine sum_congr rfl fun m hm => ?_
  rw [mem_range] at hm
  have h1 : c.getD (2 * n + 1 - 1 - m) 0 = -c.getD m 0 := by
    have h := congrArg (fun l => l[m]?) hanti
    beta_reduce at h
    rw [List.getElem?_reverse (by omega), List.getElem?_map, hc] at h
    rw [List.getD_eq_getElem?_getD, h, List.getD_eq_getElem?_getD, List.getElem?_eq_getElem (by omega)]
    rfl
  have h2 : y.length - 1 - k + (2 * n + 1 - 1 - m) = n + (y.length - 1 - k + n - m) := by omega
  rw [h1, h2, hin _ (by omega), neg_mul]
  congr 3
  omega

/-- C351: the smoothed last value cannot be had: `k = 0` is an error for every signal. -/
theorem C351_last_value_error {n : ℕ} {c y : List α} (hc : c.length = 2 * n + 1) (hn : 1 ≤ n) (hy : y ≠ []) :
    smoothLast c y 0 = .error .valueError := by
  have hh : y.head? = some (y.head hy) := List.head?_eq_some_head hy
  have hl : y.getLast? = some (y.getLast hy) := List.getLast?_eq_some_getLast hy
  simp only [smoothLast, padded, hh, hl, lastWindow, if_true, weightedSum]
  rw [if_neg (by simp only [List.length_nil]; omega)]

/-- C352: on a rising line coefficients that keep lines (sum one, first moment zero) give the value of the line, also where the window
reaches beyond the end. -/
theorem C352_rising_line_partial {n k N : ℕ} {c : List α} (hc : c.length = 2 * n + 1)
    (hsum : ∑ m ∈ range (2 * n + 1), c.getD m 0 = 1)
    (hmom : ∑ m ∈ range (2 * n + 1), c.getD m 0 * ((m : α) - n) = 0) (hk : 1 ≤ k) (hkN : k + n < N)
    (a b : α) (hb : 0 ≤ b) :
    smoothLast c ((List.range N).map fun i : ℕ => a + b * (i : α)) k = .ok (a + b * ((N - 1 - k : ℕ) : α)) := by
  set y := (List.range N).map fun i : ℕ => a + b * (i : α) with hy
  have hlen : y.length = N := by simp [hy]
  have hval : ∀ i < N, y.getD i 0 = a + b * (i : α) := by
    intro i hi
    rw [List.getD_eq_getElem _ _ (by omega)]
    simp [hy]
  obtain ⟨p, hp, e⟩ := smoothLast_sum hc (by omega : n < y.length) hk (by omega)
  obtain ⟨p', hp', -, hin, hout⟩ := padded_ok (n := n) (y := y) (by omega)
  rw [hp] at hp'
  cases hp'
  rw [hlen] at e hin hout
  rw [e]
  congr 1
  have hterm : ∀ m ∈ range (2 * n + 1), c.getD m 0 * p.getD (N - 1 - k + m) 0 =
      (a + b * ((N - 1 - k : ℕ) : α)) * c.getD m 0 + b * (c.getD m 0 * ((m : α) - n)) := by
    intro m hm
    rw [mem_range] at hm
    have hpv : p.getD (N - 1 - k + m) 0 = a + b * (((N - 1 - k : ℕ) : α) + (m - n)) := by
      by_cases hcase : N - 1 - k + m < n + N
      · have hj : N - 1 - k + m = n + (N - 1 - k + m - n) := by omega
        rw [hj, hin _ (by omega), hval _ (by omega)]
        congr 2
        rw [Nat.cast_sub (by omega)]
        push_cast
        ring
      · obtain ⟨j, hj⟩ : ∃ j, N - 1 - k + m = n + N - 1 + j := ⟨N - 1 - k + m - (n + N - 1), by omega⟩
        rw [hj, hout j (by omega) (by omega), hval _ (by omega), hval _ (by omega)]
        have hc1 : ((N - 1 - j : ℕ) : α) = ((N - 1 : ℕ) : α) - j := by rw [Nat.cast_sub (by omega)]
        have hc2 : ((N - 1 - k : ℕ) : α) + m = ((N - 1 : ℕ) : α) + n + j := by
          have : N - 1 - k + m = N - 1 + n + j := by omega
          exact_mod_cast this
        rw [hc1, show a + b * (((N - 1 : ℕ) : α) - j) - (a + b * ((N - 1 : ℕ) : α)) = -(b * j) by ring, abs_neg,
          abs_of_nonneg (mul_nonneg hb (Nat.cast_nonneg j))]
        linear_combination -b * hc2
    rw [hpv]
    ring
  rw [sum_congr rfl hterm, sum_add_distrib, ← mul_sum, ← mul_sum, hsum, hmom]
  ring

/-- C352: on a falling line it does not: the mean of five values of 4, 3, 2, 1, 0 about the last but one, 1, is 7/5. -/
theorem C352_falling_line_refuted :
    smoothLast [1 / 5, 1 / 5, 1 / 5, 1 / 5, (1 / 5 : ℚ)] [4, 3, 2, 1, 0] 1 = .ok (7 / 5) := by
  norm_num [smoothLast, padded, headReversed, tailReversed, lastWindow, weightedSum, List.head?, List.getLast?]

/-- The same coefficients on the rising line 0, 1, 2, 3, 4. -/
example : smoothLast [1 / 5, 1 / 5, 1 / 5, 1 / 5, (1 / 5 : ℚ)] ((List.range 5).map fun i : ℕ => 0 + 1 * (i : ℚ)) 1 = .ok 3 := by
  have h := C352_rising_line_partial (n := 2) (k := 1) (N := 5) (c := [1 / 5, 1 / 5, 1 / 5, 1 / 5, (1 / 5 : ℚ)]) rfl
    (by norm_num [sum_range_succ]) (by norm_num [sum_range_succ]) le_rfl (by norm_num) 0 1 zero_le_one
  rw [h]
  norm_num

/-- Derivative by central differences of 0, 1, 4, 9: `smooth` gives 4 at the place 2, `smooth_last` gives -4. -/
example : smoothLast [(1 / 2 : ℚ), 0, -(1 / 2)] [0, 1, 4, 9] 1 = .ok (-4) ∧ smoothAt [(1 / 2 : ℚ), 0, -(1 / 2)] [0, 1, 4, 9] 2 = 4 := by
  constructor
  · rw [C351_derivative_sign (n := 1) rfl (by norm_num) le_rfl le_rfl (by norm_num)]
    norm_num [smoothAt, sum_range_succ]
  · norm_num [smoothAt, sum_range_succ]

end Wafo.Sg
