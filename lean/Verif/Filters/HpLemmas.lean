import Verif.Filters.HpModel
import Mathlib.Algebra.Order.BigOperators.Group.Finset
import Mathlib.Algebra.BigOperators.Ring.Finset
import Mathlib.Tactic.Ring
import Mathlib.Tactic.Linarith
import Mathlib.Tactic.NormNum
import Mathlib.Tactic.FieldSimp

set_option linter.unusedSectionVars false

/-!
# `HodrickPrescott`: the matrix is `I + w D'D`
-/

namespace Wafo.Hp

open Finset

/-- The second difference of a series. -/
def d2 (y : ℕ → ℝ) (k : ℕ) : ℝ := y k - 2 * y (k + 1) + y (k + 2)

/-- The coefficient of `y i` in the second difference number `k`. -/
def dc (k i : ℕ) : ℝ :=
  (if k = i then 1 else 0) + (if k + 1 = i then -2 else 0) + (if k + 2 = i then 1 else 0)

theorem sum_dc_right (m : ℕ) (y : ℕ → ℝ) (k : ℕ) (hk : k < m) :
    ∑ j ∈ range (m + 2), dc k j * y j = d2 y k := by
  simp only [dc, add_mul, sum_add_distrib, ite_mul, zero_mul, sum_ite_eq, mem_range, d2]
  rw [if_pos (by omega), if_pos (by omega), if_pos (by omega)]
  ring

theorem sum_dc_left (m i : ℕ) (f : ℕ → ℝ) :
    ∑ k ∈ range m, dc k i * f k = (if i < m then f i else 0)
      + (if 1 ≤ i ∧ i - 1 < m then -2 * f (i - 1) else 0)
      + (if 2 ≤ i ∧ i - 2 < m then f (i - 2) else 0) := by
  simp only [dc, add_mul, sum_add_distrib, ite_mul, zero_mul, one_mul]
  congr 1
  · congr 1
    · rw [sum_ite_eq']; simp
    · rcases i with - | i
      · simp
      · have : ∀ k, (k + 1 = i + 1) ↔ k = i := by omega
        simp only [this]
        rw [sum_ite_eq']; simp
  · rcases i with - | - | i
    · simp
    · simp
    · have : ∀ k, (k + 2 = i + 2) ↔ k = i := by omega
      simp only [this]
      rw [sum_ite_eq']; simp

set_option maxHeartbeats 2000000 in
/-- The matrix is `I + w D'D`. -/
theorem matrix_entry (w : ℝ) (m : ℕ) (hm : 2 ≤ m) (i j : ℕ) (hi : i < m + 2) (hj : j < m + 2) :
    getMatrix w (m + 2) i j = (if i = j then 1 else 0) + w * ∑ k ∈ range m, dc k i * dc k j := by
  rw [sum_dc_left]
  have e1 : m + 2 - 1 = m + 1 := rfl
  have e2 : m + 2 - 2 = m := rfl
  simp only [getMatrix, setEntry, bands, dc, e1, e2]
  have hi' : i = 0 ∨ i = 1 ∨ (2 ≤ i ∧ i < m) ∨ i = m ∨ i = m + 1 := by omega
  have hj' : j + 2 = i ∨ j + 1 = i ∨ j = i ∨ j = i + 1 ∨ j = i + 2 ∨
      (j + 2 < i ∨ i + 2 < j) := by omega
  have P : ∀ {c : Prop} [Decidable c] {a b : ℝ}, c → (if c then a else b) = a := fun h => if_pos h
  have N : ∀ {c : Prop} [Decidable c] {a b : ℝ}, ¬ c → (if c then a else b) = b := fun h => if_neg h
  rcases hi' with h | h | h | h | h <;> rcases hj' with h' | h' | h' | h' | h' | h' <;>
    first
    | (exfalso; omega)
    | (simp (disch := omega) only [P, N]; ring)

theorem apply_matrix (w : ℝ) (m : ℕ) (hm : 2 ≤ m) (y : ℕ → ℝ) (i : ℕ) (hi : i < m + 2) :
    ∑ j ∈ range (m + 2), getMatrix w (m + 2) i j * y j
      = y i + w * ∑ k ∈ range m, dc k i * d2 y k := by
  have h1 : ∀ j ∈ range (m + 2), getMatrix w (m + 2) i j * y j
      = (if i = j then y j else 0) + w * ∑ k ∈ range m, dc k i * (dc k j * y j) := by
    intro j hj
    rw [matrix_entry w m hm i j hi (mem_range.1 hj), add_mul, mul_assoc, sum_mul]
    simp only [ite_mul, one_mul, zero_mul, mul_assoc]
  rw [sum_congr rfl h1, sum_add_distrib, sum_ite_eq, if_pos (mem_range.2 hi), ← mul_sum, sum_comm]
  congr 2
  refine sum_congr rfl fun k hk => ?_
  rw [← mul_sum, sum_dc_right m y k (mem_range.1 hk)]

/-- The bilinear form of the matrix. -/
theorem bilinear (w : ℝ) (m : ℕ) (hm : 2 ≤ m) (u y : ℕ → ℝ) :
    ∑ i ∈ range (m + 2), u i * ∑ j ∈ range (m + 2), getMatrix w (m + 2) i j * y j
      = ∑ i ∈ range (m + 2), u i * y i + w * ∑ k ∈ range m, d2 u k * d2 y k := by
  rw [sum_congr rfl fun i hi => by rw [apply_matrix w m hm y i (mem_range.1 hi)]]
  simp only [mul_add, sum_add_distrib]
  congr 1
  simp only [mul_sum]
  rw [sum_comm]
  refine sum_congr rfl fun k hk => ?_
  rw [← sum_dc_right m u k (mem_range.1 hk), sum_mul, mul_sum]
  exact sum_congr rfl fun i _ => by ring

end Wafo.Hp
