import Verif.Spline.Model
import Mathlib.LinearAlgebra.Matrix.ToLinearEquiv
import Mathlib.Tactic.LinearCombination
import Mathlib.Tactic.FieldSimp
import Mathlib.Tactic.Positivity
import Mathlib.Algebra.BigOperators.Field
import Mathlib.Algebra.Order.BigOperators.Ring.Finset

/-! The linear equation of the smoothing spline. -/

set_option linter.unusedSectionVars false

namespace Wafo.Spline

open Wafo Matrix Finset

variable (x y v : ℕ → ℝ) (p : ℝ) (m : ℕ) (u : Fin m → ℝ)

theorem Q_eq (k j : ℕ) : Q x k j = (if k = j then dx1 x j else 0) +
    ((if k = j + 1 then -(dx1 x j + dx1 x (j + 1)) else 0) + (if k = j + 2 then dx1 x (j + 1) else 0)) := by
  simp only [Q, spdiags, List.map_cons, List.map_nil, List.sum_cons, List.sum_nil, add_zero]
  congr 1
  · exact if_congr (by omega) rfl rfl
  · congr 1
    · exact if_congr (by omega) rfl rfl
    · exact if_congr (by omega) rfl rfl

theorem R_eq (i j : ℕ) : R x i j = (if i = j + 1 then dx x i else 0) +
    ((if i = j then 2 * (dx x i + dx x (i + 1)) else 0) + (if j = i + 1 then dx x (i + 1) else 0)) := by
  simp only [R, spdiags, List.map_cons, List.map_nil, List.sum_cons, List.sum_nil, add_zero]
  congr 1
  · by_cases h : i = j + 1
    · rw [if_pos h, if_pos (by omega), h]
    · rw [if_neg h, if_neg (by omega)]
  · congr 1
    · by_cases h : i = j
      · rw [if_pos h, if_pos (by omega), h]
      · rw [if_neg h, if_neg (by omega)]
    · by_cases h : j = i + 1
      · rw [if_pos h, if_pos (by omega), h]
      · rw [if_neg h, if_neg (by omega)]

theorem pad_zero : pad m u 0 = 0 := by simp [pad]

theorem pad_big {i : ℕ} (h : m < i) : pad m u i = 0 := by
  rw [pad, dif_neg]; omega

theorem pad_succ (j : Fin m) : pad m u (j + 1) = u j := by
  rw [pad, dif_pos ⟨by omega, by omega⟩]; rfl

theorem sum_fin (f : ℕ → ℝ → ℝ) :
    ∑ j : Fin m, f j (u j) = ∑ j ∈ range m, f j (pad m u (j + 1)) := by
  rw [Finset.sum_range fun j => f j (pad m u (j + 1))]
  exact Finset.sum_congr rfl fun j _ => by rw [pad_succ]

theorem third_zero : third x m u 0 = 0 := by simp [third]

theorem third_big {i : ℕ} (h : m + 1 < i) : third x m u i = 0 := by
  rw [third, if_neg]; omega

theorem third_succ {i : ℕ} (h : i ≤ m) : third x m u (i + 1) = (pad m u (i + 1) - pad m u i) * dx1 x i := by
  rw [third, if_pos ⟨by omega, by omega⟩]; rfl

theorem sum_Q_col (z : ℕ → ℝ) {j : ℕ} (hj : j < m) : ∑ k ∈ range (m + 2), Q x k j * z k =
    dx1 x j * z j - (dx1 x j + dx1 x (j + 1)) * z (j + 1) + dx1 x (j + 1) * z (j + 2) := by
  simp only [Q_eq, add_mul, Finset.sum_add_distrib, ite_mul, zero_mul, Finset.sum_ite_eq', mem_range]
  rw [if_pos (by omega), if_pos (by omega), if_pos (by omega)]
  ring

theorem sum_Q_row {k : ℕ} (hk : k < m + 2) : ∑ j ∈ range m, Q x k j * pad m u (j + 1) =
    third x m u (k + 1) - third x m u k := by
  simp only [Q_eq, add_mul, Finset.sum_add_distrib, ite_mul, zero_mul, Finset.sum_ite_eq, mem_range]
  have e1 : (if k < m then dx1 x k * pad m u (k + 1) else 0) = dx1 x k * pad m u (k + 1) := by
    by_cases h : k < m
    · rw [if_pos h]
    · rw [if_neg h, pad_big m u (by omega), mul_zero]
  rw [e1]
  rcases k with _ | k
  · rw [third_zero, third_succ x m u (by omega), pad_zero]
    simp; ring
  · have e2 : (∑ j ∈ range m, if k + 1 = j + 1 then -(dx1 x j + dx1 x (j + 1)) * pad m u (j + 1) else 0)
        = -(dx1 x k + dx1 x (k + 1)) * pad m u (k + 1) := by
      simp only [Nat.add_right_cancel_iff, Finset.sum_ite_eq, mem_range]
      by_cases h : k < m
      · rw [if_pos h]
      · rw [if_neg h, pad_big m u (by omega), mul_zero]
    have e3 : (∑ j ∈ range m, if k + 1 = j + 2 then dx1 x (j + 1) * pad m u (j + 1) else 0)
        = dx1 x k * pad m u k := by
      rcases k with _ | k
      · rw [pad_zero]; simp
      · simp only [Nat.reduceEqDiff, Finset.sum_ite_eq, mem_range, show ∀ j, (k + 1 + 1 = j + 2) = (k = j) by
          intro j; simp]
        by_cases h : k < m
        · rw [if_pos h]
        · rw [if_neg h, pad_big m u (by omega), mul_zero]
    rw [e2, e3, third_succ x m u (show k ≤ m by omega)]
    by_cases h : k + 1 ≤ m
    · rw [third_succ x m u h]; ring
    · rw [third_big x m u (by omega), pad_big m u (show m < k + 1 + 1 by omega), pad_big m u (show m < k + 1 by omega)]
      ring

theorem sum_R_row {i : ℕ} (_hi : i < m) : ∑ j ∈ range m, R x i j * pad m u (j + 1) =
    dx x i * pad m u i + 2 * (dx x i + dx x (i + 1)) * pad m u (i + 1) + dx x (i + 1) * pad m u (i + 2) := by
  simp only [R_eq, add_mul, Finset.sum_add_distrib, ite_mul, zero_mul, Finset.sum_ite_eq, Finset.sum_ite_eq', mem_range]
  rw [if_pos _hi]
  have e1 : (if i + 1 < m then dx x (i + 1) * pad m u (i + 1 + 1) else 0) = dx x (i + 1) * pad m u (i + 2) := by
    by_cases h : i + 1 < m
    · rw [if_pos h]
    · rw [if_neg h, pad_big m u (by omega), mul_zero]
  have e2 : (∑ j ∈ range m, if i = j + 1 then dx x i * pad m u (j + 1) else 0) = dx x i * pad m u i := by
    rcases i with _ | i
    · rw [pad_zero]; simp
    · simp only [Nat.add_right_cancel_iff, Finset.sum_ite_eq, mem_range]
      rw [if_pos (by omega)]
  rw [e1, e2]; ring

/-- second divided differences -/
noncomputable def ddiff (z : ℕ → ℝ) (j : ℕ) : ℝ := (z (j + 2) - z (j + 1)) * dx1 x (j + 1) - (z (j + 1) - z j) * dx1 x j

theorem QQ_mul (j : Fin m) : (QQ x v p m *ᵥ u) j = 6 * (1 - p) * ddiff x (Qu x v m u) j +
    p * (dx x j * pad m u j + 2 * (dx x j + dx x (j + 1)) * pad m u (j + 1) + dx x (j + 1) * pad m u (j + 2)) := by
  have hj := j.2
  have e1 : ∑ i ∈ range m, QDQ x v m j i * pad m u (i + 1) = ddiff x (Qu x v m u) j := by
    have : ∑ i ∈ range m, QDQ x v m j i * pad m u (i + 1) = ∑ k ∈ range (m + 2), Q x k j * Qu x v m u k := by
      simp only [QDQ, Finset.sum_mul]
      rw [Finset.sum_comm]
      refine Finset.sum_congr rfl fun k hk => ?_
      rw [Qu, ← sum_Q_row x m u (mem_range.1 hk), Finset.mul_sum, Finset.mul_sum]
      exact Finset.sum_congr rfl fun i _ => by ring
    rw [this, sum_Q_col x m _ hj, ddiff]; ring
  simp only [mulVec, dotProduct, QQ]
  rw [sum_fin m u fun i t => (6 * (1 - p) * QDQ x v m j i + p * R x j i) * t, ← e1, ← sum_R_row x m u hj, Finset.mul_sum,
    Finset.mul_sum, ← Finset.sum_add_distrib]
  exact Finset.sum_congr rfl fun i _ => by ring

theorem QQ_symm : (QQ x v p m)ᵀ = QQ x v p m := by
  ext i j
  rw [transpose_apply, QQ, QQ]
  congr 1
  · congr 1
    exact Finset.sum_congr rfl fun k _ => by ring
  · congr 1
    rw [R_eq, R_eq]
    rcases lt_trichotomy (i : ℕ) j with h | h | h
    · by_cases h' : (j : ℕ) = i + 1
      · simp [h', show ¬ ((i : ℕ) = i + 1 + 1) by omega]
      · rw [if_neg h', if_neg (by omega), if_neg (by omega), if_neg (by omega), if_neg (by omega), if_neg (by omega)]
    · simp [h]
    · by_cases h' : (i : ℕ) = j + 1
      · simp [h', show ¬ ((j : ℕ) = j + 1 + 1) by omega]
      · rw [if_neg h', if_neg (by omega), if_neg (by omega), if_neg (by omega), if_neg (by omega), if_neg (by omega)]

/-- summation by parts for the second differences -/
theorem sum_ddiff (z : ℕ → ℝ) : ∑ j ∈ range m, pad m u (j + 1) * ddiff x z j =
    ∑ k ∈ range (m + 2), z k * (third x m u (k + 1) - third x m u k) := by
  have : ∀ k ∈ range (m + 2), z k * (third x m u (k + 1) - third x m u k) =
      ∑ j ∈ range m, pad m u (j + 1) * (Q x k j * z k) := fun k hk => by
    rw [← sum_Q_row x m u (mem_range.1 hk), Finset.mul_sum]
    exact Finset.sum_congr rfl fun j _ => by ring
  rw [Finset.sum_congr rfl this, Finset.sum_comm]
  refine Finset.sum_congr rfl fun j hj => ?_
  rw [← Finset.mul_sum, sum_Q_col x m z (mem_range.1 hj), ddiff]; ring

theorem sum_pad : ∑ j ∈ range m, pad m u (j + 1) *
      (dx x j * pad m u j + 2 * (dx x j + dx x (j + 1)) * pad m u (j + 1) + dx x (j + 1) * pad m u (j + 2)) =
    ∑ i ∈ range (m + 1), dx x i * (2 * pad m u i ^ 2 + 2 * (pad m u i * pad m u (i + 1)) + 2 * pad m u (i + 1) ^ 2) := by
  have e1 : ∑ i ∈ range (m + 1), dx x i * (pad m u i * pad m u (i + 1) + 2 * pad m u (i + 1) ^ 2) =
      ∑ j ∈ range m, dx x j * (pad m u j * pad m u (j + 1) + 2 * pad m u (j + 1) ^ 2) := by
    rw [Finset.sum_range_succ, pad_big m u (show m < m + 1 by omega)]; simp
  have e2 : ∑ i ∈ range (m + 1), dx x i * (pad m u i * pad m u (i + 1) + 2 * pad m u i ^ 2) =
      ∑ j ∈ range m, dx x (j + 1) * (pad m u (j + 1) * pad m u (j + 2) + 2 * pad m u (j + 1) ^ 2) := by
    rw [Finset.sum_range_succ', pad_zero]; simp
  have e3 : ∀ i ∈ range (m + 1), dx x i * (2 * pad m u i ^ 2 + 2 * (pad m u i * pad m u (i + 1)) + 2 * pad m u (i + 1) ^ 2)
      = dx x i * (pad m u i * pad m u (i + 1) + 2 * pad m u (i + 1) ^ 2) +
        dx x i * (pad m u i * pad m u (i + 1) + 2 * pad m u i ^ 2) := fun i _ => by ring
  rw [Finset.sum_congr rfl e3, Finset.sum_add_distrib, e1, e2, ← Finset.sum_add_distrib]
  exact Finset.sum_congr rfl fun j _ => by ring

variable {x v p}

theorem QQ_inj (hx : ∀ i, i ≤ m → 0 < dx x i) (hv : ∀ i, i < m + 2 → 0 < v i) (h0 : 0 ≤ p) (h1 : p ≤ 1)
    (hu : QQ x v p m *ᵥ u = 0) : u = 0 := by
  have hE : 6 * (1 - p) * (∑ k ∈ range (m + 2), v k * (third x m u (k + 1) - third x m u k) ^ 2) +
      p * (∑ i ∈ range (m + 1), dx x i * (2 * pad m u i ^ 2 + 2 * (pad m u i * pad m u (i + 1)) + 2 * pad m u (i + 1) ^ 2))
      = 0 := by
    have e : ∑ j : Fin m, u j * (QQ x v p m *ᵥ u) j = 0 := by rw [hu]; simp
    simp only [QQ_mul] at e
    rw [sum_fin m u fun j t => t * (6 * (1 - p) * ddiff x (Qu x v m u) j +
      p * (dx x j * pad m u j + 2 * (dx x j + dx x (j + 1)) * pad m u (j + 1) + dx x (j + 1) * pad m u (j + 2)))] at e
    rw [← sum_pad, ← e, show (∑ k ∈ range (m + 2), v k * (third x m u (k + 1) - third x m u k) ^ 2) =
      ∑ k ∈ range (m + 2), Qu x v m u k * (third x m u (k + 1) - third x m u k) from
        Finset.sum_congr rfl fun k _ => by rw [Qu]; ring, ← sum_ddiff, Finset.mul_sum, Finset.mul_sum,
      ← Finset.sum_add_distrib]
    exact Finset.sum_congr rfl fun j _ => by ring
  have n1 : ∀ k ∈ range (m + 2), 0 ≤ v k * (third x m u (k + 1) - third x m u k) ^ 2 := fun k hk =>
    mul_nonneg (hv k (mem_range.1 hk)).le (sq_nonneg _)
  have n2 : ∀ i ∈ range (m + 1), 0 ≤ dx x i * (2 * pad m u i ^ 2 + 2 * (pad m u i * pad m u (i + 1)) +
      2 * pad m u (i + 1) ^ 2) := fun i hi =>
    mul_nonneg (hx i (by have := mem_range.1 hi; omega)).le
      (by nlinarith [sq_nonneg (pad m u i + pad m u (i + 1)), sq_nonneg (pad m u i), sq_nonneg (pad m u (i + 1))])
  have s1 := Finset.sum_nonneg n1
  have s2 := Finset.sum_nonneg n2
  suffices h : ∀ i, i ≤ m → pad m u i = 0 by
    funext j
    have := pad_succ m u j
    rw [← this, h _ (by omega)]; rfl
  rcases h0.eq_or_lt with h | h
  · subst h
    have z : ∑ k ∈ range (m + 2), v k * (third x m u (k + 1) - third x m u k) ^ 2 = 0 := by linarith
    rw [Finset.sum_eq_zero_iff_of_nonneg n1] at z
    have zz : ∀ k, k < m + 2 → third x m u (k + 1) = third x m u k := fun k hk => by
      have := z k (mem_range.2 hk)
      rcases mul_eq_zero.1 this with h | h
      · exact absurd h (hv k hk).ne'
      · have := pow_eq_zero_iff (two_ne_zero) |>.1 h
        linarith
    have z3 : ∀ k, k < m + 2 → third x m u k = 0 := by
      intro k
      induction k with
      | zero => intro _; exact third_zero x m u
      | succ k ih => intro hk; rw [zz k (by omega), ih (by omega)]
    intro i
    induction i with
    | zero => intro _; exact pad_zero m u
    | succ i ih =>
      intro hi
      have := z3 (i + 1) (by omega)
      rw [third_succ x m u (by omega), ih (by omega)] at this
      rcases mul_eq_zero.1 this with h | h
      · linarith
      · rw [dx1] at h
        exact absurd h (by have := hx i (by omega); positivity)
  · have z : ∑ i ∈ range (m + 1), dx x i * (2 * pad m u i ^ 2 + 2 * (pad m u i * pad m u (i + 1)) +
        2 * pad m u (i + 1) ^ 2) = 0 := by
      have a1 : 0 ≤ 6 * (1 - p) * (∑ k ∈ range (m + 2), v k * (third x m u (k + 1) - third x m u k) ^ 2) :=
        mul_nonneg (by linarith) s1
      have a2 := mul_nonneg h.le s2
      rcases mul_eq_zero.1 (show p * (∑ i ∈ range (m + 1), dx x i * (2 * pad m u i ^ 2 +
        2 * (pad m u i * pad m u (i + 1)) + 2 * pad m u (i + 1) ^ 2)) = 0 by linarith) with q | q
      · exact absurd q h.ne'
      · exact q
    rw [Finset.sum_eq_zero_iff_of_nonneg n2] at z
    intro i hi
    rcases mul_eq_zero.1 (z i (mem_range.2 (by omega))) with q | q
    · exact absurd q (hx i hi).ne'
    · nlinarith [sq_nonneg (pad m u i + pad m u (i + 1)), sq_nonneg (pad m u i), sq_nonneg (pad m u (i + 1))]

theorem computeU_spec (hx : ∀ i, i ≤ m → 0 < dx x i) (hv : ∀ i, i < m + 2 → 0 < v i) (h0 : 0 ≤ p) (h1 : p ≤ 1) :
    ∃ u, computeU x y v p m = .ok u ∧ ∀ j : Fin m, (QQ x v p m *ᵥ u) j = ddiff x y j := by
  have hA : QQ x v p m + (QQ x v p m)ᵀ = (2 : ℝ) • QQ x v p m := by rw [QQ_symm, two_smul]
  have hd : (QQ x v p m + (QQ x v p m)ᵀ).det ≠ 0 := by
    intro h
    obtain ⟨z, hz, hz2⟩ := exists_mulVec_eq_zero_iff.2 h
    rw [hA, smul_mulVec] at hz2
    refine hz (QQ_inj m z hx hv h0 h1 ?_)
    rcases smul_eq_zero.1 hz2 with h | h
    · norm_num at h
    · exact h
  refine ⟨_, by rw [computeU, if_neg hd], fun j => ?_⟩
  set A := QQ x v p m + (QQ x v p m)ᵀ with hA'
  set dd : Fin m → ℝ := fun j => dydx x y (j + 1) - dydx x y j with hdd
  have e : QQ x v p m *ᵥ ((2 : ℕ) • (A⁻¹ *ᵥ dd)) = dd := by
    have : QQ x v p m *ᵥ ((2 : ℕ) • (A⁻¹ *ᵥ dd)) = A *ᵥ (A⁻¹ *ᵥ dd) := by
      generalize A⁻¹ *ᵥ dd = z
      rw [hA, smul_mulVec, two_smul ℝ, two_smul ℕ, mulVec_add]
    rw [this, mulVec_mulVec, mul_nonsing_inv _ (isUnit_iff_ne_zero.2 hd), one_mulVec]
  rw [e, hdd, ddiff]
  simp only [dydx, dx1]
  ring

end Wafo.Spline
