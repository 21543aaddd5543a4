import Verif.Quad.JacobiInt

/-! Jacobi polynomials as computed by `_j_roots_newton`, and the Gauss-Jacobi rule. -/

set_option linter.unusedSectionVars false

namespace Wafo.Quad

open Polynomial Finset Real MeasureTheory

variable {α β : ℝ}

/-- The polynomials of the recurrence in `_j_roots_newton`. -/
noncomputable def jacPoly (α β : ℝ) : ℕ → ℝ[X]
  | 0 => 1
  | 1 => C (1 / 2) * (C (α - β) + C (2 + (α + β)) * X)
  | k + 2 =>
    C (1 / (2 * ((k : ℝ) + 2) * (k + 2 + (α + β)) * (2 + (α + β) + 2 * k)))
      * (C (3 + (α + β) + 2 * k) * (C (α ^ 2 - β ^ 2)
          + C ((4 + (α + β) + 2 * k) * (2 + (α + β) + 2 * k)) * X) * jacPoly α β (k + 1)
        - C (2 * ((k : ℝ) + 1 + α) * (k + 1 + β) * (4 + (α + β) + 2 * k)) * jacPoly α β k)

section
variable (hα : -1 < α) (hβ : -1 < β)
include hα hβ

theorem jac_pos (k : ℕ) : 0 < 2 + (α + β) + 2 * (k : ℝ) ∧ 0 < (k : ℝ) + 2 + (α + β) := by
  have : (0 : ℝ) ≤ k := by positivity
  constructor <;> linarith

theorem jacPoly_rec (k : ℕ) :
    2 * (C (k : ℝ) + 2) * (C (k : ℝ) + 2 + C α + C β) * (2 * C (k : ℝ) + 2 + C α + C β)
        * jacPoly α β (k + 2)
      = (2 * C (k : ℝ) + 3 + C α + C β) * (C α ^ 2 - C β ^ 2
          + (2 * C (k : ℝ) + 4 + C α + C β) * (2 * C (k : ℝ) + 2 + C α + C β) * X)
          * jacPoly α β (k + 1)
        - 2 * (C (k : ℝ) + 1 + C α) * (C (k : ℝ) + 1 + C β) * (2 * C (k : ℝ) + 4 + C α + C β)
          * jacPoly α β k := by
  obtain ⟨h1, h2⟩ := jac_pos hα hβ k
  have hk : (k : ℝ) + 2 ≠ 0 := by positivity
  have e1 : (2 * (C (k : ℝ) + 2) * (C (k : ℝ) + 2 + C α + C β) * (2 * C (k : ℝ) + 2 + C α + C β) : ℝ[X])
      = C (2 * ((k : ℝ) + 2) * (k + 2 + (α + β)) * (2 + (α + β) + 2 * k)) := by
    simp only [C_mul, C_add, map_ofNat]; ring
  have e2 : (C (1 / (2 * ((k : ℝ) + 2) * (k + 2 + (α + β)) * (2 + (α + β) + 2 * k))) : ℝ[X])
      * C (2 * ((k : ℝ) + 2) * (k + 2 + (α + β)) * (2 + (α + β) + 2 * k)) = 1 := by
    rw [← C_mul, ← C_1]; congr 1
    have := h1.ne'
    have := h2.ne'
    field_simp
  rw [e1, jacPoly, ← mul_assoc, mul_comm (C (2 * _ * _ * _)), e2, one_mul]
  simp only [C_mul, C_add, C_sub, C_pow, map_ofNat, map_one]
  ring

theorem jacPoly_rel (k : ℕ) :
    ((2 * C (k : ℝ) + 2 + C α + C β) * ((1 - X ^ 2) * derivative (jacPoly α β (k + 1)))
      = (C (k : ℝ) + 1) * (C α - C β - (2 * C (k : ℝ) + 2 + C α + C β) * X) * jacPoly α β (k + 1)
        + 2 * (C (k : ℝ) + 1 + C α) * (C (k : ℝ) + 1 + C β) * jacPoly α β k) ∧
    ((1 - X ^ 2) * derivative (derivative (jacPoly α β (k + 1)))
      + (C β - C α - (C α + C β + 2) * X) * derivative (jacPoly α β (k + 1))
      + (C (k : ℝ) + 1) * (C (k : ℝ) + 2 + C α + C β) * jacPoly α β (k + 1) = 0) := by
  have hh : (C (1 / 2 : ℝ) : ℝ[X]) * 2 = 1 := by
    rw [show (2 : ℝ[X]) = C 2 from (map_ofNat C 2).symm, ← C_mul, ← C_1]; norm_num
  induction k with
  | zero =>
    constructor
    · simp only [jacPoly, derivative_mul, derivative_add, derivative_C, derivative_X, C_add, C_sub,
        map_ofNat, Nat.cast_zero, C_0, derivative_sub, derivative_ofNat]
      linear_combination ((C α + 1) * (C β + 1) * 2) * hh
    · simp only [jacPoly, derivative_mul, derivative_add, derivative_C, derivative_X, C_add, C_sub,
        map_ofNat, Nat.cast_zero, C_0, derivative_sub, derivative_ofNat, derivative_one, derivative_zero]
      ring
  | succ k ih =>
    obtain ⟨hL, hO⟩ := ih
    obtain ⟨p1, p2⟩ := jac_pos hα hβ k
    have hR := jacPoly_rec hα hβ k
    have hk1 : (C (((k + 1 : ℕ)) : ℝ) : ℝ[X]) = C (k : ℝ) + 1 := by push_cast; rw [C_add, C_1]
    rw [hk1, show k + 1 + 1 = k + 2 from rfl]
    set K : ℝ[X] := C (k : ℝ) with hK
    set A : ℝ[X] := C α with hA
    set B : ℝ[X] := C β with hB
    set P := jacPoly α β (k + 1) with hP
    set Q := jacPoly α β (k + 2) with hQ
    set P0 := jacPoly α β k with hP0
    have nT : (2 * K + 2 + A + B : ℝ[X]) ≠ 0 := by
      have : (2 * K + 2 + A + B : ℝ[X]) = C (2 + (α + β) + 2 * (k : ℝ)) := by
        simp only [C_mul, C_add, map_ofNat]; ring
      rw [this, Ne, C_eq_zero]; exact p1.ne'
    have nm : (K + 2 + A + B : ℝ[X]) ≠ 0 := by
      have : (K + 2 + A + B : ℝ[X]) = C ((k : ℝ) + 2 + (α + β)) := by
        simp only [C_add, map_ofNat]; ring
      rw [this, Ne, C_eq_zero]; exact p2.ne'
    have nk : (K + 2 : ℝ[X]) ≠ 0 := by
      have : (K + 2 : ℝ[X]) = C ((k : ℝ) + 2) := by simp only [C_add, map_ofNat]; rfl
      rw [this, Ne, C_eq_zero]; positivity
    have n2 : (2 : ℝ[X]) ≠ 0 := two_ne_zero
    have hU : (2 * K + 4 + A + B) * ((1 - X ^ 2) * derivative P)
        = (K + 2 + A + B) * (A - B + (2 * K + 4 + A + B) * X) * P
          - 2 * (K + 2) * (K + 2 + A + B) * Q := by
      refine mul_left_cancel₀ nT ?_
      linear_combination (2 * K + 4 + A + B) * hL + hR
    have hdA : derivative A = 0 := derivative_C
    have hdB : derivative B = 0 := derivative_C
    have hdK : derivative K = 0 := derivative_C
    have hd := congrArg derivative hU
    simp only [derivative_mul, derivative_add, derivative_sub, derivative_one, derivative_X_pow,
      derivative_X, derivative_ofNat, hdA, hdB, hdK] at hd
    have hstar : 2 * (K + 2 + A + B) * derivative Q
        = (K + 2 + A + B) * (2 * K + 4 + A + B) * P
          + ((2 * K + 4 + A + B) * X - (A - B)) * derivative P := by
      refine mul_left_cancel₀ nk ?_
      have hd' : (2 * K + 4 + A + B) * (-(2 * X) * derivative P + (1 - X ^ 2) * derivative (derivative P))
          = (K + 2 + A + B) * (2 * K + 4 + A + B) * P
            + (K + 2 + A + B) * (A - B + (2 * K + 4 + A + B) * X) * derivative P
            - 2 * (K + 2) * (K + 2 + A + B) * derivative Q := by
        simp [map_ofNat] at hd
        linear_combination hd
      linear_combination hd' - (2 * K + 4 + A + B) * hO
    have hds := congrArg derivative hstar
    simp only [derivative_mul, derivative_add, derivative_sub, derivative_X, derivative_ofNat,
      hdA, hdB, hdK] at hds
    have hds' : 2 * (K + 2 + A + B) * derivative (derivative Q)
        = (K + 2 + A + B) * (2 * K + 4 + A + B) * derivative P
          + (2 * K + 4 + A + B) * derivative P
          + ((2 * K + 4 + A + B) * X - (A - B)) * derivative (derivative P) := by
      linear_combination hds
    constructor
    · refine mul_left_cancel₀ (mul_ne_zero n2 nm) ?_
      linear_combination (2 * K + 4 + A + B) * (1 - X ^ 2) * hstar
        - (A - B - (2 * K + 4 + A + B) * X) * hU
    · refine mul_left_cancel₀ (mul_ne_zero n2 nm) ?_
      linear_combination (1 - X ^ 2) * hds' + (B - A - (A + B + 2) * X) * hstar
        + (K + 3 + A + B) * hU + ((2 * K + 4 + A + B) * X - (A - B)) * hO

theorem jacPoly_coeff (k : ℕ) : (jacPoly α β k).natDegree ≤ k ∧ 0 < (jacPoly α β k).coeff k := by
  induction k using Nat.strong_induction_on with
  | _ k ih =>
    match k with
    | 0 => simp [jacPoly]
    | 1 =>
      constructor
      · rw [jacPoly]
        refine le_trans (natDegree_C_mul_le _ _) (le_trans (natDegree_add_le _ _) (max_le ?_ ?_))
        · rw [natDegree_C]; omega
        · exact le_trans (natDegree_C_mul_le _ _) natDegree_X_le
      · rw [jacPoly, coeff_C_mul, coeff_add, coeff_C, coeff_C_mul, coeff_X_one]
        simp only [one_ne_zero, if_false, zero_add, mul_one]
        linarith
    | k + 2 =>
      obtain ⟨d1, c1⟩ := ih (k + 1) (by omega)
      obtain ⟨d0, c0⟩ := ih k (by omega)
      obtain ⟨p1, p2⟩ := jac_pos hα hβ k
      constructor
      · rw [jacPoly]
        refine le_trans (natDegree_C_mul_le _ _) (le_trans (natDegree_sub_le _ _) (max_le ?_ ?_))
        · rw [mul_assoc]
          refine le_trans (natDegree_C_mul_le _ _) (le_trans natDegree_mul_le ?_)
          have : (C (α ^ 2 - β ^ 2)
              + C ((4 + (α + β) + 2 * (k : ℝ)) * (2 + (α + β) + 2 * k)) * X : ℝ[X]).natDegree ≤ 1 := by
            refine le_trans (natDegree_add_le _ _) (max_le ?_ ?_)
            · rw [natDegree_C]; omega
            · exact le_trans (natDegree_C_mul_le _ _) natDegree_X_le
          omega
        · exact le_trans (natDegree_C_mul_le _ _) (by omega)
      · rw [jacPoly, coeff_C_mul, coeff_sub, mul_assoc (C (3 + (α + β) + 2 * (k : ℝ))),
          coeff_C_mul, coeff_C_mul, add_mul (C (α ^ 2 - β ^ 2)), coeff_add,
          coeff_C_mul, mul_assoc (C _) X, coeff_C_mul, coeff_X_mul,
          coeff_eq_zero_of_natDegree_lt (by omega : (jacPoly α β k).natDegree < k + 2),
          coeff_eq_zero_of_natDegree_lt (by omega : (jacPoly α β (k + 1)).natDegree < k + 2)]
        simp only [mul_zero, sub_zero, zero_add]
        have q1 : 0 < 3 + (α + β) + 2 * (k : ℝ) := by linarith
        have q2 : 0 < 4 + (α + β) + 2 * (k : ℝ) := by linarith
        positivity

theorem jacPoly_natDegree (k : ℕ) : (jacPoly α β k).natDegree = k := by
  obtain ⟨h1, h2⟩ := jacPoly_coeff hα hβ k
  exact le_antisymm h1 (le_natDegree_of_ne_zero h2.ne')

theorem jacPoly_ne_zero (k : ℕ) : jacPoly α β k ≠ 0 := by
  intro h
  have := (jacPoly_coeff hα hβ k).2
  rw [h] at this; simp at this

end

variable (hα : -1 < α) (hβ : -1 < β)

/-- The differential operator of the Jacobi equation. -/
noncomputable def jacD (α β : ℝ) (f : ℝ[X]) : ℝ[X] :=
  (1 - X ^ 2) * derivative (derivative f) + (C (β - α) - C (α + β + 2) * X) * derivative f

theorem jacD_sym (f g : ℝ[X]) :
    jacLin α β hα hβ (jacD α β f * g) = -jacLin α β hα hβ ((1 - X ^ 2) * (derivative f * derivative g)) := by
  have h := jacLin_parts hα hβ (derivative f * g)
  rw [derivative_mul] at h
  have e1 : (1 - X ^ 2) * (derivative (derivative f) * g + derivative f * derivative g)
      = (1 - X ^ 2) * derivative (derivative f) * g + (1 - X ^ 2) * (derivative f * derivative g) := by
    ring
  have e2 : jacD α β f * g = (1 - X ^ 2) * derivative (derivative f) * g
      - (C (α - β) + C (α + β + 2) * X) * (derivative f * g) := by
    rw [jacD, show (β - α) = -(α - β) by ring, C_neg]; ring
  rw [e1, map_add] at h
  rw [e2, map_sub]
  linarith

theorem jacD_comm (f g : ℝ[X]) :
    jacLin α β hα hβ (jacD α β f * g) = jacLin α β hα hβ (f * jacD α β g) := by
  rw [jacD_sym, mul_comm f, jacD_sym, mul_comm (derivative f)]

include hα hβ in
theorem jacD_poly (n : ℕ) :
    jacD α β (jacPoly α β n) = C (-((n : ℝ) * (n + 1 + (α + β)))) * jacPoly α β n := by
  rcases n with _ | k
  · simp [jacD, jacPoly]
  · have h := (jacPoly_rel hα hβ k).2
    have e1 : (C (β - α) - C (α + β + 2) * X : ℝ[X]) = C β - C α - (C α + C β + 2) * X := by
      simp only [C_sub, C_add, map_ofNat]
    have e2 : (C (-(((k + 1 : ℕ) : ℝ) * (((k + 1 : ℕ) : ℝ) + 1 + (α + β)))) : ℝ[X])
        = -((C (k : ℝ) + 1) * (C (k : ℝ) + 2 + C α + C β)) := by
      push_cast
      simp only [C_neg, C_mul, C_add, C_1]; ring
    rw [jacD, e1, e2]
    linear_combination h

theorem jacPoly_orth_step (n j : ℕ) (q : ℝ[X]) (hj : j < n)
    (hq : jacD α β (X ^ j) = C (-((j : ℝ) * (j + 1 + (α + β)))) * X ^ j + q)
    (h0 : jacLin α β hα hβ (jacPoly α β n * q) = 0) :
    jacLin α β hα hβ (jacPoly α β n * X ^ j) = 0 := by
  have h := jacD_comm hα hβ (jacPoly α β n) (X ^ j)
  rw [jacD_poly hα hβ n, hq, mul_add (jacPoly α β n), LinearMap.map_add, h0, add_zero,
    mul_assoc (C _) (jacPoly α β n), mul_left_comm (jacPoly α β n),
    ← smul_eq_C_mul, ← smul_eq_C_mul, map_smul, map_smul, smul_eq_mul, smul_eq_mul] at h
  have hjr : (0 : ℝ) ≤ j := by positivity
  have hlt : (j : ℝ) + 1 ≤ n := by exact_mod_cast hj
  have hne : ((n : ℝ) - j) * (n + j + 1 + (α + β)) ≠ 0 := by
    refine mul_ne_zero (by intro h; linarith) (by intro h; linarith)
  refine (mul_eq_zero.1 (?_ : ((n : ℝ) - j) * (n + j + 1 + (α + β))
    * jacLin α β hα hβ (jacPoly α β n * X ^ j) = 0)).resolve_left hne
  linear_combination -h

theorem jacPoly_orth_mono (n : ℕ) : ∀ j < n, jacLin α β hα hβ (jacPoly α β n * X ^ j) = 0 := by
  intro j
  induction j using Nat.strong_induction_on with
  | _ j ih =>
    intro hj
    match j with
    | 0 => exact jacPoly_orth_step hα hβ n 0 0 hj (by simp [jacD]) (by simp)
    | 1 =>
      refine jacPoly_orth_step hα hβ n 1 (C (β - α)) hj ?_ ?_
      · simp only [jacD, pow_one, derivative_X, derivative_one, mul_zero, zero_add, mul_one,
          Nat.cast_one, one_mul]
        rw [show (1 : ℝ) + 1 + (α + β) = α + β + 2 by ring, C_neg]; ring
      · have := ih 0 (by omega) (by omega)
        rw [pow_zero, mul_one] at this
        rw [mul_comm, ← smul_eq_C_mul, map_smul, this, smul_zero]
    | j + 2 =>
      refine jacPoly_orth_step hα hβ n (j + 2)
        (C (((j : ℝ) + 2) * (j + 1)) * X ^ j + C (((j : ℝ) + 2) * (β - α)) * X ^ (j + 1)) hj ?_ ?_
      · rw [jacD, derivative_X_pow, derivative_C_mul, derivative_X_pow]
        have h1 : j + 2 - 1 = j + 1 := by omega
        have h2 : j + 1 - 1 = j := by omega
        rw [h1, h2]
        push_cast
        simp only [C_mul, C_add, C_sub, C_neg, map_ofNat, C_1]
        ring
      · have i0 := ih j (by omega) (by omega)
        have i1 := ih (j + 1) (by omega) (by omega)
        rw [mul_add, mul_left_comm, mul_left_comm (jacPoly α β n), ← smul_eq_C_mul, ← smul_eq_C_mul,
          LinearMap.map_add, map_smul, map_smul, i0, i1, smul_zero, smul_zero, add_zero]

theorem jacPoly_orth (n : ℕ) (q : ℝ[X]) (hq : q.degree < (n : ℕ)) :
    jacLin α β hα hβ (jacPoly α β n * q) = 0 :=
  orth_of_monomials _ _ n (jacPoly_orth_mono hα hβ n) q hq

theorem jacPoly_orth_ne (m n : ℕ) (h : m < n) :
    jacLin α β hα hβ (jacPoly α β n * jacPoly α β m) = 0 :=
  jacPoly_orth hα hβ n _ (degree_lt_of_natDegree_lt _ _ (by rw [jacPoly_natDegree hα hβ]; exact h))

/-- The squared norm. -/
noncomputable def jacNorm (n : ℕ) : ℝ := jacLin α β hα hβ (jacPoly α β n * jacPoly α β n)

theorem jacLin_C_mul (c : ℝ) (P : ℝ[X]) : jacLin α β hα hβ (C c * P) = c * jacLin α β hα hβ P := by
  rw [← smul_eq_C_mul, map_smul, smul_eq_mul]

theorem jacNorm_rec (k : ℕ) :
    (2 * (k : ℝ) + 5 + (α + β)) * (((k : ℝ) + 2) * (k + 2 + (α + β))) * jacNorm hα hβ (k + 2)
      = (2 * (k : ℝ) + 3 + (α + β)) * (((k : ℝ) + 2 + α) * (k + 2 + β)) * jacNorm hα hβ (k + 1) := by
  obtain ⟨p1, p2⟩ := jac_pos hα hβ k
  obtain ⟨p3, p4⟩ := jac_pos hα hβ (k + 1)
  push_cast at p3 p4
  set L := jacLin α β hα hβ with hL
  set m := L (X * (jacPoly α β (k + 1) * jacPoly α β (k + 2))) with hm
  have r0 := jacPoly_rec hα hβ k
  have r1 := jacPoly_rec hα hβ (k + 1)
  have o1 := jacPoly_orth_ne hα hβ (k + 1) (k + 2) (by omega)
  have o2 := jacPoly_orth_ne hα hβ k (k + 2) (by omega)
  have o3 := jacPoly_orth_ne hα hβ (k + 1) (k + 3) (by omega)
  rw [← hL] at o1 o2 o3
  have a1 : 2 * ((k : ℝ) + 2) * (k + 2 + α + β) * (2 * k + 2 + α + β) * jacNorm hα hβ (k + 2)
      = (2 * k + 3 + α + β) * ((2 * k + 4 + α + β) * (2 * k + 2 + α + β)) * m := by
    have e : C (2 * ((k : ℝ) + 2) * (k + 2 + α + β) * (2 * k + 2 + α + β))
          * (jacPoly α β (k + 2) * jacPoly α β (k + 2))
        = C ((2 * (k : ℝ) + 3 + α + β) * (α ^ 2 - β ^ 2)) * (jacPoly α β (k + 2) * jacPoly α β (k + 1))
          + C ((2 * (k : ℝ) + 3 + α + β) * ((2 * k + 4 + α + β) * (2 * k + 2 + α + β)))
            * (X * (jacPoly α β (k + 1) * jacPoly α β (k + 2)))
          - C (2 * ((k : ℝ) + 1 + α) * (k + 1 + β) * (2 * k + 4 + α + β))
            * (jacPoly α β (k + 2) * jacPoly α β k) := by
      simp only [C_mul, C_add, C_sub, C_pow, map_ofNat, C_1]
      linear_combination jacPoly α β (k + 2) * r0
    have h := congrArg L e
    rw [LinearMap.map_sub, LinearMap.map_add, jacLin_C_mul, jacLin_C_mul, jacLin_C_mul, jacLin_C_mul,
      o1, o2, mul_zero, mul_zero, zero_add, sub_zero] at h
    exact h
  have a2 : 0 = (2 * (k : ℝ) + 5 + α + β) * ((2 * k + 6 + α + β) * (2 * k + 4 + α + β)) * m
      - 2 * ((k : ℝ) + 2 + α) * (k + 2 + β) * (2 * k + 6 + α + β) * jacNorm hα hβ (k + 1) := by
    have hk1 : (C (((k + 1 : ℕ)) : ℝ) : ℝ[X]) = C (k : ℝ) + 1 := by push_cast; rw [C_add, C_1]
    rw [hk1] at r1
    have e : C (2 * ((k : ℝ) + 3) * (k + 3 + α + β) * (2 * k + 4 + α + β))
          * (jacPoly α β (k + 3) * jacPoly α β (k + 1))
        = C ((2 * (k : ℝ) + 5 + α + β) * (α ^ 2 - β ^ 2)) * (jacPoly α β (k + 2) * jacPoly α β (k + 1))
          + C ((2 * (k : ℝ) + 5 + α + β) * ((2 * k + 6 + α + β) * (2 * k + 4 + α + β)))
            * (X * (jacPoly α β (k + 1) * jacPoly α β (k + 2)))
          - C (2 * ((k : ℝ) + 2 + α) * (k + 2 + β) * (2 * k + 6 + α + β))
            * (jacPoly α β (k + 1) * jacPoly α β (k + 1)) := by
      simp only [C_mul, C_add, C_sub, C_pow, map_ofNat]
      linear_combination jacPoly α β (k + 1) * r1
    have h := congrArg L e
    rw [LinearMap.map_sub, LinearMap.map_add, jacLin_C_mul, jacLin_C_mul, jacLin_C_mul, jacLin_C_mul,
      o1, o3, mul_zero, mul_zero, zero_add] at h
    exact h
  have q1 : (2 * (k : ℝ) + 2 + α + β) ≠ 0 := by intro h; linarith
  have q2 : (2 * (k : ℝ) + 6 + α + β) ≠ 0 := by intro h; linarith
  have b1 : 2 * (((k : ℝ) + 2) * (k + 2 + (α + β))) * jacNorm hα hβ (k + 2)
      = (2 * k + 3 + (α + β)) * (2 * k + 4 + α + β) * m := by
    refine mul_left_cancel₀ q1 ?_
    linear_combination a1
  have b2 : (2 * (k : ℝ) + 5 + (α + β)) * (2 * k + 4 + α + β) * m
      = 2 * (((k : ℝ) + 2 + α) * (k + 2 + β)) * jacNorm hα hβ (k + 1) := by
    refine mul_left_cancel₀ q2 ?_
    linear_combination -a2
  linear_combination (1 / 2) * (2 * (k : ℝ) + 5 + (α + β)) * b1
    + (1 / 2) * (2 * k + 3 + (α + β)) * b2

theorem jacNorm_one : (3 + (α + β)) * jacNorm hα hβ 1
    = 2 ^ (α + β + 1) * (Gamma (α + 2) * Gamma (β + 2) / Gamma (α + β + 2)) := by
  have hs : (0 : ℝ) < α + β + 2 := by linarith
  have hparts := jacLin_parts hα hβ (jacPoly α β 1)
  have hP : jacPoly α β 1 = C (1 / 2) * (C (α - β) + C (2 + (α + β)) * X) := by rw [jacPoly]
  have hd : derivative (jacPoly α β 1) = C ((α + β + 2) / 2) := by
    rw [hP]
    simp only [derivative_mul, derivative_add, derivative_C, derivative_X, zero_mul, zero_add, mul_one]
    rw [← C_mul]; congr 1; ring
  have e1 : (C (α - β) + C (α + β + 2) * X : ℝ[X]) * jacPoly α β 1
      = C 2 * (jacPoly α β 1 * jacPoly α β 1) := by
    have : (C (α - β) + C (α + β + 2) * X : ℝ[X]) = C 2 * jacPoly α β 1 := by
      rw [hP, ← mul_assoc, ← C_mul, show (2 : ℝ) + (α + β) = α + β + 2 by ring]
      norm_num
    rw [this]; ring
  rw [hd, e1, mul_comm (1 - X ^ 2), jacLin_C_mul, jacLin_C_mul] at hparts
  have hmass : jacLin α β hα hβ (1 - X ^ 2)
      = jacLin (α + 1) (β + 1) (by linarith) (by linarith) 1 := by
    rw [jacLin_apply, jacLin_apply]
    refine intervalIntegral.integral_congr fun x hx => ?_
    rw [Set.uIcc_of_le (by norm_num)] at hx
    simp only [eval_sub, eval_one, eval_pow, eval_X, one_mul]
    rcases eq_or_lt_of_le hx.1 with h | h
    · rw [← h]
      rw [show (1 : ℝ) + -1 = 0 by ring, zero_rpow (by linarith : β + 1 ≠ 0)]
      ring
    · rcases eq_or_lt_of_le hx.2 with h' | h'
      · rw [h', show (1 : ℝ) - 1 = 0 by ring, zero_rpow (by linarith : α + 1 ≠ 0)]
        ring
      · rw [rpow_add_one (by linarith), rpow_add_one (by linarith)]; ring
  rw [hmass, jacLin_one, show α + 1 + (β + 1) + 1 = α + β + 1 + 2 by ring,
    show α + 1 + (β + 1) + 2 = (α + β + 2 + 1) + 1 by ring,
    show α + 1 + 1 = α + 2 by ring, show β + 1 + 1 = β + 2 by ring,
    Gamma_add_one (by linarith), Gamma_add_one (by linarith), rpow_add (by norm_num)] at hparts
  have hG : Gamma (α + β + 2) ≠ 0 := (Gamma_pos_of_pos hs).ne'
  have h3 : α + β + 2 + 1 ≠ 0 := by linarith
  rw [jacNorm]
  have h4 : ((2 : ℝ) ^ (2 : ℝ)) = 4 := by norm_num
  rw [h4] at hparts
  field_simp at hparts ⊢
  linear_combination (-1 / 4) * hparts

theorem jacNorm_eq (n : ℕ) (hn : n ≠ 0) : (2 * (n : ℝ) + 1 + (α + β)) * jacNorm hα hβ n
    = 2 ^ (α + β + 1) * (Gamma (α + n + 1) * Gamma (β + n + 1)
      / ((n.factorial : ℝ) * Gamma (α + β + n + 1))) := by
  obtain ⟨k, rfl⟩ : ∃ k, n = k + 1 := ⟨n - 1, by omega⟩
  clear hn
  induction k with
  | zero =>
    have h := jacNorm_one hα hβ
    simp only [zero_add, Nat.cast_one, Nat.factorial_one, mul_one, one_mul]
    rw [show α + 1 + 1 = α + 2 by ring, show β + 1 + 1 = β + 2 by ring,
      show α + β + 1 + 1 = α + β + 2 by ring, ← h]
    ring
  | succ k ih =>
    obtain ⟨p1, p2⟩ := jac_pos hα hβ k
    have hr := jacNorm_rec hα hβ k
    have hk : (0 : ℝ) ≤ k := by positivity
    have g1 : Gamma (α + ((k + 1 + 1 : ℕ) : ℝ) + 1)
        = ((k : ℝ) + 2 + α) * Gamma (α + ((k + 1 : ℕ) : ℝ) + 1) := by
      rw [Gamma_add_one (by push_cast; linarith)]
      push_cast
      rw [show α + ((k : ℝ) + 1 + 1) = α + (k + 1) + 1 by ring]
      ring
    have g2 : Gamma (β + ((k + 1 + 1 : ℕ) : ℝ) + 1)
        = ((k : ℝ) + 2 + β) * Gamma (β + ((k + 1 : ℕ) : ℝ) + 1) := by
      rw [Gamma_add_one (by push_cast; linarith)]
      push_cast
      rw [show β + ((k : ℝ) + 1 + 1) = β + (k + 1) + 1 by ring]
      ring
    have g3 : Gamma (α + β + ((k + 1 + 1 : ℕ) : ℝ) + 1)
        = ((k : ℝ) + 2 + (α + β)) * Gamma (α + β + ((k + 1 : ℕ) : ℝ) + 1) := by
      rw [Gamma_add_one (by push_cast; linarith)]
      push_cast
      rw [show α + β + ((k : ℝ) + 1 + 1) = α + β + (k + 1) + 1 by ring]
      ring
    have hG : Gamma (α + β + ((k + 1 : ℕ) : ℝ) + 1) ≠ 0 :=
      (Gamma_pos_of_pos (by push_cast; linarith)).ne'
    have hf : (((k + 1).factorial : ℕ) : ℝ) ≠ 0 := by exact_mod_cast (Nat.factorial_pos _).ne'
    have hf2 : (((k + 1 + 1).factorial : ℕ) : ℝ) = ((k : ℝ) + 2) * (((k + 1).factorial : ℕ) : ℝ) := by
      rw [Nat.factorial_succ (k + 1)]; push_cast; ring
    rw [g1, g2, g3, hf2]
    have hk2 : (k : ℝ) + 2 ≠ 0 := by positivity
    have hX : (2 * ((k + 1 : ℕ) : ℝ) + 1 + (α + β)) = 2 * (k : ℝ) + 3 + (α + β) := by push_cast; ring
    have hY : (2 * ((k + 1 + 1 : ℕ) : ℝ) + 1 + (α + β)) = 2 * (k : ℝ) + 5 + (α + β) := by
      push_cast; ring
    rw [hX] at ih
    rw [hY]
    have hm : (k : ℝ) + 2 + (α + β) ≠ 0 := p2.ne'
    refine mul_left_cancel₀ (mul_ne_zero hk2 hm) ?_
    have : ((k : ℝ) + 2) * (k + 2 + (α + β)) * ((2 * (k : ℝ) + 5 + (α + β)) * jacNorm hα hβ (k + 1 + 1))
        = ((k : ℝ) + 2 + α) * (k + 2 + β) * ((2 * (k : ℝ) + 3 + (α + β)) * jacNorm hα hβ (k + 1)) := by
      linear_combination hr
    rw [this, ih]
    field_simp

theorem jac_lead_mul (n : ℕ) (q : ℝ[X]) (c : ℝ) (hq : (q - C c * jacPoly α β n).degree < (n : ℕ)) :
    jacLin α β hα hβ (jacPoly α β n * q) = c * jacNorm hα hβ n := by
  have h := jacPoly_orth hα hβ n _ hq
  have e : jacPoly α β n * q = jacPoly α β n * (q - C c * jacPoly α β n)
      + C c * (jacPoly α β n * jacPoly α β n) := by ring
  rw [e, map_add, h, zero_add, jacLin_C_mul]; rfl

theorem degree_lt_of_coeff (Q : ℝ[X]) (n : ℕ) (h1 : Q.natDegree ≤ n) (h2 : Q.coeff n = 0) :
    Q.degree < (n : ℕ) := by
  rcases eq_or_ne Q 0 with h | h
  · rw [h, degree_zero]; exact WithBot.bot_lt_coe _
  · refine degree_lt_of_natDegree_lt _ _ (lt_of_le_of_ne h1 fun h' => ?_)
    have := leadingCoeff_ne_zero.2 h
    rw [leadingCoeff, h'] at this
    exact this h2

theorem jacPoly_weight (n : ℕ) (hn : n ≠ 0) (s : Finset ℝ) (hs : s.card = n)
    (hroot : ∀ x ∈ s, (jacPoly α β n).eval x = 0) (x : ℝ) (hx : x ∈ s) :
    jacLin α β hα hβ (Lagrange.basis s id x)
        * ((1 - x ^ 2) * ((derivative (jacPoly α β n)).eval x) ^ 2)
      = 2 ^ (α + β + 1) * (Gamma (α + n + 1) * Gamma (β + n + 1)
        / ((n.factorial : ℝ) * Gamma (α + β + n + 1))) := by
  rw [← jacNorm_eq hα hβ n hn]
  set L := jacLin α β hα hβ with hL
  set P := jacPoly α β n with hP
  set R := P /ₘ (X - C x) with hR
  set w := L (Lagrange.basis s id x) with hw
  set d := (derivative P).eval x with hd
  set h := jacNorm hα hβ n with hh
  have hP0 : P ≠ 0 := jacPoly_ne_zero hα hβ n
  have hPn : P.natDegree = n := jacPoly_natDegree hα hβ n
  have hdeg : P.natDegree = s.card := by rw [hs]; exact hPn
  have orth : ∀ q : ℝ[X], q.degree < (s.card : ℕ) → L (P * q) = 0 := by
    rw [hs]; exact jacPoly_orth hα hβ n
  have hRd : R.natDegree = n - 1 := by rw [hR, quot_natDegree, hPn]
  have hPd : (derivative P).natDegree ≤ n - 1 := by
    have := natDegree_derivative_le P
    rwa [hPn] at this
  have hRx : R.eval x = d := quot_eval_self x (hroot x hx)
  have hfac : (X - C x) * R = P := root_quot x (hroot x hx)
  have hder : derivative P = R + (X - C x) * derivative R := by
    conv_lhs => rw [← hfac]
    simp [derivative_mul]
  have q1 : L (R * derivative P) = w * d ^ 2 := by
    rw [hR, gauss_single hP0 hdeg hroot orth hx, sq]
    rw [← hR]
    have := natDegree_mul_le (p := R) (q := derivative P)
    omega
  have q2 : L (R * R) = w * d ^ 2 := by
    have := gauss_single hP0 hdeg hroot orth hx R (by
      rw [← hR]
      have := natDegree_mul_le (p := R) (q := R)
      omega)
    rw [← hR, hRx] at this
    rw [this, sq]
  have hR0 : L (P * R) = 0 := orth R (degree_lt_of_natDegree_lt _ _ (by omega))
  have hP'0 : L (P * derivative P) = 0 := orth _ (degree_lt_of_natDegree_lt _ _ (by omega))
  have hXR : L (P * (X * R)) = h := by
    have : X * R = P + C x * R := by rw [← hfac]; ring
    rw [this, mul_add, map_add, mul_left_comm, jacLin_C_mul, hR0]
    simp [hh, jacNorm, hL, hP]
  have hXP' : L (P * (X * derivative P)) = n * h := by
    refine jac_lead_mul hα hβ n _ _ (degree_lt_of_coeff _ _ ?_ ?_)
    · refine le_trans (natDegree_sub_le _ _) (max_le ?_ ?_)
      · refine le_trans natDegree_mul_le ?_
        rw [natDegree_X]; omega
      · exact le_trans (natDegree_C_mul_le _ _) hPn.le
    · rw [coeff_sub, coeff_C_mul]
      obtain ⟨k, rfl⟩ : ∃ k, n = k + 1 := ⟨n - 1, by omega⟩
      rw [coeff_X_mul, coeff_derivative]
      push_cast; ring
  have hparts : (1 - X ^ 2) * derivative ((X - C x) * (R * R))
      = (1 - X ^ 2) * (R * R) + C 2 * ((1 - X ^ 2) * ((X - C x) * R * derivative R)) := by
    simp only [derivative_mul, derivative_sub, derivative_X, derivative_C]
    rw [map_ofNat]
    ring
  have hI := congrArg L hparts
  have hb : L ((C (α - β) + C (α + β + 2) * X) * ((X - C x) * (R * R))) = (α + β + 2) * h := by
    have e : (C (α - β) + C (α + β + 2) * X) * ((X - C x) * (R * R))
        = C (α - β) * (P * R) + C (α + β + 2) * (P * (X * R)) := by
      rw [← hfac]; ring
    rw [e, LinearMap.map_add, jacLin_C_mul, jacLin_C_mul, hR0, hXR]; ring
  rw [hL, jacLin_parts, ← hL, hb, LinearMap.map_add, jacLin_C_mul] at hI
  have s1 : L ((1 - X ^ 2) * (R * R)) = (1 - x ^ 2) * (w * d ^ 2) - h := by
    have e : (1 - X ^ 2) * (R * R)
        = C (1 - x ^ 2) * (R * R) - (P * (X * R) + C x * (P * R)) := by
      rw [← hfac, C_sub, C_pow, C_1]; ring
    rw [e, LinearMap.map_sub, LinearMap.map_add, jacLin_C_mul, jacLin_C_mul, hR0, hXR, ← hL, q2]; ring
  have s2 : L ((1 - X ^ 2) * (R * derivative P)) = (1 - x ^ 2) * (w * d ^ 2) - n * h := by
    have e : (1 - X ^ 2) * (R * derivative P)
        = C (1 - x ^ 2) * (R * derivative P) - (P * (X * derivative P) + C x * (P * derivative P)) := by
      rw [C_sub, C_pow, C_1]
      linear_combination (X + C x) * derivative P * (-hfac)
    rw [e, LinearMap.map_sub, LinearMap.map_add, jacLin_C_mul, jacLin_C_mul, ← hL, hP'0, hXP', q1]; ring
  have hq1 : (1 - X ^ 2) * (R * derivative P)
      = (1 - X ^ 2) * (R * R) + (1 - X ^ 2) * ((X - C x) * R * derivative R) := by
    rw [hder]; ring
  have hJ := congrArg L hq1
  rw [LinearMap.map_add, s2, s1] at hJ
  rw [← hL, s1] at hI
  linarith

theorem jacPair_eq (x : ℝ) (k : ℕ) :
    jacPair α β x k = ((jacPoly α β k).eval x, (jacPoly α β (k + 1)).eval x) := by
  induction k with
  | zero => simp [jacPair, jacPoly]; ring
  | succ k ih =>
    rw [jacPair, ih]
    simp only [Prod.mk.injEq, true_and, jacTmp]
    rw [jacPoly]
    simp only [eval_mul, eval_sub, eval_add, eval_C, eval_X]
    rw [div_eq_mul_one_div, mul_comm]
    congr 2
    · congr 1
      ring
    · ring

include hα hβ in
theorem jacDeriv_eq (n : ℕ) (hn : n ≠ 0) (x : ℝ) (hx : 1 - x ^ 2 ≠ 0) :
    jacDeriv n α β x = (derivative (jacPoly α β n)).eval x := by
  obtain ⟨k, rfl⟩ : ∃ k, n = k + 1 := ⟨n - 1, by omega⟩
  have hp := (jac_pos hα hβ k).1
  have h := congrArg (eval x) (jacPoly_rel hα hβ k).1
  simp only [eval_mul, eval_sub, eval_add, eval_C, eval_X, eval_one, eval_pow, eval_ofNat] at h
  rw [jacDeriv, show k + 1 - 1 = k by omega, jacPair_eq]
  simp only [jacTmp]
  rw [div_eq_iff (mul_ne_zero hp.ne' hx)]
  push_cast
  linear_combination -h

include hα hβ in
/-- The Gauss-Jacobi rule with the weights of the code. -/
theorem jacRule_exact (n : ℕ) (hn : n ≠ 0) (z : List ℝ) (hl : z.length = n) (hnd : z.Nodup)
    (h1 : ∀ v ∈ z, 1 - v ^ 2 ≠ 0) (hroot : ∀ v ∈ z, (jacPoly α β n).eval v = 0) (f : ℝ[X])
    (hf : f.degree < (2 * n : ℕ)) :
    applyRule (jRootsNewton n α β z) (fun t => f.eval t)
      = ∫ t in (-1 : ℝ)..1, f.eval t * ((1 - t) ^ α * (1 + t) ^ β) := by
  have hcard : z.toFinset.card = n := by rw [List.toFinset_card_of_nodup hnd, hl]
  have hroot' : ∀ x ∈ z.toFinset, (jacPoly α β n).eval x = 0 := fun x hx =>
    hroot x (List.mem_toFinset.1 hx)
  have := gauss_exact (L := jacLin α β hα hβ) (jacPoly_ne_zero hα hβ n)
    (by rw [hcard]; exact jacPoly_natDegree hα hβ n) hroot'
    (by rw [hcard]; exact jacPoly_orth hα hβ n) f (by rwa [hcard])
  rw [← jacLin_apply hα hβ, this, List.sum_toFinset _ hnd, applyRule, jRootsNewton, List.map_map]
  congr 1
  refine List.map_congr_left fun v hv => ?_
  simp only [Function.comp_def]
  have hv1 := h1 v hv
  have hrv := hroot v hv
  have hw := jacPoly_weight hα hβ n hn z.toFinset hcard hroot' v (List.mem_toFinset.2 hv)
  rw [jacDeriv_eq hα hβ _ hn _ hv1]
  obtain ⟨k, rfl⟩ : ∃ k, n = k + 1 := ⟨n - 1, by omega⟩
  rw [show k + 1 - 1 = k by omega, jacPair_eq, hrv]
  simp only [zero_div, sub_zero, jacTmp]
  have hD := congrArg (eval v) (jacPoly_rel hα hβ k).1
  simp only [eval_mul, eval_sub, eval_add, eval_C, eval_X, eval_one, eval_pow, eval_ofNat, hrv] at hD
  set d := (derivative (jacPoly α β (k + 1))).eval v with hd
  set p := (jacPoly α β k).eval v with hp
  set w := jacLin α β hα hβ (Lagrange.basis z.toFinset id v) with hww
  have hk : (0 : ℝ) ≤ k := by positivity
  have hka : (0 : ℝ) < (k : ℝ) + 1 + α := by linarith
  have hkb : (0 : ℝ) < (k : ℝ) + 1 + β := by linarith
  have hT := (jac_pos hα hβ k).1
  have hkc : ((k + 1 : ℕ) : ℝ) = (k : ℝ) + 1 := by push_cast; ring
  rw [hkc] at hw ⊢
  have hGa : 0 < Gamma (α + ((k : ℝ) + 1)) := Gamma_pos_of_pos (by linarith)
  have hGb : 0 < Gamma (β + ((k : ℝ) + 1)) := Gamma_pos_of_pos (by linarith)
  have hGs : 0 < Gamma (α + β + ((k : ℝ) + 1) + 1) := Gamma_pos_of_pos (by linarith)
  have hGn : Gamma ((k : ℝ) + 1 + 1) = ((k + 1).factorial : ℝ) := by
    have := Gamma_nat_eq_factorial (k + 1)
    push_cast at this ⊢
    exact this
  have hfk : (0 : ℝ) < ((k + 1).factorial : ℝ) := by exact_mod_cast Nat.factorial_pos _
  have hexp : exp (log (Gamma (α + ((k : ℝ) + 1))) + log (Gamma (β + ((k : ℝ) + 1)))
      - log (Gamma ((k : ℝ) + 1 + 1)) - log (Gamma (α + β + ((k : ℝ) + 1) + 1)))
      = Gamma (α + ((k : ℝ) + 1)) * Gamma (β + ((k : ℝ) + 1))
        / (((k + 1).factorial : ℝ) * Gamma (α + β + ((k : ℝ) + 1) + 1)) := by
    rw [exp_sub, exp_sub, exp_add, hGn, exp_log hGa, exp_log hGb, exp_log hfk, exp_log hGs, div_div]
  rw [hexp]
  rw [Gamma_add_one (by linarith : α + ((k : ℝ) + 1) ≠ 0),
    Gamma_add_one (by linarith : β + ((k : ℝ) + 1) ≠ 0)] at hw
  have h2p : (0 : ℝ) < 2 ^ (α + β) := rpow_pos_of_pos (by norm_num) _
  rw [rpow_add_one (by norm_num)] at hw
  have hd0 : d ≠ 0 := by
    intro h
    rw [h] at hw
    have : (0 : ℝ) < 2 ^ (α + β) * 2 * ((α + ((k : ℝ) + 1)) * Gamma (α + ((k : ℝ) + 1))
        * ((β + ((k : ℝ) + 1)) * Gamma (β + ((k : ℝ) + 1)))
        / (((k + 1).factorial : ℝ) * Gamma (α + β + ((k : ℝ) + 1) + 1))) := by
      have : 0 < α + ((k : ℝ) + 1) := by linarith
      have : 0 < β + ((k : ℝ) + 1) := by linarith
      positivity
    rw [← hw] at this
    simp at this
  have hp0 : p = (2 + (α + β) + 2 * (k : ℝ)) * ((1 - v ^ 2) * d)
      / (2 * ((k : ℝ) + 1 + α) * ((k : ℝ) + 1 + β)) := by
    rw [eq_div_iff (by positivity)]; linear_combination -hD
  congr 1
  rw [hp0]
  have hsq : d ^ 2 ≠ 0 := pow_ne_zero 2 hd0
  have hT' := hT.ne'
  have hw' : w = 2 ^ (α + β) * 2 * ((α + ((k : ℝ) + 1)) * Gamma (α + ((k : ℝ) + 1))
        * ((β + ((k : ℝ) + 1)) * Gamma (β + ((k : ℝ) + 1)))
        / (((k + 1).factorial : ℝ) * Gamma (α + β + ((k : ℝ) + 1) + 1))) / ((1 - v ^ 2) * d ^ 2) := by
    rw [eq_div_iff (mul_ne_zero hv1 hsq), hw]
  rw [hw']
  generalize 2 + (α + β) + 2 * (k : ℝ) = T at *
  field_simp
  ring

end Wafo.Quad
