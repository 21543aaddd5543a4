import Mathlib.LinearAlgebra.Lagrange
import Mathlib.Algebra.Polynomial.FieldDivision
import Mathlib.Data.Real.Basic
import Mathlib.Tactic.LinearCombination
import Mathlib.Tactic.FieldSimp
import Mathlib.Tactic.Linarith

/-! Gaussian quadrature for an arbitrary linear functional on polynomials. -/

set_option linter.unusedSectionVars false

namespace Wafo.Quad

open Polynomial Finset

variable {L : ℝ[X] →ₗ[ℝ] ℝ} {P : ℝ[X]} {s : Finset ℝ}

/-- A functional that kills `P * X^j` for small `j` kills `P * q` for `q` of small degree. -/
theorem orth_of_monomials (L : ℝ[X] →ₗ[ℝ] ℝ) (P : ℝ[X]) (n : ℕ)
    (h : ∀ j < n, L (P * X ^ j) = 0) (q : ℝ[X]) (hq : q.degree < (n : ℕ)) : L (P * q) = 0 := by
  by_cases h0 : q = 0
  · subst h0; simp
  rw [q.as_sum_range' n ((natDegree_lt_iff_degree_lt h0).2 hq)]
  rw [Finset.mul_sum, map_sum]
  refine Finset.sum_eq_zero fun j hj => ?_
  rw [Finset.mem_range] at hj
  rw [← C_mul_X_pow_eq_monomial, mul_left_comm, ← smul_eq_C_mul, map_smul, h j hj, smul_zero]

theorem gauss_exact (hP : P ≠ 0) (hs : P.natDegree = s.card) (hroot : ∀ x ∈ s, P.eval x = 0)
    (orth : ∀ q : ℝ[X], q.degree < (s.card : ℕ) → L (P * q) = 0) (f : ℝ[X])
    (hf : f.degree < (2 * s.card : ℕ)) :
    L f = ∑ x ∈ s, L (Lagrange.basis s id x) * f.eval x := by
  have hdP : P.degree = (s.card : ℕ) := by rw [degree_eq_natDegree hP, hs]
  have hdm := EuclideanDomain.div_add_mod f P
  have hr : (f % P).degree < (s.card : ℕ) := by
    rw [← hdP]; exact degree_mod_lt f hP
  have hq : (f / P).degree < (s.card : ℕ) := by
    by_cases h0 : f / P = 0
    · rw [h0, degree_zero]; exact WithBot.bot_lt_coe _
    have hle : P.degree ≤ f.degree := by
      by_contra hlt
      push Not at hlt
      exact h0 ((Polynomial.div_eq_zero_iff hP).2 hlt)
    have h1 := degree_add_div hP hle
    rw [hdP, degree_eq_natDegree h0] at h1
    have hf0 : f ≠ 0 := by rintro rfl; simp at h0
    rw [degree_eq_natDegree hf0] at h1 hf
    rw [degree_eq_natDegree h0]
    have h2 : s.card + (f / P).natDegree = f.natDegree := by exact_mod_cast h1
    have h3 : f.natDegree < 2 * s.card := by exact_mod_cast hf
    exact_mod_cast (by omega : (f / P).natDegree < s.card)
  have hev : ∀ x ∈ s, f.eval x = (f % P).eval x := by
    intro x hx
    conv_lhs => rw [← hdm]
    simp [hroot x hx]
  have h1 : L f = L (f % P) := by
    conv_lhs => rw [← hdm]
    rw [map_add, orth _ hq, zero_add]
  have h2 := Lagrange.eq_interpolate (s := s) (v := id) (Set.injOn_id _) hr
  rw [h1]
  conv_lhs => rw [h2]
  rw [Lagrange.interpolate_apply, map_sum]
  refine Finset.sum_congr rfl fun x hx => ?_
  rw [← smul_eq_C_mul, map_smul, smul_eq_mul, hev x hx, mul_comm]
  rfl

/-- The quotient `P / (X - x)` at a root. -/
theorem root_quot (x : ℝ) (hx : P.eval x = 0) : (X - C x) * (P /ₘ (X - C x)) = P :=
  mul_divByMonic_eq_iff_isRoot.2 hx

theorem quot_eval_self (x : ℝ) (hx : P.eval x = 0) :
    (P /ₘ (X - C x)).eval x = (derivative P).eval x := by
  conv_rhs => rw [← root_quot x hx]
  simp [derivative_mul]

theorem quot_eval_ne (x y : ℝ) (hx : P.eval x = 0) (hy : P.eval y = 0) (hxy : y ≠ x) :
    (P /ₘ (X - C x)).eval y = 0 := by
  have h := congrArg (eval y) (root_quot x hx)
  rw [eval_mul, hy] at h
  rcases mul_eq_zero.1 h with h' | h'
  · exact absurd (by simpa [sub_eq_zero] using h') hxy
  · exact h'

theorem quot_natDegree (x : ℝ) : (P /ₘ (X - C x)).natDegree = P.natDegree - 1 := by
  rw [natDegree_divByMonic _ (monic_X_sub_C x), natDegree_X_sub_C]

theorem degree_lt_of_natDegree_lt (Q : ℝ[X]) (n : ℕ) (h : Q.natDegree < n) : Q.degree < (n : ℕ) :=
  lt_of_le_of_lt degree_le_natDegree (by exact_mod_cast h)

/-- A polynomial that vanishes at all nodes but one. -/
theorem gauss_single (hP : P ≠ 0) (hs : P.natDegree = s.card) (hroot : ∀ x ∈ s, P.eval x = 0)
    (orth : ∀ q : ℝ[X], q.degree < (s.card : ℕ) → L (P * q) = 0) {x : ℝ} (hx : x ∈ s) (Q : ℝ[X])
    (hQ : (P /ₘ (X - C x) * Q).natDegree < 2 * s.card) :
    L (P /ₘ (X - C x) * Q)
      = L (Lagrange.basis s id x) * ((derivative P).eval x * Q.eval x) := by
  rw [gauss_exact hP hs hroot orth _ (degree_lt_of_natDegree_lt _ _ hQ)]
  rw [Finset.sum_eq_single x]
  · rw [eval_mul, quot_eval_self x (hroot x hx)]
  · intro y hy hyx
    rw [eval_mul, quot_eval_ne x y (hroot x hx) (hroot y hy) hyx]; simp
  · intro h; exact absurd hx h

end Wafo.Quad
