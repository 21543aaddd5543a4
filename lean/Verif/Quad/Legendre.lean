import Verif.Quad.GaussLemmas
import Verif.Quad.ChebRules

/-! Legendre polynomials and the Gauss-Legendre rule. -/

set_option linter.unusedSectionVars false

namespace Wafo.Quad

open Polynomial Finset

/-- The polynomials of the recurrence in `_p_roots_newton1`. -/
noncomputable def legPoly : ℕ → ℝ[X]
  | 0 => 1
  | 1 => X
  | k + 2 => C (1 / ((k : ℝ) + 2)) * (C (2 * (k : ℝ) + 3) * X * legPoly (k + 1) - C ((k : ℝ) + 1) * legPoly k)

theorem legPoly_rec (k : ℕ) :
    C ((k : ℝ) + 2) * legPoly (k + 2)
      = C (2 * (k : ℝ) + 3) * X * legPoly (k + 1) - C ((k : ℝ) + 1) * legPoly k := by
  have h : (k : ℝ) + 2 ≠ 0 := by positivity
  rw [legPoly, ← mul_assoc, ← C_mul]
  rw [show ((k : ℝ) + 2) * (1 / ((k : ℝ) + 2)) = 1 by field_simp, C_1, one_mul]

theorem legPoly_one (k : ℕ) : (legPoly k).eval 1 = 1 := by
  induction k using Nat.strong_induction_on with
  | _ k ih =>
    match k with
    | 0 => simp [legPoly]
    | 1 => simp [legPoly]
    | k + 2 =>
      rw [legPoly]
      simp only [eval_mul, eval_sub, eval_C, eval_X, ih (k + 1) (by omega), ih k (by omega)]
      field_simp; ring

theorem legPoly_neg_one (k : ℕ) : (legPoly k).eval (-1) = (-1) ^ k := by
  induction k using Nat.strong_induction_on with
  | _ k ih =>
    match k with
    | 0 => simp [legPoly]
    | 1 => simp [legPoly]
    | k + 2 =>
      rw [legPoly]
      simp only [eval_mul, eval_sub, eval_C, eval_X, ih (k + 1) (by omega), ih k (by omega)]
      field_simp; ring

theorem legPoly_neg (k : ℕ) (x : ℝ) : (legPoly k).eval (-x) = (-1) ^ k * (legPoly k).eval x := by
  induction k using Nat.strong_induction_on with
  | _ k ih =>
    match k with
    | 0 => simp [legPoly]
    | 1 => simp [legPoly]
    | k + 2 =>
      rw [legPoly]
      simp only [eval_mul, eval_sub, eval_C, eval_X, ih (k + 1) (by omega), ih k (by omega)]
      ring

/-- The two derivative identities. -/
theorem legPoly_deriv (k : ℕ) :
    derivative (legPoly (k + 1)) = X * derivative (legPoly k) + C ((k : ℝ) + 1) * legPoly k ∧
    X * derivative (legPoly (k + 1)) - derivative (legPoly k) = C ((k : ℝ) + 1) * legPoly (k + 1) := by
  induction k with
  | zero => simp [legPoly]
  | succ k ih =>
    obtain ⟨h1, h2⟩ := ih
    have hrec := legPoly_rec k
    have hd := congrArg derivative hrec
    simp only [derivative_mul, derivative_sub, derivative_C, derivative_X, zero_mul, zero_add,
      mul_one] at hd
    have hk : (C ((k : ℝ) + 2) : ℝ[X]) ≠ 0 := by
      rw [Ne, C_eq_zero]; positivity
    have e1 : (C (2 * (k : ℝ) + 3) : ℝ[X]) = 2 * C (k : ℝ) + 3 := by
      rw [C_add, C_mul]; simp [map_ofNat]
    have e2 : (C ((k : ℝ) + 1) : ℝ[X]) = C (k : ℝ) + 1 := by rw [C_add]; simp
    have e3 : (C ((k : ℝ) + 2) : ℝ[X]) = C (k : ℝ) + 2 := by rw [C_add]; simp [map_ofNat]
    have e4 : (C (((k + 1 : ℕ) : ℝ) + 1) : ℝ[X]) = C (k : ℝ) + 2 := by
      rw [← e3]; congr 1; push_cast; ring
    rw [e1, e2, e3] at hd hrec
    rw [e2] at h1 h2
    rw [e3] at hk
    have i1 : derivative (legPoly (k + 2)) = X * derivative (legPoly (k + 1)) + (C (k : ℝ) + 2) * legPoly (k + 1) := by
      refine mul_left_cancel₀ hk ?_
      linear_combination hd + (C (k : ℝ) + 1) * h2
    refine ⟨by rw [e4]; exact i1, ?_⟩
    rw [e4, i1]
    linear_combination -hrec + X * h2 - h1

theorem legPoly_deriv_diff (k : ℕ) :
    C (2 * (k : ℝ) + 3) * legPoly (k + 1) = derivative (legPoly (k + 2)) - derivative (legPoly k) := by
  have h1 := (legPoly_deriv (k + 1)).1
  have h2 := (legPoly_deriv k).2
  have e1 : (C (2 * (k : ℝ) + 3) : ℝ[X]) = 2 * C (k : ℝ) + 3 := by
    rw [C_add, C_mul]; simp [map_ofNat]
  have e2 : (C ((k : ℝ) + 1) : ℝ[X]) = C (k : ℝ) + 1 := by rw [C_add]; simp
  have e4 : (C (((k + 1 : ℕ) : ℝ) + 1) : ℝ[X]) = C (k : ℝ) + 2 := by
    push_cast; rw [C_add, C_add]; simp; ring
  rw [e4] at h1
  rw [e2] at h2
  rw [e1]
  linear_combination -h1 - h2

theorem legPoly_deriv_sq (k : ℕ) :
    (1 - X ^ 2) * derivative (legPoly (k + 1)) = C ((k : ℝ) + 1) * (legPoly k - X * legPoly (k + 1)) := by
  obtain ⟨h1, h2⟩ := legPoly_deriv k
  linear_combination h1 - X * h2

theorem legPoly_coeff (k : ℕ) : (legPoly k).natDegree ≤ k ∧ 0 < (legPoly k).coeff k := by
  induction k using Nat.strong_induction_on with
  | _ k ih =>
    match k with
    | 0 => simp [legPoly]
    | 1 => simp [legPoly]
    | k + 2 =>
      obtain ⟨d1, c1⟩ := ih (k + 1) (by omega)
      obtain ⟨d0, c0⟩ := ih k (by omega)
      have hc : (0 : ℝ) < 2 * (k : ℝ) + 3 := by positivity
      have hk : (0 : ℝ) < (k : ℝ) + 2 := by positivity
      constructor
      · rw [legPoly]
        refine le_trans (natDegree_C_mul_le _ _) (le_trans (natDegree_sub_le _ _) (max_le ?_ ?_))
        · rw [mul_assoc]
          refine le_trans (natDegree_C_mul_le _ _) (le_trans natDegree_mul_le ?_)
          simp; omega
        · exact le_trans (natDegree_C_mul_le _ _) (by omega)
      · rw [legPoly, coeff_C_mul, coeff_sub, coeff_C_mul, mul_assoc, coeff_C_mul, coeff_X_mul,
          coeff_eq_zero_of_natDegree_lt (by omega : (legPoly k).natDegree < k + 2)]
        simp only [mul_zero, sub_zero]
        positivity

theorem legPoly_natDegree (k : ℕ) : (legPoly k).natDegree = k := by
  obtain ⟨h1, h2⟩ := legPoly_coeff k
  exact le_antisymm h1 (le_natDegree_of_ne_zero h2.ne')

theorem legPoly_ne_zero (k : ℕ) : legPoly k ≠ 0 := by
  intro h
  have := (legPoly_coeff k).2
  rw [h] at this; simp at this

theorem intLin_derivative (a b : ℝ) (F : ℝ[X]) :
    intLin a b (derivative F) = F.eval b - F.eval a := by
  rw [intLin_apply]
  exact intervalIntegral.integral_eq_sub_of_hasDerivAt (fun x _ => F.hasDerivAt x)
    ((derivative F).continuous.intervalIntegrable _ _)

theorem legPoly_integral (k : ℕ) : intLin (-1) 1 (legPoly (k + 1)) = 0 := by
  have h := congrArg (intLin (-1) 1) (legPoly_deriv_diff k)
  rw [← smul_eq_C_mul, map_smul, map_sub, intLin_derivative, intLin_derivative, legPoly_one,
    legPoly_one, legPoly_neg_one, legPoly_neg_one] at h
  have hc : 2 * (k : ℝ) + 3 ≠ 0 := by positivity
  rw [smul_eq_mul] at h
  have : (2 * (k : ℝ) + 3) * intLin (-1) 1 (legPoly (k + 1)) = 0 := by rw [h]; ring
  exact (mul_eq_zero.1 this).resolve_left hc

theorem legPoly_orth_mono (j : ℕ) : ∀ n, j < n → intLin (-1) 1 (legPoly n * X ^ j) = 0 := by
  induction j with
  | zero =>
    intro n hn
    obtain ⟨k, rfl⟩ : ∃ k, n = k + 1 := ⟨n - 1, by omega⟩
    simpa using legPoly_integral k
  | succ j ih =>
    intro n hn
    obtain ⟨k, rfl⟩ : ∃ k, n = k + 1 := ⟨n - 1, by omega⟩
    have h1 := ih (k + 2) (by omega)
    have h2 := ih k (by omega)
    have hc : 2 * (k : ℝ) + 3 ≠ 0 := by positivity
    have e : C (2 * (k : ℝ) + 3) * (legPoly (k + 1) * X ^ (j + 1))
        = C ((k : ℝ) + 2) * (legPoly (k + 2) * X ^ j) + C ((k : ℝ) + 1) * (legPoly k * X ^ j) := by
      rw [← mul_assoc, ← mul_assoc, legPoly_rec]
      ring
    have h := congrArg (intLin (-1) 1) e
    rw [← smul_eq_C_mul, ← smul_eq_C_mul, ← smul_eq_C_mul, map_add, map_smul, map_smul, map_smul,
      h1, h2, smul_zero, smul_zero, add_zero, smul_eq_mul] at h
    exact (mul_eq_zero.1 h).resolve_left hc

theorem legPoly_orth (n : ℕ) (q : ℝ[X]) (hq : q.degree < (n : ℕ)) :
    intLin (-1) 1 (legPoly n * q) = 0 :=
  orth_of_monomials _ _ n (fun j hj => legPoly_orth_mono j n hj) q hq

/-- The weights of the Gauss-Legendre rule. -/
theorem legPoly_weight (n : ℕ) (hn : n ≠ 0) (s : Finset ℝ) (hs : s.card = n)
    (hroot : ∀ x ∈ s, (legPoly n).eval x = 0) (x : ℝ) (hx : x ∈ s) (h1 : 1 - x ^ 2 ≠ 0) :
    intLin (-1) 1 (Lagrange.basis s id x) * ((derivative (legPoly n)).eval x) ^ 2
      = 2 / (1 - x ^ 2) := by
  set P := legPoly n with hP
  set R := P /ₘ (X - C x) with hR
  set w := intLin (-1) 1 (Lagrange.basis s id x) with hw
  set d := (derivative P).eval x with hd
  have hP0 : P ≠ 0 := legPoly_ne_zero n
  have hdeg : P.natDegree = s.card := by rw [hs]; exact legPoly_natDegree n
  have orth : ∀ q : ℝ[X], q.degree < (s.card : ℕ) → intLin (-1) 1 (P * q) = 0 := by
    rw [hs]; exact legPoly_orth n
  have hRd : R.natDegree = n - 1 := by rw [hR, quot_natDegree, hdeg, hs]
  have hPd : (derivative P).natDegree ≤ n - 1 := by
    have := natDegree_derivative_le P
    rw [hdeg, hs] at this
    exact this
  have hRx : R.eval x = d := quot_eval_self x (hroot x hx)
  have q1 : intLin (-1) 1 (R * derivative P) = w * d ^ 2 := by
    rw [hR, gauss_single hP0 hdeg hroot orth hx, sq]
    rw [← hR]
    have := natDegree_mul_le (p := R) (q := derivative P)
    omega
  have q2 : intLin (-1) 1 (R * R) = w * d ^ 2 := by
    have := gauss_single hP0 hdeg hroot orth hx R (by
      rw [← hR]
      have := natDegree_mul_le (p := R) (q := R)
      omega)
    rw [← hR, hRx] at this
    rw [this, sq]
  have hfac : (X - C x) * R = P := root_quot x (hroot x hx)
  have hder : derivative P = R + (X - C x) * derivative R := by
    conv_lhs => rw [← hfac]
    simp [derivative_mul]
  have hparts : derivative ((X - C x) * (R * R)) = R * R + C 2 * ((X - C x) * R * derivative R) := by
    simp only [derivative_mul, derivative_sub, derivative_X, derivative_C]
    rw [map_ofNat]
    ring
  have hI := congrArg (intLin (-1) 1) hparts
  rw [intLin_derivative, map_add, q2, ← smul_eq_C_mul, map_smul, smul_eq_mul] at hI
  have hq1 : R * derivative P = R * R + (X - C x) * R * derivative R := by rw [hder]; ring
  have hJ := congrArg (intLin (-1) 1) hq1
  rw [q1, map_add, q2] at hJ
  have p1 : (1 - x) * R.eval 1 = 1 := by
    have := congrArg (eval 1) hfac
    rw [hP, legPoly_one] at this
    simpa using this
  have p2 : (-1 - x) * R.eval (-1) = (-1) ^ n := by
    have := congrArg (eval (-1)) hfac
    rw [hP, legPoly_neg_one] at this
    simpa using this
  have hsq : ((-1 : ℝ) ^ n) ^ 2 = 1 := by rw [← pow_mul, mul_comm, pow_mul]; simp
  have hx1 : (1 - x) ≠ 0 := by intro h; apply h1; rw [show 1 - x ^ 2 = (1 - x) * (1 + x) by ring, h, zero_mul]
  have hx2 : (-1 - x) ≠ 0 := by
    intro h; apply h1
    rw [show 1 - x ^ 2 = -(1 - x) * (-1 - x) by ring, h, mul_zero]
  simp only [eval_mul, eval_sub, eval_X, eval_C] at hI
  have r1 : R.eval 1 = 1 / (1 - x) := by field_simp; linarith
  have r2 : R.eval (-1) ^ 2 = 1 / (-1 - x) ^ 2 := by
    rw [eq_div_iff (pow_ne_zero 2 hx2), ← mul_pow, mul_comm, p2, hsq]
  have hb : (1 - x) * (R.eval 1 * R.eval 1) - (-1 - x) * (R.eval (-1) * R.eval (-1)) = 2 / (1 - x ^ 2) := by
    rw [← sq (R.eval (-1)), r2, r1]
    have h1' : 1 - x ^ 2 = -(1 - x) * (-1 - x) := by ring
    rw [h1']
    field_simp
    ring
  rw [hb] at hI
  linarith

/-- Gauss-Legendre quadrature from the roots of the recurrence. -/
theorem legendre_gauss (n : ℕ) (hn : n ≠ 0) (s : Finset ℝ) (hs : s.card = n)
    (hroot : ∀ x ∈ s, (legPoly n).eval x = 0) (h1 : ∀ x ∈ s, 1 - x ^ 2 ≠ 0) (f : ℝ[X])
    (hf : f.degree < (2 * n : ℕ)) :
    (∑ x ∈ s, 2 / ((1 - x ^ 2) * ((derivative (legPoly n)).eval x) ^ 2) * f.eval x
      = ∫ x in (-1 : ℝ)..1, f.eval x) ∧ ∀ x ∈ s, (derivative (legPoly n)).eval x ≠ 0 := by
  have hd : ∀ x ∈ s, (derivative (legPoly n)).eval x ≠ 0 := by
    intro x hx h
    have := legPoly_weight n hn s hs hroot x hx (h1 x hx)
    rw [h] at this
    have h2 : (2 : ℝ) / (1 - x ^ 2) ≠ 0 := div_ne_zero two_ne_zero (h1 x hx)
    apply h2; rw [← this]; ring
  refine ⟨?_, hd⟩
  have := gauss_exact (L := intLin (-1) 1) (legPoly_ne_zero n) (by rw [hs]; exact legPoly_natDegree n)
    hroot (by rw [hs]; exact legPoly_orth n) f (by rwa [hs])
  rw [← intLin_apply, this]
  refine Finset.sum_congr rfl fun x hx => ?_
  congr 1
  have hw := legPoly_weight n hn s hs hroot x hx (h1 x hx)
  have a1 := h1 x hx
  have a2 := hd x hx
  field_simp at hw ⊢
  linarith

end Wafo.Quad
