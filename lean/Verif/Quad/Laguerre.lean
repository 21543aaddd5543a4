import Mathlib.Analysis.SpecialFunctions.Gamma.Basic
import Verif.Quad.Newton

/-! Generalised Laguerre polynomials as computed by `_la_roots_newton`, and the Gauss-Laguerre
rule. -/

set_option linter.unusedSectionVars false

namespace Wafo.Quad

open Polynomial Finset Real MeasureTheory

variable {α : ℝ}

theorem lag_integrand (j : ℕ) {x : ℝ} (hx : x ∈ Set.Ioi (0 : ℝ)) :
    x ^ j * x ^ α * exp (-x) = exp (-x) * x ^ ((α + j + 1) - 1) := by
  have hx' : (0 : ℝ) < x := hx
  rw [show α + j + 1 - 1 = (j : ℝ) + α by ring, rpow_add hx', rpow_natCast]; ring

theorem integrable_lagMono (hα : -1 < α) (j : ℕ) :
    IntegrableOn (fun x : ℝ => x ^ j * x ^ α * exp (-x)) (Set.Ioi 0) := by
  have h : (0 : ℝ) < α + j + 1 := by
    have : (0 : ℝ) ≤ j := by positivity
    linarith
  refine (GammaIntegral_convergent h).congr_fun (fun x hx => ?_) measurableSet_Ioi
  exact (lag_integrand j hx).symm

theorem integrable_lag (hα : -1 < α) (P : ℝ[X]) :
    IntegrableOn (fun x : ℝ => P.eval x * x ^ α * exp (-x)) (Set.Ioi 0) := by
  have e : (fun x : ℝ => P.eval x * x ^ α * exp (-x))
      = fun x : ℝ => ∑ j ∈ range (P.natDegree + 1), P.coeff j * (x ^ j * x ^ α * exp (-x)) := by
    funext x
    rw [eval_eq_sum_range, Finset.sum_mul, Finset.sum_mul]
    exact Finset.sum_congr rfl fun j _ => by ring
  rw [e]
  exact integrable_finsetSum _ fun j _ => (integrable_lagMono hα j).const_mul _

/-- Integration against `x^α exp(-x)` over the positive half line. -/
noncomputable def lagLin (α : ℝ) (hα : -1 < α) : ℝ[X] →ₗ[ℝ] ℝ where
  toFun P := ∫ x in Set.Ioi (0 : ℝ), P.eval x * x ^ α * exp (-x)
  map_add' P Q := by
    simp only [eval_add, add_mul]
    exact integral_add (integrable_lag hα P) (integrable_lag hα Q)
  map_smul' c P := by
    simp only [eval_smul, RingHom.id_apply, smul_eq_mul, mul_assoc]
    exact integral_const_mul _ _

variable (hα : -1 < α)

theorem lagLin_apply (P : ℝ[X]) :
    lagLin α hα P = ∫ x in Set.Ioi (0 : ℝ), P.eval x * x ^ α * exp (-x) := rfl

theorem lagLin_pow (j : ℕ) : lagLin α hα (X ^ j) = Gamma (α + j + 1) := by
  have h : (0 : ℝ) < α + j + 1 := by
    have : (0 : ℝ) ≤ j := by positivity
    linarith
  rw [lagLin_apply, Gamma_eq_integral h]
  refine setIntegral_congr_fun measurableSet_Ioi fun x hx => ?_
  simp only [eval_pow, eval_X]
  exact lag_integrand j hx

theorem lagLin_parts (P : ℝ[X]) :
    lagLin α hα (X * derivative P) = lagLin α hα ((X - C (α + 1)) * P) := by
  induction P using Polynomial.induction_on' with
  | add p q hp hq => rw [derivative_add, mul_add, mul_add, map_add, map_add, hp, hq]
  | monomial j a =>
    rw [← C_mul_X_pow_eq_monomial, derivative_C_mul, mul_left_comm, ← smul_eq_C_mul, map_smul,
      mul_left_comm, ← smul_eq_C_mul, map_smul]
    congr 1
    have h0 : α + j + 1 ≠ 0 := by
      have : (0 : ℝ) ≤ j := by positivity
      intro h; linarith
    have h1 : lagLin α hα ((X - C (α + 1)) * X ^ j) = j * Gamma (α + j + 1) := by
      rw [sub_mul, ← pow_succ', ← smul_eq_C_mul, map_sub, map_smul, lagLin_pow, lagLin_pow,
        show α + ((j + 1 : ℕ) : ℝ) + 1 = (α + j + 1) + 1 by push_cast; ring, Gamma_add_one h0,
        smul_eq_mul]
      ring
    rw [h1]
    rcases j with _ | j
    · simp
    · have : X * derivative (X ^ (j + 1)) = C ((j + 1 : ℕ) : ℝ) * X ^ (j + 1) := by
        rw [derivative_X_pow]; simp; ring
      rw [this, ← smul_eq_C_mul, map_smul, lagLin_pow, smul_eq_mul]

/-- The polynomials of the recurrence in `_la_roots_newton`. -/
noncomputable def lagPoly (α : ℝ) : ℕ → ℝ[X]
  | 0 => 1
  | 1 => C (1 + α) - X
  | k + 2 => C (1 / ((k : ℝ) + 2)) * ((C (2 * (k : ℝ) + 3 + α) - X) * lagPoly α (k + 1)
      - C ((k : ℝ) + 1 + α) * lagPoly α k)

theorem lagPoly_rec (k : ℕ) :
    C ((k : ℝ) + 2) * lagPoly α (k + 2)
      = (C (2 * (k : ℝ) + 3 + α) - X) * lagPoly α (k + 1) - C ((k : ℝ) + 1 + α) * lagPoly α k := by
  have h : (k : ℝ) + 2 ≠ 0 := by positivity
  rw [lagPoly, ← mul_assoc, ← C_mul]
  rw [show ((k : ℝ) + 2) * (1 / ((k : ℝ) + 2)) = 1 by field_simp, C_1, one_mul]

theorem lagPoly_rel (k : ℕ) :
    X * derivative (lagPoly α (k + 1))
      = C ((k : ℝ) + 1) * lagPoly α (k + 1) - C ((k : ℝ) + 1 + α) * lagPoly α k ∧
    derivative (lagPoly α (k + 1)) = derivative (lagPoly α k) - lagPoly α k := by
  induction k with
  | zero => simp [lagPoly]
  | succ k ih =>
    obtain ⟨hD, hE⟩ := ih
    have hrec := lagPoly_rec (α := α) k
    have e1 : (C (2 * (k : ℝ) + 3 + α) : ℝ[X]) = 2 * C (k : ℝ) + 3 + C α := by
      rw [C_add, C_add, C_mul]; simp [map_ofNat]
    have e2 : (C ((k : ℝ) + 1) : ℝ[X]) = C (k : ℝ) + 1 := by rw [C_add]; simp
    have e3 : (C ((k : ℝ) + 2) : ℝ[X]) = C (k : ℝ) + 2 := by rw [C_add]; simp [map_ofNat]
    have e4 : (C (((k + 1 : ℕ) : ℝ) + 1) : ℝ[X]) = C (k : ℝ) + 2 := by
      rw [← e3]; congr 1; push_cast; ring
    have e5 : (C ((k : ℝ) + 1 + α) : ℝ[X]) = C (k : ℝ) + 1 + C α := by rw [C_add, e2]
    have e6 : (C (((k + 1 : ℕ) : ℝ) + 1 + α) : ℝ[X]) = C (k : ℝ) + 2 + C α := by rw [C_add, e4]
    have hk : (C (k : ℝ) + 2 : ℝ[X]) ≠ 0 := by
      rw [← e3, Ne, C_eq_zero]; positivity
    have hd := congrArg derivative hrec
    simp only [derivative_mul, derivative_sub, derivative_C, derivative_X, zero_mul, zero_add,
      zero_sub] at hd
    rw [e1, e3, e5] at hd hrec
    rw [e2, e5] at hD
    have hE' : derivative (lagPoly α (k + 2)) = derivative (lagPoly α (k + 1)) - lagPoly α (k + 1) := by
      refine mul_left_cancel₀ hk ?_
      linear_combination hd + (C (k : ℝ) + 1 + C α) * hE - hD
    refine ⟨?_, hE'⟩
    rw [e4, e6, hE']
    linear_combination hD - hrec

theorem lagPoly_up (k : ℕ) :
    C ((k : ℝ) + 1) * lagPoly α (k + 1)
      = X * derivative (lagPoly α k) + (C ((k : ℝ) + 1 + α) - X) * lagPoly α k := by
  rcases k with _ | k
  · simp [lagPoly]
  · have hrec := lagPoly_rec (α := α) k
    have hD := (lagPoly_rel (α := α) k).1
    have e1 : (C (2 * (k : ℝ) + 3 + α) : ℝ[X]) = 2 * C (k : ℝ) + 3 + C α := by
      rw [C_add, C_add, C_mul]; simp [map_ofNat]
    have e2 : (C ((k : ℝ) + 1) : ℝ[X]) = C (k : ℝ) + 1 := by rw [C_add]; simp
    have e3 : (C ((k : ℝ) + 2) : ℝ[X]) = C (k : ℝ) + 2 := by rw [C_add]; simp [map_ofNat]
    have e4 : (C (((k + 1 : ℕ) : ℝ) + 1) : ℝ[X]) = C (k : ℝ) + 2 := by
      rw [← e3]; congr 1; push_cast; ring
    have e5 : (C ((k : ℝ) + 1 + α) : ℝ[X]) = C (k : ℝ) + 1 + C α := by rw [C_add, e2]
    have e6 : (C (((k + 1 : ℕ) : ℝ) + 1 + α) : ℝ[X]) = C (k : ℝ) + 2 + C α := by rw [C_add, e4]
    rw [e1, e3, e5] at hrec
    rw [e2, e5] at hD
    rw [e4, e6]
    linear_combination hrec - hD

theorem lagPoly_coeff (k : ℕ) : (lagPoly α k).natDegree ≤ k ∧
    (lagPoly α k).coeff k = (-1) ^ k / (k.factorial : ℝ) := by
  induction k using Nat.strong_induction_on with
  | _ k ih =>
    match k with
    | 0 => simp [lagPoly]
    | 1 =>
      constructor
      · rw [lagPoly]
        refine le_trans (natDegree_sub_le _ _) ?_
        simp
      · rw [lagPoly, coeff_sub, coeff_C, coeff_X_one]; simp
    | k + 2 =>
      obtain ⟨d1, c1⟩ := ih (k + 1) (by omega)
      obtain ⟨d0, c0⟩ := ih k (by omega)
      constructor
      · rw [lagPoly]
        refine le_trans (natDegree_C_mul_le _ _) (le_trans (natDegree_sub_le _ _) (max_le ?_ ?_))
        · refine le_trans natDegree_mul_le ?_
          have : (C (2 * (k : ℝ) + 3 + α) - X : ℝ[X]).natDegree ≤ 1 := by
            refine le_trans (natDegree_sub_le _ _) (max_le ?_ natDegree_X_le)
            rw [natDegree_C]; omega
          omega
        · exact le_trans (natDegree_C_mul_le _ _) (by omega)
      · rw [lagPoly, coeff_C_mul, coeff_sub, coeff_C_mul, sub_mul, coeff_sub, coeff_C_mul,
          coeff_X_mul, c1,
          coeff_eq_zero_of_natDegree_lt (by omega : (lagPoly α k).natDegree < k + 2),
          coeff_eq_zero_of_natDegree_lt (by omega : (lagPoly α (k + 1)).natDegree < k + 2)]
        rw [Nat.factorial_succ (k + 1)]
        have : ((k + 1).factorial : ℝ) ≠ 0 := by exact_mod_cast (Nat.factorial_pos _).ne'
        push_cast
        field_simp
        ring

theorem lagPoly_coeff_ne (k : ℕ) : (lagPoly α k).coeff k ≠ 0 := by
  rw [(lagPoly_coeff k).2]
  have : (k.factorial : ℝ) ≠ 0 := by exact_mod_cast (Nat.factorial_pos _).ne'
  positivity

theorem lagPoly_natDegree (k : ℕ) : (lagPoly α k).natDegree = k :=
  le_antisymm (lagPoly_coeff k).1 (le_natDegree_of_ne_zero (lagPoly_coeff_ne k))

theorem lagPoly_ne_zero (k : ℕ) : lagPoly α k ≠ 0 := by
  intro h
  have := lagPoly_coeff_ne (α := α) k
  rw [h] at this; simp at this

theorem lagPoly_raise (k j : ℕ) :
    ((k : ℝ) + 1) * lagLin α hα (lagPoly α (k + 1) * X ^ j)
      = ((k : ℝ) - j) * lagLin α hα (lagPoly α k * X ^ j) := by
  have h1 := lagPoly_up (α := α) k
  have h2 := lagLin_parts hα (lagPoly α k * X ^ j)
  have hx : X * derivative (X ^ j : ℝ[X]) = C (j : ℝ) * X ^ j := by
    rcases j with _ | j
    · simp
    · rw [derivative_X_pow]; simp; ring
  have h3 : X * derivative (lagPoly α k * X ^ j)
      = X * derivative (lagPoly α k) * X ^ j + C (j : ℝ) * (lagPoly α k * X ^ j) := by
    rw [derivative_mul]
    linear_combination lagPoly α k * hx
  rw [h3] at h2
  have h4 : C ((k : ℝ) + 1) * (lagPoly α (k + 1) * X ^ j)
      = (X * derivative (lagPoly α k) * X ^ j + C (j : ℝ) * (lagPoly α k * X ^ j))
        - (X - C (α + 1)) * (lagPoly α k * X ^ j) + C ((k : ℝ) - j) * (lagPoly α k * X ^ j) := by
    have e1 : (C ((k : ℝ) + 1 + α) : ℝ[X]) = C (k : ℝ) + C (α + 1) := by
      rw [← C_add]; congr 1; ring
    rw [← mul_assoc, h1, e1, C_sub]
    ring
  have h5 := congrArg (lagLin α hα) h4
  rw [LinearMap.map_add, LinearMap.map_sub, h2, sub_self, zero_add, ← smul_eq_C_mul,
    ← smul_eq_C_mul, map_smul, map_smul, smul_eq_mul, smul_eq_mul] at h5
  exact h5

theorem lagPoly_orth_mono (n : ℕ) : ∀ j < n, lagLin α hα (lagPoly α n * X ^ j) = 0 := by
  induction n with
  | zero => intro j hj; omega
  | succ n ih =>
    intro j hj
    have h := lagPoly_raise hα n j
    have hn : (n : ℝ) + 1 ≠ 0 := by positivity
    rcases Nat.lt_or_ge j n with hlt | hge
    · rw [ih j hlt, mul_zero] at h
      exact (mul_eq_zero.1 h).resolve_left hn
    · have : j = n := by omega
      subst this
      rw [sub_self, zero_mul] at h
      exact (mul_eq_zero.1 h).resolve_left hn

theorem lagPoly_orth (n : ℕ) (q : ℝ[X]) (hq : q.degree < (n : ℕ)) :
    lagLin α hα (lagPoly α n * q) = 0 :=
  orth_of_monomials _ _ n (lagPoly_orth_mono hα n) q hq

theorem lagPoly_top (k j : ℕ) : (k.factorial : ℝ) * lagLin α hα (lagPoly α k * X ^ j)
    = (∏ i ∈ range k, ((i : ℝ) - j)) * Gamma (α + j + 1) := by
  induction k with
  | zero => simp [lagPoly, lagLin_pow]
  | succ k ih =>
    have h := lagPoly_raise hα k j
    rw [Finset.prod_range_succ, Nat.factorial_succ]
    push_cast
    linear_combination (k.factorial : ℝ) * h + ((k : ℝ) - j) * ih

theorem prod_sub_self (n : ℕ) : ∏ i ∈ range n, ((i : ℝ) - n) = (-1) ^ n * (n.factorial : ℝ) := by
  have h : ∀ m : ℕ, ∏ i ∈ range m, ((i : ℝ) - m) = (-1) ^ m * (m.factorial : ℝ) := by
    intro m
    rw [← Finset.prod_range_reflect]
    have : ∀ i ∈ range m, (((m - 1 - i : ℕ) : ℝ) - m) = (-1) * ((i : ℝ) + 1) := by
      intro i hi
      rw [Finset.mem_range] at hi
      rw [show m - 1 - i = m - (i + 1) by omega, Nat.cast_sub (by omega)]
      push_cast; ring
    rw [Finset.prod_congr rfl this, Finset.prod_mul_distrib, Finset.prod_const, card_range]
    congr 1
    have := Finset.prod_range_add_one_eq_factorial m
    rw [← this]; push_cast; rfl
  exact h n

theorem lagPoly_norm (n : ℕ) :
    lagLin α hα (lagPoly α n * lagPoly α n) = Gamma (α + n + 1) / (n.factorial : ℝ) := by
  have hf : (n.factorial : ℝ) ≠ 0 := by exact_mod_cast (Nat.factorial_pos _).ne'
  have htop : lagLin α hα (lagPoly α n * X ^ n) = (-1) ^ n * Gamma (α + n + 1) := by
    have h := lagPoly_top hα n n
    rw [prod_sub_self] at h
    refine mul_left_cancel₀ hf ?_
    rw [h]; ring
  set c := (lagPoly α n).coeff n with hc
  have hlow : (lagPoly α n - C c * X ^ n).degree < ((n : ℕ) : WithBot ℕ) := by
    have hle : (lagPoly α n - C c * X ^ n).natDegree ≤ n := by
      refine le_trans (natDegree_sub_le _ _) (max_le (lagPoly_coeff n).1 ?_)
      exact natDegree_C_mul_X_pow_le _ _
    refine lt_of_le_of_ne (le_trans degree_le_natDegree (by exact_mod_cast hle)) ?_
    intro h
    have h2 : (lagPoly α n - C c * X ^ n).coeff n ≠ 0 := by
      have hne : (lagPoly α n - C c * X ^ n) ≠ 0 := by
        intro h0; rw [h0, degree_zero] at h; exact absurd h (by simp)
      have : (lagPoly α n - C c * X ^ n).natDegree = n := natDegree_eq_of_degree_eq_some h
      have h3 := leadingCoeff_ne_zero.2 hne
      rwa [leadingCoeff, this] at h3
    apply h2
    rw [coeff_sub, coeff_C_mul, coeff_X_pow_self, ← hc]; ring
  have h0 := lagPoly_orth hα n _ hlow
  have hsplit : lagPoly α n * lagPoly α n
      = lagPoly α n * (lagPoly α n - C c * X ^ n) + C c * (lagPoly α n * X ^ n) := by ring
  rw [hsplit, map_add, h0, zero_add, ← smul_eq_C_mul, map_smul, htop, smul_eq_mul, hc,
    (lagPoly_coeff n).2]
  have hs : ((-1 : ℝ) ^ n) * (-1) ^ n = 1 := by rw [← mul_pow]; simp
  field_simp
  linear_combination Gamma (α + n + 1) * hs

theorem lagPoly_weight (n : ℕ) (hn : n ≠ 0) (s : Finset ℝ) (hs : s.card = n)
    (hroot : ∀ x ∈ s, (lagPoly α n).eval x = 0) (x : ℝ) (hx : x ∈ s) :
    lagLin α hα (Lagrange.basis s id x) * (x * ((derivative (lagPoly α n)).eval x) ^ 2)
      = Gamma (α + n + 1) / (n.factorial : ℝ) := by
  set P := lagPoly α n with hP
  set R := P /ₘ (X - C x) with hR
  set w := lagLin α hα (Lagrange.basis s id x) with hw
  set d := (derivative P).eval x with hd
  have hP0 : P ≠ 0 := lagPoly_ne_zero n
  have hdeg : P.natDegree = s.card := by rw [hs]; exact lagPoly_natDegree n
  have orth : ∀ q : ℝ[X], q.degree < (s.card : ℕ) → lagLin α hα (P * q) = 0 := by
    rw [hs]; exact lagPoly_orth hα n
  have hRd : R.natDegree = n - 1 := by rw [hR, quot_natDegree, hdeg, hs]
  have hPd : (derivative P).natDegree ≤ n - 1 := by
    have := natDegree_derivative_le P
    rw [hdeg, hs] at this
    exact this
  have hRx : R.eval x = d := quot_eval_self x (hroot x hx)
  have deg3 : ∀ Q : ℝ[X], Q.natDegree ≤ n - 1 → (R * (X * Q)).natDegree < 2 * s.card := by
    intro Q hQ
    have h1 := natDegree_mul_le (p := R) (q := X * Q)
    have h2 := natDegree_mul_le (p := (X : ℝ[X])) (q := Q)
    rw [natDegree_X] at h2
    omega
  have q1 : lagLin α hα (R * (X * derivative P)) = w * (x * d ^ 2) := by
    have := gauss_single hP0 hdeg hroot orth hx (X * derivative P) (deg3 _ hPd)
    rw [← hR, eval_mul, eval_X] at this
    rw [this]; ring
  have q2 : lagLin α hα (R * (X * R)) = w * (x * d ^ 2) := by
    have := gauss_single hP0 hdeg hroot orth hx (X * R) (deg3 _ hRd.le)
    rw [← hR, eval_mul, eval_X, hRx] at this
    rw [this]; ring
  have hfac : (X - C x) * R = P := root_quot x (hroot x hx)
  have hder : derivative P = R + (X - C x) * derivative R := by
    conv_lhs => rw [← hfac]
    simp [derivative_mul]
  have hparts : X * derivative ((X - C x) * (R * R))
      = R * (X * R) + C 2 * (X * ((X - C x) * R * derivative R)) := by
    simp only [derivative_mul, derivative_sub, derivative_X, derivative_C]
    rw [map_ofNat]
    ring
  have hI := congrArg (lagLin α hα) hparts
  have hz : lagLin α hα (P * R) = 0 := orth R (degree_lt_of_natDegree_lt _ _ (by omega))
  have hb : lagLin α hα ((X - C (α + 1)) * ((X - C x) * (R * R)))
      = Gamma (α + n + 1) / (n.factorial : ℝ) := by
    have e : (X - C (α + 1)) * ((X - C x) * (R * R)) = P * P + C (x - (α + 1)) * (P * R) := by
      rw [C_sub, ← hfac]; ring
    rw [e, ← smul_eq_C_mul, map_add, map_smul, hz, hP, lagPoly_norm]
    simp
  rw [lagLin_parts, hb, map_add, q2, ← smul_eq_C_mul, map_smul, smul_eq_mul] at hI
  have hq1 : R * (X * derivative P) = R * (X * R) + X * ((X - C x) * R * derivative R) := by
    rw [hder]; ring
  have hJ := congrArg (lagLin α hα) hq1
  rw [q1, map_add, q2] at hJ
  linarith

theorem lagPair_eq (x : ℝ) (k : ℕ) :
    lagPair α x (k + 1) = ((lagPoly α k).eval x, (lagPoly α (k + 1)).eval x) := by
  induction k with
  | zero =>
    simp only [lagPair, lagPoly]
    ext
    · simp
    · simp; ring
  | succ k ih =>
    rw [lagPair, ih]
    simp only [Prod.mk.injEq, true_and]
    rw [lagPoly]
    simp only [eval_mul, eval_sub, eval_C, eval_X]
    have e1 : (((k + 1 : ℕ) : ℝ) + 1) = (k : ℝ) + 2 := by push_cast; ring
    rw [e1]
    have : (k : ℝ) + 2 ≠ 0 := by positivity
    field_simp
    ring

theorem lagDeriv_eq (n : ℕ) (hn : n ≠ 0) (x : ℝ) (hx : x ≠ 0) :
    lagDeriv n α x = (derivative (lagPoly α n)).eval x := by
  obtain ⟨k, rfl⟩ : ∃ k, n = k + 1 := ⟨n - 1, by omega⟩
  have h := congrArg (eval x) (lagPoly_rel (α := α) k).1
  simp only [eval_mul, eval_sub, eval_C, eval_X] at h
  rw [lagDeriv, lagPair_eq, div_eq_iff hx]
  push_cast
  linarith

include hα in
/-- The Gauss-Laguerre rule with the weights of the code. -/
theorem lagRule_exact (n : ℕ) (hn : n ≠ 0) (z : List ℝ) (hl : z.length = n) (hnd : z.Nodup)
    (h0 : ∀ v ∈ z, v ≠ 0) (hroot : ∀ v ∈ z, (lagPoly α n).eval v = 0) (f : ℝ[X])
    (hf : f.degree < (2 * n : ℕ)) :
    applyRule (laRootsNewton n α z) (fun t => f.eval t)
      = ∫ t in Set.Ioi (0 : ℝ), f.eval t * t ^ α * exp (-t) := by
  have hcard : z.toFinset.card = n := by rw [List.toFinset_card_of_nodup hnd, hl]
  have hroot' : ∀ x ∈ z.toFinset, (lagPoly α n).eval x = 0 := fun x hx =>
    hroot x (List.mem_toFinset.1 hx)
  have := gauss_exact (L := lagLin α hα) (lagPoly_ne_zero n)
    (by rw [hcard]; exact lagPoly_natDegree n) hroot' (by rw [hcard]; exact lagPoly_orth hα n) f
    (by rwa [hcard])
  rw [← lagLin_apply hα, this, List.sum_toFinset _ hnd, applyRule, laRootsNewton, List.map_map]
  congr 1
  refine List.map_congr_left fun v hv => ?_
  simp only [Function.comp_def]
  obtain ⟨k, rfl⟩ : ∃ k, n = k + 1 := ⟨n - 1, by omega⟩
  have hv0 := h0 v hv
  have hrv := hroot v hv
  have hw := lagPoly_weight hα (k + 1) hn z.toFinset hcard hroot' v (List.mem_toFinset.2 hv)
  rw [lagDeriv_eq _ hn _ hv0, lagPair_eq, hrv]
  simp only [zero_div, sub_zero]
  have hD := congrArg (eval v) (lagPoly_rel (α := α) k).1
  simp only [eval_mul, eval_sub, eval_C, eval_X, hrv] at hD
  set d := (derivative (lagPoly α (k + 1))).eval v with hd
  set p := (lagPoly α k).eval v with hp
  set w := lagLin α hα (Lagrange.basis z.toFinset id v) with hww
  have hka : (0 : ℝ) < (k : ℝ) + 1 + α := by
    have : (0 : ℝ) ≤ k := by positivity
    linarith
  have hG : 0 < Gamma (α + ((k + 1 : ℕ) : ℝ)) := Gamma_pos_of_pos (by push_cast; linarith)
  have hGn : Gamma ((k + 1 : ℕ) : ℝ) = (k.factorial : ℝ) := by
    push_cast; exact Gamma_nat_eq_factorial k
  have hfk : (0 : ℝ) < (k.factorial : ℝ) := by exact_mod_cast Nat.factorial_pos k
  rw [← log_div hG.ne' (by rw [hGn]; exact hfk.ne'), exp_log (by rw [hGn]; positivity), hGn]
  have hfac : ((k + 1).factorial : ℝ) = ((k : ℝ) + 1) * (k.factorial : ℝ) := by
    rw [Nat.factorial_succ]; push_cast; ring
  have hg1 : Gamma (α + ((k + 1 : ℕ) : ℝ) + 1)
      = (α + ((k + 1 : ℕ) : ℝ)) * Gamma (α + ((k + 1 : ℕ) : ℝ)) :=
    Gamma_add_one (by push_cast; intro h; linarith)
  rw [hfac, hg1] at hw
  have hd0 : d ≠ 0 := by
    intro h
    rw [h] at hw
    have : (0 : ℝ) < (α + ((k + 1 : ℕ) : ℝ)) * Gamma (α + ((k + 1 : ℕ) : ℝ)) / (((k : ℝ) + 1) * k.factorial) := by
      have : (0 : ℝ) < α + ((k + 1 : ℕ) : ℝ) := by push_cast; linarith
      positivity
    rw [← hw] at this
    simp at this
  have hp0 : p = -(v * d) / ((k : ℝ) + 1 + α) := by
    rw [eq_div_iff hka.ne']; linarith
  have hp1 : p ≠ 0 := by rw [hp0]; exact div_ne_zero (neg_ne_zero.2 (mul_ne_zero hv0 hd0)) hka.ne'
  congr 1
  have hk1 : (k : ℝ) + 1 ≠ 0 := by positivity
  have hkc : ((k + 1 : ℕ) : ℝ) = (k : ℝ) + 1 := by push_cast; ring
  rw [hkc] at hw ⊢
  rw [hp0]
  field_simp at hw ⊢
  linear_combination -hw

end Wafo.Quad
