import Verif.Pade.Model
import Mathlib.Algebra.Polynomial.Roots
import Mathlib.RingTheory.Polynomial.Basic
import Mathlib.RingTheory.Coprime.Lemmas

set_option linter.unusedSectionVars false

namespace Wafo.Pade

open Wafo.Poly Finset Polynomial

/-- What `svd` is assumed to return: `u = u1 diag(w) v` with orthonormal columns of `u1` and rows of `v`. -/
structure IsSvd {n c : ℕ} (u : Fin n → Fin c → ℝ) (s : Svd n c) : Prop where
  prod : ∀ i j, u i j = ∑ l, s.u1 i l * s.w l * s.v l j
  orthU : ∀ a b, ∑ i, s.u1 i a * s.u1 i b = if a = b then 1 else 0
  orthV : ∀ a b, ∑ j, s.v a j * s.v b j = if a = b then 1 else 0

theorem solve_spec {n c : ℕ} {u : Fin n → Fin c → ℝ} {s : Svd n c} (hs : IsSvd u s) (bb : Fin n → ℝ) (y : Fin c → ℝ)
    (hy : ∀ i, ∑ j, u i j * y j = bb i) (i : Fin n) : ∑ j, u i j * solve s bb j = bb i := by
  classical
  set z : Fin c → ℝ := fun l => ∑ j, s.v l j * y j with hz
  have e1 : ∀ i, bb i = ∑ l, s.u1 i l * s.w l * z l := by
    intro i
    rw [← hy i]
    simp only [hs.prod, sum_mul, hz, mul_sum]
    rw [sum_comm]
    exact sum_congr rfl fun l _ => sum_congr rfl fun j _ => by ring
  have e2 : ∀ l, ∑ i, bb i * s.u1 i l = s.w l * z l := by
    intro l
    simp only [e1, sum_mul]
    rw [sum_comm]
    have : ∀ a, ∑ i, s.u1 i a * s.w a * z a * s.u1 i l = if a = l then s.w a * z a else 0 := by
      intro a
      have h := hs.orthU a l
      have : ∑ i, s.u1 i a * s.w a * z a * s.u1 i l = (∑ i, s.u1 i a * s.u1 i l) * (s.w a * z a) := by
        rw [sum_mul]; exact sum_congr rfl fun i _ => by ring
      rw [this, h]; split <;> simp
    simp only [this, sum_ite_eq', mem_univ, if_true]
  set q : Fin c → ℝ := fun l => if s.w l = 0 then 0 else (∑ i, bb i * s.u1 i l) / s.w l with hq
  have e3 : ∀ l, s.w l * q l = s.w l * z l := by
    intro l
    simp only [hq]
    by_cases h : s.w l = 0
    · simp [h]
    · rw [if_neg h, e2]; field_simp
  have e4 : ∀ l, ∑ j, s.v l j * solve s bb j = q l := by
    intro l
    have : ∀ j, solve s bb j = ∑ a, q a * s.v a j := fun j => rfl
    simp only [this, mul_sum]
    rw [sum_comm]
    have : ∀ a, ∑ j, s.v l j * (q a * s.v a j) = if l = a then q a else 0 := by
      intro a
      have : ∑ j, s.v l j * (q a * s.v a j) = (∑ j, s.v l j * s.v a j) * q a := by
        rw [sum_mul]; exact sum_congr rfl fun i _ => by ring
      rw [this, hs.orthV l a]; split <;> simp
    simp only [this, sum_ite_eq, mem_univ, if_true]
  have e5 : ∑ j, u i j * solve s bb j = ∑ l, s.u1 i l * (s.w l * ∑ j, s.v l j * solve s bb j) := by
    simp only [hs.prod, sum_mul, mul_sum]
    rw [sum_comm]
    exact sum_congr rfl fun l _ => sum_congr rfl fun j _ => by ring
  rw [e5, e1 i]
  exact sum_congr rfl fun l _ => by rw [e4, e3]; ring

theorem peval_snoc (l : List ℝ) (a t : ℝ) : peval (l ++ [a]) t = peval l t * t + a := by
  simp [peval, List.foldl_append]

theorem peval_ofFn : ∀ (n : ℕ) (f : Fin n → ℝ) (t : ℝ), peval (List.ofFn f).reverse t = ∑ j, f j * t ^ (j : ℕ)
  | 0, f, t => by simp [peval]
  | n + 1, f, t => by
    rw [List.ofFn_succ, List.reverse_cons, peval_snoc, peval_ofFn n, Fin.sum_univ_succ, sum_mul]
    simp only [Fin.val_zero, pow_zero, mul_one, Fin.val_succ, pow_succ]
    rw [add_comm]
    congr 1
    exact sum_congr rfl fun j _ => by ring

variable {m k : ℕ}

/-- The numerator as a polynomial. -/
noncomputable def numPoly (cof : Fin (m + k + 1) → ℝ) : ℝ[X] :=
  ∑ j : Fin (m + 1), C (cof ⟨j, by omega⟩) * X ^ (j : ℕ)

/-- The denominator as a polynomial. -/
noncomputable def denPoly (cof : Fin (m + k + 1) → ℝ) : ℝ[X] :=
  (∑ j : Fin k, C (cof ⟨m + 1 + j, by omega⟩) * X ^ (j : ℕ)) * X + 1

theorem peval_numer (cof : Fin (m + k + 1) → ℝ) (t : ℝ) : peval (numer m k cof) t = (numPoly cof).eval t := by
  rw [numer, peval_ofFn, numPoly, eval_finsetSum]
  simp

theorem peval_denom (cof : Fin (m + k + 1) → ℝ) (t : ℝ) : peval (denom m k cof) t = (denPoly cof).eval t := by
  rw [denom, peval_snoc, peval_ofFn, denPoly, eval_add, eval_mul, eval_finsetSum]
  simp

theorem numPoly_deg (cof : Fin (m + k + 1) → ℝ) : (numPoly cof).natDegree ≤ m := by
  apply natDegree_sum_le_of_forall_le
  intro j _
  exact (natDegree_C_mul_X_pow_le _ _).trans (by omega)

theorem denPoly_deg (cof : Fin (m + k + 1) → ℝ) : (denPoly cof).natDegree ≤ k := by
  unfold denPoly
  rw [sum_mul]
  apply (natDegree_add_le _ _).trans
  rw [natDegree_one, max_eq_left (Nat.zero_le _)]
  apply natDegree_sum_le_of_forall_le
  intro j _
  rw [mul_assoc, ← pow_succ]
  exact (natDegree_C_mul_X_pow_le _ _).trans (by omega)

theorem denPoly_zero (cof : Fin (m + k + 1) → ℝ) : (denPoly cof).coeff 0 = 1 := by
  simp [denPoly]

theorem split (F : Fin (m + k + 1) → ℝ) :
    ∑ j, F j = (∑ j : Fin (m + 1), F ⟨j, by omega⟩) + ∑ j : Fin k, F ⟨m + 1 + j, by omega⟩ := by
  have h : m + 1 + k = m + k + 1 := by omega
  rw [← (finCongr h).sum_comp F, Fin.sum_univ_add]
  rfl

/-- The equations solved in a pass, as a relation between the polynomials at the points. -/
theorem design_mul {n : ℕ} (x wt bb : Fin n → ℝ) (cof : Fin (m + k + 1) → ℝ) (i : Fin n) :
    ∑ j, design m k x wt bb i j * cof j =
      wt i * (numPoly cof).eval (x i) - bb i * ((denPoly cof).eval (x i) - 1) := by
  rw [split, numPoly, denPoly, eval_add, eval_mul, eval_finsetSum, eval_finsetSum, mul_sum, eval_one, add_sub_cancel_right,
    sum_mul, mul_sum, sub_eq_add_neg, ← sum_neg_distrib]
  congr 1
  · refine sum_congr rfl fun j _ => ?_
    rw [design, if_pos (by show (j : ℕ) ≤ m; omega)]
    simp only [eval_mul, eval_C, eval_pow, eval_X]
    ring
  · refine sum_congr rfl fun j _ => ?_
    rw [design, if_neg (by show ¬ m + 1 + (j : ℕ) ≤ m; omega)]
    simp only [eval_mul, eval_C, eval_pow, eval_X, show m + 1 + (j : ℕ) - m = j + 1 by omega, pow_succ]
    ring

/-- The coefficients of given polynomials in the order of `cof`. -/
noncomputable def cofOf (m k : ℕ) (P Q : ℝ[X]) (j : Fin (m + k + 1)) : ℝ := if (j : ℕ) ≤ m then P.coeff j else Q.coeff (j - m)

theorem numPoly_cofOf (P Q : ℝ[X]) (hP : P.natDegree ≤ m) : numPoly (cofOf m k P Q) = P := by
  conv_rhs => rw [P.as_sum_range_C_mul_X_pow' (Nat.lt_succ_of_le hP)]
  rw [numPoly, ← Fin.sum_univ_eq_sum_range (fun j => C (P.coeff j) * X ^ j)]
  refine sum_congr rfl fun j _ => ?_
  rw [cofOf, if_pos (by show (j : ℕ) ≤ m; omega)]

theorem denPoly_cofOf (P Q : ℝ[X]) (hQ : Q.natDegree ≤ k) (h0 : Q.coeff 0 = 1) : denPoly (cofOf m k P Q) = Q := by
  conv_rhs => rw [Q.as_sum_range_C_mul_X_pow' (Nat.lt_succ_of_le hQ)]
  rw [sum_range_succ', h0, denPoly, sum_mul, ← Fin.sum_univ_eq_sum_range (fun j => C (Q.coeff (j + 1)) * X ^ (j + 1))]
  simp only [map_one, pow_zero, mul_one]
  congr 1
  refine sum_congr rfl fun j _ => ?_
  rw [cofOf, if_neg (by show ¬ m + 1 + (j : ℕ) ≤ m; omega), mul_assoc, ← pow_succ,
    show m + 1 + (j : ℕ) - m = j + 1 by omega]

/-- Two quotients of polynomials that agree at more than `m + k` points. -/
theorem unique_quotient {n : ℕ} (x : Fin n → ℝ) (hx : Function.Injective x) (hn : m + k < n) (N D P Q : ℝ[X])
    (hN : N.natDegree ≤ m) (hD : D.natDegree ≤ k) (hP : P.natDegree ≤ m) (hQ : Q.natDegree ≤ k) (hD0 : D.coeff 0 = 1)
    (hQ0 : Q.coeff 0 = 1) (hc : IsCoprime P Q) (hdeg : Q.natDegree = k ∨ (P ≠ 0 ∧ P.natDegree = m))
    (h : ∀ i, N.eval (x i) * Q.eval (x i) = P.eval (x i) * D.eval (x i)) : N = P ∧ D = Q := by
  have e : N * Q = P * D := by
    rw [← sub_eq_zero]
    apply eq_zero_of_natDegree_lt_card_of_eval_eq_zero _ hx
    · intro i; simp [h i]
    · rw [Fintype.card_fin]
      apply lt_of_le_of_lt _ hn
      apply (natDegree_sub_le _ _).trans (max_le _ _)
      · exact natDegree_mul_le.trans (add_le_add hN hQ)
      · exact natDegree_mul_le.trans (add_le_add hP hD)
  have hQn : Q ≠ 0 := by rintro rfl; simp at hQ0
  have hDn : D ≠ 0 := by rintro rfl; simp at hD0
  obtain ⟨S, hS⟩ : Q ∣ D := hc.symm.dvd_of_dvd_mul_left (by rw [← e]; exact dvd_mul_left _ _)
  have hSn : S ≠ 0 := by rintro rfl; rw [mul_zero] at hS; exact hDn hS
  have eN : N = P * S := by
    rw [hS] at e
    apply mul_right_cancel₀ hQn
    rw [e]; ring
  have hSd : S.natDegree = 0 := by
    rcases hdeg with hq | ⟨hp0, hp⟩
    · have := natDegree_mul hQn hSn
      rw [← hS] at this; omega
    · have := natDegree_mul hp0 hSn
      rw [← eN] at this; omega
  rw [natDegree_eq_zero] at hSd
  obtain ⟨c, rfl⟩ := hSd
  have hc1 : c = 1 := by
    rw [hS, mul_coeff_zero, hQ0, coeff_C_zero, one_mul] at hD0; exact hD0
  subst hc1
  simp only [map_one, mul_one] at hS eN
  exact ⟨eN, hS⟩

theorem pymax_fin (l : List Dev) : ∀ (d : Dev) (r : ℝ), pymax d l = .fin r →
    (∃ s ≤ r, d = .fin s) ∧ ∀ e ∈ l, e = .nan ∨ ∃ s ≤ r, e = .fin s := by
  induction l with
  | nil => intro d r h; exact ⟨⟨r, le_rfl, h⟩, by simp⟩
  | cons e l ih =>
    intro d r h
    rw [pymax] at h
    obtain ⟨⟨s, hs, h1⟩, h2⟩ := ih _ r h
    by_cases hg : e.gt d
    · rw [if_pos hg] at h1
      subst h1
      cases d with
      | fin t =>
        have : t < s := hg
        refine ⟨⟨t, by linarith, rfl⟩, ?_⟩
        intro e' he'
        rcases List.mem_cons.1 he' with rfl | h'
        · exact Or.inr ⟨s, hs, rfl⟩
        · exact h2 e' h'
      | inf => exact absurd hg (by simp [Dev.gt])
      | nan => exact absurd hg (by simp [Dev.gt])
    · rw [if_neg hg] at h1
      subst h1
      refine ⟨⟨s, hs, rfl⟩, ?_⟩
      intro e' he'
      rcases List.mem_cons.1 he' with rfl | h'
      · cases e' with
        | fin t => exact Or.inr ⟨t, le_trans (not_lt.1 hg) hs, rfl⟩
        | inf => exact absurd trivial hg
        | nan => exact Or.inl rfl
      · exact h2 e' h'

theorem pymax_const (l : List Dev) (r : ℝ) (h : ∀ e ∈ l, e = .fin r) : pymax (.fin r) l = .fin r := by
  induction l with
  | nil => rfl
  | cons e l ih =>
    rw [pymax, h e (by simp), if_neg (by simp [Dev.gt])]
    exact ih fun e he => h e (by simp [he])

theorem devmax_fin {n : ℕ} {x fs : Fin n → ℝ} {c : List ℝ × List ℝ} {r : ℝ} (h : devmax x fs c = .ok (.fin r)) :
    0 ≤ r ∧ ∀ i, deviation (peval c.1 (x i)) (peval c.2 (x i)) (fs i) = .nan ∨
      ∃ s ≤ r, deviation (peval c.1 (x i)) (peval c.2 (x i)) (fs i) = .fin s := by
  unfold devmax at h
  cases hl : List.ofFn fun i => deviation (peval c.1 (x i)) (peval c.2 (x i)) (fs i) with
  | nil => rw [hl] at h; simp at h
  | cons d l =>
    rw [hl] at h
    obtain ⟨⟨s, hs, hd⟩, h2⟩ := pymax_fin l d r (Except.ok.inj h)
    have hmem : ∀ i, deviation (peval c.1 (x i)) (peval c.2 (x i)) (fs i) ∈ d :: l := by
      intro i; rw [← hl, List.mem_ofFn]; exact ⟨i, rfl⟩
    constructor
    · have : d ∈ List.ofFn fun i => deviation (peval c.1 (x i)) (peval c.2 (x i)) (fs i) := by rw [hl]; simp
      obtain ⟨i, hi⟩ := List.mem_ofFn.1 this
      rw [hd, deviation] at hi
      split at hi
      · split at hi <;> simp at hi
      · rw [Dev.fin.injEq] at hi
        rw [← hi] at hs
        exact (abs_nonneg _).trans hs
    · intro i
      rcases List.mem_cons.1 (hmem i) with h' | h'
      · exact Or.inr ⟨s, hs, h'.trans hd⟩
      · exact h2 _ h'

end Wafo.Pade
