import Mathlib.Analysis.SpecialFunctions.Gaussian.GaussianIntegral
import Verif.Quad.Newton

/-! Hermite polynomials as computed by `_h_roots_newton`, and the Gauss-Hermite rule. -/

set_option linter.unusedSectionVars false

namespace Wafo.Quad

open Polynomial Finset Real MeasureTheory

theorem integrable_herMono (j : ℕ) : Integrable fun x : ℝ => x ^ j * exp (-x ^ 2) := by
  have := integrable_rpow_mul_exp_neg_mul_sq (b := 1) one_pos (s := j)
    (by have : (0 : ℝ) ≤ j := by positivity
        linarith)
  simpa using this

theorem integrable_her (P : ℝ[X]) : Integrable fun x : ℝ => P.eval x * exp (-x ^ 2) := by
  have e : (fun x : ℝ => P.eval x * exp (-x ^ 2))
      = fun x : ℝ => ∑ j ∈ range (P.natDegree + 1), P.coeff j * (x ^ j * exp (-x ^ 2)) := by
    funext x
    rw [eval_eq_sum_range, Finset.sum_mul]
    exact Finset.sum_congr rfl fun j _ => by ring
  rw [e]
  exact integrable_finsetSum _ fun j _ => (integrable_herMono j).const_mul _

/-- Integration against `exp(-x^2)`. -/
noncomputable def herLin : ℝ[X] →ₗ[ℝ] ℝ where
  toFun P := ∫ x : ℝ, P.eval x * exp (-x ^ 2)
  map_add' P Q := by
    simp only [eval_add, add_mul]
    exact integral_add (integrable_her P) (integrable_her Q)
  map_smul' c P := by
    simp only [eval_smul, RingHom.id_apply, smul_eq_mul, mul_assoc]
    exact integral_const_mul _ _

theorem herLin_apply (P : ℝ[X]) : herLin P = ∫ x : ℝ, P.eval x * exp (-x ^ 2) := rfl

theorem herLin_parts (P : ℝ[X]) : herLin (derivative P) = herLin (C 2 * X * P) := by
  have hd : ∀ x : ℝ, HasDerivAt (fun x => P.eval x * exp (-x ^ 2))
      ((derivative P - C 2 * X * P).eval x * exp (-x ^ 2)) x := by
    intro x
    have h1 := P.hasDerivAt x
    have h2 : HasDerivAt (fun x : ℝ => exp (-x ^ 2)) (exp (-x ^ 2) * (-(2 * x))) x := by
      have : HasDerivAt (fun x : ℝ => -x ^ 2) (-(2 * x)) x := by
        have h := (hasDerivAt_pow 2 x).fun_neg
        simpa using h
      exact this.exp
    have h3 := h1.fun_mul h2
    have e : (derivative P - C 2 * X * P).eval x * exp (-x ^ 2)
        = (derivative P).eval x * exp (-x ^ 2) + P.eval x * (exp (-x ^ 2) * (-(2 * x))) := by
      simp only [eval_sub, eval_mul, eval_C, eval_X]
      ring
    rw [e]
    exact h3
  have h := integral_eq_zero_of_hasDerivAt_of_integrable hd (integrable_her _) (integrable_her P)
  rw [← herLin_apply, map_sub] at h
  linarith

/-- The polynomials of the recurrence in `_h_roots_newton`. -/
noncomputable def herPoly : ℕ → ℝ[X]
  | 0 => C (π ^ (-(1 : ℝ) / 4))
  | 1 => C √2 * X * C (π ^ (-(1 : ℝ) / 4))
  | k + 2 => C √(2 / ((k : ℝ) + 2)) * X * herPoly (k + 1) - C √(((k : ℝ) + 1) / ((k : ℝ) + 2)) * herPoly k

theorem herPoly_rel (k : ℕ) :
    C 2 * X * herPoly k - derivative (herPoly k) = C √(2 * ((k : ℝ) + 1)) * herPoly (k + 1) ∧
    derivative (herPoly (k + 1)) = C √(2 * ((k : ℝ) + 1)) * herPoly k := by
  induction k with
  | zero =>
    constructor
    · simp only [herPoly, derivative_C, sub_zero, Nat.cast_zero, zero_add, mul_one]
      have : (C (2 : ℝ) : ℝ[X]) = C √2 * C √2 := by
        rw [← C_mul, mul_self_sqrt (by norm_num)]
      rw [this]; ring
    · simp only [herPoly, Nat.cast_zero, zero_add, mul_one, derivative_mul, derivative_C, derivative_X]
      ring
  | succ k ih =>
    obtain ⟨h1, h2⟩ := ih
    have hk : (0 : ℝ) < (k : ℝ) + 2 := by positivity
    have hk1 : (0 : ℝ) < (k : ℝ) + 1 := by positivity
    have ec : 2 * (((k + 1 : ℕ) : ℝ) + 1) = 2 * ((k : ℝ) + 2) := by push_cast; ring
    have s1 : √(2 * ((k : ℝ) + 2)) * √(2 / ((k : ℝ) + 2)) = 2 := by
      rw [← sqrt_mul (by positivity), show 2 * ((k : ℝ) + 2) * (2 / ((k : ℝ) + 2)) = 2 ^ 2 by
        field_simp, sqrt_sq (by norm_num)]
    have s2 : √(2 * ((k : ℝ) + 2)) * √(((k : ℝ) + 1) / ((k : ℝ) + 2)) = √(2 * ((k : ℝ) + 1)) := by
      rw [← sqrt_mul (by positivity)]
      congr 1; field_simp
    have hR : C 2 * X * herPoly (k + 1) - derivative (herPoly (k + 1))
        = C √(2 * ((k : ℝ) + 2)) * herPoly (k + 2) := by
      rw [h2, herPoly, mul_sub, ← mul_assoc, ← mul_assoc, ← mul_assoc, ← C_mul, ← C_mul, s1, s2]
    refine ⟨by rw [ec]; exact hR, ?_⟩
    rw [ec]
    have hd := congrArg derivative hR
    have hs0 : √(2 * ((k : ℝ) + 2)) ≠ 0 := (sqrt_pos.2 (by positivity)).ne'
    have hC0 : (C √(2 * ((k : ℝ) + 2)) : ℝ[X]) ≠ 0 := by rwa [Ne, C_eq_zero]
    refine mul_left_cancel₀ hC0 ?_
    rw [derivative_C_mul] at hd
    rw [← hd, ← mul_assoc, ← C_mul, mul_self_sqrt (by positivity)]
    have hsq : (C √(2 * ((k : ℝ) + 1)) : ℝ[X]) * C √(2 * ((k : ℝ) + 1)) = 2 * (C (k : ℝ) + 1) := by
      rw [← C_mul, mul_self_sqrt (by positivity), C_mul, C_add]; simp [map_ofNat]
    rw [derivative_sub, derivative_mul, derivative_mul, derivative_C, derivative_X, h2,
      derivative_C_mul]
    have e2 : (C (2 * ((k : ℝ) + 2)) : ℝ[X]) = 2 * (C (k : ℝ) + 2) := by
      rw [C_mul, C_add]; simp [map_ofNat]
    have e3 : (C (2 : ℝ) : ℝ[X]) = 2 := by simp [map_ofNat]
    rw [e3] at h1
    rw [e2, e3]
    linear_combination C √(2 * ((k : ℝ) + 1)) * h1 + herPoly (k + 1) * hsq

theorem herPoly_coeff (k : ℕ) : (herPoly k).natDegree ≤ k ∧ 0 < (herPoly k).coeff k := by
  have hc : (0 : ℝ) < π ^ (-(1 : ℝ) / 4) := rpow_pos_of_pos pi_pos _
  induction k using Nat.strong_induction_on with
  | _ k ih =>
    match k with
    | 0 => exact ⟨by simp [herPoly], by simpa [herPoly] using hc⟩
    | 1 =>
      constructor
      · rw [herPoly, mul_comm, ← mul_assoc, ← C_mul]
        refine le_trans (natDegree_C_mul_le _ _) natDegree_X_le
      · rw [herPoly, coeff_mul_C, coeff_C_mul_X]
        simp only [if_true]
        positivity
    | k + 2 =>
      obtain ⟨d1, c1⟩ := ih (k + 1) (by omega)
      obtain ⟨d0, c0⟩ := ih k (by omega)
      have hk : (0 : ℝ) < √(2 / ((k : ℝ) + 2)) := sqrt_pos.2 (by positivity)
      constructor
      · rw [herPoly]
        refine le_trans (natDegree_sub_le _ _) (max_le ?_ ?_)
        · rw [mul_assoc]
          refine le_trans (natDegree_C_mul_le _ _) (le_trans natDegree_mul_le ?_)
          simp; omega
        · exact le_trans (natDegree_C_mul_le _ _) (by omega)
      · rw [herPoly, coeff_sub, coeff_C_mul, mul_assoc, coeff_C_mul, coeff_X_mul,
          coeff_eq_zero_of_natDegree_lt (by omega : (herPoly k).natDegree < k + 2)]
        simp only [mul_zero, sub_zero]
        positivity

theorem herPoly_natDegree (k : ℕ) : (herPoly k).natDegree = k := by
  obtain ⟨h1, h2⟩ := herPoly_coeff k
  exact le_antisymm h1 (le_natDegree_of_ne_zero h2.ne')

theorem herPoly_ne_zero (k : ℕ) : herPoly k ≠ 0 := by
  intro h
  have := (herPoly_coeff k).2
  rw [h] at this; simp at this

theorem herPoly_raise (k : ℕ) (q : ℝ[X]) :
    √(2 * ((k : ℝ) + 1)) * herLin (herPoly (k + 1) * q) = herLin (herPoly k * derivative q) := by
  have h1 := (herPoly_rel k).1
  have h2 := herLin_parts (herPoly k * q)
  rw [derivative_mul, map_add] at h2
  have h3 : C √(2 * ((k : ℝ) + 1)) * (herPoly (k + 1) * q)
      = C 2 * X * (herPoly k * q) - derivative (herPoly k) * q := by
    rw [← mul_assoc, ← h1]; ring
  have h4 := congrArg herLin h3
  rw [← smul_eq_C_mul, map_smul, map_sub, smul_eq_mul] at h4
  rw [h4]; linarith

theorem herPoly_orth (n : ℕ) : ∀ q : ℝ[X], q.degree < (n : ℕ) → herLin (herPoly n * q) = 0 := by
  induction n with
  | zero =>
    intro q hq
    have : q = 0 := by
      rw [← degree_eq_bot]
      exact (Nat.WithBot.lt_zero_iff).1 (by simpa using hq)
    subst this; simp
  | succ n ih =>
    intro q hq
    have h := herPoly_raise n q
    have hd : (derivative q).degree < (n : ℕ) := by
      by_cases h0 : q.natDegree = 0
      · rw [(natDegree_eq_zero.1 h0).choose_spec.symm, derivative_C, degree_zero]
        exact WithBot.bot_lt_coe _
      · have h1 : q.natDegree < n + 1 := by
          have hq0 : q ≠ 0 := by rintro rfl; simp at h0
          exact (natDegree_lt_iff_degree_lt hq0).2 hq
        have h2 := natDegree_derivative_lt h0
        exact degree_lt_of_natDegree_lt _ _ (by omega)
    rw [ih _ hd] at h
    exact (mul_eq_zero.1 h).resolve_left (sqrt_pos.2 (by positivity)).ne'

theorem herPoly_norm (n : ℕ) : herLin (herPoly n * herPoly n) = 1 := by
  induction n with
  | zero =>
    simp only [herPoly, herLin_apply, eval_mul, eval_C]
    rw [integral_const_mul]
    have := integral_gaussian 1
    simp only [neg_mul, one_mul, div_one] at this
    rw [this, sqrt_eq_rpow, ← rpow_add pi_pos, ← rpow_add pi_pos]
    norm_num
  | succ n ih =>
    have h := herPoly_raise n (herPoly (n + 1))
    rw [(herPoly_rel n).2, mul_left_comm, ← smul_eq_C_mul, map_smul, ih, smul_eq_mul] at h
    exact mul_left_cancel₀ (sqrt_pos.2 (by positivity)).ne' h

theorem herPoly_weight (n : ℕ) (hn : n ≠ 0) (s : Finset ℝ) (hs : s.card = n)
    (hroot : ∀ x ∈ s, (herPoly n).eval x = 0) (x : ℝ) (hx : x ∈ s) :
    herLin (Lagrange.basis s id x) * ((derivative (herPoly n)).eval x) ^ 2 = 2 := by
  set P := herPoly n with hP
  set R := P /ₘ (X - C x) with hR
  set w := herLin (Lagrange.basis s id x) with hw
  set d := (derivative P).eval x with hd
  have hP0 : P ≠ 0 := herPoly_ne_zero n
  have hdeg : P.natDegree = s.card := by rw [hs]; exact herPoly_natDegree n
  have orth : ∀ q : ℝ[X], q.degree < (s.card : ℕ) → herLin (P * q) = 0 := by
    rw [hs]; exact herPoly_orth n
  have hRd : R.natDegree = n - 1 := by rw [hR, quot_natDegree, hdeg, hs]
  have hPd : (derivative P).natDegree ≤ n - 1 := by
    have := natDegree_derivative_le P
    rw [hdeg, hs] at this
    exact this
  have hRx : R.eval x = d := quot_eval_self x (hroot x hx)
  have q1 : herLin (R * derivative P) = w * d ^ 2 := by
    rw [hR, gauss_single hP0 hdeg hroot orth hx, sq]
    rw [← hR]
    have := natDegree_mul_le (p := R) (q := derivative P)
    omega
  have q2 : herLin (R * R) = w * d ^ 2 := by
    have := gauss_single hP0 hdeg hroot orth hx R (by
      rw [← hR]
      have := natDegree_mul_le (p := R) (q := R)
      omega)
    rw [← hR, hRx] at this
    rw [this, sq]
  have hfac : (X - C x) * R = P := root_quot x (hroot x hx)
  have hder : derivative P = R + (X - C x) * derivative R := by
    conv_lhs => rw [← hfac]
    simp [derivative_mul]
  have hparts : derivative ((X - C x) * (R * R)) = R * R + C 2 * ((X - C x) * R * derivative R) := by
    simp only [derivative_mul, derivative_sub, derivative_X, derivative_C]
    rw [map_ofNat]
    ring
  have hI := congrArg herLin hparts
  have hz : herLin (P * R) = 0 := orth R (degree_lt_of_natDegree_lt _ _ (by omega))
  have hb : herLin (C 2 * X * ((X - C x) * (R * R))) = 2 := by
    have e : C 2 * X * ((X - C x) * (R * R)) = C 2 * (P * P) + C (2 * x) * (P * R) := by
      rw [C_mul, ← hfac]; ring
    rw [e, ← smul_eq_C_mul, ← smul_eq_C_mul, map_add, map_smul, map_smul, hz, hP, herPoly_norm]
    simp
  rw [herLin_parts, hb, map_add, q2, ← smul_eq_C_mul, map_smul, smul_eq_mul] at hI
  have hq1 : R * derivative P = R * R + (X - C x) * R * derivative R := by rw [hder]; ring
  have hJ := congrArg herLin hq1
  rw [q1, map_add, q2] at hJ
  linarith

theorem hermite_gauss (n : ℕ) (hn : n ≠ 0) (s : Finset ℝ) (hs : s.card = n)
    (hroot : ∀ x ∈ s, (herPoly n).eval x = 0) (f : ℝ[X]) (hf : f.degree < (2 * n : ℕ)) :
    ∑ x ∈ s, 2 / ((derivative (herPoly n)).eval x) ^ 2 * f.eval x
      = ∫ x : ℝ, f.eval x * exp (-x ^ 2) := by
  have := gauss_exact (L := herLin) (herPoly_ne_zero n) (by rw [hs]; exact herPoly_natDegree n)
    hroot (by rw [hs]; exact herPoly_orth n) f (by rwa [hs])
  rw [← herLin_apply, this]
  refine Finset.sum_congr rfl fun x hx => ?_
  congr 1
  have hw := herPoly_weight n hn s hs hroot x hx
  have h0 : (derivative (herPoly n)).eval x ^ 2 ≠ 0 := by
    intro h; rw [h] at hw; norm_num at hw
  rw [div_eq_iff h0, hw]

theorem herPair_eq (x : ℝ) (k : ℕ) :
    herPair x (k + 1) = ((herPoly k).eval x, (herPoly (k + 1)).eval x) := by
  induction k with
  | zero =>
    simp only [herPair, herPoly, eval_mul, eval_C, eval_X]
    ext
    · rfl
    · simp only [Nat.cast_zero, zero_add, div_one]
      simp
      left; ring
  | succ k ih =>
    rw [herPair, ih]
    simp only [Prod.mk.injEq, true_and]
    rw [herPoly]
    simp only [eval_mul, eval_sub, eval_C, eval_X]
    have e1 : (((k + 1 : ℕ) : ℝ) + 1) = (k : ℝ) + 2 := by push_cast; ring
    rw [e1]
    have e2 : (k : ℝ) + 2 - 1 = k + 1 := by ring
    rw [e2]
    ring

theorem herDeriv_eq (n : ℕ) (hn : n ≠ 0) (x : ℝ) :
    herDeriv n x = (derivative (herPoly n)).eval x := by
  obtain ⟨k, rfl⟩ : ∃ k, n = k + 1 := ⟨n - 1, by omega⟩
  rw [herDeriv, herPair_eq, (herPoly_rel k).2]
  simp

theorem herPoly_neg (k : ℕ) (x : ℝ) : (herPoly k).eval (-x) = (-1) ^ k * (herPoly k).eval x := by
  induction k using Nat.strong_induction_on with
  | _ k ih =>
    match k with
    | 0 => simp [herPoly]
    | 1 => simp [herPoly]
    | k + 2 =>
      rw [herPoly]
      simp only [eval_mul, eval_sub, eval_C, eval_X, ih (k + 1) (by omega), ih k (by omega)]
      ring

theorem herDeriv_neg_sq (n : ℕ) (hn : n ≠ 0) (x : ℝ) : herDeriv n (-x) ^ 2 = herDeriv n x ^ 2 := by
  obtain ⟨k, rfl⟩ : ∃ k, n = k + 1 := ⟨n - 1, by omega⟩
  simp only [herDeriv, herPair_eq, herPoly_neg]
  have hs : ((-1 : ℝ) ^ k) ^ 2 = 1 := by rw [← pow_mul, mul_comm, pow_mul]; simp
  rw [mul_pow, mul_pow, mul_pow, hs, one_mul]

theorem expand_nodup_pos (n : ℕ) (ys : List ℝ) (hnd : ys.Nodup) (hpos : ∀ v ∈ ys, 0 < v) :
    (ys ++ (if Odd n then [(0 : ℝ)] else []) ++ (ys.map fun v => -v).reverse).Nodup := by
  rw [List.nodup_append]
  refine ⟨?_, ?_, ?_⟩
  · rw [List.nodup_append]
    refine ⟨hnd, by split_ifs <;> simp, ?_⟩
    intro a ha b hb
    have := hpos a ha
    split_ifs at hb <;> simp at hb
    subst hb; exact this.ne'
  · rw [List.nodup_reverse]
    exact hnd.map neg_injective
  · intro a ha b hb
    rw [List.mem_reverse, List.mem_map] at hb
    obtain ⟨c, hc, rfl⟩ := hb
    have h1 := hpos c hc
    rw [List.mem_append] at ha
    rcases ha with ha | ha
    · have := hpos a ha
      intro h; linarith
    · split_ifs at ha <;> simp at ha
      subst ha
      intro h; linarith

/-- The Gauss-Hermite rule in the form in which `_h_roots_newton` delivers it. -/
theorem herRule_exact (n : ℕ) (hn : 2 ≤ n) (xs : List ℝ) (hl : xs.length = n / 2) (hnd : xs.Nodup)
    (hpos : ∀ v ∈ xs, 0 < v) (hroot : ∀ v ∈ xs, (herPoly n).eval v = 0) (f : ℝ[X])
    (hf : f.degree < (2 * n : ℕ)) :
    let z := xs ++ (if Odd n then [(0 : ℝ)] else [])
    let r := expandRoots z (z.map fun v => 2 / herDeriv n v ^ 2) n (half n)
    applyRule (r.1.zip r.2) (fun t => f.eval t) = ∫ t : ℝ, f.eval t * exp (-t ^ 2) := by
  intro z r
  set W : ℝ → ℝ := fun v => 2 / herDeriv n v ^ 2 with hW
  have hWneg : ∀ v, W (-v) = W v := by
    intro v; simp only [hW]; rw [herDeriv_neg_sq n (by omega)]
  have hr := expandRoots_spec n xs hn hl W hWneg
  simp only [r, z]
  rw [hr]
  have hndN := expand_nodup_pos n xs hnd hpos
  have hlen := expand_length n xs hl
  set N := xs ++ (if Odd n then [(0 : ℝ)] else []) ++ (xs.map fun v => -v).reverse with hN
  have hmem : ∀ v ∈ N.toFinset, (herPoly n).eval v = 0 := by
    intro v hv
    rw [List.mem_toFinset, hN, List.mem_append, List.mem_append] at hv
    rcases hv with (hv | hv) | hv
    · exact hroot v hv
    · split_ifs at hv with ho
      · simp at hv; subst hv
        have := herPoly_neg n 0
        rw [ho.neg_one_pow, neg_zero] at this
        linarith
      · simp at hv
    · rw [List.mem_reverse, List.mem_map] at hv
      obtain ⟨u, hu, rfl⟩ := hv
      rw [herPoly_neg, hroot u hu, mul_zero]
  rw [applyRule_zip_map N hndN]
  have hcard : N.toFinset.card = n := by rw [List.toFinset_card_of_nodup hndN, hlen]
  rw [← hermite_gauss n (by omega) N.toFinset hcard hmem f hf]
  refine Finset.sum_congr rfl fun v _ => ?_
  simp only [hW]
  rw [herDeriv_eq n (by omega)]

end Wafo.Quad
