import Verif.Quad.Clenshaw

/-! Exactness of the closed form rules `q5_roots`, `q6_roots` and `q7_roots`. -/

set_option linter.unusedSectionVars false

namespace Wafo.Quad

open Real Polynomial Polynomial.Chebyshev Finset

theorem applyRule_map_range (n : ℕ) (r : ℕ → ℝ × ℝ) (f : ℝ → ℝ) :
    applyRule ((List.range n).map r) f = ∑ i ∈ range n, (r i).2 * f (r i).1 := by
  rw [applyRule, List.map_map]; rfl

/-- Integration against the weight `1 / sqrt(1 - x^2)` as a linear functional. -/
noncomputable def muLin : ℝ[X] →ₗ[ℝ] ℝ where
  toFun P := ∫ x, P.eval x ∂measureT
  map_add' P Q := by
    simp only [eval_add]
    exact MeasureTheory.integral_add (integrable_measureT P.continuous.continuousOn)
      (integrable_measureT Q.continuous.continuousOn)
  map_smul' c P := by
    simp only [eval_smul, RingHom.id_apply, smul_eq_mul]
    exact MeasureTheory.integral_const_mul _ _

theorem muLin_T (m : ℕ) : muLin (T ℝ (m : ℤ)) = if m = 0 then π else 0 := by
  split_ifs with h
  · subst h; exact integral_eval_T_real_measureT_zero
  · exact integral_eval_T_real_measureT_of_ne_zero (by exact_mod_cast h)

theorem muLin_eq (P : ℝ[X]) : muLin P = ∫ x in (-1 : ℝ)..1, P.eval x * √(1 - x ^ 2)⁻¹ :=
  integral_measureT _

/-- `q5_roots` is exact. -/
theorem q5_exact (n : ℕ) (hn : n ≠ 0) (P : ℝ[X]) (hP : P.degree < (2 * n : ℕ)) :
    applyRule (q5Roots n) (fun x => P.eval x)
      = ∫ x in (-1 : ℝ)..1, P.eval x / √((x + 1) * (1 - x)) := by
  have h := integral_eq_sumZeroes hn (P := P) (by exact_mod_cast hP)
  rw [integral_measureT] at h
  have e : ∀ x : ℝ, P.eval x / √((x + 1) * (1 - x)) = P.eval x * √(1 - x ^ 2)⁻¹ := by
    intro x
    rw [sqrt_inv, ← div_eq_mul_inv]
    congr 2; ring
  simp_rw [e]
  rw [h, sumZeroes, q5Roots, applyRule_map_range, Finset.mul_sum]
  refine Finset.sum_congr rfl fun i _ => ?_
  simp only
  congr 3
  have : (n : ℝ) ≠ 0 := by exact_mod_cast hn
  field_simp
  ring

/-- The trapezoidal rule in the angle. -/
theorem trap_rule (N : ℕ) (hN : N ≠ 0) (P : ℝ[X]) (hP : P.degree < (2 * N : ℕ)) :
    muLin P = π / N * ccD N 0 P := by
  have hNr : (N : ℝ) ≠ 0 := by exact_mod_cast hN
  refine eq_of_T muLin ((π / N) • ccD N 0) (2 * N) (fun m hm => ?_) P hP
  rw [muLin_T, LinearMap.smul_apply, ccD_T _ _ _ hN, smul_eq_mul]
  by_cases h : m = 0
  · subst h
    have h2 : 2 * N ∣ (((0 : ℕ) : ℤ) - 2 * ((0 : ℕ) : ℤ)).natAbs := by simp
    rw [if_pos rfl, if_pos (by simp), if_pos h2]
    field_simp; norm_num
  · have h1 : ¬ 2 * N ∣ m + 2 * 0 := fun hd => by
      have := Nat.le_of_dvd (by omega) hd
      omega
    have h2 : ¬ 2 * N ∣ ((m : ℤ) - 2 * ((0 : ℕ) : ℤ)).natAbs := fun hd => by
      have := Nat.le_of_dvd (by omega) hd
      omega
    rw [if_neg h, if_neg h1, if_neg h2]
    simp

theorem degree_mul_lt (P Q : ℝ[X]) (m d : ℕ) (hP : P.degree < (m : ℕ)) (hQ : Q.natDegree ≤ d) :
    (P * Q).degree < (m + d : ℕ) := by
  by_cases h0 : P = 0
  · subst h0; rw [zero_mul, degree_zero]; exact WithBot.bot_lt_coe _
  have h1 : P.natDegree < m := (natDegree_lt_iff_degree_lt h0).2 hP
  refine lt_of_le_of_lt degree_le_natDegree ?_
  have := natDegree_mul_le (p := P) (q := Q)
  exact_mod_cast (by omega : (P * Q).natDegree < m + d)

/-- `q6_roots` is exact. -/
theorem q6_exact (n : ℕ) (P : ℝ[X]) (hP : P.degree < (2 * n : ℕ)) :
    applyRule (q6Roots n) (fun x => P.eval x)
      = ∫ x in (-1 : ℝ)..1, P.eval x * √((x + 1) * (1 - x)) := by
  have hdeg : (P * (1 - X ^ 2)).degree < ((2 * (n + 1) : ℕ) : WithBot ℕ) := by
    have := degree_mul_lt P (1 - X ^ 2) (2 * n) 2 hP (by
      refine le_trans (natDegree_sub_le _ _) ?_
      simp)
    rwa [show 2 * (n + 1) = 2 * n + 2 by ring]
  have h := trap_rule (n + 1) (by omega) _ hdeg
  rw [muLin_eq] at h
  have e : ∀ x : ℝ, P.eval x * √((x + 1) * (1 - x))
      = (P * (1 - X ^ 2)).eval x * √(1 - x ^ 2)⁻¹ := by
    intro x
    have h1 : (x + 1) * (1 - x) = 1 - x ^ 2 := by ring
    rw [h1, sqrt_inv]
    simp only [eval_mul, eval_sub, eval_one, eval_pow, eval_X]
    rcases lt_or_ge 0 (1 - x ^ 2) with hp | hn
    · have hs : √(1 - x ^ 2) ≠ 0 := (sqrt_pos.2 hp).ne'
      have hm := mul_self_sqrt hp.le
      field_simp
      rw [sq]; rw [hm]
    · rw [sqrt_eq_zero_of_nonpos hn]; simp
  simp_rw [e]
  rw [h, ccD_apply, Finset.sum_range_succ', q6Roots, applyRule_map_range]
  have hz : (P * (1 - X ^ 2)).eval 1 = 0 := by simp
  have hz' : (P * (1 - X ^ 2)).eval (-1) = 0 := by simp
  rw [hz, hz']
  simp only [Nat.cast_zero, mul_zero, zero_div, cos_zero, hz, zero_mul, add_zero, sub_zero, mul_one]
  rw [Finset.mul_sum]
  refine Finset.sum_congr rfl fun i _ => ?_
  have hx : ((i : ℝ) + 1) * π / (n + 1) = π * ((i + 1 : ℕ) : ℝ) / ((n + 1 : ℕ) : ℝ) := by
    push_cast; ring
  rw [hx]
  simp only [eval_mul, eval_sub, eval_one, eval_pow, eval_X]
  rw [← sin_sq]
  push_cast
  ring

/-- The sum of a cosine over the full circle, started half a step in. -/
theorem circ_cos (α : ℝ) (J : ℕ) :
    2 * sin α * ∑ j ∈ range J, cos ((2 * j + 1) * α) = sin (2 * J * α) := by
  induction J with
  | zero => simp
  | succ J ih =>
    rw [Finset.sum_range_succ]
    obtain ⟨φ, hφ⟩ : ∃ φ, (2 * (J : ℝ)) * α = φ - α := ⟨2 * J * α + α, by ring⟩
    have e1 : (2 * ((J + 1 : ℕ) : ℝ)) * α = φ + α := by push_cast; linarith
    have e2 : (2 * (J : ℝ) + 1) * α = φ := by linarith
    rw [e1, e2, sin_add]
    rw [hφ, sin_sub] at ih
    linear_combination ih

theorem circ_rule (M : ℕ) (hM : M ≠ 0) (P : ℝ[X]) (hP : P.degree < (M : ℕ)) :
    muLin P = π / M * ∑ j ∈ range M, P.eval (cos ((2 * j + 1) * π / M)) := by
  have hMr : (M : ℝ) ≠ 0 := by exact_mod_cast hM
  have key := eq_of_T muLin ((π / M) • ∑ j ∈ range M, leval (cos ((2 * j + 1) * π / M))) M
    (fun m hm => ?_) P hP
  · rw [key]; simp [LinearMap.sum_apply]
  rw [muLin_T]
  simp only [LinearMap.smul_apply, LinearMap.sum_apply, leval_apply, smul_eq_mul, T_real_cos]
  split_ifs with h
  · subst h
    simp; field_simp
  · have hs : sin (m * π / M) ≠ 0 := by
      have hmr : (0 : ℝ) < m := by exact_mod_cast Nat.pos_of_ne_zero h
      have hMp : (0 : ℝ) < M := by positivity
      refine (sin_pos_of_pos_of_lt_pi (by positivity) ?_).ne'
      rw [div_lt_iff₀ hMp, mul_comm]
      have : (m : ℝ) < M := by exact_mod_cast hm
      exact mul_lt_mul_of_pos_left this pi_pos
    have hc := circ_cos (m * π / M) M
    have : (2 * (M : ℝ)) * (m * π / M) = ((2 * m : ℕ) : ℝ) * π := by
      push_cast; field_simp
    rw [this, sin_nat_mul_pi] at hc
    have h0 : ∑ j ∈ range M, cos ((2 * j + 1) * (m * π / M)) = 0 := by
      rcases mul_eq_zero.1 hc with h' | h'
      · exact absurd h' (mul_ne_zero two_ne_zero hs)
      · exact h'
    have e : ∀ j : ℕ, cos (((m : ℤ) : ℝ) * ((2 * j + 1) * π / M)) = cos ((2 * j + 1) * (m * π / M)) := by
      intro j; congr 1; push_cast; ring
    simp_rw [e]
    rw [h0, mul_zero]

/-- A sum that is symmetric about the middle. -/
theorem sum_fold (n : ℕ) (h : ℕ → ℝ) (hs : ∀ j < n, h (2 * n - j) = h j) (hm : h n = 0) :
    ∑ j ∈ range (2 * n + 1), h j = 2 * ∑ j ∈ range n, h j := by
  have e1 : 2 * n + 1 = n + (n + 1) := by ring
  rw [e1, Finset.sum_range_add, Finset.sum_range_succ']
  simp only [hm, add_zero]
  have : ∑ k ∈ range n, h (n + (k + 1)) = ∑ j ∈ range n, h j := by
    rw [← Finset.sum_range_reflect]
    refine Finset.sum_congr rfl fun j hj => ?_
    rw [Finset.mem_range] at hj
    rw [← hs j hj]
    congr 1; omega
  rw [this]; ring

/-- `q7_roots` is exact. -/
theorem q7_exact (n : ℕ) (P : ℝ[X]) (hP : P.degree < (2 * n : ℕ)) :
    applyRule (q7Roots n) (fun x => P.eval x)
      = ∫ x in (0 : ℝ)..1, P.eval x * √(x / (1 - x)) := by
  set Q : ℝ[X] := affPoly P (1 / 2) (1 / 2) * (1 + X) with hQ
  have hdeg : Q.degree < (2 * n + 1 : ℕ) :=
    degree_mul_lt _ _ (2 * n) 1 (affPoly_degree _ _ _ _ hP) (by
      refine le_trans (natDegree_add_le _ _) ?_
      simp)
  have h := circ_rule (2 * n + 1) (by omega) _ hdeg
  have hQe : ∀ t, Q.eval t = P.eval (1 / 2 * t + 1 / 2) * (1 + t) := by
    intro t; rw [hQ, eval_mul, affPoly_eval]; simp
  have hint : ∫ x in (0 : ℝ)..1, P.eval x * √(x / (1 - x)) = 1 / 2 * muLin Q := by
    rw [integral_affine, muLin_eq]
    have c1 : ((1 : ℝ) - 0) / 2 = 1 / 2 := by norm_num
    have c2 : ((0 : ℝ) + 1) / 2 = 1 / 2 := by norm_num
    rw [c1, c2]
    congr 1
    refine intervalIntegral.integral_congr fun t ht => ?_
    rw [Set.uIcc_of_le (by norm_num)] at ht
    rw [hQe, sqrt_inv]
    have e : √((1 / 2 * t + 1 / 2) / (1 - (1 / 2 * t + 1 / 2))) = (1 + t) * (√(1 - t ^ 2))⁻¹ := by
      rcases eq_or_lt_of_le ht.2 with h1 | h1
      · subst h1; norm_num
      · rcases eq_or_lt_of_le ht.1 with h0 | h0
        · rw [← h0]; norm_num
        · have hp : 0 < 1 - t ^ 2 := by nlinarith
          have e1 : (1 / 2 * t + 1 / 2) / (1 - (1 / 2 * t + 1 / 2)) = (1 + t) ^ 2 / (1 - t ^ 2) := by
            have : (1 - (1 / 2 * t + 1 / 2)) ≠ 0 := by intro hh; linarith
            rw [div_eq_div_iff this hp.ne']
            ring
          rw [e1, sqrt_div (sq_nonneg _), sqrt_sq (by linarith), div_eq_mul_inv]
    rw [e]; ring
  rw [hint, h, q7Roots, applyRule_map_range]
  rw [sum_fold n]
  · rw [Finset.mul_sum, Finset.mul_sum, Finset.mul_sum]
    refine Finset.sum_congr rfl fun i _ => ?_
    have hM : ((2 * n + 1 : ℕ) : ℝ) = 2 * n + 1 := by push_cast; ring
    rw [hQe, hM]
    have hc : cos ((((i : ℝ) + 1) - 1 / 2) * π / (2 * n + 1)) ^ 2
        = 1 / 2 * cos ((2 * i + 1) * π / (2 * n + 1)) + 1 / 2 := by
      rw [cos_sq, show 2 * ((((i : ℝ) + 1) - 1 / 2) * π / (2 * n + 1)) = (2 * i + 1) * π / (2 * n + 1)
        by ring]
      ring
    simp only [hc]
    ring
  · intro j hj
    congr 1
    have : (2 * ((2 * n - j : ℕ) : ℝ) + 1) * π / ((2 * n + 1 : ℕ) : ℝ)
        = 2 * π - (2 * j + 1) * π / ((2 * n + 1 : ℕ) : ℝ) := by
      rw [Nat.cast_sub (by omega)]
      push_cast
      field_simp
      ring
    rw [this, cos_two_pi_sub]
  · rw [hQe]
    have : (2 * (n : ℝ) + 1) * π / ((2 * n + 1 : ℕ) : ℝ) = π := by
      push_cast; field_simp
    rw [this, cos_pi]; simp

end Wafo.Quad
