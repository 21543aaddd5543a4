import Verif.Quad.Trap

/-! Exactness of the Clenshaw-Curtis sums of `clencurt`. -/

set_option linter.unusedSectionVars false

namespace Wafo.Quad

open Real Polynomial Polynomial.Chebyshev Finset

theorem list_sum_range {β : Type*} [AddCommMonoid β] (n : ℕ) (f : ℕ → β) :
    ((List.range n).map f).sum = ∑ i ∈ range n, f i := rfl

/-- Integration over `[a, b]` as a linear functional on polynomials. -/
noncomputable def intLin (a b : ℝ) : ℝ[X] →ₗ[ℝ] ℝ where
  toFun P := ∫ x in a..b, P.eval x
  map_add' P Q := by
    simp only [eval_add]
    exact intervalIntegral.integral_add (P.continuous.intervalIntegrable _ _)
      (Q.continuous.intervalIntegrable _ _)
  map_smul' c P := by
    simp only [eval_smul, RingHom.id_apply, smul_eq_mul]
    exact intervalIntegral.integral_const_mul _ _

theorem intLin_apply (a b : ℝ) (P : ℝ[X]) : intLin a b P = ∫ x in a..b, P.eval x := rfl

/-- The trapezoidal cosine transform of a polynomial on the Chebyshev points. -/
noncomputable def ccD (N k : ℕ) : ℝ[X] →ₗ[ℝ] ℝ :=
  ∑ j ∈ range N, cos (2 * π * j * k / N) • leval (cos (π * j / N))
    + (1 / 2 : ℝ) • (leval (-1) - leval 1)

theorem ccD_apply (N k : ℕ) (P : ℝ[X]) : ccD N k P
    = ∑ j ∈ range N, P.eval (cos (π * j / N)) * cos (2 * π * j * k / N)
      + (P.eval (-1) - P.eval 1) / 2 := by
  simp only [ccD, LinearMap.add_apply, LinearMap.sum_apply, LinearMap.smul_apply, leval_apply,
    smul_eq_mul, LinearMap.sub_apply]
  congr 1
  · exact Finset.sum_congr rfl fun j _ => mul_comm _ _
  · ring

theorem ccD_T (N k m : ℕ) (hN : N ≠ 0) : ccD N k (T ℝ (m : ℤ))
    = ((if 2 * N ∣ m + 2 * k then (N : ℝ) else 0)
      + (if 2 * N ∣ ((m : ℤ) - 2 * k).natAbs then (N : ℝ) else 0)) / 2 := by
  rw [ccD_apply, ← trap_full _ N hN, ← trap_full _ N hN]
  have hs : ∀ j : ℕ, (T ℝ (m : ℤ)).eval (cos (π * j / N)) * cos (2 * π * j * k / N)
      = (cos (((m + 2 * k : ℕ) : ℝ) * π * j / N)
        + cos (((((m : ℤ) - 2 * k).natAbs : ℕ) : ℝ) * π * j / N)) / 2 := by
    intro j
    rw [T_real_cos]
    have e2 : cos (((((m : ℤ) - 2 * k).natAbs : ℕ) : ℝ) * π * j / N)
        = cos (m * (π * j / N) - 2 * π * j * k / N) := by
      rw [Nat.cast_natAbs]
      push_cast
      rcases abs_cases ((m : ℝ) - 2 * k) with ⟨h, _⟩ | ⟨h, _⟩
      · rw [h]; congr 1; ring
      · rw [h, ← cos_neg]; congr 1; ring
    have e1 : cos (((m + 2 * k : ℕ) : ℝ) * π * j / N)
        = cos (m * (π * j / N) + 2 * π * j * k / N) := by
      congr 1; push_cast; ring
    rw [e1, e2, cos_add, cos_sub]
    push_cast
    ring
  rw [Finset.sum_congr rfl fun j _ => hs j, ← Finset.sum_div, Finset.sum_add_distrib,
    T_eval_one, T_eval_neg_one]
  have p1 : ((-1 : ℝ)) ^ (m + 2 * k) = (-1) ^ m := by rw [pow_add, pow_mul]; simp
  have p2 : ((-1 : ℝ)) ^ ((m : ℤ) - 2 * k).natAbs = (-1) ^ m := by
    rcases Nat.even_or_odd m with h | h
    · rw [h.neg_one_pow, Even.neg_one_pow]
      rw [Int.natAbs_even]
      exact (show Even ((m : ℕ) : ℤ) by exact_mod_cast h).sub (even_two_mul _)
    · rw [h.neg_one_pow, Odd.neg_one_pow]
      rw [Int.natAbs_odd]
      exact (show Odd ((m : ℕ) : ℤ) by exact_mod_cast h).sub_even (even_two_mul _)
  have p3 : (((m : ℤ).negOnePow : ℤ) : ℝ) = (-1) ^ m := by
    rw [Int.negOnePow_def]; simp
  rw [p1, p2, p3]
  ring

/-- `(2k-1)(2k+1)` as the code writes it. -/
noncomputable def ccDen (k : ℕ) : ℝ := ((2 * k : ℕ) - 1 : ℝ) * ((2 * k : ℕ) + 1 : ℝ)

/-- The halving factor of the coefficients. -/
noncomputable def ccHalf (n k : ℕ) : ℝ := if k = 0 ∨ k = n then 1 / 2 else 1

/-- The Clenshaw-Curtis rule on `[-1, 1]`. -/
noncomputable def ccL (n : ℕ) : ℝ[X] →ₗ[ℝ] ℝ :=
  ∑ k ∈ range (n + 1), (-2 * (ccHalf n k * (2 / ((2 * n : ℕ) : ℝ)) / ccDen k)) • ccD (2 * n) k

theorem ccCoef_eq (n : ℕ) (hn : n ≠ 0) (k : ℕ) (P : ℝ[X]) :
    ccCoef n (ccVal (2 * n) (-1) 1 (fun x => P.eval x)) k
      = ccHalf n k * (2 / ((2 * n : ℕ) : ℝ)) * ccD (2 * n) k P := by
  have hN : ((2 * n : ℕ) : ℝ) ≠ 0 := by exact_mod_cast (by omega : 2 * n ≠ 0)
  have hnode : ∀ s : ℕ, ccNode (2 * n) (-1) 1 s = cos (π * s / (2 * n : ℕ)) := by
    intro s; simp only [ccNode]; ring
  have hfft : realFft (2 * n) (ccVal (2 * n) (-1) 1 (fun x => P.eval x)) k
      + cos (π * (2 * k : ℕ)) * ccVal (2 * n) (-1) 1 (fun x => P.eval x) (2 * n)
      = ccD (2 * n) k P := by
    rw [ccD_apply, realFft, list_sum_range]
    have hc : cos (π * (2 * k : ℕ)) = 1 := by
      rw [show π * ((2 * k : ℕ) : ℝ) = k * (2 * π) by push_cast; ring, cos_nat_mul_two_pi]
    have hlast : ccVal (2 * n) (-1) 1 (fun x => P.eval x) (2 * n) = P.eval (-1) / 2 := by
      rw [ccVal, if_pos (Or.inr rfl), hnode]
      rw [show π * ((2 * n : ℕ) : ℝ) / ((2 * n : ℕ) : ℝ) = π by field_simp, cos_pi]
    rw [hc, hlast, one_mul]
    obtain ⟨M, hM⟩ : ∃ M, 2 * n = M + 1 := ⟨2 * n - 1, by omega⟩
    rw [hM, Finset.sum_range_succ', Finset.sum_range_succ']
    have h0 : ccVal (M + 1) (-1) 1 (fun x => P.eval x) 0 = P.eval 1 / 2 := by
      rw [ccVal, if_pos (Or.inl rfl), ← hM, hnode]; simp
    have hi : ∀ j ∈ range M, ccVal (M + 1) (-1) 1 (fun x => P.eval x) (j + 1)
        * cos (2 * π * ((j + 1 : ℕ) : ℝ) * k / ((M + 1 : ℕ) : ℝ))
        = P.eval (cos (π * ((j + 1 : ℕ) : ℝ) / ((M + 1 : ℕ) : ℝ)))
          * cos (2 * π * ((j + 1 : ℕ) : ℝ) * k / ((M + 1 : ℕ) : ℝ)) := by
      intro j hj
      rw [Finset.mem_range] at hj
      have h0 : ¬ (j + 1 = 0 ∨ j + 1 = M + 1) := by omega
      rw [ccVal, if_neg h0, ← hM, hnode]
    rw [Finset.sum_congr rfl hi, h0]
    simp
    ring
  simp only [ccCoef]
  rw [hfft, ccHalf]
  by_cases h0 : k = 0
  · subst h0
    have : ¬ (0 = n) := fun h => hn h.symm
    rw [if_pos rfl, if_neg this, if_pos (Or.inl rfl)]; ring
  · rw [if_neg h0]
    by_cases h1 : k = n
    · rw [if_pos h1, if_pos (Or.inr h1)]; ring
    · rw [if_neg h1, if_neg (by tauto)]; ring

theorem ccL_T (n m : ℕ) (hn : n ≠ 0) (hm : m < 2 * n + 2) :
    ccL n (T ℝ (m : ℤ)) = intLin (-1) 1 (T ℝ (m : ℤ)) := by
  have hN : 2 * n ≠ 0 := by omega
  have hNr : ((2 * n : ℕ) : ℝ) ≠ 0 := by exact_mod_cast hN
  rw [intLin_apply, integral_T, ccL]
  simp only [LinearMap.sum_apply, LinearMap.smul_apply, smul_eq_mul]
  rcases Nat.even_or_odd m with he | ho
  · rw [if_pos he]
    obtain ⟨l, hl⟩ := he
    have hl : m = 2 * l := by omega
    subst hl
    have hln : l ≤ n := by omega
    rw [Finset.sum_eq_single l]
    · rw [ccD_T _ _ _ hN]
      have h2 : 2 * (2 * n) ∣ (((2 * l : ℕ) : ℤ) - 2 * l).natAbs := by
        push_cast; simp
      rw [if_pos h2]
      have h1 : (2 * (2 * n) ∣ 2 * l + 2 * l) ↔ (l = 0 ∨ l = n) := by
        constructor
        · rintro ⟨z, hz⟩
          have hz' : l = n * z := by
            have : 4 * l = 4 * (n * z) := by linarith [hz, (by ring : 2 * (2 * n) * z = 4 * (n * z))]
            omega
          rcases Nat.lt_or_ge z 2 with h | h
          · have : z = 0 ∨ z = 1 := by omega
            rcases this with rfl | rfl
            · left; simpa using hz'
            · right; simpa using hz'
          · have : n * 2 ≤ n * z := Nat.mul_le_mul_left n h
            omega
        · rintro (rfl | rfl)
          · simp
          · exact ⟨1, by ring⟩
      have hden : (1 - ((2 * l : ℕ) : ℝ) ^ 2) ≠ 0 := by
        intro h
        have : ((2 * l : ℕ) : ℝ) ^ 2 = 1 := by linarith
        have : (2 * l) ^ 2 = 1 := by exact_mod_cast this
        have h' : 2 * l = 1 := by
          rcases Nat.eq_zero_or_pos (2 * l) with h0 | h0
          · rw [h0] at this; simp at this
          · nlinarith
        omega
      have hden' : ccDen l = -(1 - ((2 * l : ℕ) : ℝ) ^ 2) := by rw [ccDen]; ring
      rw [hden', ccHalf]
      by_cases h : l = 0 ∨ l = n
      · rw [if_pos (h1.2 h), if_pos h]
        field_simp
        norm_num
      · rw [if_neg (fun h' => h (h1.1 h')), if_neg h]
        field_simp
        ring
    · intro k hk hkl
      rw [Finset.mem_range] at hk
      rw [ccD_T _ _ _ hN]
      have h1 : ¬ 2 * (2 * n) ∣ 2 * l + 2 * k := by
        intro hd
        have hd2 := Nat.le_of_dvd (by omega) hd
        omega
      have h2 : ¬ 2 * (2 * n) ∣ (((2 * l : ℕ) : ℤ) - 2 * k).natAbs := by
        intro hd
        have hd2 := Nat.le_of_dvd (by omega) hd
        omega
      rw [if_neg h1, if_neg h2]
      simp
    · intro h
      rw [Finset.mem_range] at h
      omega
  · rw [if_neg (Nat.not_even_iff_odd.2 ho)]
    refine Finset.sum_eq_zero fun k hk => ?_
    rw [ccD_T _ _ _ hN]
    obtain ⟨l, rfl⟩ := ho
    have h1 : ¬ 2 * (2 * n) ∣ 2 * l + 1 + 2 * k := by
      intro hd
      have := dvd_trans (dvd_mul_right 2 (2 * n)) hd
      omega
    have h2 : ¬ 2 * (2 * n) ∣ (((2 * l + 1 : ℕ) : ℤ) - 2 * k).natAbs := by
      intro hd
      have := dvd_trans (dvd_mul_right 2 (2 * n)) hd
      omega
    rw [if_neg h1, if_neg h2]
    simp

theorem ccL_exact (n : ℕ) (hn : n ≠ 0) (P : ℝ[X]) (hP : P.degree < (2 * n + 2 : ℕ)) :
    ccL n P = ∫ x in (-1 : ℝ)..1, P.eval x :=
  eq_of_T (ccL n) (intLin (-1) 1) (2 * n + 2) (fun m hm => ccL_T n m hn hm) P hP

/-- The affine change of variable from `[-1, 1]` to `[a, b]`. -/
theorem integral_affine (a b : ℝ) (f : ℝ → ℝ) :
    ∫ x in a..b, f x = (b - a) / 2 * ∫ t in (-1 : ℝ)..1, f ((b - a) / 2 * t + (a + b) / 2) := by
  have h := intervalIntegral.smul_integral_comp_mul_add (a := -1) (b := 1) f ((b - a) / 2) ((a + b) / 2)
  rw [smul_eq_mul] at h
  rw [h]
  congr 1 <;> ring

/-- The affine substitution as a polynomial. -/
noncomputable def affPoly (P : ℝ[X]) (c d : ℝ) : ℝ[X] := P.comp (Polynomial.C c * X + Polynomial.C d)

theorem affPoly_eval (P : ℝ[X]) (c d t : ℝ) : (affPoly P c d).eval t = P.eval (c * t + d) := by
  simp [affPoly]

theorem affPoly_degree (P : ℝ[X]) (c d : ℝ) (m : ℕ) (hP : P.degree < (m : ℕ)) :
    (affPoly P c d).degree < (m : ℕ) := by
  by_cases h0 : P = 0
  · subst h0; simp only [affPoly, zero_comp, degree_zero]; exact WithBot.bot_lt_coe m
  have h1 : P.natDegree < m := (natDegree_lt_iff_degree_lt h0).2 hP
  have h2 : (affPoly P c d).natDegree ≤ P.natDegree * 1 := by
    refine le_trans natDegree_comp_le ?_
    gcongr
    exact natDegree_linear_le
  refine lt_of_le_of_lt degree_le_natDegree ?_
  exact_mod_cast (by omega : (affPoly P c d).natDegree < m)

theorem ccVal_affine (N : ℕ) (a b : ℝ) (P : ℝ[X]) :
    ccVal N a b (fun x => P.eval x)
      = ccVal N (-1) 1 (fun x => (affPoly P ((b - a) / 2) ((a + b) / 2)).eval x) := by
  funext s
  have : P.eval (ccNode N a b s)
      = (affPoly P ((b - a) / 2) ((a + b) / 2)).eval (ccNode N (-1) 1 s) := by
    rw [affPoly_eval]; congr 1; simp only [ccNode]; ring
  simp only [ccVal, this]

theorem cc_value (a b : ℝ) (n : ℕ) (hn : n ≠ 0) (P : ℝ[X]) (hP : P.degree < (2 * n + 2 : ℕ)) :
    (a - b) * ((List.range (n + 1)).map fun k : ℕ =>
      ccTerm n (ccVal (2 * n) a b fun x => P.eval x) k).sum = ∫ x in a..b, P.eval x := by
  rw [integral_affine, ccVal_affine]
  have h := ccL_exact n hn (affPoly P ((b - a) / 2) ((a + b) / 2)) (affPoly_degree _ _ _ _ hP)
  simp only [affPoly_eval] at h
  rw [← h, ccL, list_sum_range]
  simp only [LinearMap.sum_apply, LinearMap.smul_apply, smul_eq_mul]
  rw [Finset.mul_sum, Finset.mul_sum]
  refine Finset.sum_congr rfl fun k _ => ?_
  rw [ccTerm, ccCoef_eq n hn, ← ccDen]
  ring

theorem ccD_last (n : ℕ) (hn : n ≠ 0) (P : ℝ[X]) (hP : P.degree < (2 * n : ℕ)) :
    ccD (2 * n) n P = 0 := by
  refine eq_of_T (ccD (2 * n) n) 0 (2 * n) (fun m hm => ?_) P hP
  rw [ccD_T _ _ _ (by omega)]
  have h1 : ¬ 2 * (2 * n) ∣ m + 2 * n := by
    intro hd
    have hd2 := Nat.le_of_dvd (by omega) hd
    omega
  have h2 : ¬ 2 * (2 * n) ∣ ((m : ℤ) - 2 * n).natAbs := by
    intro hd
    have hd2 := Nat.le_of_dvd (by omega) hd
    omega
  rw [if_neg h1, if_neg h2]
  simp

theorem cc_err (a b : ℝ) (n : ℕ) (hn : n ≠ 0) (P : ℝ[X]) (hP : P.degree < (2 * n : ℕ)) :
    ccTerm n (ccVal (2 * n) a b fun x => P.eval x) n = 0 := by
  rw [ccVal_affine, ccTerm, ccCoef_eq n hn, ccD_last n hn _ (affPoly_degree _ _ _ _ hP)]
  simp

theorem clencurt_call (f : ℝ → ℝ) (a b : ℝ) (n : ℕ) (hn : n ≠ 0) :
    clencurt (.call f) a b n
      = .ok ((a - b) * ((List.range (n + 1)).map fun k : ℕ => ccTerm n (ccVal (2 * n) a b f) k).sum,
        (b - a) * |ccTerm n (ccVal (2 * n) a b f) n|) := by
  simp only [clencurt]
  rw [if_neg hn]

end Wafo.Quad
