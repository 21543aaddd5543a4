import Verif.Quad.ChebRules
import Mathlib.Analysis.SpecialFunctions.Integrals.Basic
import Mathlib.Analysis.SpecialFunctions.Sqrt

/-! `q8_roots` and `q9_roots` from a symmetric Gauss-Legendre rule. -/

set_option linter.unusedSectionVars false

namespace Wafo.Quad

open Polynomial Finset Real MeasureTheory

theorem integral_even (g : ℝ → ℝ) (hg : Continuous g) (he : ∀ t, g (-t) = g t) :
    ∫ t in (-1 : ℝ)..1, g t = 2 * ∫ t in (0 : ℝ)..1, g t := by
  rw [← intervalIntegral.integral_add_adjacent_intervals (b := 0) (hg.intervalIntegrable _ _)
    (hg.intervalIntegrable _ _)]
  have h := intervalIntegral.integral_comp_neg (a := 0) (b := 1) g
  simp only [he, neg_zero] at h
  rw [← h]; ring

/-- The substitution `x = 1 - t^2`. -/
theorem integral_sub_sq (φ : ℝ → ℝ) (hφ : Continuous φ) :
    ∫ x in (0 : ℝ)..1, φ x / √(1 - x) = 2 * ∫ t in (0 : ℝ)..1, φ (1 - t ^ 2) := by
  set g : ℝ → ℝ := fun t => φ (1 - t ^ 2) with hg
  have hgc : Continuous g := by fun_prop
  set G : ℝ → ℝ := fun s => ∫ t in (0 : ℝ)..s, g t with hG
  have hGd : ∀ s, HasDerivAt G (g s) s := fun s => (hgc.integral_hasStrictDerivAt 0 s).hasDerivAt
  have hGc : Continuous G := continuous_iff_continuousAt.2 fun s => (hGd s).continuousAt
  have key := intervalIntegral.integral_eq_sub_of_hasDerivAt_of_le (a := 0) (b := 1)
    (f := fun x => -2 * G (√(1 - x))) (f' := fun x => φ x / √(1 - x)) (by norm_num)
    (by fun_prop) (fun x hx => by
      have h1 : (0 : ℝ) < 1 - x := by linarith [hx.2]
      have hs : 0 < √(1 - x) := sqrt_pos.2 h1
      have hd1 : HasDerivAt (fun x : ℝ => 1 - x) (-1) x := by
        simpa using (hasDerivAt_id x).const_sub 1
      have hd2 := hd1.sqrt h1.ne'
      have hd3 := ((hGd (√(1 - x))).comp x hd2).const_mul (-2)
      refine hd3.congr_deriv ?_
      simp only [hg]
      rw [sq_sqrt h1.le]
      rw [show 1 - (1 - x) = x by ring]
      field_simp) (by
      have hi : IntervalIntegrable (fun x : ℝ => x ^ (-(1 / 2) : ℝ)) volume 0 1 :=
        intervalIntegral.intervalIntegrable_rpow' (by norm_num)
      have hi2 := (hi.comp_sub_left 1).symm
      rw [sub_zero, sub_self] at hi2
      have hi3 := hi2.continuousOn_mul (g := fun x => φ x) hφ.continuousOn
      refine hi3.congr_ae ?_
      refine (ae_restrict_iff' measurableSet_uIoc).2 (Filter.Eventually.of_forall fun x hx => ?_)
      rw [Set.uIoc_of_le (by norm_num)] at hx
      simp only
      rw [rpow_neg (by linarith [hx.2]), ← sqrt_eq_rpow, div_eq_mul_inv])
  rw [key]
  simp only [sub_self, sqrt_zero, sub_zero, sqrt_one]
  have h0 : G 0 = 0 := intervalIntegral.integral_same
  rw [h0]; simp [hG]

theorem sum_split (l : List (ℝ × ℝ)) (F : ℝ × ℝ → ℝ) :
    open Classical in
    (l.map F).sum = ((l.filter fun p => decide (0 < p.1)).map F).sum
      + ((l.filter fun p => decide (p.1 < 0)).map F).sum
      + ((l.filter fun p => decide (p.1 = 0)).map F).sum := by
  classical
  induction l with
  | nil => simp
  | cons p l ih =>
    rw [List.map_cons, List.sum_cons, ih]
    rcases lt_trichotomy p.1 0 with h | h | h
    · rw [List.filter_cons_of_neg (by simp [h.le]), List.filter_cons_of_pos (by simp [h]),
        List.filter_cons_of_neg (by simp [h.ne]), List.map_cons, List.sum_cons]
      ring
    · rw [List.filter_cons_of_neg (by simp [h]), List.filter_cons_of_neg (by simp [h]),
        List.filter_cons_of_pos (by simp [h]), List.map_cons, List.sum_cons]
      ring
    · rw [List.filter_cons_of_pos (by simp [h]), List.filter_cons_of_neg (by simp [h.le]),
        List.filter_cons_of_neg (by simp [h.ne']), List.map_cons, List.sum_cons]
      ring

/-- For a symmetric rule the positive nodes carry half of an even integrand. -/
theorem applyRule_sym (leg : List (ℝ × ℝ)) (hs : (leg.map fun p => (-p.1, p.2)).Perm leg) (g : ℝ → ℝ)
    (he : ∀ t, g (-t) = g t) (h0 : ∀ p ∈ leg, p.1 = 0 → g 0 = 0) :
    open Classical in
    applyRule leg g = 2 * applyRule (leg.filter fun p => decide (0 < p.1)) g := by
  classical
  simp only [applyRule]
  rw [sum_split]
  have hneg : ((leg.filter fun p => decide (p.1 < 0)).map fun p => p.2 * g p.1).sum
      = ((leg.filter fun p => decide (0 < p.1)).map fun p => p.2 * g p.1).sum := by
    have hp := (hs.filter fun p => decide (p.1 < 0)).map fun p : ℝ × ℝ => p.2 * g p.1
    rw [← hp.sum_eq, List.filter_map, List.map_map]
    congr 1
    have : ((fun p : ℝ × ℝ => decide (p.1 < 0)) ∘ fun p : ℝ × ℝ => (-p.1, p.2))
        = fun p => decide (0 < p.1) := by
      funext p; simp
    rw [this]
    refine List.map_congr_left fun p _ => ?_
    simp [he]
  have hzero : ((leg.filter fun p => decide (p.1 = 0)).map fun p => p.2 * g p.1).sum = 0 := by
    refine List.sum_eq_zero fun v hv => ?_
    rw [List.mem_map] at hv
    obtain ⟨p, hp, rfl⟩ := hv
    rw [List.mem_filter] at hp
    have := of_decide_eq_true hp.2
    rw [this, h0 p hp.1 this, mul_zero]
  rw [hneg, hzero]; ring

theorem natDegree_one_sub_sq (P : ℝ[X]) : (P.comp (1 - X ^ 2)).natDegree ≤ P.natDegree * 2 := by
  refine le_trans natDegree_comp_le ?_
  gcongr
  refine le_trans (natDegree_sub_le _ _) ?_
  simp

/-- `q8_roots` is exact. -/
theorem q8_exact (n : ℕ) (leg : List (ℝ × ℝ)) (hs : (leg.map fun p => (-p.1, p.2)).Perm leg)
    (h0 : ∀ p ∈ leg, p.1 ≠ 0)
    (hleg : ∀ Q : ℝ[X], Q.degree < (4 * n : ℕ) →
      applyRule leg (fun t => Q.eval t) = ∫ t in (-1 : ℝ)..1, Q.eval t)
    (P : ℝ[X]) (hP : P.degree < (2 * n : ℕ)) :
    applyRule (q8Roots leg) (fun x => P.eval x) = ∫ x in (0 : ℝ)..1, P.eval x / √(1 - x) := by
  classical
  rw [integral_sub_sq _ P.continuous]
  have hQe : ∀ t, (P.comp (1 - X ^ 2)).eval t = P.eval (1 - t ^ 2) := by intro t; simp
  have hdeg : (P.comp (1 - X ^ 2)).degree < (4 * n : ℕ) := by
    by_cases hz : P = 0
    · subst hz; rw [zero_comp, degree_zero]; exact WithBot.bot_lt_coe _
    have h1 : P.natDegree < 2 * n := (natDegree_lt_iff_degree_lt hz).2 hP
    refine lt_of_le_of_lt degree_le_natDegree ?_
    have := natDegree_one_sub_sq P
    exact_mod_cast (by omega : (P.comp (1 - X ^ 2)).natDegree < 4 * n)
  have h := hleg _ hdeg
  simp only [hQe] at h
  rw [integral_even _ (by fun_prop) (fun t => by rw [neg_sq]),
    applyRule_sym leg hs _ (fun t => by rw [neg_sq]) (fun p hp hp0 => absurd hp0 (h0 p hp))] at h
  rw [← h, applyRule, applyRule, q8Roots, List.map_map, ← List.sum_map_mul_left]
  have hf : (leg.filter fun p => decide (0 ≤ p.1)) = leg.filter fun p => decide (0 < p.1) := by
    refine List.filter_congr fun p hp => ?_
    rw [decide_eq_decide]
    exact ⟨fun h => lt_of_le_of_ne h (h0 p hp).symm, le_of_lt⟩
  rw [hf]
  congr 1
  refine List.map_congr_left fun p _ => ?_
  simp only [Function.comp_def]; ring

/-- `q9_roots` is exact. -/
theorem q9_exact (n : ℕ) (leg : List (ℝ × ℝ)) (hs : (leg.map fun p => (-p.1, p.2)).Perm leg)
    (hleg : ∀ Q : ℝ[X], Q.degree < (2 * (2 * n + 1) : ℕ) →
      applyRule leg (fun t => Q.eval t) = ∫ t in (-1 : ℝ)..1, Q.eval t)
    (P : ℝ[X]) (hP : P.degree < (2 * n : ℕ)) :
    applyRule (q9Roots leg) (fun x => P.eval x) = ∫ x in (0 : ℝ)..1, P.eval x * √(1 - x) := by
  classical
  have hint : ∫ x in (0 : ℝ)..1, P.eval x * √(1 - x)
      = ∫ x in (0 : ℝ)..1, (P.eval x * (1 - x)) / √(1 - x) := by
    refine intervalIntegral.integral_congr fun x hx => ?_
    rw [Set.uIcc_of_le (by norm_num)] at hx
    rw [mul_div_assoc, div_sqrt]
  rw [hint, integral_sub_sq _ (by fun_prop)]
  have hQe : ∀ t, (P.comp (1 - X ^ 2) * X ^ 2).eval t = P.eval (1 - t ^ 2) * t ^ 2 := by
    intro t; simp
  have hdeg : (P.comp (1 - X ^ 2) * X ^ 2).degree < ((2 * (2 * n + 1) : ℕ) : WithBot ℕ) := by
    by_cases hz : P = 0
    · subst hz; rw [zero_comp, zero_mul, degree_zero]; exact WithBot.bot_lt_coe _
    have h1 : P.natDegree < 2 * n := (natDegree_lt_iff_degree_lt hz).2 hP
    refine lt_of_le_of_lt degree_le_natDegree ?_
    have h2 := natDegree_one_sub_sq P
    have h3 : (P.comp (1 - X ^ 2) * X ^ 2).natDegree ≤ (P.comp (1 - X ^ 2)).natDegree + 2 := by
      refine le_trans natDegree_mul_le ?_
      rw [natDegree_X_pow]
    exact_mod_cast (by omega : (P.comp (1 - X ^ 2) * X ^ 2).natDegree < 2 * (2 * n + 1))
  have h := hleg _ hdeg
  simp only [hQe] at h
  rw [integral_even _ (by fun_prop) (fun t => by rw [neg_sq]),
    applyRule_sym leg hs _ (fun t => by rw [neg_sq]) (fun p hp hp0 => by simp)] at h
  have e : ∀ t : ℝ, P.eval (1 - t ^ 2) * (1 - (1 - t ^ 2)) = P.eval (1 - t ^ 2) * t ^ 2 := by
    intro t; ring
  simp only [e]
  rw [← h, applyRule, applyRule, q9Roots, List.map_map, ← List.sum_map_mul_left]
  congr 1
  refine List.map_congr_left fun p _ => ?_
  simp only [Function.comp_def]; ring

end Wafo.Quad
