import Verif.Gauss.Mid
import Mathlib.Algebra.Polynomial.Eval.Degree
import Mathlib.Analysis.SpecialFunctions.Integrals.Basic

/-!
# The Gauss-Legendre tables of `cdfnorm2d` (property C234)
-/

set_option linter.unusedSectionVars false

namespace Wafo.Gauss

open MeasureTheory Set

/-- Error of a table on the monomial `t ^ i`, exactly. -/
def momErr (tab : List (ℚ × ℚ)) (i : ℕ) : ℚ :=
  (tab.map fun p => p.1 * ((-p.2) ^ i + p.2 ^ i)).sum - (if i % 2 = 0 then 2 / ((i : ℚ) + 1) else 0)

theorem integral_mono (i : ℕ) :
    ∫ t in (-1 : ℝ)..1, t ^ i = if i % 2 = 0 then 2 / ((i : ℝ) + 1) else 0 := by
  rw [integral_pow]
  rcases Nat.even_or_odd i with h | h
  · rw [if_pos (Nat.even_iff.1 h), (h.add_one).neg_one_pow]
    norm_num
  · rw [if_neg (by rw [Nat.odd_iff.1 h]; norm_num), (h.add_one).neg_one_pow]
    norm_num

theorem glSum_mono (tab : List (ℚ × ℚ)) (i : ℕ) :
    glSum tab (fun t => t ^ i) - ∫ t in (-1 : ℝ)..1, t ^ i = ((momErr tab i : ℚ) : ℝ) := by
  rw [glSum_eq, integral_mono, momErr]
  push_cast
  congr 1
  · induction tab with
    | nil => simp
    | cons p l ih => simp [ih]
  · split_ifs <;> simp

theorem glSum_add (tab : List (ℚ × ℚ)) (f g : ℝ → ℝ) :
    glSum tab (fun t => f t + g t) = glSum tab f + glSum tab g := by
  simp only [glSum_eq]
  induction tab with
  | nil => simp
  | cons p l ih => simp only [List.map_cons, List.sum_cons, ih]; ring

theorem glSum_smul (tab : List (ℚ × ℚ)) (c : ℝ) (f : ℝ → ℝ) :
    glSum tab (fun t => c * f t) = c * glSum tab f := by
  simp only [glSum_eq]
  induction tab with
  | nil => simp
  | cons p l ih => simp only [List.map_cons, List.sum_cons, ih]; ring

theorem glSum_sum (tab : List (ℚ × ℚ)) (s : Finset ℕ) (f : ℕ → ℝ → ℝ) :
    glSum tab (fun t => ∑ i ∈ s, f i t) = ∑ i ∈ s, glSum tab (f i) := by
  classical
  induction s using Finset.induction_on with
  | empty => simp [glSum_eq]
  | insert a s ha ih => simp only [Finset.sum_insert ha, glSum_add, ih]

theorem poly_error (tab : List (ℚ × ℚ)) (d : ℕ) (ε : ℚ) (h : ∀ i < d, |momErr tab i| ≤ ε)
    (p : Polynomial ℝ) (hp : p.natDegree < d) :
    |glSum tab (fun t => p.eval t) - ∫ t in (-1 : ℝ)..1, p.eval t| ≤
      ε * ∑ i ∈ Finset.range d, |p.coeff i| := by
  have he : ∀ t : ℝ, p.eval t = ∑ i ∈ Finset.range d, p.coeff i * t ^ i := fun t =>
    Polynomial.eval_eq_sum_range' hp t
  have e1 : (∫ t in (-1 : ℝ)..1, p.eval t) =
      ∑ i ∈ Finset.range d, p.coeff i * ∫ t in (-1 : ℝ)..1, t ^ i := by
    simp only [he]
    rw [intervalIntegral.integral_finsetSum]
    · simp only [intervalIntegral.integral_const_mul]
    · intro i _
      exact (Continuous.intervalIntegrable (by fun_prop) _ _)
  have e2 : glSum tab (fun t => p.eval t) =
      ∑ i ∈ Finset.range d, p.coeff i * glSum tab (fun t => t ^ i) := by
    simp only [he]
    rw [glSum_sum]
    exact Finset.sum_congr rfl fun i _ => glSum_smul _ _ _
  rw [e1, e2, ← Finset.sum_sub_distrib, Finset.mul_sum]
  refine (Finset.abs_sum_le_sum_abs _ _).trans (Finset.sum_le_sum fun i hi => ?_)
  rw [← mul_sub, glSum_mono, abs_mul, mul_comm]
  refine mul_le_mul_of_nonneg_right ?_ (abs_nonneg _)
  have := h i (Finset.mem_range.1 hi)
  exact_mod_cast this

/-- **C234.** The three tables integrate every polynomial of degree below twice the number of nodes
over `[-1, 1]`, up to the rounding of the sixteen digits given. -/
theorem C234_tables (p : Polynomial ℝ) :
    (p.natDegree < 12 →
      |glSum tab6 (fun t => p.eval t) - ∫ t in (-1 : ℝ)..1, p.eval t| ≤
        1.5e-15 * ∑ i ∈ Finset.range 12, |p.coeff i|) ∧
    (p.natDegree < 24 →
      |glSum tab12 (fun t => p.eval t) - ∫ t in (-1 : ℝ)..1, p.eval t| ≤
        2.5e-16 * ∑ i ∈ Finset.range 24, |p.coeff i|) ∧
    (p.natDegree < 40 →
      |glSum tab20 (fun t => p.eval t) - ∫ t in (-1 : ℝ)..1, p.eval t| ≤
        1e-16 * ∑ i ∈ Finset.range 40, |p.coeff i|) := by
  have h6 : ∀ i < 12, |momErr tab6 i| ≤ 15 / 10 ^ 16 := by
    have h : ∀ i < 12, -(15 / 10 ^ 16) ≤ momErr tab6 i ∧ momErr tab6 i ≤ 15 / 10 ^ 16 := by decide +kernel
    exact fun i hi => abs_le.2 (h i hi)
  have h12 : ∀ i < 24, |momErr tab12 i| ≤ 25 / 10 ^ 17 := by
    have h : ∀ i < 24, -(25 / 10 ^ 17) ≤ momErr tab12 i ∧ momErr tab12 i ≤ 25 / 10 ^ 17 := by decide +kernel
    exact fun i hi => abs_le.2 (h i hi)
  have h20 : ∀ i < 40, |momErr tab20 i| ≤ 1 / 10 ^ 16 := by
    have h : ∀ i < 40, -(1 / 10 ^ 16) ≤ momErr tab20 i ∧ momErr tab20 i ≤ 1 / 10 ^ 16 := by decide +kernel
    exact fun i hi => abs_le.2 (h i hi)
  refine ⟨fun hp => ?_, fun hp => ?_, fun hp => ?_⟩
  · have := poly_error tab6 12 _ h6 p hp
    norm_num at this ⊢
    exact this
  · have := poly_error tab12 24 _ h12 p hp
    norm_num at this ⊢
    exact this
  · have := poly_error tab20 40 _ h20 p hp
    norm_num at this ⊢
    exact this

/-- All weights are positive and all nodes lie in the open interval, so the rules are monotone. -/
theorem C234_positive (r : ℝ) (f g : ℝ → ℝ) (h : ∀ t ∈ Ioo (-1 : ℝ) 1, f t ≤ g t) :
    glSum (tabOf r) f ≤ glSum (tabOf r) g := by
  have key : ∀ tab : List (ℚ × ℚ), (∀ p ∈ tab, 0 < p.1 ∧ -1 < p.2 ∧ p.2 < 0) →
      glSum tab f ≤ glSum tab g := by
    intro tab ht
    rw [glSum_eq, glSum_eq]
    refine List.sum_le_sum fun p hp => ?_
    obtain ⟨h1, h2, h3⟩ := ht p hp
    have h1' : (0 : ℝ) < p.1 := by exact_mod_cast h1
    have h2' : (-1 : ℝ) < p.2 := by exact_mod_cast h2
    have h3' : (p.2 : ℝ) < 0 := by exact_mod_cast h3
    refine mul_le_mul_of_nonneg_left (add_le_add (h _ ?_) (h _ ?_)) h1'.le
    · constructor <;> linarith
    · constructor <;> linarith
  have h6 : ∀ p ∈ tab6, 0 < p.1 ∧ -1 < p.2 ∧ p.2 < 0 := by decide +kernel
  have h12 : ∀ p ∈ tab12, 0 < p.1 ∧ -1 < p.2 ∧ p.2 < 0 := by decide +kernel
  have h20 : ∀ p ∈ tab20, 0 < p.1 ∧ -1 < p.2 ∧ p.2 < 0 := by decide +kernel
  unfold tabOf
  split_ifs
  · exact key _ h20
  · exact key _ h12
  · exact key _ h6

/-- The rule for the correlation: which table is used. -/
theorem C234_choice (r : ℝ) :
    (tabOf r).length = if 0.75 ≤ r then 10 else if 0.3 ≤ r then 6 else 3 := by
  unfold tabOf
  by_cases h1 : 0.75 ≤ r
  · rw [if_pos h1, if_pos h1]; rfl
  · by_cases h2 : 0.3 ≤ r
    · rw [if_neg h1, if_pos ⟨h2, not_le.1 h1⟩, if_neg h1, if_pos h2]; rfl
    · rw [if_neg h1, if_neg (fun h => h2 h.1), if_neg h1, if_neg h2]; rfl

example : |glSum tab6 (fun t => (Polynomial.X ^ 10 : Polynomial ℝ).eval t) -
    ∫ t in (-1 : ℝ)..1, (Polynomial.X ^ 10 : Polynomial ℝ).eval t| ≤ 1.5e-15 := by
  have := (C234_tables (Polynomial.X ^ 10)).1 (by rw [Polynomial.natDegree_X_pow]; norm_num)
  simpa [Polynomial.coeff_X_pow, apply_ite abs] using this

end Wafo.Gauss
