import Mathlib.Analysis.SpecialFunctions.Trigonometric.Chebyshev.ChebyshevGauss
import Mathlib.Analysis.SpecialFunctions.Integrals.Basic
import Mathlib.Analysis.Calculus.Deriv.Polynomial
import Mathlib.MeasureTheory.Integral.IntervalIntegral.IntegrationByParts
import Mathlib.Tactic.LinearCombination
import Verif.Quad.Model

/-! Trigonometric sums and integrals of Chebyshev polynomials. -/

set_option linter.unusedSectionVars false

namespace Wafo.Quad

open Real Polynomial Polynomial.Chebyshev Finset

/-- The trapezoidal sum of a cosine. -/
theorem trap_cos (θ : ℝ) (N : ℕ) :
    2 * sin (θ / 2) * (∑ j ∈ range N, cos (j * θ) - (1 - cos (N * θ)) / 2)
      = sin (N * θ) * cos (θ / 2) := by
  induction N with
  | zero => simp
  | succ N ih =>
    rw [Finset.sum_range_succ]
    obtain ⟨φ, hφ⟩ : ∃ φ, (N : ℝ) * θ = φ - θ / 2 := ⟨N * θ + θ / 2, by ring⟩
    have e1 : ((N + 1 : ℕ) : ℝ) * θ = φ + θ / 2 := by push_cast; linarith
    rw [e1, cos_add, sin_add]
    rw [hφ, cos_sub, sin_sub] at ih
    rw [hφ, cos_sub]
    linear_combination ih

theorem trap_cos_pi (A N : ℕ) (hN : N ≠ 0) (hA : ¬ 2 * N ∣ A) :
    ∑ j ∈ range N, cos (A * π * j / N) = (1 - (-1) ^ A) / 2 := by
  have hNr : (N : ℝ) ≠ 0 := by exact_mod_cast hN
  have h := trap_cos (A * π / N) N
  have e1 : (N : ℝ) * (A * π / N) = A * π := by field_simp
  rw [e1, sin_nat_mul_pi, zero_mul, cos_nat_mul_pi] at h
  have hs : sin (A * π / N / 2) ≠ 0 := by
    rw [Ne, sin_eq_zero_iff]
    rintro ⟨z, hz⟩
    apply hA
    have : (A : ℝ) = 2 * N * z := by
      field_simp at hz
      linarith
    have : (A : ℤ) = 2 * N * z := by exact_mod_cast this
    have : ((2 * N : ℕ) : ℤ) ∣ (A : ℤ) := ⟨z, by push_cast; exact this⟩
    exact_mod_cast this
  have h2 : ∑ j ∈ range N, cos (j * (A * π / N)) - (1 - (-1) ^ A) / 2 = 0 := by
    rcases mul_eq_zero.1 h with h' | h'
    · exact absurd h' (by positivity)
    · exact h'
  have e : ∀ j : ℕ, cos (A * π * j / N) = cos (j * (A * π / N)) := fun j => by congr 1; ring
  simp_rw [e]
  linarith

theorem trap_cos_pi_dvd (A N : ℕ) (hN : N ≠ 0) (hA : 2 * N ∣ A) :
    ∑ j ∈ range N, cos (A * π * j / N) = N := by
  have hNr : (N : ℝ) ≠ 0 := by exact_mod_cast hN
  obtain ⟨z, rfl⟩ := hA
  have : ∀ j ∈ range N, cos (((2 * N * z : ℕ) : ℝ) * π * j / N) = 1 := by
    intro j _
    have : ((2 * N * z : ℕ) : ℝ) * π * j / N = ((z * j : ℕ) : ℝ) * (2 * π) := by
      push_cast; field_simp
    rw [this, cos_nat_mul_two_pi]
  rw [Finset.sum_congr rfl this]; simp

/-- The trapezoidal rule with both ends halved, in the form used below. -/
theorem trap_full (A N : ℕ) (hN : N ≠ 0) :
    ∑ j ∈ range N, cos (A * π * j / N) + ((-1) ^ A - 1) / 2 = if 2 * N ∣ A then (N : ℝ) else 0 := by
  split_ifs with h
  · rw [trap_cos_pi_dvd A N hN h]
    have : Even A := (even_iff_two_dvd).2 (dvd_trans (dvd_mul_right 2 N) h)
    rw [this.neg_one_pow]; simp
  · rw [trap_cos_pi A N hN h]; ring

/-- Integral of a Chebyshev polynomial over `[-1, 1]`. -/
theorem integral_T (m : ℕ) :
    ∫ x in (-1 : ℝ)..1, (T ℝ m).eval x = if Even m then 2 / (1 - (m : ℝ) ^ 2) else 0 := by
  rcases Nat.lt_or_ge m 2 with hm | hm
  · have : m = 0 ∨ m = 1 := by omega
    rcases this with rfl | rfl
    · simp; norm_num
    · simp
  obtain ⟨k, rfl⟩ : ∃ k, m = k + 2 := ⟨m - 2, by omega⟩
  have hk : ((k : ℝ) + 1) ≠ 0 := by positivity
  have hk3 : ((k : ℝ) + 3) ≠ 0 := by positivity
  set F : ℝ[X] := C (1 / (2 * ((k : ℝ) + 3))) * T ℝ ((k : ℤ) + 3) - C (1 / (2 * ((k : ℝ) + 1))) * T ℝ ((k : ℤ) + 1)
    with hF
  have hd : derivative F = T ℝ ((k + 2 : ℕ) : ℤ) := by
    have h1 := T_derivative_eq_U (R := ℝ) ((k : ℤ) + 3)
    have h2 := T_derivative_eq_U (R := ℝ) ((k : ℤ) + 1)
    have h3 := two_mul_T_eq_U_sub_U ℝ (k : ℤ)
    rw [hF, derivative_sub, derivative_C_mul, derivative_C_mul, h1, h2]
    rw [show (k : ℤ) + 3 - 1 = k + 2 by ring, show (k : ℤ) + 1 - 1 = k by ring]
    have c1 : (((k : ℤ) + 3 : ℤ) : ℝ[X]) = C ((k : ℝ) + 3) := by
      push_cast; rw [C_add, map_natCast, map_ofNat]
    have c2 : (((k : ℤ) + 1 : ℤ) : ℝ[X]) = C ((k : ℝ) + 1) := by push_cast; simp
    rw [c1, c2, ← mul_assoc, ← mul_assoc, ← Polynomial.C_mul, ← Polynomial.C_mul]
    have e1 : 1 / (2 * ((k : ℝ) + 3)) * (k + 3) = 1 / 2 := by field_simp
    have e2 : 1 / (2 * ((k : ℝ) + 1)) * (k + 1) = 1 / 2 := by field_simp
    rw [e1, e2, ← mul_sub, ← h3, ← mul_assoc]
    have : C (1 / 2 : ℝ) * 2 = 1 := by
      rw [show (2 : ℝ[X]) = Polynomial.C 2 from (map_ofNat Polynomial.C 2).symm, ← Polynomial.C_mul]; norm_num
    rw [this, one_mul]; push_cast; rfl
  have hint : ∫ x in (-1 : ℝ)..1, (T ℝ ((k + 2 : ℕ) : ℤ)).eval x = F.eval 1 - F.eval (-1) := by
    rw [← hd]
    refine intervalIntegral.integral_eq_sub_of_hasDerivAt (fun x _ => F.hasDerivAt x) ?_
    exact (derivative F).continuous.intervalIntegrable _ _
  rw [hint, hF]
  simp only [eval_sub, eval_mul, eval_C, T_eval_one, T_eval_neg_one]
  rw [show ((k : ℤ) + 3) = ((k + 3 : ℕ) : ℤ) by push_cast; ring,
    show ((k : ℤ) + 1) = ((k + 1 : ℕ) : ℤ) by push_cast; ring]
  rcases Nat.even_or_odd k with he | ho
  · have h1 : Odd (((k + 3 : ℕ)) : ℤ) := by
      have : Odd (k + 3) := by rcases he with ⟨r, rfl⟩; exact ⟨r + 1, by ring⟩
      exact_mod_cast this
    have h2 : Odd (((k + 1 : ℕ)) : ℤ) := by
      have : Odd (k + 1) := he.add_one
      exact_mod_cast this
    rw [Int.negOnePow_odd _ h1, Int.negOnePow_odd _ h2]
    have : Even (k + 2) := by rcases he with ⟨r, rfl⟩; exact ⟨r + 1, by ring⟩
    rw [if_pos this]
    push_cast
    have : (1 - ((k : ℝ) + 2) ^ 2) ≠ 0 := by nlinarith [(by positivity : (0 : ℝ) ≤ k)]
    field_simp
    ring
  · have h1 : Even (((k + 3 : ℕ)) : ℤ) := by
      have : Even (k + 3) := by rcases ho with ⟨r, rfl⟩; exact ⟨r + 2, by ring⟩
      exact_mod_cast this
    have h2 : Even (((k + 1 : ℕ)) : ℤ) := by
      have : Even (k + 1) := ho.add_one
      exact_mod_cast this
    rw [Int.negOnePow_even _ h1, Int.negOnePow_even _ h2]
    have : ¬ Even (k + 2) := by
      rw [Nat.not_even_iff_odd]; rcases ho with ⟨r, rfl⟩; exact ⟨r + 1, by ring⟩
    rw [if_neg this]
    simp

/-- Two linear functionals that agree on the first Chebyshev polynomials agree on all polynomials
of small degree. -/
theorem eq_of_T (L M : ℝ[X] →ₗ[ℝ] ℝ) (d : ℕ) (h : ∀ m < d, L (T ℝ (m : ℤ)) = M (T ℝ (m : ℤ)))
    (P : ℝ[X]) (hP : P.degree < d) : L P = M P := by
  have hmem : P ∈ degreeLT ℝ d := by rwa [mem_degreeLT]
  rw [← Sequence.span_degreeLT (chebyshevTsequence ℝ) (by simp),
    show Set.Iio d = Finset.range d by simp,
    Submodule.mem_span_image_finset_iff_exists_fun'] at hmem
  obtain ⟨c, rfl⟩ := hmem
  simp only [map_sum, map_smul]
  refine Finset.sum_congr rfl fun i hi => ?_
  rw [Finset.mem_range] at hi
  have := h i hi
  simp only [chebyshevTsequence] at *
  rw [this]

end Wafo.Quad
