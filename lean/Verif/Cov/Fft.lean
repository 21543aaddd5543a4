import Verif.Geometry.Props
import Mathlib.Analysis.SpecialFunctions.Trigonometric.Basic
import Mathlib.Algebra.Field.GeomSum
import Mathlib.Analysis.SpecialFunctions.Complex.Log
import Mathlib.Algebra.BigOperators.Field
import Mathlib.Tactic.LinearCombination

/-!
The discrete Fourier transform of numpy, the length of the transforms, and lemmas on sums of cosines.
-/

set_option linter.unusedSectionVars false

namespace Wafo.Cov
open Finset

noncomputable section

/-- `fft(x, n)[k]` of `numpy.fft`: the input is padded with zeros, or cut, to `n` values. -/
def fft (n : ℕ) (x : List ℂ) (k : ℕ) : ℂ :=
  ∑ j ∈ range n, x.getD j 0 * Complex.exp (-(2 * Real.pi * j * k / n : ℝ) * Complex.I)

/-- The real numbers of an array as complex numbers. -/
def toC (x : List ℝ) : List ℂ := x.map fun v : ℝ => (v : ℂ)

/-- `2 ** nextpow2(n)` with the model of `nextpow2` in misc.py L2170-2190. -/
def pow2 (n : ℕ) : ℕ := 2 ^ (Geometry.nextpow2 (n : ℚ)).toNat

/-! ### Lemmas -/

theorem toC_getD (x : List ℝ) (j : ℕ) : (toC x).getD j 0 = ((x.getD j 0 : ℝ) : ℂ) := by
  unfold toC
  rw [List.getD_eq_getElem?_getD, List.getD_eq_getElem?_getD, List.getElem?_map]
  cases x[j]? <;> simp

theorem exp_re (t : ℝ) : (Complex.exp (-(t : ℂ) * Complex.I)).re = Real.cos t := by
  rw [show -(t : ℂ) * Complex.I = ((-t : ℝ) : ℂ) * Complex.I by push_cast; ring, Complex.exp_ofReal_mul_I_re, Real.cos_neg]

theorem exp_im (t : ℝ) : (Complex.exp (-(t : ℂ) * Complex.I)).im = -Real.sin t := by
  rw [show -(t : ℂ) * Complex.I = ((-t : ℝ) : ℂ) * Complex.I by push_cast; ring, Complex.exp_ofReal_mul_I_im, Real.sin_neg]

theorem fft_re (n : ℕ) (x : List ℝ) (k : ℕ) :
    (fft n (toC x) k).re = ∑ j ∈ range n, x.getD j 0 * Real.cos (2 * Real.pi * j * k / n) := by
  unfold fft
  rw [Complex.re_sum]
  refine sum_congr rfl fun j _ => ?_
  rw [toC_getD, Complex.re_ofReal_mul, exp_re]

theorem fft_im (n : ℕ) (x : List ℝ) (k : ℕ) :
    (fft n (toC x) k).im = -∑ j ∈ range n, x.getD j 0 * Real.sin (2 * Real.pi * j * k / n) := by
  unfold fft
  rw [Complex.im_sum, ← sum_neg_distrib]
  refine sum_congr rfl fun j _ => ?_
  rw [toC_getD, Complex.im_ofReal_mul, exp_im]
  ring

theorem sum_exp (n : ℕ) (hn : 0 < n) (m : ℤ) :
    ∑ k ∈ range n, Complex.exp ((2 * Real.pi * m * k / n : ℝ) * Complex.I) = if (n : ℤ) ∣ m then (n : ℂ) else 0 := by
  have hn' : (n : ℂ) ≠ 0 := by exact_mod_cast hn.ne'
  have hpi : (2 * (Real.pi : ℂ) * Complex.I) ≠ 0 := by simp [Real.pi_ne_zero]
  set z : ℂ := Complex.exp (2 * Real.pi * m / n * Complex.I) with hz
  have hpow : ∀ k : ℕ, Complex.exp ((2 * Real.pi * m * k / n : ℝ) * Complex.I) = z ^ k := by
    intro k
    rw [hz, ← Complex.exp_nat_mul]
    congr 1
    push_cast
    ring
  rw [sum_congr rfl fun k _ => hpow k]
  split
  · next h =>
    obtain ⟨q, hq⟩ := h
    have : z = 1 := by
      rw [hz, Complex.exp_eq_one_iff]
      refine ⟨q, ?_⟩
      rw [hq]
      push_cast
      field_simp
    simp [this]
  · next h =>
    have h1 : z ≠ 1 := by
      intro h1
      rw [hz, Complex.exp_eq_one_iff] at h1
      obtain ⟨q, hq⟩ := h1
      apply h
      refine ⟨q, ?_⟩
      have : (m : ℂ) * (2 * Real.pi * Complex.I) = (n * q : ℂ) * (2 * Real.pi * Complex.I) := by
        field_simp at hq
        linear_combination (2 * Real.pi * Complex.I) * hq
      exact_mod_cast mul_right_cancel₀ hpi this
    have hN : z ^ n = 1 := by
      rw [hz, ← Complex.exp_nat_mul, Complex.exp_eq_one_iff]
      exact ⟨m, by field_simp⟩
    rw [geom_sum_eq h1, hN]
    simp

theorem sum_cos (n : ℕ) (hn : 0 < n) (m : ℤ) :
    ∑ k ∈ range n, Real.cos (2 * Real.pi * m * k / n) = if (n : ℤ) ∣ m then (n : ℝ) else 0 := by
  have h := congrArg Complex.re (sum_exp n hn m)
  rw [Complex.re_sum] at h
  simp only [Complex.exp_ofReal_mul_I_re] at h
  rw [h]
  split <;> simp

theorem sum_sin (n : ℕ) (hn : 0 < n) (m : ℤ) :
    ∑ k ∈ range n, Real.sin (2 * Real.pi * m * k / n) = 0 := by
  have h := congrArg Complex.im (sum_exp n hn m)
  rw [Complex.im_sum] at h
  simp only [Complex.exp_ofReal_mul_I_im] at h
  rw [h]
  split <;> simp

/-- The products of two cosines of the grid sum to the two coincidences of their frequencies. -/
theorem sum_cos_cos (n : ℕ) (hn : 0 < n) (a b : ℤ) :
    ∑ k ∈ range n, Real.cos (2 * Real.pi * a * k / n) * Real.cos (2 * Real.pi * b * k / n) =
      ((if (n : ℤ) ∣ a - b then (n : ℝ) else 0) + (if (n : ℤ) ∣ a + b then (n : ℝ) else 0)) / 2 := by
  rw [← sum_cos n hn, ← sum_cos n hn, ← sum_add_distrib, sum_div]
  refine sum_congr rfl fun k _ => ?_
  have h1 : 2 * Real.pi * ((a - b : ℤ) : ℝ) * k / n = 2 * Real.pi * a * k / n - 2 * Real.pi * b * k / n := by push_cast; ring
  have h2 : 2 * Real.pi * ((a + b : ℤ) : ℝ) * k / n = 2 * Real.pi * a * k / n + 2 * Real.pi * b * k / n := by push_cast; ring
  rw [h1, h2, Real.cos_sub, Real.cos_add]
  ring

/-- The cosines of the grid do not change when the frequency changes by the length. -/
theorem cos_shift (n : ℕ) (hn : 0 < n) (a q : ℤ) (k : ℕ) :
    Real.cos (2 * Real.pi * ((a + q * n : ℤ) : ℝ) * k / n) = Real.cos (2 * Real.pi * a * k / n) := by
  have hn' : (n : ℝ) ≠ 0 := by exact_mod_cast hn.ne'
  rw [show 2 * Real.pi * ((a + q * n : ℤ) : ℝ) * k / n = 2 * Real.pi * a * k / n + ((q * k : ℤ) : ℝ) * (2 * Real.pi) by
    push_cast; field_simp]
  exact Real.cos_add_int_mul_two_pi _ _

theorem sin_shift (n : ℕ) (hn : 0 < n) (a q : ℤ) (k : ℕ) :
    Real.sin (2 * Real.pi * ((a + q * n : ℤ) : ℝ) * k / n) = Real.sin (2 * Real.pi * a * k / n) := by
  have hn' : (n : ℝ) ≠ 0 := by exact_mod_cast hn.ne'
  rw [show 2 * Real.pi * ((a + q * n : ℤ) : ℝ) * k / n = 2 * Real.pi * a * k / n + ((q * k : ℤ) : ℝ) * (2 * Real.pi) by
    push_cast; field_simp]
  exact Real.sin_add_int_mul_two_pi _ _

theorem cos_reflect (n : ℕ) (hn : 0 < n) (j k : ℕ) (hj : j ≤ n) :
    Real.cos (2 * Real.pi * ((n - j : ℕ) : ℝ) * k / n) = Real.cos (2 * Real.pi * j * k / n) := by
  have h := cos_shift n hn (-j) 1 k
  have e : (((n - j : ℕ) : ℕ) : ℝ) = ((-(j : ℤ) + 1 * n : ℤ) : ℝ) := by
    rw [Nat.cast_sub hj]; push_cast; ring
  rw [e, h]
  rw [show 2 * Real.pi * ((-(j : ℤ) : ℤ) : ℝ) * k / n = -(2 * Real.pi * j * k / n) by push_cast; ring, Real.cos_neg]

theorem sin_reflect (n : ℕ) (hn : 0 < n) (j k : ℕ) (hj : j ≤ n) :
    Real.sin (2 * Real.pi * ((n - j : ℕ) : ℝ) * k / n) = -Real.sin (2 * Real.pi * j * k / n) := by
  have h := sin_shift n hn (-j) 1 k
  have e : (((n - j : ℕ) : ℕ) : ℝ) = ((-(j : ℤ) + 1 * n : ℤ) : ℝ) := by
    rw [Nat.cast_sub hj]; push_cast; ring
  rw [e, h]
  rw [show 2 * Real.pi * ((-(j : ℤ) : ℤ) : ℝ) * k / n = -(2 * Real.pi * j * k / n) by push_cast; ring, Real.sin_neg]

theorem pow2_pos (n : ℕ) : 0 < pow2 n := by unfold pow2; positivity

theorem le_pow2 (n : ℕ) (hn : 0 < n) : n ≤ pow2 n := by
  have hx : (n : ℚ) ≠ 0 := by exact_mod_cast hn.ne'
  have h := (Geometry.C47_nextpow2 (n : ℚ) hx).1
  have h0 := Geometry.C47_nonneg (n : ℚ) (by
    rw [abs_of_nonneg (by positivity)]
    have : (1 : ℚ) ≤ n := by exact_mod_cast hn
    linarith)
  rw [abs_of_nonneg (by positivity : (0 : ℚ) ≤ n)] at h
  unfold pow2
  obtain ⟨m, hm⟩ := Int.eq_ofNat_of_zero_le h0
  rw [hm] at h ⊢
  simp only [Int.toNat_natCast, zpow_natCast] at h ⊢
  exact_mod_cast h

theorem pow2_le (n m : ℕ) (hn : 0 < n) (h : n ≤ 2 ^ m) : pow2 n ≤ 2 ^ m := by
  have hx : (n : ℚ) ≠ 0 := by exact_mod_cast hn.ne'
  have h2 := (Geometry.C47_nextpow2 (n : ℚ) hx).2 m (by
    rw [abs_of_nonneg (by positivity), zpow_natCast]
    exact_mod_cast h)
  unfold pow2
  exact Nat.pow_le_pow_right (by norm_num) (by omega)

theorem pow2_pow (m : ℕ) : pow2 (2 ^ m) = 2 ^ m :=
  le_antisymm (pow2_le _ _ (by positivity) le_rfl) (le_pow2 _ (by positivity))

theorem pow2_eq (n m : ℕ) (h1 : 2 ^ m < n) (h2 : n ≤ 2 ^ (m + 1)) : pow2 n = 2 ^ (m + 1) := by
  refine le_antisymm (pow2_le n _ (by omega) h2) ?_
  have h := le_pow2 n (by omega)
  unfold pow2 at h ⊢
  apply Nat.pow_le_pow_right (by norm_num)
  by_contra hc
  have := Nat.pow_le_pow_right (show 0 < 2 by norm_num) (show (Geometry.nextpow2 (n : ℚ)).toNat ≤ m by omega)
  omega

theorem pow2_even (n : ℕ) (hn : 2 ≤ n) : 2 ∣ pow2 n := by
  have h := le_pow2 n (by omega)
  unfold pow2 at h ⊢
  have : (Geometry.nextpow2 (n : ℚ)).toNat ≠ 0 := by
    intro h0
    rw [h0] at h
    omega
  exact dvd_pow_self 2 this

end

end Wafo.Cov
