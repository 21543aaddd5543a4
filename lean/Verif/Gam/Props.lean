import Mathlib.Analysis.SpecialFunctions.Gaussian.GaussianIntegral
import Mathlib.Data.Nat.Choose.Basic
import Mathlib.Tactic.NormNum
import Verif.Gam.Model
import Verif.Gam.Stirling

set_option linter.unusedSectionVars false

/-!
Property C224: `stirlerr`, `betaloge` and `binomln` of misc.py.
-/

namespace Wafo.Gam

theorem stirErr_exact {n : ℝ} (hn : 0 < n) :
    gammaln (n + 1) - Real.log (Real.sqrt (2 * Real.pi * n) * (n / Real.exp 1) ^ n) = stirErr n := by
  have h1 : 0 < 2 * Real.pi * n := by positivity
  have h2 : 0 < n / Real.exp 1 := div_pos hn (Real.exp_pos 1)
  rw [Real.log_mul (Real.sqrt_pos.2 h1).ne' (Real.rpow_pos_of_pos h2 n).ne', Real.log_sqrt h1.le, Real.log_rpow h2, Real.log_div hn.ne' (Real.exp_pos 1).ne', Real.log_exp]
  unfold stirErr gammaln
  ring

theorem inv_pow_le (x : ℝ) (c : ℝ) (hc : 0 < c) (h : c ≤ x) (n : ℕ) : 1 / x ^ n ≤ 1 / c ^ n :=
  one_div_le_one_div_of_le (pow_pos hc n) (pow_le_pow_left₀ hc.le h n)

/-- C224: for every positive real `n`, in all five branches, `stirlerr(n)` differs from the error of Stirling's formula, `log(Gamma(n+1)) - log(sqrt(2 pi n) (n/e)^n)`, by less
than `2^-52`, the relative spacing of double precision numbers at 1. -/
theorem C224_stirlerr (n : ℝ) (hn : 0 < n) :
    ∃ y, stirlerr n = some y ∧ |y - (Real.log (Real.Gamma (n + 1)) - Real.log (Real.sqrt (2 * Real.pi * n) * (n / Real.exp 1) ^ n))| ≤ 1 / 2 ^ 52 := by
  have hex := stirErr_exact hn
  unfold gammaln at hex
  rw [hex]
  have hn0 : n ≠ 0 := hn.ne'
  by_cases h1 : 500 < n
  · refine ⟨(1 / 12 - 1 / 360 / (n * n)) / n, by simp [stirlerr, not_le.2 hn, h1], ?_⟩
    have hl := lower_2 n hn
    have hu := upper_3 n hn
    simp only [ser, Finset.sum_range_succ, Finset.sum_range_zero, coef] at hl hu
    have e : (1 / 12 - 1 / 360 / (n * n)) / n = 0 + 1 / 12 / n ^ (2 * 0 + 1) + -(1 / 360) / n ^ (2 * 1 + 1) := by field_simp; ring
    have hb := inv_pow_le n 500 (by norm_num) h1.le 5
    rw [e, abs_le]
    have e2 : (1 : ℝ) / 1260 / n ^ (2 * 2 + 1) = 1 / 1260 * (1 / n ^ 5) := by ring
    rw [e2] at hu
    norm_num at hb hl hu ⊢
    constructor <;> linarith
  by_cases h2 : 80 < n
  · refine ⟨(1 / 12 - (1 / 360 - 1 / 1260 / (n * n)) / (n * n)) / n, by simp [stirlerr, not_le.2 hn, h1, h2, not_lt.1 h1], ?_⟩
    have hl := lower_4 n hn
    have hu := upper_3 n hn
    simp only [ser, Finset.sum_range_succ, Finset.sum_range_zero, coef] at hl hu
    have e : (1 / 12 - (1 / 360 - 1 / 1260 / (n * n)) / (n * n)) / n = 0 + 1 / 12 / n ^ (2 * 0 + 1) + -(1 / 360) / n ^ (2 * 1 + 1) + 1 / 1260 / n ^ (2 * 2 + 1) := by field_simp; ring
    have hb := inv_pow_le n 80 (by norm_num) h2.le 7
    rw [e, abs_le]
    have e2 : -(1 / 1680 : ℝ) / n ^ (2 * 3 + 1) = -(1 / 1680 * (1 / n ^ 7)) := by ring
    rw [e2] at hl
    norm_num at hb hl hu ⊢
    constructor <;> linarith
  by_cases h3 : 35 < n
  · refine ⟨(1 / 12 - (1 / 360 - (1 / 1260 - 1 / 1680 / (n * n)) / (n * n)) / (n * n)) / n, by simp [stirlerr, not_le.2 hn, h1, h2, h3, not_lt.1 h2], ?_⟩
    have hl := lower_4 n hn
    have hu := upper_5 n hn
    simp only [ser, Finset.sum_range_succ, Finset.sum_range_zero, coef] at hl hu
    have e : (1 / 12 - (1 / 360 - (1 / 1260 - 1 / 1680 / (n * n)) / (n * n)) / (n * n)) / n =
        0 + 1 / 12 / n ^ (2 * 0 + 1) + -(1 / 360) / n ^ (2 * 1 + 1) + 1 / 1260 / n ^ (2 * 2 + 1) + -(1 / 1680) / n ^ (2 * 3 + 1) := by field_simp; ring
    have hb := inv_pow_le n 35 (by norm_num) h3.le 9
    rw [e, abs_le]
    have e2 : (1 : ℝ) / 1188 / n ^ (2 * 4 + 1) = 1 / 1188 * (1 / n ^ 9) := by ring
    rw [e2] at hu
    norm_num at hb hl hu ⊢
    constructor <;> linarith
  by_cases h4 : 15 < n
  · refine ⟨(1 / 12 - (1 / 360 - (1 / 1260 - (1 / 1680 - 1 / 1188 / (n * n)) / (n * n)) / (n * n)) / (n * n)) / n,
      by simp [stirlerr, not_le.2 hn, h1, h2, h3, h4, not_lt.1 h3], ?_⟩
    have hl := lower_6 n hn
    have hu := upper_5 n hn
    simp only [ser, Finset.sum_range_succ, Finset.sum_range_zero, coef] at hl hu
    have e : (1 / 12 - (1 / 360 - (1 / 1260 - (1 / 1680 - 1 / 1188 / (n * n)) / (n * n)) / (n * n)) / (n * n)) / n =
        0 + 1 / 12 / n ^ (2 * 0 + 1) + -(1 / 360) / n ^ (2 * 1 + 1) + 1 / 1260 / n ^ (2 * 2 + 1) + -(1 / 1680) / n ^ (2 * 3 + 1) + 1 / 1188 / n ^ (2 * 4 + 1) := by
      field_simp; ring
    have hb := inv_pow_le n 15 (by norm_num) h4.le 11
    rw [e, abs_le]
    have e2 : -(691 / 360360 : ℝ) / n ^ (2 * 5 + 1) = -(691 / 360360 * (1 / n ^ 11)) := by ring
    rw [e2] at hl
    norm_num at hb hl hu ⊢
    constructor <;> linarith
  · refine ⟨_, by simp only [stirlerr, not_le.2 hn, h1, h2, h3, h4, if_false, false_and]; rfl, ?_⟩
    rw [stirErr_exact hn, sub_self, abs_zero]
    positivity

example : stirlerr 600 = some ((1 / 12 - 1 / 360 / (600 * 600)) / 600) := by norm_num [stirlerr]
example : stirlerr 20 = some ((1 / 12 - (1 / 360 - (1 / 1260 - (1 / 1680 - 1 / 1188 / (20 * 20)) / (20 * 20)) / (20 * 20)) / (20 * 20)) / 20) := by norm_num [stirlerr]

theorem betaln_eq (a b : ℝ) (ha : 0 < a) (hb : 0 < b) :
    betaln a b = -(1 / 2) * Real.log b + 1 / 2 * Real.log (2 * Real.pi) + (stirErr a + stirErr b - stirErr (a + b)) +
      (a - 1 / 2) * Real.log (a / (a + b)) + b * Real.log (1 + -a / (a + b)) := by
  have hab : 0 < a + b := by linarith
  have e1 : 1 + -a / (a + b) = b / (a + b) := by field_simp; ring
  have hp : (2 : ℝ) * Real.pi ≠ 0 := by positivity
  unfold betaln gammaln stirErr
  rw [e1, Real.log_div ha.ne' hab.ne', Real.log_div hb.ne' hab.ne', log_gamma_succ ha, log_gamma_succ hb, log_gamma_succ hab, Real.log_mul hp ha.ne', Real.log_mul hp hb.ne',
    Real.log_mul hp hab.ne']
  ring

/-- C224: for positive arguments below the largest float, `betaloge(z, w)` differs from `log(Gamma(z)) + log(Gamma(w)) - log(Gamma(z + w))` by at most `3 * 2^-52`;
the order of the arguments does not matter; and `betaloge` is inf if an argument is zero and nan if one is negative. -/
theorem C224_betaloge (huge : ℝ) (z w : ℝ) :
    betaloge huge z w = betaloge huge w z ∧ (z < 0 → betaloge huge z w = none) ∧ (0 ≤ w → betaloge huge 0 w = some ⊤) ∧
    (0 < z → 0 < w → z < huge → w < huge → ∃ y : ℝ, betaloge huge z w = some (y : EReal) ∧
      |y - (Real.log (Real.Gamma z) + Real.log (Real.Gamma w) - Real.log (Real.Gamma (z + w)))| ≤ 3 / 2 ^ 52) := by
  refine ⟨by unfold betaloge; rw [min_comm, max_comm], ?_, ?_, ?_⟩
  · intro hz
    have h1 : min z w < 0 := (min_le_left _ _).trans_lt hz
    unfold betaloge
    dsimp only
    rw [if_neg h1.ne, if_neg (fun h => absurd h.1 (not_lt.2 h1.le)), if_neg (fun h => by linarith [h.1]), if_neg (fun h => absurd h.1 (not_lt.2 h1.le))]
  · intro hw
    simp [betaloge, min_eq_left hw]
  · intro hz hw hzh hwh
    have ha : 0 < min z w := lt_min hz hw
    have hb : max z w < huge := max_lt hzh hwh
    have hb0 : 0 < max z w := lt_of_lt_of_le hz (le_max_left _ _)
    have hsym : betaln (min z w) (max z w) = Real.log (Real.Gamma z) + Real.log (Real.Gamma w) - Real.log (Real.Gamma (z + w)) := by
      unfold betaln gammaln
      rcases le_total z w with h | h
      · rw [min_eq_left h, max_eq_right h]
      · rw [min_eq_right h, max_eq_left h, add_comm w z]; ring
    rw [← hsym]
    unfold betaloge
    dsimp only
    rw [if_neg ha.ne', if_neg (fun h => absurd h.2 (not_le.2 hb))]
    by_cases h10 : 10 ≤ min z w
    · rw [if_pos ⟨h10, hb⟩]
      obtain ⟨ya, hya, hea⟩ := C224_stirlerr _ ha
      obtain ⟨yb, hyb, heb⟩ := C224_stirlerr _ hb0
      obtain ⟨yc, hyc, hec⟩ := C224_stirlerr _ (add_pos ha hb0)
      have xa := stirErr_exact ha
      have xb := stirErr_exact hb0
      have xc := stirErr_exact (add_pos ha hb0)
      unfold gammaln at xa xb xc
      rw [xa] at hea
      rw [xb] at heb
      rw [xc] at hec
      simp only [betaln3, hya, hyb, hyc]
      refine ⟨_, rfl, ?_⟩
      rw [betaln_eq _ _ ha hb0]
      rw [abs_le] at hea heb hec ⊢
      constructor <;> linarith [hea.1, hea.2, heb.1, heb.2, hec.1, hec.2]
    · rw [if_neg (fun h => h10 h.1), if_pos ⟨ha, not_le.1 h10, hb⟩]
      exact ⟨_, rfl, by rw [sub_self, abs_zero]; positivity⟩

/-- C224: for real `0 <= w <= z` (below the largest float), `binomln(z, w)` differs from the logarithm of the binomial coefficient `Gamma(z+1) / (Gamma(w+1) Gamma(z-w+1))` by at most
`3 * 2^-52`. -/
theorem C224_binomln (huge z w : ℝ) (hw : 0 ≤ w) (hwz : w ≤ z) (hz : z + 1 < huge) :
    ∃ y : ℝ, binomln huge z w = some (y : EReal) ∧
      |y - Real.log (Real.Gamma (z + 1) / (Real.Gamma (w + 1) * Real.Gamma (z - w + 1)))| ≤ 3 / 2 ^ 52 := by
  have hz0 : 0 ≤ z := hw.trans hwz
  have g : ∀ x : ℝ, 0 ≤ x → 0 < Real.Gamma (x + 1) := fun x hx => Real.Gamma_pos_of_pos (by linarith)
  have key : ∀ k : ℝ, 0 ≤ k → k ≤ z →
      Real.log (Real.Gamma (z + 1) / (Real.Gamma (k + 1) * Real.Gamma (z - k + 1))) =
        Real.log (Real.Gamma (z + 1)) - Real.log (Real.Gamma (k + 1)) - Real.log (Real.Gamma (z - k + 1)) := by
    intro k hk hkz
    rw [Real.log_div (g z hz0).ne' (mul_pos (g k hk) (g _ (by linarith))).ne', Real.log_mul (g k hk).ne' (g _ (by linarith)).ne']
    ring
  obtain ⟨k, hk, hk0, hkz, hsym⟩ : ∃ k : ℝ, k = (if z - w < 2 then z - w else w) ∧ 0 ≤ k ∧ k ≤ z ∧
      Real.log (Real.Gamma (z + 1) / (Real.Gamma (w + 1) * Real.Gamma (z - w + 1))) = Real.log (Real.Gamma (z + 1) / (Real.Gamma (k + 1) * Real.Gamma (z - k + 1))) := by
    by_cases h : z - w < 2
    · refine ⟨z - w, by rw [if_pos h], by linarith, by linarith, ?_⟩
      rw [show z - (z - w) + 1 = w + 1 by ring, mul_comm]
    · exact ⟨w, by rw [if_neg h], hw, hwz, rfl⟩
  rw [hsym]
  unfold binomln
  dsimp only
  rw [← hk, if_neg (not_lt.2 hk0)]
  by_cases h0 : k = 0
  · rw [if_pos h0]
    refine ⟨0, rfl, ?_⟩
    rw [h0]
    simp only [zero_add, sub_zero, Real.Gamma_one, one_mul, div_self (g z hz0).ne', Real.log_one, sub_self, abs_zero]
    positivity
  rw [if_neg h0]
  by_cases h1 : k = 1
  · rw [if_pos h1]
    refine ⟨Real.log z, rfl, ?_⟩
    have hz1 : 0 < z := by linarith
    rw [h1]
    have : Real.Gamma (z + 1) / (Real.Gamma (1 + 1) * Real.Gamma (z - 1 + 1)) = z := by
      rw [show (1 : ℝ) + 1 = 2 by norm_num, Real.Gamma_two, one_mul, sub_add_cancel, Real.Gamma_add_one hz1.ne', mul_div_assoc, div_self (Real.Gamma_pos_of_pos hz1).ne', mul_one]
    rw [this, sub_self, abs_zero]
    positivity
  rw [if_neg h1]
  obtain ⟨_, _, _, h⟩ := C224_betaloge huge (z - k + 1) (k + 1)
  obtain ⟨y, hy, he⟩ := h (by linarith) (by linarith) (by linarith) (by linarith)
  rw [hy]
  refine ⟨-Real.log (z + 1) - y, by simp [EReal.coe_sub], ?_⟩
  rw [key k hk0 hkz]
  rw [show z - k + 1 + (k + 1) = z + 1 + 1 by ring, log_gamma_succ (by linarith : 0 < z + 1)] at he
  rw [abs_le] at he ⊢
  constructor <;> linarith [he.1, he.2]

/-- C224: for natural numbers `k <= n` this is the logarithm of the usual binomial coefficient, and for `k > n`, where the coefficient is zero, `binomln` is -inf. -/
theorem C224_choose (huge : ℝ) (n k : ℕ) (hn : (n : ℝ) + 1 < huge) :
    (k ≤ n → ∃ y : ℝ, binomln huge n k = some (y : EReal) ∧ |y - Real.log (n.choose k : ℝ)| ≤ 3 / 2 ^ 52) ∧
    (n < k → binomln huge n k = some ⊥ ∧ n.choose k = 0) := by
  constructor
  · intro h
    have hk : (k : ℝ) ≤ n := by exact_mod_cast h
    obtain ⟨y, hy, he⟩ := C224_binomln huge n k (Nat.cast_nonneg k) hk hn
    refine ⟨y, hy, ?_⟩
    have : (n.choose k : ℝ) = Real.Gamma ((n : ℝ) + 1) / (Real.Gamma ((k : ℝ) + 1) * Real.Gamma ((n : ℝ) - k + 1)) := by
      rw [← Nat.cast_sub h, Real.Gamma_nat_eq_factorial, Real.Gamma_nat_eq_factorial, Real.Gamma_nat_eq_factorial, Nat.cast_choose ℝ h]
    rw [this]
    exact he
  · intro h
    have hk : (n : ℝ) < k := by exact_mod_cast h
    refine ⟨?_, Nat.choose_eq_zero_of_lt h⟩
    have h1 : (n : ℝ) - k < 0 := by linarith
    unfold binomln
    dsimp only
    rw [if_pos (show (n : ℝ) - k < 2 by linarith), if_pos h1]

/-- C224: for real arguments with `w > z` that is wrong: `binomln(1/2, 1)` is -inf, but the binomial coefficient is 1/2; and the documented formula
`gammaln(Z) - gammaln(W) - gammaln(Z-W)` is not what is computed: for (3, 2) it is `log 2`, the result (rightly) `log 3`. -/
theorem C224_binomln_refuted (huge : ℝ) :
    binomln huge (1 / 2) 1 = some ⊥ ∧ Real.Gamma (1 / 2 + 1) / (Real.Gamma (1 + 1) * Real.Gamma (1 / 2 - 1 + 1)) = 1 / 2 ∧
    binomln huge 3 2 = some ((Real.log 3 : ℝ) : EReal) ∧ Real.log (Real.Gamma 3) - Real.log (Real.Gamma 2) - Real.log (Real.Gamma (3 - 2)) = Real.log 2 := by
  refine ⟨?_, ?_, ?_, ?_⟩
  · norm_num [binomln]
  · rw [show (1 : ℝ) + 1 = 2 by norm_num, Real.Gamma_two, one_mul, show (1 : ℝ) / 2 - 1 + 1 = 1 / 2 by norm_num, Real.Gamma_add_one (by norm_num)]
    have : Real.Gamma (1 / 2) ≠ 0 := (Real.Gamma_pos_of_pos (by norm_num)).ne'
    field_simp
  · norm_num [binomln]
  · have h3 : Real.Gamma 3 = 2 := by
      rw [show (3 : ℝ) = 2 + 1 by norm_num, Real.Gamma_add_one (by norm_num), Real.Gamma_two]; norm_num
    rw [h3, Real.Gamma_two, show (3 : ℝ) - 2 = 1 by norm_num, Real.Gamma_one]
    simp

end Wafo.Gam
