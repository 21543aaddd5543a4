import Verif.Cheb.Fit
import Verif.Cheb.Props
import Mathlib.Analysis.SpecialFunctions.Trigonometric.Chebyshev.RootsExtrema
import Mathlib.LinearAlgebra.Lagrange
import Mathlib.Algebra.BigOperators.Field

set_option linter.unusedSectionVars false

/-! Properties of the Chebyshev nodes and of `chebfit` (C95, C96). -/

namespace Wafo.Cheb

open Wafo.Poly Polynomial.Chebyshev Real

/-! ### C95: nodes and extrema -/

theorem node1 (n : ℕ) (i : ℕ) (hi : i < n) :
    (T ℝ n).eval (-cos (π * ((i : ℝ) + (1 : ℕ) / 2) / ((n : ℝ) + (1 : ℕ) - 1))) = 0 := by
  have hn : (n : ℝ) ≠ 0 := by exact_mod_cast (by omega : n ≠ 0)
  rw [T_eval_neg, T_real_cos]
  have : ((n : ℤ) : ℝ) * (π * ((i : ℝ) + (1 : ℕ) / 2) / ((n : ℝ) + (1 : ℕ) - 1)) = (2 * (i : ℤ) + 1) * π / 2 := by
    push_cast
    rw [show (n : ℝ) + 1 - 1 = n by ring]
    field_simp
    try ring
  rw [this]
  rw [show (2 * ((i : ℤ) : ℝ) + 1) * π / 2 = ((i : ℕ) : ℝ) * π + π / 2 by push_cast; ring, cos_add_pi_div_two,
    sin_nat_mul_pi]
  simp

theorem node2 (n : ℕ) (i : ℕ) (hi : i < n) :
    (U ℝ n).eval (-cos (π * ((i : ℝ) + (2 : ℕ) / 2) / ((n : ℝ) + (2 : ℕ) - 1))) = 0 := by
  set θ := π * ((i : ℝ) + (2 : ℕ) / 2) / ((n : ℝ) + (2 : ℕ) - 1) with hθ
  have hn1 : (0 : ℝ) < (n : ℝ) + 1 := by positivity
  have hθ' : θ = π * ((i : ℝ) + 1) / ((n : ℝ) + 1) := by rw [hθ]; push_cast; congr 1 <;> ring
  have h0 : 0 < θ := by rw [hθ']; positivity
  have h1 : θ < π := by
    rw [hθ', div_lt_iff₀ hn1]
    have : (i : ℝ) < n := by exact_mod_cast hi
    nlinarith [pi_pos]
  have hsin : sin θ ≠ 0 := (sin_pos_of_pos_of_lt_pi h0 h1).ne'
  have h2 := U_real_cos θ (n : ℤ)
  have h3 : sin ((((n : ℤ) : ℝ) + 1) * θ) = 0 := by
    rw [hθ']
    have : (((n : ℤ) : ℝ) + 1) * (π * ((i : ℝ) + 1) / ((n : ℝ) + 1)) = ((i + 1 : ℕ) : ℝ) * π := by
      push_cast; field_simp
    rw [this, sin_nat_mul_pi]
  rw [h3] at h2
  have h4 : (U ℝ n).eval (cos θ) = 0 := by
    rcases mul_eq_zero.1 h2 with h | h
    · exact h
    · exact absurd h hsin
  rw [U_eval_neg, h4]; simp

/-- **C95**  `chebroot(n, kind)` returns `n` strictly increasing points inside `(-1, 1)` and each is a root of `T_n` (`kind=1`) or
`U_n` (`kind=2`), hence all the roots; any other kind raises ValueError. -/
theorem C95_chebroot (n kind : ℕ) :
    (kind = 1 ∨ kind = 2 → ∃ x, chebroot n kind = .ok x ∧ x.length = n ∧ x.Pairwise (· < ·) ∧ (∀ t ∈ x, -1 < t ∧ t < 1) ∧
      (∀ t ∈ x, (kind = 1 → (T ℝ n).eval t = 0) ∧ (kind = 2 → (U ℝ n).eval t = 0))) ∧
    (¬ (kind = 1 ∨ kind = 2) → chebroot n kind = .error .valueError) := by
  constructor
  · intro hk
    refine ⟨_, by rw [chebroot, if_pos hk], by simp, ?_, ?_, ?_⟩
    · rw [List.pairwise_map]
      refine List.Pairwise.imp_of_mem ?_ List.pairwise_lt_range
      intro i j hi hj hij
      rw [List.mem_range] at hi hj
      have hk1 : (1 : ℝ) ≤ kind := by rcases hk with h | h <;> simp [h]
      have hk2 : (kind : ℝ) ≤ 2 := by rcases hk with h | h <;> simp [h]
      have hnpos : (1 : ℝ) ≤ n := by exact_mod_cast (by omega : 1 ≤ n)
      have hd : (0 : ℝ) < (n : ℝ) + kind - 1 := by linarith
      have hjn : (j : ℝ) + 1 ≤ n := by exact_mod_cast hj
      have hij' : (i : ℝ) < j := by exact_mod_cast hij
      have hi0 : (0 : ℝ) ≤ i := by positivity
      apply neg_lt_neg
      apply cos_lt_cos_of_nonneg_of_le_pi
      · positivity
      · rw [div_le_iff₀ hd]
        apply mul_le_mul_of_nonneg_left _ pi_pos.le
        linarith
      · apply div_lt_div_of_pos_right _ hd
        apply mul_lt_mul_of_pos_left _ pi_pos
        linarith
    · intro t ht
      obtain ⟨i, hi, rfl⟩ := List.mem_map.1 ht
      rw [List.mem_range] at hi
      have hk1 : (1 : ℝ) ≤ kind := by rcases hk with h | h <;> simp [h]
      have hnpos : (1 : ℝ) ≤ n := by exact_mod_cast (by omega : 1 ≤ n)
      have hd : (0 : ℝ) < (n : ℝ) + kind - 1 := by linarith
      have hin : (i : ℝ) + 1 ≤ n := by exact_mod_cast hi
      have hi0 : (0 : ℝ) ≤ i := by positivity
      have hpos : 0 < π * ((i : ℝ) + (kind : ℝ) / 2) / ((n : ℝ) + kind - 1) := by positivity
      have hlt : π * ((i : ℝ) + (kind : ℝ) / 2) / ((n : ℝ) + kind - 1) < π := by
        rw [div_lt_iff₀ hd]
        apply mul_lt_mul_of_pos_left _ pi_pos
        linarith
      constructor
      · have := cos_lt_cos_of_nonneg_of_le_pi le_rfl hlt.le hpos
        rw [cos_zero] at this; linarith
      · have := cos_lt_cos_of_nonneg_of_le_pi hpos.le le_rfl hlt
        rw [cos_pi] at this; linarith
    · intro t ht
      obtain ⟨i, hi, rfl⟩ := List.mem_map.1 ht
      rw [List.mem_range] at hi
      exact ⟨by rintro rfl; exact node1 n i hi, by rintro rfl; exact node2 n i hi⟩
  · intro hk; rw [chebroot, if_neg hk]

/-- **C95** (extrema)  `chebextr(n)` runs from -1 to 1 and `T_n` takes the values `(-1)^n, ..., 1, -1, 1` there. -/
theorem C95_chebextr (n : ℕ) (hn : n ≠ 0) :
    (chebextr n).map (fun t => (T ℝ n).eval t) = (List.range (n + 1)).map (fun i : ℕ => (-1) ^ (n + i)) ∧
    (chebextr n).head? = some (-1) ∧ (chebextr n).getLast? = some 1 := by
  have hn' : (n : ℝ) ≠ 0 := by exact_mod_cast hn
  refine ⟨?_, ?_, ?_⟩
  · rw [chebextr, List.map_map]
    apply List.map_congr_left
    intro i _
    simp only [Function.comp]
    rw [T_eval_neg, T_real_cos]
    have : ((n : ℤ) : ℝ) * (π * (i : ℝ) / (n : ℝ)) = (i : ℝ) * π := by push_cast; field_simp
    rw [this, cos_nat_mul_pi, pow_add]
    simp [Int.negOnePow_def]
  · simp [chebextr, List.range_succ_eq_map]
  · rw [chebextr, List.range_succ, List.map_append, List.getLast?_append]
    have : π * (n : ℝ) / (n : ℝ) = π := by field_simp
    simp [this]

/-! ### C96: chebfit interpolates -/

/-- Sum of cosines at multiples of `m π / n`. -/
theorem cos_sum (n : ℕ) (hn : 0 < n) (m : ℤ) (hm : ¬ (2 * (n : ℤ)) ∣ m) :
    1 + 2 * ∑ k ∈ Finset.range n, cos ((k : ℝ) * ((m : ℝ) * π / n)) = 2 - (-1 : ℝ) ^ m.natAbs := by
  set φ := (m : ℝ) * π / n with hφ
  have hn' : (n : ℝ) ≠ 0 := by exact_mod_cast hn.ne'
  have hs : sin (φ / 2) ≠ 0 := by
    intro h
    obtain ⟨k, hk⟩ := sin_eq_zero_iff.1 h
    apply hm
    refine ⟨k, ?_⟩
    have : (m : ℝ) = 2 * n * k := by
      have hpi := pi_ne_zero
      rw [hφ] at hk
      field_simp at hk
      linarith
    exact_mod_cast this
  have tel : ∀ N : ℕ, 2 * sin (φ / 2) * ∑ k ∈ Finset.range N, cos ((k : ℝ) * φ)
      = sin ((N : ℝ) * φ - φ / 2) + sin (φ / 2) := by
    intro N
    induction N with
    | zero => simp
    | succ N ih =>
      rw [Finset.sum_range_succ, mul_add, ih]
      have e1 : ((N + 1 : ℕ) : ℝ) * φ - φ / 2 = (N : ℝ) * φ + φ / 2 := by push_cast; ring
      rw [e1, sin_add, sin_sub]; ring
  have h := tel n
  have hnφ : (n : ℝ) * φ = m * π := by rw [hφ]; field_simp
  rw [hnφ, sin_sub, sin_int_mul_pi] at h
  have hc : cos ((m : ℝ) * π) = (-1) ^ m.natAbs := by
    rcases Int.natAbs_eq m with hm | hm
    · have h' : (m : ℝ) = ((m.natAbs : ℕ) : ℝ) := (congrArg (Int.cast : ℤ → ℝ) hm).trans (Int.cast_natCast _)
      rw [h', cos_nat_mul_pi]
    · have h' : (m : ℝ) = -((m.natAbs : ℕ) : ℝ) := by exact_mod_cast congrArg (Int.cast : ℤ → ℝ) hm
      rw [h', neg_mul, cos_neg, cos_nat_mul_pi]
  rw [hc] at h
  have h2 : 2 * ∑ k ∈ Finset.range n, cos ((k : ℝ) * φ) = 1 - (-1) ^ m.natAbs := by
    have : sin (φ / 2) * (2 * ∑ k ∈ Finset.range n, cos ((k : ℝ) * φ)) = sin (φ / 2) * (1 - (-1) ^ m.natAbs) := by
      linear_combination h
    exact mul_left_cancel₀ hs this
  rw [h2]; ring

/-- Discrete orthogonality of the cosines at the nodes. -/
theorem cos_orth (n : ℕ) (i j : ℕ) (hi : i < n) (hj : j < n) :
    2 * ∑ k ∈ Finset.range n, cos ((k : ℝ) * (π * ((i : ℝ) + 1 / 2) / n)) * cos ((k : ℝ) * (π * ((j : ℝ) + 1 / 2) / n)) - 1
      = if i = j then (n : ℝ) else 0 := by
  have hn : 0 < n := by omega
  have hn' : (n : ℝ) ≠ 0 := by exact_mod_cast hn.ne'
  have e : ∀ k : ℕ, cos ((k : ℝ) * (π * ((i : ℝ) + 1 / 2) / n)) * cos ((k : ℝ) * (π * ((j : ℝ) + 1 / 2) / n))
      = (cos ((k : ℝ) * ((((i : ℤ) - j : ℤ) : ℝ) * π / n)) + cos ((k : ℝ) * (((i : ℤ) + j + 1 : ℤ) * π / n))) / 2 := by
    intro k
    have h1 : (k : ℝ) * ((((i : ℤ) - j : ℤ) : ℝ) * π / n)
        = (k : ℝ) * (π * ((i : ℝ) + 1 / 2) / n) - (k : ℝ) * (π * ((j : ℝ) + 1 / 2) / n) := by
      push_cast; field_simp; ring
    have h2 : (k : ℝ) * ((((i : ℤ) + j + 1 : ℤ) : ℝ) * π / n)
        = (k : ℝ) * (π * ((i : ℝ) + 1 / 2) / n) + (k : ℝ) * (π * ((j : ℝ) + 1 / 2) / n) := by
      push_cast; field_simp; ring
    rw [h1, h2, cos_sub, cos_add]; ring
  simp only [e]
  rw [← Finset.sum_div, Finset.sum_add_distrib]
  have hB := cos_sum n hn ((i : ℤ) + j + 1) (by
    rintro ⟨k, hk⟩
    have : 0 < k := by
      by_contra h0
      have : k ≤ 0 := by omega
      nlinarith
    nlinarith)
  by_cases hij : i = j
  · subst hij
    rw [if_pos rfl]
    have hA : ∑ k ∈ Finset.range n, cos ((k : ℝ) * ((((i : ℤ) - i : ℤ) : ℝ) * π / n)) = n := by simp
    have hodd : (-1 : ℝ) ^ ((i : ℤ) + i + 1).natAbs = -1 := by
      rw [show ((i : ℤ) + i + 1).natAbs = 2 * i + 1 by omega, pow_succ, pow_mul]; simp
    rw [hodd] at hB
    linarith
  · rw [if_neg hij]
    have hA := cos_sum n hn ((i : ℤ) - j) (by
      rintro ⟨k, hk⟩
      have hk0 : k ≠ 0 := by rintro rfl; simp at hk; omega
      rcases lt_or_gt_of_ne hk0 with h | h
      · have : k ≤ -1 := by omega
        nlinarith
      · have : 1 ≤ k := by omega
        nlinarith)
    have hpar : (-1 : ℝ) ^ ((i : ℤ) - j).natAbs + (-1 : ℝ) ^ ((i : ℤ) + j + 1).natAbs = 0 := by
      have h1 : ((i : ℤ) + j + 1).natAbs % 2 = (((i : ℤ) - j).natAbs + 1) % 2 := by omega
      rcases Nat.even_or_odd ((i : ℤ) - j).natAbs with h | h
      · have h' : Odd ((i : ℤ) + j + 1).natAbs := by rw [Nat.odd_iff]; rw [Nat.even_iff] at h; omega
        rw [h.neg_one_pow, h'.neg_one_pow]; norm_num
      · have h' : Even ((i : ℤ) + j + 1).natAbs := by rw [Nat.even_iff]; rw [Nat.odd_iff] at h; omega
        rw [h.neg_one_pow, h'.neg_one_pow]; norm_num
    linarith

theorem lsum_range (n : ℕ) (f : ℕ → ℝ) : ((List.range n).map f).sum = ∑ i ∈ Finset.range n, f i := by
  induction n with
  | zero => simp
  | succ n ih => simp [List.range_succ, Finset.sum_range_succ, ih]

/-- The coefficient of degree `k` computed by `chebfit`. -/
theorem chebfitVals_coeff (f : List ℝ) (hf : f ≠ []) : ∃ ck, chebfitVals f = .ok ck ∧ ck.length = f.length ∧
    ∀ k < f.length, ck.getD (f.length - 1 - k) 0 = (if k = 0 then 1 else 2) / (f.length : ℝ) *
      ∑ j ∈ Finset.range f.length, f.reverse.getD j 0 * cos ((k : ℝ) * (π * ((j : ℝ) + 1 / 2) / f.length)) := by
  have hn : (f.length : ℝ) ≠ 0 := by
    exact_mod_cast (by simpa [List.length_eq_zero_iff] using hf : f.length ≠ 0)
  refine ⟨_, by rw [chebfitVals, if_neg hf], by simp [dct], ?_⟩
  intro k hk
  have hget : ∀ k < f.length, ((dct f.reverse).map (fun v => v / (f.length : ℝ))).getD k 0 = 2 / (f.length : ℝ) *
      ∑ j ∈ Finset.range f.length, f.reverse.getD j 0 * cos ((k : ℝ) * (π * ((j : ℝ) + 1 / 2) / f.length)) := by
    intro k hk
    rw [List.getD_eq_getElem?_getD]
    simp only [dct, List.length_reverse, List.map_map, List.getElem?_map, List.getElem?_range hk, Option.map_some,
      Option.getD_some, Function.comp]
    rw [lsum_range, ← div_mul_eq_mul_div]
    congr 1
    apply Finset.sum_congr rfl
    intro j _
    congr 2
    field_simp
  rw [List.getD_eq_getElem?_getD, List.getElem?_reverse (by simp [dct]; omega)]
  have hidx : ((((dct f.reverse).map (fun v => v / (f.length : ℝ))).set 0
      (((dct f.reverse).map (fun v => v / (f.length : ℝ))).getD 0 0 / 2)).length - 1 - (f.length - 1 - k)) = k := by
    simp [dct]; omega
  rw [hidx]
  by_cases h0 : k = 0
  · subst h0
    rw [List.getElem?_set_self (by simp [dct]; omega)]
    rw [hget 0 hk]
    simp only [Option.getD_some, if_true]
    ring
  · rw [List.getElem?_set_ne (by omega), if_neg h0, ← List.getD_eq_getElem?_getD, hget k hk]

/-- **C96**  For any function `fn`, any `n >= 1` and any `a != b` the series returned by `chebfit(fn, n, a, b)` has `n`
coefficients and equals `fn` at the `n` Chebyshev points of `[a, b]`. -/
theorem C96_chebfit_interpolates (fn : ℝ → ℝ) (n : ℕ) (hn : n ≠ 0) (a b : ℝ) (hab : a ≠ b) :
    ∃ ck x, chebroot n 1 = .ok x ∧ chebfit fn n a b = .ok ck ∧ ck.length = n ∧
      ∀ t ∈ x, chebval (mapToInterval t a b) ck a b 1 = .ok (fn (mapToInterval t a b)) := by
  have hn' : (n : ℝ) ≠ 0 := by exact_mod_cast hn
  obtain ⟨x, hx, hxl, -⟩ := (C95_chebroot n 1).1 (Or.inl rfl)
  set f := x.map (fun t => fn (mapToInterval t a b)) with hf
  have hfl : f.length = n := by rw [hf, List.length_map, hxl]
  have hfne : f ≠ [] := by intro h; rw [h] at hfl; simp at hfl; exact hn hfl.symm
  obtain ⟨ck, c1, c2, c3⟩ := chebfitVals_coeff f hfne
  rw [hfl] at c2 c3
  refine ⟨ck, x, hx, by simp only [chebfit, hx]; exact c1, c2, ?_⟩
  have hckne : ck ≠ [] := by intro h; rw [h] at c2; simp at c2; exact hn c2.symm
  have hxdef : x = (List.range n).map (fun i : ℕ => -cos (π * ((i : ℝ) + ((1 : ℕ) : ℝ) / 2) / ((n : ℝ) + (1 : ℕ) - 1))) := by
    rw [chebroot, if_pos (Or.inl rfl)] at hx
    exact (Except.ok.inj hx).symm
  intro t ht
  -- the node with index `n-1-i` from the right
  obtain ⟨i', hi', rfl⟩ : ∃ i' < n, t = -cos (π * ((i' : ℝ) + 1 / 2) / n) := by
    rw [hxdef] at ht
    obtain ⟨i, hi, rfl⟩ := List.mem_map.1 ht
    exact ⟨i, List.mem_range.1 hi, by push_cast; congr 3; ring⟩
  set i := n - 1 - i' with hi
  have hin : i < n := by omega
  have hcos : -cos (π * ((i' : ℝ) + 1 / 2) / n) = cos (π * ((i : ℝ) + 1 / 2) / n) := by
    have : π * ((i : ℝ) + 1 / 2) / n = π - π * ((i' : ℝ) + 1 / 2) / n := by
      have hcast : (i : ℝ) = n - 1 - i' := by
        rw [hi, Nat.cast_sub (by omega), Nat.cast_sub (by omega)]; simp
      rw [hcast]; field_simp; ring
    rw [this, cos_pi_sub]
  have hrev : ∀ j < n, f.reverse.getD j 0 = fn (mapToInterval (cos (π * ((j : ℝ) + 1 / 2) / n)) a b) := by
    intro j hj
    rw [List.getD_eq_getElem?_getD, List.getElem?_reverse (by rw [hfl]; exact hj), hfl, hf, hxdef]
    rw [List.getElem?_map, List.getElem?_map, List.getElem?_range (by omega)]
    simp only [Option.map_some, Option.getD_some]
    congr 2
    have : π * (((n - 1 - j : ℕ) : ℝ) + ((1 : ℕ) : ℝ) / 2) / ((n : ℝ) + (1 : ℕ) - 1) = π - π * ((j : ℝ) + 1 / 2) / n := by
      have hcast : ((n - 1 - j : ℕ) : ℝ) = n - 1 - j := by
        rw [Nat.cast_sub (by omega), Nat.cast_sub (by omega)]; simp
      rw [hcast]; push_cast; rw [show (n : ℝ) + 1 - 1 = n by ring]; field_simp; ring
    rw [this, cos_pi_sub]; ring
  rw [chebval, (C58_interval_maps a b _ hab two_ne_zero).2.2.2.2.2, chebval0_T _ _ hckne, series_eq_sum, c2, hcos]
  congr 1
  -- exchange the sums
  have e1 : ∑ k ∈ Finset.range n, ck.getD (n - 1 - k) 0 * (T ℝ k).eval (cos (π * ((i : ℝ) + 1 / 2) / n))
      = ∑ j ∈ Finset.range n, f.reverse.getD j 0 * ((∑ k ∈ Finset.range n, (if k = 0 then 1 else 2) / (n : ℝ) *
          (cos ((k : ℝ) * (π * ((i : ℝ) + 1 / 2) / n)) * cos ((k : ℝ) * (π * ((j : ℝ) + 1 / 2) / n))))) := by
    simp only [Finset.mul_sum]
    rw [Finset.sum_comm]
    apply Finset.sum_congr rfl
    intro k hk
    rw [c3 k (Finset.mem_range.1 hk), T_real_cos, Finset.mul_sum, Finset.sum_mul]
    apply Finset.sum_congr rfl
    intro j _
    push_cast
    ring
  rw [e1]
  have e2 : ∀ j ∈ Finset.range n, f.reverse.getD j 0 * ((∑ k ∈ Finset.range n, (if k = 0 then 1 else 2) / (n : ℝ) *
          (cos ((k : ℝ) * (π * ((i : ℝ) + 1 / 2) / n)) * cos ((k : ℝ) * (π * ((j : ℝ) + 1 / 2) / n)))))
      = if i = j then f.reverse.getD j 0 else 0 := by
    intro j hj
    have horth := cos_orth n i j hin (Finset.mem_range.1 hj)
    obtain ⟨m, rfl⟩ : ∃ m, n = m + 1 := ⟨n - 1, by omega⟩
    have e3 : ∑ k ∈ Finset.range (m + 1), (if k = 0 then 1 else 2) / ((m + 1 : ℕ) : ℝ) *
          (cos ((k : ℝ) * (π * ((i : ℝ) + 1 / 2) / ((m + 1 : ℕ) : ℝ))) * cos ((k : ℝ) * (π * ((j : ℝ) + 1 / 2) / ((m + 1 : ℕ) : ℝ))))
        = (2 * ∑ k ∈ Finset.range (m + 1), cos ((k : ℝ) * (π * ((i : ℝ) + 1 / 2) / ((m + 1 : ℕ) : ℝ)))
            * cos ((k : ℝ) * (π * ((j : ℝ) + 1 / 2) / ((m + 1 : ℕ) : ℝ))) - 1) / ((m + 1 : ℕ) : ℝ) := by
      rw [Finset.sum_range_succ', Finset.sum_range_succ']
      simp only [Nat.succ_ne_zero, if_false, if_true, Nat.cast_zero, zero_mul, cos_zero, mul_one]
      rw [← Finset.mul_sum]
      ring
    rw [e3, horth]
    by_cases hij : i = j
    · simp only [if_pos hij]; rw [div_self hn', mul_one]
    · simp only [if_neg hij]; simp
  rw [Finset.sum_congr rfl e2, Finset.sum_ite_eq, if_pos (Finset.mem_range.2 hin), hrev i hin]

/-- **C96** (polynomials)  If `fn` is a polynomial of degree below `n`, the fitted series equals `fn` everywhere. -/
theorem C96_chebfit_exact (P : Polynomial ℝ) (n : ℕ) (hn : P.natDegree < n) (a b : ℝ) (hab : a ≠ b) :
    ∃ ck, chebfit (fun t => P.eval t) n a b = .ok ck ∧ ∀ s, chebval s ck a b 1 = .ok (P.eval s) := by
  have hn0 : n ≠ 0 := by omega
  obtain ⟨ck, x, hx, h1, h2, h3⟩ := C96_chebfit_interpolates (fun t => P.eval t) n hn0 a b hab
  refine ⟨ck, h1, ?_⟩
  have hckne : ck ≠ [] := by intro h; rw [h] at h2; simp at h2; exact hn0 h2.symm
  obtain ⟨x', hx', hxl, hinc, -⟩ := (C95_chebroot n 1).1 (Or.inl rfl)
  rw [hx] at hx'
  have hxx : x' = x := (Except.ok.inj hx').symm
  subst hxx
  -- both sides as polynomials of the variable in [-1, 1]
  set L : Polynomial ℝ := Polynomial.C ((b - a) / 2) * Polynomial.X + Polynomial.C ((b + a) / 2) with hL
  have hLe : ∀ t, L.eval t = mapToInterval t a b := by intro t; simp [hL, mapToInterval]; ring
  have hdeg1 : (P.comp L).natDegree < n := by
    refine lt_of_le_of_lt Polynomial.natDegree_comp_le ?_
    have : L.natDegree ≤ 1 := by
      rw [hL]
      refine (Polynomial.natDegree_add_le _ _).trans (max_le ?_ (by simp))
      exact (Polynomial.natDegree_C_mul_le _ _).trans (by simp)
    calc P.natDegree * L.natDegree ≤ P.natDegree * 1 := Nat.mul_le_mul_left _ this
      _ < n := by omega
  have hdeg2 : (seriesPoly ck).natDegree < n := by
    have := seriesPoly_degree_le ck
    omega
  have heq : seriesPoly ck = P.comp L := by
    have hnd : x'.Nodup := hinc.imp (fun h => ne_of_lt h)
    refine Polynomial.eq_of_degrees_lt_of_eval_finset_eq x'.toFinset ?_ ?_ ?_
    · rw [List.toFinset_card_of_nodup hnd, hxl]
      exact (Polynomial.degree_le_natDegree).trans_lt (by exact_mod_cast hdeg2)
    · rw [List.toFinset_card_of_nodup hnd, hxl]
      exact (Polynomial.degree_le_natDegree).trans_lt (by exact_mod_cast hdeg1)
    · intro t ht
      have ht' := h3 t (List.mem_toFinset.1 ht)
      rw [chebval, (C58_interval_maps a b _ hab two_ne_zero).2.2.2.2.2, chebval0_T _ _ hckne] at ht'
      rw [seriesPoly_eval, Except.ok.inj ht', Polynomial.eval_comp, hLe]
  intro s
  rw [chebval, chebval0_T _ _ hckne, ← seriesPoly_eval, heq, Polynomial.eval_comp, hLe,
    (C58_interval_maps a b s hab two_ne_zero).2.2.2.2.1]

/-- **C96** (conversion)  `poly2cheb` keeps the function: the Chebyshev series it returns has the value of the polynomial
at every point. -/
theorem C96_poly2cheb (p : List ℝ) (a b : ℝ) (hab : a ≠ b) :
    ∃ ck, poly2cheb p a b = .ok ck ∧ ∀ s, chebval s ck a b 1 = .ok (peval p s) := by
  classical
  have hdeg : (toPoly (trim1 p)).natDegree < (trim1 p).length := by
    have aux : ∀ l : List ℝ, l ≠ [] → (toPoly l).natDegree < l.length := by
      intro l
      induction l using List.reverseRecOn with
      | nil => intro h; exact absurd rfl h
      | append_singleton l c ih =>
        intro _
        rw [toPoly_append, List.length_append, List.length_singleton]
        refine Nat.lt_succ_of_le ((Polynomial.natDegree_add_le _ _).trans (max_le ?_ (by simp)))
        by_cases hl : l = []
        · subst hl; simp [toPoly]
        · refine Polynomial.natDegree_mul_le.trans ?_
          have := ih hl
          simp; omega
    exact aux _ (trim1_ne_nil p)
  obtain ⟨ck, h1, h2⟩ := C96_chebfit_exact (toPoly (trim1 p)) _ hdeg a b hab
  have he : (fun t => (toPoly (trim1 p)).eval t) = peval p := by
    funext t; rw [toPoly_eval, trim1_eval]
  rw [he] at h1
  refine ⟨ck, ?_, ?_⟩
  · unfold poly2cheb
    convert! h1 using 2
  · intro s
    rw [h2 s, toPoly_eval, trim1_eval]

/-- A case meeting the hypotheses of C96: a cubic with four nodes on `[0, 2]`. -/
example : ∃ ck, chebfit (fun t => (Polynomial.X ^ 3 : Polynomial ℝ).eval t) 4 0 2 = .ok ck ∧
    ∀ s, chebval s ck 0 2 1 = .ok ((Polynomial.X ^ 3 : Polynomial ℝ).eval s) :=
  C96_chebfit_exact (Polynomial.X ^ 3) 4 (by simp) 0 2 (by norm_num)

end Wafo.Cheb
