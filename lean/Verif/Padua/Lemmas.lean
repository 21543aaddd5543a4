import Mathlib.Data.Matrix.Mul
import Mathlib.LinearAlgebra.Matrix.NonsingularInverse
import Verif.Cov.Fft
import Verif.Padua.Model

/-! Lemmas for the Padua points: the index set, and orthogonality of products of cosines at the points. -/

set_option linter.unusedSectionVars false

namespace Wafo.Padua
open Finset Poly

noncomputable section

/-! ### The index set -/

theorem findM_length (n : ℕ) : (findM n).length = (n + 1) * (n + 2) / 2 := by simp [findM]

theorem mem_findM (n i : ℕ) : i ∈ findM n ↔ i < (n + 1) * (n + 2) ∧ (i / (n + 2) + i % (n + 2)) % 2 = 1 := by
  have hdm := Nat.div_add_mod i (n + 2)
  have hml := Nat.mod_lt i (by omega : 0 < n + 2)
  have hev : (n + 1) * (n + 2) % 2 = 0 := by
    rw [Nat.mul_mod]
    rcases Nat.mod_two_eq_zero_or_one n with h | h
    · rw [show (n + 2) % 2 = 0 by omega]; simp
    · rw [show (n + 1) % 2 = 0 by omega]; simp
  unfold findM
  simp only [List.mem_map, List.mem_range]
  set J := i / (n + 2) with hJ
  set K := i % (n + 2) with hK
  rcases Nat.mod_two_eq_zero_or_one n with h | h
  · obtain ⟨m, rfl⟩ : ∃ m, n = 2 * m := ⟨n / 2, by omega⟩
    simp only [h, if_true]
    rw [show 2 * m / 2 = m by omega]
    have htot : (2 * m + 1) * (2 * m + 2) / 2 = (2 * m + 1) * (m + 1) := by
      rw [show (2 * m + 1) * (2 * m + 2) = 2 * ((2 * m + 1) * (m + 1)) by ring]
      omega
    rw [htot]
    constructor
    · rintro ⟨p, hp, hpi⟩
      have h1 := Nat.div_add_mod p (m + 1)
      have h2 := Nat.mod_lt p (by omega : 0 < m + 1)
      set j := p / (m + 1) with hj
      set r := p % (m + 1) with hr
      have hjl : j < 2 * m + 1 := by
        by_contra hc
        have : (m + 1) * (2 * m + 1) ≤ (m + 1) * j := Nat.mul_le_mul_left _ (by omega)
        have h3 : (2 * m + 1) * (m + 1) = (m + 1) * (2 * m + 1) := by ring
        omega
      have hi : i = j * (2 * m + 2) + (2 * r + 1 - j % 2) := by
        have : 2 * p = j * (2 * m + 2) + 2 * r := by rw [← h1]; ring
        omega
      have hk : 2 * r + 1 - j % 2 < 2 * m + 2 := by omega
      have hJj : J = j := by
        rw [hJ, hi, mul_comm, Nat.mul_add_div (by omega), Nat.div_eq_of_lt hk, add_zero]
      have hKk : K = 2 * r + 1 - j % 2 := by
        rw [hK, hi, mul_comm, Nat.mul_add_mod, Nat.mod_eq_of_lt hk]
      refine ⟨?_, by rw [hJj, hKk]; omega⟩
      calc i = j * (2 * m + 2) + (2 * r + 1 - j % 2) := hi
        _ < j * (2 * m + 2) + (2 * m + 2) := by omega
        _ = (j + 1) * (2 * m + 2) := by ring
        _ ≤ (2 * m + 1) * (2 * m + 2) := Nat.mul_le_mul_right _ (by omega)
    · rintro ⟨hlt, hodd⟩
      have hJl : J < 2 * m + 1 := Nat.div_lt_of_lt_mul (by rw [mul_comm]; exact hlt)
      have hr : K / 2 < m + 1 := by omega
      refine ⟨(m + 1) * J + K / 2, ?_, ?_⟩
      · calc (m + 1) * J + K / 2 < (m + 1) * J + (m + 1) := by omega
          _ = (J + 1) * (m + 1) := by ring
          _ ≤ (2 * m + 1) * (m + 1) := Nat.mul_le_mul_right _ (by omega)
      · rw [Nat.mul_add_div (by omega), Nat.div_eq_of_lt hr, add_zero]
        have : 2 * ((m + 1) * J + K / 2) = (2 * m + 2) * J + 2 * (K / 2) := by ring
        omega
  · have hn0 : ¬ n % 2 = 0 := by omega
    simp only [hn0, if_false]
    have hpar : i % 2 = (J + K) % 2 := by
      conv_lhs => rw [← hdm]
      rw [Nat.add_mod, Nat.mul_mod, show (n + 2) % 2 = 1 by omega]
      omega
    constructor
    · rintro ⟨p, hp, rfl⟩
      exact ⟨by omega, by omega⟩
    · rintro ⟨hlt, hodd⟩
      exact ⟨i / 2, by omega, by omega⟩

theorem findM_nodup (n : ℕ) : (findM n).Nodup := by
  unfold findM
  refine List.Nodup.map_on ?_ List.nodup_range
  intro p _ q _ h
  by_cases hn : n % 2 = 0
  · simp only [hn, if_true] at h
    omega
  · simp only [hn, if_false] at h
    omega

/-- The pairs of indices of the Padua points in the grid. -/
def oddPairs (n : ℕ) : Finset (ℕ × ℕ) := (range (n + 1) ×ˢ range (n + 2)).filter fun x => (x.1 + x.2) % 2 = 1

theorem mem_oddPairs {n j k : ℕ} : (j, k) ∈ oddPairs n ↔ j ≤ n ∧ k ≤ n + 1 ∧ (j + k) % 2 = 1 := by
  simp only [oddPairs, mem_filter, mem_product, mem_range]
  omega

theorem index_mem {n j k : ℕ} (hj : j ≤ n) (hk : k ≤ n + 1) : j * (n + 2) + k ∈ findM n ↔ (j + k) % 2 = 1 := by
  rw [mem_findM, mul_comm, Nat.mul_add_div (by omega), Nat.mul_add_mod, Nat.div_eq_of_lt (by omega : k < n + 2),
    Nat.mod_eq_of_lt (by omega : k < n + 2), add_zero]
  refine ⟨fun h => h.2, fun h => ⟨?_, h⟩⟩
  calc (n + 2) * j + k < (n + 2) * j + (n + 2) := by omega
    _ = (j + 1) * (n + 2) := by ring
    _ ≤ (n + 1) * (n + 2) := Nat.mul_le_mul_right _ (by omega)

theorem card_oddPairs (n : ℕ) : (oddPairs n).card = (n + 1) * (n + 2) / 2 := by
  rw [← findM_length, ← List.toFinset_card_of_nodup (findM_nodup n)]
  refine card_bij (fun x _ => x.1 * (n + 2) + x.2) ?_ ?_ ?_
  · rintro ⟨j, k⟩ h
    obtain ⟨h1, h2, h3⟩ := mem_oddPairs.1 h
    rw [List.mem_toFinset]
    exact (index_mem h1 h2).2 h3
  · rintro ⟨j, k⟩ h ⟨j', k'⟩ h' e
    obtain ⟨h1, h2, h3⟩ := mem_oddPairs.1 h
    obtain ⟨h1', h2', h3'⟩ := mem_oddPairs.1 h'
    simp only [] at e
    have e1 := congrArg (· / (n + 2)) e
    have e2 := congrArg (· % (n + 2)) e
    rw [mul_comm j, mul_comm j', Nat.mul_add_div (by omega), Nat.mul_add_div (by omega), Nat.div_eq_of_lt (by omega : k < n + 2),
      Nat.div_eq_of_lt (by omega : k' < n + 2)] at e1
    rw [mul_comm j, mul_comm j', Nat.mul_add_mod, Nat.mul_add_mod, Nat.mod_eq_of_lt (by omega : k < n + 2),
      Nat.mod_eq_of_lt (by omega : k' < n + 2)] at e2
    simp only [Prod.mk.injEq]
    exact ⟨by omega, e2⟩
  · intro i hi
    rw [List.mem_toFinset, mem_findM] at hi
    refine ⟨(i / (n + 2), i % (n + 2)), ?_, ?_⟩
    · rw [mem_oddPairs]
      have h1 : i / (n + 2) < n + 1 := Nat.div_lt_of_lt_mul (by rw [mul_comm]; exact hi.1)
      have h2 := Nat.mod_lt i (by omega : 0 < n + 2)
      exact ⟨by omega, by omega, hi.2⟩
    · have := Nat.div_add_mod i (n + 2)
      rw [mul_comm] at this
      exact this

/-- The pairs of degrees of the coefficients. -/
def degrees (n : ℕ) : Finset (ℕ × ℕ) := (range (n + 1) ×ˢ range (n + 1)).filter fun x => x.1 + x.2 ≤ n

theorem mem_degrees {n p q : ℕ} : (p, q) ∈ degrees n ↔ p + q ≤ n := by
  simp only [degrees, mem_filter, mem_product, mem_range]
  omega

theorem card_degrees (n : ℕ) : (degrees n).card = (n + 1) * (n + 2) / 2 := by
  have h : degrees n = (range (n + 1)).biUnion fun p => (range (n + 1 - p)).image fun q => (p, q) := by
    ext ⟨p, q⟩
    rw [mem_degrees]
    simp only [mem_biUnion, mem_range, mem_image, Prod.mk.injEq]
    constructor
    · intro h
      exact ⟨p, by omega, q, by omega, rfl, rfl⟩
    · rintro ⟨p', h1, q', h2, rfl, rfl⟩
      omega
  rw [h, card_biUnion]
  · have : ∀ p ∈ range (n + 1), ((range (n + 1 - p)).image fun q => (p, q)).card = n + 1 - p := by
      intro p _
      rw [card_image_of_injective _ (fun a b h => by simpa using h), card_range]
    rw [sum_congr rfl this]
    have h3 := Finset.sum_range_id_mul_two (n + 2)
    have h4 : ∑ i ∈ range (n + 2), i = ∑ p ∈ range (n + 1), (n + 1 - p) := by
      rw [← Finset.sum_range_reflect, Finset.sum_range_succ, show n + 2 - 1 - (n + 1) = 0 by omega, add_zero]
      rfl
    rw [h4, show n + 2 - 1 = n + 1 by omega] at h3
    rw [mul_comm (n + 1)]
    have h5 : ∀ S : ℕ, S * 2 = (n + 2) * (n + 1) → S = (n + 2) * (n + 1) / 2 := by intro S h; omega
    exact h5 _ h3
  · intro p _ p' _ hp
    rw [Function.onFun, disjoint_left]
    rintro ⟨x, y⟩ h1 h2
    simp only [mem_image, Prod.mk.injEq] at h1 h2
    obtain ⟨_, _, h3, _⟩ := h1
    obtain ⟨_, _, h4, _⟩ := h2
    exact hp (h3.trans h4.symm)

/-! ### Orthogonality -/

/-- The weights of the trapezoidal rule. -/
def half (m j : ℕ) : ℝ := (if j = 0 then 1 / 2 else 1) * if j = m then 1 / 2 else 1

theorem sum_half (m : ℕ) (hm : 0 < m) (a : ℤ) :
    ∑ j ∈ range (m + 1), half m j * Real.cos (Real.pi * a * j / m) = if (2 * m : ℤ) ∣ a then (m : ℝ) else 0 := by
  set f : ℕ → ℝ := fun j => Real.cos (Real.pi * a * j / m) with hf
  have hm' : (m : ℝ) ≠ 0 := by exact_mod_cast hm.ne'
  have h1 := Cov.sum_cos (2 * m) (by omega) a
  have e1 : ∀ k : ℕ, Real.cos (2 * Real.pi * a * k / ((2 * m : ℕ) : ℝ)) = f k := by
    intro k
    rw [hf]
    congr 1
    push_cast
    field_simp
  simp only [e1] at h1
  rw [show 2 * m = m + m by ring, sum_range_add] at h1
  have e2 : ∀ i ∈ range m, f (m + i) = f (m - 1 - i + 1) := by
    intro i hi
    have hi := mem_range.1 hi
    rw [show m - 1 - i + 1 = m - i by omega, hf]
    simp only []
    have : Real.pi * a * ((m - i : ℕ) : ℝ) / m = (a : ℝ) * (2 * Real.pi) - Real.pi * a * ((m + i : ℕ) : ℝ) / m := by
      rw [Nat.cast_sub (by omega)]
      push_cast
      field_simp
      ring
    rw [this, Real.cos_int_mul_two_pi_sub]
  rw [sum_congr rfl e2, sum_range_reflect (fun i => f (i + 1)) m] at h1
  have e3 : ∑ j ∈ range (m + 1), half m j * f j = ∑ j ∈ range (m + 1), f j - f 0 / 2 - f m / 2 := by
    have : ∀ j ∈ range (m + 1), half m j * f j = f j - (if j = 0 then f 0 / 2 else 0) - if j = m then f m / 2 else 0 := by
      intro j _
      unfold half
      by_cases h0 : j = 0
      · rw [if_pos h0, if_neg (by omega), if_pos h0, if_neg (by omega), h0]; ring
      · by_cases h1 : j = m
        · rw [if_neg h0, if_pos h1, if_neg h0, if_pos h1, h1]; ring
        · rw [if_neg h0, if_neg h1, if_neg h0, if_neg h1]; ring
    rw [sum_congr rfl this, sum_sub_distrib, sum_sub_distrib, sum_ite_eq' (range (m + 1)) 0, sum_ite_eq' (range (m + 1)) m,
      if_pos (by simp), if_pos (by simp)]
  have e4 := sum_range_succ f m
  have e5 := sum_range_succ' f m
  have e6 : ∑ j ∈ range (m + 1), half m j * f j = (∑ j ∈ range m, f j + ∑ j ∈ range m, f (j + 1)) / 2 := by
    rw [e3]
    linarith
  rw [e6, h1]
  have e7 : ((m + m : ℕ) : ℤ) = 2 * m := by push_cast; ring
  rw [e7]
  split
  · push_cast; ring
  · simp

/-- The weight of a grid point in the discrete inner product: zero unless it is a Padua point. -/
def wt (n j k : ℕ) : ℝ := if (j + k) % 2 = 1 then 2 / (n * (n + 1)) * half n j * half (n + 1) k else 0

theorem sum_wt (n : ℕ) (hn : 0 < n) (a b : ℤ) :
    ∑ j ∈ range (n + 1), ∑ k ∈ range (n + 2), wt n j k * (Real.cos (Real.pi * a * j / n) * Real.cos (Real.pi * b * k / (n + 1 : ℕ))) =
      (if (2 * n : ℤ) ∣ a ∧ (2 * (n + 1 : ℕ) : ℤ) ∣ b then 1 else 0) -
        if (2 * n : ℤ) ∣ a + n ∧ (2 * (n + 1 : ℕ) : ℤ) ∣ b + (n + 1 : ℕ) then 1 else 0 := by
  have hn' : (n : ℝ) ≠ 0 := by exact_mod_cast hn.ne'
  have hn1 : ((n : ℝ) + 1) ≠ 0 := by positivity
  have hs : ∀ (m : ℕ) (c : ℤ) (j : ℕ), 0 < m → (-1) ^ j * Real.cos (Real.pi * c * j / m) = Real.cos (Real.pi * ((c + m : ℤ) : ℝ) * j / m) := by
    intro m c j hm
    have hm' : (m : ℝ) ≠ 0 := by exact_mod_cast hm.ne'
    have : Real.pi * ((c + m : ℤ) : ℝ) * j / m = Real.pi * c * j / m + j * Real.pi := by
      push_cast
      field_simp
    rw [this, Real.cos_add_nat_mul_pi]
  have key : ∀ j k : ℕ, wt n j k * (Real.cos (Real.pi * a * j / n) * Real.cos (Real.pi * b * k / (n + 1 : ℕ))) =
      1 / (n * (n + 1)) * ((half n j * Real.cos (Real.pi * a * j / n)) * (half (n + 1) k * Real.cos (Real.pi * b * k / (n + 1 : ℕ)))) -
      1 / (n * (n + 1)) * ((half n j * Real.cos (Real.pi * ((a + n : ℤ) : ℝ) * j / n)) *
        (half (n + 1) k * Real.cos (Real.pi * ((b + (n + 1 : ℕ) : ℤ) : ℝ) * k / (n + 1 : ℕ)))) := by
    intro j k
    rw [← hs n a j hn, ← hs (n + 1) b k (by omega)]
    unfold wt
    have hp : ((-1 : ℝ) ^ j) * (-1) ^ k = if (j + k) % 2 = 1 then -1 else 1 := by
      rw [← pow_add]
      split
      · exact Odd.neg_one_pow (Nat.odd_iff.2 (by assumption))
      · exact Even.neg_one_pow (Nat.even_iff.2 (by omega))
    split
    · rename_i h
      rw [if_pos h] at hp
      linear_combination (1 : ℝ) / (n * (n + 1)) * (half n j * Real.cos (Real.pi * a * j / n)) *
        (half (n + 1) k * Real.cos (Real.pi * b * k / (n + 1 : ℕ))) * hp
    · rename_i h
      rw [if_neg h] at hp
      linear_combination (1 : ℝ) / (n * (n + 1)) * (half n j * Real.cos (Real.pi * a * j / n)) *
        (half (n + 1) k * Real.cos (Real.pi * b * k / (n + 1 : ℕ))) * hp
  simp only [key, sum_sub_distrib, ← mul_sum, ← sum_mul]
  have h2 : ∀ c : ℤ, ∑ k ∈ range (n + 2), half (n + 1) k * Real.cos (Real.pi * c * k / (n + 1 : ℕ)) =
      if (2 * (n + 1 : ℕ) : ℤ) ∣ c then ((n + 1 : ℕ) : ℝ) else 0 := fun c => sum_half (n + 1) (by omega) c
  rw [sum_half n hn, sum_half n hn, h2, h2]
  have : ∀ P Q : Prop, [Decidable P] → [Decidable Q] → 1 / ((n : ℝ) * (n + 1)) * ((if P then (n : ℝ) else 0) * if Q then ((n + 1 : ℕ) : ℝ) else 0) =
      if P ∧ Q then 1 else 0 := by
    intro P Q _ _
    by_cases hP : P <;> by_cases hQ : Q <;> simp [hP, hQ]
    field_simp
  rw [this, this]

/-- The factor that normalizes a Chebyshev polynomial. -/
def nrm (p : ℕ) : ℝ := if p = 0 then 1 else Real.sqrt 2

/-- The normalized Chebyshev polynomial of degree `p` at `cos (j pi / m)`. -/
def wave (m p j : ℕ) : ℝ := nrm p * Real.cos (Real.pi * p * j / m)

theorem wave_mul (m p p' j : ℕ) : wave m p j * wave m p' j =
    nrm p * nrm p' / 2 * (Real.cos (Real.pi * ((p + p' : ℤ) : ℝ) * j / m) + Real.cos (Real.pi * ((p - p' : ℤ) : ℝ) * j / m)) := by
  have h1 : Real.pi * ((p + p' : ℤ) : ℝ) * j / m = Real.pi * p * j / m + Real.pi * p' * j / m := by push_cast; ring
  have h2 : Real.pi * ((p - p' : ℤ) : ℝ) * j / m = Real.pi * p * j / m - Real.pi * p' * j / m := by push_cast; ring
  unfold wave
  rw [h1, h2, Real.cos_add, Real.cos_sub]
  ring

theorem dvd_small {m x : ℤ} (h1 : -m < x) (h2 : x < m) : m ∣ x ↔ x = 0 := by
  constructor
  · intro h
    exact Int.eq_zero_of_abs_lt_dvd h (abs_lt.2 ⟨h1, h2⟩)
  · rintro rfl
    exact dvd_zero m

theorem dvd_upto {m x : ℤ} (h1 : 0 ≤ x) (h2 : x ≤ m) : m ∣ x ↔ x = 0 ∨ x = m := by
  constructor
  · intro h
    rcases eq_or_lt_of_le h2 with e | l
    · exact Or.inr e
    · exact Or.inl (Int.eq_zero_of_dvd_of_nonneg_of_lt h1 l h)
  · rintro (rfl | rfl)
    · exact dvd_zero m
    · exact dvd_refl x

theorem dvd_mid {m x : ℤ} (h1 : 0 < x) (h2 : x < 2 * m) (h : m ∣ x) : x = m := by
  obtain ⟨c, rfl⟩ := h
  have hm : 0 < m := by omega
  have c1 : 0 < c := by
    by_contra hc
    have := mul_nonpos_of_nonneg_of_nonpos hm.le (not_lt.1 hc)
    omega
  have c2 : c < 2 := by
    by_contra hc
    have := mul_le_mul_of_nonneg_left (not_lt.1 hc) hm.le
    omega
  rw [show c = 1 by omega, mul_one]

theorem ortho {n p q p' q' : ℕ} (hn : 0 < n) (h : p + q ≤ n) (h' : p' + q' ≤ n) :
    ∑ j ∈ range (n + 1), ∑ k ∈ range (n + 2), wt n j k * ((wave n p j * wave (n + 1) q k) * (wave n p' j * wave (n + 1) q' k)) =
      if p = p' ∧ q = q' then (if p = n then 2 else 1) else 0 := by
  have key : ∀ j k : ℕ, wt n j k * ((wave n p j * wave (n + 1) q k) * (wave n p' j * wave (n + 1) q' k)) =
      nrm p * nrm p' / 2 * (nrm q * nrm q' / 2) *
      (wt n j k * (Real.cos (Real.pi * ((p + p' : ℤ) : ℝ) * j / n) * Real.cos (Real.pi * ((q + q' : ℤ) : ℝ) * k / (n + 1 : ℕ))) +
       wt n j k * (Real.cos (Real.pi * ((p + p' : ℤ) : ℝ) * j / n) * Real.cos (Real.pi * ((q - q' : ℤ) : ℝ) * k / (n + 1 : ℕ))) +
       wt n j k * (Real.cos (Real.pi * ((p - p' : ℤ) : ℝ) * j / n) * Real.cos (Real.pi * ((q + q' : ℤ) : ℝ) * k / (n + 1 : ℕ))) +
       wt n j k * (Real.cos (Real.pi * ((p - p' : ℤ) : ℝ) * j / n) * Real.cos (Real.pi * ((q - q' : ℤ) : ℝ) * k / (n + 1 : ℕ)))) := by
    intro j k
    have e1 := wave_mul n p p' j
    have e2 := wave_mul (n + 1) q q' k
    linear_combination wt n j k * (wave (n + 1) q k * wave (n + 1) q' k) * e1 +
      wt n j k * (nrm p * nrm p' / 2 * (Real.cos (Real.pi * ((p + p' : ℤ) : ℝ) * j / n) +
        Real.cos (Real.pi * ((p - p' : ℤ) : ℝ) * j / n))) * e2
  simp only [key, ← mul_sum, sum_add_distrib]
  rw [sum_wt n hn, sum_wt n hn, sum_wt n hn, sum_wt n hn]
  have no : ∀ s t : ℤ, (s = p + p' ∨ s = p - p') → (t = q + q' ∨ t = q - q') →
      ¬((2 * n : ℤ) ∣ s + n ∧ (2 * (n + 1 : ℕ) : ℤ) ∣ t + (n + 1 : ℕ)) := by
    rintro s t hs ht ⟨h1, h2⟩
    push_cast at h2
    have ht' : t = q + q' ∧ q + q' = n + 1 := by
      rcases ht with rfl | rfl
      · have := dvd_mid (by omega) (by omega) h2
        omega
      · have := dvd_mid (by omega) (by omega) h2
        omega
    rcases hs with rfl | rfl
    · have := dvd_mid (by omega) (by omega) h1
      omega
    · rcases (dvd_upto (by omega) (by omega)).1 h1 with e | e <;> omega
  rw [if_neg (no _ _ (Or.inl rfl) (Or.inl rfl)), if_neg (no _ _ (Or.inl rfl) (Or.inr rfl)), if_neg (no _ _ (Or.inr rfl) (Or.inl rfl)),
    if_neg (no _ _ (Or.inr rfl) (Or.inr rfl))]
  have d1 : (2 * n : ℤ) ∣ p + p' ↔ p = p' ∧ (p = 0 ∨ p = n) := by
    rw [dvd_upto (by omega) (by omega)]; omega
  have d2 : (2 * n : ℤ) ∣ p - p' ↔ p = p' := by
    rw [dvd_small (by omega) (by omega)]; omega
  have d3 : (2 * (n + 1 : ℕ) : ℤ) ∣ q + q' ↔ q = q' ∧ q = 0 := by
    rw [dvd_small (by push_cast; omega) (by push_cast; omega)]; omega
  have d4 : (2 * (n + 1 : ℕ) : ℤ) ∣ q - q' ↔ q = q' := by
    rw [dvd_small (by push_cast; omega) (by push_cast; omega)]; omega
  simp only [d1, d2, d3, d4]
  have s2 : Real.sqrt 2 * Real.sqrt 2 = 2 := Real.mul_self_sqrt (by norm_num)
  by_cases hp : p = p'
  · by_cases hq : q = q'
    · subst hp hq
      unfold nrm
      by_cases p0 : p = 0
      · by_cases q0 : q = 0
        · simp [p0, q0, hn.ne]; norm_num
        · simp [p0, q0, hn.ne, s2]; norm_num
      · by_cases q0 : q = 0
        · by_cases pn : p = n
          · simp [q0, pn, hn.ne', s2]; norm_num
          · simp [p0, q0, pn, s2]; norm_num
        · have pn : ¬ p = n := by omega
          simp [p0, q0, pn, s2]
    · simp [hq]
  · simp [hp]

/-! ### The coefficients -/

theorem scatter_eq (ix : List ℕ) (hd : ix.Nodup) (G : ℕ → ℝ) (i : ℕ) :
    scatter ix (ix.map G) i = if i ∈ ix then G i else 0 := by
  unfold scatter
  have gen : ∀ (l : List ℕ) (g : ℕ → ℝ), l.Nodup →
      (List.zip l (l.map G)).foldl (fun g p => fun i => if i = p.1 then p.2 else g i) g i = if i ∈ l then G i else g i := by
    intro l
    induction l with
    | nil => intro g _; simp
    | cons a t ih =>
      intro g hl
      rw [List.nodup_cons] at hl
      simp only [List.map_cons, List.zip_cons_cons, List.foldl_cons]
      rw [ih _ hl.2]
      by_cases h : i = a
      · subst h
        rw [if_neg hl.1, if_pos rfl, if_pos (List.mem_cons_self)]
      · by_cases h2 : i ∈ t
        · rw [if_pos h2, if_pos (List.mem_cons_of_mem _ h2)]
        · rw [if_neg h2, if_neg h, if_neg (by simp [h, h2])]
  exact gen ix _ hd

theorem realFft_eq (m l : ℕ) (x : ℕ → ℝ) (p : ℕ) : realFft m l x p = ∑ j ∈ range l, x j * Real.cos (2 * Real.pi * (j * p) / m) := by
  unfold realFft
  rw [Complex.re_sum]
  refine sum_congr rfl fun j _ => ?_
  have : -2 * (Real.pi : ℂ) * Complex.I * (j * p) / m = -((2 * Real.pi * (j * p) / m : ℝ) : ℂ) * Complex.I := by
    push_cast
    ring
  rw [Complex.re_ofReal_mul, this, Cov.exp_re]

/-- The values of `g` at the Padua points. -/
def sample (n : ℕ) (g : ℕ → ℕ → ℝ) : List ℝ := (findM n).map fun i => g (i / (n + 2)) (i % (n + 2))

theorem weighted_eq {n : ℕ} (g : ℕ → ℕ → ℝ) {j k : ℕ} (hj : j ≤ n) (hk : k ≤ n + 1) :
    weighted n (sample n g) j k = wt n j k * g j k := by
  have h := scatter_eq (findM n) (findM_nodup n) (fun i => g (i / (n + 2)) (i % (n + 2)) * 2 / (n * (n + 1))) (j * (n + 2) + k)
  have e : (sample n g).map (fun y => y * 2 / ((n : ℝ) * (n + 1))) =
      (findM n).map (fun i => g (i / (n + 2)) (i % (n + 2)) * 2 / (n * (n + 1))) := by
    rw [sample, List.map_map]; rfl
  unfold weighted
  rw [e, h]
  have e1 : (j * (n + 2) + k) / (n + 2) = j := by
    rw [mul_comm, Nat.mul_add_div (by omega), Nat.div_eq_of_lt (by omega : k < n + 2), add_zero]
  have e2 : (j * (n + 2) + k) % (n + 2) = k := by
    rw [mul_comm, Nat.mul_add_mod, Nat.mod_eq_of_lt (by omega : k < n + 2)]
  simp only [index_mem hj hk, e1, e2]
  unfold wt half
  split <;> split <;> split <;> split <;> split <;> ring

/-- The coefficient as a discrete inner product with a product of normalized Chebyshev polynomials. -/
theorem coef_eq {n : ℕ} (hn : 0 < n) (g : ℕ → ℕ → ℝ) (p q : ℕ) :
    coef n (sample n g) p q = if p ≤ n - q then (if p = n then 1 / 2 else 1) *
      ∑ j ∈ range (n + 1), ∑ k ∈ range (n + 2), wt n j k * (wave n p j * wave (n + 1) q k) * g j k else 0 := by
  have hn' : (n : ℝ) ≠ 0 := by exact_mod_cast hn.ne'
  have h1 : realFft (2 * (n + 1)) (n + 2) (fun k => realFft (2 * n) (n + 1) (fun j => weighted n (sample n g) j k) p) q =
      ∑ j ∈ range (n + 1), ∑ k ∈ range (n + 2), wt n j k * g j k *
        (Real.cos (Real.pi * p * j / n) * Real.cos (Real.pi * q * k / (n + 1 : ℕ))) := by
    rw [realFft_eq, sum_comm]
    refine sum_congr rfl fun k hk => ?_
    rw [realFft_eq, sum_mul]
    refine sum_congr rfl fun j hj => ?_
    rw [weighted_eq g (by have := mem_range.1 hj; omega) (by have := mem_range.1 hk; omega)]
    have a1 : 2 * Real.pi * (j * p) / ((2 * n : ℕ) : ℝ) = Real.pi * p * j / n := by
      push_cast; field_simp
    have a2 : 2 * Real.pi * (k * q) / ((2 * (n + 1) : ℕ) : ℝ) = Real.pi * q * k / (n + 1 : ℕ) := by
      have : ((n + 1 : ℕ) : ℝ) ≠ 0 := by positivity
      rw [Nat.cast_mul]
      push_cast at this ⊢
      field_simp
    rw [a1, a2]
    ring
  have h2 : ∑ j ∈ range (n + 1), ∑ k ∈ range (n + 2), wt n j k * (wave n p j * wave (n + 1) q k) * g j k =
      nrm p * nrm q * ∑ j ∈ range (n + 1), ∑ k ∈ range (n + 2), wt n j k * g j k *
        (Real.cos (Real.pi * p * j / n) * Real.cos (Real.pi * q * k / (n + 1 : ℕ))) := by
    simp only [mul_sum]
    refine sum_congr rfl fun j _ => sum_congr rfl fun k _ => ?_
    unfold wave
    ring
  have s2 : Real.sqrt 2 * Real.sqrt 2 = 2 := Real.mul_self_sqrt (by norm_num)
  have s0 : Real.sqrt 2 ≠ 0 := by positivity
  unfold coef
  rw [h1, h2]
  generalize ∑ j ∈ range (n + 1), ∑ k ∈ range (n + 2), wt n j k * g j k *
    (Real.cos (Real.pi * p * j / n) * Real.cos (Real.pi * q * k / (n + 1 : ℕ))) = S
  have d : 2 * S / Real.sqrt 2 = Real.sqrt 2 * S := by
    field_simp
    linear_combination -S * s2
  have d2 : Real.sqrt 2 * S / Real.sqrt 2 = S := by field_simp
  unfold nrm
  simp only []
  by_cases p0 : p = 0 <;> by_cases q0 : q = 0 <;> simp only [p0, q0, if_true, if_false, d, d2] <;>
    split <;> (try split) <;> first | ring1 | linear_combination S * s2 | linear_combination S / 2 * s2 | linear_combination -S * s2 | linear_combination -S / 2 * s2

/-- Synthesis after analysis: the two matrices are inverses. -/
theorem inverse {n : ℕ} (hn : 0 < n) {j k j' k' : ℕ} (h : (j, k) ∈ oddPairs n) (h' : (j', k') ∈ oddPairs n) :
    ∑ x ∈ degrees n, wave n x.1 j * wave (n + 1) x.2 k * ((if x.1 = n then 1 / 2 else 1) * wt n j' k' * (wave n x.1 j' * wave (n + 1) x.2 k')) =
      if j = j' ∧ k = k' then 1 else 0 := by
  classical
  let A : Matrix (degrees n) (oddPairs n) ℝ := Matrix.of fun x y =>
    (if x.1.1 = n then 1 / 2 else 1) * wt n y.1.1 y.1.2 * (wave n x.1.1 y.1.1 * wave (n + 1) x.1.2 y.1.2)
  let B : Matrix (oddPairs n) (degrees n) ℝ := Matrix.of fun y x => wave n x.1.1 y.1.1 * wave (n + 1) x.1.2 y.1.2
  have hAB : A * B = 1 := by
    ext ⟨⟨p, q⟩, hx⟩ ⟨⟨p', q'⟩, hx'⟩
    have o := ortho hn (mem_degrees.1 hx) (mem_degrees.1 hx')
    rw [Matrix.mul_apply, Matrix.one_apply]
    have e : ∑ y : oddPairs n, A ⟨(p, q), hx⟩ y * B y ⟨(p', q'), hx'⟩ =
        (if p = n then 1 / 2 else 1) * ∑ j ∈ range (n + 1), ∑ k ∈ range (n + 2), wt n j k * ((wave n p j * wave (n + 1) q k) * (wave n p' j * wave (n + 1) q' k)) := by
      rw [← sum_product', mul_sum]
      have c := sum_coe_sort (oddPairs n) (fun y => (if p = n then 1 / 2 else 1) * wt n y.1 y.2 * (wave n p y.1 * wave (n + 1) q y.2) *
        (wave n p' y.1 * wave (n + 1) q' y.2))
      refine c.trans ?_
      rw [oddPairs, sum_filter]
      refine sum_congr rfl fun y _ => ?_
      split
      · ring
      · rename_i hy
        rw [wt, if_neg hy]; ring
    rw [e, o]
    simp only [Subtype.mk.injEq, Prod.mk.injEq]
    by_cases c : p = p' ∧ q = q'
    · rw [if_pos c, if_pos c]
      split <;> norm_num
    · rw [if_neg c, if_neg c, mul_zero]
  have hcard : Fintype.card (degrees n) = Fintype.card (oddPairs n) := by
    rw [Fintype.card_coe, Fintype.card_coe, card_degrees, card_oddPairs]
  have hBA := (Matrix.mul_eq_one_comm_of_card_eq (degrees n) (oddPairs n) ℝ hcard).1 hAB
  have := congrFun (congrFun hBA ⟨(j, k), h⟩) ⟨(j', k'), h'⟩
  rw [Matrix.mul_apply, Matrix.one_apply] at this
  simp only [Subtype.mk.injEq, Prod.mk.injEq] at this
  rw [← this]
  exact (sum_coe_sort (degrees n) fun x => wave n x.1 j * wave (n + 1) x.2 k *
    ((if x.1 = n then 1 / 2 else 1) * wt n j' k' * (wave n x.1 j' * wave (n + 1) x.2 k'))).symm

end

end Wafo.Padua
