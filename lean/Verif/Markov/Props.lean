import Verif.Markov.Model
import Mathlib.Data.Rat.Defs
import Mathlib.Algebra.Order.Field.Rat
import Mathlib.Tactic.Abel

/-!
Properties C30 - C33.
-/

namespace Wafo.Markov

open Finset

variable {α : Type*} [AddCommGroup α]

/-- The counting distribution of a cycle matrix: the number of cycles in the cells with row index
below `i` and column index above `j`. -/
def countDist (n : ℕ) (F : ℕ → ℕ → α) (i j : ℕ) : α := ∑ a ∈ range i, ∑ b ∈ Ico (j + 1) n, F a b

theorem sum_flip (n j : ℕ) (hj : j < n - 1) (f : ℕ → α) :
    ∑ b ∈ range (n - 1 - 1 - j + 1), f (n - 1 - 1 - b + 1) = ∑ b ∈ Ico (j + 1) n, f b := by
  apply Finset.sum_nbij' (fun b => n - 1 - b) (fun b => n - 1 - b)
  · intro b hb; rw [mem_range] at hb; rw [mem_Ico]; omega
  · intro b hb; rw [mem_Ico] at hb; rw [mem_range]; omega
  · intro b hb; rw [mem_range] at hb; omega
  · intro b hb; rw [mem_Ico] at hb; omega
  · intro b hb; rw [mem_range] at hb; congr 1; omega

/-- **C30.**  For every size `n`, every matrix and both implementations (kind 1, vectorised, and kind 11,
loops) `cmat2nt` returns the counting distribution in rows `1..n-1`, columns `0..n-2` and zero in the
first row and in the last column. -/
theorem C30_counting_distribution (n : ℕ) (F : ℕ → ℕ → α) (kind : ℤ) (hk : kind = 1 ∨ kind = 11) :
    ∃ nt, cmat2nt n F kind = .ok nt ∧
      (∀ i j, 1 ≤ i → i < n → j + 1 < n → nt i j = countDist n F i j) ∧
      (∀ j, j < n → nt 0 j = 0) ∧ (∀ i, i < n → nt i (n - 1) = 0) := by
  rcases hk with rfl | rfl
  · refine ⟨cmat2ntK n F .vec, rfl, ?_, ?_, ?_⟩
    · intro i j h1 h2 h3
      have hc : 1 ≤ i ∧ i < n ∧ j < n - 1 := ⟨h1, h2, by omega⟩
      simp only [cmat2ntK, if_pos hc, fliplr, csum1, csum0, countDist]
      rw [Finset.sum_comm, show i - 1 + 1 = i by omega]
      apply Finset.sum_congr rfl
      intro a _
      exact sum_flip n j hc.2.2 (F a)
    · intro j _
      simp [cmat2ntK]
    · intro i _
      simp [cmat2ntK]
  · refine ⟨cmat2ntK n F .loop, rfl, ?_, ?_, ?_⟩
    · intro i j h1 h2 h3
      simp only [cmat2ntK, countDist]
      rw [if_pos ⟨h1, h2, by omega⟩]
    · intro j _
      simp [cmat2ntK]
    · intro i _
      simp [cmat2ntK]

/-- **C30, both variants agree** at every index of the matrix. -/
theorem C30_variants_agree (n : ℕ) (F : ℕ → ℕ → α) :
    ∃ a b, cmat2nt n F 1 = .ok a ∧ cmat2nt n F 11 = .ok b ∧ ∀ i j, i < n → j < n → a i j = b i j := by
  obtain ⟨a, ha, h1, h2, h3⟩ := C30_counting_distribution n F 1 (Or.inl rfl)
  obtain ⟨b, hb, g1, g2, g3⟩ := C30_counting_distribution n F 11 (Or.inr rfl)
  refine ⟨a, b, ha, hb, ?_⟩
  intro i j hi hj
  rcases Nat.eq_zero_or_pos i with rfl | hi0
  · rw [h2 j hj, g2 j hj]
  · by_cases hjn : j + 1 < n
    · rw [h1 i j hi0 hi hjn, g1 i j hi0 hi hjn]
    · have : j = n - 1 := by omega
      subst this
      rw [h3 i hi, g3 i hi]

/-- Any other `kind` raises for both functions. -/
theorem C30_other_kinds (n : ℕ) (F : ℕ → ℕ → α) (k : ℤ) (h1 : k ≠ 1) (h2 : k ≠ 11) :
    cmat2nt n F k = .error .valueError ∧ nt2cmat n F k = .error .valueError := by
  unfold cmat2nt nt2cmat readKind
  rw [if_neg h1, if_neg h2]
  exact ⟨rfl, rfl⟩

/-- The counting distribution extended by its natural boundary values. -/
theorem countDist_zero_row (n : ℕ) (F : ℕ → ℕ → α) (j : ℕ) : countDist n F 0 j = 0 := by
  simp [countDist]

theorem countDist_last_col (n : ℕ) (F : ℕ → ℕ → α) (i j : ℕ) (h : n ≤ j + 1) :
    countDist n F i j = 0 := by
  unfold countDist
  rw [Finset.Ico_eq_empty (by omega)]
  simp

theorem countDist_row_step (n : ℕ) (F : ℕ → ℕ → α) (i j : ℕ) :
    countDist n F (i + 1) j - countDist n F i j = ∑ b ∈ Ico (j + 1) n, F i b := by
  unfold countDist
  rw [Finset.sum_range_succ]
  abel

theorem nt2cmatK_entry (n : ℕ) (nt : ℕ → ℕ → α) (k : Kind) (i j : ℕ) (hi : i < n) (hj : j < n) :
    nt2cmatK n nt k i j = if i + 1 < n ∧ 1 ≤ j then
      nt (i + 1) (j - 1) - nt i (j - 1) - nt (i + 1) j + nt i j else 0 := by
  cases k
  · simp only [nt2cmatK]
    by_cases h0 : j = 0
    · simp [h0]
    · rw [if_neg h0]
      by_cases hc : i < n - 1
      · rw [if_pos hc, if_pos ⟨by omega, by omega⟩, show j - 1 + 1 = j by omega]
      · rw [if_neg hc, if_neg (by omega)]
  · simp only [nt2cmatK]
    by_cases hc : i + 1 < n ∧ 1 ≤ j
    · rw [if_pos hc, if_pos (by omega)]
    · rw [if_neg hc, if_neg (by omega)]

/-- **C31.**  For every size, every matrix `F` and every combination of implementations,
`nt2cmat(cmat2nt(F))` has the entries of `F` off the first column and the last row, and zeros there. -/
theorem C31_roundtrip (n : ℕ) (F : ℕ → ℕ → α) (k1 k2 : ℤ) (h1 : k1 = 1 ∨ k1 = 11)
    (h2 : k2 = 1 ∨ k2 = 11) :
    ∃ nt G, cmat2nt n F k1 = .ok nt ∧ nt2cmat n nt k2 = .ok G ∧
      ∀ i j, i < n → j < n → G i j = if i + 1 < n ∧ 1 ≤ j then F i j else 0 := by
  obtain ⟨nt, hnt, e1, e2, e3⟩ := C30_counting_distribution n F k1 h1
  have hall : ∀ i j, i < n → j < n → nt i j = countDist n F i j := by
    intro i j hi hj
    rcases Nat.eq_zero_or_pos i with rfl | hi0
    · rw [e2 j hj, countDist_zero_row]
    · by_cases hjn : j + 1 < n
      · exact e1 i j hi0 hi hjn
      · have : j = n - 1 := by omega
        subst this
        rw [e3 i hi, countDist_last_col n F i _ (by omega)]
  obtain ⟨K, hK⟩ : ∃ K, readKind k2 = .ok K := by
    rcases h2 with rfl | rfl
    · exact ⟨.vec, rfl⟩
    · exact ⟨.loop, rfl⟩
  refine ⟨nt, nt2cmatK n nt K, hnt, by unfold nt2cmat; rw [hK]; rfl, ?_⟩
  intro i j hi hj
  rw [nt2cmatK_entry n nt K i j hi hj]
  by_cases hc : i + 1 < n ∧ 1 ≤ j
  · rw [if_pos hc, if_pos hc, hall _ _ hc.1 (by omega), hall _ _ hi (by omega), hall _ _ hc.1 hj,
      hall _ _ hi hj]
    have s1 := countDist_row_step n F i (j - 1)
    have s2 := countDist_row_step n F i j
    rw [show j - 1 + 1 = j by omega, Finset.sum_eq_sum_Ico_succ_bot hj] at s1
    have : countDist n F (i + 1) (j - 1) - countDist n F i (j - 1) - countDist n F (i + 1) j
        + countDist n F i j = (countDist n F (i + 1) (j - 1) - countDist n F i (j - 1))
        - (countDist n F (i + 1) j - countDist n F i j) := by abel
    rw [this, s1, s2]
    abel
  · rw [if_neg hc, if_neg hc]

/-- **C31, exact inverse** on matrices with zero first column and zero last row (in particular strictly upper
triangular ones). -/
theorem C31_inverse (n : ℕ) (F : ℕ → ℕ → α) (hcol : ∀ i, F i 0 = 0) (hrow : ∀ j, F (n - 1) j = 0)
    (k1 k2 : ℤ) (h1 : k1 = 1 ∨ k1 = 11) (h2 : k2 = 1 ∨ k2 = 11) :
    ∃ nt G, cmat2nt n F k1 = .ok nt ∧ nt2cmat n nt k2 = .ok G ∧
      ∀ i j, i < n → j < n → G i j = F i j := by
  obtain ⟨nt, G, a, b, c⟩ := C31_roundtrip n F k1 k2 h1 h2
  refine ⟨nt, G, a, b, ?_⟩
  intro i j hi hj
  rw [c i j hi hj]
  split
  · rfl
  · rename_i h
    rcases Nat.eq_zero_or_pos j with rfl | hj0
    · exact (hcol i).symm
    · have : i = n - 1 := by omega
      subst this
      exact (hrow j).symm

/-- **C31, the other direction.**  `cmat2nt(nt2cmat(nt)) == nt` for every matrix `nt` with zero first row and
zero last column. -/
theorem C31_inverse_nt (n : ℕ) (nt : ℕ → ℕ → α) (hrow : ∀ j, nt 0 j = 0)
    (hcol : ∀ i, nt i (n - 1) = 0) (k1 k2 : ℤ) (h1 : k1 = 1 ∨ k1 = 11) (h2 : k2 = 1 ∨ k2 = 11) :
    ∃ G nt', nt2cmat n nt k1 = .ok G ∧ cmat2nt n G k2 = .ok nt' ∧
      ∀ i j, i < n → j < n → nt' i j = nt i j := by
  obtain ⟨K, hK⟩ : ∃ K, readKind k1 = .ok K := by
    rcases h1 with rfl | rfl
    · exact ⟨.vec, rfl⟩
    · exact ⟨.loop, rfl⟩
  obtain ⟨nt', hnt, e1, e2, e3⟩ := C30_counting_distribution n (nt2cmatK n nt K) k2 h2
  refine ⟨nt2cmatK n nt K, nt', by unfold nt2cmat; rw [hK]; rfl, hnt, ?_⟩
  have inner : ∀ a j, a + 1 < n → j < n →
      ∑ b ∈ Ico (j + 1) n, nt2cmatK n nt K a b = nt (a + 1) j - nt a j := by
    intro a j ha hj
    obtain ⟨d, hd⟩ : ∃ d, n = j + 1 + d := ⟨n - (j + 1), by omega⟩
    clear hnt e1 e2 e3
    have key : ∀ d', d' ≤ d → ∑ b ∈ Ico (j + 1) (j + 1 + d'), nt2cmatK n nt K a b
        = (nt (a + 1) j - nt a j) - (nt (a + 1) (j + d') - nt a (j + d')) := by
      intro d'
      induction d' with
      | zero => intro _; simp
      | succ d' ih =>
        intro hd'
        rw [show j + 1 + (d' + 1) = (j + 1 + d') + 1 by omega, Finset.sum_Ico_succ_top (by omega),
          ih (by omega), nt2cmatK_entry n nt K a _ (by omega) (by omega), if_pos ⟨ha, by omega⟩,
          show j + 1 + d' - 1 = j + d' by omega, show j + (d' + 1) = j + 1 + d' by omega]
        abel
    have := key d le_rfl
    rw [← hd] at this
    rw [this, show j + d = n - 1 by omega, hcol, hcol]
    abel
  intro i j hi hj
  rcases Nat.eq_zero_or_pos i with rfl | hi0
  · rw [e2 j hj, hrow]
  · by_cases hjn : j + 1 < n
    · rw [e1 i j hi0 hi hjn]
      unfold countDist
      have : ∀ i', i' < n → ∑ a ∈ range i', ∑ b ∈ Ico (j + 1) n, nt2cmatK n nt K a b = nt i' j := by
        intro i'
        induction i' with
        | zero => intro _; simp [hrow]
        | succ i' ih =>
          intro h
          rw [Finset.sum_range_succ, ih (by omega), inner i' j h hj]
          abel
      exact this i hi
    · have : j = n - 1 := by omega
      subst this
      rw [e3 i hi, hcol]

/-- A 3x3 matrix over ℚ for the examples. -/
def exF : ℕ → ℕ → ℚ := fun i j => if i < j then 10 * i + j else 0

example : cmat2ntK 4 exF .vec 2 1 = 2 + 3 + 12 + 13 := by decide +kernel
example : (∀ i, exF i 0 = 0) ∧ ∀ i, i < 4 → nt2cmatK 4 (cmat2ntK 4 exF .vec) .vec i 2 = exF i 2 :=
  ⟨by intro i; simp [exF], by decide +kernel⟩

/-! ## C32, C33 -/

/-- The second mixed difference that `nt2fr` is meant to return (kind 0). -/
def mixedDiff (nt : ℕ → ℕ → α) (i j : ℕ) : α :=
  nt i j + nt (i + 1) (j + 1) - nt i (j + 1) - nt (i + 1) j

/-- **C32, exactly when it is right.**  The entry of `nt2fr(nt)` is the mixed difference if and only if
`nt[j, n-1] == nt[i, j]`; the mistyped slice takes the last column instead of the block. -/
theorem C32_right_iff_partial (n : ℕ) (nt : ℕ → ℕ → α) (i j : ℕ) (hi : i + 1 < n) (hj : j + 1 < n) :
    (nt2fr n nt 0 i j = mixedDiff nt i j ↔ nt j (n - 1) = nt i j) ∧
    (nt2fr n nt 1 (i + 1) (j + 1) = mixedDiff nt i j ↔ nt j (n - 1) = nt i j) := by
  have h0 : nt2fr n nt 0 i j = nt j (n - 1) + nt (i + 1) (j + 1) - nt i (j + 1) - nt (i + 1) j := by
    simp only [nt2fr, if_true]
    rw [if_pos (by omega)]
  have h1 : nt2fr n nt 1 (i + 1) (j + 1)
      = nt j (n - 1) + nt (i + 1) (j + 1) - nt i (j + 1) - nt (i + 1) j := by
    simp only [nt2fr, one_ne_zero, if_false, Nat.add_sub_cancel]
    rw [if_pos (by omega)]
  rw [h0, h1]
  unfold mixedDiff
  simp only [sub_left_inj, add_left_inj, and_self]

/-- **C32 refuted for every cycle matrix that matters.**  For `n >= 3` and every cycle matrix with a non-zero
total in the first row (first column excluded), `nt2fr` applied to its counting distribution does not
return the mixed difference in row 1, column 0. -/
theorem C32_refuted (n : ℕ) (hn : 3 ≤ n) (F : ℕ → ℕ → α) (hF : ∑ b ∈ Ico 1 n, F 0 b ≠ 0) :
    ∃ nt, cmat2nt n F 1 = .ok nt ∧ nt2fr n nt 0 1 0 ≠ mixedDiff nt 1 0 := by
  obtain ⟨nt, h, e1, e2, e3⟩ := C30_counting_distribution n F 1 (Or.inl rfl)
  refine ⟨nt, h, ?_⟩
  rw [Ne, (C32_right_iff_partial n nt 1 0 (by omega) (by omega)).1, e3 0 (by omega),
    e1 1 0 le_rfl (by omega) (by omega)]
  unfold countDist
  simp only [Finset.sum_range_one, zero_add]
  exact fun hh => hF hh.symm

example : ∑ b ∈ Ico 1 3, exF 0 b ≠ 0 := by decide +kernel

/-- **C33 refuted.**  `fr2nt` never returns: for every shape and every matrix it raises, an IndexError for
the square matrices of dimension 3 and larger that it claims to support. -/
theorem C33_refuted (n m : ℕ) (fr : ℕ → ℕ → α) :
    (3 ≤ n → n = m → fr2nt n m fr = .error .indexError) ∧ ∀ r, fr2nt n m fr ≠ .ok r := by
  constructor
  · rintro h rfl
    unfold fr2nt
    rw [if_neg (by omega), if_neg (by simp)]
    rfl
  · intro r
    unfold fr2nt
    split
    · simp
    · split
      · simp
      · simp [cumsumFlat, rowsTo]

end Wafo.Markov
