import Verif.Gauss.Model
import Verif.Gauss.Plackett
import Mathlib.Data.List.GetD

/-!
# `cdfnorm2d` element by element
-/

set_option linter.unusedSectionVars false

namespace Wafo.Gauss

open MeasureTheory ProbabilityTheory Set Filter Topology

theorem fi_eq (x : ℝ) : fi x = Phi x := erfc_eq_Phi x

/-- The value an element gets when the index arrays select the element itself. -/
noncomputable def elemVal (b1 b2 r : ℝ) : Option ℝ :=
  if |r| > 1 then none
  else if |r| < 0.925 then some (mid (-b1) (-b2) r)
  else if r < 0 then
    some (-(if |r| < 1 then -high (-b1) b2 r / (2 * Real.pi) else 0) +
      max 0 (Phi b1 - Phi (-b2)))
  else
    some ((if |r| < 1 then -high (-b1) (-b2) r / (2 * Real.pi) else 0) + Phi (min b1 b2))

open Classical in
/-- `k1` of `cdfnorm2d`. -/
noncomputable def k1of (n : ℕ) (r : ℕ → ℝ) : List ℕ :=
  nonzero n (fun i => decide (0.925 ≤ |r i| ∧ |r i| ≤ 1))

open Classical in
/-- `k3` of `cdfnorm2d`. -/
noncomputable def k3of (n : ℕ) (r : ℕ → ℝ) : List ℕ :=
  nonzero (k1of n r).length (fun j => decide (|r ((k1of n r).getD j 0)| < 1))

theorem mem_nonzero {n : ℕ} {p : ℕ → Bool} {i : ℕ} : i ∈ nonzero n p ↔ i < n ∧ p i = true := by
  simp [nonzero]

theorem mem_k1of {n : ℕ} {r : ℕ → ℝ} {i : ℕ} :
    i ∈ k1of n r ↔ i < n ∧ (0.925 ≤ |r i| ∧ |r i| ≤ 1) := by
  simp [k1of, mem_nonzero]

theorem mem_k3of {n : ℕ} {r : ℕ → ℝ} {j : ℕ} :
    j ∈ k3of n r ↔ j < (k1of n r).length ∧ |r ((k1of n r).getD j 0)| < 1 := by
  simp [k3of, mem_nonzero]

theorem mem_k13 {n : ℕ} {r : ℕ → ℝ} {i : ℕ} :
    i ∈ (k3of n r).map (fun j => (k1of n r).getD j 0) ↔ i ∈ k1of n r ∧ |r i| < 1 := by
  simp only [List.mem_map, mem_k3of]
  constructor
  · rintro ⟨j, ⟨hj, h1⟩, rfl⟩
    refine ⟨?_, h1⟩
    rw [List.getD_eq_getElem _ _ hj]
    exact List.getElem_mem _
  · rintro ⟨hi, h1⟩
    obtain ⟨j, hj, rfl⟩ := List.getElem_of_mem hi
    refine ⟨j, ⟨hj, ?_⟩, ?_⟩ <;> rw [List.getD_eq_getElem _ _ hj]
    exact h1

theorem neg_max_neg (x y : ℝ) : -max (-x) (-y) = min x y := by
  rw [max_neg_neg, neg_neg]

open Classical in
/-- `cdfnorm2d` at one position, with the position sets named. -/
theorem cdfnorm2d_apply (n : ℕ) (b1 b2 r : ℕ → ℝ) (i : ℕ) (hi : i < n) :
    cdfnorm2d n b1 b2 r i =
      if |r i| > 1 then none
      else some (
        let kk := if (i ∈ k1of n r ∧ r i < 0) then b2 i else -b2 i
        let v0 := if |r i| < 0.925 then mid (-b1 i) (-b2 i) (r i) else 0
        let v1 := if i ∈ k1of n r ∧ |r i| < 1 then v0 + high (-b1 i) kk (r i) else v0
        let v2 := if i ∈ k3of n r then -v1 / (2 * Real.pi) else v1
        let v3 := if i ∈ k1of n r ∧ 0 < r i then v2 + fi (-max (-b1 i) kk) else v2
        if i ∈ k1of n r ∧ r i < 0 then -v3 + max 0 (fi (b1 i) - fi (-kk)) else v3) := by
  have hk0 : i ∈ nonzero n (fun i => decide (|r i| < 0.925)) ↔ |r i| < 0.925 := by
    simp [mem_nonzero, hi]
  have h13 := mem_k13 (n := n) (r := r) (i := i)
  have hk1 : nonzero n (fun i => decide (0.925 ≤ |r i| ∧ |r i| ≤ 1)) = k1of n r := rfl
  have hk3 : nonzero (k1of n r).length (fun j => decide (|r ((k1of n r).getD j 0)| < 1)) =
    k3of n r := rfl
  have hf1 : i ∈ (k1of n r).filter (fun i => decide (r i < 0)) ↔ i ∈ k1of n r ∧ r i < 0 := by
    simp [List.mem_filter]
  have hf2 : i ∈ (k1of n r).filter (fun i => decide (r i > 0)) ↔ i ∈ k1of n r ∧ 0 < r i := by
    simp [List.mem_filter]
  simp only [cdfnorm2d, hk1, hk3, updAt, hk0, hf1, hf2, h13, neg_neg]
  by_cases c0 : |r i| > 1
  · simp only [c0, if_true]
    split_ifs <;> rfl
  · simp only [c0, if_false]
    by_cases c1 : |r i| < 0.925 <;> by_cases c2 : i ∈ k1of n r <;> by_cases c3 : |r i| < 1 <;>
      by_cases c4 : i ∈ k3of n r <;> by_cases c5 : 0 < r i <;> by_cases c6 : r i < 0 <;>
      simp only [c1, c2, c3, c4, c5, c6, if_true, if_false, true_and, false_and, and_false,
        Option.map_some, zero_add]

theorem cdfnorm2d_eq_elem (n : ℕ) (b1 b2 r : ℕ → ℝ) (i : ℕ) (hi : i < n)
    (h : i ∈ k3of n r ↔ (i ∈ k1of n r ∧ |r i| < 1)) :
    cdfnorm2d n b1 b2 r i = elemVal (b1 i) (b2 i) (r i) := by
  rw [cdfnorm2d_apply n b1 b2 r i hi]
  simp only [h, elemVal, fi_eq, mem_k1of, hi, true_and]
  by_cases c0 : |r i| > 1
  · simp [c0]
  simp only [c0, if_false]
  by_cases c1 : |r i| < 0.925
  · have : ¬ (0.925 ≤ |r i|) := not_le.2 c1
    simp [c1, this]
  · have c2 : 0.925 ≤ |r i| := not_lt.1 c1
    have c3 : |r i| ≤ 1 := not_lt.1 c0
    simp only [c1, c2, c3, if_false, true_and]
    by_cases c6 : r i < 0
    · have c5 : ¬ 0 < r i := not_lt.2 c6.le
      by_cases c4 : |r i| < 1 <;> simp [c4, c5, c6]
    · have c5 : 0 < r i := by
        rcases lt_trichotomy (r i) 0 with h1 | h1 | h1
        · exact absurd h1 c6
        · rw [h1, abs_zero] at c2; norm_num at c2
        · exact h1
      have e := neg_max_neg (b1 i) (b2 i)
      by_cases c4 : |r i| < 1 <;> simp [c4, c5, c6, e]

theorem getD_k1_prefix {n m : ℕ} {r : ℕ → ℝ} (hm : m ≤ n)
    (hlow : ∀ i, i < m → 0.925 ≤ |r i| ∧ |r i| ≤ 1) :
    ∃ l, k1of n r = List.range m ++ l ∧ ∀ x ∈ l, m ≤ x ∧ x ∈ k1of n r := by
  classical
  obtain ⟨d, rfl⟩ := Nat.exists_eq_add_of_le hm
  refine ⟨((List.range d).map (m + ·)).filter
    (fun i => decide (0.925 ≤ |r i| ∧ |r i| ≤ 1)), ?_, ?_⟩
  · unfold k1of nonzero
    rw [List.range_add, List.filter_append]
    congr 1
    rw [List.filter_eq_self]
    intro i hi
    simpa using hlow i (List.mem_range.1 hi)
  · intro x hx
    rw [List.mem_filter] at hx
    obtain ⟨hx1, hx2⟩ := hx
    rw [List.mem_map] at hx1
    obtain ⟨j, hj, rfl⟩ := hx1
    rw [List.mem_range] at hj
    exact ⟨Nat.le_add_right _ _, mem_k1of.2 ⟨by omega, by simpa using hx2⟩⟩

theorem k3_ok {n m : ℕ} {r : ℕ → ℝ} (hm : m ≤ n)
    (hlow : ∀ i, i < m → 0.925 ≤ |r i| ∧ |r i| ≤ 1)
    (hhigh : ∀ i, m ≤ i → i < n → ¬ (0.925 ≤ |r i| ∧ |r i| < 1)) (i : ℕ) (hi : i < n) :
    i ∈ k3of n r ↔ (i ∈ k1of n r ∧ |r i| < 1) := by
  obtain ⟨l, hl, hl2⟩ := getD_k1_prefix hm hlow
  rw [mem_k3of]
  by_cases c : i < m
  · have e : (k1of n r).getD i 0 = i := by
      rw [hl, List.getD_append _ _ _ _ (by simpa using c), List.getD_eq_getElem _ _ (by simpa using c)]
      simp
    have e2 : i < (k1of n r).length := by
      rw [hl, List.length_append, List.length_range]; omega
    rw [e]
    constructor
    · rintro ⟨_, h⟩; exact ⟨mem_k1of.2 ⟨hi, hlow i c⟩, h⟩
    · rintro ⟨_, h⟩; exact ⟨e2, h⟩
  · have c' : m ≤ i := not_lt.1 c
    constructor
    · rintro ⟨h1, h2⟩
      exfalso
      have hmem : (k1of n r).getD i 0 ∈ l := by
        have h1' := h1
        rw [hl, List.length_append, List.length_range] at h1'
        rw [hl, List.getD_append_right _ _ _ _ (by simpa using c'),
          List.getD_eq_getElem _ _ (by simp; omega)]
        exact List.getElem_mem _
      obtain ⟨g1, g2⟩ := hl2 _ hmem
      rw [mem_k1of] at g2
      exact hhigh _ g1 g2.1 ⟨g2.2.1, h2⟩
    · rintro ⟨h1, h2⟩
      rw [mem_k1of] at h1
      exact absurd ⟨h1.2.1, h2⟩ (hhigh i c' hi)

theorem cdf2_eq (b1 b2 r : ℝ) : cdf2 b1 b2 r = elemVal b1 b2 r := by
  unfold cdf2
  refine cdfnorm2d_eq_elem 1 _ _ _ 0 (by norm_num) ?_
  by_cases c : 0.925 ≤ |r| ∧ |r| ≤ 1
  · exact k3_ok (m := 1) le_rfl (fun _ _ => c) (fun i h1 h2 => by omega) 0 (by norm_num)
  · refine k3_ok (m := 0) (Nat.zero_le _) (fun i h => by omega) (fun i _ _ h => ?_) 0 (by norm_num)
    exact c ⟨h.1, h.2.le⟩

end Wafo.Gauss
