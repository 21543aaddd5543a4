import Verif.Filters.HampelModel
import Mathlib.Tactic.Ring
import Mathlib.Tactic.Linarith
import Mathlib.Tactic.FieldSimp
import Mathlib.Tactic.Positivity

set_option linter.unusedSectionVars false

/-!
# `HampelFilter`: what `np.median` computes
-/

namespace Wafo.Hampel

variable {α : Type*} [Field α] [LinearOrder α] [IsStrictOrderedRing α]

/-- Specification: `m` is the mean of the lower median `a` (at least half of the values are at or
below it, less than half below) and the upper median `b` (at least half are at or above it,
less than half above). -/
def IsMedian (l : List α) (m : α) : Prop :=
  ∃ a b, m = (a + b) / 2 ∧ a ∈ l ∧ b ∈ l ∧
    l.length ≤ 2 * l.countP (fun y => decide (y ≤ a)) ∧
    2 * l.countP (fun y => decide (y < a)) < l.length ∧
    l.length ≤ 2 * l.countP (fun y => decide (b ≤ y)) ∧
    2 * l.countP (fun y => decide (b < y)) < l.length

theorem sorted_le {s : List α} (hs : s.Pairwise (· ≤ ·)) {i j : ℕ} (hij : i ≤ j) (hj : j < s.length) :
    s[i]'(by omega) ≤ s[j] := by
  rcases hij.eq_or_lt with rfl | h
  · exact le_rfl
  · exact List.pairwise_iff_getElem.1 hs i j (by omega) hj h

theorem count_le_ge {s : List α} (hs : s.Pairwise (· ≤ ·)) {k : ℕ} (hk : k < s.length) :
    k + 1 ≤ s.countP (fun y => decide (y ≤ s[k])) := by
  have h : (s.take (k + 1)).countP (fun y => decide (y ≤ s[k])) = (s.take (k + 1)).length := by
    rw [List.countP_eq_length]
    intro y hy
    obtain ⟨i, hi, rfl⟩ := List.mem_take_iff_getElem.1 hy
    exact decide_eq_true (sorted_le hs (by omega) hk)
  have h2 := (List.take_sublist (k + 1) s).countP_le (p := fun y => decide (y ≤ s[k]))
  rw [h, List.length_take] at h2
  omega

theorem count_lt_le {s : List α} (hs : s.Pairwise (· ≤ ·)) {k : ℕ} (hk : k < s.length) :
    s.countP (fun y => decide (y < s[k])) ≤ k := by
  have h : (s.drop k).countP (fun y => decide (y < s[k])) = 0 := by
    rw [List.countP_eq_zero]
    intro y hy
    obtain ⟨i, hi, rfl⟩ := List.mem_drop_iff_getElem.1 hy
    simpa using sorted_le hs (by omega) (by omega)
  have e : s.countP (fun y => decide (y < s[k]))
      = (s.take k).countP (fun y => decide (y < s[k])) + (s.drop k).countP (fun y => decide (y < s[k])) := by
    rw [← List.countP_append, List.take_append_drop]
  have h2 := List.countP_le_length (p := fun y => decide (y < s[k])) (l := s.take k)
  rw [List.length_take] at h2
  omega

theorem count_ge_ge {s : List α} (hs : s.Pairwise (· ≤ ·)) {k : ℕ} (hk : k < s.length) :
    s.length - k ≤ s.countP (fun y => decide (s[k] ≤ y)) := by
  have h : (s.drop k).countP (fun y => decide (s[k] ≤ y)) = (s.drop k).length := by
    rw [List.countP_eq_length]
    intro y hy
    obtain ⟨i, hi, rfl⟩ := List.mem_drop_iff_getElem.1 hy
    exact decide_eq_true (sorted_le hs (by omega) (by omega))
  have h2 := (List.drop_sublist k s).countP_le (p := fun y => decide (s[k] ≤ y))
  rw [h, List.length_drop] at h2
  exact h2

theorem count_gt_le {s : List α} (hs : s.Pairwise (· ≤ ·)) {k : ℕ} (hk : k < s.length) :
    s.countP (fun y => decide (s[k] < y)) ≤ s.length - k - 1 := by
  have h : (s.take (k + 1)).countP (fun y => decide (s[k] < y)) = 0 := by
    rw [List.countP_eq_zero]
    intro y hy
    obtain ⟨i, hi, rfl⟩ := List.mem_take_iff_getElem.1 hy
    simpa using sorted_le hs (by omega) hk
  have e : s.countP (fun y => decide (s[k] < y)) = (s.take (k + 1)).countP (fun y => decide (s[k] < y))
      + (s.drop (k + 1)).countP (fun y => decide (s[k] < y)) := by
    rw [← List.countP_append, List.take_append_drop]
  have h2 := List.countP_le_length (p := fun y => decide (s[k] < y)) (l := s.drop (k + 1))
  rw [List.length_drop] at h2
  omega

/-- The specification determines the median. -/
theorem IsMedian.unique {l : List α} {m m' : α} (h : IsMedian l m) (h' : IsMedian l m') : m = m' := by
  obtain ⟨a, b, rfl, -, -, h1, h2, h3, h4⟩ := h
  obtain ⟨a', b', rfl, -, -, h1', h2', h3', h4'⟩ := h'
  have key : ∀ a a' : α, l.length ≤ 2 * l.countP (fun y => decide (y ≤ a)) →
      2 * l.countP (fun y => decide (y < a')) < l.length → ¬ a < a' := by
    intro a a' h h' hlt
    have : l.countP (fun y => decide (y ≤ a)) ≤ l.countP (fun y => decide (y < a')) :=
      List.countP_mono_left fun y _ hy => by
        simp only [decide_eq_true_eq] at hy ⊢
        exact hy.trans_lt hlt
    omega
  have key2 : ∀ b b' : α, l.length ≤ 2 * l.countP (fun y => decide (b' ≤ y)) →
      2 * l.countP (fun y => decide (b < y)) < l.length → ¬ b < b' := by
    intro b b' h h' hlt
    have : l.countP (fun y => decide (b' ≤ y)) ≤ l.countP (fun y => decide (b < y)) :=
      List.countP_mono_left fun y _ hy => by
        simp only [decide_eq_true_eq] at hy ⊢
        exact hlt.trans_le hy
    omega
  have ea : a = a' := le_antisymm (not_lt.1 (key a' a h1' h2)) (not_lt.1 (key a a' h1 h2'))
  have eb : b = b' := le_antisymm (not_lt.1 (key2 b' b h3 h4')) (not_lt.1 (key2 b b' h3' h4))
  rw [ea, eb]

/-- `np.median` of a non-empty list is the median. -/
theorem npMedian_spec {l : List α} (hl : l ≠ []) : ∃ m, npMedian l = some m ∧ IsMedian l m := by
  have hpos : 0 < l.length := List.length_pos_iff.2 hl
  set s := l.insertionSort (· ≤ ·) with hs
  have hlen : s.length = l.length := List.length_insertionSort (· ≤ ·) l
  have hsort : s.Pairwise (· ≤ ·) := List.pairwise_insertionSort (· ≤ ·) l
  have hperm : s.Perm l := List.perm_insertionSort (· ≤ ·) l
  have k1 : (l.length - 1) / 2 < s.length := by omega
  have k2 : l.length / 2 < s.length := by omega
  refine ⟨(s[(l.length - 1) / 2] + s[l.length / 2]) / 2, ?_, s[(l.length - 1) / 2], s[l.length / 2],
    rfl, hperm.mem_iff.1 (List.getElem_mem _), hperm.mem_iff.1 (List.getElem_mem _), ?_, ?_, ?_, ?_⟩
  · simp only [npMedian, ← hs, List.getElem?_eq_getElem k1, List.getElem?_eq_getElem k2]
  · rw [← hperm.countP_eq]
    have := count_le_ge hsort k1
    omega
  · rw [← hperm.countP_eq]
    have := count_lt_le hsort k1
    omega
  · rw [← hperm.countP_eq]
    have := count_ge_ge hsort k2
    omega
  · rw [← hperm.countP_eq]
    have := count_gt_le hsort k2
    omega

theorem npMedian_eq {l : List α} {m : α} (h : IsMedian l m) : npMedian l = some m := by
  have hl : l ≠ [] := by
    obtain ⟨a, -, -, ha, -⟩ := h
    exact List.ne_nil_of_mem ha
  obtain ⟨m', e, h'⟩ := npMedian_spec hl
  rw [e, h.unique h']

theorem isMedian_of_npMedian {l : List α} {m : α} (h : npMedian l = some m) : IsMedian l m := by
  have hl : l ≠ [] := by
    rintro rfl
    simp [npMedian] at h
  obtain ⟨m', e, h'⟩ := npMedian_spec hl
  rw [h] at e
  cases e
  exact h'

/-- The median follows a change of units and of sign. -/
theorem IsMedian.affine {l : List α} {m : α} (h : IsMedian l m) {c : α} (hc : c ≠ 0) (e : α) :
    IsMedian (l.map fun y => c * y + e) (c * m + e) := by
  obtain ⟨a, b, rfl, ha, hb, h1, h2, h3, h4⟩ := h
  have cm : ∀ p : α → Bool, (l.map fun y => c * y + e).countP p
      = l.countP fun y => p (c * y + e) := fun p => by
    rw [List.countP_map]; rfl
  rcases lt_or_gt_of_ne hc with hneg | hpos
  · have hle : ∀ y z : α, (c * y + e ≤ c * z + e) ↔ z ≤ y := fun y z => by
      rw [add_le_add_iff_right]; exact mul_le_mul_left_of_neg hneg
    have hlt : ∀ y z : α, (c * y + e < c * z + e) ↔ z < y := fun y z => by
      rw [add_lt_add_iff_right]; exact mul_lt_mul_left_of_neg hneg
    refine ⟨c * b + e, c * a + e, by ring, List.mem_map_of_mem hb, List.mem_map_of_mem ha, ?_⟩
    simp only [cm, List.length_map, hle, hlt]
    exact ⟨h3, h4, h1, h2⟩
  · have hle : ∀ y z : α, (c * y + e ≤ c * z + e) ↔ y ≤ z := fun y z => by
      rw [add_le_add_iff_right]; exact mul_le_mul_iff_of_pos_left hpos
    have hlt : ∀ y z : α, (c * y + e < c * z + e) ↔ y < z := fun y z => by
      rw [add_lt_add_iff_right]; exact mul_lt_mul_iff_of_pos_left hpos
    refine ⟨c * a + e, c * b + e, by ring, List.mem_map_of_mem ha, List.mem_map_of_mem hb, ?_⟩
    simp only [cm, List.length_map, hle, hlt]
    exact ⟨h1, h2, h3, h4⟩

theorem npMedian_affine (l : List α) {c : α} (hc : c ≠ 0) (e : α) :
    npMedian (l.map fun y => c * y + e) = (npMedian l).map fun m => c * m + e := by
  by_cases hl : l = []
  · subst hl; rfl
  · obtain ⟨m, h, hm⟩ := npMedian_spec hl
    rw [h, npMedian_eq (hm.affine hc e)]
    rfl

/-- A value taken by more than half of the data is the median. -/
theorem IsMedian.majority {l : List α} {m c : α} (h : IsMedian l m)
    (hc : l.length < 2 * l.countP (fun y => decide (y = c))) : m = c := by
  obtain ⟨a, b, rfl, -, -, h1, h2, h3, h4⟩ := h
  have dis : ∀ p : α → Bool, p c = false →
      l.countP p + l.countP (fun y => decide (y = c)) ≤ l.length := by
    intro p hp
    have : l.countP p ≤ l.countP (fun y => !decide (y = c)) :=
      List.countP_mono_left fun y _ hy => by
        by_contra hn
        simp only [Bool.not_eq_true, Bool.not_eq_false', decide_eq_true_eq] at hn
        rw [hn, hp] at hy
        exact absurd hy (by simp)
    have e := List.length_eq_countP_add_countP (fun y => decide (y = c)) (l := l)
    have e2 : l.countP (fun a => decide ¬(decide (a = c)) = true) = l.countP (fun y => !decide (y = c)) := by
      congr 1; funext y; simp
    omega
  have ea : a = c := by
    by_contra hne
    rcases lt_or_gt_of_ne hne with hlt | hgt
    · have := dis (fun y => decide (y ≤ a)) (by simpa using hlt)
      omega
    · have : l.countP (fun y => decide (y = c)) ≤ l.countP (fun y => decide (y < a)) :=
        List.countP_mono_left fun y _ hy => by
          simp only [decide_eq_true_eq] at hy ⊢
          rw [hy]; exact hgt
      omega
  have eb : b = c := by
    by_contra hne
    rcases lt_or_gt_of_ne hne with hlt | hgt
    · have : l.countP (fun y => decide (y = c)) ≤ l.countP (fun y => decide (b < y)) :=
        List.countP_mono_left fun y _ hy => by
          simp only [decide_eq_true_eq] at hy ⊢
          rw [hy]; exact hlt
      omega
    · have := dis (fun y => decide (b ≤ y)) (by simpa using hgt)
      omega
  rw [ea, eb]; ring

theorem IsMedian.nonneg {l : List α} {m : α} (h : IsMedian l m) (hl : ∀ y ∈ l, 0 ≤ y) : 0 ≤ m := by
  obtain ⟨a, b, rfl, ha, hb, -⟩ := h
  have := hl a ha
  have := hl b hb
  linarith

end Wafo.Hampel
