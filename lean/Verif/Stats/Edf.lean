import Verif.Stats.Model
import Mathlib.Algebra.Order.Field.Rat
import Mathlib.Data.Rat.Floor
import Mathlib.Data.List.Sort
import Mathlib.Algebra.Order.BigOperators.Group.List
import Mathlib.Tactic.FieldSimp

/-!
Empirical distribution function (C75), extremal index (C76) and return periods (C77) of `/repo/src/wafo/stats/core.py`.
-/

set_option linter.unusedSectionVars false

namespace Wafo.Stats

open Wafo.Cross

variable {α : Type*} [Field α] [LinearOrder α] [IsStrictOrderedRing α]

section Edf
variable [FloorRing α]

theorem arange_half (n : ℕ) : Wafo.Tran.arange (1 / 2 : α) (n : α) 1 = (List.range n).map (fun k : ℕ => 1 / 2 + (k : α)) := by
  unfold Wafo.Tran.arange
  have : ⌈((n : α) - 1 / 2) / 1⌉ = (n : ℤ) := by
    rw [Int.ceil_eq_iff]
    constructor
    · push_cast; linarith
    · push_cast; linarith
  rw [this, Int.toNat_natCast]
  simp

theorem arange_one (n : ℕ) : Wafo.Tran.arange (1 : α) ((n : α) + 1) 1 = (List.range n).map (fun k : ℕ => 1 + (k : α)) := by
  unfold Wafo.Tran.arange
  have : ⌈((n : α) + 1 - 1) / 1⌉ = (n : ℤ) := by
    rw [Int.ceil_eq_iff]
    constructor <;> push_cast <;> linarith
  rw [this, Int.toNat_natCast]
  simp

/-- **C75 (abscissae).**  They are the data in rising order. -/
theorem C75_abscissae (x : List α) (isArray : Bool) (method : ℤ) :
    (edf x isArray method).1.2.Perm x ∧ (edf x isArray method).1.2.Pairwise (· ≤ ·) :=
  ⟨List.perm_insertionSort _ x, List.pairwise_insertionSort _ x⟩

/-- **C75 (plotting positions).**  There is one probability per value, and the `k`-th one (counted from 0) is `(k + ½)/n` for
method 1, `(k + 1)/n` for method 3 and `(k + 1)/(n + 1)` otherwise. -/
theorem C75_positions (x : List α) (isArray : Bool) (method : ℤ) :
    (edf x isArray method).1.1.length = x.length ∧
    ∀ k < x.length, (edf x isArray method).1.1[k]? = some (
      if method = 1 then ((k : α) + 1 / 2) / (x.length : α)
      else if method = 3 then ((k : α) + 1) / (x.length : α) else ((k : α) + 1) / ((x.length : α) + 1)) := by
  simp only [edf, List.length_insertionSort]
  split_ifs with h1 h3
  · rw [arange_half]
    refine ⟨by simp, fun k hk => ?_⟩
    simp [hk, add_comm]
  · rw [arange_one]
    refine ⟨by simp, fun k hk => ?_⟩
    simp [hk, add_comm]
  · rw [arange_one]
    refine ⟨by simp, fun k hk => ?_⟩
    simp [hk, add_comm]

/-- **C75 (probabilities).**  The probabilities are strictly increasing and lie in `(0, 1]`, and in `(0, 1)` for all methods
other than 3. -/
theorem C75_probabilities (x : List α) (isArray : Bool) (method : ℤ) :
    (edf x isArray method).1.1.Pairwise (· < ·) ∧
    ∀ p ∈ (edf x isArray method).1.1, 0 < p ∧ p ≤ 1 ∧ (method ≠ 3 → p < 1) := by
  obtain ⟨hl, hk⟩ := C75_positions x isArray method
  have hn : ∀ k : ℕ, k < x.length → (k : α) + 1 ≤ (x.length : α) := by intro k h; exact_mod_cast h
  constructor
  · rw [List.pairwise_iff_getElem]
    intro i j hi hj hij
    have e1 := hk i (by omega)
    have e2 := hk j (by omega)
    rw [List.getElem?_eq_getElem hi] at e1
    rw [List.getElem?_eq_getElem hj] at e2
    simp only [Option.some.injEq] at e1 e2
    rw [e1, e2]
    have h1 := hn i (by omega)
    have h0 : (0 : α) ≤ (i : α) := Nat.cast_nonneg _
    have hij' : (i : α) < (j : α) := by exact_mod_cast hij
    have hpos : (0 : α) < (x.length : α) := by linarith
    split_ifs
    · exact div_lt_div_of_pos_right (by linarith) hpos
    · exact div_lt_div_of_pos_right (by linarith) hpos
    · exact div_lt_div_of_pos_right (by linarith) (by linarith)
  · intro p hp
    obtain ⟨k, hk'⟩ := List.mem_iff_getElem?.1 hp
    have hlt := (List.getElem?_eq_some_iff.1 hk').1
    have e := hk k (by omega)
    rw [hk'] at e
    simp only [Option.some.injEq] at e
    have h1 := hn k (by omega)
    have h0 : (0 : α) ≤ (k : α) := Nat.cast_nonneg _
    have hpos : (0 : α) < (x.length : α) := by linarith
    have hpos1 : (0 : α) < (x.length : α) + 1 := by linarith
    rw [e]
    split_ifs with c1 c3
    · refine ⟨by positivity, ?_, fun _ => ?_⟩
      · rw [div_le_one hpos]; linarith
      · rw [div_lt_one hpos]; linarith
    · refine ⟨by positivity, ?_, fun h => absurd c3 h⟩
      rw [div_le_one hpos]; linarith
    · refine ⟨by positivity, ?_, fun _ => ?_⟩
      · rw [div_le_one hpos1]; linarith
      · rw [div_lt_one hpos1]; linarith

/-- **C75 (finding).**  The argument is sorted in place when it is an array: afterwards the caller's vector is the vector of
abscissae.  A list is left alone. -/
theorem C75_argument (x : List α) (method : ℤ) :
    (edf x true method).2 = (edf x true method).1.2 ∧ (edf x false method).2 = x := ⟨rfl, rfl⟩

/-- The argument of `edf` is changed. -/
theorem C75_argument_refuted : ∃ x : List ℚ, (edf x true 2).2 ≠ x := ⟨[2, 1], by decide +kernel⟩

example : edf ([3, 1, 2] : List ℚ) false 2 = (([1 / 4, 1 / 2, 3 / 4], [1, 2, 3]), [3, 1, 2]) := by decide +kernel
example : (edf ([3, 1] : List ℚ) false 1).1.1 = [1 / 4, 3 / 4] ∧ (edf ([3, 1] : List ℚ) true 3).1.1 = [1 / 2, 1] := by
  constructor <;> decide +kernel

end Edf

/-! ### Extremal index -/

section Ext
variable [FloorRing α]

/-- All entries are integers. -/
def IntList (t : List α) : Prop := ∀ v ∈ t, ∃ k : ℤ, v = (k : α)

theorem foldl_max_spec : ∀ (l : List α) (a : α), l.foldl max a ∈ a :: l ∧ ∀ v ∈ a :: l, v ≤ l.foldl max a
  | [], a => by simp
  | b :: l, a => by
    obtain ⟨h1, h2⟩ := foldl_max_spec l (max a b)
    rw [List.foldl_cons]
    constructor
    · rcases List.mem_cons.1 h1 with h | h
      · rw [h]
        rcases max_choice a b with h | h <;> rw [h] <;> simp
      · exact List.mem_cons_of_mem _ (List.mem_cons_of_mem _ h)
    · intro v hv
      have hm := h2 (max a b) (by simp)
      rcases List.mem_cons.1 hv with rfl | hv
      · exact (le_max_left _ _).trans hm
      · rcases List.mem_cons.1 hv with rfl | hv
        · exact (le_max_right _ _).trans hm
        · exact h2 v (List.mem_cons_of_mem _ hv)

theorem foldl_min_spec : ∀ (l : List α) (a : α), l.foldl min a ∈ a :: l ∧ ∀ v ∈ a :: l, l.foldl min a ≤ v
  | [], a => by simp
  | b :: l, a => by
    obtain ⟨h1, h2⟩ := foldl_min_spec l (min a b)
    rw [List.foldl_cons]
    constructor
    · rcases List.mem_cons.1 h1 with h | h
      · rw [h]
        rcases min_choice a b with h | h <;> rw [h] <;> simp
      · exact List.mem_cons_of_mem _ (List.mem_cons_of_mem _ h)
    · intro v hv
      have hm := h2 (min a b) (by simp)
      rcases List.mem_cons.1 hv with rfl | hv
      · exact hm.trans (min_le_left _ _)
      · rcases List.mem_cons.1 hv with rfl | hv
        · exact hm.trans (min_le_right _ _)
        · exact h2 v (List.mem_cons_of_mem _ hv)

theorem mean_pos (l : List α) (h : ∀ v ∈ l, 0 ≤ v) (v : α) (hv : v ∈ l) (hp : 0 < v) : 0 < mean l := by
  unfold mean
  have h1 : v ≤ l.sum := List.single_le_sum h v hv
  have h2 : 0 < l.length := List.length_pos_of_mem hv
  have h3 : (0 : α) < (l.length : α) := by exact_mod_cast h2
  exact div_pos (by linarith) h3

/-- **C76 (extremal index).**  For a non-empty list of integer inter-exceedance times the extremal index exists (no division by
zero), lies in `[0, 1]`, is 0 when no time exceeds 1, and is positive as soon as some time exceeds 2 and the mean is not 1. -/
theorem C76_unit_interval (t : List α) (hne : t ≠ []) (hint : IntList t) :
    ∃ ei, extremalIdx t = .ok ei ∧ 0 ≤ ei ∧ ei ≤ 1 ∧ ((∀ v ∈ t, v ≤ 1) → ei = 0) ∧
      ((∃ v ∈ t, 2 < v) → mean (t.map (· - 1)) ≠ 0 → 0 < ei) := by
  rcases t with _ | ⟨a, l⟩
  · exact absurd rfl hne
  obtain ⟨hm1, hm2⟩ := foldl_max_spec l a
  unfold extremalIdx
  simp only
  by_cases h1 : l.foldl max a ≤ 1
  · rw [if_pos h1]
    refine ⟨0, rfl, le_refl _, zero_le_one, fun _ => rfl, ?_⟩
    rintro ⟨v, hv, h2⟩
    have := hm2 v hv
    linarith
  · have hn1 : ¬ ∀ v ∈ a :: l, v ≤ 1 := fun h => h1 (h _ hm1)
    rw [if_neg h1]
    rw [not_le] at h1
    by_cases h2 : l.foldl max a ≤ 2
    · rw [if_pos h2]
      have hd : 0 < mean ((a :: l).map (fun v => v ^ 2)) := by
        refine mean_pos _ ?_ ((l.foldl max a) ^ 2) (List.mem_map.2 ⟨_, hm1, rfl⟩) (by positivity)
        intro v hv
        obtain ⟨w, -, rfl⟩ := List.mem_map.1 hv
        positivity
      rw [if_neg hd.ne']
      refine ⟨_, rfl, ?_, min_le_left _ _, fun h => absurd h hn1, ?_⟩
      · exact le_min zero_le_one (div_nonneg (by positivity) hd.le)
      · rintro ⟨v, hv, h3⟩
        have := hm2 v hv
        linarith
    · rw [if_neg h2]
      rw [not_le] at h2
      have hd : 0 < mean ((a :: l).map (fun v => (v - 1) * (v - 2))) := by
        refine mean_pos _ ?_ ((l.foldl max a - 1) * (l.foldl max a - 2)) (List.mem_map.2 ⟨_, hm1, rfl⟩) ?_
        · intro v hv
          obtain ⟨w, hw, rfl⟩ := List.mem_map.1 hv
          obtain ⟨k, rfl⟩ := hint w hw
          rcases le_or_gt k 1 with hk | hk
          · have : (k : α) ≤ 1 := by exact_mod_cast hk
            exact mul_nonneg_of_nonpos_of_nonpos (by linarith) (by linarith)
          · have : (2 : α) ≤ (k : α) := by exact_mod_cast hk
            exact mul_nonneg (by linarith) (by linarith)
        · exact mul_pos (by linarith) (by linarith)
      rw [if_neg hd.ne']
      refine ⟨_, rfl, ?_, min_le_left _ _, fun h => absurd h hn1, ?_⟩
      · exact le_min zero_le_one (div_nonneg (by positivity) hd.le)
      · intro _ hmn
        exact lt_min zero_lt_one (div_pos (by positivity) hd)

/-- **C76 (empty).**  `extremal_idx([])` raises. -/
theorem C76_empty : extremalIdx ([] : List α) = .error .valueError := rfl

theorem diff_len : ∀ l : List α, (diff l).length = l.length - 1
  | [] => rfl
  | [a] => rfl
  | a :: b :: l => by
    have := diff_len (b :: l)
    simp only [diff, List.length_cons] at this ⊢
    omega

theorem diff_int : ∀ l : List α, IntList l → IntList (diff l)
  | [], _ => by intro v hv; simp [diff] at hv
  | [a], _ => by intro v hv; simp [diff] at hv
  | a :: b :: l, h => by
    intro v hv
    simp only [diff, List.mem_cons] at hv
    rcases hv with rfl | hv
    · obtain ⟨i, hi⟩ := h a (by simp)
      obtain ⟨j, hj⟩ := h b (by simp)
      exact ⟨j - i, by rw [hi, hj]; push_cast; ring⟩
    · exact diff_int (b :: l) (fun w hw => h w (List.mem_cons_of_mem _ hw)) v hv

theorem interTimes_int (t : List α) (h : IntList t) : IntList (interTimes t) ∧ (interTimes t).length = t.length - 1 := by
  unfold interTimes
  refine ⟨diff_int _ (fun v hv => h v ((List.perm_insertionSort _ t).mem_iff.1 hv)), ?_⟩
  rw [diff_len, List.length_insertionSort]

/-- Order statistics of a falling list. -/
theorem falling_count : ∀ (l : List α), l.Pairwise (fun u v => v ≤ u) → ∀ (i : ℕ) (x : α), l[i]? = some x →
    l.countP (fun v => decide (x < v)) ≤ i ∧ i + 1 ≤ l.countP (fun v => decide (x ≤ v))
  | [], _, i, x, h => by simp at h
  | a :: l, hs, 0, x, h => by
    simp only [List.getElem?_cons_zero, Option.some.injEq] at h
    subst h
    have h1 := (List.pairwise_cons.1 hs).1
    constructor
    · rw [Nat.le_zero, List.countP_eq_zero]
      intro v hv
      simp only [decide_eq_true_eq, not_lt]
      rcases List.mem_cons.1 hv with rfl | hv
      · exact le_refl _
      · exact h1 v hv
    · rw [List.countP_cons]; simp
  | a :: l, hs, i + 1, x, h => by
    simp only [List.getElem?_cons_succ] at h
    obtain ⟨h1, h2⟩ := falling_count l (List.pairwise_cons.1 hs).2 i x h
    have hax := (List.pairwise_cons.1 hs).1 x (List.mem_of_getElem? h)
    rw [List.countP_cons, List.countP_cons]
    constructor
    · split <;> omega
    · simp only [hax, decide_true, if_true]; omega

/-- **C76 (declustering time).**  For at least two integer times the declustering time exists, is one of the inter-exceedance
times, at most `⌊n·θ⌋` inter-exceedance times exceed it, and at least `min(⌊n·θ⌋ + 1, n - 1)` reach it, where `θ` is the
extremal index. -/
theorem C76_declustering (t : List α) (hl : 2 ≤ t.length) (hint : IntList t) :
    ∃ tc ei, declusteringTime t = .ok (some tc) ∧ extremalIdx (interTimes t) = .ok ei ∧ tc ∈ interTimes t ∧
      (((interTimes t).countP (fun v => decide (tc < v)) : ℕ) : ℤ) ≤ ⌊(t.length : α) * ei⌋ ∧
      min (⌊(t.length : α) * ei⌋ + 1) ((t.length : ℤ) - 1) ≤ (((interTimes t).countP (fun v => decide (tc ≤ v)) : ℕ) : ℤ) := by
  obtain ⟨hi, hlen⟩ := interTimes_int t hint
  have hne : interTimes t ≠ [] := by
    intro h
    rw [h] at hlen
    simp only [List.length_nil] at hlen
    omega
  obtain ⟨ei, he, h0, h1, -, -⟩ := C76_unit_interval (interTimes t) hne hi
  unfold declusteringTime
  rw [if_neg (by omega)]
  simp only [he]
  by_cases hone : ei = 1
  · rw [if_pos hone]
    rcases hti : interTimes t with _ | ⟨a, l⟩
    · exact absurd hti hne
    · obtain ⟨m1, m2⟩ := foldl_min_spec l a
      refine ⟨_, ei, rfl, rfl, m1, ?_, ?_⟩
      · subst hone
        rw [mul_one, Int.floor_natCast]
        have : (a :: l).countP (fun v => decide (l.foldl min a < v)) ≤ (a :: l).length := List.countP_le_length
        rw [hti] at hlen
        omega
      · have : (a :: l).countP (fun v => decide (l.foldl min a ≤ v)) = (a :: l).length := by
          rw [List.countP_eq_length]
          intro v hv
          simpa using m2 v hv
        rw [this, ← hti, hlen]
        refine (min_le_right _ _).trans ?_
        omega
  · rw [if_neg hone]
    set sti := (interTimes t).insertionSort (fun u v => v ≤ u) with hst
    have hperm : sti.Perm (interTimes t) := List.perm_insertionSort _ _
    have hsort : sti.Pairwise (fun u v => v ≤ u) := by
      have : Std.Total (fun u v : α => v ≤ u) := ⟨fun a b => le_total _ _⟩
      have : IsTrans α (fun u v : α => v ≤ u) := ⟨fun a b c h1 h2 => le_trans h2 h1⟩
      exact List.pairwise_insertionSort (fun u v : α => v ≤ u) _
    have hf0 : 0 ≤ ⌊(t.length : α) * ei⌋ := Int.floor_nonneg.2 (mul_nonneg (Nat.cast_nonneg _) h0)
    set i := min ⌊(t.length : α) * ei⌋ ((t.length : ℤ) - 2) with hid
    have hi0 : 0 ≤ i := le_min hf0 (by omega)
    have hi2 : i ≤ (t.length : ℤ) - 2 := min_le_right _ _
    have hi1 : i ≤ ⌊(t.length : α) * ei⌋ := min_le_left _ _
    have hlt : i.toNat < sti.length := by rw [hperm.length_eq, hlen]; omega
    have hget : sti[i.toNat]? = some sti[i.toNat] := List.getElem?_eq_getElem hlt
    obtain ⟨c1, c2⟩ := falling_count sti hsort i.toNat _ hget
    refine ⟨sti[i.toNat], ei, ?_, rfl, hperm.mem_iff.1 (List.getElem_mem _), ?_, ?_⟩
    · unfold Wafo.Tran.pyGet
      simp only
      rw [if_neg (not_lt.2 hi0), if_pos hi0, hget]
      rfl
    · rw [← hperm.countP_eq]
      omega
    · rw [← hperm.countP_eq]
      have : min (⌊(t.length : α) * ei⌋ + 1) ((t.length : ℤ) - 1) = i + 1 := by
        rw [hid, ← min_add_add_right]
        congr 1
        ring
      rw [this]
      omega

/-- **C76 (refuted for real times).**  With real times the extremal index can be negative, far out of range, and
`declustering_time` raises IndexError. -/
theorem C76_real_refuted :
    (∃ t : List ℚ, (∀ v ∈ t, 1 < v) ∧ ∃ ei, extremalIdx t = .ok ei ∧ ei < 0) ∧
    ∃ t : List ℚ, 2 ≤ t.length ∧ declusteringTime t = .error .indexError := by
  refine ⟨⟨[3 / 2, 3 / 2, 11 / 5], ?_, -484 / 39, ?_, by norm_num⟩, [0, 3 / 2, 3, 26 / 5], by decide, ?_⟩
  · intro v hv
    simp only [List.mem_cons, List.not_mem_nil, or_false] at hv
    rcases hv with rfl | rfl | rfl <;> norm_num
  · decide +kernel
  · decide +kernel

example : IntList ([1, 4, 1, 9] : List ℚ) ∧ extremalIdx ([1, 4, 1, 9] : List ℚ) = .ok (121 / 124) := by
  refine ⟨?_, by decide +kernel⟩
  intro v hv
  simp only [List.mem_cons, List.not_mem_nil, or_false] at hv
  rcases hv with rfl | rfl | rfl | rfl
  · exact ⟨1, by norm_num⟩
  · exact ⟨4, by norm_num⟩
  · exact ⟨1, by norm_num⟩
  · exact ⟨9, by norm_num⟩

example : declusteringTime ([1, 2, 3, 10, 11, 12] : List ℚ) = .ok (some 1) := by decide +kernel

end Ext

/-! ### Return periods -/

/-- **C77 (round trip).**  A probability in `[0, 1)` is recovered from its return period, for every positive rate. -/
theorem C77_sf_rp (q n : α) (hn : 0 < n) (h0 : 0 ≤ q) (h1 : q < 1) : rp2sf (sf2rp q n) n = .val q := by
  have hc : ¬ (n < 0 ∨ q < 0 ∨ 1 ≤ q) := by
    rintro (h | h | h) <;> linarith
  unfold sf2rp
  rw [if_neg hc]
  rcases h0.eq_or_lt with rfl | h0
  · rw [if_pos (by ring)]
    unfold rp2sf
    simp only
    rw [if_neg (not_le.2 hn)]
  · have hp : 0 < n * q := mul_pos hn h0
    rw [if_neg hp.ne']
    unfold rp2sf
    simp only
    have e : 1 / (n * q) * n = 1 / q := by field_simp
    have hq : ¬ (n ≤ 0 ∨ 1 / (n * q) * n < 1) := by
      rw [e]
      rintro (h | h)
      · linarith
      · rw [div_lt_one h0] at h; linarith
    rw [if_neg hq, e]
    simp

/-- **C77 (round trip).**  A period with more than one event is recovered from its probability. -/
theorem C77_rp_sf (t n : α) (hn : 0 < n) (ht : 1 < t * n) :
    ∃ q, rp2sf (.val t) n = .val q ∧ 0 < q ∧ q < 1 ∧ sf2rp q n = .val t := by
  have hp : 0 < t * n := by linarith
  have ht0 : 0 < t := pos_of_mul_pos_left hp hn.le
  have hc : ¬ (n ≤ 0 ∨ t * n < 1) := by rintro (h | h) <;> linarith
  refine ⟨1 / (t * n), by unfold rp2sf; simp only; rw [if_neg hc], by positivity, by rw [div_lt_one hp]; exact ht, ?_⟩
  unfold sf2rp
  have h1 : ¬ (n < 0 ∨ 1 / (t * n) < 0 ∨ 1 ≤ 1 / (t * n)) := by
    rintro (h | h | h)
    · linarith
    · have : 0 < 1 / (t * n) := by positivity
      linarith
    · rw [le_div_iff₀ hp] at h; linarith
  have h2 : n * (1 / (t * n)) = 1 / t := by field_simp
  rw [if_neg h1, h2, if_neg (by positivity)]
  simp

/-- **C77 (invalid inputs).**  Exactly the negative rates and the probabilities outside `[0, 1)` have no return period, and
exactly the non-positive rates and the periods with less than one event have no probability. -/
theorem C77_invalid (q t n : α) :
    (sf2rp q n = .nan ↔ n < 0 ∨ q < 0 ∨ 1 ≤ q) ∧ (rp2sf (.val t) n = .nan ↔ n ≤ 0 ∨ t * n < 1) := by
  constructor
  · unfold sf2rp
    by_cases h : n < 0 ∨ q < 0 ∨ 1 ≤ q
    · simp [h]
    · rw [if_neg h]
      split <;> simp [h]
  · unfold rp2sf
    by_cases h : n ≤ 0 ∨ t * n < 1
    · simp [h]
    · simp only [if_neg h]
      simp [h]

/-- **C77 (edge).**  Exactly one event per period gives probability 1, which has no return period: the round trip fails
there. -/
theorem C77_one_event (t n : α) (hn : 0 < n) (ht : t * n = 1) : rp2sf (.val t) n = .val 1 ∧ sf2rp (1 : α) n = .nan := by
  constructor
  · unfold rp2sf
    simp only
    rw [if_neg (by rw [ht]; rintro (h | h) <;> linarith), ht]
    simp
  · unfold sf2rp
    simp

/-- **C77 (rate 0).**  With no events the period is infinite, and no probability is recovered. -/
theorem C77_no_events (q : α) (h0 : 0 ≤ q) (h1 : q < 1) : sf2rp q 0 = .inf ∧ rp2sf (.inf : Flt α) 0 = .nan := by
  constructor
  · unfold sf2rp
    rw [if_neg (by rintro (h | h | h) <;> linarith)]
    simp
  · unfold rp2sf; simp

/-- **C77 (vectors).**  On vectors the functions work elementwise and the round trip holds for vectors of valid
probabilities. -/
theorem C77_vectors (l : List α) (n : α) (hn : 0 < n) (h : ∀ q ∈ l, 0 ≤ q ∧ q < 1) :
    ∃ r, sf2returnperiod (.vec l) n = .ok r ∧ returnperiod2sf (.vec r) n = .ok (l.map .val) := by
  refine ⟨_, rfl, ?_⟩
  simp only [returnperiod2sf, List.map_map]
  congr 1
  apply List.map_congr_left
  intro q hq
  exact C77_sf_rp q n hn (h q hq).1 (h q hq).2

/-- **C77 (refuted for scalars).**  A scalar probability or period raises TypeError. -/
theorem C77_scalar_refuted : (∃ q n : ℚ, 0 < q ∧ q < 1 ∧ 0 < n ∧ sf2returnperiod (.scalar q) n = .error .typeError) ∧
    ∃ t n : ℚ, 0 < n ∧ 1 < t * n ∧ returnperiod2sf (.scalar (.val t)) n = .error .typeError :=
  ⟨⟨1 / 2, 1, by norm_num, by norm_num, by norm_num, rfl⟩, ⟨10, 1, by norm_num, by norm_num, rfl⟩⟩

example : sf2rp (1 / 10 : ℚ) (1 / 100) = .val 1000 ∧ rp2sf (.val (1000 : ℚ)) (1 / 100) = .val (1 / 10) := by
  constructor <;> decide +kernel

end Wafo.Stats
