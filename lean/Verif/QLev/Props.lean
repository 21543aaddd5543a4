import Verif.QLev.Model
import Mathlib.Data.List.Sort
import Mathlib.Tactic.Linarith
import Mathlib.Tactic.FieldSimp
import Mathlib.Algebra.Order.Field.Rat
import Mathlib.Data.Rat.Floor

/-!
# Properties of `qlevels2` (C309, C310)
-/

set_option linter.unusedSectionVars false

namespace Wafo.QLev

variable {α : Type} [Field α] [LinearOrder α] [IsStrictOrderedRing α] [FloorRing α]

/-- `data` in increasing order. -/
def IsSorted (s data : List α) : Prop := s.Perm data ∧ s.Pairwise (· ≤ ·)

theorem sort_spec (data : List α) : IsSorted (data.insertionSort (· ≤ ·)) data := by
  exact ⟨List.perm_insertionSort _ _, List.pairwise_insertionSort _ _⟩

theorem sorted_unique (s t data : List α) (hs : IsSorted s data) (ht : IsSorted t data) : s = t :=
  List.Perm.eq_of_pairwise (fun a b _ _ => le_antisymm) hs.2 ht.2 (hs.1.trans ht.1.symm)

theorem sorted_get (s : List α) (hs : s.Pairwise (· ≤ ·)) (i j : ℕ) (a b : α) (ha : s[i]? = some a) (hb : s[j]? = some b)
    (hij : i ≤ j) : a ≤ b := by
  obtain ⟨i1, e1⟩ := List.getElem?_eq_some_iff.1 ha
  obtain ⟨i2, e2⟩ := List.getElem?_eq_some_iff.1 hb
  rcases Nat.lt_or_eq_of_le hij with h | rfl
  · rw [← e1, ← e2]; exact List.pairwise_iff_getElem.1 hs _ _ _ _ h
  · rw [← e1, ← e2]

/-- In a sorted list the entries from position `i` on are at least the `i`-th. -/
theorem count_ge (s : List α) (hs : s.Pairwise (· ≤ ·)) (i : ℕ) (a v : α) (ha : s[i]? = some a) (hv : v ≤ a) :
    s.length - i ≤ s.countP (fun w => decide (v ≤ w)) := by
  have h1 : (s.drop i).countP (fun w => decide (v ≤ w)) = (s.drop i).length := by
    rw [List.countP_eq_length]
    intro w hw
    obtain ⟨j, hj, rfl⟩ := List.getElem_of_mem hw
    rw [List.getElem_drop]
    simp only [decide_eq_true_eq]
    exact hv.trans (sorted_get s hs i (i + j) _ _ ha (List.getElem?_eq_getElem (by rw [List.length_drop] at hj; omega))
      (by omega))
  have h2 := (List.drop_sublist i s).countP_le (p := fun w => decide (v ≤ w))
  rw [h1, List.length_drop] at h2
  exact h2

/-- In a sorted list at most the entries after position `i` exceed the `i`-th. -/
theorem count_gt (s : List α) (hs : s.Pairwise (· ≤ ·)) (i : ℕ) (a v : α) (ha : s[i]? = some a) (hv : a ≤ v) :
    s.countP (fun w => decide (v < w)) ≤ s.length - (i + 1) := by
  have hi := (List.getElem?_eq_some_iff.1 ha).1
  have h1 : (s.take (i + 1)).countP (fun w => decide (v < w)) = 0 := by
    rw [List.countP_eq_zero]
    intro w hw
    obtain ⟨j, hj, rfl⟩ := List.getElem_of_mem hw
    rw [List.getElem_take]
    simp only [decide_eq_true_eq, not_lt]
    rw [List.length_take] at hj
    exact (sorted_get s hs j i _ _ (List.getElem?_eq_getElem (by omega)) ha (by omega)).trans hv
  have h2 : s.countP (fun w => decide (v < w)) = (s.take (i + 1)).countP (fun w => decide (v < w)) +
      (s.drop (i + 1)).countP (fun w => decide (v < w)) := by
    rw [← List.countP_append, List.take_append_drop]
  rw [h2, h1, zero_add]
  refine List.countP_le_length.trans ?_
  rw [List.length_drop]

/-- **C309**  For every method and `0 ≤ p ≤ 100` the level encloses `p` per cent of the `n` data: more than `p/100 (n-1)` of them
are at or above it and fewer than `p/100 (n-1) + 1` above it. -/
theorem C309_encloses (data : List α) (hd : data ≠ []) (p : α) (h0 : 0 ≤ p) (h1 : p ≤ 100) (method : ℕ)
    (hm : 0 < method ∧ method < 5) :
    ∃ v, qlevels2 data p method = .ok v ∧ p / 100 * ((data.length : α) - 1) < data.countP (fun w => decide (v ≤ w)) ∧
      (data.countP (fun w => decide (v < w)) : α) < p / 100 * ((data.length : α) - 1) + 1 := by
  unfold qlevels2 percentile
  rw [if_pos hm, if_neg (by push Not; constructor <;> linarith)]
  dsimp only
  set s := data.insertionSort (· ≤ ·) with hs
  obtain ⟨hperm, hsort⟩ := sort_spec data
  have hlen : s.length = data.length := hperm.length_eq
  obtain ⟨n, hn⟩ : ∃ n, data.length = n + 1 := ⟨data.length - 1, by
    have := List.length_pos_iff.2 hd; omega⟩
  have hcast : (data.length : α) - 1 = n := by rw [hn]; push_cast; ring
  rw [hcast]
  set h := (100 - p) / 100 * (n : α) with hh
  have hn0 : (0 : α) ≤ n := by positivity
  have hh0 : 0 ≤ h := mul_nonneg (by linarith) hn0
  have hhn : h ≤ n := by
    have : (100 - p) / 100 ≤ 1 := by rw [div_le_one (by norm_num)]; linarith
    nlinarith
  have hf0 : 0 ≤ ⌊h⌋ := Int.floor_nonneg.2 hh0
  have hcn : ⌈h⌉ ≤ (n : ℤ) := Int.ceil_le.2 (by exact_mod_cast hhn)
  have hfc : ⌊h⌋ ≤ ⌈h⌉ := Int.floor_le_ceil h
  have g1 : s[⌊h⌋.toNat]? = some (s[⌊h⌋.toNat]'(by omega)) := List.getElem?_eq_getElem _
  have g2 : s[⌈h⌉.toNat]? = some (s[⌈h⌉.toNat]'(by omega)) := List.getElem?_eq_getElem _
  set a := s[⌊h⌋.toNat]'(by omega) with ha
  set b := s[⌈h⌉.toNat]'(by omega) with hb
  have hab : a ≤ b := sorted_get s hsort _ _ a b g1 g2 (by omega)
  rw [g1, g2]
  dsimp only
  have ht0 : 0 ≤ h - ⌊h⌋ := sub_nonneg.2 (Int.floor_le h)
  have ht1 : h - ⌊h⌋ ≤ 1 := by have := Int.lt_floor_add_one h; linarith
  obtain ⟨v, hv, hav, hvb⟩ : ∃ v, (if method = 1 then a + (b - a) * (h - ⌊h⌋) else if method = 2 then (a + b) / 2 else
      if method = 3 then a else b) = v ∧ a ≤ v ∧ v ≤ b := by
    refine ⟨_, rfl, ?_, ?_⟩
    · split_ifs
      · nlinarith
      · linarith
      · exact le_rfl
      · exact hab
    · split_ifs
      · nlinarith
      · linarith
      · exact hab
      · exact le_rfl
  rw [hv]
  refine ⟨v, rfl, ?_, ?_⟩
  · have c1 := count_ge s hsort _ b v g2 hvb
    rw [hperm.countP_eq, hlen, hn] at c1
    have c2 : ((n : α) + 1) - (⌈h⌉ : α) ≤ (data.countP (fun w => decide (v ≤ w)) : α) := by
      have : ((n : ℤ) + 1) - ⌈h⌉ ≤ (data.countP (fun w => decide (v ≤ w)) : ℤ) := by omega
      exact_mod_cast this
    have c3 := Int.ceil_lt_add_one h
    have e : p / 100 * (n : α) = n - h := by rw [hh]; ring
    rw [e]; linarith
  · have c1 := count_gt s hsort _ a v g1 hav
    rw [hperm.countP_eq, hlen, hn] at c1
    have c2 : (data.countP (fun w => decide (v < w)) : α) ≤ (n : α) - (⌊h⌋ : α) := by
      have : (data.countP (fun w => decide (v < w)) : ℤ) ≤ (n : ℤ) - ⌊h⌋ := by omega
      exact_mod_cast this
    have c3 := Int.lt_floor_add_one h
    have e : p / 100 * (n : α) = n - h := by rw [hh]; ring
    rw [e]; linarith

/-- The level of 30 per cent of five numbers. -/
example : qlevels2 [(3 : ℚ), 1, 5, 2, 4] 30 1 = .ok (19 / 5) := by decide +kernel

theorem percentile_at (method : ℕ) (data s : List α) (hs : IsSorted s data) (q : α) (h0 : 0 ≤ q) (h1 : q ≤ 100) (k : ℕ) (v : α)
    (hv : s[k]? = some v)
    (h : (q / 100 * ((data.length : α) - 1) = k ∧ method = 1) ∨
      (⌊q / 100 * ((data.length : α) - 1)⌋ = (k : ℤ) ∧ method = 3 ∧ q / 100 * ((data.length : α) - 1) ≤ (data.length : α) - 1) ∨
      (⌈q / 100 * ((data.length : α) - 1)⌉ = (k : ℤ) ∧ method = 4)) :
    percentile method data q = .ok v := by
  unfold percentile
  rw [if_neg (by push Not; exact ⟨h0, h1⟩)]
  dsimp only
  rw [sorted_unique _ s data (sort_spec data) hs]
  have hk := (List.getElem?_eq_some_iff.1 hv).1
  have hlen := hs.1.length_eq
  rcases h with ⟨h, rfl⟩ | ⟨h, rfl, hle⟩ | ⟨h, rfl⟩
  · rw [h, Int.floor_natCast, Int.ceil_natCast, Int.toNat_natCast, hv]
    simp
  · rw [h, Int.toNat_natCast, hv]
    have hc : ⌈q / 100 * ((data.length : α) - 1)⌉ ≤ (data.length : ℤ) - 1 := Int.ceil_le.2 (by push_cast; exact hle)
    rw [List.getElem?_eq_getElem (show ⌈q / 100 * ((data.length : α) - 1)⌉.toNat < s.length by omega)]
    simp
  · have hf : ⌊q / 100 * ((data.length : α) - 1)⌋ ≤ (k : ℤ) := by rw [← h]; exact Int.floor_le_ceil _
    rw [h, Int.toNat_natCast, hv,
      List.getElem?_eq_getElem (show ⌊q / 100 * ((data.length : α) - 1)⌋.toNat < s.length by omega)]
    simp

/-- **C310**  With `F = 1 - p/100` and `X` the data in increasing order, the level is `X[k]` where the docstring says:
`F = k/(n-1)` for method 1, `F = (k+1)/n` for method 3 and `F = k/n` for method 4. -/
theorem C310_positions_partial (data s : List α) (hs : IsSorted s data) (k : ℕ) (v : α) (hv : s[k]? = some v) :
    (2 ≤ data.length → qlevels2 data (100 * (1 - k / ((data.length : α) - 1))) 1 = .ok v) ∧
    qlevels2 data (100 * (1 - (k + 1) / (data.length : α))) 3 = .ok v ∧
    qlevels2 data (100 * (1 - k / (data.length : α))) 4 = .ok v := by
  have hk := (List.getElem?_eq_some_iff.1 hv).1
  have hlen := hs.1.length_eq
  have hn : (0 : α) < data.length := by exact_mod_cast (by omega : 0 < data.length)
  have hk1 : (k : α) + 1 ≤ data.length := by exact_mod_cast (by omega : k + 1 ≤ data.length)
  have hk0 : (0 : α) ≤ k := by positivity
  have hq : ∀ F : α, 100 - 100 * (1 - F) = 100 * F := fun F => by ring
  have hF : ∀ F : α, 100 * F / 100 = F := fun F => by field_simp
  refine ⟨?_, ?_, ?_⟩
  · intro h2
    have hn1 : (0 : α) < (data.length : α) - 1 := by
      have : (2 : α) ≤ data.length := by exact_mod_cast h2
      linarith
    unfold qlevels2
    rw [if_pos (by omega), hq]
    refine percentile_at 1 data s hs _ (by positivity) ?_ k v hv (Or.inl ⟨?_, rfl⟩)
    · have : (k : α) / ((data.length : α) - 1) ≤ 1 := by rw [div_le_one hn1]; linarith
      linarith
    · rw [hF]; field_simp
  · unfold qlevels2
    rw [if_pos (by omega), hq]
    have e : ((k : α) + 1) / data.length * ((data.length : α) - 1) = k + (1 - (k + 1) / data.length) := by
      field_simp
      ring
    have b1 : ((k : α) + 1) / data.length ≤ 1 := by rw [div_le_one hn]; exact hk1
    have b0 : 0 < ((k : α) + 1) / data.length := by positivity
    refine percentile_at 3 data s hs _ (by positivity) (by linarith) k v hv (Or.inr (Or.inl ⟨?_, rfl, ?_⟩))
    · rw [hF, e, Int.floor_eq_iff]
      push_cast
      constructor <;> linarith
    · rw [hF]
      exact mul_le_of_le_one_left (by linarith) b1
  · unfold qlevels2
    rw [if_pos (by omega), hq]
    have e : (k : α) / data.length * ((data.length : α) - 1) = k - k / data.length := by
      field_simp
    have b1 : (k : α) / data.length < 1 := by rw [div_lt_one hn]; linarith
    have b0 : 0 ≤ (k : α) / data.length := by positivity
    refine percentile_at 4 data s hs _ (by positivity) (by linarith) k v hv (Or.inr (Or.inr ⟨?_, rfl⟩))
    rw [hF, e, Int.ceil_eq_iff]
    push_cast
    constructor <;> linarith

example : IsSorted [(1 : ℚ), 2, 3, 4, 5] [3, 1, 5, 2, 4] := ⟨by decide +kernel, by decide +kernel⟩

/-- **C310**  (refuted)  Method 2 does not put `X[k]` at `F = (k + 1/2)/n`: for the data 0, 1 the level at `F = 1/4` is 1/2. -/
theorem C310_midpoint_refuted : ∃ data : List ℚ, IsSorted data data ∧ data[0]? = some 0 ∧
    qlevels2 data (100 * (1 - (0 + 1 / 2) / (data.length : ℚ))) 2 = .ok (1 / 2) :=
  ⟨[0, 1], ⟨List.Perm.refl _, by decide +kernel⟩, rfl, by decide +kernel⟩

end Wafo.QLev
