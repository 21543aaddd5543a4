import Verif.RfcCount.Lemmas
import Mathlib.Data.Rat.Defs
import Mathlib.Algebra.Order.Field.Rat
import Mathlib.Tactic.NormNum
import Mathlib.Data.List.Nodup

/-!
Property theorems for rainflow counting, method 2 (C17 - C19, C91).
In the statements `val y k` is the value of the turning point number `k`.
-/

set_option linter.unusedSectionVars false

namespace Wafo.RfcCount

variable {α : Type} [Field α] [LinearOrder α] [IsStrictOrderedRing α]

/-- Value number `k` of the turning points (only used for positions inside the list). -/
def val (y : List α) (k : ℕ) : α := y.getD k 0

theorem val_get (y : List α) (k : ℕ) (hk : k < y.length) : y[k]? = some (val y k) := by
  simp [val, List.getD, List.getElem?_eq_getElem hk]

/-! ### C17 -/

/-- C17, odd number of turning points: all reads stay inside the array, and the result of the
compiled code is that of the checked one, whatever lies behind the array. -/
theorem C17_odd_reads_inside_partial (y : List α) (h : α) (oob : ℕ → α) (hodd : y.length % 2 = 1) :
    findrfc2C y h = .ok (findrfc2 (memory y oob) y.length h) := by
  unfold findrfc2C findrfc2
  apply emitAllC_ok y (memory y oob) y.length _ (fun k hk => memory_get y oob k hk) (by omega)
  intro i hi
  exact List.mem_range.1 hi

example : findrfc2C ([0, 1, 1/2, 2, 0] : List ℚ) 0 = .ok [1, 2, 0, 3] := by decide +kernel

/-- The full claim is false: for an even number of turning points the element after the last one is
always read. -/
theorem C17_refuted (y : List α) (h : α) (heven : y.length % 2 = 0) (hpos : 0 < y.length) :
    findrfc2C y h = .error .oobRead := by
  unfold findrfc2C
  refine emitAllC_error y _ h (y.length / 2 - 1) ?_ _ (List.mem_range.2 (by omega))
  unfold emitC
  have h2 : rd y (2 * (y.length / 2 - 1) + 2) = .error .oobRead := by
    have : y[2 * (y.length / 2 - 1) + 2]? = none := List.getElem?_eq_none (by omega)
    simp [rd, this]
  have h1 : rd y (2 * (y.length / 2 - 1)) = .ok (val y (2 * (y.length / 2 - 1))) := by
    simp [rd, val_get y (2 * (y.length / 2 - 1)) (by omega)]
  rw [h1, h2]
  rfl

example : findrfc2C ([0, 1, 1/2, 2] : List ℚ) 0 = .error .oobRead := by decide +kernel

/-- C17: the stray value never influences the result: it depends only on the array. -/
theorem C17_result_independent_of_memory (y : List α) (h : α) (oob oob' : ℕ → α) :
    findrfc2 (memory y oob) y.length h = findrfc2 (memory y oob') y.length h := by
  unfold findrfc2
  apply List.flatMap_congr
  intro i hi
  apply emit_congr_lt _ _ _ _ _ (List.mem_range.1 hi)
  intro k hk
  have hk' : k < y.length := by omega
  have h1 := memory_get y oob k hk'
  rw [memory_get y oob' k hk'] at h1
  exact (Option.some.inj h1).symm

/-! ### C18 -/

theorem findrfc2_spec (y : ℕ → α) (n : ℕ) (h : α) :
    ∃ low : ℕ → ℕ, (∀ i, i < n / 2 → RainflowMin y (n / 2) i (low i)) ∧
      findrfc2 y n h = (List.range (n / 2)).flatMap
        (fun i => if h ≤ y (2 * i + 1) - y (low i) then cycleOf i (low i) else []) := by
  have hex : ∀ i, ∃ t, i < n / 2 → RainflowMin y (n / 2) i t ∧
      emit y (n / 2) h i = if h ≤ y (2 * i + 1) - y t then cycleOf i t else [] := by
    intro i
    by_cases hi : i < n / 2
    · obtain ⟨t, ht⟩ := emit_spec y (n / 2) h i hi
      exact ⟨t, fun _ => ht⟩
    · exact ⟨0, fun h => absurd h hi⟩
  obtain ⟨low, hlow⟩ := Classical.axiomOfChoice hex
  refine ⟨low, fun i hi => (hlow i hi).1, ?_⟩
  unfold findrfc2
  apply List.flatMap_congr
  intro i hi
  exact (hlow i (List.mem_range.1 hi)).2

/-- C18: for an odd number of turning points `_findrfc` returns, maximum by maximum, the pair formed by
the maximum and its rainflow minimum, in order of time, exactly when its height is at least `h`. -/
theorem C18_rainflow_cycles (y : List α) (h : α) (hodd : y.length % 2 = 1) :
    ∃ low : ℕ → ℕ, (∀ i, i < y.length / 2 → RainflowMin (val y) (y.length / 2) i (low i)) ∧
      findrfc2C y h = .ok ((List.range (y.length / 2)).flatMap (fun i =>
        if h ≤ val y (2 * i + 1) - val y (low i)
        then [min (low i) (2 * i + 1), max (low i) (2 * i + 1)] else [])) := by
  obtain ⟨low, h1, h2⟩ := findrfc2_spec (val y) y.length h
  refine ⟨low, h1, ?_⟩
  unfold findrfc2C
  rw [emitAllC_ok y (val y) y.length _ (fun k hk => val_get y k hk) (by omega) _ _
    (fun i hi => List.mem_range.1 hi)]
  exact congrArg Except.ok h2

example : findrfc2C ([0, 2, 1/2, 1, 1/4, 3, 0] : List ℚ) 1 = .ok [1, 4, 0, 5] := by decide +kernel

/-- The rainflow minimum of a maximum is determined by the signal. -/
theorem C18_minimum_unique (y : List α) (nc i s t : ℕ) (hs : RainflowMin (val y) nc i s)
    (ht : RainflowMin (val y) nc i t) : s = t := by
  obtain ⟨l, r, hl, hr, hc⟩ := hs
  obtain ⟨l', r', hl', hr', hc'⟩ := ht
  obtain rfl := lowest_unique _ _ _ _ hl hl'
  obtain rfl := lowest_unique _ _ _ _ hr hr'
  rcases hc with ⟨h1, h2, rfl⟩ | ⟨h1, rfl⟩
  · rcases hc' with ⟨-, -, rfl⟩ | ⟨h3, -⟩
    · rfl
    · exact absurd ⟨h1, h2⟩ h3
  · rcases hc' with ⟨h3, h4, -⟩ | ⟨-, rfl⟩
    · exact absurd ⟨h3, h4⟩ h1
    · rfl

theorem rainflowMin_even (y : ℕ → α) (nc i t : ℕ) (hi : i < nc) (h : RainflowMin y nc i t) :
    t % 2 = 0 ∧ t < 2 * nc := by
  obtain ⟨l, r, ⟨⟨jl, a1, a2, -⟩, -⟩, ⟨⟨jr, b1, b2, b3, b4⟩, -⟩, hc⟩ := h
  rcases hc with ⟨⟨k, k1, k2, k3⟩, -, rfl⟩ | ⟨-, rfl⟩
  · have : jr < k := by
      by_contra hle
      exact absurd (b4 k k1 (by omega)) (not_lt.2 k3)
    omega
  · omega

theorem mem_cycleOf (i t k : ℕ) : k ∈ cycleOf i t ↔ k = t ∨ k = 2 * i + 1 := by
  unfold cycleOf
  rcases le_total t (2 * i + 1) with h | h
  · simp [min_eq_left h, max_eq_right h]
  · simp [min_eq_right h, max_eq_left h, or_comm]

/-- What `misc.findrfc` does with its precondition tests passed. -/
theorem findrfc_main (y : List α) (oob : ℕ → α) (h a b c : α) (l : List α)
    (hy : y = a :: b :: c :: l) (hab : a ≤ b) (hbc : ¬ (a < b ∧ b < c)) :
    findrfc y oob h = .ok ((findrfc2 (memory y oob) y.length h).insertionSort (· ≤ ·)) := by
  subst hy
  have h1 : ¬ a > b := not_lt.2 hab
  unfold findrfc
  simp only [h1, ↓reduceIte, List.drop_zero, false_and, false_or, hbc, List.length_cons]
  rw [if_neg (by omega)]
  simp

/-- C18 for `misc.findrfc`: for turning points starting with a minimum, the maximum number `i` is
reported exactly when its rainflow cycle has height at least `h`, a minimum exactly when it is the
rainflow minimum of a reported maximum, and nothing else is reported. -/
theorem C18_findrfc_reports (y : List α) (oob : ℕ → α) (h a b c : α) (l : List α)
    (hy : y = a :: b :: c :: l) (hab : a ≤ b) (hbc : ¬ (a < b ∧ b < c)) :
    ∃ r, findrfc y oob h = .ok r ∧ ∃ low : ℕ → ℕ,
      (∀ i, i < y.length / 2 → RainflowMin (memory y oob) (y.length / 2) i (low i)) ∧
      (∀ i, i < y.length / 2 → (2 * i + 1 ∈ r ↔ h ≤ val y (2 * i + 1) - val y (low i))) ∧
      (∀ t, t % 2 = 0 → (t ∈ r ↔
        ∃ i, i < y.length / 2 ∧ low i = t ∧ h ≤ val y (2 * i + 1) - val y t)) ∧
      (∀ t ∈ r, t < y.length) := by
  refine ⟨_, findrfc_main y oob h a b c l hy hab hbc, ?_⟩
  obtain ⟨low, h1, h2⟩ := findrfc2_spec (memory y oob) y.length h
  have hval : ∀ k, k < y.length → memory y oob k = val y k := by
    intro k hk
    have := memory_get y oob k hk
    rw [val_get y k hk] at this
    exact (Option.some.inj this).symm
  have hev : ∀ i, i < y.length / 2 → low i % 2 = 0 ∧ low i < y.length := by
    intro i hi
    have := rainflowMin_even _ _ _ _ hi (h1 i hi)
    exact ⟨this.1, by omega⟩
  have hmem : ∀ t, t ∈ (findrfc2 (memory y oob) y.length h).insertionSort (· ≤ ·) ↔
      ∃ i, i < y.length / 2 ∧ (t = low i ∨ t = 2 * i + 1) ∧
        h ≤ val y (2 * i + 1) - val y (low i) := by
    intro t
    rw [List.mem_insertionSort, h2, List.mem_flatMap]
    constructor
    · rintro ⟨i, hi, ht⟩
      have hi' := List.mem_range.1 hi
      split at ht
      · rename_i hh
        rw [hval _ (by omega), hval _ (hev i hi').2] at hh
        exact ⟨i, hi', (mem_cycleOf _ _ _).1 ht, hh⟩
      · simp at ht
    · rintro ⟨i, hi, ht, hh⟩
      refine ⟨i, List.mem_range.2 hi, ?_⟩
      rw [hval _ (by omega), hval _ (hev i hi).2, if_pos hh]
      exact (mem_cycleOf _ _ _).2 ht
  refine ⟨low, h1, ?_, ?_, ?_⟩
  · intro i hi
    rw [hmem]
    constructor
    · rintro ⟨j, hj, hj2, hj3⟩
      have hij : i = j := by
        rcases hj2 with h | h
        · have := (hev j hj).1; omega
        · omega
      rw [hij]; exact hj3
    · intro hh; exact ⟨i, hi, Or.inr rfl, hh⟩
  · intro t ht
    rw [hmem]
    constructor
    · rintro ⟨i, hi, hi2, hi3⟩
      have hlt : low i = t := by
        rcases hi2 with h | h
        · exact h.symm
        · omega
      exact ⟨i, hi, hlt, by rw [← hlt]; exact hi3⟩
    · rintro ⟨i, hi, rfl, hi3⟩
      exact ⟨i, hi, Or.inl rfl, hi3⟩
  · intro t ht
    obtain ⟨i, hi, hi2, -⟩ := (hmem t).1 ht
    rcases hi2 with rfl | rfl
    · exact (hev i hi).2
    · omega

example : findrfc ([0, 2, 1/2, 1, 1/4, 3, 0] : List ℚ) (fun _ => 7) 1 = .ok [0, 1, 4, 5] := by
  decide +kernel

/-- A leading maximum is ignored: the result is that of the remaining turning points, shifted. -/
theorem C18_leading_maximum (a b c d : α) (l : List α) (oob : ℕ → α) (h : α) (hab : b < a)
    (hbc : b ≤ c) :
    findrfc (a :: b :: c :: d :: l) oob h =
      (findrfc (b :: c :: d :: l) oob h).map (List.map (· + 1)) := by
  have h1 : ¬ b > c := not_lt.2 hbc
  by_cases hcd : b < c ∧ c < d
  · simp [findrfc, hab, hcd, h1, Except.map]
  · have h2 := findrfc_main (b :: c :: d :: l) oob h b c d l rfl hbc hcd
    rw [h2]
    unfold findrfc
    simp only [gt_iff_lt, hab, ↓reduceIte, List.drop_succ_cons, List.drop_zero, List.length_cons]
    rw [if_neg (by omega)]
    have : ¬ ((c < b ∧ d < c) ∨ (b < c ∧ c < d)) := by
      rintro (⟨h3, -⟩ | h3)
      · exact h1 h3
      · exact hcd h3
    rw [if_neg this]
    rfl

/-- Two turning points, minimum first, make the precondition test read a third one: IndexError. -/
theorem C17_two_turning_points (a b h : α) (oob : ℕ → α) (hab : a < b) :
    findrfc [a, b] oob h = .error .indexError := by
  simp [findrfc, not_lt.2 hab.le, hab]

/-! ### C19 -/

theorem findrfc2_nodup (y : ℕ → α) (n : ℕ) (h : α) : (findrfc2 y n h).Nodup := by
  obtain ⟨low, h1, h2⟩ := findrfc2_spec y n h
  rw [h2, List.nodup_flatMap]
  refine ⟨?_, ?_⟩
  · intro i hi
    have := rainflowMin_even y _ _ _ (List.mem_range.1 hi) (h1 i (List.mem_range.1 hi))
    split
    · unfold cycleOf
      rcases le_total (low i) (2 * i + 1) with h | h
      · simp [min_eq_left h, max_eq_right h]; omega
      · simp [min_eq_right h, max_eq_left h]; omega
    · simp
  · have : ∀ i ∈ List.range (n / 2), i < n / 2 := fun i hi => List.mem_range.1 hi
    refine List.Pairwise.imp_of_mem ?_ (List.pairwise_lt_range (n := n / 2))
    intro i j hi hj hij
    rw [Function.onFun, List.disjoint_left]
    intro k hk hk'
    have hi' := this i hi
    have hj' := this j hj
    split at hk
    · split at hk'
      · rw [mem_cycleOf] at hk hk'
        have e1 := (rainflowMin_even y _ _ _ hi' (h1 i hi')).1
        have e2 := (rainflowMin_even y _ _ _ hj' (h1 j hj')).1
        rcases hk with rfl | rfl
        · rcases hk' with hk' | hk'
          · have g2 := h1 j hj'
            rw [← hk'] at g2
            exact rainflowMin_inj y _ i j _ hij hj' (h1 i hi') g2
          · omega
        · rcases hk' with hk' | hk' <;> omega
      · simp at hk'
    · simp at hk

theorem findrfc_sorted_map (l : List ℕ) (ts : ℕ) (h : l.Nodup) :
    ((l.insertionSort (· ≤ ·)).map (· + ts)).Pairwise (· < ·) := by
  rw [List.pairwise_map]
  have h1 : (l.insertionSort (· ≤ ·)).Pairwise (· ≤ ·) := List.pairwise_insertionSort _ l
  have h2 : (l.insertionSort (· ≤ ·)).Pairwise (· ≠ ·) :=
    (List.perm_insertionSort _ l).nodup_iff.2 h
  refine (h1.and h2).imp ?_
  intro a b hab
  obtain ⟨h3, h4⟩ := hab
  omega

/-- C19: every reported cycle is one rise or fall between a minimum (even position) and a maximum (odd
position) inside the array, of height at least `h`. -/
theorem C19_pairs_high_enough (y : List α) (h : α) (hodd : y.length % 2 = 1) (l : List ℕ)
    (hl : findrfc2C y h = .ok l) :
    ∃ ps : List (ℕ × ℕ), l = ps.flatMap (fun p => [p.1, p.2]) ∧ ∀ p ∈ ps, p.1 < p.2 ∧
      p.2 < y.length ∧
      ((p.1 % 2 = 0 ∧ p.2 % 2 = 1 ∧ h ≤ val y p.2 - val y p.1) ∨
       (p.1 % 2 = 1 ∧ p.2 % 2 = 0 ∧ h ≤ val y p.1 - val y p.2)) := by
  obtain ⟨low, h1, h2⟩ := C18_rainflow_cycles y h hodd
  rw [hl] at h2
  cases h2
  refine ⟨(List.range (y.length / 2)).flatMap (fun i =>
        if h ≤ val y (2 * i + 1) - val y (low i)
        then [(min (low i) (2 * i + 1), max (low i) (2 * i + 1))] else []), ?_, ?_⟩
  · rw [List.flatMap_assoc]
    apply List.flatMap_congr
    intro i _
    split <;> simp
  · intro p hp
    obtain ⟨i, hi, hp⟩ := List.mem_flatMap.1 hp
    have hi' := List.mem_range.1 hi
    have he := rainflowMin_even _ _ _ _ hi' (h1 i hi')
    split at hp
    · rename_i hh
      simp only [List.mem_singleton] at hp
      rcases le_total (low i) (2 * i + 1) with hle | hle
      · rw [min_eq_left hle, max_eq_right hle] at hp
        subst hp
        refine ⟨by simp only; omega, by simp only; omega, Or.inl ⟨by simp only; omega,
          by simp only; omega, hh⟩⟩
      · rw [min_eq_right hle, max_eq_left hle] at hp
        subst hp
        refine ⟨by simp only; omega, by simp only; omega, Or.inr ⟨by simp only; omega,
          by simp only; omega, hh⟩⟩
    · simp at hp

/-- C91: whatever the input, the indices returned by `misc.findrfc` are strictly increasing and inside
the array: no turning point is reported twice. -/
theorem C91_findrfc_increasing (y : List α) (oob : ℕ → α) (h : α) (r : List ℕ)
    (hr : findrfc y oob h = .ok r) : r.Pairwise (· < ·) ∧ ∀ k ∈ r, k < y.length := by
  have key : ∀ (y' : List α) (ts : ℕ), y'.length + ts ≤ y.length →
      r = ((findrfc2 (memory y' oob) y'.length h).insertionSort (· ≤ ·)).map (· + ts) →
      r.Pairwise (· < ·) ∧ ∀ k ∈ r, k < y.length := by
    rintro y' ts hts rfl
    refine ⟨findrfc_sorted_map _ ts (findrfc2_nodup _ _ _), ?_⟩
    intro k hk
    obtain ⟨j, hj, rfl⟩ := List.mem_map.1 hk
    rw [List.mem_insertionSort] at hj
    obtain ⟨low, h1, h2⟩ := findrfc2_spec (memory y' oob) y'.length h
    rw [h2] at hj
    obtain ⟨i, hi, hj⟩ := List.mem_flatMap.1 hj
    have hi' := List.mem_range.1 hi
    have := rainflowMin_even _ _ _ _ hi' (h1 i hi')
    split at hj
    · rw [mem_cycleOf] at hj; omega
    · simp at hj
  have nil : r = [] → r.Pairwise (· < ·) ∧ ∀ k ∈ r, k < y.length := by
    rintro rfl; simp
  unfold findrfc at hr
  rcases y with _ | ⟨a, _ | ⟨b, l⟩⟩
  · simp at hr
  · simp at hr
  · simp only at hr
    generalize hts : (if a > b then 1 else 0 : ℕ) = ts at hr
    generalize hy' : (a :: b :: l).drop ts = y' at hr
    have hlen : y'.length + ts ≤ (a :: b :: l).length := by
      rw [← hy', List.length_drop]
      have : ts ≤ 1 := by rw [← hts]; split <;> omega
      simp
      omega
    split at hr
    · exact nil (by simpa using hr.symm)
    · split at hr
      · split at hr
        · simp at hr
        · exact key _ ts hlen (by simpa using hr.symm)
      · split at hr
        · exact nil (by simpa using hr.symm)
        · exact key _ ts hlen (by simpa using hr.symm)
      · exact nil (by simpa using hr.symm)

example : findrfc ([5, 0, 2, 1/2, 2, 0] : List ℚ) (fun _ => 7) 0 = .ok [1, 2, 3, 4] := by
  decide +kernel

end Wafo.RfcCount
