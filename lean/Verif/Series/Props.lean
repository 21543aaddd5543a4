import Verif.Series.Model
import Mathlib.Data.Rat.Defs
import Mathlib.Algebra.Order.Field.Rat
import Mathlib.Tactic.FieldSimp
import Mathlib.Tactic.NormNum
import Mathlib.Algebra.BigOperators.Ring.Finset
import Mathlib.Algebra.BigOperators.Field
import Mathlib.Algebra.BigOperators.NatAntidiagonal

/-!
Properties C41 and C42.
-/

set_option linter.unusedSectionVars false

namespace Wafo.Series

variable {α : Type*} [Field α] [LinearOrder α] [IsStrictOrderedRing α]

/-! ## C41 -/

theorem flatnonzero_lt (m : List Bool) : ∀ i ∈ flatnonzero m, i < m.length := by
  intro i hi
  unfold flatnonzero at hi
  rw [List.mem_filter, List.mem_range] at hi
  exact hi.1

theorem fixNan_length (x : List (Option α)) : (fixNan x).length = x.length := by
  unfold fixNan; dsimp only; split <;> simp

theorem diffNan_length (x : List (Option α)) : (diffNan x).length = x.length - 1 := by
  unfold diffNan; simp

theorem rawInd_lt (x : List (Option α)) (z d dd : Option α) (hx : 2 < x.length) :
    ∀ i ∈ rawInd x z d dd, i < x.length := by
  intro i hi
  have h1 : (diffNan (fixNan x)).length = x.length - 1 := by rw [diffNan_length, fixNan_length]
  have h2 : (diffNan (diffNan (fixNan x))).length = x.length - 2 := by rw [diffNan_length, h1]; omega
  have hj : ∀ (e : List (Option α)) (c : Option α), ∀ i ∈ jumps e c, i ≤ e.length := by
    intro e c i hi
    unfold jumps at hi
    dsimp only at hi
    rcases List.mem_append.1 hi with h | h
    · rw [List.mem_map] at h
      obtain ⟨j, hj, rfl⟩ := h
      have := flatnonzero_lt _ j hj
      simp only [List.length_map] at this
      omega
    · have := flatnonzero_lt _ i h
      simp only [List.length_map] at this
      omega
  have he : ∀ (e : List (Option α)), ∀ i ∈ equalValues e z, i ≤ e.length := by
    intro e i hi
    unfold equalValues at hi
    dsimp only at hi
    have hs : ∀ j ∈ (flatnonzero (diffBool (e.map (fun a => absLeNan a z)))).map (· + 1),
        j + 1 ≤ e.length := by
      intro j hj
      rw [List.mem_map] at hj
      obtain ⟨q, hq, rfl⟩ := hj
      have := flatnonzero_lt _ q hq
      unfold diffBool at this
      simp only [List.length_zipWith, List.length_tail, List.length_map] at this
      omega
    have hm : ∀ j ∈ flatnonzero (e.map (fun a => absLeNan a z)), j + 1 ≤ e.length := by
      intro j hj
      have := flatnonzero_lt _ j hj
      simp only [List.length_map] at this
      omega
    split at hi
    · simp only [List.append_assoc, List.mem_append] at hi
      rcases hi with h | h | h | h
      · rw [List.mem_map] at h
        obtain ⟨q, hq, rfl⟩ := h
        have := hs q hq
        omega
      · rw [List.mem_map] at h
        obtain ⟨q, hq, rfl⟩ := h
        exact hm q hq
      · have := hs i h
        omega
      · rw [List.mem_map] at h
        obtain ⟨q, hq, rfl⟩ := h
        exact hs q hq
    · have := hm i hi
      omega
  unfold rawInd at hi
  dsimp only at hi
  rcases List.mem_append.1 hi with h | h
  · rcases List.mem_append.1 h with h | h
    · have := hj _ _ i h; omega
    · have := hj _ _ i h; omega
  · have := he _ i h; omega

theorem unique_spec (l : List ℕ) : (unique l).Pairwise (· < ·) ∧ ∀ i, i ∈ unique l ↔ i ∈ l := by
  constructor
  · unfold unique
    have h1 : (l.insertionSort (· ≤ ·)).dedup.Pairwise (· ≤ ·) :=
      (List.pairwise_insertionSort (· ≤ ·) l).sublist (List.dedup_sublist _)
    have h2 := List.nodup_dedup (l.insertionSort (· ≤ ·))
    exact (h1.and h2).imp (fun h => lt_of_le_of_ne h.1 h.2)
  · intro i
    unfold unique
    rw [List.mem_dedup]
    exact (List.perm_insertionSort (· ≤ ·) l).mem_iff

/-- **C41.**  For every series of at least three samples (NaN allowed) and all parameters, unless exactly one
index is collected (see `C41_refuted`): both index lists are strictly increasing and in range, and
every sample is in exactly one of them.  In particular no IndexError is raised. -/
theorem C41_partition_partial (x : List (Option α)) (z d dd : Option α) (hx : 2 < x.length)
    (h1 : (rawInd x z d dd).length ≠ 1) :
    ∃ ind indg, findoutliers x z d dd = .ok (ind, indg) ∧
      ind.Pairwise (· < ·) ∧ indg.Pairwise (· < ·) ∧
      (∀ i ∈ ind, i < x.length) ∧ (∀ i ∈ indg, i < x.length) ∧
      (∀ i, i < x.length → (i ∈ ind ↔ i ∉ indg)) := by
  have hraw := rawInd_lt x z d dd hx
  obtain ⟨u1, u2⟩ := unique_spec (rawInd x z d dd)
  unfold findoutliers
  rw [if_pos hx]
  dsimp only
  by_cases hl : 1 < (rawInd x z d dd).length
  · rw [if_pos hl, if_pos]
    · refine ⟨_, _, rfl, u1, ?_, ?_, ?_, ?_⟩
      · exact (List.pairwise_lt_range).filter _
      · intro i hi; exact hraw i ((u2 i).1 hi)
      · intro i hi; rw [List.mem_filter, List.mem_range] at hi; exact hi.1
      · intro i hi
        rw [List.mem_filter, List.mem_range]
        simp [hi]
    · rw [List.all_eq_true]
      intro i hi
      simpa using hraw i ((u2 i).1 hi)
  · rw [if_neg hl]
    have h0 : rawInd x z d dd = [] := by rw [← List.length_eq_zero_iff]; omega
    rw [h0]
    refine ⟨_, _, rfl, by simp, List.pairwise_lt_range, by simp, ?_, ?_⟩
    · intro i hi; simpa using hi
    · intro i hi; simp [hi]

/-- When exactly one index is collected it is reported as spurious *and* as good. -/
theorem C41_single (x : List (Option α)) (z d dd : Option α) (hx : 2 < x.length) (k : ℕ)
    (h : rawInd x z d dd = [k]) :
    findoutliers x z d dd = .ok ([k], List.range x.length) ∧ k ∈ List.range x.length := by
  refine ⟨?_, by rw [List.mem_range]; exact rawInd_lt x z d dd hx k (by rw [h]; simp)⟩
  unfold findoutliers
  rw [if_pos hx]
  simp [h]

/-- Fewer than three samples raise a ValueError. -/
theorem C41_short (x : List (Option α)) (z d dd : Option α) (hx : x.length ≤ 2) :
    findoutliers x z d dd = .error .valueError := by
  unfold findoutliers
  rw [if_neg (by omega)]

/-- **C41 refuted.**  A single jump: sample 2 is in both lists. -/
theorem C41_refuted : findoutliers [some (0 : ℚ), some 1, some 6, some 7] (some 0) (some 2) (some 5)
    = .ok ([2], [0, 1, 2, 3]) := by decide +kernel

example : findoutliers [some (0 : ℚ), some 1, some 8, some 1, some 2] (some 0) (some 2) (some 5)
    = .ok ([1, 2, 3], [0, 4]) := by decide +kernel

/-! ## C42 -/

open Finset

/-- Mean of the samples `x[i - L .. i + L]`. -/
def windowMean (x : List α) (L i : ℕ) : α := (∑ k ∈ range (2 * L + 1), at' x (i - L + k)) / (2 * L + 1)

/-- **C42, what holds for every series.**  The result has the length of the input; a series shorter than the
window is replaced by its mean; otherwise the first `L + 1` values are the mean of the first window (so
point `L` is right), the last `L` values repeat the one before, and the increment between neighbouring
interior points is `(x[i+L] - x[i-L]) / (2 L)`. -/
theorem C42_values_partial (x : List α) (L : ℕ) (hL : 0 < L) :
    ∃ y, movingAverage x L = .ok y ∧ y.length = x.length ∧
      (x.length < 2 * L + 1 → ∀ (i : ℕ) v, y[i]? = some v → v = x.sum / x.length) ∧
      (2 * L + 1 ≤ x.length →
        (∀ (i : ℕ) v, i ≤ L → y[i]? = some v → v = windowMean x L L) ∧
        (∀ (i : ℕ) v w, L < i → i < x.length - L → y[i - 1]? = some v → y[i]? = some w →
          w = v + (at' x (i + L) - at' x (i - L)) / (2 * L)) ∧
        (∀ (i : ℕ), x.length - L ≤ i → i < x.length → y[i]? = y[x.length - L - 1]?)) := by
  have hLz : (0 : ℤ) < (L : ℤ) := by exact_mod_cast hL
  unfold movingAverage
  rw [if_pos hLz]
  dsimp only
  rw [Int.toNat_natCast]
  by_cases hn : x.length < 2 * L + 1
  · rw [if_pos hn]
    refine ⟨_, rfl, by simp, ?_, fun h => by omega⟩
    intro _ i v hv
    rw [List.getElem?_map] at hv
    cases hx : x[i]? with
    | none => rw [hx] at hv; simp at hv
    | some a => rw [hx] at hv; simp at hv; exact hv.symm
  · rw [if_neg hn]
    refine ⟨_, rfl, by simp, fun h => absurd h hn, ?_⟩
    intro hn'
    set g : ℕ → α := fun i => if i < L + 1 then (∑ k ∈ range (2 * L + 1), at' x k) / (2 * L + 1)
      else if i < x.length - L then inner x L i else inner x L (x.length - L - 1) with hg
    have hget : ∀ i, i < x.length → ((List.range x.length).map g)[i]? = some (g i) := by
      intro i hi
      rw [List.getElem?_map, List.getElem?_range hi]; rfl
    have hgL : g L = inner x L L := by
      rw [hg]; dsimp only
      rw [if_pos (by omega)]
      unfold inner
      simp
    refine ⟨?_, ?_, ?_⟩
    · intro i v hi hv
      rw [hget i (by omega)] at hv
      simp only [Option.some.injEq] at hv
      rw [← hv, hg]
      dsimp only
      rw [if_pos (by omega)]
      unfold windowMean
      simp
    · intro i v w h1 h2 hv hw
      rw [hget _ (by omega)] at hv hw
      simp only [Option.some.injEq] at hv hw
      have hgi : g i = inner x L i := by
        rw [hg]; dsimp only; rw [if_neg (by omega), if_pos h2]
      have hgp : g (i - 1) = inner x L (i - 1) := by
        by_cases h : i - 1 = L
        · rw [h, hgL]
        · rw [hg]; dsimp only; rw [if_neg (by omega), if_pos (by omega)]
      rw [← hv, ← hw, hgi, hgp]
      unfold inner
      rw [Finset.sum_Ico_succ_top (by omega), show i - 1 + 1 = i by omega]
      ring
    · intro i h1 h2
      rw [hget i h2, hget _ (by omega)]
      congr 1
      have e1 : g i = inner x L (x.length - L - 1) := by
        rw [hg]; dsimp only; rw [if_neg (by omega), if_neg (by omega)]
      rw [e1]
      by_cases h : x.length - L - 1 = L
      · rw [h, hgL]
      · rw [hg]; dsimp only; rw [if_neg (by omega), if_pos (by omega)]

/-- **C42 on straight lines.**  If the samples lie on a straight line, every interior value is exactly the
mean of its window (which is the sample itself). -/
theorem C42_linear_partial (a b : α) (n L : ℕ) (hL : 0 < L) (hn : 2 * L + 1 ≤ n) :
    ∃ y, movingAverage ((List.range n).map (fun k : ℕ => a + b * (k : α))) L = .ok y ∧
      ∀ (i : ℕ) v, L ≤ i → i < n - L → y[i]? = some v →
        v = windowMean ((List.range n).map (fun k : ℕ => a + b * (k : α))) L i ∧ v = a + b * i := by
  set x := (List.range n).map (fun k : ℕ => a + b * (k : α)) with hx
  have hlen : x.length = n := by simp [hx]
  have hat : ∀ i, i < n → at' x i = a + b * i := by
    intro i hi
    unfold at'
    rw [List.getD_eq_getElem?_getD, hx, List.getElem?_map, List.getElem?_range hi]
    rfl
  have hLα : (0 : α) < L := by exact_mod_cast hL
  have hwin : ∀ i, L ≤ i → i < n - L → windowMean x L i = a + b * i := by
    intro i h1 h2
    unfold windowMean
    have : ∀ k ∈ range (2 * L + 1), at' x (i - L + k) = (a + b * ((i - L : ℕ) : α)) + b * (k : α) := by
      intro k hk
      rw [mem_range] at hk
      rw [hat _ (by omega)]
      push_cast
      ring
    rw [Finset.sum_congr rfl this, Finset.sum_add_distrib, ← Finset.mul_sum, Finset.sum_const,
      card_range]
    have hs : ∀ m : ℕ, (∑ k ∈ range (m + 1), (k : α)) * 2 = (m : α) * (m + 1) := by
      intro m
      induction m with
      | zero => simp
      | succ m ih => rw [Finset.sum_range_succ, add_mul, ih]; push_cast; ring
    have hs2 : (∑ k ∈ range (2 * L + 1), (k : α)) = L * (2 * L + 1) := by
      have := hs (2 * L)
      push_cast at this
      linarith
    rw [hs2, nsmul_eq_mul]
    have h2L : (2 * (L : α) + 1) ≠ 0 := by positivity
    push_cast [Nat.cast_sub h1]
    field_simp
    ring
  obtain ⟨y, e1, e2, _, e4⟩ := C42_values_partial x L hL
  obtain ⟨f1, f2, _⟩ := e4 (by omega)
  refine ⟨y, e1, ?_⟩
  have key : ∀ (d : ℕ), L + d < n - L → y[L + d]? = some (a + b * ((L + d : ℕ) : α)) := by
    intro d
    induction d with
    | zero =>
      intro h
      have hy : y[L]? = some (y[L]'(by omega)) := List.getElem?_eq_getElem (by omega)
      rw [add_zero, hy, f1 L _ le_rfl hy, hwin L le_rfl (by omega)]
    | succ d ih =>
      intro h
      have ihd := ih (by omega)
      have hy : y[L + (d + 1)]? = some (y[L + (d + 1)]'(by omega)) :=
        List.getElem?_eq_getElem (by omega)
      rw [hy, f2 (L + (d + 1)) _ _ (by omega) (by omega) ihd hy, hat _ (by omega), hat _ (by omega)]
      congr 1
      rw [Nat.cast_sub (by omega)]
      push_cast
      field_simp
      ring
  intro i v h1 h2 hv
  have := key (i - L) (by omega)
  rw [show L + (i - L) = i by omega, hv] at this
  simp only [Option.some.injEq] at this
  exact ⟨by rw [hwin i h1 h2]; exact this, this⟩

/-- **C42 refuted.**  The recursion divides by `2 L` and subtracts `x[i-L]` instead of dividing by `2 L + 1`
and subtracting `x[i-L-1]`: at point 2 of this series the value is 1/2, the mean of the window is 1/3. -/
theorem C42_refuted : movingAverage ([0, 0, 0, 1, 1] : List ℚ) 1 = .ok [0, 0, 1 / 2, 1, 1] ∧
    windowMean ([0, 0, 0, 1, 1] : List ℚ) 1 2 = 1 / 3 := by
  constructor <;> decide +kernel

/-- `detrendma` subtracts the moving average: adding both gives the series back. -/
theorem C42_detrend (x : List α) (L : ℕ) (hL : 0 < L) :
    ∃ y d, movingAverage x L = .ok y ∧ detrendma x L = .ok d ∧ List.zipWith (· + ·) d y = x := by
  obtain ⟨y, e1, e2, _⟩ := C42_values_partial x L hL
  refine ⟨y, _, e1, by unfold detrendma; rw [e1]; rfl, ?_⟩
  apply List.ext_getElem?
  intro i
  rw [List.getElem?_zipWith, List.getElem?_zipWith]
  cases hx : x[i]? with
  | none => rfl
  | some a =>
    have hi : i < y.length := by rw [e2]; exact (List.getElem?_eq_some_iff.1 hx).1
    rw [List.getElem?_eq_getElem hi]
    simp

/-- A non-positive window raises a ValueError. -/
theorem C42_bad_window (x : List α) (L : ℤ) (hL : L ≤ 0) : movingAverage x L = .error .valueError := by
  unfold movingAverage
  rw [if_neg (by omega)]

example : movingAverage ([1, 2, 3, 4, 5] : List ℚ) 1 = .ok [2, 2, 3, 4, 4] := by decide +kernel

end Wafo.Series
