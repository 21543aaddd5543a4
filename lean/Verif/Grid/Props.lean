import Verif.Grid.Lemmas1
import Mathlib.Data.Rat.Floor
import Mathlib.Algebra.Order.Field.Rat
import Mathlib.Tactic.NormNum

set_option linter.unusedSectionVars false

/-! Properties of one-dimensional linear binning (C52, C53, C54). -/

namespace Wafo.Grid

variable {α : Type*} [Field α] [LinearOrder α] [IsStrictOrderedRing α] [FloorRing α]

private theorem core (a h : α) (hh : 0 < h) (n : ℕ) (hn : 2 ≤ n) (data y ys : List α)
    (hd : data ≠ []) (hin : ∀ d ∈ data, a ≤ d ∧ d < a + ((n - 1 : ℕ) : α) * h)
    (hy : broadcast data.length y = .ok ys) (hl : ys.length = data.length) (hy0 : ∀ v ∈ ys, 0 ≤ v) :
    ∃ c, gridcount1 data (ugrid a h n) y = .ok c ∧ c.length = n ∧ (∀ v ∈ c, 0 ≤ v) ∧ c.sum = ys.sum ∧
      (List.zipWith (· * ·) c (ugrid a h n)).sum = (List.zipWith (· * ·) ys data).sum := by
  have hsp : ∀ p ∈ data.zip ys, _ := fun p hp =>
    cell_spec a h p.1 hh n hn (hin _ (List.of_mem_zip hp).1).1 (hin _ (List.of_mem_zip hp).1).2
  have hb1 : ∀ q ∈ (data.zip ys).map (pts a h), q.1.1 < n := by
    intro q hq
    obtain ⟨p, hp, rfl⟩ := List.mem_map.1 hq
    have := (hsp p hp).2.1
    simp only [pts]; omega
  have hb2 : ∀ q ∈ (data.zip ys).map (pts a h), q.2.1 < n := by
    intro q hq
    obtain ⟨p, hp, rfl⟩ := List.mem_map.1 hq
    exact (hsp p hp).2.1
  refine ⟨_, gridcount1_eq a h hh n hn data y ys hd hin hy, by simp [bincount_length], ?_, ?_, ?_⟩
  · intro v hv
    obtain ⟨i, hi, rfl⟩ := List.getElem_of_mem hv
    rw [List.getElem_zipWith]
    refine div_nonneg (add_nonneg ?_ ?_) hh.le
    · refine bincount_nonneg _ _ ?_ _ (List.getElem_mem _)
      intro q hq
      simp only [List.map_map, List.mem_map, Function.comp] at hq
      obtain ⟨p, hp, rfl⟩ := hq
      have := (hsp p hp).2.2.2
      exact mul_nonneg (by linarith) (hy0 _ (List.of_mem_zip hp).2)
    · refine bincount_nonneg _ _ ?_ _ (List.getElem_mem _)
      intro q hq
      simp only [List.map_map, List.mem_map, Function.comp] at hq
      obtain ⟨p, hp, rfl⟩ := hq
      have := (hsp p hp).2.2.1
      exact mul_nonneg (by linarith) (hy0 _ (List.of_mem_zip hp).2)
  · have e := grid_sum h n (fun _ => 1) _ hb1 hb2
    have e2 : ∀ c : List α, c.length = n →
        (List.zipWith (fun (u : α) (_ : ℕ) => u * 1) c (List.range n)) = c := by
      intro c hc
      apply List.ext_getElem
      · simp [hc]
      · intros; simp
    rw [e2 _ (by simp [bincount_length])] at e
    rw [e, List.map_map]
    have : (data.zip ys).map ((fun p : (ℕ × α) × (ℕ × α) => (p.1.2 * 1 + p.2.2 * 1) / h) ∘ pts a h)
        = (data.zip ys).map Prod.snd := by
      apply List.map_congr_left
      intro p _
      simp only [Function.comp, pts]
      push_cast
      field_simp
      ring
    rw [this, List.map_snd_zip hl.le]
  · have e := grid_sum h n (fun k => a + (k : α) * h) _ hb1 hb2
    have e2 : ∀ c : List α, (List.zipWith (fun (u : α) (k : ℕ) => u * (a + (k : α) * h)) c (List.range n))
        = List.zipWith (· * ·) c (ugrid a h n) := by
      intro c
      rw [ugrid, List.zipWith_map_right]
    rw [e2] at e
    rw [e, List.map_map]
    have : (data.zip ys).map ((fun p : (ℕ × α) × (ℕ × α) =>
        (p.1.2 * (a + (p.1.1 : α) * h) + p.2.2 * (a + (p.2.1 : α) * h)) / h) ∘ pts a h)
        = List.zipWith (· * ·) ys data := by
      rw [List.zip, List.map_zipWith]
      apply List.ext_getElem
      · simp [hl]
      · intro i _ _
        simp only [List.getElem_zipWith, Function.comp, pts]
        push_cast
        field_simp
        ring
    rw [this]

/-- **C52** (part: equidistant grid, data strictly below the last grid point).  For one non-negative weight per
datum the grid weights are non-negative and sum to the total weight.  The full claim fails for other grids,
see `C52_refuted_nonuniform`. -/
theorem C52_gridcount_mass_partial (a h : α) (hh : 0 < h) (n : ℕ) (hn : 2 ≤ n) (data y : List α)
    (hd : data ≠ []) (hin : ∀ d ∈ data, a ≤ d ∧ d < a + ((n - 1 : ℕ) : α) * h)
    (hy : y.length = data.length) (hy0 : ∀ v ∈ y, 0 ≤ v) :
    ∃ c, gridcount1 data (ugrid a h n) y = .ok c ∧ c.length = n ∧ (∀ v ∈ c, 0 ≤ v) ∧ c.sum = y.sum := by
  have hb : broadcast data.length y = .ok y := by
    unfold broadcast
    split
    · rename_i v; simp at hy; rw [← hy]; rfl
    · simp [hy]
  obtain ⟨c, h1, h2, h3, h4, -⟩ := core a h hh n hn data y y hd hin hb hy hy0
  exact ⟨c, h1, h2, h3, h4⟩

/-- **C52** (same part) for the default call `gridcount(data, X)`: the grid weights sum to the sample size. -/
theorem C52_gridcount_size_partial (a h : α) (hh : 0 < h) (n : ℕ) (hn : 2 ≤ n) (data : List α)
    (hd : data ≠ []) (hin : ∀ d ∈ data, a ≤ d ∧ d < a + ((n - 1 : ℕ) : α) * h) :
    ∃ c, gridcount1 data (ugrid a h n) [1] = .ok c ∧ c.length = n ∧ (∀ v ∈ c, 0 ≤ v) ∧
      c.sum = (data.length : α) := by
  obtain ⟨c, h1, h2, h3, h4, -⟩ := core a h hh n hn data [1] (List.replicate data.length 1) hd hin rfl
    (by simp) (by simp)
  exact ⟨c, h1, h2, h3, by simpa using h4⟩

/-- **C52**  A number of weights that is neither one nor the number of data raises ValueError. -/
theorem C52_weights_rejected (a h : α) (hh : 0 < h) (n : ℕ) (hn : 2 ≤ n) (data y : List α)
    (hd : data ≠ []) (hin : ∀ d ∈ data, a ≤ d ∧ d < a + ((n - 1 : ℕ) : α) * h)
    (h1 : y.length ≠ 1) (h2 : y.length ≠ data.length) :
    gridcount1 data (ugrid a h n) y = .error .valueError := by
  have hlast := ugrid_getLast a h n hn
  obtain ⟨t, ht⟩ := ugrid_cons a h n hn
  rw [ht] at hlast ⊢
  unfold gridcount1
  simp only [hlast]
  have hdx : ¬ (a + h - a = 0) := by rw [add_sub_cancel_left]; exact hh.ne'
  have hout : ¬ (data.any (fun d => decide (d < a) || decide (a + ((n - 1 : ℕ) : α) * h < d)) = true) := by
    simp only [List.any_eq_true, Bool.or_eq_true, decide_eq_true_eq, not_exists, not_and, not_or, not_lt]
    exact fun d hd => ⟨(hin d hd).1, (hin d hd).2.le⟩
  have hb : broadcast data.length y = .error .valueError := by
    unfold broadcast
    split
    · simp at h1
    · rw [if_neg h2]
  rw [if_neg hd, if_neg hout, if_neg hdx, hb]

example : gridcount1 [(1 / 2 : ℚ), 1] (ugrid 0 1 4) [1, 2, 3] = .error .valueError :=
  C52_weights_rejected 0 1 one_pos 4 (by norm_num) _ _ (by simp) (by norm_num) (by simp) (by simp)

/-- **C52** negated for a grid that is not equidistant: the single datum `3/2` on the grid `0, 1, 3` gets the
total weight 2. -/
theorem C52_refuted_nonuniform :
    ∃ c, gridcount1 [(3 / 2 : ℚ)] [0, 1, 3] [1] = .ok c ∧ c.sum ≠ 1 := by
  refine ⟨[0, 3 / 2, 1 / 2], by decide +kernel, by decide +kernel⟩

/-- **C53**  On an equidistant grid the first moment of the grid weights is the first moment of the data, for
weighted data and (with the mass) for the default call. -/
theorem C53_gridcount_mean (a h : α) (hh : 0 < h) (n : ℕ) (hn : 2 ≤ n) (data : List α)
    (hd : data ≠ []) (hin : ∀ d ∈ data, a ≤ d ∧ d < a + ((n - 1 : ℕ) : α) * h) :
    (∀ y : List α, y.length = data.length → (∀ v ∈ y, 0 ≤ v) →
      ∃ c, gridcount1 data (ugrid a h n) y = .ok c ∧
        (List.zipWith (· * ·) c (ugrid a h n)).sum = (List.zipWith (· * ·) y data).sum) ∧
    ∃ c, gridcount1 data (ugrid a h n) [1] = .ok c ∧
      (List.zipWith (· * ·) c (ugrid a h n)).sum / c.sum = data.sum / (data.length : α) := by
  constructor
  · intro y hy hy0
    have hb : broadcast data.length y = .ok y := by
      unfold broadcast
      split
      · rename_i v; simp at hy; rw [← hy]; rfl
      · simp [hy]
    obtain ⟨c, h1, -, -, -, h5⟩ := core a h hh n hn data y y hd hin hb hy hy0
    exact ⟨c, h1, h5⟩
  · obtain ⟨c, h1, h2, h3, h4, h5⟩ := core a h hh n hn data [1] (List.replicate data.length 1) hd hin rfl
      (by simp) (by simp)
    refine ⟨c, h1, ?_⟩
    rw [h4, h5]
    have e : List.zipWith (· * ·) (List.replicate data.length (1 : α)) data = data := by
      apply List.ext_getElem
      · simp
      · intros; simp
    rw [e]; simp

/-- **C54** negated: as soon as one datum equals the last grid point (and all lie within the closed range), the
call raises IndexError, whatever the grid size and weights. -/
theorem C54_upper_edge_raises (a h : α) (hh : 0 < h) (n : ℕ) (hn : 2 ≤ n) (data y : List α)
    (hin : ∀ d ∈ data, a ≤ d ∧ d ≤ a + ((n - 1 : ℕ) : α) * h)
    (hmem : a + ((n - 1 : ℕ) : α) * h ∈ data) (hy : y.length = data.length) :
    gridcount1 data (ugrid a h n) y = .error .indexError := by
  have hd : data ≠ [] := List.ne_nil_of_mem hmem
  have hb : broadcast data.length y = .ok y := by
    unfold broadcast
    split
    · rename_i v; simp at hy; rw [← hy]; rfl
    · simp [hy]
  have hlast := ugrid_getLast a h n hn
  have hup : ∀ v : α, contrib (ugrid a h n) a h (a + ((n - 1 : ℕ) : α) * h) v = .error .indexError := by
    intro v
    have e : (a + ((n - 1 : ℕ) : α) * h - a) / h = ((n - 1 : ℕ) : α) := by field_simp; ring
    unfold contrib
    simp only [e, Int.floor_natCast]
    rw [show ((n - 1 : ℕ) : ℤ) + 1 = ((n : ℕ) : ℤ) by omega]
    rw [pyGet_none _ n (by rw [ugrid_length])]
  have hok : ∀ p ∈ data.zip y, (∃ c, contrib (ugrid a h n) a h p.1 p.2 = .ok c) ∨
      contrib (ugrid a h n) a h p.1 p.2 = .error .indexError := by
    intro p hp
    have hm := hin _ (List.of_mem_zip hp).1
    rcases hm.2.lt_or_eq with hlt | heq
    · exact Or.inl ⟨_, contrib_ok a h p.1 p.2 hh n hn hm.1 hlt⟩
    · right; rw [heq]; exact hup _
  have hex : ∃ p ∈ data.zip y, contrib (ugrid a h n) a h p.1 p.2 = .error .indexError := by
    obtain ⟨i, hi, he⟩ := List.getElem_of_mem hmem
    refine ⟨(data[i], y[i]'(by omega)), ?_, ?_⟩
    · rw [show (data[i], y[i]'(by omega)) = (data.zip y)[i]'(by simp [hy, hi]) by simp]
      exact List.getElem_mem _
    · simp only [he]; exact hup _
  obtain ⟨t, ht⟩ := ugrid_cons a h n hn
  rw [ht] at hlast hok hex ⊢
  unfold gridcount1
  simp only [hlast]
  rw [if_neg hd, if_neg]
  · have e : a + h - a = h := by ring
    simp only [e]
    rw [if_neg hh.ne']
    simp only [hb]
    rw [mapM_error _ .indexError _ hok hex]
  · simp only [List.any_eq_true, Bool.or_eq_true, decide_eq_true_eq, not_exists, not_and, not_or, not_lt]
    intro d hdm
    exact hin d hdm

/-- **C54** (what holds): data outside the closed grid range is rejected with ValueError. -/
theorem C54_outside_rejected_partial (a h : α) (n : ℕ) (hn : 2 ≤ n) (data y : List α)
    (hout : ∃ d ∈ data, d < a ∨ a + ((n - 1 : ℕ) : α) * h < d) :
    gridcount1 data (ugrid a h n) y = .error .valueError := by
  have hlast := ugrid_getLast a h n hn
  obtain ⟨t, ht⟩ := ugrid_cons a h n hn
  obtain ⟨d, hd, ho⟩ := hout
  rw [ht] at hlast ⊢
  unfold gridcount1
  simp only [hlast]
  rw [if_neg (List.ne_nil_of_mem hd), if_pos]
  simp only [List.any_eq_true, Bool.or_eq_true, decide_eq_true_eq]
  exact ⟨d, hd, ho⟩

/-- Instance of C52/C53: the hypotheses hold for data `1/2, 1, 9/4` on `0, 1, 2, 3`. -/
example : gridcount1 [(1 / 2 : ℚ), 1, 9 / 4] (ugrid 0 1 4) [1] = .ok [1 / 2, 3 / 2, 3 / 4, 1 / 4] := by
  decide +kernel

/-- Instance of C54. -/
example : gridcount1 [(1 / 2 : ℚ), 3] (ugrid 0 1 4) [1, 1] = .error .indexError := by decide +kernel

end Wafo.Grid
