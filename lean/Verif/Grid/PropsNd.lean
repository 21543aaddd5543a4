import Verif.Grid.LemmasNd
import Mathlib.Data.Rat.Floor
import Mathlib.Algebra.Order.Field.Rat
import Mathlib.Data.Fin.VecNotation

set_option linter.unusedSectionVars false

/-! Properties of linear binning in several dimensions (C92, C93). -/

namespace Wafo.Grid

open Finset

variable {α : Type*} [Field α] [LinearOrder α] [IsStrictOrderedRing α] [FloorRing α]

theorem double_sum {β γ : Type*} (l : List β) (m : List γ) (f : β → γ → α) :
    (l.map (fun b => (m.map (f b)).sum)).sum = (m.map (fun c => (l.map (fun b => f b c)).sum)).sum := by
  induction l with
  | nil => simp
  | cons b l ih =>
    simp only [List.map_cons, List.sum_cons]
    rw [ih, List.sum_map_add]

theorem sum_flatten_map (L : List (List (ℕ × α))) (f : ℕ × α → α) :
    (L.flatten.map f).sum = (L.map (fun l => (l.map f).sum)).sum := by
  induction L with
  | nil => simp
  | cons l L ih => simp only [List.flatten_cons, List.map_append, List.sum_append, List.map_cons, List.sum_cons, ih]

/-- **C92**  In any number `d >= 2` of dimensions, on an equidistant grid with `inc` points per dimension and for
data below the last grid point in every dimension, `gridcount` succeeds, the grid weights are non-negative, sum to
the total weight of the data, and have the first moments of the data in every dimension.  (`i / inc^k % inc` is
the index along dimension `k` of the grid point with flat index `i`.) -/
theorem C92_gridcountNd_mass_mean {d : ℕ} (hd : 2 ≤ d) (inc : ℕ) (hn : 2 ≤ inc) (a h : Fin d → α)
    (hh : ∀ j, 0 < h j) (data : List (Fin d → α)) (y : List α) (hne : data ≠ [])
    (hin : ∀ dat ∈ data, ∀ j, a j ≤ dat j ∧ dat j < a j + ((inc - 1 : ℕ) : α) * h j)
    (hy : y.length = data.length) (hy0 : ∀ v ∈ y, 0 ≤ v) :
    ∃ c, gridcountNd inc data (fun j => ugrid (a j) (h j) inc) y = .ok c ∧ c.length = inc ^ d ∧
      (∀ v ∈ c, 0 ≤ v) ∧ c.sum = y.sum ∧
      ∀ k : Fin d, (List.zipWith (fun (v : α) (i : ℕ) =>
          v * (a k + ((i / inc ^ (k : ℕ) % inc : ℕ) : α) * h k)) c (List.range (inc ^ d))).sum
        = (List.zipWith (fun (w : α) dat => w * dat k) y data).sum := by
  have hb : broadcast data.length y = .ok y := by
    unfold broadcast
    split
    · rename_i v; simp at hy; rw [← hy]; rfl
    · simp [hy]
  have hP : (0 : α) < ∏ j, h j := Finset.prod_pos (fun j _ => hh j)
  let g : (Fin d → ℕ) → (Fin d → α) × α → ℕ × α := fun o p =>
    (lidx inc a h p.1 o, (∏ j, cw (a j) (h j) (p.1 j) (o j)) * p.2)
  let cs := (corners d).map (fun o => (data.zip y).map (g o))
  have hu0 : ∀ j, (ugrid (a j) (h j) inc).headD 0 = a j := by
    intro j
    obtain ⟨t, ht⟩ := ugrid_cons (a j) (h j) inc hn
    rw [ht]; rfl
  have hdx : ∀ j, (ugrid (a j) (h j) inc).getD 1 0 - (ugrid (a j) (h j) inc).getD 0 0 = h j := by
    intro j
    obtain ⟨t, ht⟩ := ugrid_cons (a j) (h j) inc hn
    rw [ht]; simp
  have hrun : gridcountNd inc data (fun j => ugrid (a j) (h j) inc) y
      = .ok ((bincount (inc ^ d) cs.flatten).map (fun v => v / ∏ j, h j)) := by
    unfold gridcountNd
    rw [if_neg, if_neg]
    · simp only [hdx, hu0]
      rw [if_neg (by rintro ⟨j, hj⟩; exact (hh j).ne' hj)]
      simp only [hb]
      rw [mapM_ok _ (fun o => (data.zip y).map (g o)) (corners d)]
      intro o ho
      apply mapM_ok
      intro p hp
      exact contribNd_ok inc hn a h hh p.1 (hin _ (List.of_mem_zip hp).1) o (corners_le d o ho) p.2
    · simp only [List.any_eq_true, decide_eq_true_eq, not_exists, not_and, not_or, not_lt]
      intro dat hdat j
      rw [hu0, ugrid_getLast _ _ _ hn]
      exact ⟨(hin dat hdat j).1, (hin dat hdat j).2.le⟩
    · simp only [not_or, not_exists, ugrid_length]
      exact ⟨hne, by omega, by simp⟩
  have hmem : ∀ q ∈ cs.flatten, ∃ o ∈ corners d, ∃ p ∈ data.zip y, q = g o p := by
    intro q hq
    simp only [cs, List.mem_flatten, List.mem_map] at hq
    obtain ⟨l, ⟨o, ho, rfl⟩, hq⟩ := hq
    obtain ⟨p, hp, rfl⟩ := List.mem_map.1 hq
    exact ⟨o, ho, p, hp, rfl⟩
  have hlt : ∀ q ∈ cs.flatten, q.1 < inc ^ d := by
    intro q hq
    obtain ⟨o, ho, p, hp, rfl⟩ := hmem q hq
    exact lidx_lt inc hn a h hh p.1 (hin _ (List.of_mem_zip hp).1) o (corners_le d o ho)
  have hS : ∀ φ : ℕ → α, (List.zipWith (fun (v : α) i => v * φ i)
      ((bincount (inc ^ d) cs.flatten).map (fun v => v / ∏ j, h j)) (List.range (inc ^ d))).sum
      = ((data.zip y).map (fun p => ((corners d).map (fun o =>
          (∏ j, cw (a j) (h j) (p.1 j) (o j)) * φ (lidx inc a h p.1 o))).sum * p.2)).sum / ∏ j, h j := by
    intro φ
    have e0 : List.zipWith (fun (v : α) i => v * φ i)
        ((bincount (inc ^ d) cs.flatten).map (fun v => v / ∏ j, h j)) (List.range (inc ^ d))
        = (List.range (inc ^ d)).map (fun k =>
          ((((cs.flatten).filter (fun p => p.1 = k)).map Prod.snd).sum) * φ k * (∏ j, h j)⁻¹) := by
      apply List.ext_getElem
      · simp [bincount]
      · intro i h1 h2
        simp only [List.getElem_zipWith, List.getElem_map, List.getElem_range, bincount]
        rw [div_eq_mul_inv]; ring
    rw [e0, List.sum_map_mul_right, bincount_sum _ φ _ hlt, sum_flatten_map, div_eq_mul_inv]
    congr 1
    simp only [cs, List.map_map, Function.comp_def]
    rw [double_sum]
    congr 1
    apply List.map_congr_left
    intro p _
    rw [← List.sum_map_mul_right]
    congr 1
    apply List.map_congr_left
    intro o _
    simp only [g]; ring
  refine ⟨_, hrun, by simp [bincount_length], ?_, ?_, ?_⟩
  · intro v hv
    obtain ⟨w, hw, rfl⟩ := List.mem_map.1 hv
    refine div_nonneg (bincount_nonneg _ _ ?_ w hw) hP.le
    intro q hq
    obtain ⟨o, ho, p, hp, rfl⟩ := hmem q hq
    exact mul_nonneg (Finset.prod_nonneg (fun j _ => abs_nonneg _)) (hy0 _ (List.of_mem_zip hp).2)
  · have e := hS (fun _ => 1)
    have e2 : ∀ c : List α, c.length = inc ^ d →
        (List.zipWith (fun (u : α) (_ : ℕ) => u * 1) c (List.range (inc ^ d))) = c := by
      intro c hc
      apply List.ext_getElem
      · simp [hc]
      · intros; simp
    rw [e2 _ (by simp [bincount_length])] at e
    rw [e]
    have : (data.zip y).map (fun p => ((corners d).map (fun o =>
          (∏ j, cw (a j) (h j) (p.1 j) (o j)) * 1)).sum * p.2)
        = (data.zip y).map (fun p => (∏ j, h j) * p.2) := by
      apply List.map_congr_left
      intro p hp
      simp only [mul_one]
      rw [corner_mass (by omega) inc hn a h hh p.1 (hin _ (List.of_mem_zip hp).1)]
    rw [this, List.sum_map_mul_left, mul_div_cancel_left₀ _ hP.ne', List.map_snd_zip hy.le]
  · intro k
    rw [hS (fun i => a k + ((i / inc ^ (k : ℕ) % inc : ℕ) : α) * h k)]
    have : (data.zip y).map (fun p => ((corners d).map (fun o =>
          (∏ j, cw (a j) (h j) (p.1 j) (o j)) *
            (a k + ((lidx inc a h p.1 o / inc ^ (k : ℕ) % inc : ℕ) : α) * h k))).sum * p.2)
        = (data.zip y).map (fun p => (∏ j, h j) * (p.2 * p.1 k)) := by
      apply List.map_congr_left
      intro p hp
      have hi := hin _ (List.of_mem_zip hp).1
      have e3 : (corners d).map (fun o => (∏ j, cw (a j) (h j) (p.1 j) (o j)) *
            (a k + ((lidx inc a h p.1 o / inc ^ (k : ℕ) % inc : ℕ) : α) * h k))
          = (corners d).map (fun o => (∏ j, cw (a j) (h j) (p.1 j) (o j))
            * (a k + ((cell (a k) (h k) (p.1 k) + o k : ℕ) : α) * h k)) := by
        apply List.map_congr_left
        intro o ho
        rw [lidx_digit inc hn a h hh p.1 hi o (corners_le d o ho) k]
      rw [e3, corner_moment (by omega) inc hn a h hh p.1 hi k]
      ring
    rw [this, List.sum_map_mul_left, mul_div_cancel_left₀ _ hP.ne']
    congr 1
    rw [List.zip, List.map_zipWith]
    apply List.ext_getElem
    · simp [hy]
    · intros; simp

/-- **C93** negated: in two dimensions a datum on the last grid point of the first dimension passes the range check
and is counted with a wrong total weight (3 instead of 1): the grid values are read from the next row. -/
theorem C93_upper_edge_wrong_mass :
    ∃ c, gridcountNd 3 [![(2 : ℚ), 11 / 2]] ![[0, 1, 2], [5, 6, 7]] [1] = .ok c ∧ c.sum = 3 := by
  refine ⟨[0, 0, 3 / 2, 0, 0, 3 / 2, 0, 0, 0], by decide +kernel, by decide +kernel⟩

/-- Instance of C92: one datum in the middle of a cell in the plane. -/
example : gridcountNd 2 [![(1 / 4 : ℚ), 11 / 2]] (fun j => ugrid ((![0, 5] : Fin 2 → ℚ) j) 1 2) [1]
    = .ok [3 / 8, 1 / 8, 3 / 8, 1 / 8] := by decide +kernel

end Wafo.Grid
