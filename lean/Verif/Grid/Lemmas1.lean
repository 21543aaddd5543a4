import Verif.Grid.Lemmas

set_option linter.unusedSectionVars false

/-! One-dimensional binning on an equidistant grid: closed form of the result. -/

namespace Wafo.Grid

variable {α : Type*} [Field α] [LinearOrder α] [IsStrictOrderedRing α] [FloorRing α]

/-- Cell of a datum. -/
def cell (a h d : α) : ℕ := ⌊(d - a) / h⌋.toNat

theorem cell_spec (a h d : α) (hh : 0 < h) (n : ℕ) (hn : 2 ≤ n) (h1 : a ≤ d)
    (h2 : d < a + ((n - 1 : ℕ) : α) * h) :
    ⌊(d - a) / h⌋ = ((cell a h d : ℕ) : ℤ) ∧ cell a h d + 1 < n ∧ a + (cell a h d : α) * h ≤ d ∧
      d < a + ((cell a h d + 1 : ℕ) : α) * h := by
  have h0 : 0 ≤ (d - a) / h := div_nonneg (by linarith) hh.le
  have hf : 0 ≤ ⌊(d - a) / h⌋ := Int.floor_nonneg.2 h0
  have hc : ⌊(d - a) / h⌋ = ((cell a h d : ℕ) : ℤ) := by
    unfold cell; omega
  have hle := Int.floor_le ((d - a) / h)
  have hlt := Int.lt_floor_add_one ((d - a) / h)
  rw [hc] at hle hlt
  have e : (d - a) / h * h = d - a := by field_simp
  have hle' : (cell a h d : α) * h ≤ d - a := by
    have := mul_le_mul_of_nonneg_right hle hh.le
    rw [e] at this; simpa using this
  have hlt' : d - a < ((cell a h d : α) + 1) * h := by
    have := mul_lt_mul_of_pos_right hlt hh
    rw [e] at this; simpa using this
  refine ⟨hc, ?_, by linarith, by push_cast; linarith⟩
  have h3 : (cell a h d : α) * h < ((n - 1 : ℕ) : α) * h := by linarith
  have h4 : (cell a h d : α) < ((n - 1 : ℕ) : α) := lt_of_mul_lt_mul_right h3 hh.le
  have h5 : cell a h d < n - 1 := by exact_mod_cast h4
  omega

theorem ugrid_getLast (a h : α) (n : ℕ) (hn : 2 ≤ n) :
    (ugrid a h n).getLastD 0 = a + ((n - 1 : ℕ) : α) * h := by
  rw [List.getLastD_eq_getLast?, List.getLast?_eq_getElem?, ugrid_length, ugrid_get _ _ _ _ (by omega)]
  rfl

theorem ugrid_cons (a h : α) (n : ℕ) (hn : 2 ≤ n) : ∃ t, ugrid a h n = a :: (a + h) :: t := by
  obtain ⟨m, rfl⟩ : ∃ m, n = m + 2 := ⟨n - 2, by omega⟩
  refine ⟨(List.range m).map (fun k : ℕ => a + ((k + 2 : ℕ) : α) * h), ?_⟩
  apply List.ext_getElem?
  intro i
  match i with
  | 0 => rw [ugrid_get _ _ _ _ (by omega)]; simp
  | 1 => rw [ugrid_get _ _ _ _ (by omega)]; simp
  | i + 2 =>
    by_cases hi : i < m
    · rw [ugrid_get _ _ _ _ (by omega)]
      simp [List.getElem?_map, List.getElem?_range hi]
    · rw [List.getElem?_eq_none (by rw [ugrid_length]; omega)]
      symm
      simp only [List.getElem?_cons_succ]
      rw [List.getElem?_eq_none (by simp; omega)]

theorem contrib_ok (a h d y : α) (hh : 0 < h) (n : ℕ) (hn : 2 ≤ n) (h1 : a ≤ d)
    (h2 : d < a + ((n - 1 : ℕ) : α) * h) :
    contrib (ugrid a h n) a h d y = .ok ((cell a h d, (a + ((cell a h d + 1 : ℕ) : α) * h - d) * y),
      (cell a h d + 1, (d - (a + (cell a h d : α) * h)) * y)) := by
  obtain ⟨hc, hk, -, -⟩ := cell_spec a h d hh n hn h1 h2
  unfold contrib
  simp only [hc]
  rw [show ((cell a h d : ℕ) : ℤ) + 1 = ((cell a h d + 1 : ℕ) : ℤ) by push_cast; rfl]
  rw [pyGet_nat _ _ _ (ugrid_get a h n _ hk), pyGet_nat _ _ _ (ugrid_get a h n (cell a h d) (by omega))]
  simp

/-- The two weighted grid points of a datum. -/
def pts (a h : α) (p : α × α) : (ℕ × α) × (ℕ × α) :=
  ((cell a h p.1, (a + ((cell a h p.1 + 1 : ℕ) : α) * h - p.1) * p.2),
    (cell a h p.1 + 1, (p.1 - (a + (cell a h p.1 : α) * h)) * p.2))

theorem gridcount1_eq (a h : α) (hh : 0 < h) (n : ℕ) (hn : 2 ≤ n) (data y ys : List α)
    (hd : data ≠ []) (hin : ∀ d ∈ data, a ≤ d ∧ d < a + ((n - 1 : ℕ) : α) * h)
    (hy : broadcast data.length y = .ok ys) :
    gridcount1 data (ugrid a h n) y = .ok (List.zipWith (fun u v => (u + v) / h)
      (bincount n (((data.zip ys).map (pts a h)).map Prod.fst))
      (bincount n (((data.zip ys).map (pts a h)).map Prod.snd))) := by
  have hlast := ugrid_getLast a h n hn
  have hlen := ugrid_length a h n
  have hcontr : ∀ p ∈ data.zip ys, contrib (ugrid a h n) a h p.1 p.2 = .ok (pts a h p) := by
    intro p hp
    have hm := (List.of_mem_zip hp).1
    exact contrib_ok a h p.1 p.2 hh n hn (hin _ hm).1 (hin _ hm).2
  obtain ⟨t, ht⟩ := ugrid_cons a h n hn
  rw [ht] at hlast hlen hcontr ⊢
  unfold gridcount1
  simp only [hlast, hlen]
  rw [if_neg hd, if_neg]
  · have e : a + h - a = h := by ring
    simp only [e]
    rw [if_neg hh.ne']
    simp only [hy]
    rw [mapM_ok _ (pts a h) _ hcontr]
  · simp only [List.any_eq_true, Bool.or_eq_true, decide_eq_true_eq, not_exists, not_and, not_or, not_lt]
    intro d hdm
    exact ⟨(hin d hdm).1, (hin d hdm).2.le⟩

/-- The weighted sum of the result against any function of the grid index. -/
theorem grid_sum (h : α) (n : ℕ) (φ : ℕ → α) (cs : List ((ℕ × α) × (ℕ × α)))
    (h1 : ∀ p ∈ cs, p.1.1 < n) (h2 : ∀ p ∈ cs, p.2.1 < n) :
    (List.zipWith (fun (u : α) k => u * φ k) (List.zipWith (fun u v => (u + v) / h)
      (bincount n (cs.map Prod.fst)) (bincount n (cs.map Prod.snd))) (List.range n)).sum
      = (cs.map (fun p => (p.1.2 * φ p.1.1 + p.2.2 * φ p.2.1) / h)).sum := by
  have e1 := bincount_sum n φ (cs.map Prod.fst) (by simpa using fun a b c d h => h1 ((a,b),(c,d)) h)
  have e2 := bincount_sum n φ (cs.map Prod.snd) (by simpa using fun a b c d h => h2 ((c,d),(a,b)) h)
  have : (List.zipWith (fun (u : α) k => u * φ k) (List.zipWith (fun u v => (u + v) / h)
      (bincount n (cs.map Prod.fst)) (bincount n (cs.map Prod.snd))) (List.range n))
      = (List.range n).map (fun k => (((((cs.map Prod.fst).filter (fun p => p.1 = k)).map Prod.snd).sum) * φ k
        + ((((cs.map Prod.snd).filter (fun p => p.1 = k)).map Prod.snd).sum) * φ k) / h) := by
    apply List.ext_getElem
    · simp [bincount]
    · intro i hi1 hi2
      simp only [List.getElem_zipWith, List.getElem_map, List.getElem_range, bincount]
      ring
  rw [this]
  simp only [div_eq_mul_inv]
  rw [List.sum_map_mul_right, List.sum_map_add, e1, e2, List.sum_map_mul_right, List.sum_map_add]
  simp [Function.comp_def]

end Wafo.Grid
