import Verif.Grid.Props
import Verif.Kde.Eval

/-! Evaluation on a grid by circular convolution. -/

set_option linter.unusedSectionVars false

namespace Wafo.Kde

open Real

theorem list_range_sum (n : ℕ) (f : ℕ → ℝ) : ((List.range n).map f).sum = ∑ i ∈ Finset.range n, f i :=
  Grid.range_sum n f

/-- Circular convolution with a symmetric wrap around. -/
theorem circConv_get (c kw : List ℝ) (inc : ℕ) (hc : c.length = inc) (hk : kw.length = 2 * inc) (K : ℤ → ℝ)
    (hpos : ∀ m < inc, kw.getD m 0 = K m) (hneg : ∀ m, 1 ≤ m → m < inc → kw.getD (2 * inc - m) 0 = K (-m))
    (i : ℕ) (hi : i < inc) :
    (circConv c kw).getD i 0 = ∑ j ∈ Finset.range inc, c.getD j 0 * K ((i : ℤ) - j) := by
  rw [circConv, List.getD_eq_getElem?_getD, List.getElem?_map, List.getElem?_range (by omega), Option.map_some,
    Option.getD_some, list_range_sum, hk]
  have hsub : Finset.range inc ⊆ Finset.range (2 * inc) := Finset.range_mono (by omega)
  rw [← Finset.sum_subset hsub]
  · refine Finset.sum_congr rfl fun j hj => ?_
    have hj := Finset.mem_range.mp hj
    congr 1
    by_cases hij : j ≤ i
    · rw [show i + 2 * inc - j = (i - j) + 2 * inc by omega, Nat.add_mod_right, Nat.mod_eq_of_lt (by omega),
        hpos _ (by omega)]
      congr 1
      omega
    · rw [Nat.mod_eq_of_lt (by omega), show i + 2 * inc - j = 2 * inc - (j - i) by omega,
        hneg _ (by omega) (by omega)]
      congr 1
      omega
  · intro j _ hj
    have : inc ≤ j := by simpa using hj
    rw [List.getD_eq_default _ _ (by omega), zero_mul]

theorem circConv_length (c kw : List ℝ) : (circConv c kw).length = kw.length := by simp [circConv]

/-- The kernel weights of the grid evaluation, before the shift. -/
noncomputable def rawW (kern : ℝ → ℝ) (invh dx : ℝ) (inc : ℕ) : List ℝ :=
  ((List.range (2 * inc)).map fun j : ℕ => ((j : ℝ) - inc) * dx).map fun x => kern (invh * x)

/-- The norm that the grid evaluation divides by. -/
noncomputable def gridNorm (kern : ℝ → ℝ) (normFact invh dx : ℝ) (n inc : ℕ) : ℝ :=
  open Classical in
  if |(rawW kern invh dx inc).sum * dx * n - normFact| > 0.05 * normFact then (rawW kern invh dx inc).sum * dx * n
  else normFact

theorem rawW_get (kern : ℝ → ℝ) (invh dx : ℝ) (inc j : ℕ) (hj : j < 2 * inc) (N : ℝ) :
    ((rawW kern invh dx inc).map fun v => v / N).getD j 0 = kern (invh * (((j : ℝ) - inc) * dx)) / N := by
  rw [List.getD_eq_getElem?_getD, rawW, List.getElem?_map, List.getElem?_map, List.getElem?_map,
    List.getElem?_range hj]
  rfl

theorem gridFast_get (kern : ℝ → ℝ) (normFact invh dx : ℝ) (n inc : ℕ) (c : List ℝ) (hc : c.length = inc) (i : ℕ)
    (hi : i < inc) :
    ∃ z, z = ∑ j ∈ Finset.range inc, c.getD j 0 * (kern (invh * (((i : ℝ) - j) * dx))
        / gridNorm kern normFact invh dx n inc) ∧
      (gridFast kern normFact invh dx n inc c)[i]? = some (open Classical in z * (if z > 0 then 1 else 0)) := by
  set N := gridNorm kern normFact invh dx n inc with hN
  set kw0 := (rawW kern invh dx inc).map fun v => v / N with hkw0
  have hlen0 : kw0.length = 2 * inc := by simp [hkw0, rawW]
  have hkw : ifftshift (kernelWeights normFact dx n (rawW kern invh dx inc)) = kw0.drop inc ++ kw0.take inc := by
    have : kernelWeights normFact dx n (rawW kern invh dx inc) = kw0 := by
      rw [kernelWeights, hkw0, hN, gridNorm]
    rw [this, ifftshift, hlen0, show 2 * inc / 2 = inc by omega]
  have hg : ∀ m, (kw0.drop inc ++ kw0.take inc).getD m 0
      = if m < inc then kw0.getD (inc + m) 0 else (kw0.take inc).getD (m - inc) 0 := by
    intro m
    rw [List.getD_eq_getElem?_getD, List.getElem?_append]
    have : (kw0.drop inc).length = inc := by rw [List.length_drop, hlen0]; omega
    rw [this]
    split
    · rw [List.getElem?_drop, List.getD_eq_getElem?_getD]
    · rw [List.getD_eq_getElem?_getD]
  have hz := circConv_get c (kw0.drop inc ++ kw0.take inc) inc hc (by
      rw [List.length_append, List.length_drop, List.length_take, hlen0]; omega)
    (fun m => kern (invh * ((m : ℝ) * dx)) / N) (by
      intro m hm
      rw [hg, if_pos hm, hkw0, rawW_get _ _ _ _ _ (by omega)]
      push_cast
      congr 4
      ring) (by
      intro m h1 hm
      rw [hg, if_neg (by omega), List.getD_eq_getElem?_getD, List.getElem?_take_of_lt (by omega),
        ← List.getD_eq_getElem?_getD, hkw0, rawW_get _ _ _ _ _ (by omega)]
      have : ((2 * inc - m - inc : ℕ) : ℝ) - inc = -(m : ℝ) := by
        rw [show 2 * inc - m - inc = inc - m by omega, Nat.cast_sub hm.le]; ring
      rw [this]
      push_cast
      rfl) i hi
  refine ⟨_, rfl, ?_⟩
  rw [gridFast]
  rw [show ((List.range (2 * inc)).map fun j : ℕ => ((j : ℝ) - inc) * dx).map (fun x => kern (invh * x))
    = rawW kern invh dx inc from rfl, hkw]
  rw [List.getElem?_map, List.getElem?_take_of_lt hi]
  have hl : i < (circConv c (kw0.drop inc ++ kw0.take inc)).length := by
    rw [circConv_length, List.length_append, List.length_drop, List.length_take, hlen0]; omega
  rw [List.getD_eq_getElem?_getD, List.getElem?_eq_getElem hl, Option.getD_some] at hz
  rw [List.getElem?_eq_getElem hl, Option.map_some, hz]
  push_cast
  rfl

theorem gridFast_length (kern : ℝ → ℝ) (normFact invh dx : ℝ) (n inc : ℕ) (c : List ℝ) :
    (gridFast kern normFact invh dx n inc c).length = inc := by
  simp only [gridFast, List.length_map, List.length_take, circConv_length, ifftshift, kernelWeights, List.length_append,
    List.length_drop, List.length_range]
  omega

theorem gridFast_nonneg_get (kern : ℝ → ℝ) (hk : ∀ u, 0 ≤ kern u) (normFact invh dx : ℝ) (n inc : ℕ) (c : List ℝ)
    (hc : c.length = inc) (hc0 : ∀ v ∈ c, 0 ≤ v) (hN : 0 < gridNorm kern normFact invh dx n inc) (i : ℕ) (hi : i < inc) :
    (gridFast kern normFact invh dx n inc c)[i]? = some ((∑ j ∈ Finset.range inc, c.getD j 0 *
      kern (invh * (((i : ℝ) - j) * dx))) / gridNorm kern normFact invh dx n inc) := by
  obtain ⟨z, hz, hg⟩ := gridFast_get kern normFact invh dx n inc c hc i hi
  have hz0 : 0 ≤ z := by
    rw [hz]
    refine Finset.sum_nonneg fun j hj => mul_nonneg ?_ (div_nonneg (hk _) hN.le)
    have hj := Finset.mem_range.mp hj
    have : c.getD j 0 ∈ c := by
      rw [List.getD_eq_getElem _ _ (by omega)]
      exact List.getElem_mem _
    exact hc0 _ this
  have hz1 : (∑ j ∈ Finset.range inc, c.getD j 0 * kern (invh * (((i : ℝ) - j) * dx)))
      / gridNorm kern normFact invh dx n inc = z := by
    rw [hz, Finset.sum_div]
    exact Finset.sum_congr rfl fun j _ => by ring
  rw [hg, hz1]
  congr 1
  rcases hz0.eq_or_lt with h | h
  · rw [← h]; simp
  · rw [if_pos h, mul_one]

/-- Linear binning: sums against the grid counts are sums over the data of the linear interpolation. -/
theorem gridcount_functional (a h : ℝ) (hh : 0 < h) (inc : ℕ) (hinc : 2 ≤ inc) (data y ys : List ℝ) (hd : data ≠ [])
    (hin : ∀ d ∈ data, a ≤ d ∧ d < a + ((inc - 1 : ℕ) : ℝ) * h) (hy : Grid.broadcast data.length y = .ok ys) :
    ∃ c, Grid.gridcount1 data (Grid.ugrid a h inc) y = .ok c ∧ c.length = inc ∧
      ∀ φ : ℕ → ℝ, ∑ j ∈ Finset.range inc, c.getD j 0 * φ j
        = ((data.zip ys).map fun p => p.2 * ((1 - Int.fract ((p.1 - a) / h)) * φ ⌊(p.1 - a) / h⌋.toNat
            + Int.fract ((p.1 - a) / h) * φ (⌊(p.1 - a) / h⌋.toNat + 1))).sum := by
  have heq := Grid.gridcount1_eq a h hh inc hinc data y ys hd hin hy
  refine ⟨_, heq, ?_, ?_⟩
  · simp [Grid.bincount]
  intro φ
  set cs := (data.zip ys).map (Grid.pts a h) with hcs
  have hs := Grid.grid_sum h inc φ cs (by
      intro p hp
      obtain ⟨q, hq, rfl⟩ := List.mem_map.mp hp
      have h1 := hin q.1 (List.of_mem_zip hq).1
      have := (Grid.cell_spec a h q.1 hh inc hinc h1.1 h1.2).2.1
      simp only [Grid.pts]; omega) (by
      intro p hp
      obtain ⟨q, hq, rfl⟩ := List.mem_map.mp hp
      have h1 := hin q.1 (List.of_mem_zip hq).1
      have := (Grid.cell_spec a h q.1 hh inc hinc h1.1 h1.2).2.1
      simp only [Grid.pts]; omega)
  set c0 := List.zipWith (fun u v => (u + v) / h) (Grid.bincount inc (cs.map Prod.fst))
    (Grid.bincount inc (cs.map Prod.snd)) with hc0
  have hl0 : c0.length = inc := by simp [hc0, Grid.bincount]
  have e1 : (List.zipWith (fun (u : ℝ) k => u * φ k) c0 (List.range inc)).sum
      = ∑ j ∈ Finset.range inc, c0.getD j 0 * φ j := by
    rw [← list_range_sum]
    congr 1
    apply List.ext_getElem
    · simp [hl0]
    · intro i h1 h2
      have : i < c0.length := by simp at h2; omega
      rw [List.getElem_zipWith, List.getElem_map, List.getElem_range, List.getD_eq_getElem _ _ this]
  rw [← e1, hs, hcs, List.map_map]
  congr 1
  refine List.map_congr_left fun q hq => ?_
  have h1 := hin q.1 (List.of_mem_zip hq).1
  have hc := (Grid.cell_spec a h q.1 hh inc hinc h1.1 h1.2).1
  have hfr : Int.fract ((q.1 - a) / h) = (q.1 - a) / h - (Grid.cell a h q.1 : ℝ) := by
    rw [← Int.self_sub_floor, hc, Int.cast_natCast]
  have hfl : ⌊(q.1 - a) / h⌋.toNat = Grid.cell a h q.1 := by rw [hc, Int.toNat_natCast]
  simp only [Function.comp, Grid.pts]
  rw [hfr, hfl]
  push_cast
  field_simp
  ring

theorem gridcount_nonneg (c : List ℝ) (inc : ℕ) (hl : c.length = inc) (a h : ℝ) (l : List (ℝ × ℝ))
    (hw : ∀ p ∈ l, 0 ≤ p.2)
    (hf : ∀ φ : ℕ → ℝ, ∑ j ∈ Finset.range inc, c.getD j 0 * φ j
        = (l.map fun p => p.2 * ((1 - Int.fract ((p.1 - a) / h)) * φ ⌊(p.1 - a) / h⌋.toNat
            + Int.fract ((p.1 - a) / h) * φ (⌊(p.1 - a) / h⌋.toNat + 1))).sum) : ∀ v ∈ c, 0 ≤ v := by
  intro v hv
  obtain ⟨i, hi, rfl⟩ := List.mem_iff_getElem.mp hv
  have := hf fun j => if j = i then 1 else 0
  simp only [mul_ite, mul_one, mul_zero] at this
  rw [Finset.sum_ite_eq' (Finset.range inc) i, if_pos (Finset.mem_range.mpr (by omega)), List.getD_eq_getElem _ _ hi] at this
  rw [this]
  refine List.sum_nonneg fun x hx => ?_
  obtain ⟨p, hp, rfl⟩ := List.mem_map.mp hx
  have h1 := Int.fract_nonneg ((p.1 - a) / h)
  have h2 := (Int.fract_lt_one ((p.1 - a) / h)).le
  refine mul_nonneg (hw p hp) (add_nonneg ?_ ?_)
  · split
    · linarith
    · exact le_refl _
  · split
    · linarith
    · exact le_refl _

/-- Grid counts of data on the grid. -/
theorem gridcount_on_grid (a h : ℝ) (hh : 0 < h) (inc : ℕ) (hinc : 2 ≤ inc) (idx : List ℕ) (y ys : List ℝ) (hne : idx ≠ [])
    (hidx : ∀ m ∈ idx, m + 1 < inc) (hy : Grid.broadcast idx.length y = .ok ys) :
    ∃ c, Grid.gridcount1 (idx.map fun m : ℕ => a + (m : ℝ) * h) (Grid.ugrid a h inc) y = .ok c ∧ c.length = inc ∧
      ((∀ v ∈ ys, 0 ≤ v) → ∀ v ∈ c, 0 ≤ v) ∧
      ∀ φ : ℕ → ℝ, ∑ j ∈ Finset.range inc, c.getD j 0 * φ j = (List.zipWith (fun m w => w * φ m) idx ys).sum := by
  have hin : ∀ d ∈ idx.map fun m : ℕ => a + (m : ℝ) * h, a ≤ d ∧ d < a + ((inc - 1 : ℕ) : ℝ) * h := by
    intro d hd
    obtain ⟨m, hm, rfl⟩ := List.mem_map.mp hd
    have h1 := hidx m hm
    have h2 : (m : ℝ) < ((inc - 1 : ℕ) : ℝ) := by exact_mod_cast (by omega : m < inc - 1)
    constructor
    · have : (0 : ℝ) ≤ m * h := by positivity
      linarith
    · nlinarith
  obtain ⟨c, hc, hlc, hf⟩ := gridcount_functional a h hh inc hinc (idx.map fun m : ℕ => a + (m : ℝ) * h) y ys
    (by simpa using hne) hin (by simpa using hy)
  refine ⟨c, hc, hlc, fun hn => gridcount_nonneg c inc hlc a h _ (fun p hp => hn _ (List.of_mem_zip hp).2) hf, ?_⟩
  intro φ
  rw [hf φ]
  congr 1
  apply List.ext_getElem
  · simp
  · intro i h1 h2
    have hq : ∀ m : ℕ, (m : ℝ) * h / h = (m : ℝ) := fun m => mul_div_cancel_right₀ _ hh.ne'
    simp [hq]

theorem estimatePsi_eq (kd : ℝ → ℝ) (order : ℕ) (c : List ℝ) (inc : ℕ) (dx gi : ℝ) (n : ℕ) (hc : c.length = inc) :
    estimatePsi kd order c ((List.range inc).map fun j : ℕ => (j : ℝ) * dx) gi n
      = (∑ i ∈ Finset.range inc, ∑ j ∈ Finset.range inc, c.getD i 0 * c.getD j 0 *
          kd (((Int.natAbs ((i : ℤ) - j) : ℕ) : ℝ) * dx / gi)) / ((n : ℝ) ^ 2 * gi ^ (order + 1)) := by
  rw [estimatePsi]
  simp only [List.length_map, List.length_range]
  set kw0 := ((List.range inc).map fun j : ℕ => (j : ℝ) * dx).map fun x => kd (x / gi) with hkw0
  have hl0 : kw0.length = inc := by simp [hkw0]
  have hget : ∀ m < inc, kw0.getD m 0 = kd ((m : ℝ) * dx / gi) := by
    intro m hm
    rw [List.getD_eq_getElem?_getD, hkw0, List.getElem?_map, List.getElem?_map, List.getElem?_range hm]
    rfl
  have hz : ∀ i < inc, (circConv c (kw0 ++ 0 :: (kw0.drop 1).reverse)).getD i 0
      = ∑ j ∈ Finset.range inc, c.getD j 0 * kd (((Int.natAbs ((i : ℤ) - j) : ℕ) : ℝ) * dx / gi) := by
    intro i hi
    refine circConv_get c _ inc hc ?_ (fun m : ℤ => kd (((Int.natAbs m : ℕ) : ℝ) * dx / gi)) ?_ ?_ i hi
    · simp [hl0]; omega
    · intro m hm
      rw [List.getD_append _ _ _ _ (by omega), hget m hm]
      simp
    · intro m h1 hm
      rw [List.getD_append_right _ _ _ _ (by omega), hl0, show 2 * inc - m - inc = (inc - m - 1) + 1 by omega,
        List.getD_cons_succ, List.getD_eq_getElem?_getD, List.getElem?_reverse (by simp [hl0]; omega),
        List.getElem?_drop, List.length_drop, hl0, ← List.getD_eq_getElem?_getD,
        show 1 + (inc - 1 - 1 - (inc - m - 1)) = m by omega, hget m hm]
      simp
  congr 1
  rw [← list_range_sum]
  congr 1
  apply List.ext_getElem
  · simp [circConv_length, hl0, hc]
  · intro i h1 h2
    have hi : i < inc := by simpa using h2
    have hl : i < (circConv c (kw0 ++ 0 :: (kw0.drop 1).reverse)).length := by
      rw [circConv_length]; simp [hl0]; omega
    rw [List.getElem_zipWith, List.getElem_take, List.getElem_map, List.getElem_range, ← List.getD_eq_getElem _ 0 hl, hz i hi,
      Finset.mul_sum]
    refine Finset.sum_congr rfl fun j _ => ?_
    rw [← List.getD_eq_getElem _ (0 : ℝ) (by omega : i < c.length)]
    ring

end Wafo.Kde
