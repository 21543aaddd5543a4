import Verif.Dct.Lemmas

/-!
From the loop to `_raw_dctn`.
-/

set_option linter.unusedSectionVars false

namespace Wafo.Dct

open Finset

variable {K : ℕ → ℕ → ℕ → ℝ}

theorem getD_lt (l : List ℕ) (i : ℕ) (h : i < l.length) : l.getD i 0 = l[i] := by
  simp [List.getD, h]

theorem rawDctn_eq {f : Transform} (hf : IsMatrix f K) (y : Arr) (shape : Option (List ℕ)) (axes : Option (List ℤ))
    (s : List ℕ) (a : List ℤ) (hy : y.shape ≠ []) (h : getShapeAxes y.shape shape axes = .ok (s, a))
    (hpos : ∀ d n, axisLen s a d = some n → 0 < n) :
    ∃ z, rawDctn f y shape axes = .ok z ∧
      z.shape = newShape ((List.range y.shape.length).map (axisLen s a)) y.shape ∧
      ∀ b, b.length = y.shape.length → z.get b = sep K ((List.range y.shape.length).map (axisLen s a)) y.shape y.get b := by
  rcases y with ⟨sh, g⟩
  simp only at hy h ⊢
  rcases sh with _ | ⟨m, _ | ⟨m', ms⟩⟩
  · exact absurd rfl hy
  · simp only [rawDctn, h, loop]
    rcases ho : axisLen s a 0 with _ | n
    · refine ⟨_, rfl, by simp [newShape, ho], ?_⟩
      intro b hb
      obtain ⟨i, rfl⟩ := List.length_eq_one_iff.1 hb
      simp only [List.length_singleton, List.range_one, List.map_singleton, ho, sep]
      simp [shiftdim]
    · have hn := hpos 0 n ho
      simp only
      rw [alongLast, if_neg hn.ne']
      refine ⟨_, rfl, by simp [newShape, ho], ?_⟩
      intro b hb
      obtain ⟨i, rfl⟩ := List.length_eq_one_iff.1 hb
      simp only [List.length_singleton, List.range_one, List.map_singleton, ho, sep]
      rw [hf _ _ _ hn]
      refine sum_congr rfl fun j _ => ?_
      simp [shiftdim]
  · obtain ⟨z, hz, hs, hg⟩ := loop_inv hf (axisLen s a) ⟨m :: m' :: ms, g⟩ 0 (m :: m' :: ms) [] ⟨m :: m' :: ms, g⟩ rfl rfl hpos
      (by simp [newShape]) (by intro a b ha hb; rw [List.length_eq_zero_iff.1 hb]; simp [sep])
    refine ⟨z, ?_, hs, hg⟩
    simp only [rawDctn, h]
    rw [List.range_eq_range']
    exact hz

theorem axisLen_default (sh : List ℕ) (d : ℕ) (hd : d < sh.length) :
    axisLen sh ((List.range sh.length).map fun i : ℕ => (i : ℤ)) d = some (sh.getD d 0) := by
  have h : ((List.range sh.length).map fun i : ℕ => (i : ℤ)).findIdx? (fun a => decide (a = (d : ℤ))) = some d := by
    rw [List.findIdx?_eq_some_iff_getElem]
    refine ⟨by simpa using hd, by simp, ?_⟩
    intro j hj
    simp
    omega
  rw [axisLen, h]

theorem axisLen_default_none (sh : List ℕ) (d : ℕ) (hd : sh.length ≤ d) :
    axisLen sh ((List.range sh.length).map fun i : ℕ => (i : ℤ)) d = none := by
  have h : ((List.range sh.length).map fun i : ℕ => (i : ℤ)).findIdx? (fun a => decide (a = (d : ℤ))) = none := by
    rw [List.findIdx?_eq_none_iff]
    intro x hx
    simp at hx
    obtain ⟨i, hi, rfl⟩ := hx
    simp
    omega
  rw [axisLen, h]

/-- Valid axes: `-ndim <= a < ndim`. -/
def ValidAxes (d : ℕ) (axes : List ℤ) : Prop := ∀ a ∈ axes, -(d : ℤ) ≤ a ∧ a < d

theorem takeShape_ok (sh : List ℕ) : ∀ axes : List ℤ, ValidAxes sh.length axes →
    takeShape sh axes = .ok (axes.map fun a => sh.getD (if a < 0 then a + (sh.length : ℤ) else a).toNat 0) := by
  intro axes
  induction axes with
  | nil => intro _; rfl
  | cons a l ih =>
    intro h
    have ha := h a (by simp)
    have hl := ih (fun b hb => h b (by simp [hb]))
    simp only [takeShape] at hl ⊢
    rw [List.mapM_cons, hl]
    have h0 : 0 ≤ (if a < 0 then a + (sh.length : ℤ) else a) := by split_ifs <;> omega
    have h1 : (if a < 0 then a + (sh.length : ℤ) else a).toNat < sh.length := by split_ifs <;> omega
    simp only [if_pos h0, List.getElem?_eq_getElem h1]
    simp only [List.map_cons]
    rw [getD_lt _ _ h1]
    rfl

theorem axisLen_axes (sh : List ℕ) (axes : List ℤ) (d : ℕ) (_hd : d < sh.length) :
    axisLen (axes.map fun a => sh.getD (if a < 0 then a + (sh.length : ℤ) else a).toNat 0) axes d
      = if (d : ℤ) ∈ axes then some (sh.getD d 0) else none := by
  rcases h : axes.findIdx? (fun a => decide (a = (d : ℤ))) with _ | i
  · rw [List.findIdx?_eq_none_iff] at h
    rw [axisLen, if_neg (fun hm => by simpa using h _ hm)]
    rw [List.findIdx?_eq_none_iff.2 h]
  · rw [axisLen, h]
    obtain ⟨hi, hd, _⟩ := List.findIdx?_eq_some_iff_getElem.1 h
    have hd' : axes[i] = (d : ℤ) := by simpa using hd
    rw [if_pos (hd' ▸ List.getElem_mem hi)]
    simp only [Option.some.injEq]
    rw [getD_lt _ _ (by simpa using hi), List.getElem_map, hd']
    have : ¬ ((d : ℤ) < 0) := by omega
    simp [this]

/-- The lengths used by `dctn(x, axes=axes)`. -/
def lensOf (sh : List ℕ) (axes : List ℤ) : List (Option ℕ) :=
  sh.mapIdx fun d m => if (d : ℤ) ∈ axes then some m else none

theorem lensOf_eq (sh : List ℕ) (axes : List ℤ) :
    (List.range sh.length).map
      (axisLen (axes.map fun a => sh.getD (if a < 0 then a + (sh.length : ℤ) else a).toNat 0) axes) = lensOf sh axes := by
  apply List.ext_getElem
  · simp [lensOf]
  · intro d h1 h2
    have hd : d < sh.length := by simpa using h1
    rw [List.getElem_map, List.getElem_range, axisLen_axes sh axes d hd]
    simp [lensOf, hd]

theorem keeps_of : ∀ (ns : List (Option ℕ)) (ms : List ℕ), ns.length = ms.length →
    (∀ i (h : i < ns.length) (h' : i < ms.length), ns[i] = none ∨ ns[i] = some ms[i]) → Keeps ns ms
  | [], [], _, _ => trivial
  | o :: ns, m :: ms, h, h' => by
    refine ⟨h' 0 (by simp) (by simp), keeps_of ns ms (by simpa using h) fun i hi hi' => ?_⟩
    exact h' (i + 1) (by simpa using hi) (by simpa using hi')

theorem lensOf_keeps (sh : List ℕ) (axes : List ℤ) : Keeps (lensOf sh axes) sh := by
  refine keeps_of _ _ (by simp [lensOf]) fun i h h' => ?_
  simp only [lensOf, List.getElem_mapIdx]
  split_ifs <;> simp

theorem getShapeAxes_axes (sh : List ℕ) (axes : List ℤ) (h : ValidAxes sh.length axes) :
    getShapeAxes sh none (some axes)
      = .ok (axes.map fun a => sh.getD (if a < 0 then a + (sh.length : ℤ) else a).toNat 0, axes) := by
  simp only [getShapeAxes, takeShape_ok sh axes h]
  simp

/-- `_raw_dctn` with valid axes and no shape. -/
theorem rawDctn_axes {f : Transform} (hf : IsMatrix f K) (y : Arr) (axes : List ℤ) (hy : y.shape ≠ [])
    (h : ValidAxes y.shape.length axes) (hpos : ∀ m ∈ y.shape, 0 < m) :
    ∃ z, rawDctn f y none (some axes) = .ok z ∧ z.shape = y.shape ∧
      ∀ b, b.length = y.shape.length → z.get b = sep K (lensOf y.shape axes) y.shape y.get b := by
  obtain ⟨z, h1, h2, h3⟩ := rawDctn_eq hf y none (some axes) _ _ hy (getShapeAxes_axes y.shape axes h) (by
    intro d n hn
    by_cases hm : (d : ℤ) ∈ axes
    · have hd : d < y.shape.length := by have := (h _ hm).2; omega
      rw [axisLen_axes _ _ _ hd, if_pos hm] at hn
      simp only [Option.some.injEq] at hn
      rw [← hn, getD_lt _ _ hd]
      exact hpos _ (List.getElem_mem hd)
    · have : axes.findIdx? (fun a => decide (a = (d : ℤ))) = none := by
        rw [List.findIdx?_eq_none_iff]
        intro x hx
        simp only [decide_eq_false_iff_not]
        rintro rfl
        exact hm hx
      rw [axisLen, this] at hn
      simp at hn)
  rw [lensOf_eq] at h2 h3
  exact ⟨z, h1, by rw [h2, newShape_keeps _ _ (lensOf_keeps _ _)], h3⟩

/-- Default axes are all axes. -/
theorem rawDctn_default (f : Transform) (y : Arr) :
    rawDctn f y none none = rawDctn f y none (some ((List.range y.shape.length).map fun i : ℕ => (i : ℤ))) := by
  have h : ValidAxes y.shape.length ((List.range y.shape.length).map fun i : ℕ => (i : ℤ)) := by
    intro a ha
    simp at ha
    obtain ⟨i, hi, rfl⟩ := ha
    omega
  have e : (((List.range y.shape.length).map fun i : ℕ => (i : ℤ)).map fun a =>
      y.shape.getD (if a < 0 then a + (y.shape.length : ℤ) else a).toNat 0) = y.shape := by
    apply List.ext_getElem
    · simp
    · intro i h1 h2
      have : ¬ ((i : ℤ) < 0) := by omega
      simp [this, h2]
  have h1 := getShapeAxes_axes y.shape _ h
  rw [e] at h1
  have h2 : getShapeAxes y.shape none none = .ok (y.shape, (List.range y.shape.length).map fun i : ℕ => (i : ℤ)) := by
    simp [getShapeAxes]
  simp only [rawDctn, h1, h2]

theorem inRange_length : ∀ (idx ms : List ℕ), InRange idx ms → idx.length = ms.length
  | [], [], _ => rfl
  | _ :: is, _ :: ms, h => by simp [inRange_length is ms h.2]

theorem sep_congr : ∀ (ns : List (Option ℕ)) (ms : List ℕ) (g g' : List ℕ → ℝ) (is : List ℕ), Keeps ns ms →
    is.length = ms.length → (∀ js, js.length = ms.length → g js = g' js) → sep K ns ms g is = sep K ns ms g' is
  | [], [], g, g', is, _, h, hg => by simp only [sep]; exact hg is h
  | none :: ns, m :: ms, g, g', i :: is, h, hl, hg => by
    simp only [sep]
    exact sep_congr ns ms _ _ is h.2 (by simpa using hl) fun js hj => hg _ (by simp [hj])
  | some n :: ns, m :: ms, g, g', i :: is, h, hl, hg => by
    simp only [sep]
    refine sum_congr rfl fun j _ => ?_
    rw [sep_congr ns ms (fun js => g (j :: js)) (fun js => g' (j :: js)) is h.2 (by simpa using hl)
      fun js hj => hg _ (by simp [hj])]

/-- Adding one more axis. -/
theorem sep_insert (n m : ℕ) : ∀ (ns1 : List (Option ℕ)) (ns2 : List (Option ℕ)) (ms1 ms2 : List ℕ) (g : List ℕ → ℝ) (is : List ℕ),
    ns1.length = ms1.length → is.length = ms1.length + 1 + ms2.length →
    sep K (ns1 ++ some n :: ns2) (ms1 ++ m :: ms2) g is
      = ∑ j ∈ range n, K n (is.getD ms1.length 0) j * (if j < m then
          sep K (ns1 ++ none :: ns2) (ms1 ++ m :: ms2) g (is.set ms1.length j) else 0)
  | [], ns2, [], ms2, g, i :: is, _, _ => by simp [sep]
  | [], _, [], _, _, [], _, h' => by simp at h'; omega
  | none :: _, _, _ :: _, _, _, [], _, h' => by simp at h'; omega
  | some _ :: _, _, _ :: _, _, _, [], _, h' => by simp at h'; omega
  | none :: ns1, ns2, m' :: ms1, ms2, g, i :: is, h, h' => by
    simp only [List.cons_append, sep, List.length_cons, List.getD_cons_succ, List.set_cons_succ]
    exact sep_insert n m ns1 ns2 ms1 ms2 _ is (by simpa using h) (by simp at h' ⊢; omega)
  | some n' :: ns1, ns2, m' :: ms1, ms2, g, i :: is, h, h' => by
    simp only [List.cons_append, sep, List.length_cons, List.getD_cons_succ, List.set_cons_succ]
    have e : ∀ j, sep K (ns1 ++ some n :: ns2) (ms1 ++ m :: ms2) (fun js => g (j :: js)) is = _ :=
      fun j => sep_insert n m ns1 ns2 ms1 ms2 _ is (by simpa using h) (by simp at h' ⊢; omega)
    simp only [e]
    have l : ∀ j, K n' i j * (if j < m' then ∑ j1 ∈ range n, K n (is.getD ms1.length 0) j1 * (if j1 < m then
          sep K (ns1 ++ none :: ns2) (ms1 ++ m :: ms2) (fun js => g (j :: js)) (is.set ms1.length j1) else 0) else 0)
        = ∑ j1 ∈ range n, K n (is.getD ms1.length 0) j1 * (if j1 < m then K n' i j * (if j < m' then
          sep K (ns1 ++ none :: ns2) (ms1 ++ m :: ms2) (fun js => g (j :: js)) (is.set ms1.length j1) else 0) else 0) := by
      intro j
      split_ifs with hj
      · rw [mul_sum]; refine sum_congr rfl fun j1 _ => ?_; split_ifs <;> ring
      · simp
    rw [sum_congr rfl (fun j _ => l j), sum_comm]
    refine sum_congr rfl fun j1 _ => ?_
    rw [← mul_sum]
    congr 1
    split_ifs with h1
    · rfl
    · simp

theorem sep_none : ∀ (ns : List (Option ℕ)) (ms : List ℕ) (g : List ℕ → ℝ) (is : List ℕ), (∀ o ∈ ns, o = none) →
    ns.length = ms.length → is.length = ms.length → sep K ns ms g is = g is
  | [], _, g, is, _, _, _ => by simp [sep]
  | o :: ns, m :: ms, g, i :: is, h, h1, h2 => by
    obtain rfl := h o (by simp)
    simp only [sep]
    exact sep_none ns ms _ is (fun o ho => h o (by simp [ho])) (by simpa using h1) (by simpa using h2)

/-- Adding axis `k` to the axes transforms the result once more along axis `k`. -/
theorem sep_lens_insert (sh : List ℕ) (axes : List ℤ) (k : ℕ) (hk : k < sh.length) (hna : (k : ℤ) ∉ axes) (g : List ℕ → ℝ)
    (idx : List ℕ) (hi : idx.length = sh.length) :
    sep K (lensOf sh (axes ++ [(k : ℤ)])) sh g idx
      = ∑ j ∈ range (sh.getD k 0), K (sh.getD k 0) (idx.getD k 0) j * sep K (lensOf sh axes) sh g (idx.set k j) := by
  have hsplit : sh = sh.take k ++ sh[k] :: sh.drop (k + 1) := by rw [List.cons_getElem_drop_succ, List.take_append_drop]
  have hlen : (sh.take k).length = k := by simp; omega
  have e1 : lensOf sh (axes ++ [(k : ℤ)])
      = (lensOf sh axes).take k ++ some sh[k] :: (lensOf sh axes).drop (k + 1) := by
    apply List.ext_getElem
    · simp [lensOf]; omega
    · intro d h1 h2
      have hd : d < sh.length := by simpa [lensOf] using h1
      have hk' : ((lensOf sh axes).take k).length = k := by simp [lensOf]; omega
      rcases lt_trichotomy d k with h | h | h
      · rw [List.getElem_append_left (by rw [hk']; exact h)]
        simp only [lensOf, List.getElem_mapIdx, List.getElem_take, List.mem_append, List.mem_singleton]
        have : ¬ ((d : ℤ) = k) := by omega
        simp [this]
      · subst h
        rw [List.getElem_append_right (by rw [hk'])]
        simp [lensOf, Nat.min_eq_left hk.le]
      · rw [List.getElem_append_right (by rw [hk']; omega)]
        simp only [hk']
        obtain ⟨e, rfl⟩ : ∃ e, d = k + 1 + e := ⟨d - k - 1, by omega⟩
        simp only [show k + 1 + e - k = e + 1 by omega, List.getElem_cons_succ, List.getElem_drop, lensOf, List.getElem_mapIdx,
          List.mem_append, List.mem_singleton]
        have : ¬ (((k + 1 + e : ℕ) : ℤ) = k) := by omega
        simp only [this, or_false]
  have e2 : lensOf sh axes = (lensOf sh axes).take k ++ none :: (lensOf sh axes).drop (k + 1) := by
    have hkk : k < (lensOf sh axes).length := by simpa [lensOf] using hk
    have : (lensOf sh axes)[k] = none := by simp [lensOf, hna]
    rw [← this, List.cons_getElem_drop_succ, List.take_append_drop]
  have e3 : ∀ ns, sep K ns sh = sep K ns (sh.take k ++ sh[k] :: sh.drop (k + 1)) := fun ns => by rw [← hsplit]
  rw [e1, e3, sep_insert _ _ _ _ _ _ _ _ (by simp [lensOf]) (by simp; omega), ← hsplit, ← e2, hlen]
  rw [getD_lt _ _ hk]
  refine sum_congr rfl fun j hj => ?_
  rw [if_pos (mem_range.1 hj)]

end Wafo.Dct
