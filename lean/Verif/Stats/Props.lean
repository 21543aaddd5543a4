import Verif.Stats.Lemmas
import Mathlib.Algebra.Order.Field.Rat
import Mathlib.Data.Rat.Floor

/-!
Peaks over threshold (C73, C74) of `/repo/src/wafo/stats/core.py`.

An exceedance is an index `i` with `thresh < data[i]`.  The sorting calls of numpy are arbitrary functions that sort; the order of
ties is not assumed.
-/

set_option linter.unusedSectionVars false

namespace Wafo.Stats

variable {α : Type*} [Field α] [LinearOrder α] [IsStrictOrderedRing α]

/-- The times of the exceedances in rising order. -/
def SortedTimes (data t : List α) (thresh : α) (ts : List α) : Prop :=
  ts.Pairwise (· ≤ ·) ∧ ts.Perm (((data.zip t).filter (fun p => decide (thresh < p.1))).map Prod.snd)

/-- Sorting by insertion, for the examples. -/
def sortTime (l : List (Exc ℚ)) : List (Exc ℚ) := l.insertionSort (fun a b => a.time ≤ b.time)

/-- Sorting by falling value, for the examples. -/
def sortDesc (l : List (Exc ℚ)) : List (Exc ℚ) := l.insertionSort (fun a b => b.val ≤ a.val)

theorem sortTime_sorts : SortsTime sortTime := by
  intro l
  refine ⟨List.perm_insertionSort _ l, ?_⟩
  have : Std.Total (fun a b : Exc ℚ => a.time ≤ b.time) := ⟨fun a b => le_total _ _⟩
  have : IsTrans (Exc ℚ) (fun a b : Exc ℚ => a.time ≤ b.time) := ⟨fun a b c => le_trans⟩
  exact List.pairwise_insertionSort (fun a b : Exc ℚ => a.time ≤ b.time) l

theorem sortDesc_sorts : SortsDesc sortDesc := by
  intro l
  refine ⟨List.perm_insertionSort _ l, ?_⟩
  have : Std.Total (fun a b : Exc ℚ => b.val ≤ a.val) := ⟨fun a b => le_total _ _⟩
  have : IsTrans (Exc ℚ) (fun a b : Exc ℚ => b.val ≤ a.val) := ⟨fun a b c h1 h2 => le_trans h2 h1⟩
  exact List.pairwise_insertionSort (fun a b : Exc ℚ => b.val ≤ a.val) l

/-- Positions in a slice. -/
theorem accepted_range {desc : List (Exc α) → List (Exc α)} (hd : SortsDesc desc) {tmin : α} {e : List (Exc α)} {s : ℕ × ℕ} {p : ℕ}
    (h : Accepted desc tmin e s p) : s.1 ≤ p ∧ p < s.2 := by
  obtain ⟨q, hq, rfl⟩ := h
  have := (okPeaks_spec desc hd tmin ((e.take s.2).drop s.1)).1 q hq
  simp only [List.length_drop, List.length_take] at this
  omega

theorem slice_get (e : List (Exc α)) (s : ℕ × ℕ) (q : ℕ) (h : s.1 + q < s.2) :
    ((e.take s.2).drop s.1)[q]? = e[s.1 + q]? := by
  rw [List.getElem?_drop, List.getElem?_take_of_lt h]

theorem accepted_far {desc : List (Exc α) → List (Exc α)} (hd : SortsDesc desc) {tmin : α} {e : List (Exc α)} {s : ℕ × ℕ} {p q : ℕ}
    (hp : Accepted desc tmin e s p) (hq : Accepted desc tmin e s q) (hne : p ≠ q) (x y : Exc α)
    (hx : e[p]? = some x) (hy : e[q]? = some y) : tmin < |x.time - y.time| := by
  have rp := accepted_range hd hp
  have rq := accepted_range hd hq
  obtain ⟨p', hp', rfl⟩ := hp
  obtain ⟨q', hq', rfl⟩ := hq
  exact (okPeaks_spec desc hd tmin ((e.take s.2).drop s.1)).2.1 p' hp' q' hq' (by omega) x y
    (by rw [slice_get _ _ _ rp.2, hx]) (by rw [slice_get _ _ _ rq.2, hy])

theorem not_accepted {desc : List (Exc α) → List (Exc α)} (hd : SortsDesc desc) {tmin : α} {e : List (Exc α)} {s : ℕ × ℕ} {p : ℕ}
    (h1 : s.1 ≤ p) (h2 : p < s.2) (hn : ¬ Accepted desc tmin e s p) (x : Exc α) (hx : e[p]? = some x) :
    ∃ q y, Accepted desc tmin e s q ∧ e[q]? = some y ∧ |x.time - y.time| ≤ tmin ∧ x.val ≤ y.val := by
  obtain ⟨q, rfl⟩ := Nat.exists_eq_add_of_le h1
  have hq : ((e.take s.2).drop s.1)[q]? = some x := by rw [slice_get _ _ _ h2, hx]
  obtain ⟨o, ho, y, hy, h3, h4⟩ := (okPeaks_spec desc hd tmin ((e.take s.2).drop s.1)).2.2 q x hq (fun h => hn ⟨q, h, rfl⟩)
  have ha : Accepted desc tmin e s (s.1 + o) := ⟨o, ho, rfl⟩
  exact ⟨s.1 + o, y, ha, by rw [← slice_get _ _ _ (accepted_range hd ha).2, hy], h3, h4⟩

/-- Between two close exceedances every gap is small. -/
theorem small_between {tmin : α} {e : List (Exc α)} (hs : e.Pairwise (fun a b => a.time ≤ b.time)) {p q : ℕ} {x y : Exc α}
    (hx : e[p]? = some x) (hy : e[q]? = some y) (_hpq : p < q) (h : |x.time - y.time| ≤ tmin) (k : ℕ) (h1 : p ≤ k) (h2 : k < q) :
    (tooSmall tmin e)[k]? = some true := by
  obtain ⟨lx, ex⟩ := List.getElem?_eq_some_iff.1 hx
  obtain ⟨ly, ey⟩ := List.getElem?_eq_some_iff.1 hy
  have mono : ∀ i j (hi : i < e.length) (hj : j < e.length), i ≤ j → e[i].time ≤ e[j].time := by
    intro i j hi hj hij
    rcases hij.eq_or_lt with rfl | hij
    · exact le_refl _
    · exact List.pairwise_iff_getElem.1 hs i j hi hj hij
  refine (small_get tmin e k).2 ⟨e[k], e[k + 1], by simp, by simp, ?_⟩
  have e1 := mono p k lx (by omega) h1
  have e2 := mono (k + 1) q (by omega) ly (by omega)
  rw [abs_le] at h
  rw [ex] at e1
  rw [ey] at e2
  linarith [h.1]

/-- **C73 (every number of clusters).**  `findpot` returns indices of exceedances, each once, in the order of their times, and
dropping a single index from the result makes all the remaining ones more than `tmin` apart: there is one index that belongs to
every pair that is too close. -/
theorem C73_one_offender_partial (byTime desc : List (Exc α) → List (Exc α)) (hb : SortsTime byTime) (hd : SortsDesc desc)
    (data t : List α) (thresh tmin : α) (hl : data.length ≤ t.length) :
    ∃ r bad, findpot byTime desc data t thresh tmin = .ok r ∧ r.Nodup ∧
      (∀ i ∈ r, ∃ v, data[i]? = some v ∧ thresh < v) ∧
      r.Pairwise (fun i j => ∀ a b, t[i]? = some a → t[j]? = some b → a ≤ b) ∧
      ∀ i ∈ r, ∀ j ∈ r, i ≠ j → i ≠ bad → j ≠ bad → ∀ a b, t[i]? = some a → t[j]? = some b → tmin < |a - b| := by
  obtain ⟨e, r, hf, hsort, hnd, hmem, -, hsub, hr⟩ := findpot_spec byTime desc hb data t thresh tmin hl
  have hrm : ∀ x ∈ r, IsExc data t thresh x.idx x.val x.time := fun x hx => (hmem x).1 (hsub.subset hx)
  set E := edges false 0 (tooSmall tmin e) with hE
  refine ⟨r.map Exc.idx, ((E[1]?.bind (fun k => e[k]?)).map Exc.idx).getD 0, hf, hnd.sublist (hsub.map _), ?_, ?_, ?_⟩
  · intro i hi
    obtain ⟨x, hx, rfl⟩ := List.mem_map.1 hi
    exact ⟨x.val, (hrm x hx).1, (hrm x hx).2.1⟩
  · rw [List.pairwise_map]
    refine List.Pairwise.imp_of_mem ?_ (hsort.sublist hsub)
    intro x y hx hy hxy a b ha hb'
    have e1 := (hrm x hx).2.2
    have e2 := (hrm y hy).2.2
    rw [ha] at e1; rw [hb'] at e2
    simp only [Option.some.injEq] at e1 e2
    rw [e1, e2]; exact hxy
  · intro i hi j hj hij hib hjb a b ha hb'
    obtain ⟨x, hx, rfl⟩ := List.mem_map.1 hi
    obtain ⟨y, hy, rfl⟩ := List.mem_map.1 hj
    have e1 := (hrm x hx).2.2
    have e2 := (hrm y hy).2.2
    rw [ha] at e1; rw [hb'] at e2
    simp only [Option.some.injEq] at e1 e2
    rw [e1, e2]
    by_contra hcl
    rw [not_lt] at hcl
    obtain ⟨p, hp, kp⟩ := (hr x).1 hx
    obtain ⟨q, hq, kq⟩ := (hr y).1 hy
    -- by symmetry `p < q`
    have main : ∀ (x y : Exc α) (p q : ℕ), e[p]? = some x → e[q]? = some y → Kept desc tmin e p → Kept desc tmin e q →
        x.idx ≠ ((E[1]?.bind (fun k => e[k]?)).map Exc.idx).getD 0 → y.idx ≠ ((E[1]?.bind (fun k => e[k]?)).map Exc.idx).getD 0 →
        |x.time - y.time| ≤ tmin → p < q → False := by
      clear hx hy hp hq kp kq hcl e1 e2 ha hb' hib hjb hij hi hj
      intro x y p q hp hq kp kq hxb hyb hcl hpq
      have hgap := small_between hsort hp hq hpq hcl
      rcases kp with kp | ⟨s, hs, ap⟩
      · exact kp.1 (hgap p le_rfl hpq)
      rcases kq with kq | ⟨s', hs', aq⟩
      · exact kq.2 (q - 1) (by omega) (hgap (q - 1) (by omega) (by omega))
      have hne : s ≠ s' := by
        rintro rfl
        exact absurd (accepted_far hd ap aq (by omega) x y hp hq) (not_lt.2 hcl)
      rw [← hE, slices_cases] at hs hs'
      have rp := accepted_range hd ap
      have rq := accepted_range hd aq
      have hclose := (edges_close (tooSmall tmin e) 0 0)
      rw [← hE] at hclose
      rcases hEc : E with _ | ⟨c0, _ | ⟨c1, _ | ⟨c2, _ | ⟨c3, E'⟩⟩⟩⟩
      · simp [hEc] at hs
      · simp [hEc] at hs
      · simp only [hEc, List.mem_singleton] at hs hs'; exact hne (hs.trans hs'.symm)
      · simp only [hEc, List.mem_singleton] at hs hs'; exact hne (hs.trans hs'.symm)
      · simp only [hEc, List.mem_cons, List.not_mem_nil, or_false] at hs hs'
        have hc := (hclose c1).1 (by simp [hEc])
        simp only [Nat.sub_zero] at hc
        rw [hEc] at hxb hyb
        simp only [List.getElem?_cons_succ, List.getElem?_cons_zero, Option.bind_some] at hxb hyb
        have hsorted := edges_sorted (tooSmall tmin e) false 0
        rw [← hE, hEc] at hsorted
        have : p ≤ c1 ∧ c1 ≤ q := by
          rcases hs with rfl | rfl <;> rcases hs' with rfl | rfl
          · exact absurd rfl hne
          · simp only at rp rq; omega
          · simp only at rp rq; omega
          · exact absurd rfl hne
        rcases this.2.eq_or_lt with h | h
        · subst h; rw [hq] at hyb; simp at hyb
        · exact hc (hgap c1 this.1 h)
    have hpq : p ≠ q := by
      rintro rfl
      rw [hp] at hq
      exact hij (by simp at hq; rw [hq])
    rcases Nat.lt_or_gt_of_ne hpq with h | h
    · exact main x y p q hp hq kp kq hib hjb hcl h
    · exact main y x q p hq hp kq kp hjb hib (by rwa [abs_sub_comm]) h

/-- **C73 (at most one cluster).**  If at most one group of exceedances has gaps of at most `tmin`, then the returned
exceedances are pairwise more than `tmin` apart. -/
theorem C73_separated_partial (byTime desc : List (Exc α) → List (Exc α)) (hb : SortsTime byTime) (hd : SortsDesc desc)
    (data t : List α) (thresh tmin : α) (hl : data.length ≤ t.length) (ts : List α) (hts : SortedTimes data t thresh ts)
    (hg : groups tmin false ts ≤ 1) :
    ∃ r, findpot byTime desc data t thresh tmin = .ok r ∧
      ∀ i ∈ r, ∀ j ∈ r, i ≠ j → ∀ a b, t[i]? = some a → t[j]? = some b → tmin < |a - b| := by
  obtain ⟨e, r, hf, hsort, hnd, hmem, htime, hsub, hr⟩ := findpot_spec byTime desc hb data t thresh tmin hl
  have hte : e.map Exc.time = ts := by
    refine (htime.trans hts.2.symm).eq_of_pairwise' ?_ hts.1
    rw [List.pairwise_map]; exact hsort
  have hrm : ∀ x ∈ r, IsExc data t thresh x.idx x.val x.time := fun x hx => (hmem x).1 (hsub.subset hx)
  have hlen := edges_length tmin e false 0
  rw [hte] at hlen
  set E := edges false 0 (tooSmall tmin e) with hE
  refine ⟨r.map Exc.idx, hf, ?_⟩
  intro i hi j hj hij a b ha hb'
  obtain ⟨x, hx, rfl⟩ := List.mem_map.1 hi
  obtain ⟨y, hy, rfl⟩ := List.mem_map.1 hj
  have e1 := (hrm x hx).2.2
  have e2 := (hrm y hy).2.2
  rw [ha] at e1; rw [hb'] at e2
  simp only [Option.some.injEq] at e1 e2
  rw [e1, e2]
  by_contra hcl
  rw [not_lt] at hcl
  obtain ⟨p, hp, kp⟩ := (hr x).1 hx
  obtain ⟨q, hq, kq⟩ := (hr y).1 hy
  have hone : ∀ s ∈ slices (E.map (· + 1)), ∀ s' ∈ slices (E.map (· + 1)), s = s' := by
    intro s hs s' hs'
    rw [slices_cases] at hs hs'
    rcases hEc : E with _ | ⟨c0, _ | ⟨c1, _ | ⟨c2, _ | ⟨c3, E'⟩⟩⟩⟩
    · simp [hEc] at hs
    · simp [hEc] at hs
    · simp only [hEc, List.mem_singleton] at hs hs'; exact hs.trans hs'.symm
    · simp only [hEc, List.mem_singleton] at hs hs'; exact hs.trans hs'.symm
    · rw [hEc] at hlen
      simp only [List.length_cons, Bool.false_eq_true, if_false] at hlen
      omega
  have main : ∀ (x y : Exc α) (p q : ℕ), e[p]? = some x → e[q]? = some y → Kept desc tmin e p → Kept desc tmin e q →
      |x.time - y.time| ≤ tmin → p < q → False := by
    intro x y p q hp hq kp kq hcl hpq
    have hgap := small_between hsort hp hq hpq hcl
    rcases kp with kp | ⟨s, hs, ap⟩
    · exact kp.1 (hgap p le_rfl hpq)
    rcases kq with kq | ⟨s', hs', aq⟩
    · exact kq.2 (q - 1) (by omega) (hgap (q - 1) (by omega) (by omega))
    obtain rfl := hone s hs s' hs'
    exact absurd (accepted_far hd ap aq (by omega) x y hp hq) (not_lt.2 hcl)
  have hpq : p ≠ q := by
    rintro rfl
    rw [hp] at hq
    exact hij (by simp at hq; rw [hq])
  rcases Nat.lt_or_gt_of_ne hpq with h | h
  · exact main x y p q hp hq kp kq hcl h
  · exact main y x q p hq hp kq kp (by rwa [abs_sub_comm]) h

/-- **C73 (refuted).**  With two clusters the last exceedance of the first one re-enters the search of the second one: indices 0
and 1 are returned although their times are 1 apart and `tmin = 2`. -/
theorem C73_refuted :
    ∃ (data t : List ℚ) (thresh tmin : ℚ) (r : List ℕ), findpot sortTime sortDesc data t thresh tmin = .ok r ∧
      ∃ i ∈ r, ∃ j ∈ r, i ≠ j ∧ ∃ a b, t[i]? = some a ∧ t[j]? = some b ∧ |a - b| ≤ tmin := by
  refine ⟨[2, 1, 4, 3], [0, 1, 10, 11], 0, 2, [0, 1, 2], by decide +kernel, 0, by simp, 1, by simp, by simp, 0, 1, rfl, rfl, ?_⟩
  norm_num

/-- **C73 (`decluster`).**  `decluster` returns the values and the times of the indices found by `findpot`. -/
theorem C73_decluster (byTime desc : List (Exc α) → List (Exc α)) (hb : SortsTime byTime) (hd : SortsDesc desc)
    (data t : List α) (thresh tmin : α) (hl : data.length ≤ t.length) :
    ∃ r, findpot byTime desc data t thresh tmin = .ok r ∧
      decluster byTime desc data t thresh tmin = .ok (r.map (fun i : ℕ => data.getD i 0), r.map (fun i : ℕ => t.getD i 0)) ∧
      (∀ v ∈ r.map (fun i : ℕ => data.getD i 0), thresh < v) ∧ (r.map (fun i : ℕ => t.getD i 0)).Pairwise (· ≤ ·) := by
  obtain ⟨r, bad, hf, -, hv, hs, -⟩ := C73_one_offender_partial byTime desc hb hd data t thresh tmin hl
  have hlt : ∀ i ∈ r, i < data.length := by
    intro i hi
    obtain ⟨v, h, -⟩ := hv i hi
    exact (List.getElem?_eq_some_iff.1 h).1
  have htake : ∀ (l : List α) (r : List ℕ), (∀ i ∈ r, i < l.length) → takeIdx l r = .ok (r.map (fun i : ℕ => l.getD i 0)) := by
    intro l r
    induction r with
    | nil => intro _; rfl
    | cons a r ih =>
      intro h
      have ha := h a (by simp)
      have ih := ih (fun i hi => h i (List.mem_cons_of_mem _ hi))
      unfold takeIdx at ih ⊢
      rw [List.mapM_cons, ih]
      simp [List.getElem?_eq_getElem ha, List.getD]
      rfl
  refine ⟨r, hf, ?_, ?_, ?_⟩
  · unfold decluster
    rw [hf]
    simp only
    rw [htake data r hlt, htake t r (fun i hi => by have := hlt i hi; omega)]
  · intro v hv'
    obtain ⟨i, hi, rfl⟩ := List.mem_map.1 hv'
    obtain ⟨w, h1, h2⟩ := hv i hi
    simpa [List.getD, h1] using h2
  · rw [List.pairwise_map]
    refine hs.imp_of_mem ?_
    intro i j hi hj h
    have h1 := hlt i hi
    have h2 := hlt j hj
    exact h _ _ (by simp [List.getD, show i < t.length by omega]) (by simp [List.getD, show j < t.length by omega])

/-- **C73 (errors).**  `findpot` raises exactly when some exceedance has no time. -/
theorem C73_short_times (byTime desc : List (Exc α) → List (Exc α)) (data t : List α) (thresh tmin : α) (i : ℕ) (v : α)
    (hi : data[i]? = some v) (hv : thresh < v) (ht : t.length ≤ i) :
    findpot byTime desc data t thresh tmin = .error .indexError := by
  have h : ∀ l : List (ℕ × α), (∃ p ∈ l, t.length ≤ p.1) →
      l.mapM (fun p => match t[p.1]? with
        | some s => (.ok ⟨p.1, p.2, s⟩ : Except PyErr (Exc α))
        | none => .error .indexError) = .error .indexError := by
    intro l
    induction l with
    | nil => rintro ⟨p, hp, -⟩; simp at hp
    | cons a l ih =>
      rintro ⟨p, hp, h⟩
      rw [List.mapM_cons]
      by_cases ha : a.1 < t.length
      · rw [List.getElem?_eq_getElem ha]
        have : ∃ p ∈ l, t.length ≤ p.1 := by
          rcases List.mem_cons.1 hp with rfl | hp
          · omega
          · exact ⟨p, hp, h⟩
        rw [ih this]
        rfl
      · rw [List.getElem?_eq_none (not_lt.1 ha)]
        rfl
  have : exceedances data t thresh = .error .indexError := by
    unfold exceedances
    apply h
    refine ⟨(i, v), List.mem_filterMap.2 ⟨i, List.mem_range.2 (List.getElem?_eq_some_iff.1 hi).1, ?_⟩, ht⟩
    simp [hi, hv]
  unfold findpot
  rw [this]

/-- **C74 (at most two clusters).**  Every exceedance that is not returned lies within `tmin` of a returned exceedance that is
at least as large. -/
theorem C74_covered_partial (byTime desc : List (Exc α) → List (Exc α)) (hb : SortsTime byTime) (hd : SortsDesc desc)
    (data t : List α) (thresh tmin : α) (hl : data.length ≤ t.length) (ts : List α) (hts : SortedTimes data t thresh ts)
    (hg : groups tmin false ts ≤ 2) :
    ∃ r, findpot byTime desc data t thresh tmin = .ok r ∧
      ∀ i v a, data[i]? = some v → thresh < v → t[i]? = some a → i ∉ r →
        ∃ j ∈ r, ∃ w b, data[j]? = some w ∧ t[j]? = some b ∧ v ≤ w ∧ |a - b| ≤ tmin := by
  obtain ⟨e, r, hf, hsort, hnd, hmem, htime, hsub, hr⟩ := findpot_spec byTime desc hb data t thresh tmin hl
  have hte : e.map Exc.time = ts := by
    refine (htime.trans hts.2.symm).eq_of_pairwise' ?_ hts.1
    rw [List.pairwise_map]; exact hsort
  have hlen := edges_length tmin e false 0
  rw [hte] at hlen
  refine ⟨r.map Exc.idx, hf, ?_⟩
  intro i v a hv hth ha hir
  have hx : (⟨i, v, a⟩ : Exc α) ∈ e := (hmem _).2 ⟨hv, hth, ha⟩
  obtain ⟨p, hp⟩ := List.mem_iff_getElem?.1 hx
  have hnk : ¬ Kept desc tmin e p := by
    intro h
    exact hir (List.mem_map.2 ⟨_, (hr _).2 ⟨p, hp, h⟩, rfl⟩)
  unfold Kept at hnk
  set E := edges false 0 (tooSmall tmin e) with hE
  rw [not_or] at hnk
  obtain ⟨hni, hna⟩ := hnk
  -- a small gap next to `p`
  obtain ⟨k, hk, hkp⟩ : ∃ k, (tooSmall tmin e)[k]? = some true ∧ (k = p ∨ p = k + 1) := by
    by_contra hno
    apply hni
    refine ⟨fun h => hno ⟨p, h, Or.inl rfl⟩, fun k hk h => hno ⟨k, h, Or.inr hk⟩⟩
  obtain ⟨c, lo, hi, h1, h2, h3, h4⟩ := (edges_mem (tooSmall tmin e) 0 k hk).1
  rw [← hE] at h1 h2
  have hc : c = 0 ∨ c = 1 := by
    have := (List.getElem?_eq_some_iff.1 h2).1
    simp only [Bool.false_eq_true, if_false] at hlen
    omega
  have hslice : ∃ s ∈ slices (E.map (· + 1)), s.1 ≤ p ∧ p < s.2 := by
    rw [slices_cases]
    have hsorted := edges_sorted (tooSmall tmin e) false 0
    rw [← hE] at hsorted
    rcases hEc : E with _ | ⟨c0, _ | ⟨c1, _ | ⟨c2, _ | ⟨c3, E'⟩⟩⟩⟩
    · simp [hEc] at h1
    · rw [hEc] at h2; simp at h2
    · rw [hEc] at h1 h2
      rcases hc with rfl | rfl
      · simp only [Nat.mul_zero, Nat.zero_add, List.getElem?_cons_zero, List.getElem?_cons_succ, Option.some.injEq] at h1 h2
        exact ⟨_, List.mem_singleton.2 rfl, by simp only; omega⟩
      · simp at h1
    · rw [hEc] at h1 h2
      rcases hc with rfl | rfl
      · simp only [Nat.mul_zero, Nat.zero_add, List.getElem?_cons_zero, List.getElem?_cons_succ, Option.some.injEq] at h1 h2
        exact ⟨_, List.mem_singleton.2 rfl, by simp only; omega⟩
      · simp at h2
    · rw [hEc] at h1 h2 hsorted
      simp only [List.pairwise_cons, List.mem_cons, forall_eq_or_imp] at hsorted
      rcases hc with rfl | rfl
      · simp only [Nat.mul_zero, Nat.zero_add, List.getElem?_cons_zero, List.getElem?_cons_succ, Option.some.injEq] at h1 h2
        exact ⟨(c0, c1 + 1), by simp, by simp only; omega⟩
      · simp only [Nat.mul_one, List.getElem?_cons_zero, List.getElem?_cons_succ, Option.some.injEq] at h1 h2
        exact ⟨(c1, c3 + 1), by simp, by simp only; omega⟩
  obtain ⟨s, hs, hs1, hs2⟩ := hslice
  obtain ⟨q, y, aq, hq, g1, g2⟩ := not_accepted hd hs1 hs2 (fun h => hna ⟨s, hs, h⟩) _ hp
  have hy : y ∈ r := (hr y).2 ⟨q, hq, Or.inr ⟨s, hs, aq⟩⟩
  have hye := (hmem y).1 (hsub.subset hy)
  exact ⟨y.idx, List.mem_map.2 ⟨y, hy, rfl⟩, y.val, y.time, hye.1, hye.2.2, g2, g1⟩

/-- **C74 (isolated exceedances).**  For every number of clusters, an exceedance that has no other exceedance within `tmin` is
returned. -/
theorem C74_isolated_kept (byTime desc : List (Exc α) → List (Exc α)) (hb : SortsTime byTime)
    (data t : List α) (thresh tmin : α) (hl : data.length ≤ t.length) (i : ℕ) (v a : α) (hv : data[i]? = some v)
    (hth : thresh < v) (ha : t[i]? = some a)
    (hiso : ∀ j w b, j ≠ i → data[j]? = some w → thresh < w → t[j]? = some b → tmin < |a - b|) :
    ∃ r, findpot byTime desc data t thresh tmin = .ok r ∧ i ∈ r := by
  obtain ⟨e, r, hf, hsort, hnd, hmem, htime, hsub, hr⟩ := findpot_spec byTime desc hb data t thresh tmin hl
  refine ⟨r.map Exc.idx, hf, ?_⟩
  have hx : (⟨i, v, a⟩ : Exc α) ∈ e := (hmem _).2 ⟨hv, hth, ha⟩
  obtain ⟨p, hp⟩ := List.mem_iff_getElem?.1 hx
  refine List.mem_map.2 ⟨_, (hr _).2 ⟨p, hp, Or.inl ⟨?_, ?_⟩⟩, rfl⟩
  · intro h
    obtain ⟨x, y, h1, h2, h3⟩ := (small_get tmin e p).1 h
    rw [hp] at h1
    simp only [Option.some.injEq] at h1
    subst h1
    have hye := (hmem y).1 (List.mem_of_getElem? h2)
    have hne : y.idx ≠ i := by
      intro hyi
      have g1 : (e.map Exc.idx)[p]? = some i := by rw [List.getElem?_map, hp]; rfl
      have g2 : (e.map Exc.idx)[p + 1]? = some i := by rw [List.getElem?_map, h2, Option.map_some, hyi]
      have hlt := (List.getElem?_eq_some_iff.1 g1).1
      have := (List.getElem?_inj (i := p) (j := p + 1) hlt hnd).1 (g1.trans g2.symm)
      omega
    have hle : a ≤ y.time := by
      have h4 := (List.getElem?_eq_some_iff.1 hp)
      have h5 := (List.getElem?_eq_some_iff.1 h2)
      have := List.pairwise_iff_getElem.1 hsort p (p + 1) h4.1 h5.1 (by omega)
      rw [h4.2, h5.2] at this
      exact this
    have := hiso y.idx y.val y.time hne hye.1 hye.2.1 hye.2.2
    rw [abs_sub_comm, abs_of_nonneg (by linarith)] at this
    simp only at h3
    linarith
  · intro k hk h
    subst hk
    obtain ⟨x, y, h1, h2, h3⟩ := (small_get tmin e k).1 h
    rw [hp] at h2
    simp only [Option.some.injEq] at h2
    subst h2
    have hye := (hmem x).1 (List.mem_of_getElem? h1)
    have hne : x.idx ≠ i := by
      intro hyi
      have g1 : (e.map Exc.idx)[k + 1]? = some i := by rw [List.getElem?_map, hp]; rfl
      have g2 : (e.map Exc.idx)[k]? = some i := by rw [List.getElem?_map, h1, Option.map_some, hyi]
      have hlt := (List.getElem?_eq_some_iff.1 g2).1
      have := (List.getElem?_inj (i := k) (j := k + 1) hlt hnd).1 (g2.trans g1.symm)
      omega
    have hle : x.time ≤ a := by
      have h4 := (List.getElem?_eq_some_iff.1 h1)
      have h5 := (List.getElem?_eq_some_iff.1 hp)
      have := List.pairwise_iff_getElem.1 hsort k (k + 1) h4.1 h5.1 (by omega)
      rw [h4.2, h5.2] at this
      exact this
    have := hiso x.idx x.val x.time hne hye.1 hye.2.1 hye.2.2
    rw [abs_of_nonneg (by linarith)] at this
    simp only at h3
    linarith

/-- **C74 (refuted).**  A third cluster is lost completely: of six exceedances in three clusters none of the last two is
returned, although no returned one is within `tmin` of them. -/
theorem C74_refuted :
    ∃ (data t : List ℚ) (thresh tmin : ℚ) (r : List ℕ), findpot sortTime sortDesc data t thresh tmin = .ok r ∧
      ∃ i, i ∉ r ∧ (∃ v, data[i]? = some v ∧ thresh < v) ∧ ∀ j ∈ r, ∀ a b, t[i]? = some a → t[j]? = some b → tmin < |a - b| := by
  refine ⟨[2, 1, 2, 1, 9, 1], [0, 1, 10, 11, 20, 21], 0, 2, [0, 1, 2], by decide +kernel, 4, by simp, ⟨9, rfl, by norm_num⟩, ?_⟩
  intro j hj a b ha hb
  simp only [List.getElem?_cons_succ, List.getElem?_cons_zero, Option.some.injEq] at ha
  subst ha
  simp only [List.mem_cons, List.not_mem_nil, or_false] at hj
  rcases hj with rfl | rfl | rfl <;>
    simp only [List.getElem?_cons_succ, List.getElem?_cons_zero, Option.some.injEq] at hb <;> subst hb <;> norm_num

/-! ### The hypotheses are met -/

/-- One cluster of three exceedances and an isolated one: the largest of the cluster and the isolated one are returned. -/
example : SortedTimes ([1, 3, 2, 0, 5] : List ℚ) [0, 1, 2, 3, 9] (1 / 2) [0, 1, 2, 9] ∧
    groups (1 : ℚ) false [0, 1, 2, 9] ≤ 1 ∧
    findpot sortTime sortDesc ([1, 3, 2, 0, 5] : List ℚ) [0, 1, 2, 3, 9] (1 / 2) 1 = .ok [1, 4] := by
  refine ⟨⟨by norm_num, ?_⟩, by decide +kernel, by decide +kernel⟩
  exact List.Perm.of_eq (by decide +kernel)

/-- Two clusters, in times that are not sorted. -/
example : groups (2 : ℚ) false [0, 1, 10, 11] ≤ 2 ∧
    findpot sortTime sortDesc ([4, 3, 1, 2] : List ℚ) [10, 11, 0, 1] 0 2 = .ok [3, 0] := by
  constructor <;> decide +kernel

example : SortsTime sortTime ∧ SortsDesc sortDesc := ⟨sortTime_sorts, sortDesc_sorts⟩

end Wafo.Stats
