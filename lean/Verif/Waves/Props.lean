import Verif.Waves.Lemmas

/-!
Properties of the wave parameters and steepnesses.
-/

set_option linter.unusedSectionVars false

namespace Wafo.Waves
open Wafo.Cross Wafo.Turning Wafo.Cycles

variable {α : Type} [Field α] [LinearOrder α] [IsStrictOrderedRing α]

/-! ### Specification -/

/-- The first highest sample among the samples `a + 1, ..., b` has the value `e` and the time `s`. -/
def Highest (t x : List α) (a b : ℕ) (e s : α) : Prop :=
  ∃ i, a < i ∧ i ≤ b ∧ x[i]? = some e ∧ t[i]? = some s ∧
    ∀ k d, a < k → k ≤ b → x[k]? = some d → d ≤ e ∧ (k < i → d < e)

/-- The first lowest sample among the samples `a + 1, ..., b` has the value `e` and the time `s`. -/
def Lowest (t x : List α) (a b : ℕ) (e s : α) : Prop :=
  ∃ i, a < i ∧ i ≤ b ∧ x[i]? = some e ∧ t[i]? = some s ∧
    ∀ k d, a < k → k ≤ b → x[k]? = some d → e ≤ d ∧ (k < i → e < d)

/-- Wave number `k` of the series: the zero-crossings number `2 k, ..., 2 k + 3` of `c` are a down-crossing, an up-crossing, a
down-crossing and an up-crossing, with times `d0 < u0 < d1 < u1`; the crest is the highest sample between the second and the third, the
troughs are the lowest ones before and after it, and the entries number `k` of the dictionary are the corresponding heights and
times, all of them positive. -/
structure IsWave (t x : List α) (c : List ℕ) (w : Params α) (k : ℕ) : Prop where
  exists_times : ∃ (i0 i1 i2 i3 : ℕ) (d0 u0 d1 u1 Ac At At' s s0 s1 : α),
    (c[2 * k]? = some i0 ∧ c[2 * k + 1]? = some i1 ∧ c[2 * k + 2]? = some i2 ∧ c[2 * k + 3]? = some i3) ∧
    (DownAt x 0 i0 ∧ UpAt x 0 i1 ∧ DownAt x 0 i2 ∧ UpAt x 0 i3) ∧
    (CrossTime t x 0 i0 d0 ∧ CrossTime t x 0 i1 u0 ∧ CrossTime t x 0 i2 d1 ∧ CrossTime t x 0 i3 u1) ∧
    Lowest t x i0 i1 (-At) s0 ∧ Highest t x i1 i2 Ac s ∧ Lowest t x i2 i3 (-At') s1 ∧
    (w.Ac[k]? = some Ac ∧ w.At[k]? = some At ∧ w.At[k + 1]? = some At' ∧ 0 < Ac ∧ 0 < At ∧ 0 < At') ∧
    (w.Hd[k]? = some (Ac + At) ∧ w.Hu[k]? = some (Ac + At')) ∧
    (w.Td[k]? = some (d1 - d0) ∧ w.Tu[k]? = some (u1 - u0) ∧ 0 < d1 - d0 ∧ 0 < u1 - u0) ∧
    (w.Tcf[k]? = some (s - u0) ∧ w.Tcb[k]? = some (d1 - s) ∧ 0 < s - u0 ∧ 0 < d1 - s)

/-! ### The computation -/

/-- What is known about the crossings and extremes of a series with at least one wave. -/
structure Data (t x : List α) (c : List ℕ) (m : ℕ) (C D : ℕ → ℕ) (X T S : ℕ → α) : Prop where
  crossings : c = (List.range (2 * m + 2)).map C
  tc : findtc x 0 (some "tw") = .ok ((List.range (2 * m + 1)).map D, (List.range (2 * m + 2)).map C)
  val : ∀ j < 2 * m + 1, x[D j]? = some (X j)
  time : ∀ j < 2 * m + 1, t[D j]? = some (T j)
  cross : ∀ j < 2 * m + 2, ecross1 t x 0 (C j) = .ok (S j)
  crossTime : ∀ j < 2 * m + 2, CrossTime t x 0 (C j) (S j)
  dir : ∀ j < 2 * m + 2, if j % 2 = 0 then DownAt x 0 (C j) else UpAt x 0 (C j)
  lt : ∀ j < 2 * m + 1, C j < C (j + 1)
  low : ∀ k < m + 1, X (2 * k) < 0 ∧ Lowest t x (C (2 * k)) (C (2 * k + 1)) (X (2 * k)) (T (2 * k))
  high : ∀ k < m, 0 < X (2 * k + 1) ∧ Highest t x (C (2 * k + 1)) (C (2 * k + 2)) (X (2 * k + 1)) (T (2 * k + 1))
  front : ∀ k < m, S (2 * k + 1) < T (2 * k + 1)
  back : ∀ k < m, T (2 * k + 1) < S (2 * k + 2)

theorem exists_data (t x : List α) (c : List ℕ) (hc : findcross x 0 (some "tw") = .ok c) (h3 : 3 ≤ c.length)
    (ht : t.Pairwise (· < ·)) (hlen : t.length = x.length) :
    ∃ m C D X T S, 1 ≤ m ∧ Data t x c m C D X T S := by
  have hx : x ≠ [] := by
    rintro rfl
    rw [C01_findcross_empty] at hc
    cases hc
  obtain ⟨l, hl, -⟩ := C01_findcross_exact x 0 hx
  obtain ⟨c', p, q, hc', hpart, -, -, -, hhead, hpar, -⟩ := C04_findcross_waves x 0 l "tw" (by simp) hl
  rw [hc] at hc'
  obtain rfl : c = c' := by simpa using hc'
  have hpar' : c.length % 2 = 0 := by simpa [oddKind] using hpar
  obtain ⟨m, hm⟩ : ∃ m, c.length = 2 * m + 2 := ⟨c.length / 2 - 1, by omega⟩
  obtain ⟨tc, htc, htl, -, hspec⟩ := C11_findtc_waves x 0 "tw" (by simp) c hc h3
  have hcC : ∀ j < 2 * m + 2, c[j]? = some (c.getD j 0) := by
    intro j hj
    rw [List.getD_eq_getElem?_getD, List.getElem?_eq_getElem (by omega)]; rfl
  have htD : ∀ j < 2 * m + 1, tc[j]? = some (tc.getD j 0) := by
    intro j hj
    rw [List.getD_eq_getElem?_getD, List.getElem?_eq_getElem (by omega)]; rfl
  have hmem : ∀ j < 2 * m + 2, c.getD j 0 ∈ l := by
    intro j hj
    rw [hpart]
    have := List.mem_of_getElem? (hcC j hj)
    simp only [List.mem_append]
    exact Or.inl (Or.inr this)
  have hcr : ∀ j, ∃ s, j < 2 * m + 2 → ecross1 t x 0 (c.getD j 0) = .ok s ∧ CrossTime t x 0 (c.getD j 0) s := by
    intro j
    by_cases hj : j < 2 * m + 2
    · obtain ⟨s, h1, h2⟩ := cross_time t x 0 l hl ht hlen _ (hmem j hj)
      exact ⟨s, fun _ => ⟨h1, h2⟩⟩
    · exact ⟨0, fun h => absurd h hj⟩
  choose S hS using hcr
  have hdown : DownAt x 0 (c.getD 0 0) := by
    have := hhead (c.getD 0 0) (by rw [List.head?_eq_getElem?]; exact hcC 0 (by omega))
    simpa [startsDown] using this
  have hdir : ∀ j < 2 * m + 2, if j % 2 = 0 then DownAt x 0 (c.getD j 0) else UpAt x 0 (c.getD j 0) := fun j hj =>
    (part_dirs x 0 l c p q hl hpart j _ _ (hcC 0 (by omega)) (hcC j hj)).1 hdown
  have hex : ∀ i, UpAt x 0 i → DownAt x 0 i → False := by
    rintro i ⟨b, hb, h1⟩ ⟨b', hb', h2⟩
    rw [hb] at hb'
    obtain rfl := Option.some.inj hb'
    exact lt_asymm h1 h2
  have hcl : c.Pairwise (· < ·) := by
    have := (C02_findcross_ordered x 0 l hl).1
    rw [hpart] at this
    exact (List.pairwise_append.1 (List.pairwise_append.1 this).1).2.1
  have hlt : ∀ j < 2 * m + 1, c.getD j 0 < c.getD (j + 1) 0 := by
    intro j hj
    obtain ⟨h1, h1'⟩ := List.getElem?_eq_some_iff.1 (hcC j (by omega))
    obtain ⟨h2, h2'⟩ := List.getElem?_eq_some_iff.1 (hcC (j + 1) (by omega))
    rw [← h1', ← h2']
    exact List.pairwise_iff_getElem.1 hcl j (j + 1) h1 h2 (Nat.lt_succ_self j)
  have hval : ∀ j, ∃ e s, j < 2 * m + 1 → x[tc.getD j 0]? = some e ∧ t[tc.getD j 0]? = some s := by
    intro j
    by_cases hj : j < 2 * m + 1
    · obtain ⟨i, e, h1, h2, h3', h4, -⟩ := hspec j _ _ (hcC j (by omega)) (hcC (j + 1) (by omega))
      rw [htD j hj] at h1
      obtain rfl := Option.some.inj h1
      obtain ⟨s, hs⟩ := get_some (t := t) (i := tc.getD j 0)
        (by have := (List.getElem?_eq_some_iff.1 h4).1; omega)
      exact ⟨e, s, fun _ => ⟨h4, hs⟩⟩
    · exact ⟨0, 0, fun h => absurd h hj⟩
  choose X T hXT using hval
  have hX : ∀ j < 2 * m + 1, x[tc.getD j 0]? = some (X j) := fun j hj => (hXT j hj).1
  have hT : ∀ j < 2 * m + 1, t[tc.getD j 0]? = some (T j) := fun j hj => (hXT j hj).2
  have hlow : ∀ k < m + 1, X (2 * k) < 0 ∧
      Lowest t x (c.getD (2 * k) 0) (c.getD (2 * k + 1) 0) (X (2 * k)) (T (2 * k)) := by
    intro k hk
    obtain ⟨i, e, h1, h2, h3', h4, h5⟩ := hspec (2 * k) _ _ (hcC _ (by omega)) (hcC (2 * k + 1) (by omega))
    rw [htD _ (by omega)] at h1
    obtain rfl := Option.some.inj h1
    rw [hX _ (by omega)] at h4
    obtain rfl := Option.some.inj h4
    have hd := hdir (2 * k) (by omega)
    rw [if_pos (by omega)] at hd
    rcases h5 with h5 | h5
    · exact ⟨h5.2.1, _, h2, h3', hX _ (by omega), hT _ (by omega), h5.2.2⟩
    · exact (hex _ h5.1 hd).elim
  have hhigh : ∀ k < m, 0 < X (2 * k + 1) ∧
      Highest t x (c.getD (2 * k + 1) 0) (c.getD (2 * k + 2) 0) (X (2 * k + 1)) (T (2 * k + 1)) := by
    intro k hk
    obtain ⟨i, e, h1, h2, h3', h4, h5⟩ := hspec (2 * k + 1) _ _ (hcC _ (by omega)) (hcC (2 * k + 1 + 1) (by omega))
    rw [htD _ (by omega)] at h1
    obtain rfl := Option.some.inj h1
    rw [hX _ (by omega)] at h4
    obtain rfl := Option.some.inj h4
    have hd := hdir (2 * k + 1) (by omega)
    rw [if_neg (by omega)] at hd
    rcases h5 with h5 | h5
    · exact (hex _ hd h5.1).elim
    · exact ⟨h5.2.1, _, h2, h3', hX _ (by omega), hT _ (by omega), h5.2.2⟩
  refine ⟨m, fun j => c.getD j 0, fun j => tc.getD j 0, X, T, S, by omega, ?_⟩
  have e1 : c = (List.range (2 * m + 2)).map fun j => c.getD j 0 := by rw [← hm]; exact eq_range_map c 0
  refine ⟨e1, ?_, hX, hT, fun j hj => (hS j hj).1, fun j hj => (hS j hj).2, hdir, hlt, hlow, hhigh, ?_, ?_⟩
  · rw [htc, ← e1]
    rw [show 2 * m + 1 = tc.length by omega, ← eq_range_map tc 0]
  · intro k hk
    obtain ⟨-, i, h1, h2, h3', h4, -⟩ := hhigh k hk
    exact crossTime_lt ht (hS _ (by omega)).2 h4 h1
  · intro k hk
    obtain ⟨h0, i, h1, h2, h3', h4, -⟩ := hhigh k hk
    exact crossTime_gt ht (hS (2 * k + 2) (by omega)).2 h4 h2 h3' h0.ne'

theorem takeIdx_map (l : List α) (n : ℕ) (D : ℕ → ℕ) (X : ℕ → α) (h : ∀ j < n, l[D j]? = some (X j)) :
    takeIdx l ((List.range n).map D) = .ok ((List.range n).map X) := by
  unfold takeIdx
  rw [List.mapM_map]
  exact mapM_map_ok _ _ _ fun j hj => by simp [h j (by simpa using hj)]

theorem ecross_map (t x : List α) (v : α) (n : ℕ) (C : ℕ → ℕ) (S : ℕ → α) (h : ∀ j < n, ecross1 t x v (C j) = .ok (S j)) :
    ecross (.vec t) x ((List.range n).map C) v = .ok ((List.range n).map S) := by
  show List.mapM _ _ = _
  rw [List.mapM_map]
  exact mapM_map_ok _ _ _ fun j hj => by simp [h j (by simpa using hj)]

theorem noZero_range (dT : α) (n : ℕ) (f : ℕ → α) (h : ∀ k < n, f k ≠ 0) :
    noZero dT ((List.range n).map f) = (List.range n).map f := by
  unfold noZero
  rw [List.map_map]
  apply List.map_congr_left
  intro k hk
  exact if_neg (h k (by simpa using hk))

/-- The dictionary in terms of the extremes and crossing times. -/
def paramsOf (m : ℕ) (X T S : ℕ → α) : Params α where
  Ac := (List.range m).map fun k => X (2 * k + 1)
  At := (List.range (m + 1)).map fun k => -X (2 * k)
  Hu := (List.range m).map fun k => X (2 * k + 1) + -X (2 * (k + 1))
  Hd := (List.range m).map fun k => X (2 * k + 1) + -X (2 * k)
  Tu := (List.range m).map fun k => S (2 * (k + 1) + 1) - S (2 * k + 1)
  Td := (List.range m).map fun k => S (2 * (k + 1)) - S (2 * k)
  Tcf := (List.range m).map fun k => T (2 * k + 1) - S (2 * k + 1)
  Tcb := (List.range m).map fun k => S (2 * (k + 1)) - T (2 * k + 1)

theorem params_eq (stine : List α → List α → List α → Except PyErr (List α)) (data : List α) (a : Args α) (rate : ℕ) (dt : α)
    (x t : List α) (hdt : samplingPeriod a = .ok dt) (hint : interpolate stine data a rate = .ok (x, .vec t))
    {c : List ℕ} {m : ℕ} {C D : ℕ → ℕ} {X T S : ℕ → α} (h : Data t x c m C D X T S) :
    waveParameters stine data a rate = .ok (paramsOf m X T S) := by
  unfold waveParameters
  rw [hdt, hint]
  simp only [bind, Except.bind]
  rw [h.tc]
  simp only [takeArgs]
  rw [takeIdx_map x _ D X h.val, takeIdx_map t _ D T h.time]
  simp only []
  rw [everyOther_range X 1 (2 * m + 1) m (by omega), everyOther_range0 X (2 * m + 1) (m + 1) (by omega),
    everyOther_range C 1 (2 * m + 2) (m + 1) (by omega), everyOther_range0 C (2 * m + 2) (m + 1) (by omega),
    everyOther_range T 1 (2 * m + 1) m (by omega), List.map_map]
  simp only [Function.comp_def]
  rw [drop_range, dropLast_range, Nat.add_sub_cancel, arith_range, arith_range]
  simp only []
  rw [ecross_map t x 0 (m + 1) _ (fun k => S (2 * k + 1)) fun k hk => h.cross _ (by omega),
    ecross_map t x 0 (m + 1) _ (fun k => S (2 * k)) fun k hk => h.cross _ (by omega)]
  simp only []
  rw [dropLast_range, drop_range, Nat.add_sub_cancel, arith_range, arith_range]
  simp only []
  rw [noZero_range _ _ _ fun k hk => (sub_pos.2 (h.front k hk)).ne',
    noZero_range _ _ (fun k => S (2 * (k + 1)) - T (2 * k + 1)) fun k hk => (sub_pos.2 (h.back k hk)).ne', diff_range, diff_range, Nat.add_sub_cancel]
  rfl

/-! ### C162: the dictionary of wave parameters -/

/-- C162.  For increasing times `wave_parameters` returns, for the zero-crossings `c` selected for trough waves, one entry for every
wave: the heights, periods, crest front and back periods of the wave, with linearly interpolated crossing times; all are positive.
`x` and `t` are the data and times, interpolated when `rate > 1`. -/
theorem C162_waves (stine : List α → List α → List α → Except PyErr (List α)) (data : List α) (a : Args α) (rate : ℕ)
    (dt : α) (x t : List α) (c : List ℕ) (hdt : samplingPeriod a = .ok dt)
    (hint : interpolate stine data a rate = .ok (x, .vec t)) (ht : t.Pairwise (· < ·)) (hlen : t.length = x.length)
    (hc : findcross x 0 (some "tw") = .ok c) (h3 : 3 ≤ c.length) :
    ∃ w m, waveParameters stine data a rate = .ok w ∧ c.length = 2 * m + 2 ∧
      (w.Ac.length = m ∧ w.At.length = m + 1 ∧ w.Hu.length = m ∧ w.Hd.length = m ∧ w.Tu.length = m ∧ w.Td.length = m ∧
        w.Tcf.length = m ∧ w.Tcb.length = m) ∧
      ∀ k < m, IsWave t x c w k := by
  obtain ⟨m, C, D, X, T, S, hm, h⟩ := exists_data t x c hc h3 ht hlen
  refine ⟨_, m, params_eq stine data a rate dt x t hdt hint h, ?_, ?_, ?_⟩
  · rw [h.crossings]; simp
  · simp [paramsOf]
  · intro k hk
    have hcget : ∀ j < 2 * m + 2, c[j]? = some (C j) := by
      intro j hj
      rw [h.crossings, getElem?_range_map, if_pos hj]
    have hd0 := h.dir (2 * k) (by omega)
    have hd1 := h.dir (2 * k + 1) (by omega)
    have hd2 := h.dir (2 * k + 2) (by omega)
    have hd3 := h.dir (2 * k + 3) (by omega)
    rw [if_pos (by omega)] at hd0 hd2
    rw [if_neg (by omega)] at hd1 hd3
    refine ⟨C (2 * k), C (2 * k + 1), C (2 * k + 2), C (2 * k + 3), S (2 * k), S (2 * k + 1), S (2 * k + 2), S (2 * k + 3),
      X (2 * k + 1), -X (2 * k), -X (2 * k + 2), T (2 * k + 1), T (2 * k), T (2 * k + 2),
      ⟨hcget _ (by omega), hcget _ (by omega), hcget _ (by omega), hcget _ (by omega)⟩, ⟨hd0, hd1, hd2, hd3⟩,
      ⟨h.crossTime _ (by omega), h.crossTime _ (by omega), h.crossTime _ (by omega), h.crossTime _ (by omega)⟩, ?_, ?_, ?_,
      ?_, ?_, ?_, ?_⟩
    · rw [neg_neg]; exact (h.low k (by omega)).2
    · exact (h.high k hk).2
    · rw [neg_neg]; exact (h.low (k + 1) (by omega)).2
    · refine ⟨?_, ?_, ?_, (h.high k hk).1, neg_pos.2 (h.low k (by omega)).1, neg_pos.2 (h.low (k + 1) (by omega)).1⟩
      · simp only [paramsOf]; rw [getElem?_range_map, if_pos hk]
      · simp only [paramsOf]; rw [getElem?_range_map, if_pos (by omega)]
      · simp only [paramsOf]; rw [getElem?_range_map, if_pos (by omega)]; rfl
    · refine ⟨?_, ?_⟩
      · simp only [paramsOf]; rw [getElem?_range_map, if_pos hk]
      · simp only [paramsOf]; rw [getElem?_range_map, if_pos hk]; rfl
    · refine ⟨?_, ?_, ?_, ?_⟩
      · simp only [paramsOf]; rw [getElem?_range_map, if_pos hk]; rfl
      · simp only [paramsOf]; rw [getElem?_range_map, if_pos hk]; rfl
      · exact sub_pos.2 (crossTime_lt_crossTime ht (h.crossTime _ (by omega)) (h.crossTime _ (by omega))
          ((h.lt (2 * k) (by omega)).trans (h.lt (2 * k + 1) (by omega))))
      · exact sub_pos.2 (crossTime_lt_crossTime ht (h.crossTime _ (by omega)) (h.crossTime _ (by omega))
          ((h.lt (2 * k + 1) (by omega)).trans (h.lt (2 * k + 2) (by omega))))
    · refine ⟨?_, ?_, ?_, ?_⟩
      · simp only [paramsOf]; rw [getElem?_range_map, if_pos hk]
      · simp only [paramsOf]; rw [getElem?_range_map, if_pos hk]; rfl
      · exact sub_pos.2 (h.front k hk)
      · exact sub_pos.2 (h.back k hk)

/-- C162.  With at most two of the selected crossings there is no wave and all the lists are empty. -/
theorem C162_none (stine : List α → List α → List α → Except PyErr (List α)) (data : List α) (a : Args α) (rate : ℕ)
    (dt : α) (x t : List α) (c : List ℕ) (hdt : samplingPeriod a = .ok dt)
    (hint : interpolate stine data a rate = .ok (x, .vec t)) (hc : findcross x 0 (some "tw") = .ok c) (h2 : c.length ≤ 2) :
    waveParameters stine data a rate = .ok ⟨[], [], [], [], [], [], [], []⟩ := by
  unfold waveParameters
  rw [hdt, hint]
  simp only [bind, Except.bind]
  rw [C11_findtc_few x 0 (some "tw") c hc h2]
  rfl

theorem linspace_pairwise (a b : α) (hab : a < b) (n : ℕ) : (linspace a b n).Pairwise (· < ·) := by
  unfold linspace
  rcases Nat.lt_or_ge 1 n with h | h
  · rw [List.pairwise_map]
    refine List.pairwise_lt_range.imp ?_
    intro i j hij
    rw [if_neg (by omega), if_neg (by omega)]
    have h1 : (0 : α) < ((n - 1 : ℕ) : α) := by exact_mod_cast (by omega : 0 < n - 1)
    have h2 : (0 : α) < (b - a) / ((n - 1 : ℕ) : α) := div_pos (by linarith) h1
    have h3 : (i : α) < j := by exact_mod_cast hij
    have := mul_lt_mul_of_pos_right h3 h2
    linarith
  · rcases n with _ | _ | n
    · simp
    · simp
    · omega

/-- C162.  What `_interpolate` provides: at rate one (or zero) the data and times themselves; at a higher rate `rate * n` equidistant,
increasing times from the first to the last. -/
theorem C162_rate (stine : List α → List α → List α → Except PyErr (List α)) (data t : List α) (rate : ℕ) (t0 tn : α)
    (h0 : t.head? = some t0) (hn : t.getLast? = some tn) (h : t0 < tn) :
    (rate ≤ 1 → interpolate stine data (.vec t) rate = .ok (data, .vec t)) ∧
    (1 < rate → ∀ x, stine (linspace t0 tn (data.length * rate)) t data = .ok x →
      interpolate stine data (.vec t) rate = .ok (x, .vec (linspace t0 tn (data.length * rate))) ∧
      (linspace t0 tn (data.length * rate)).Pairwise (· < ·) ∧
      (linspace t0 tn (data.length * rate)).length = data.length * rate ∧
      (data ≠ [] → (linspace t0 tn (data.length * rate)).head? = some t0 ∧
        (linspace t0 tn (data.length * rate)).getLast? = some tn)) := by
  constructor
  · intro hr
    rw [interpolate, if_neg (by omega)]
  · intro hr x hx
    refine ⟨?_, linspace_pairwise t0 tn h _, by simp [linspace], ?_⟩
    · simp only [interpolate, if_pos hr, Args.values, h0, hn, hx]
    · intro hd
      have hl : 1 < data.length * rate := by
        have : 1 ≤ data.length := List.length_pos_iff.2 hd
        nlinarith
      generalize data.length * rate = n at hl
      rw [List.head?_eq_getElem?, List.getLast?_eq_getElem?]
      simp only [linspace, List.length_map, List.length_range]
      rw [getElem?_range_map, getElem?_range_map, if_pos (by omega), if_neg (by omega), if_pos (by omega), if_neg (by omega)]
      have h1 : ((n - 1 : ℕ) : α) ≠ 0 := by
        have : (n - 1 : ℕ) ≠ 0 := by omega
        exact_mod_cast this
      refine ⟨by simp, ?_⟩
      rw [mul_div_cancel₀ _ h1]
      simp

/-- A stand-in for the interpolation, not used at rate one. -/
def noInterp : List ℚ → List ℚ → List ℚ → Except PyErr (List ℚ) := fun _ _ _ => .error .valueError

/-- A series with two waves. -/
example : waveParameters noInterp [1, -1, -3, -1, 2, 4, -2, -1, 1, 3, 5, -1, 1] (.vec ((List.range 13).map fun k : ℕ => (k : ℚ))) 1 =
    .ok ⟨[4, 5], [3, 2, 1], [6, 6], [7, 7], [25/6, 4], [31/6, 31/6], [5/3, 5/2], [2/3, 5/6]⟩ ∧
    findcross ([1, -1, -3, -1, 2, 4, -2, -1, 1, 3, 5, -1, 1] : List ℚ) 0 (some "tw") = .ok [0, 3, 5, 7, 10, 11] := by
  decide +kernel

/-! ### C163: steepness -/

theorem steep_base (stine : List α → List α → List α → Except PyErr (List α)) (pi : α) (data : List α) (a : Args α) (rate : ℕ)
    (dt : α) (x t : List α) (hdt : samplingPeriod a = .ok dt) (hint : interpolate stine data a rate = .ok (x, .vec t))
    {c : List ℕ} {m : ℕ} {C D : ℕ → ℕ} {X T S : ℕ → α} (h : Data t x c m C D X T S) (g : α) (d : ℤ) :
    let w := paramsOf m X T S
    steepness stine pi data a (.num d) rate g =
      if d = 0 then .ok ((List.range m).map fun k => X (2 * k + 1) / min (T (2 * k + 1) - S (2 * k + 1)) (S (2 * (k + 1)) - T (2 * k + 1)),
        (List.range m).map fun k => if T (2 * k + 1) - S (2 * k + 1) < S (2 * (k + 1)) - T (2 * k + 1) then
          X (2 * k + 1) + -X (2 * k) else X (2 * k + 1) + -X (2 * (k + 1)))
      else if d = 1 then .ok ((List.range m).map fun k => X (2 * k + 1) / (T (2 * k + 1) - S (2 * k + 1)), w.Hd)
      else if d = -1 then .ok ((List.range m).map fun k => X (2 * k + 1) / (S (2 * (k + 1)) - T (2 * k + 1)), w.Hu)
      else if d = 2 then .ok ((List.range m).map fun k => 2 * pi * X (2 * k + 1) / (S (2 * (k + 1)) - S (2 * k)) /
        (T (2 * k + 1) - S (2 * k + 1)) / g, w.Hd)
      else if d = -2 then .ok ((List.range m).map fun k => 2 * pi * X (2 * k + 1) / (S (2 * (k + 1) + 1) - S (2 * k + 1)) /
        (S (2 * (k + 1)) - T (2 * k + 1)) / g, w.Hu)
      else if d = 3 then .ok ((List.range m).map fun k => 2 * pi * (X (2 * k + 1) + -X (2 * k)) /
        (S (2 * (k + 1)) - S (2 * k)) ^ 2 / g, w.Hd)
      else if d = -3 then .ok ((List.range m).map fun k => 2 * pi * (X (2 * k + 1) + -X (2 * (k + 1))) /
        (S (2 * (k + 1) + 1) - S (2 * k + 1)) ^ 2 / g, w.Hu)
      else .error .unboundLocal := by
  intro w
  have hHu : arith (· + ·) ((List.range m).map fun k => X (2 * k + 1))
      ((List.range m).map fun k => -X (2 * (k + 1))) = .ok w.Hu := arith_range _ _ _ _
  have hHd : arith (· + ·) ((List.range m).map fun k => X (2 * k + 1))
      ((List.range m).map fun k => -X (2 * k)) = .ok w.Hd := arith_range _ _ _ _
  have hAt1 : (((List.range (m + 1)).map fun k => -X (2 * k)).drop 1) = (List.range m).map fun k => -X (2 * (k + 1)) := by
    rw [drop_range, Nat.add_sub_cancel]
  have hAt2 : (((List.range (m + 1)).map fun k => -X (2 * k)).dropLast) = (List.range m).map fun k => -X (2 * k) := by
    rw [dropLast_range, Nat.add_sub_cancel]
  have htu' : ecross (.vec t) x ((List.range m).map fun k => C (2 * k + 1)) 0
      = .ok ((List.range m).map fun k => S (2 * k + 1)) :=
    ecross_map t x 0 m _ _ fun k hk => h.cross _ (by omega)
  have htd' : ecross (.vec t) x ((List.range m).map fun k => C (2 * k + 2)) 0
      = .ok ((List.range m).map fun k => S (2 * (k + 1))) :=
    ecross_map t x 0 m _ _ fun k hk => h.cross _ (by omega)
  have htu : ecross (.vec t) x ((List.range (m + 1)).map fun k => C (2 * k + 1)) 0
      = .ok ((List.range (m + 1)).map fun k => S (2 * k + 1)) :=
    ecross_map t x 0 _ _ _ fun k hk => h.cross _ (by omega)
  have htd : ecross (.vec t) x ((List.range (m + 1)).map fun k => C (2 * k)) 0
      = .ok ((List.range (m + 1)).map fun k => S (2 * k)) :=
    ecross_map t x 0 _ _ _ fun k hk => h.cross _ (by omega)
  have hf := noZero_range (dt / ((max rate 1 : ℕ) : α)) m (fun k => T (2 * k + 1) - S (2 * k + 1))
    fun k hk => (sub_pos.2 (h.front k hk)).ne'
  have hb := noZero_range (dt / ((max rate 1 : ℕ) : α)) m (fun k => S (2 * (k + 1)) - T (2 * k + 1))
    fun k hk => (sub_pos.2 (h.back k hk)).ne'
  have hdu : diff ((List.range (m + 1)).map fun k => S (2 * k + 1)) = (List.range m).map fun k => S (2 * (k + 1) + 1) - S (2 * k + 1) := by
    rw [diff_range, Nat.add_sub_cancel]
  have hdd : diff ((List.range (m + 1)).map fun k => S (2 * k)) = (List.range m).map fun k => S (2 * (k + 1)) - S (2 * k) := by
    rw [diff_range, Nat.add_sub_cancel]
  have hzu : everyOther (((List.range (2 * m + 2)).map C).dropLast.drop 1) = (List.range m).map fun k => C (2 * k + 1) := by
    rw [dropLast_range, everyOther_range C 1 _ m (by omega)]
  unfold steepness
  rw [hdt, hint]
  simp only [bind, Except.bind, lift]
  rw [h.tc]
  simp only [takeArgs]
  rw [takeIdx_map x _ D X h.val, takeIdx_map t _ D T h.time]
  simp only [defnr]
  rw [everyOther_range X 1 (2 * m + 1) m (by omega), everyOther_range0 X (2 * m + 1) (m + 1) (by omega),
    everyOther_range C 1 (2 * m + 2) (m + 1) (by omega), everyOther_range0 C (2 * m + 2) (m + 1) (by omega),
    everyOther_range C 2 (2 * m + 2) m (by omega),
    everyOther_range T 1 (2 * m + 1) m (by omega), hzu, List.map_map]
  simp only [Function.comp_def, hAt1, hAt2, hHu, hHd, htu', htd', htu, htd, arith_range, hf, hb, hdu, hdd, List.map_map]
  by_cases h0 : d = 0
  · subst h0
    norm_num [arith_range, w, paramsOf, min_def_lt]
  by_cases h1 : d = 1
  · subst h1
    norm_num [arith_range]
  by_cases h2 : d = -1
  · subst h2
    norm_num [arith_range]
  by_cases h3 : d = 2
  · subst h3
    norm_num [arith_range]
  by_cases h4 : d = -2
  · subst h4
    norm_num [arith_range]
  by_cases h5 : d = 3
  · subst h5
    norm_num [arith_range, w, paramsOf]
  by_cases h6 : d = -3
  · subst h6
    norm_num [arith_range, w, paramsOf]
  simp only [if_neg h0, if_neg h1, if_neg h2, if_neg h3, if_neg h4, if_neg h5, if_neg h6]
  rw [if_neg (by omega), if_neg (by omega)]

/-- C163.  The steepnesses are the documented functions of the wave parameters: front speed and back speed, the greater of the two with
the corresponding height, front and back steepness, and total steepness of down-crossing and up-crossing waves. -/
theorem C163_steepness (stine : List α → List α → List α → Except PyErr (List α)) (pi : α) (data : List α) (a : Args α)
    (rate : ℕ) (dt : α) (x t : List α) (c : List ℕ) (hdt : samplingPeriod a = .ok dt)
    (hint : interpolate stine data a rate = .ok (x, .vec t)) (ht : t.Pairwise (· < ·)) (hlen : t.length = x.length)
    (hc : findcross x 0 (some "tw") = .ok c) (h3 : 3 ≤ c.length) (g : α) :
    ∃ w, waveParameters stine data a rate = .ok w ∧
      steepness stine pi data a (.num 1) rate g = .ok ((w.Ac.zip w.Tcf).map fun p => p.1 / p.2, w.Hd) ∧
      steepness stine pi data a (.num (-1)) rate g = .ok ((w.Ac.zip w.Tcb).map fun p => p.1 / p.2, w.Hu) ∧
      steepness stine pi data a (.num 0) rate g =
        .ok ((w.Ac.zip (w.Tcf.zip w.Tcb)).map fun p => max (p.1 / p.2.1) (p.1 / p.2.2),
          ((w.Tcf.zip w.Tcb).zip (w.Hd.zip w.Hu)).map fun p => if p.1.1 < p.1.2 then p.2.1 else p.2.2) ∧
      steepness stine pi data a (.num 2) rate g =
        .ok ((w.Ac.zip (w.Td.zip w.Tcf)).map fun p => 2 * pi * p.1 / p.2.1 / p.2.2 / g, w.Hd) ∧
      steepness stine pi data a (.num (-2)) rate g =
        .ok ((w.Ac.zip (w.Tu.zip w.Tcb)).map fun p => 2 * pi * p.1 / p.2.1 / p.2.2 / g, w.Hu) ∧
      steepness stine pi data a (.num 3) rate g = .ok ((w.Hd.zip w.Td).map fun p => 2 * pi * p.1 / p.2 ^ 2 / g, w.Hd) ∧
      steepness stine pi data a (.num (-3)) rate g = .ok ((w.Hu.zip w.Tu).map fun p => 2 * pi * p.1 / p.2 ^ 2 / g, w.Hu) := by
  obtain ⟨m, C, D, X, T, S, hm, h⟩ := exists_data t x c hc h3 ht hlen
  have key := fun d => steep_base stine pi data a rate dt x t hdt hint h g d
  refine ⟨_, params_eq stine data a rate dt x t hdt hint h, ?_, ?_, ?_, ?_, ?_, ?_, ?_⟩
  all_goals simp only [key, paramsOf, List.zip_map', List.map_map, Function.comp_def]
  · norm_num
  · norm_num
  · simp only [if_true]
    congr 2
    apply List.map_congr_left
    intro k hk
    have hk' : k < m := by simpa using hk
    have h1 := h.front k hk'
    have h2 := h.back k hk'
    have h0 := (h.high k hk').1
    have h1' : 0 < T (2 * k + 1) - S (2 * k + 1) := by linarith
    have h2' : 0 < S (2 * (k + 1)) - T (2 * k + 1) := sub_pos.2 h2
    rcases le_total (T (2 * k + 1) - S (2 * k + 1)) (S (2 * (k + 1)) - T (2 * k + 1)) with hle | hle
    · rw [min_eq_left hle, max_eq_left]
      exact div_le_div_of_nonneg_left h0.le h1' hle
    · rw [min_eq_right hle, max_eq_right]
      exact div_le_div_of_nonneg_left h0.le h2' hle
  · norm_num
  · norm_num
  · norm_num
  · norm_num

/-- C163.  The seven names stand for the numbers; any other number leads to an `UnboundLocalError` and any other name to a
`TypeError`, whatever the data. -/
theorem C163_kinds (stine : List α → List α → List α → Except PyErr (List α)) (pi : α) (data : List α) (a : Args α)
    (rate : ℕ) (g : α) :
    (∀ s d, (s, d) ∈ [("maxVcfVcb", (0 : ℤ)), ("Vcf", 1), ("Vcb", -1), ("Scf", 2), ("Scb", -2), ("StHd", 3), ("StHu", -3)] →
      steepness stine pi data a (.name s) rate g = steepness stine pi data a (.num d) rate g) ∧
    (∀ s, s ∉ ["maxVcfVcb", "Vcf", "Vcb", "Scf", "Scb", "StHd", "StHu"] → ∀ r, steepness stine pi data a (.name s) rate g ≠ .ok r) ∧
    (∀ d : ℤ, (d < -3 ∨ 3 < d) → ∀ r, steepness stine pi data a (.num d) rate g ≠ .ok r) := by
  refine ⟨?_, ?_, ?_⟩
  · intro s d hs
    have : defnr (.name s) = defnr (.num d) := by
      simp only [List.mem_cons, Prod.mk.injEq, List.not_mem_nil, or_false] at hs
      rcases hs with ⟨rfl, rfl⟩ | ⟨rfl, rfl⟩ | ⟨rfl, rfl⟩ | ⟨rfl, rfl⟩ | ⟨rfl, rfl⟩ | ⟨rfl, rfl⟩ | ⟨rfl, rfl⟩ <;> decide
    unfold steepness
    rw [this]
  · intro s hs r
    have : defnr (.name s) = none := by
      simp only [List.mem_cons, List.not_mem_nil, or_false, not_or] at hs
      simp [defnr, hs]
    unfold steepness
    rw [this]
    simp only [bind, Except.bind]
    split
    · simp
    split
    · simp
    split
    · simp
    split
    · simp
    split <;> simp
  · intro d hd r
    unfold steepness
    simp only [bind, Except.bind, defnr]
    split
    · simp
    split
    · simp
    split
    · simp
    split
    · simp
    split
    · simp
    rw [if_neg (by omega), if_neg (by omega)]
    rw [if_neg (by omega), if_neg (by omega), if_neg (by omega), if_neg (by omega), if_neg (by omega), if_neg (by omega),
      if_neg (by omega)]
    simp

example : steepness noInterp (22/7) [1, -1, -3, -1, 2, 4, -2, -1, 1, 3, 5, -1, 1]
    (.vec ((List.range 13).map fun k : ℕ => (k : ℚ))) (.name "maxVcfVcb") 1 10 = .ok ([6, 6], [6, 6]) ∧
    steepness noInterp (22/7) [1, -1, -3, -1, 2, 4, -2, -1, 1, 3, 5, -1, 1]
    (.vec ((List.range 13).map fun k : ℕ => (k : ℚ))) (.num 1) 1 10 = .ok ([12/5, 2], [7, 7]) := by
  decide +kernel

end Wafo.Waves
