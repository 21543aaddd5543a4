import Verif.Cycles.Lemmas
import Mathlib.Data.Rat.Defs
import Mathlib.Data.Rat.Floor
import Mathlib.Algebra.Order.Field.Rat
import Mathlib.Tactic.FieldSimp
import Mathlib.Tactic.NormNum

/-!
Properties C24, C26 - C29 (the damage laws C25 are in `Verif.Cycles.Damage`).
-/

set_option linter.unusedSectionVars false

namespace Wafo.Cycles

/-! ## C24: cycle pairs -/

section
variable {α : Type*} [LinearOrder α]

/-- Neighbouring turning points differ and the direction changes at every point. -/
def Zigzag (data : List α) : Prop :=
  (∀ (i : ℕ) a b, data[i]? = some a → data[i + 1]? = some b → a ≠ b) ∧
  (∀ (i : ℕ) a b c, data[i]? = some a → data[i + 1]? = some b → data[i + 2]? = some c →
    (a < b ↔ c < b))

theorem Zigzag.parity {data : List α} (hz : Zigzag data) (d0 d1 : α) (h0 : data[0]? = some d0)
    (h1 : data[1]? = some d1) : ∀ (i : ℕ) a b, data[i]? = some a → data[i + 1]? = some b →
    (a < b ↔ (d0 < d1 ↔ i % 2 = 0)) := by
  intro i
  induction i with
  | zero =>
    intro a b ha hb
    simp only [zero_add] at hb
    rw [h0] at ha; rw [h1] at hb
    cases ha; cases hb
    simp
  | succ i ih =>
    intro a b ha hb
    obtain ⟨z, hzz⟩ : ∃ z, data[i]? = some z := by
      have : i + 1 < data.length := (List.getElem?_eq_some_iff.1 ha).1
      exact ⟨data[i], List.getElem?_eq_getElem (by omega)⟩
    have e1 := ih z a hzz ha
    have e2 := hz.2 i z a b hzz ha hb
    have e3 := hz.1 (i + 1) a b ha hb
    have e4 : a < b ↔ ¬ b < a := by
      rw [not_lt]; exact ⟨le_of_lt, fun h => lt_of_le_of_ne h e3⟩
    rw [e4, ← e2, e1]
    by_cases hd : d0 < d1 <;> simp [hd] <;> omega

/-- **C24.**  For every alternating sequence of at least two turning points: `min2max` pairs the
minima with the maxima that follow them.  The arrays of minima and maxima have equal length, the
k-th pair consists of the consecutive turning points at `s + 2 k` and `s + 2 k + 1`, is rising, and
every rising step of the sequence occurs as a pair. -/
theorem C24_min2max (data : List α) (hz : Zigzag data) (hn : 2 ≤ data.length) :
    ∃ m M s, cyclePairs true data = .ok (m, M) ∧ m.length = M.length ∧
      (∀ (k : ℕ) a b, m[k]? = some a → M[k]? = some b →
        data[s + 2 * k]? = some a ∧ data[s + 2 * k + 1]? = some b ∧ a < b) ∧
      (∀ (i : ℕ) a b, data[i]? = some a → data[i + 1]? = some b → a < b →
        ∃ k, i = s + 2 * k ∧ m[k]? = some a ∧ M[k]? = some b) := by
  match data, hn with
  | d0 :: d1 :: tl, _ =>
    set data := d0 :: d1 :: tl with hdata
    have hp := hz.parity d0 d1 (by simp [hdata]) (by simp [hdata])
    have hne := hz.1 0 d0 d1 (by simp [hdata]) (by simp [hdata])
    have hlt : d0 < d1 ↔ ¬ d0 > d1 := by
      rw [gt_iff_lt, not_lt]; exact ⟨le_of_lt, fun h => lt_of_le_of_ne h hne⟩
    set s : ℕ := if d0 > d1 then 1 else 0 with hs
    refine ⟨_, _, s, rfl, ?_, ?_, ?_⟩
    · exact slice_lengths _ _
    · intro k a b ha hb
      rw [sliceM1_getElem?, ← hs] at ha
      rw [sliceTo_getElem?, ← hs] at hb
      split at ha
      · have hb' : data[s + 2 * k + 1]? = some b := by
          rw [← hb]; congr 1; omega
        refine ⟨ha, hb', ?_⟩
        rw [hp _ a b ha hb', hlt, hs]
        by_cases h : d0 > d1 <;> simp [h]
      · simp at ha
    · intro i a b ha hb hab
      rw [hp i a b ha hb, hlt] at hab
      have hi : s + 2 * (i / 2) = i := by
        rw [hs]
        by_cases h : d0 > d1 <;> simp [h] at hab ⊢ <;> omega
      refine ⟨i / 2, hi.symm, ?_, ?_⟩
      · rw [sliceM1_getElem?, hi, if_pos (List.getElem?_eq_some_iff.1 hb).1, ha]
      · rw [sliceTo_getElem?, show s + 1 + 2 * (i / 2) = i + 1 by omega, hb]

/-- **C24**, the other kind: `max2min` pairs the maxima with the minima that follow them (the result
is still returned as minima and maxima). -/
theorem C24_max2min (data : List α) (hz : Zigzag data) (hn : 2 ≤ data.length) :
    ∃ m M s, cyclePairs false data = .ok (m, M) ∧ m.length = M.length ∧
      (∀ (k : ℕ) a b, M[k]? = some a → m[k]? = some b →
        data[s + 2 * k]? = some a ∧ data[s + 2 * k + 1]? = some b ∧ b < a) ∧
      (∀ (i : ℕ) a b, data[i]? = some a → data[i + 1]? = some b → b < a →
        ∃ k, i = s + 2 * k ∧ M[k]? = some a ∧ m[k]? = some b) := by
  match data, hn with
  | d0 :: d1 :: tl, _ =>
    set data := d0 :: d1 :: tl with hdata
    have hp := hz.parity d0 d1 (by simp [hdata]) (by simp [hdata])
    have hne := hz.1 0 d0 d1 (by simp [hdata]) (by simp [hdata])
    have hlt : d0 < d1 ↔ ¬ d0 > d1 := by
      rw [gt_iff_lt, not_lt]; exact ⟨le_of_lt, fun h => lt_of_le_of_ne h hne⟩
    have hdown : ∀ (i : ℕ) a b, data[i]? = some a → data[i + 1]? = some b → (b < a ↔ ¬ a < b) := by
      intro i a b ha hb
      rw [not_lt]
      exact ⟨le_of_lt, fun h => lt_of_le_of_ne h (hz.1 i a b ha hb).symm⟩
    set s : ℕ := if d0 > d1 then 0 else 1 with hs
    refine ⟨_, _, s, rfl, ?_, ?_, ?_⟩
    · exact (slice_lengths _ _).symm
    · intro k a b ha hb
      rw [sliceM1_getElem?, ← hs] at ha
      rw [sliceTo_getElem?, ← hs] at hb
      split at ha
      · have hb' : data[s + 2 * k + 1]? = some b := by
          rw [← hb]; congr 1; omega
        refine ⟨ha, hb', ?_⟩
        rw [hdown _ a b ha hb', hp _ a b ha hb', hlt, hs]
        by_cases h : d0 > d1 <;> simp [h]
      · simp at ha
    · intro i a b ha hb hab
      rw [hdown i a b ha hb, hp i a b ha hb, hlt] at hab
      have hi : s + 2 * (i / 2) = i := by
        rw [hs]
        by_cases h : d0 > d1 <;> simp [h] at hab ⊢ <;> omega
      refine ⟨i / 2, hi.symm, ?_, ?_⟩
      · rw [sliceM1_getElem?, hi, if_pos (List.getElem?_eq_some_iff.1 hb).1, ha]
      · rw [sliceTo_getElem?, show s + 1 + 2 * (i / 2) = i + 1 by omega, hb]

/-- Fewer than two turning points raise an IndexError. -/
theorem C24_too_short (b : Bool) (data : List α) (hn : data.length < 2) :
    cyclePairs b data = .error .indexError := by
  match data, hn with
  | [], _ => rfl
  | [_], _ => rfl

end

example : Zigzag [3, 1, 4, 0, 2] := by
  constructor
  · intro i a b
    rcases i with _ | _ | _ | _ | i <;> simp <;> omega
  · intro i a b c
    rcases i with _ | _ | _ | i <;> simp <;> omega

example : cyclePairs true [3, 1, 4, 0, 2] = .ok ([1, 0], [4, 2]) := by decide
example : cyclePairs false [3, 1, 4, 0, 2] = .ok ([1, 0], [3, 4]) := by decide

/-! ## C26, C27: level crossings -/

section
variable {α : Type*} [Field α] [LinearOrder α] [IsStrictOrderedRing α]

/-- Meaning of the four count definitions for one cycle (min, max) and one level: upcrossings only,
upcrossings and maxima, upcrossings with minima and maxima, upcrossings and minima. -/
def countsAt (d : ℕ) (u : α) (c : α × α) : Bool :=
  match d with
  | 1 => decide (c.1 < u ∧ u < c.2)
  | 2 => decide (c.1 < u ∧ u ≤ c.2)
  | 3 => decide (c.1 ≤ u ∧ u ≤ c.2)
  | _ => decide (c.1 ≤ u ∧ u < c.2)

/-- The zero padding of the internal array does not interfere: some maximum is not negative, or all
extremes are different. -/
def NoGhost (cyc : List (α × α)) : Prop :=
  (∃ c ∈ cyc, 0 ≤ c.2) ∨ (cyc.map Prod.fst ++ cyc.map Prod.snd).Nodup

theorem mergeGo_strict : ∀ (l : List (Ev α)) (cur : Ev α),
    ((cur :: l).map Ev.lev).Pairwise (· < ·) → mergeGo cur l = cur :: l
  | [], cur, _ => rfl
  | e :: l, cur, hs => by
      have hs' := hs
      rw [List.map_cons, List.pairwise_cons] at hs
      unfold mergeGo
      rw [if_neg, mergeGo_strict l e hs.2]
      exact (hs.1 e.lev (by simp)).ne'

theorem minimaMaxima_eq (cyc : List (α × α)) (h : ∀ c ∈ cyc, c.1 < c.2) :
    minimaMaxima cyc = cyc := by
  unfold minimaMaxima
  have : cyc.filter (fun c => decide (c.1 ≤ c.2)) = cyc := by
    rw [List.filter_eq_self]; intro c hc; simpa using (h c hc).le
  simp only [this]
  cases cyc <;> simp

/-- What the function computes before the count definition is applied. -/
theorem levels_core (cyc : List (α × α)) (hne : cyc ≠ []) (h : ∀ c ∈ cyc, c.1 < c.2)
    (hg : NoGhost cyc) :
    ∃ M : List (Ev α), (M.map Ev.lev).Pairwise (· < ·) ∧
      (∀ u, u ∈ M.map Ev.lev ↔ ∃ c ∈ cyc, u = c.1 ∨ u = c.2) ∧
      (∀ P f, Additive f → sumBy P f M = sumBy P f (events cyc)) ∧
      ∀ kind d, defnr kind = .ok d →
        levelCrossings kind cyc = .ok (M.map Ev.lev, counts d M) := by
  have hmm := minimaMaxima_eq cyc h
  have hperm := sortEv_perm (events cyc)
  have hsort := sortEv_sorted (events cyc)
  cases hS : sortEv (events cyc) with
  | nil =>
    rw [hS] at hperm
    have := hperm.length_eq
    cases cyc with
    | nil => exact absurd rfl hne
    | cons a l => simp [events] at this
  | cons e l =>
    rw [hS] at hperm hsort
    have hmem : ∀ u, u ∈ (mergeGo e l).map Ev.lev ↔ ∃ c ∈ cyc, u = c.1 ∨ u = c.2 := by
      intro u
      rw [mem_mergeGo, ← events_lev_mem]
      exact (hperm.map Ev.lev).mem_iff
    refine ⟨mergeGo e l, mergeGo_sorted l e hsort, hmem, ?_, ?_⟩
    · intro P f hf
      rw [sumBy_mergeGo P f hf]
      exact sumBy_perm P f hperm
    · intro kind d hd
      unfold levelCrossings
      rw [hd, hmm, hS]
      dsimp only
      obtain ⟨t, ht⟩ : ∃ t, ((mergeGo e l).map Ev.lev).getLast? = some t := by
        cases hh : ((mergeGo e l).map Ev.lev).getLast? with
        | none => simp [mergeGo_ne_nil] at hh
        | some t => exact ⟨t, rfl⟩
      have hp : (e :: l).length - (mergeGo e l).length = 0 ∨ 0 ≤ t := by
        rcases hg with ⟨c, hc, h0⟩ | hnd
        · right
          have h1 : c.2 ∈ (mergeGo e l).map Ev.lev := (hmem c.2).2 ⟨c, hc, Or.inr rfl⟩
          have h2 := mergeGo_sorted l e hsort
          obtain ⟨i, hi⟩ := List.getLast?_eq_some_iff.1 ht
          rw [hi] at h1 h2
          rw [List.pairwise_append] at h2
          rcases List.mem_append.1 h1 with h1 | h1
          · exact le_trans h0 (h2.2.2 _ h1 t (by simp)).le
          · simp at h1; rw [← h1]; exact h0
        · left
          have hnd' : ((e :: l).map Ev.lev).Nodup := by
            have hp1 := hperm.map Ev.lev
            rw [hp1.nodup_iff]
            have : (events cyc).map Ev.lev = cyc.map Prod.snd ++ cyc.map Prod.fst := by
              simp [events, Function.comp_def]
            rw [this]
            exact List.nodup_append_comm.1 hnd
          have hst : ((e :: l).map Ev.lev).Pairwise (· < ·) :=
            (hsort.and hnd').imp (fun h => lt_of_le_of_ne h.1 h.2)
          rw [mergeGo_strict l e hst]
          omega
      have harg := argmax_padded _ (mergeGo_sorted l e hsort) t ht _ hp
      have hlen : 0 < (mergeGo e l).length := List.length_pos_iff.2 (mergeGo_ne_nil l e)
      rw [List.map_append, List.map_replicate, harg, List.length_map,
        show (mergeGo e l).length - 1 + 1 = (mergeGo e l).length by omega, List.take_left']
      rfl

theorem cum_at (M : List (Ev α)) (hs : (M.map Ev.lev).Pairwise (· < ·)) (k : ℕ) (e : Ev α)
    (he : M[k]? = some e) : (cumsum 0 (M.map Ev.d1))[k]?
      = some (sumBy (fun u => decide (u ≤ e.lev)) Ev.d1 M) := by
  rw [cumsum_getElem?, if_pos (by simpa using (List.getElem?_eq_some_iff.1 he).1), zero_add,
    prefix_sum Ev.d1 M hs k e he]

theorem cumsum_length (l : List ℤ) (s : ℤ) : (cumsum s l).length = l.length := by
  induction l generalizing s with
  | nil => rfl
  | cons a l ih => simp [cumsum, ih]

/-- **C27 (integer kinds 1, 2, 3).**  For all non-empty lists of cycles with minimum < maximum (and no
interference from the zero padding, see `C27_refuted`): the reported levels are exactly the distinct
extremes in increasing order, and the count at level `u` is exactly the number of cycles with
`min < u < max` (kind 1), `min < u <= max` (kind 2), `min <= u <= max` (kind 3). -/
theorem C27_counts_partial (cyc : List (α × α)) (hne : cyc ≠ []) (h : ∀ c ∈ cyc, c.1 < c.2)
    (hg : NoGhost cyc) (d : ℕ) (hd : d = 1 ∨ d = 2 ∨ d = 3) :
    ∃ lv ct, levelCrossings (.num d) cyc = .ok (lv, ct) ∧ lv.Pairwise (· < ·) ∧
      (∀ u, u ∈ lv ↔ ∃ c ∈ cyc, u = c.1 ∨ u = c.2) ∧ ct.length = lv.length ∧
      ∀ (k : ℕ) u n, lv[k]? = some u → ct[k]? = some n → n = cyc.countP (countsAt d u) := by
  obtain ⟨M, hs, hmem, hsum, hlc⟩ := levels_core cyc hne h hg
  have hdn : defnr (.num d) = .ok d := by rcases hd with rfl | rfl | rfl <;> rfl
  refine ⟨_, _, hlc _ d hdn, hs, hmem, ?_, ?_⟩
  · rcases hd with rfl | rfl | rfl <;> simp [counts, cumsum_length]
  · intro k u n hu hn
    obtain ⟨e, he, rfl⟩ : ∃ e, M[k]? = some e ∧ e.lev = u := by
      rw [List.getElem?_map] at hu
      cases hM : M[k]? with
      | none => rw [hM] at hu; simp at hu
      | some e => rw [hM] at hu; simp at hu; exact ⟨e, rfl, hu⟩
    have hcum := cum_at M hs k e he
    rw [hsum _ _ (Or.inl rfl), sumBy_events_d1] at hcum
    have hmemM := List.mem_of_getElem? he
    have e2 := single_sum Ev.d2 M hs e hmemM
    rw [hsum _ _ (Or.inr (Or.inl rfl)), sumBy_events_d2] at e2
    have e3 := single_sum Ev.d3 M hs e hmemM
    rw [hsum _ _ (Or.inr (Or.inr rfl)), sumBy_events_d3] at e3
    generalize e.lev = u at *
    have A1 := count_split (fun c => decide (c.1 ≤ u)) (fun c => decide (c.1 = u))
      (fun c => decide (c.1 < u)) cyc (fun c _ => by
        rcases lt_trichotomy c.1 u with h | h | h
        · simp [h, h.le, h.ne]
        · simp [h]
        · simp [h.not_ge, h.ne', h.not_gt])
    have A2 := count_split (fun c => decide (c.2 ≤ u)) (fun c => decide (c.2 = u))
      (fun c => decide (c.2 < u)) cyc (fun c _ => by
        rcases lt_trichotomy c.2 u with h | h | h
        · simp [h, h.le, h.ne]
        · simp [h]
        · simp [h.not_ge, h.ne', h.not_gt])
    rcases hd with rfl | rfl | rfl
    · simp only [counts, List.getElem?_zipWith, he, hcum, Option.some.injEq] at hn
      have A3 := count_split (fun c => decide (c.1 < u)) (fun c => decide (c.2 ≤ u))
        (countsAt 1 u) cyc (fun c hc => by
          have := h c hc
          simp only [countsAt]
          by_cases h1 : c.1 < u <;> by_cases h2 : c.2 ≤ u <;> simp [h1, h2, not_lt.2, not_le.1]
          · exact absurd (lt_of_lt_of_le this h2) h1)
      omega
    · simp only [counts, List.getElem?_zipWith, he, hcum, Option.some.injEq] at hn
      have A3 := count_split (fun c => decide (c.1 < u)) (fun c => decide (c.2 < u))
        (countsAt 2 u) cyc (fun c hc => by
          have := h c hc
          simp only [countsAt]
          by_cases h1 : c.1 < u <;> by_cases h2 : c.2 < u <;> simp [h1, h2, not_lt.1]
          · exact absurd (this.trans h2) h1)
      omega
    · simp only [counts, List.getElem?_zipWith, he, hcum, Option.some.injEq] at hn
      have A3 := count_split (fun c => decide (c.1 ≤ u)) (fun c => decide (c.2 < u))
        (countsAt 3 u) cyc (fun c hc => by
          have := h c hc
          simp only [countsAt]
          by_cases h1 : c.1 ≤ u <;> by_cases h2 : c.2 < u <;> simp [h1, h2, not_lt.1]
          · exact absurd (this.trans h2).le h1)
      omega

/-- **C27 (integer kind 4).**  Below the highest level the count is the number of cycles with
`min <= u < max`; at the highest level the count of the level before is repeated. -/
theorem C27_minima_partial (cyc : List (α × α)) (hne : cyc ≠ []) (h : ∀ c ∈ cyc, c.1 < c.2)
    (hg : NoGhost cyc) :
    ∃ lv ct, levelCrossings (.num 4) cyc = .ok (lv, ct) ∧ lv.Pairwise (· < ·) ∧
      (∀ u, u ∈ lv ↔ ∃ c ∈ cyc, u = c.1 ∨ u = c.2) ∧ ct.length = lv.length ∧ 2 ≤ lv.length ∧
      (∀ (k : ℕ) u n, k + 1 < lv.length → lv[k]? = some u → ct[k]? = some n →
        n = cyc.countP (countsAt 4 u)) ∧
      ct[lv.length - 1]? = ct[lv.length - 2]? := by
  obtain ⟨M, hs, hmem, hsum, hlc⟩ := levels_core cyc hne h hg
  have hlen2 : 2 ≤ (M.map Ev.lev).length := by
    obtain ⟨c, hc⟩ := List.exists_mem_of_ne_nil cyc hne
    have m1 := (hmem c.1).2 ⟨c, hc, Or.inl rfl⟩
    have m2 := (hmem c.2).2 ⟨c, hc, Or.inr rfl⟩
    have hlt := h c hc
    match hL : M.map Ev.lev, m1, m2 with
    | [a], m1, m2 =>
      simp only [List.mem_singleton] at m1 m2
      rw [m1, m2] at hlt
      exact absurd hlt (lt_irrefl _)
    | a :: b :: l, _, _ => simp
  have hlM : M.length = (M.map Ev.lev).length := by simp
  refine ⟨_, _, hlc (.num 4) 4 rfl, hs, hmem, ?_, hlen2, ?_, ?_⟩
  · simp [counts, cumsum_length]
  · intro k u n hk hu hn
    obtain ⟨e, he, rfl⟩ : ∃ e, M[k]? = some e ∧ e.lev = u := by
      rw [List.getElem?_map] at hu
      cases hM : M[k]? with
      | none => rw [hM] at hu; simp at hu
      | some e => rw [hM] at hu; simp at hu; exact ⟨e, rfl, hu⟩
    have hcum := cum_at M hs k e he
    rw [hsum _ _ (Or.inl rfl), sumBy_events_d1] at hcum
    simp only [counts] at hn
    rw [List.getElem?_set_ne (by rw [cumsum_length, List.length_map]; omega), hcum] at hn
    simp only [Option.some.injEq] at hn
    generalize e.lev = u at *
    have A3 := count_split (fun c => decide (c.1 ≤ u)) (fun c => decide (c.2 ≤ u))
      (countsAt 4 u) cyc (fun c hc => by
        have := h c hc
        simp only [countsAt]
        by_cases h1 : c.1 ≤ u <;> by_cases h2 : c.2 ≤ u <;> simp [h1, h2, not_lt.2, not_le.1]
        · exact absurd (this.trans_le h2).le h1)
    omega
  · simp only [counts]
    have hcl : (cumsum 0 (M.map Ev.d1)).length = M.length := by simp [cumsum_length]
    rw [hcl, ← hlM, List.getElem?_set_self (by omega), List.getElem?_set_ne (by omega),
      List.getD_eq_getElem?_getD, List.getElem?_eq_getElem (by omega)]
    simp

end

example : NoGhost ([(-2, 1), (-1, 1), (0, 3)] : List (ℚ × ℚ)) := Or.inl ⟨(0, 3), by simp, by norm_num⟩
example : levelCrossings (.num 1) ([(-2, 1), (-1, 1), (0, 3)] : List (ℚ × ℚ))
    = .ok ([-2, -1, 0, 1, 3], [0, 1, 2, 1, 0]) := by decide +kernel
example : levelCrossings (.num 4) ([(-2, 1), (-1, 1), (0, 3)] : List (ℚ × ℚ))
    = .ok ([-2, -1, 0, 1, 3], [1, 2, 3, 1, 1]) := by decide +kernel

/-- **C27 refuted without the hypothesis.**  When all extremes are negative and two of them coincide the
zero padding of the work array is taken for the highest level: a level `0` is reported although no
cycle has an extreme there. -/
theorem C27_refuted : ∃ cyc : List (ℚ × ℚ), (∀ c ∈ cyc, c.1 < c.2) ∧
    levelCrossings (.num 1) cyc = .ok ([-3, -2, -1, 0], [0, 1, 0, 0]) ∧
    ¬ ∃ c ∈ cyc, c.1 = 0 ∨ c.2 = 0 :=
  ⟨[(-3, -1), (-2, -1)], by decide +kernel, by decide +kernel, by decide +kernel⟩

section
variable {α : Type*} [Field α] [LinearOrder α] [IsStrictOrderedRing α]

/-- **C27 for max-to-min cycles.**  Cycles given as (maximum, minimum) are counted like the same cycles given as (minimum,
maximum), for every kind. -/
theorem C27_swapped (cyc : List (α × α)) (h : ∀ c ∈ cyc, c.2 < c.1) (kind : Kind) :
    levelCrossings kind cyc = levelCrossings kind (cyc.map fun c => (c.2, c.1)) := by
  have e1 : cyc.filter (fun c => decide (c.1 ≤ c.2)) = [] := by
    rw [List.filter_eq_nil_iff]
    intro c hc; simpa using h c hc
  have e2 : cyc.filter (fun c => decide (c.1 ≥ c.2)) = cyc := by
    rw [List.filter_eq_self]
    intro c hc; simpa using (h c hc).le
  have e3 : (cyc.map fun c => (c.2, c.1)).filter (fun c => decide (c.1 ≤ c.2)) = cyc.map fun c => (c.2, c.1) := by
    rw [List.filter_eq_self]
    intro c hc
    obtain ⟨d, hd, rfl⟩ := List.mem_map.1 hc
    simpa using (h d hd).le
  have : minimaMaxima cyc = minimaMaxima (cyc.map fun c => (c.2, c.1)) := by
    simp only [minimaMaxima, e1, e2, e3, List.isEmpty_nil, if_true]
    cases cyc with
    | nil => rfl
    | cons c l => rfl
  simp only [levelCrossings, this]

/-- **C27 for mixed cycles.**  As soon as one cycle of the list is given as (minimum, maximum), all cycles given as
(maximum, minimum) are ignored. -/
theorem C27_mixed (cyc : List (α × α)) (c0 : α × α) (h0 : c0 ∈ cyc) (h : c0.1 ≤ c0.2) (kind : Kind) :
    levelCrossings kind cyc = levelCrossings kind (cyc.filter fun c => decide (c.1 ≤ c.2)) := by
  have hne : (cyc.filter fun c => decide (c.1 ≤ c.2)) ≠ [] := by
    intro e
    have : c0 ∈ cyc.filter fun c => decide (c.1 ≤ c.2) := List.mem_filter.2 ⟨h0, by simpa using h⟩
    rw [e] at this; simp at this
  have : minimaMaxima cyc = minimaMaxima (cyc.filter fun c => decide (c.1 ≤ c.2)) := by
    simp only [minimaMaxima, List.filter_filter, Bool.and_self]
    have hb : (cyc.filter fun c => decide (c.1 ≤ c.2)).isEmpty = false := by
      rw [List.isEmpty_eq_false_iff]; exact hne
    simp only [hb, Bool.false_eq_true, if_false]
  simp only [levelCrossings, this]

end

example : levelCrossings (.num 2) ([(1, -2), (1, -1), (3, 0)] : List (ℚ × ℚ))
    = .ok ([-2, -1, 0, 1, 3], [0, 1, 2, 3, 1]) := by decide +kernel
example : levelCrossings (.num 2) ([(5, -4), (-1, 1)] : List (ℚ × ℚ)) = .ok ([-1, 1], [0, 1]) := by decide +kernel

section
variable {α : Type*} [Field α] [LinearOrder α] [IsStrictOrderedRing α]

/-- **C26 refuted.**  The documented kind 'u' is rejected for every list of cycles. -/
theorem C26_u_rejected (cyc : List (α × α)) :
    levelCrossings .u cyc = .error .valueError := rfl

/-- **C26, what the names select instead.**  The table is off by one: 'uM' is integer kind 1 (upcrossings
only), 'umM' is kind 2 (upcrossings and maxima), 'um' is kind 3 (upcrossings, minima and maxima).
With `C27_counts_partial` this says what is counted. -/
theorem C26_names_partial (cyc : List (α × α)) :
    levelCrossings .uM cyc = levelCrossings (.num 1) cyc ∧
    levelCrossings .umM cyc = levelCrossings (.num 2) cyc ∧
    levelCrossings .um cyc = levelCrossings (.num 3) cyc := ⟨rfl, rfl, rfl⟩

/-- **C26, consequence for every list of cycles.**  'uM' (upcrossings and maxima, the default) counts at
the highest maximum no cycle at all, although at least one cycle has its maximum there. -/
theorem C26_uM_misses_maxima (cyc : List (α × α)) (hne : cyc ≠ []) (h : ∀ c ∈ cyc, c.1 < c.2)
    (hg : NoGhost cyc) :
    ∃ lv ct, levelCrossings .uM cyc = .ok (lv, ct) ∧
      ∀ (k : ℕ) u n, lv[k]? = some u → ct[k]? = some n → (∀ c ∈ cyc, c.2 ≤ u) →
        n = 0 ∧ 0 < cyc.countP (countsAt 2 u) := by
  obtain ⟨lv, ct, h1, _, h3, _, h5⟩ := C27_counts_partial cyc hne h hg 1 (Or.inl rfl)
  refine ⟨lv, ct, h1, ?_⟩
  intro k u n hu hn htop
  constructor
  · rw [h5 k u n hu hn]
    have : cyc.countP (countsAt 1 u) = 0 := by
      rw [List.countP_eq_zero]
      intro c hc
      simp only [countsAt, decide_eq_true_eq, not_and, not_lt]
      exact fun _ => htop c hc
    rw [this]; rfl
  · obtain ⟨c, hc, hcu⟩ := (h3 u).1 (List.mem_of_getElem? hu)
    rw [List.countP_pos_iff]
    have hlt := h c hc
    have hle := htop c hc
    refine ⟨c, hc, ?_⟩
    rcases hcu with rfl | rfl
    · exact absurd (lt_of_lt_of_le hlt hle) (lt_irrefl _)
    · simp [countsAt, hlt]

/-- Any other kind raises a ValueError; the integers 1..4 do not. -/
theorem C26_other (cyc : List (α × α)) (k : ℤ) (hk : k < 1 ∨ 4 < k) :
    levelCrossings (.num k) cyc = .error .valueError := by
  have : defnr (.num k) = .error .valueError := by
    unfold defnr
    split <;> simp_all
  unfold levelCrossings
  rw [this]

end

/-! ## C28, C29: cycle matrix -/

section
variable {α : Type*} [Field α] [LinearOrder α] [IsStrictOrderedRing α] [FloorRing α]

theorem discretize1_some (a b : α) (n : ℤ) (hn : 2 ≤ n) (ddef : ℤ)
    (hd : ddef = 0 ∨ ddef = 1 ∨ ddef = -1) (c : α × α) :
    ∃ i j, discretize1 a b n ddef c = some (i, j) ∧ 0 ≤ i ∧ i < n ∧ 0 ≤ j ∧ j < n := by
  rcases hd with rfl | rfl | rfl
  · refine ⟨_, _, by unfold discretize1; rw [if_pos rfl], ?_⟩
    have h1 := clip_bounds (roundEven ((c.1 - a) / ((b - a) / ((n : α) - 1)) + 1)) 0 (n - 1) (by omega)
    have h2 := clip_bounds (roundEven ((c.2 - a) / ((b - a) / ((n : α) - 1)) + 1)) 0 (n - 1) (by omega)
    omega
  · refine ⟨_, _, by unfold discretize1; rw [if_neg (by decide), if_pos rfl], ?_⟩
    have h1 := clip_bounds ⌊(c.1 - a) / ((b - a) / ((n : α) - 1)) + 1⌋ 0 (n - 2) (by omega)
    have h2 := clip_bounds ⌈(c.2 - a) / ((b - a) / ((n : α) - 1)) + 1⌉ 1 (n - 1) (by omega)
    omega
  · refine ⟨_, _, by unfold discretize1; rw [if_neg (by decide), if_neg (by decide), if_pos rfl], ?_⟩
    have h1 := clip_bounds ⌈(c.1 - a) / ((b - a) / ((n : α) - 1)) + 1⌉ 1 (n - 1) (by omega)
    have h2 := clip_bounds ⌊(c.2 - a) / ((b - a) / ((n : α) - 1)) + 1⌋ 0 (n - 2) (by omega)
    omega

/-- **C28, indices.**  For every grid with at least two levels, every documented `ddef` and every list of
cycles the discretization succeeds, yields one index pair per cycle, and every index lies in
`0 .. n - 1`. -/
theorem C28_indices (a b : α) (n : ℤ) (hn : 2 ≤ n) (ddef : ℤ)
    (hd : ddef = 0 ∨ ddef = 1 ∨ ddef = -1) (cyc : List (α × α)) :
    ∃ dcp, discretize a b n ddef cyc = .ok dcp ∧ dcp.length = cyc.length ∧
      ∀ p ∈ dcp, 0 ≤ p.1 ∧ p.1 < n ∧ 0 ≤ p.2 ∧ p.2 < n := by
  unfold discretize
  dsimp only
  rw [if_pos hd]
  generalize anyIx cyc = s
  refine ⟨_, rfl, ?_, ?_⟩
  · induction cyc with
    | nil => rfl
    | cons c l ih =>
      obtain ⟨i, j, h1, _⟩ := discretize1_some a b n hn ddef hd c
      obtain ⟨i', j', h2, _⟩ := discretize1_some a b n hn ddef hd (c.2, c.1)
      rw [List.filterMap_cons]
      by_cases h : s = true ∧ c.1 > c.2
      · simp only [if_pos h, h2, Option.map_some, List.length_cons, ih]
      · simp only [if_neg h, h1, List.length_cons, ih]
  · intro p hp
    rw [List.mem_filterMap] at hp
    obtain ⟨c, hc, hcp⟩ := hp
    obtain ⟨i, j, h1, hb1⟩ := discretize1_some a b n hn ddef hd c
    obtain ⟨i', j', h2, hb2⟩ := discretize1_some a b n hn ddef hd (c.2, c.1)
    by_cases h : s = true ∧ c.1 > c.2
    · simp only [if_pos h, h2, Option.map_some, Option.some.injEq] at hcp
      rw [← hcp]; dsimp only; omega
    · simp only [if_neg h, h1, Option.some.injEq] at hcp
      rw [← hcp]; dsimp only; omega

/-- Sum of a matrix over the index range `0 .. N-1`. -/
def rangeSum (N : ℕ) (f : ℕ → ℕ) : ℕ := ((List.range N).map f).sum

theorem rangeSum_add (N : ℕ) (f g : ℕ → ℕ) :
    rangeSum N (fun i => f i + g i) = rangeSum N f + rangeSum N g := by
  unfold rangeSum
  induction N with
  | zero => rfl
  | succ N ih => simp only [List.range_succ, List.map_append, List.sum_append, ih, List.map_cons,
      List.map_nil, List.sum_cons, List.sum_nil]; omega

theorem rangeSum_zero (N : ℕ) : rangeSum N (fun _ => 0) = 0 := by
  unfold rangeSum
  induction N with
  | zero => rfl
  | succ N ih => simp [List.range_succ]

theorem rangeSum_single (N i : ℕ) (hi : i < N) (v : ℕ) :
    rangeSum N (fun k => if k = i then v else 0) = v := by
  unfold rangeSum
  induction N with
  | zero => omega
  | succ N ih =>
    rw [List.range_succ, List.map_append, List.sum_append]
    rcases Nat.lt_succ_iff_lt_or_eq.1 hi with h | h
    · rw [ih h]; simp; omega
    · subst h
      have : ((List.range i).map (fun k => if k = i then v else 0)).sum = 0 := by
        apply List.sum_eq_zero
        intro x hx
        rw [List.mem_map] at hx
        obtain ⟨k, hk, rfl⟩ := hx
        rw [List.mem_range] at hk
        rw [if_neg (by omega)]
      rw [this]; simp

/-- **C28, every cycle counted once.**  The entries of the n by n cycle matrix (natural numbers, hence
non-negative) sum to the number of cycles, for all grids with at least two levels, all documented
`ddef` and all lists of cycles. -/
theorem C28_total (a b : α) (N : ℕ) (hn : 2 ≤ N) (ddef : ℤ)
    (hd : ddef = 0 ∨ ddef = 1 ∨ ddef = -1) (cyc : List (α × α)) :
    ∃ dcp, discretize a b N ddef cyc = .ok dcp ∧
      rangeSum N (fun i => rangeSum N (fun j => cmat dcp i j)) = cyc.length := by
  obtain ⟨dcp, h1, h2, h3⟩ := C28_indices a b N (by omega) ddef hd cyc
  refine ⟨dcp, h1, ?_⟩
  rw [← h2]
  clear h1 h2
  induction dcp with
  | nil => simp [cmat, rangeSum_zero]
  | cons p l ih =>
    have ih := ih (fun q hq => h3 q (List.mem_cons_of_mem _ hq))
    have hp := h3 p (by simp)
    have hc : ∀ i j : ℕ, cmat (p :: l) i j
        = cmat l i j + (if i = p.1.toNat then (if j = p.2.toNat then 1 else 0) else 0) := by
      intro i j
      unfold cmat
      rw [List.countP_cons]
      congr 1
      obtain ⟨p1, p2⟩ := p
      dsimp only at hp ⊢
      have : ((p1, p2) = ((i : ℤ), (j : ℤ))) ↔ (i = p1.toNat ∧ j = p2.toNat) := by
        rw [Prod.mk.injEq]; omega
      simp only [decide_eq_true_eq]
      rw [if_congr this rfl rfl, ite_and]
    have hrow : ∀ i : ℕ, rangeSum N (fun j => cmat (p :: l) i j)
        = rangeSum N (fun j => cmat l i j) + (if i = p.1.toNat then 1 else 0) := by
      intro i
      simp only [hc]
      rw [rangeSum_add]
      congr 1
      by_cases hi : i = p.1.toNat
      · simp only [if_pos hi]
        exact rangeSum_single N _ (by omega) 1
      · simp only [if_neg hi]
        exact rangeSum_zero N
    simp only [hrow]
    rw [rangeSum_add, ih, rangeSum_single N _ (by omega) 1]
    rfl

theorem roundEven_mono (x y : α) (h : x ≤ y) : roundEven x ≤ roundEven y := by
  have hf : ⌊x⌋ ≤ ⌊y⌋ := Int.floor_mono h
  have hx : roundEven x ≤ ⌊x⌋ + 1 := by
    unfold roundEven; split_ifs <;> omega
  have hy : ⌊y⌋ ≤ roundEven y := by
    unfold roundEven; split_ifs <;> omega
  rcases lt_or_eq_of_le hf with h1 | h1
  · omega
  · unfold roundEven
    rw [h1]
    have : x - (⌊y⌋ : α) ≤ y - (⌊y⌋ : α) := by linarith
    generalize x - (⌊y⌋ : α) = p at *
    generalize y - (⌊y⌋ : α) = q at *
    split_ifs <;> first
      | omega
      | (exfalso; linarith)

/-- **C28, triangular matrix.**  For min-max cycles (first component at most the second, as rainflow and min-max counting
produce them), `ddef = 0` or `1` and every grid, the cycle matrix has the minimum in its first index: all entries below the
diagonal are zero. -/
theorem C28_upper (a b : α) (hab : a < b) (n : ℤ) (hn : 2 ≤ n) (ddef : ℤ) (hd : ddef = 0 ∨ ddef = 1)
    (cyc : List (α × α)) (hcyc : ∀ c ∈ cyc, c.1 ≤ c.2) :
    ∃ dcp, discretize a b n ddef cyc = .ok dcp ∧ ∀ i j, j < i → cmat dcp i j = 0 := by
  have hd' : ddef = 0 ∨ ddef = 1 ∨ ddef = -1 := by omega
  have hs : 0 < (b - a) / ((n : α) - 1) := by
    have : (2 : α) ≤ n := by exact_mod_cast hn
    apply div_pos <;> linarith
  have hle : ∀ c ∈ cyc, ∀ i j, discretize1 a b n ddef c = some (i, j) → i ≤ j := by
    intro c hc i j h
    have h12 : (c.1 - a) / ((b - a) / ((n : α) - 1)) + 1 ≤ (c.2 - a) / ((b - a) / ((n : α) - 1)) + 1 := by
      have := div_le_div_of_nonneg_right (sub_le_sub_right (hcyc c hc) a) hs.le
      linarith
    unfold discretize1 at h
    dsimp only at h
    rcases hd with rfl | rfl
    · rw [if_pos rfl] at h
      have := roundEven_mono _ _ h12
      simp only [Option.some.injEq, Prod.mk.injEq] at h
      obtain ⟨rfl, rfl⟩ := h
      unfold clip
      omega
    · rw [if_neg (by decide), if_pos rfl] at h
      have := le_trans (Int.floor_le_ceil _) (Int.ceil_mono h12)
      simp only [Option.some.injEq, Prod.mk.injEq] at h
      obtain ⟨rfl, rfl⟩ := h
      unfold clip
      omega
  obtain ⟨dcp, h1, -, -⟩ := C28_indices a b n hn ddef hd' cyc
  refine ⟨dcp, h1, ?_⟩
  intro i j hij
  unfold discretize at h1
  dsimp only at h1
  rw [if_pos hd'] at h1
  obtain rfl := Except.ok.inj h1
  unfold cmat
  rw [List.countP_eq_zero]
  intro p hp
  rw [List.mem_filterMap] at hp
  obtain ⟨c, hc, hcp⟩ := hp
  have hn : ¬ (anyIx cyc = true ∧ c.1 > c.2) := fun h => absurd h.2 (not_lt.2 (hcyc c hc))
  rw [if_neg hn] at hcp
  obtain ⟨p1, p2⟩ := p
  have := hle c hc p1 p2 hcp
  simp only [decide_eq_true_eq, Prod.mk.injEq]
  omega

example : (discretize (0 : ℚ) 4 5 1 [(1, 3), (2, 2)]).map (fun d => (cmat d 2 4, cmat d 4 2, cmat d 3 3)) =
    .ok (1, 0, 1) := by decide +kernel

/-- Undefined `ddef` raises a ValueError. -/
theorem C28_bad_ddef (a b : α) (n ddef : ℤ) (hd : ddef ≠ 0 ∧ ddef ≠ 1 ∧ ddef ≠ -1)
    (cyc : List (α × α)) : discretize a b n ddef cyc = .error .valueError := by
  unfold discretize
  dsimp only
  rw [if_neg]
  rintro (h | h | h)
  · exact hd.1 h
  · exact hd.2.1 h
  · exact hd.2.2 h

/-- The level that belongs to an index: `linspace(a, b, n)[i]`. -/
def level (a b : α) (n i : ℤ) : α := a + (b - a) / ((n : α) - 1) * i

theorem step_pos (a b : α) (hab : a < b) (n : ℤ) (hn : 2 ≤ n) : 0 < (b - a) / ((n : α) - 1) := by
  have : (2 : α) ≤ n := by exact_mod_cast hn
  apply div_pos
  · linarith
  · linarith

/-- **C29, what holds.**  With `ddef = 1` no maximum inside the grid is projected below itself, and with
`ddef = -1` no minimum inside the grid is projected below itself. -/
theorem C29_upward_partial (a b : α) (hab : a < b) (n : ℤ) (hn : 2 ≤ n) (c : α × α) (i j : ℤ) :
    (c.2 ≤ b → discretize1 a b n 1 c = some (i, j) → c.2 ≤ level a b n j) ∧
    (c.1 ≤ b → discretize1 a b n (-1) c = some (i, j) → c.1 ≤ level a b n i) := by
  have hs := step_pos a b hab n hn
  have hn1 : (0 : α) < (n : α) - 1 := by
    have : (2 : α) ≤ n := by exact_mod_cast hn
    linarith
  have key : ∀ x : α, x ≤ b →
      x ≤ level a b n (clip ⌈(x - a) / ((b - a) / ((n : α) - 1)) + 1⌉ 1 (n - 1)) := by
    intro x hx
    unfold level clip
    set δ := (b - a) / ((n : α) - 1) with hδ
    rcases le_total (max ⌈(x - a) / δ + 1⌉ 1) (n - 1) with h | h
    · rw [min_eq_left h]
      have h1 : ((x - a) / δ + 1 : α) ≤ (max ⌈(x - a) / δ + 1⌉ 1 : ℤ) :=
        le_trans (Int.le_ceil _) (by exact_mod_cast le_max_left _ _)
      have h2 : (x - a) / δ ≤ ((max ⌈(x - a) / δ + 1⌉ 1 : ℤ) : α) := by linarith
      rw [div_le_iff₀ hs] at h2
      nlinarith
    · rw [min_eq_right h]
      have : δ * ((n - 1 : ℤ) : α) = b - a := by
        push_cast
        rw [hδ]
        field_simp
      rw [this]; linarith
  constructor
  · intro h1 h2
    unfold discretize1 at h2
    rw [if_neg (by decide), if_pos rfl] at h2
    simp only [Option.some.injEq, Prod.mk.injEq] at h2
    rw [← h2.2]
    exact key c.2 h1
  · intro h1 h2
    unfold discretize1 at h2
    rw [if_neg (by decide), if_neg (by decide), if_pos rfl] at h2
    simp only [Option.some.injEq, Prod.mk.injEq] at h2
    rw [← h2.1]
    exact key c.1 h1

/-- `np.round`: nearest integer, ties to the even one. -/
theorem roundEven_spec (x : α) : |(roundEven x : α) - x| ≤ 1 / 2 ∧ (|(roundEven x : α) - x| = 1 / 2 → Even (roundEven x)) := by
  have h0 := Int.floor_le x
  have h1 := Int.lt_floor_add_one x
  unfold roundEven
  split_ifs with c1 c2 c3
  · rw [abs_of_nonpos (by linarith)]
    exact ⟨by linarith, fun h => by linarith⟩
  · push_cast
    rw [abs_of_pos (by linarith)]
    exact ⟨by linarith, fun h => by linarith⟩
  · rw [abs_of_nonpos (by linarith)]
    exact ⟨by linarith, fun _ => Int.even_iff.2 c3⟩
  · push_cast
    have : x - ⌊x⌋ = 1 / 2 := le_antisymm (not_lt.1 c2) (not_lt.1 c1)
    rw [abs_of_pos (by linarith)]
    refine ⟨by linarith, fun _ => ?_⟩
    rw [Int.even_add_one, Int.even_iff]; exact c3

/-- **C29, nearest level, what holds.**  With `ddef = 0` a value at least one step below the end of the grid is assigned to a level within half a
step of one step above the value (instead of the value itself); a tie goes to the even index. -/
theorem C29_nearest_partial (a b : α) (hab : a < b) (n : ℤ) (hn : 2 ≤ n) (c : α × α) (i j : ℤ)
    (hd : discretize1 a b n 0 c = some (i, j)) :
    let δ := (b - a) / ((n : α) - 1)
    (a ≤ c.1 → c.1 + δ ≤ b → |level a b n i - (c.1 + δ)| ≤ δ / 2 ∧ (|level a b n i - (c.1 + δ)| = δ / 2 → Even i)) ∧
    (a ≤ c.2 → c.2 + δ ≤ b → |level a b n j - (c.2 + δ)| ≤ δ / 2 ∧ (|level a b n j - (c.2 + δ)| = δ / 2 → Even j)) := by
  intro δ
  have hs : 0 < δ := step_pos a b hab n hn
  have hn1 : (0 : α) < (n : α) - 1 := by
    have : (2 : α) ≤ n := by exact_mod_cast hn
    linarith
  have hb : δ * ((n : α) - 1) = b - a := div_mul_cancel₀ _ hn1.ne'
  have key : ∀ x : α, a ≤ x → x + δ ≤ b → ∀ k, k = clip (roundEven ((x - a) / δ + 1)) 0 (n - 1) →
      |level a b n k - (x + δ)| ≤ δ / 2 ∧ (|level a b n k - (x + δ)| = δ / 2 → Even k) := by
    intro x h0 h1 k hk
    obtain ⟨r1, r2⟩ := roundEven_spec ((x - a) / δ + 1)
    set R := roundEven ((x - a) / δ + 1) with hR
    have q0 : 0 ≤ (x - a) / δ := div_nonneg (by linarith) hs.le
    have q1 : (x - a) / δ + 1 ≤ (n : α) - 1 := by
      rw [← sub_nonneg, ← mul_nonneg_iff_of_pos_left hs]
      have : δ * ((x - a) / δ) = x - a := mul_div_cancel₀ _ hs.ne'
      nlinarith
    obtain ⟨a1, a2⟩ := abs_le.1 r1
    have l0 : 0 ≤ R := by
      have : (0 : α) < (R : α) + 1 := by linarith
      have : (0 : ℤ) < R + 1 := by exact_mod_cast this
      omega
    have l1 : R ≤ n - 1 := by
      have : (R : α) < ((n - 1 + 1 : ℤ) : α) := by push_cast; linarith
      have : R < n - 1 + 1 := by exact_mod_cast this
      omega
    have hkR : k = R := by rw [hk, clip, max_eq_left l0, min_eq_left l1]
    have e : level a b n k - (x + δ) = δ * ((R : α) - ((x - a) / δ + 1)) := by
      have : δ * ((x - a) / δ) = x - a := mul_div_cancel₀ _ hs.ne'
      rw [hkR]; unfold level
      change a + δ * (R : α) - (x + δ) = _
      rw [mul_sub, mul_add, this]; ring
    rw [e, abs_mul, abs_of_pos hs, hkR]
    refine ⟨by nlinarith, fun h => r2 ?_⟩
    have : δ * |(R : α) - ((x - a) / δ + 1)| = δ * (1 / 2) := by rw [h]; ring
    exact mul_left_cancel₀ hs.ne' this
  unfold discretize1 at hd
  rw [if_pos rfl] at hd
  simp only [Option.some.injEq, Prod.mk.injEq] at hd
  exact ⟨fun h0 h1 => key c.1 h0 h1 i hd.1.symm, fun h0 h1 => key c.2 h0 h1 j hd.2.symm⟩

/-- **C29, position up to the shift.**  Away from the ends of the grid the index is exactly one more than documented: with
`ddef = 1` the minimum lies between the level below its index and that index, the maximum in the step that ends one level
below its index; with `ddef = -1` the two are exchanged. -/
theorem C29_exact_partial (a b : α) (hab : a < b) (n : ℤ) (hn : 2 ≤ n) (c : α × α) (i j : ℤ) :
    (discretize1 a b n 1 c = some (i, j) →
      (a ≤ c.1 → c.1 < level a b n (n - 2) → level a b n (i - 1) ≤ c.1 ∧ c.1 < level a b n i) ∧
      (a ≤ c.2 → c.2 ≤ level a b n (n - 2) → level a b n (j - 2) < c.2 ∧ c.2 ≤ level a b n (j - 1))) ∧
    (discretize1 a b n (-1) c = some (i, j) →
      (a ≤ c.1 → c.1 ≤ level a b n (n - 2) → level a b n (i - 2) < c.1 ∧ c.1 ≤ level a b n (i - 1)) ∧
      (a ≤ c.2 → c.2 < level a b n (n - 2) → level a b n (j - 1) ≤ c.2 ∧ c.2 < level a b n j)) := by
  have hs := step_pos a b hab n hn
  unfold level
  have hdown : ∀ (x : α) (k : ℤ), clip ⌊(x - a) / ((b - a) / ((n : α) - 1)) + 1⌋ 0 (n - 2) = k →
      a ≤ x → x < a + (b - a) / ((n : α) - 1) * ((n - 2 : ℤ) : α) →
      a + (b - a) / ((n : α) - 1) * ((k - 1 : ℤ) : α) ≤ x ∧ x < a + (b - a) / ((n : α) - 1) * (k : α) := by
    set δ := (b - a) / ((n : α) - 1) with hδ
    intro x k hk ha hb
    have hq : (x - a) / δ < ((n - 2 : ℤ) : α) := by
      rw [div_lt_iff₀ hs]; nlinarith
    have hf : ⌊(x - a) / δ⌋ < n - 2 := by
      have := Int.floor_le ((x - a) / δ)
      have : ((⌊(x - a) / δ⌋ : ℤ) : α) < ((n - 2 : ℤ) : α) := lt_of_le_of_lt this hq
      exact_mod_cast this
    have h0 : 0 ≤ ⌊(x - a) / δ⌋ := Int.floor_nonneg.2 (div_nonneg (by linarith) hs.le)
    have hi : k = ⌊(x - a) / δ⌋ + 1 := by
      rw [← hk, Int.floor_add_one]; unfold clip; omega
    have h1 := Int.lt_floor_add_one ((x - a) / δ)
    have h2 := Int.floor_le ((x - a) / δ)
    rw [div_lt_iff₀ hs] at h1
    rw [le_div_iff₀ hs] at h2
    rw [hi]; push_cast
    constructor <;> nlinarith
  have hup : ∀ (x : α) (k : ℤ), clip ⌈(x - a) / ((b - a) / ((n : α) - 1)) + 1⌉ 1 (n - 1) = k →
      a ≤ x → x ≤ a + (b - a) / ((n : α) - 1) * ((n - 2 : ℤ) : α) →
      a + (b - a) / ((n : α) - 1) * ((k - 2 : ℤ) : α) < x ∧ x ≤ a + (b - a) / ((n : α) - 1) * ((k - 1 : ℤ) : α) := by
    set δ := (b - a) / ((n : α) - 1) with hδ
    intro x k hk ha hb
    have hq : (x - a) / δ ≤ ((n - 2 : ℤ) : α) := by
      rw [div_le_iff₀ hs]; nlinarith
    have hf : ⌈(x - a) / δ⌉ ≤ n - 2 := Int.ceil_le.2 hq
    have h0 : 0 ≤ ⌈(x - a) / δ⌉ := Int.ceil_nonneg (div_nonneg (by linarith) hs.le)
    have hj : k = ⌈(x - a) / δ⌉ + 1 := by
      rw [← hk, Int.ceil_add_one]; unfold clip; omega
    have h1 := Int.le_ceil ((x - a) / δ)
    have h2 := Int.ceil_lt_add_one ((x - a) / δ)
    rw [div_le_iff₀ hs] at h1
    have h3 : (⌈(x - a) / δ⌉ : α) - 1 < (x - a) / δ := by linarith
    rw [lt_div_iff₀ hs] at h3
    rw [hj]; push_cast
    constructor <;> nlinarith
  constructor
  · intro hd
    unfold discretize1 at hd
    rw [if_neg (by decide), if_pos rfl] at hd
    simp only [Option.some.injEq, Prod.mk.injEq] at hd
    exact ⟨hdown c.1 i hd.1, hup c.2 j hd.2⟩
  · intro hd
    unfold discretize1 at hd
    rw [if_neg (by decide), if_neg (by decide), if_pos rfl] at hd
    simp only [Option.some.injEq, Prod.mk.injEq] at hd
    exact ⟨hup c.1 i hd.1, hdown c.2 j hd.2⟩

/-- **C29, direction of the cycles, what holds.**  Giving all cycles of a list of at least two proper cycles the other way
round (maximum first) gives the same indices the other way round.  (For a single cycle this fails, `C29_order_refuted`.) -/
theorem C29_reverse_partial (a b : α) (n ddef : ℤ) (cyc : List (α × α)) (h2 : 2 ≤ cyc.length)
    (hcyc : ∀ c ∈ cyc, c.1 < c.2) :
    discretize a b n ddef (cyc.map Prod.swap) = (discretize a b n ddef cyc).map (List.map Prod.swap) := by
  have h0 : anyIx cyc = false := by
    unfold anyIx
    rw [List.any_eq_false]
    intro c hc
    have := hcyc c (List.mem_of_mem_drop hc)
    simp only [decide_eq_true_eq, not_lt, gt_iff_lt]; exact this.le
  have h1 : anyIx (cyc.map Prod.swap) = true := by
    rcases cyc with _ | ⟨c, _ | ⟨d, l⟩⟩
    · simp at h2
    · simp at h2
    · have := hcyc d (by simp)
      simp [anyIx, this]
  unfold discretize
  dsimp only
  rw [h0, h1]
  split
  · rw [List.filterMap_map]
    change Except.ok _ = Except.ok _
    congr 1
    rw [List.map_filterMap]
    apply List.filterMap_congr
    intro c hc
    have hlt := hcyc c hc
    simp only [Function.comp_apply, Prod.fst_swap, Prod.snd_swap, true_and, gt_iff_lt, hlt, if_true,
      Bool.false_eq_true, false_and, if_false]
    rfl
  · rfl

/-- **C29 refuted for every grid.**  With the default `ddef = 1` every minimum of the grid that lies at
least two steps below the top is projected to a level strictly above it (not down), and a maximum
whose index is not clipped lands at least one whole step too high. -/
theorem C29_refuted (a b : α) (hab : a < b) (n : ℤ) (hn : 2 ≤ n) (c : α × α) (i j : ℤ)
    (hd : discretize1 a b n 1 c = some (i, j)) :
    (a ≤ c.1 → c.1 < level a b n (n - 2) → c.1 < level a b n i) ∧
    (a ≤ c.2 → c.2 ≤ level a b n (n - 2) → c.2 + (b - a) / ((n : α) - 1) ≤ level a b n j) := by
  have hs := step_pos a b hab n hn
  unfold discretize1 at hd
  rw [if_neg (by decide), if_pos rfl] at hd
  simp only [Option.some.injEq, Prod.mk.injEq] at hd
  obtain ⟨h1, h2⟩ := hd
  unfold level
  set δ := (b - a) / ((n : α) - 1) with hδ
  constructor
  · intro ha hb
    have hq : (c.1 - a) / δ < ((n - 2 : ℤ) : α) := by
      rw [div_lt_iff₀ hs]; nlinarith
    have hf : ⌊(c.1 - a) / δ⌋ < n - 2 := by
      have := Int.floor_le ((c.1 - a) / δ)
      have : ((⌊(c.1 - a) / δ⌋ : ℤ) : α) < ((n - 2 : ℤ) : α) := lt_of_le_of_lt this hq
      exact_mod_cast this
    have h0 : 0 ≤ ⌊(c.1 - a) / δ⌋ := Int.floor_nonneg.2 (div_nonneg (by linarith) hs.le)
    have hi : i = ⌊(c.1 - a) / δ⌋ + 1 := by
      rw [← h1, Int.floor_add_one]; unfold clip; omega
    have := Int.lt_floor_add_one ((c.1 - a) / δ)
    rw [div_lt_iff₀ hs] at this
    rw [hi]; push_cast
    nlinarith
  · intro ha hb
    have hq : (c.2 - a) / δ ≤ ((n - 2 : ℤ) : α) := by
      rw [div_le_iff₀ hs]; nlinarith
    have hf : ⌈(c.2 - a) / δ⌉ ≤ n - 2 := Int.ceil_le.2 hq
    have h0 : 0 ≤ ⌈(c.2 - a) / δ⌉ := Int.ceil_nonneg (div_nonneg (by linarith) hs.le)
    have hj : j = ⌈(c.2 - a) / δ⌉ + 1 := by
      rw [← h2, Int.ceil_add_one]; unfold clip; omega
    have := Int.le_ceil ((c.2 - a) / δ)
    rw [div_le_iff₀ hs] at this
    rw [hj]; push_cast
    nlinarith

end

/-- With `ddef = 0` the value 1 of the grid 0,1,2,3,4 goes to level 2. -/
theorem C29_nearest_refuted : discretize (0 : ℚ) 4 5 0 [(1, 2)] = .ok [(2, 3)] := by
  decide +kernel

/-- A cycle given as (max, min) is reordered, except when it is the first one of the list: the test
`np.any(ix)` looks at the index values and index 0 counts as false. -/
theorem C29_order_refuted :
    discretize (0 : ℚ) 10 11 1 [(5 / 2, 1 / 2), (5 / 2, 1 / 2)] = .ok [(4, 1), (4, 1)] ∧
    discretize (0 : ℚ) 10 11 1 [(5 / 2, 1 / 2)] = .ok [(3, 2)] := by
  constructor <;> decide +kernel

example : discretize1 (0 : ℚ) 10 11 1 (1 / 2, 5 / 2) = some (1, 4) ∧
    discretize (0 : ℚ) 10 11 1 [(1 / 2, 5 / 2), (1, 7 / 2)] = .ok [(1, 4), (2, 5)] := by decide +kernel

end Wafo.Cycles
