import Verif.LevelX.Model
import Mathlib.Tactic.Ring
import Mathlib.Tactic.FieldSimp
import Mathlib.Tactic.NormNum
import Mathlib.Data.List.Sort
import Mathlib.Data.List.Zip

/-!
Properties of the exceedances and of the extrapolated crossing spectrum.
-/

set_option linter.unusedSectionVars false

namespace Wafo.LevelX

variable {α : Type} [Field α] [LinearOrder α] [IsStrictOrderedRing α]

/-! ### C168: the sample of exceedances -/

theorem recordsFrom_spec (last : α) (l : List (α × α)) :
    (recordsFrom last l).Sublist l ∧ (recordsFrom last l).Pairwise (fun p q => p.1 < q.1) ∧
      (∀ p ∈ recordsFrom last l, last < p.1) ∧
      ∀ p ∈ l, p.1 ≤ last ∨ ∃ q ∈ recordsFrom last l, p.1 ≤ q.1 := by
  induction l generalizing last with
  | nil => simp [recordsFrom]
  | cons a l ih =>
    obtain ⟨f, t⟩ := a
    unfold recordsFrom
    split
    · rename_i h
      obtain ⟨h1, h2, h3, h4⟩ := ih f
      refine ⟨h1.cons_cons _, List.pairwise_cons.2 ⟨fun q hq => h3 q hq, h2⟩, ?_, ?_⟩
      · intro p hp
        rcases List.mem_cons.1 hp with rfl | hp
        · exact h
        · exact h.trans (h3 p hp)
      · intro p hp
        rcases List.mem_cons.1 hp with rfl | hp
        · exact Or.inr ⟨_, by simp, le_rfl⟩
        · rcases h4 p hp with h' | ⟨q, hq, h'⟩
          · exact Or.inr ⟨(f, t), by simp, h'⟩
          · exact Or.inr ⟨q, by simp [hq], h'⟩
    · rename_i h
      obtain ⟨h1, h2, h3, h4⟩ := ih last
      refine ⟨h1.cons _, h2, h3, ?_⟩
      intro p hp
      rcases List.mem_cons.1 hp with rfl | hp
      · exact Or.inl (not_lt.1 h)
      · exact h4 p hp

/-- C168: `_make_increasing` keeps a subsequence that starts with the first value, is strictly increasing and reaches every value. -/
theorem C168_increasing (l : List (α × α)) :
    (l = [] → makeIncreasing l = .error .indexError) ∧
    (l ≠ [] → ∃ r, makeIncreasing l = .ok r ∧ r.head? = l.head? ∧ r.Sublist l ∧ r.Pairwise (fun p q => p.1 < q.1) ∧
      ∀ p ∈ l, ∃ q ∈ r, p.1 ≤ q.1) := by
  constructor
  · rintro rfl
    rfl
  · intro h
    rcases l with _ | ⟨⟨f, t⟩, l⟩
    · exact absurd rfl h
    obtain ⟨h1, h2, h3, h4⟩ := recordsFrom_spec f l
    refine ⟨_, rfl, rfl, h1.cons_cons _, List.pairwise_cons.2 ⟨fun q hq => h3 q hq, h2⟩, ?_⟩
    intro p hp
    rcases List.mem_cons.1 hp with rfl | hp
    · exact ⟨_, by simp, le_rfl⟩
    · rcases h4 p hp with h' | ⟨q, hq, h'⟩
      · exact ⟨(f, t), by simp, h'⟩
      · exact ⟨q, by simp [hq], h'⟩

example : makeIncreasing ([(1, 9), (1, 8), (3, 7), (2, 6), (5, 5)] : List (ℚ × ℚ)) = .ok [(1, 9), (3, 7), (5, 5)] := by decide +kernel

section
variable [FloorRing α]

theorem intOf_nonneg {a : α} (h : 0 ≤ a) : intOf a = ⌊a⌋ := if_pos h

theorem intOf_mono {a b : α} (ha : 0 ≤ a) (h : a ≤ b) : intOf a ≤ intOf b := by
  rw [intOf_nonneg ha, intOf_nonneg (ha.trans h)]
  exact Int.floor_le_floor h

/-- The number of copies at or above a level. -/
theorem copies_count (l : List (α × α)) (L : α) : ∀ last : α, 0 ≤ last → (∀ p ∈ l, 0 ≤ p.1) → l.Pairwise (fun p q => q.2 < p.2) →
    ∃ r, copies (intOf last) (recordsFrom last l) = .ok r ∧ (∀ y ∈ r, ∃ p ∈ l, p.2 = y) ∧
      ∃ M, (M = last ∨ ∃ p ∈ l, L ≤ p.2 ∧ p.1 = M) ∧ last ≤ M ∧ (∀ p ∈ l, L ≤ p.2 → p.1 ≤ M) ∧
        (r.countP fun y => decide (L ≤ y) : ℤ) = intOf M - intOf last := by
  induction l with
  | nil =>
    intro last _ _ _
    exact ⟨[], rfl, by simp, last, Or.inl rfl, le_rfl, by simp, by simp⟩
  | cons a l ih =>
    intro last h0 hpos hdec
    obtain ⟨f, t⟩ := a
    obtain ⟨hd1, hd2⟩ := List.pairwise_cons.1 hdec
    have hf : 0 ≤ f := hpos (f, t) (by simp)
    have hpos' : ∀ p ∈ l, 0 ≤ p.1 := fun p hp => hpos p (by simp [hp])
    unfold recordsFrom
    split
    · rename_i h
      obtain ⟨r, hr, hmem, M, hM, hlast, hub, hcount⟩ := ih f hf hpos' hd2
      have hi := intOf_mono h0 h.le
      refine ⟨List.replicate (intOf f - intOf last).toNat t ++ r, ?_, ?_, ?_⟩
      · rw [copies, if_neg (by omega), hr]
      · intro y hy
        rcases List.mem_append.1 hy with hy | hy
        · exact ⟨(f, t), by simp, (List.mem_replicate.1 hy).2.symm⟩
        · obtain ⟨p, hp, h'⟩ := hmem y hy
          exact ⟨p, by simp [hp], h'⟩
      · by_cases ht : L ≤ t
        · refine ⟨M, ?_, h.le.trans hlast, ?_, ?_⟩
          · rcases hM with rfl | ⟨p, hp, h1, h2⟩
            · exact Or.inr ⟨(M, t), by simp, ht, rfl⟩
            · exact Or.inr ⟨p, by simp [hp], h1, h2⟩
          · intro p hp hL
            rcases List.mem_cons.1 hp with rfl | hp
            · exact hlast
            · exact hub p hp hL
          · rw [List.countP_append, List.countP_replicate, if_pos (by simpa using ht)]
            push_cast
            rw [hcount, Int.toNat_of_nonneg (by omega)]
            ring
        · have hlow : ∀ p ∈ l, ¬ L ≤ p.2 := fun p hp hL => ht (hL.trans (hd1 p hp).le)
          refine ⟨last, Or.inl rfl, le_rfl, ?_, ?_⟩
          · intro p hp hL
            rcases List.mem_cons.1 hp with rfl | hp
            · exact absurd hL ht
            · exact absurd hL (hlow p hp)
          · rw [List.countP_append, List.countP_replicate, if_neg (by simpa using ht)]
            have : r.countP (fun y => decide (L ≤ y)) = 0 := by
              rw [List.countP_eq_zero]
              intro y hy
              obtain ⟨p, hp, rfl⟩ := hmem y hy
              simpa using hlow p hp
            rw [this]
            simp
    · rename_i h
      obtain ⟨r, hr, hmem, M, hM, hlast, hub, hcount⟩ := ih last h0 hpos' hd2
      refine ⟨r, hr, fun y hy => ?_, M, ?_, hlast, ?_, hcount⟩
      · obtain ⟨p, hp, h'⟩ := hmem y hy
        exact ⟨p, by simp [hp], h'⟩
      · rcases hM with rfl | ⟨p, hp, h1, h2⟩
        · exact Or.inl rfl
        · exact Or.inr ⟨p, by simp [hp], h1, h2⟩
      · intro p hp hL
        rcases List.mem_cons.1 hp with rfl | hp
        · exact (not_lt.1 h).trans hlast
        · exact hub p hp hL

/-- C168: the sample that a tail is fitted to.  Levels increase, counts are not negative and some level lies above `u`.  Every value
is the distance of a level from `u`, and the number of values at or beyond a level is the largest count, rounded down, at or above
this level. -/
theorem C168_sample (lcx lcf : List α) (u : α) (hlen : lcx.length = lcf.length) (hx : lcx.Pairwise (· < ·)) (hf : ∀ c ∈ lcf, 0 ≤ c)
    (hu : ∃ y ∈ lcx, u < y) :
    ∃ s, exceedances lcx lcf u = .ok s ∧ (∀ y ∈ s, 0 < y ∧ y + u ∈ lcx) ∧
      ∀ L, u < L → ((∃ y ∈ lcx, L ≤ y) → ∃ M, (∃ p ∈ lcx.zip lcf, L ≤ p.1 ∧ p.2 = M) ∧ (∀ p ∈ lcx.zip lcf, L ≤ p.1 → p.2 ≤ M) ∧
        (s.countP fun y => decide (L ≤ y + u) : ℤ) = ⌊M⌋) := by
  set l := ((lcf.zip lcx).filter fun p => decide (u < p.2)).reverse with hl
  have hzip : ∀ p : α × α, p ∈ lcf.zip lcx ↔ (p.2, p.1) ∈ lcx.zip lcf := by
    intro p
    rw [← List.zip_swap lcx lcf, List.mem_map]
    constructor
    · rintro ⟨q, hq, rfl⟩
      exact hq
    · intro h
      exact ⟨_, h, rfl⟩
  have hmeml : ∀ p : α × α, p ∈ l ↔ (p.2, p.1) ∈ lcx.zip lcf ∧ u < p.2 := by
    intro p
    rw [hl, List.mem_reverse, List.mem_filter, hzip]
    simp
  have hne : l ≠ [] := by
    obtain ⟨y, hy, hyu⟩ := hu
    obtain ⟨k, hk, rfl⟩ := List.getElem_of_mem hy
    intro h
    have : (lcf[k]'(hlen ▸ hk), lcx[k]) ∈ l := by
      rw [hmeml]
      refine ⟨?_, hyu⟩
      rw [List.mem_iff_getElem]
      exact ⟨k, by simp [hk, ← hlen], by simp⟩
    rw [h] at this
    simp at this
  have hdec : l.Pairwise (fun p q => q.2 < p.2) := by
    rw [hl, List.pairwise_reverse]
    apply List.Pairwise.filter
    have : ((lcf.zip lcx).map Prod.snd).Pairwise (· < ·) := by
      rw [List.map_snd_zip (by omega)]
      exact hx
    exact List.pairwise_map.1 this
  have hpos : ∀ p ∈ l, 0 ≤ p.1 := by
    intro p hp
    obtain ⟨h, -⟩ := (hmeml p).1 hp
    exact hf _ (List.of_mem_zip h).2
  cases hcase : l with
  | nil => exact absurd hcase hne
  | cons a l' =>
    obtain ⟨f0, t0⟩ := a
    have hf0 : 0 ≤ f0 := hpos (f0, t0) (by simp [hcase])
    have hpos' : ∀ p ∈ l', 0 ≤ p.1 := fun p hp => hpos p (by simp [hcase, hp])
    rw [hcase] at hdec
    obtain ⟨hd1, hd2⟩ := List.pairwise_cons.1 hdec
    have hmk : makeIncreasing l = .ok ((f0, t0) :: recordsFrom f0 l') := by rw [hcase]; rfl
    have hi : 0 ≤ intOf f0 := by rw [intOf_nonneg hf0]; exact Int.floor_nonneg.2 hf0
    have hex : ∀ r, copies (intOf f0) (recordsFrom f0 l') = .ok r →
        exceedances lcx lcf u = .ok ((List.replicate (intOf f0).toNat t0 ++ r).map (· - u)) := by
      intro r hr
      unfold exceedances
      rw [← hl, hmk]
      simp only [copies]
      rw [if_neg (by omega), hr]
      simp
    obtain ⟨r, hr, hmem, -⟩ := copies_count l' 0 f0 hf0 hpos' hd2
    refine ⟨_, hex r hr, ?_, ?_⟩
    · intro y hy
      obtain ⟨z, hz, rfl⟩ := List.mem_map.1 hy
      have hp : ∃ p ∈ l, p.2 = z := by
        rcases List.mem_append.1 hz with hz | hz
        · exact ⟨(f0, t0), by simp [hcase], (List.mem_replicate.1 hz).2.symm⟩
        · obtain ⟨p, hp, h'⟩ := hmem z hz
          exact ⟨p, by simp [hcase, hp], h'⟩
      obtain ⟨p, hp, rfl⟩ := hp
      obtain ⟨h1, h2⟩ := (hmeml p).1 hp
      refine ⟨sub_pos.2 h2, ?_⟩
      rw [sub_add_cancel]
      exact (List.of_mem_zip h1).1
    · intro L hL hey
      obtain ⟨r', hr', -, M, hM, hlast, hub, hcount⟩ := copies_count l' L f0 hf0 hpos' hd2
      rw [hr] at hr'
      obtain rfl := Except.ok.inj hr'
      have hmeml' : ∀ p ∈ lcx.zip lcf, L ≤ p.1 → (p.2, p.1) ∈ l := by
        intro p hp hLp
        rw [hmeml]
        exact ⟨hp, hL.trans_le hLp⟩
      have ht0 : L ≤ t0 := by
        obtain ⟨y, hy, hLy⟩ := hey
        obtain ⟨k, hk, rfl⟩ := List.getElem_of_mem hy
        have hkl : (lcf[k]'(hlen ▸ hk), lcx[k]) ∈ l := by
          refine hmeml' (lcx[k], lcf[k]'(hlen ▸ hk)) ?_ hLy
          rw [List.mem_iff_getElem]
          exact ⟨k, by simp [hk, ← hlen], by simp⟩
        rw [hcase] at hkl
        rcases List.mem_cons.1 hkl with h | h
        · simp only [Prod.mk.injEq] at h
          rw [← h.2]
          exact hLy
        · exact hLy.trans (hd1 _ h).le
      have hback : ∀ p ∈ l, L ≤ p.2 → ∃ q ∈ lcx.zip lcf, L ≤ q.1 ∧ q.2 = p.1 := by
        intro p hp h
        exact ⟨(p.2, p.1), ((hmeml p).1 hp).1, h, rfl⟩
      refine ⟨M, ?_, ?_, ?_⟩
      · rcases hM with rfl | ⟨p, hp, h1, rfl⟩
        · exact hback (M, t0) (by simp [hcase]) ht0
        · exact hback p (by simp [hcase, hp]) h1
      · intro p hp hLp
        have := hmeml' p hp hLp
        rw [hcase] at this
        rcases List.mem_cons.1 this with h | h
        · simp only [Prod.mk.injEq] at h
          rw [h.1]
          exact hlast
        · exact hub _ h hLp
      · rw [List.countP_map, List.countP_append, List.countP_replicate]
        have e : ((fun y => decide (L ≤ y + u)) ∘ fun y => y - u) = fun y => decide (L ≤ y) := by
          funext y
          simp
        rw [e, if_pos (by simpa using ht0)]
        push_cast
        rw [hcount, Int.toNat_of_nonneg hi, intOf_nonneg (hf0.trans hlast)]
        ring

/-- C168: when the counts above `u` do not increase with the level, the sample exceeds each level as often as it was crossed, and
its size is the count at the first level above `u`. -/
theorem C168_counts (lcx lcf : List α) (u : α) (hlen : lcx.length = lcf.length) (hx : lcx.Pairwise (· < ·)) (hf : ∀ c ∈ lcf, 0 ≤ c)
    (hmono : ∀ p ∈ lcx.zip lcf, ∀ q ∈ lcx.zip lcf, u < p.1 → p.1 ≤ q.1 → q.2 ≤ p.2) (hu : ∃ y ∈ lcx, u < y) :
    ∃ s, exceedances lcx lcf u = .ok s ∧ ∀ p ∈ lcx.zip lcf, u < p.1 → (s.countP fun y => decide (p.1 ≤ y + u) : ℤ) = ⌊p.2⌋ := by
  obtain ⟨s, hs, -, h⟩ := C168_sample lcx lcf u hlen hx hf hu
  refine ⟨s, hs, fun p hp hpu => ?_⟩
  obtain ⟨M, ⟨q, hq, hpq, rfl⟩, hM, hc⟩ := h p.1 hpu ⟨p.1, (List.of_mem_zip hp).1, le_rfl⟩
  rw [hc, le_antisymm (hmono p hp q hq hpu hpq) (hM p hp le_rfl)]

/-- C168.  No level above `u` is an IndexError. -/
theorem C168_none (lcx lcf : List α) (u : α) (hu : ∀ y ∈ lcx, y ≤ u) : exceedances lcx lcf u = .error .indexError := by
  have : (lcf.zip lcx).filter (fun p => decide (u < p.2)) = [] := by
    rw [List.filter_eq_nil_iff]
    intro p hp
    have := hu p.2 (List.of_mem_zip hp).2
    simpa using this
  unfold exceedances
  rw [this]
  rfl

example : exceedances ([0, 1, 2, 3, 4] : List ℚ) [9, 7, 4, 2, 1] 1 = .ok [3, 2, 1, 1] := by decide +kernel

example : exceedances ([0, 1, 2, 3, 4] : List ℚ) [9, 7, 5/2, 4, 1] 1 = .ok [3, 2, 2, 2] ∧
    exceedances ([0, 1, 2] : List ℚ) [1, 2, 1] 2 = .error .indexError := by decide +kernel

end

end Wafo.LevelX
