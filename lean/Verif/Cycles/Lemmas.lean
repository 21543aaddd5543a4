import Verif.Cycles.Model
import Mathlib.Algebra.BigOperators.Group.List.Basic

set_option linter.unusedSectionVars false

namespace Wafo.Cycles

/-! ### Slices -/

theorem everyOther_getElem? {α : Type*} : ∀ (l : List α) (k : ℕ), (everyOther l)[k]? = l[2 * k]?
  | [], k => by simp [everyOther]
  | [a], k => by
      rcases k with _ | k
      · simp [everyOther]
      · simp [everyOther]
  | a :: b :: l, k => by
      rcases k with _ | k
      · simp [everyOther]
      · have := everyOther_getElem? l k
        simp only [everyOther, List.getElem?_cons_succ, this]
        rw [show 2 * (k + 1) = 2 * k + 1 + 1 by ring]
        simp

section
variable {α : Type*} [LinearOrder α]

theorem sliceM1_getElem? (s : ℕ) (l : List α) (k : ℕ) :
    (sliceM1 s l)[k]? = if s + 2 * k + 1 < l.length then l[s + 2 * k]? else none := by
  unfold sliceM1
  rw [everyOther_getElem?, List.getElem?_drop, List.getElem?_dropLast]
  by_cases h : s + 2 * k + 1 < l.length
  · rw [if_pos h, if_pos (by omega)]
  · rw [if_neg h, if_neg (by omega)]

theorem sliceTo_getElem? (s : ℕ) (l : List α) (k : ℕ) :
    (sliceTo s l)[k]? = l[s + 2 * k]? := by
  unfold sliceTo
  rw [everyOther_getElem?, List.getElem?_drop]

theorem slice_lengths (s : ℕ) (l : List α) : (sliceM1 s l).length = (sliceTo (s + 1) l).length := by
  have key : ∀ k, k < (sliceM1 s l).length ↔ k < (sliceTo (s + 1) l).length := by
    intro k
    rw [← not_iff_not, not_lt, not_lt, ← List.getElem?_eq_none_iff, ← List.getElem?_eq_none_iff,
      sliceM1_getElem?, sliceTo_getElem?]
    by_cases h : s + 2 * k + 1 < l.length
    · rw [if_pos h]
      simp only [List.getElem?_eq_none_iff]
      omega
    · rw [if_neg h]
      simp only [List.getElem?_eq_none_iff, true_iff]
      omega
  rcases lt_trichotomy (sliceM1 s l).length (sliceTo (s + 1) l).length with h | h | h
  · exact absurd ((key _).2 h) (lt_irrefl _)
  · exact h
  · exact absurd ((key _).1 h) (lt_irrefl _)

end

/-! ### Level crossings -/

section
variable {α : Type*} [Field α] [LinearOrder α] [IsStrictOrderedRing α]

/-- Sum of `f` over the events whose level satisfies `P`. -/
def sumBy (P : α → Bool) (f : Ev α → ℤ) (l : List (Ev α)) : ℤ :=
  ((l.filter (fun e => P e.lev)).map f).sum

theorem sumBy_nil (P : α → Bool) (f : Ev α → ℤ) : sumBy P f [] = 0 := rfl

theorem sumBy_cons (P : α → Bool) (f : Ev α → ℤ) (e : Ev α) (l : List (Ev α)) :
    sumBy P f (e :: l) = (if P e.lev then f e else 0) + sumBy P f l := by
  unfold sumBy
  by_cases h : P e.lev
  · simp [h]
  · simp [h]

theorem sumBy_append (P : α → Bool) (f : Ev α → ℤ) (l l' : List (Ev α)) :
    sumBy P f (l ++ l') = sumBy P f l + sumBy P f l' := by
  unfold sumBy; simp

theorem sumBy_perm (P : α → Bool) (f : Ev α → ℤ) {l l' : List (Ev α)} (h : l.Perm l') :
    sumBy P f l = sumBy P f l' := by
  unfold sumBy
  exact ((h.filter _).map f).sum_eq

/-- The three additive fields. -/
def Additive (f : Ev α → ℤ) : Prop := f = Ev.d1 ∨ f = Ev.d2 ∨ f = Ev.d3

theorem sumBy_mergeGo (P : α → Bool) (f : Ev α → ℤ) (hf : Additive f) :
    ∀ (l : List (Ev α)) (cur : Ev α), sumBy P f (mergeGo cur l) = sumBy P f (cur :: l)
  | [], cur => rfl
  | e :: l, cur => by
      unfold mergeGo
      by_cases h : e.lev = cur.lev
      · rw [if_pos h, sumBy_mergeGo P f hf l, sumBy_cons, sumBy_cons, sumBy_cons]
        rcases hf with rfl | rfl | rfl <;> simp only [h] <;> split <;> ring
      · rw [if_neg h, sumBy_cons, sumBy_mergeGo P f hf l, sumBy_cons P f cur]

theorem mem_mergeGo : ∀ (l : List (Ev α)) (cur : Ev α) (u : α),
    u ∈ (mergeGo cur l).map Ev.lev ↔ u ∈ (cur :: l).map Ev.lev
  | [], cur, u => by simp [mergeGo]
  | e :: l, cur, u => by
      unfold mergeGo
      by_cases h : e.lev = cur.lev
      · rw [if_pos h, mem_mergeGo l]; simp [h]
      · rw [if_neg h, List.map_cons, List.mem_cons, mem_mergeGo l]; simp

theorem mergeGo_length_le : ∀ (l : List (Ev α)) (cur : Ev α),
    (mergeGo cur l).length ≤ (cur :: l).length
  | [], cur => by simp [mergeGo]
  | e :: l, cur => by
      unfold mergeGo
      split
      · exact le_trans (mergeGo_length_le l _) (by simp)
      · have := mergeGo_length_le l e
        simpa using this

theorem mergeGo_ne_nil : ∀ (l : List (Ev α)) (cur : Ev α), mergeGo cur l ≠ []
  | [], cur => by simp [mergeGo]
  | e :: l, cur => by
      unfold mergeGo
      split
      · exact mergeGo_ne_nil l _
      · simp

theorem mergeGo_sorted : ∀ (l : List (Ev α)) (cur : Ev α),
    ((cur :: l).map Ev.lev).Pairwise (· ≤ ·) → ((mergeGo cur l).map Ev.lev).Pairwise (· < ·)
  | [], cur, _ => by simp [mergeGo]
  | e :: l, cur, hs => by
      unfold mergeGo
      by_cases h : e.lev = cur.lev
      · rw [if_pos h]
        apply mergeGo_sorted l
        simp only [List.map_cons, List.pairwise_cons] at hs ⊢
        exact ⟨fun u hu => hs.1 u (List.mem_cons_of_mem _ hu), hs.2.2⟩
      · rw [if_neg h]
        simp only [List.map_cons] at hs ⊢
        rw [List.pairwise_cons] at hs ⊢
        refine ⟨?_, mergeGo_sorted l e (by simpa using hs.2)⟩
        intro u hu
        rw [mem_mergeGo] at hu
        have h1 : cur.lev < e.lev :=
          lt_of_le_of_ne (hs.1 _ (by simp)) (fun hh => h hh.symm)
        rw [List.map_cons, List.mem_cons] at hu
        rcases hu with rfl | hu
        · exact h1
        · exact lt_of_lt_of_le h1 ((List.pairwise_cons.1 hs.2).1 u hu)

theorem sortEv_perm (l : List (Ev α)) : (sortEv l).Perm l := List.perm_insertionSort _ l

instance : Std.Total (fun a b : Ev α => a.lev ≤ b.lev) := ⟨fun a b => le_total a.lev b.lev⟩
instance : IsTrans (Ev α) (fun a b : Ev α => a.lev ≤ b.lev) := ⟨fun _ _ _ h h' => le_trans h h'⟩

theorem sortEv_sorted (l : List (Ev α)) : ((sortEv l).map Ev.lev).Pairwise (· ≤ ·) := by
  rw [List.pairwise_map]
  exact List.pairwise_insertionSort (fun a b : Ev α => a.lev ≤ b.lev) l

theorem cumsum_getElem? : ∀ (l : List ℤ) (s : ℤ) (k : ℕ),
    (cumsum s l)[k]? = if k < l.length then some (s + (l.take (k + 1)).sum) else none
  | [], s, k => by simp [cumsum]
  | a :: l, s, k => by
      rcases k with _ | k
      · simp [cumsum]
      · simp only [cumsum, List.getElem?_cons_succ, cumsum_getElem? l, List.length_cons,
          Nat.succ_lt_succ_iff, add_assoc]
        simp

/-- On a strictly increasing list a prefix sum is the sum over the levels up to the last one. -/
theorem prefix_sum (f : Ev α → ℤ) (l : List (Ev α)) (hs : (l.map Ev.lev).Pairwise (· < ·))
    (k : ℕ) (e : Ev α) (he : l[k]? = some e) :
    ((l.map f).take (k + 1)).sum = sumBy (fun u => decide (u ≤ e.lev)) f l := by
  induction l generalizing k with
  | nil => simp at he
  | cons a l ih =>
    rw [List.map_cons, List.pairwise_cons] at hs
    rcases k with _ | k
    · simp only [List.getElem?_cons_zero, Option.some.injEq] at he
      subst he
      rw [sumBy_cons]
      have : sumBy (fun u => decide (u ≤ a.lev)) f l = 0 := by
        unfold sumBy
        rw [List.filter_eq_nil_iff.2]
        · rfl
        · intro b hb
          have := hs.1 b.lev (List.mem_map_of_mem hb)
          simpa using this
      simp [this]
    · simp only [List.getElem?_cons_succ] at he
      have hm : e ∈ l := List.mem_of_getElem? he
      have := hs.1 e.lev (List.mem_map_of_mem hm)
      rw [sumBy_cons, List.map_cons, List.take_succ_cons, List.sum_cons, ih hs.2 k he]
      simp [this.le]

theorem single_sum (f : Ev α → ℤ) (l : List (Ev α)) (hs : (l.map Ev.lev).Pairwise (· < ·))
    (e : Ev α) (he : e ∈ l) : f e = sumBy (fun u => decide (u = e.lev)) f l := by
  induction l with
  | nil => simp at he
  | cons a l ih =>
    rw [List.map_cons, List.pairwise_cons] at hs
    rw [sumBy_cons]
    rcases List.mem_cons.1 he with rfl | he
    · have : sumBy (fun u => decide (u = e.lev)) f l = 0 := by
        unfold sumBy
        rw [List.filter_eq_nil_iff.2]
        · rfl
        · intro b hb
          have := hs.1 b.lev (List.mem_map_of_mem hb)
          simpa using this.ne'
      simp [this]
    · have := hs.1 e.lev (List.mem_map_of_mem he)
      rw [← ih hs.2 he]
      simp [this.ne]

theorem sumBy_map (P : α → Bool) (f : Ev α → ℤ) (g : (α × α) → Ev α) (l : List (α × α)) (c : ℤ)
    (hc : ∀ x, f (g x) = c) :
    sumBy P f (l.map g) = c * (l.countP (fun x => P (g x).lev) : ℤ) := by
  induction l with
  | nil => simp [sumBy_nil]
  | cons a l ih =>
    rw [List.map_cons, sumBy_cons, ih, List.countP_cons, hc]
    by_cases h : P (g a).lev
    · simp [h]; ring
    · simp [h]

theorem sumBy_events_d1 (P : α → Bool) (mm : List (α × α)) :
    sumBy P Ev.d1 (events mm)
      = (mm.countP (fun c => P c.1) : ℤ) - (mm.countP (fun c => P c.2) : ℤ) := by
  unfold events
  rw [sumBy_append, sumBy_map P Ev.d1 _ mm (-1) (fun _ => rfl),
    sumBy_map P Ev.d1 _ mm 1 (fun _ => rfl)]
  ring

theorem sumBy_events_d2 (P : α → Bool) (mm : List (α × α)) :
    sumBy P Ev.d2 (events mm) = (mm.countP (fun c => P c.2) : ℤ) := by
  unfold events
  rw [sumBy_append, sumBy_map P Ev.d2 _ mm 1 (fun _ => rfl),
    sumBy_map P Ev.d2 _ mm 0 (fun _ => rfl)]
  ring

theorem sumBy_events_d3 (P : α → Bool) (mm : List (α × α)) :
    sumBy P Ev.d3 (events mm) = (mm.countP (fun c => P c.1) : ℤ) := by
  unfold events
  rw [sumBy_append, sumBy_map P Ev.d3 _ mm 0 (fun _ => rfl),
    sumBy_map P Ev.d3 _ mm 1 (fun _ => rfl)]
  ring

/-- Splitting a count. -/
theorem count_split (p q r : (α × α) → Bool) (l : List (α × α))
    (h : ∀ c ∈ l, (p c).toNat = (r c).toNat + (q c).toNat) :
    l.countP p = l.countP r + l.countP q := by
  induction l with
  | nil => simp
  | cons a l ih =>
    have h1 := ih (fun c hc => h c (List.mem_cons_of_mem _ hc))
    have h2 := h a (by simp)
    have key : ∀ t : (α × α) → Bool, (a :: l).countP t = l.countP t + (t a).toNat := by
      intro t
      rw [List.countP_cons]
      cases ht : t a <;> simp
    rw [key, key, key]
    omega

theorem events_lev_mem (mm : List (α × α)) (u : α) :
    u ∈ (events mm).map Ev.lev ↔ ∃ c ∈ mm, u = c.1 ∨ u = c.2 := by
  simp only [events, List.map_append, List.map_map, List.mem_append, List.mem_map,
    Function.comp]
  constructor
  · rintro (⟨c, hc, rfl⟩ | ⟨c, hc, rfl⟩)
    · exact ⟨c, hc, Or.inr rfl⟩
    · exact ⟨c, hc, Or.inl rfl⟩
  · rintro ⟨c, hc, rfl | rfl⟩
    · exact Or.inr ⟨c, hc, rfl⟩
    · exact Or.inl ⟨c, hc, rfl⟩

/-- `argmax` of a strictly increasing list followed by zeros, when the last level is not negative
or there is no padding. -/
theorem argmax_padded (l : List α) (hs : l.Pairwise (· < ·)) (t : α) (ht : l.getLast? = some t)
    (p : ℕ) (hp : p = 0 ∨ 0 ≤ t) :
    argmax (l ++ List.replicate p (0 : α)) = l.length - 1 := by
  obtain ⟨init, rfl⟩ : ∃ init, l = init ++ [t] := by
    rcases List.eq_nil_or_concat l with rfl | ⟨i, b, rfl⟩
    · simp at ht
    · simp at ht; subst ht; exact ⟨i, by simp⟩
  have hlast : ∀ y ∈ (init ++ [t]) ++ List.replicate p (0 : α), y ≤ t := by
    intro y hy
    rw [List.pairwise_append] at hs
    rcases List.mem_append.1 hy with hy | hy
    · rcases List.mem_append.1 hy with hy | hy
      · exact (hs.2.2 y hy t (by simp)).le
      · simp at hy; exact hy.le
    · rw [List.mem_replicate] at hy
      rcases hp with rfl | hp
      · exact absurd rfl hy.1
      · rw [hy.2]; exact hp
  unfold argmax
  set L := (init ++ [t]) ++ List.replicate p (0 : α) with hL
  have hLe : L = init ++ (t :: List.replicate p (0 : α)) := by rw [hL]; simp
  have key : ∀ q : α → Bool, (∀ x ∈ init, q x = false) → q t = true →
      L.findIdx q = init.length := by
    intro q hneg hpos
    have h0 : init.findIdx q = init.length := by
      rw [List.findIdx_eq_length]
      exact hneg
    rw [hLe, List.findIdx_append, h0, if_neg (lt_irrefl _), List.findIdx_cons, hpos]
    simp
  have h1 : L.findIdx (fun x => L.all fun y => decide (y ≤ x)) = init.length := by
    apply key
    · intro x hx
      rw [List.all_eq_false]
      refine ⟨t, by rw [hLe]; simp, ?_⟩
      rw [List.pairwise_append] at hs
      have := hs.2.2 x hx t (by simp)
      simpa using this
    · rw [List.all_eq_true]
      intro y hy
      simpa using hlast y hy
  rw [h1]; simp

end

/-! ### Clipping -/

theorem clip_bounds (x lo hi : ℤ) (h : lo ≤ hi) : lo ≤ clip x lo hi ∧ clip x lo hi ≤ hi := by
  unfold clip
  omega

end Wafo.Cycles
