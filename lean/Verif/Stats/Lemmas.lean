import Verif.Stats.Model
import Mathlib.Data.List.Sort
import Mathlib.Data.Set.Basic

/-! Lemmas for the peaks over threshold properties. -/

set_option linter.unusedSectionVars false

namespace Wafo.Stats

open Wafo.Cross

variable {α : Type*} [Field α] [LinearOrder α] [IsStrictOrderedRing α]

/-! ### Edges of a Boolean sequence -/

/-- Positions at which the sequence changes; it is continued by `false`. -/
def edges (prev : Bool) (pos : ℕ) : List Bool → List ℕ
  | [] => if prev then [pos] else []
  | b :: l => if prev = b then edges b (pos + 1) l else pos :: edges b (pos + 1) l

/-- 0 or 1. -/
def num (b : Bool) : α := if b then 1 else 0

theorem sgn_num (p b : Bool) : sgn (0 : α) (num b - num p) = if p = b then 0 else if b then 1 else -1 := by
  cases p <;> cases b <;> simp [sgn, num]

/-- Signs of the differences of the sequence continued by `false`. -/
def dsigns (prev : Bool) : List Bool → List ℤ
  | [] => [if prev then -1 else 0]
  | b :: l => (if prev = b then 0 else if b then 1 else -1) :: dsigns b l

theorem signs_diff (prev : Bool) : ∀ l : List Bool,
    signs (diff ((num prev : α) :: (l.map num ++ [0]))) 0 = dsigns prev l
  | [] => by
    have := sgn_num (α := α) prev false
    simp only [List.map_nil, List.nil_append, diff, signs, List.map_cons, dsigns]
    have h0 : (num false : α) = 0 := rfl
    rw [h0] at this
    rw [this]
    cases prev <;> simp
  | b :: l => by
    have := signs_diff b l
    simp only [List.map_cons, List.cons_append, diff, signs, dsigns] at this ⊢
    rw [this, sgn_num]

/-- The scan between two edges: `d` is the direction of the next edge looked for, `a` the last sign. -/
theorem scan_dsigns : ∀ (l : List Bool) (prev : Bool) (i : ℕ) (a : ℤ),
    (prev = true → 0 ≤ a) → (prev = false → a ≤ 0) →
    scan i (if prev then 1 else -1) (a :: dsigns prev l) = edges prev i l
  | [], true, i, a, h1, h2 => by
    simp [dsigns, scan, edges, h1]
  | [], false, i, a, h1, h2 => by
    simp [dsigns, scan, edges]
  | b :: l, true, i, a, h1, h2 => by
    cases b
    · have := scan_dsigns l false (i + 1) (-1) (by simp) (by simp)
      simp only [Bool.false_eq_true, if_false] at this
      simp [dsigns, scan, edges, h1, this]
    · have := scan_dsigns l true (i + 1) 0 (by simp) (by simp)
      simp only [if_true] at this
      simp [dsigns, scan, edges, this]
  | b :: l, false, i, a, h1, h2 => by
    cases b
    · have := scan_dsigns l false (i + 1) 0 (by simp) (by simp)
      simp only [Bool.false_eq_true, if_false] at this
      simp [dsigns, scan, edges, this]
    · have := scan_dsigns l true (i + 1) 1 (by simp) (by simp)
      simp only [if_true] at this
      simp [dsigns, scan, edges, h2, this]

theorem zeroScan_dsigns : ∀ (l : List Bool) (i : ℕ), zeroScan (i + 1) (dsigns false l) = edges false i l
  | [], i => by simp [dsigns, zeroScan, edges]
  | b :: l, i => by
    cases b
    · have := zeroScan_dsigns l (i + 1)
      simp [dsigns, zeroScan, edges, this]
    · have := scan_dsigns l true (i + 1) 1 (by simp) (by simp)
      simp only [if_true] at this
      simp [dsigns, zeroScan, edges, this]

theorem extrema_edges (l : List Bool) :
    findextrema ((0 : α) :: 0 :: (l.map (fun b => if b then 1 else 0) ++ [0])) =
      .ok ((edges false 0 l).map (· + 1)) := by
  have hs : signs (diff ((0 : α) :: 0 :: (l.map (fun b => if b then 1 else 0) ++ [0]))) 0 = 0 :: dsigns false l := by
    have := signs_diff (α := α) false l
    have h0 : (num false : α) = 0 := rfl
    rw [h0] at this
    simp only [diff, signs, List.map_cons] at this ⊢
    have e : (fun b : Bool => if b = true then (1 : α) else 0) = num := rfl
    rw [e, this]
    simp [sgn]
  unfold findextrema findcross
  rw [hs]
  simp only [findcross0]
  rw [if_neg (by norm_num), if_neg (by norm_num), zeroScan_dsigns]
  cases edges false 0 l with
  | nil => rfl
  | cons a r => simp [selectKind]

theorem edges_ge : ∀ (l : List Bool) (prev : Bool) (pos : ℕ), ∀ e ∈ edges prev pos l, pos ≤ e
  | [], prev, pos => by cases prev <;> simp [edges]
  | b :: l, prev, pos => by
    intro e he
    unfold edges at he
    split at he
    · have := edges_ge l b (pos + 1) e he; omega
    · rcases List.mem_cons.1 he with rfl | he
      · exact le_refl _
      · have := edges_ge l b (pos + 1) e he; omega

theorem edges_sorted : ∀ (l : List Bool) (prev : Bool) (pos : ℕ), (edges prev pos l).Pairwise (· < ·)
  | [], prev, pos => by cases prev <;> simp [edges]
  | b :: l, prev, pos => by
    unfold edges
    split
    · exact edges_sorted l b (pos + 1)
    · refine List.pairwise_cons.2 ⟨fun e he => ?_, edges_sorted l b (pos + 1)⟩
      have := edges_ge l b (pos + 1) e he; omega

/-- A `true` at `q` lies between an opening and the following closing edge. -/
theorem edges_mem : ∀ (l : List Bool) (pos q : ℕ), l[q]? = some true →
    (∃ i x y, (edges false pos l)[2 * i]? = some x ∧ (edges false pos l)[2 * i + 1]? = some y ∧ x ≤ pos + q ∧ pos + q < y) ∧
    ((∃ y, (edges true pos l)[0]? = some y ∧ pos + q < y) ∨
      ∃ i x y, (edges true pos l)[2 * i + 1]? = some x ∧ (edges true pos l)[2 * i + 2]? = some y ∧ x ≤ pos + q ∧ pos + q < y)
  | [], pos, q, h => by simp at h
  | b :: l, pos, 0, h => by
    simp only [List.getElem?_cons_zero, Option.some.injEq] at h
    subst h
    -- the closing edge exists
    have hc : ∀ (l : List Bool) (pos : ℕ), ∃ y, (edges true pos l)[0]? = some y ∧ pos ≤ y := by
      intro l
      induction l with
      | nil => intro pos; exact ⟨pos, by simp [edges]⟩
      | cons c l ih =>
        intro pos
        cases c
        · exact ⟨pos, by simp [edges]⟩
        · obtain ⟨y, h1, h2⟩ := ih (pos + 1)
          exact ⟨y, by simpa [edges] using h1, by omega⟩
    obtain ⟨y, h1, h2⟩ := hc l (pos + 1)
    constructor
    · refine ⟨0, pos, y, by simp [edges], by simpa [edges] using h1, by omega, by omega⟩
    · left
      exact ⟨y, by simpa [edges] using h1, by omega⟩
  | b :: l, pos, q + 1, h => by
    simp only [List.getElem?_cons_succ] at h
    obtain ⟨h1, h2⟩ := edges_mem l (pos + 1) q h
    cases b
    · obtain ⟨i, x, y, e1, e2, e3, e4⟩ := h1
      constructor
      · exact ⟨i, x, y, by simpa [edges] using e1, by simpa [edges] using e2, by omega, by omega⟩
      · right
        refine ⟨i, x, y, ?_, ?_, by omega, by omega⟩
        · simpa [edges] using e1
        · simpa [edges] using e2
    · constructor
      · rcases h2 with ⟨y, e1, e2⟩ | ⟨i, x, y, e1, e2, e3, e4⟩
        · exact ⟨0, pos, y, by simp [edges], by simpa [edges] using e1, by omega, by omega⟩
        · refine ⟨i + 1, x, y, ?_, ?_, by omega, by omega⟩
          · simpa [edges, show 2 * (i + 1) = (2 * i + 1) + 1 by ring] using e1
          · simpa [edges, show 2 * (i + 1) + 1 = (2 * i + 2) + 1 by ring] using e2
      · rcases h2 with ⟨y, e1, e2⟩ | ⟨i, x, y, e1, e2, e3, e4⟩
        · left; exact ⟨y, by simpa [edges] using e1, by omega⟩
        · right; exact ⟨i, x, y, by simpa [edges] using e1, by simpa [edges] using e2, by omega, by omega⟩

/-! ### The greedy selection -/

/-- Two times are closer than or exactly `tmin` apart. -/
def Near (tmin a b : α) : Prop := a - tmin ≤ b ∧ b ≤ a + tmin

theorem near_iff (tmin a b : α) : Near tmin a b ↔ |b - a| ≤ tmin := by
  unfold Near
  rw [abs_le]
  constructor <;> rintro ⟨h1, h2⟩ <;> constructor <;> linarith

open Classical in
theorem greedy_cons (tmin : α) (pool : List α) (p : ℕ) (ti : α) (l : List (ℕ × α)) :
    greedy tmin pool ((p, ti) :: l) =
      if ∃ c ∈ pool, Near tmin c ti then greedy tmin pool l else p :: greedy tmin (pool ++ [ti]) l := by
  have : (pool.any (fun c => decide (c - tmin ≤ ti) && decide (ti ≤ c + tmin)) = true) ↔ ∃ c ∈ pool, Near tmin c ti := by
    simp [Near]
  by_cases h : ∃ c ∈ pool, Near tmin c ti
  · rw [if_pos h]; rw [greedy, if_pos (this.2 h)]
  · rw [if_neg h]; rw [greedy, if_neg (fun hh => h (this.1 hh))]

/-- Accepted positions come from the list. -/
theorem greedy_sub (tmin : α) : ∀ (l : List (ℕ × α)) (pool : List α), (greedy tmin pool l).Sublist (l.map Prod.fst)
  | [], pool => by simp [greedy]
  | (p, ti) :: l, pool => by
    rw [greedy_cons]
    split
    · exact (greedy_sub tmin l pool).cons _
    · exact (greedy_sub tmin l _).cons_cons _

/-- Accepted peaks are away from the pool and from each other. -/
theorem greedy_far (tmin : α) (tm : ℕ → α) : ∀ (l : List (ℕ × α)) (pool : List α), (∀ x ∈ l, x.2 = tm x.1) →
    (∀ p ∈ greedy tmin pool l, ∀ c ∈ pool, ¬ Near tmin c (tm p)) ∧
    (greedy tmin pool l).Pairwise (fun p q => ¬ Near tmin (tm p) (tm q))
  | [], pool, _ => by simp [greedy]
  | (p, ti) :: l, pool, ht => by
    have ht' : ∀ x ∈ l, x.2 = tm x.1 := fun x hx => ht x (List.mem_cons_of_mem _ hx)
    have hp : ti = tm p := ht (p, ti) (by simp)
    rw [greedy_cons]
    split
    · exact greedy_far tmin tm l pool ht'
    · rename_i hn
      obtain ⟨h1, h2⟩ := greedy_far tmin tm l (pool ++ [ti]) ht'
      constructor
      · intro q hq c hc
        rcases List.mem_cons.1 hq with rfl | hq
        · rw [← hp]; exact fun h => hn ⟨c, hc, h⟩
        · exact h1 q hq c (by simp [hc])
      · refine List.pairwise_cons.2 ⟨fun q hq => ?_, h2⟩
        rw [← hp]
        exact h1 q hq ti (by simp)

/-- A rejected peak is near a member of the pool or an accepted peak that comes before it. -/
theorem greedy_cover (tmin : α) (tm : ℕ → α) : ∀ (l : List (ℕ × α)) (pool : List α), (∀ x ∈ l, x.2 = tm x.1) →
    ∀ l1 x l2, l = l1 ++ x :: l2 → x.1 ∉ greedy tmin pool l →
      (∃ c ∈ pool, Near tmin c x.2) ∨ ∃ q ∈ l1, q.1 ∈ greedy tmin pool l ∧ Near tmin (tm q.1) x.2
  | [], pool, _, l1, x, l2, h, _ => by simp at h
  | (p, ti) :: l, pool, ht, [], x, l2, h, hx => by
    simp only [List.nil_append, List.cons.injEq] at h
    obtain ⟨rfl, rfl⟩ := h
    rw [greedy_cons] at hx
    by_cases hn : ∃ c ∈ pool, Near tmin c ti
    · exact Or.inl hn
    · rw [if_neg hn] at hx; simp at hx
  | (p, ti) :: l, pool, ht, y :: l1, x, l2, h, hx => by
    simp only [List.cons_append, List.cons.injEq] at h
    obtain ⟨rfl, h⟩ := h
    have ht' : ∀ x ∈ l, x.2 = tm x.1 := fun x hx => ht x (List.mem_cons_of_mem _ hx)
    have hp : ti = tm p := ht (p, ti) (by simp)
    rw [greedy_cons] at hx ⊢
    by_cases hn : ∃ c ∈ pool, Near tmin c ti
    · rw [if_pos hn] at hx ⊢
      rcases greedy_cover tmin tm l pool ht' l1 x l2 h hx with h1 | ⟨q, h1, h2, h3⟩
      · exact Or.inl h1
      · exact Or.inr ⟨q, List.mem_cons_of_mem _ h1, h2, h3⟩
    · rw [if_neg hn] at hx ⊢
      simp only [List.mem_cons, not_or] at hx
      rcases greedy_cover tmin tm l (pool ++ [ti]) ht' l1 x l2 h hx.2 with ⟨c, hc, h1⟩ | ⟨q, h1, h2, h3⟩
      · rcases List.mem_append.1 hc with hc | hc
        · exact Or.inl ⟨c, hc, h1⟩
        · simp only [List.mem_singleton] at hc
          subst hc
          right
          refine ⟨(p, c), by simp, by simp, ?_⟩
          rw [← hp]; exact h1
      · exact Or.inr ⟨q, List.mem_cons_of_mem _ h1, List.mem_cons_of_mem _ h2, h3⟩

/-- Arranges peaks by falling value. -/
def SortsDesc (desc : List (Exc α) → List (Exc α)) : Prop :=
  ∀ l, (desc l).Perm l ∧ (desc l).Pairwise (fun a b => b.val ≤ a.val)

/-- Arranges peaks by time. -/
def SortsTime (byTime : List (Exc α) → List (Exc α)) : Prop :=
  ∀ l, (byTime l).Perm l ∧ (byTime l).Pairwise (fun a b => a.time ≤ b.time)

/-- What `_find_ok_peaks` returns for a slice. -/
theorem okPeaks_spec (desc : List (Exc α) → List (Exc α)) (hd : SortsDesc desc) (tmin : α) (e : List (Exc α)) :
    (∀ o ∈ okPeaks desc tmin e, o < e.length) ∧
    (∀ o ∈ okPeaks desc tmin e, ∀ o' ∈ okPeaks desc tmin e, o ≠ o' → ∀ x x', e[o]? = some x → e[o']? = some x' →
      tmin < |x.time - x'.time|) ∧
    (∀ o x, e[o]? = some x → o ∉ okPeaks desc tmin e → ∃ o' ∈ okPeaks desc tmin e, ∃ x', e[o']? = some x' ∧
      |x.time - x'.time| ≤ tmin ∧ x.val ≤ x'.val) := by
  set m := e.mapIdx (fun p x => ({ x with idx := p } : Exc α)) with hm
  obtain ⟨hperm, hsort⟩ := hd m
  let tm : ℕ → α := fun p => (e[p]?.map Exc.time).getD 0
  have hmem : ∀ x, x ∈ desc m ↔ ∃ p y, e[p]? = some y ∧ x = ⟨p, y.val, y.time⟩ := by
    intro x
    rw [hperm.mem_iff, hm, List.mem_mapIdx]
    constructor
    · rintro ⟨i, hi, rfl⟩
      exact ⟨i, e[i], by simp [hi], rfl⟩
    · rintro ⟨p, y, hp, rfl⟩
      obtain ⟨h1, h2⟩ := List.getElem?_eq_some_iff.1 hp
      exact ⟨p, h1, by rw [h2]⟩
  set ql := (desc m).map (fun x => (x.idx, x.time)) with hql
  have htm : ∀ x ∈ ql, x.2 = tm x.1 := by
    intro x hx
    obtain ⟨y, hy, rfl⟩ := List.mem_map.1 hx
    obtain ⟨p, z, hz, rfl⟩ := (hmem y).1 hy
    simp [tm, hz]
  have hok : okPeaks desc tmin e = greedy tmin [] ql := rfl
  obtain ⟨-, hfar⟩ := greedy_far tmin tm ql [] htm
  have htime : ∀ p x, e[p]? = some x → tm p = x.time := by intro p x h; simp [tm, h]
  have hsub : ∀ o ∈ okPeaks desc tmin e, o < e.length := by
    intro o ho
    have := (greedy_sub tmin ql []).subset ho
    simp only [hql, List.map_map, List.mem_map] at this
    obtain ⟨x, hx, rfl⟩ := this
    obtain ⟨p, z, hz, rfl⟩ := (hmem x).1 hx
    exact (List.getElem?_eq_some_iff.1 hz).1
  refine ⟨hsub, ?_, ?_⟩
  · intro o ho o' ho' hne x x' hx hx'
    rw [hok] at ho ho'
    have hsym : ∀ p q, ¬ Near tmin (tm p) (tm q) ↔ tmin < |tm p - tm q| := by
      intro p q; rw [near_iff, not_le, abs_sub_comm]
    have hp2 : (greedy tmin [] ql).Pairwise (fun p q => tmin < |tm p - tm q|) :=
      hfar.imp (fun {p q} h => (hsym p q).1 h)
    have : Std.Symm (fun p q => tmin < |tm p - tm q|) := ⟨fun p q h => by rwa [abs_sub_comm]⟩
    have := hp2.forall ho ho' hne
    rwa [htime o x hx, htime o' x' hx'] at this
  · intro o x hx ho
    have hxm : (⟨o, x.val, x.time⟩ : Exc α) ∈ desc m := (hmem _).2 ⟨o, x, hx, rfl⟩
    obtain ⟨l1, l2, hl⟩ := List.append_of_mem hxm
    have hqs : ql = l1.map (fun x => (x.idx, x.time)) ++ (o, x.time) :: l2.map (fun x => (x.idx, x.time)) := by
      rw [hql, hl]; simp
    rw [hok] at ho ⊢
    rcases greedy_cover tmin tm ql [] htm _ _ _ hqs ho with ⟨c, hc, -⟩ | ⟨q, hq, h2, h3⟩
    · simp at hc
    · obtain ⟨y, hy, rfl⟩ := List.mem_map.1 hq
      have hym : y ∈ desc m := by rw [hl]; simp [hy]
      obtain ⟨p, z, hz, rfl⟩ := (hmem y).1 hym
      refine ⟨p, h2, z, hz, ?_, ?_⟩
      · rw [htime p z hz, near_iff] at h3
        exact h3
      · rw [hl, List.pairwise_append] at hsort
        exact hsort.2.2 _ hy ⟨o, x.val, x.time⟩ (by simp)

/-! ### The flags -/

theorem clear_get (o : List ℕ) (s : ℕ) : ∀ (flags : List Bool),
    (o.foldl (fun f o => f.set (s + o) false) flags).length = flags.length ∧
    ∀ p, (o.foldl (fun f o => f.set (s + o) false) flags)[p]? =
      if (∃ q ∈ o, p = s + q) then flags[p]?.map (fun _ => false) else flags[p]? := by
  induction o with
  | nil => intro flags; simp
  | cons a o ih =>
    intro flags
    obtain ⟨h1, h2⟩ := ih (flags.set (s + a) false)
    refine ⟨by rw [List.foldl_cons, h1, List.length_set], fun p => ?_⟩
    rw [List.foldl_cons, h2 p]
    by_cases hp : p = s + a
    · subst hp
      have e : ∃ q ∈ a :: o, s + a = s + q := ⟨a, by simp, rfl⟩
      rw [if_pos e]
      by_cases hl : s + a < flags.length
      · rw [List.getElem?_set_self hl]
        simp [hl]
      · simp [List.getElem?_eq_none (not_lt.1 hl), List.getElem?_eq_none (show (flags.set (s + a) false).length ≤ s + a by
          simpa using hl)]
    · rw [List.getElem?_set_ne (by omega)]
      have e : (∃ q ∈ a :: o, p = s + q) ↔ ∃ q ∈ o, p = s + q := by
        constructor
        · rintro ⟨q, hq, h⟩
          rcases List.mem_cons.1 hq with rfl | hq
          · exact absurd h hp
          · exact ⟨q, hq, h⟩
        · rintro ⟨q, hq, h⟩; exact ⟨q, List.mem_cons_of_mem _ hq, h⟩
      simp only [e]

/-- The position `p` is accepted in the slice `s`. -/
def Accepted (desc : List (Exc α) → List (Exc α)) (tmin : α) (e : List (Exc α)) (s : ℕ × ℕ) (p : ℕ) : Prop :=
  ∃ q ∈ okPeaks desc tmin ((e.take s.2).drop s.1), p = s.1 + q

theorem flags_get (desc : List (Exc α) → List (Exc α)) (tmin : α) (e : List (Exc α)) : ∀ (sl : List (ℕ × ℕ)) (flags : List Bool),
    (sl.foldl (clear desc tmin e) flags).length = flags.length ∧
    ∀ p, ((sl.foldl (clear desc tmin e) flags)[p]? = some false ↔
      p < flags.length ∧ (flags[p]? = some false ∨ ∃ s ∈ sl, Accepted desc tmin e s p)) := by
  intro sl
  induction sl with
  | nil =>
    intro flags
    refine ⟨rfl, fun p => ?_⟩
    simp only [List.foldl_nil, List.not_mem_nil, false_and, exists_false, or_false]
    constructor
    · intro h; exact ⟨(List.getElem?_eq_some_iff.1 h).1, h⟩
    · exact fun h => h.2
  | cons s sl ih =>
    intro flags
    obtain ⟨h1, h2⟩ := ih (clear desc tmin e flags s)
    obtain ⟨c1, c2⟩ := clear_get (okPeaks desc tmin ((e.take s.2).drop s.1)) s.1 flags
    have hl : (clear desc tmin e flags s).length = flags.length := c1
    refine ⟨by rw [List.foldl_cons, h1, hl], fun p => ?_⟩
    rw [List.foldl_cons, h2 p, hl]
    have hc : (clear desc tmin e flags s)[p]? = some false ↔
        p < flags.length ∧ (flags[p]? = some false ∨ Accepted desc tmin e s p) := by
      unfold clear
      rw [c2 p]
      by_cases ha : ∃ q ∈ okPeaks desc tmin ((e.take s.2).drop s.1), p = s.1 + q
      · rw [if_pos ha]
        constructor
        · intro h
          cases hf : flags[p]? with
          | none => rw [hf] at h; simp at h
          | some v => exact ⟨(List.getElem?_eq_some_iff.1 hf).1, Or.inr ha⟩
        · rintro ⟨h, -⟩
          simp [h]
      · rw [if_neg ha]
        constructor
        · intro h; exact ⟨(List.getElem?_eq_some_iff.1 h).1, Or.inl h⟩
        · rintro ⟨-, h | h⟩
          · exact h
          · exact absurd h ha
    rw [hc]
    constructor
    · rintro ⟨hp, ⟨-, h | h⟩ | ⟨s', h3, h4⟩⟩
      · exact ⟨hp, Or.inl h⟩
      · exact ⟨hp, Or.inr ⟨s, by simp, h⟩⟩
      · exact ⟨hp, Or.inr ⟨s', List.mem_cons_of_mem _ h3, h4⟩⟩
    · rintro ⟨hp, h | ⟨s', h3, h4⟩⟩
      · exact ⟨hp, Or.inl ⟨hp, Or.inl h⟩⟩
      · rcases List.mem_cons.1 h3 with rfl | h3
        · exact ⟨hp, Or.inl ⟨hp, Or.inr h4⟩⟩
        · exact ⟨hp, Or.inr ⟨s', h3, h4⟩⟩

theorem tooClose_get : ∀ (l : List Bool) (prev : Bool),
    (tooClose prev l).length = l.length + 1 ∧
    ∀ p, p ≤ l.length → (tooClose prev l)[p]? =
      some ((if p = 0 then prev else l.getD (p - 1) false) || l.getD p false)
  | [], prev => by
    refine ⟨rfl, fun p hp => ?_⟩
    have : p = 0 := by simpa using hp
    subst this
    simp [tooClose]
  | b :: l, prev => by
    obtain ⟨h1, h2⟩ := tooClose_get l b
    refine ⟨by simp [tooClose, h1], fun p hp => ?_⟩
    rcases p with _ | p
    · simp [tooClose]
    · simp only [tooClose, List.getElem?_cons_succ]
      rw [h2 p (by simpa using hp)]
      rcases p with _ | p
      · simp
      · simp

/-- Selection by flags. -/
theorem select_mem (e : List (Exc α)) (flags : List Bool) (hl : flags.length = e.length) :
    ((e.zip flags).filterMap (fun p => if p.2 then none else some p.1)).Sublist e ∧
    ∀ x, x ∈ (e.zip flags).filterMap (fun p => if p.2 then none else some p.1) ↔
      ∃ p : ℕ, e[p]? = some x ∧ flags[p]? = some false := by
  constructor
  · induction e generalizing flags with
    | nil => simp
    | cons a e ih =>
      rcases flags with _ | ⟨b, f⟩
      · simp
      · simp only [List.zip_cons_cons, List.filterMap_cons]
        have := ih f (by simpa using hl)
        cases b
        · exact this.cons_cons a
        · exact this.cons a
  · intro x
    rw [List.mem_filterMap]
    constructor
    · rintro ⟨⟨y, b⟩, hm, hb⟩
      obtain ⟨p, hp⟩ := List.mem_iff_getElem?.1 hm
      rw [List.getElem?_zip_eq_some] at hp
      cases b
      · simp only [Bool.false_eq_true, if_false, Option.some.injEq] at hb
        subst hb
        exact ⟨p, hp⟩
      · simp at hb
    · rintro ⟨p, h1, h2⟩
      exact ⟨(x, false), List.mem_iff_getElem?.2 ⟨p, List.getElem?_zip_eq_some.2 ⟨h1, h2⟩⟩, by simp⟩

/-! ### Exceedances -/

/-- `i` is the index of an exceedance with value `v` and time `s`. -/
def IsExc (data t : List α) (thresh : α) (i : ℕ) (v s : α) : Prop :=
  data[i]? = some v ∧ thresh < v ∧ t[i]? = some s

theorem mapM_time (t : List α) : ∀ l : List (ℕ × α), (∀ p ∈ l, p.1 < t.length) →
    l.mapM (fun p => match t[p.1]? with
      | some s => (.ok ⟨p.1, p.2, s⟩ : Except PyErr (Exc α))
      | none => .error .indexError) = .ok (l.map (fun p => ⟨p.1, p.2, t.getD p.1 0⟩))
  | [], _ => rfl
  | p :: l, h => by
    have hp := h p (by simp)
    rw [List.mapM_cons, mapM_time t l (fun q hq => h q (List.mem_cons_of_mem _ hq))]
    simp [List.getElem?_eq_getElem hp, List.getD]
    rfl

theorem exceedances_spec (data t : List α) (thresh : α) (hl : data.length ≤ t.length) :
    ∃ e, exceedances data t thresh = .ok e ∧ (e.map Exc.idx).Pairwise (· < ·) ∧
      ∀ x, x ∈ e ↔ IsExc data t thresh x.idx x.val x.time := by
  let f : ℕ → Option (ℕ × α) := fun i => match data[i]? with
    | some v => if thresh < v then some (i, v) else none
    | none => none
  let l := (List.range data.length).filterMap f
  have hf : ∀ i p, f i = some p ↔ p.1 = i ∧ data[i]? = some p.2 ∧ thresh < p.2 := by
    intro i p
    obtain ⟨p1, p2⟩ := p
    cases h : data[i]? with
    | none => simp [f, h]
    | some v =>
      simp only [f, h]
      by_cases hv : thresh < v
      · simp only [hv, if_true, Option.some.injEq, Prod.mk.injEq]
        constructor
        · rintro ⟨rfl, rfl⟩; exact ⟨rfl, rfl, hv⟩
        · rintro ⟨rfl, rfl, -⟩; exact ⟨rfl, rfl⟩
      · simp only [hv, if_false, Option.some.injEq, reduceCtorEq, false_iff]
        rintro ⟨-, rfl, h⟩; exact hv h
  have hmem : ∀ p, p ∈ l ↔ data[p.1]? = some p.2 ∧ thresh < p.2 := by
    intro p
    simp only [l, List.mem_filterMap, List.mem_range]
    constructor
    · rintro ⟨i, -, hi⟩
      obtain ⟨rfl, h1, h2⟩ := (hf i p).1 hi
      exact ⟨h1, h2⟩
    · rintro ⟨h1, h2⟩
      exact ⟨p.1, (List.getElem?_eq_some_iff.1 h1).1, (hf p.1 p).2 ⟨rfl, h1, h2⟩⟩
  have hlt : ∀ p ∈ l, p.1 < t.length := by
    intro p hp
    have := (List.getElem?_eq_some_iff.1 ((hmem p).1 hp).1).1
    omega
  refine ⟨l.map (fun p : ℕ × α => (⟨p.1, p.2, t.getD p.1 0⟩ : Exc α)), mapM_time t l hlt, ?_, ?_⟩
  · rw [List.map_map]
    have hp : l.Pairwise (fun a b => a.1 < b.1) := by
      have := List.pairwise_lt_range (n := data.length)
      refine List.Pairwise.filterMap f (fun i j hij a ha b hb => ?_) this
      obtain ⟨e1, -⟩ := (hf i a).1 ha
      obtain ⟨e2, -⟩ := (hf j b).1 hb
      rw [e1, e2]; exact hij
    rw [List.pairwise_map]
    exact hp
  · intro x
    rw [List.mem_map]
    constructor
    · rintro ⟨p, hp, rfl⟩
      obtain ⟨h1, h2⟩ := (hmem p).1 hp
      refine ⟨h1, h2, ?_⟩
      have := hlt p hp
      simp [List.getD, this]
    · rintro ⟨h1, h2, h3⟩
      refine ⟨(x.idx, x.val), (hmem _).2 ⟨h1, h2⟩, ?_⟩
      simp [List.getD, h3]

/-! ### The whole search -/

theorem exceedances_times (data t : List α) (thresh : α) (hl : data.length ≤ t.length) :
    ∃ e, exceedances data t thresh = .ok e ∧ e.map Exc.time = ((data.zip t).filter (fun p => decide (thresh < p.1))).map Prod.snd := by
  let f : ℕ → Option (ℕ × α) := fun i => match data[i]? with
    | some v => if thresh < v then some (i, v) else none
    | none => none
  let l := (List.range data.length).filterMap f
  have hlt : ∀ p ∈ l, p.1 < t.length := by
    intro p hp
    obtain ⟨i, hi, h⟩ := List.mem_filterMap.1 hp
    have hi := List.mem_range.1 hi
    simp only [f, List.getElem?_eq_getElem hi] at h
    split at h
    · simp only [Option.some.injEq] at h
      rw [← h]; simp only; omega
    · simp at h
  refine ⟨_, mapM_time t l hlt, ?_⟩
  rw [List.map_map]
  have hz : data.zip t = (List.range data.length).map (fun i : ℕ => (data.getD i 0, t.getD i 0)) := by
    apply List.ext_getElem
    · simp [hl]
    · intro i h1 h2
      have h3 : i < data.length := by simpa using h2
      simp [List.getD, h3, show i < t.length by omega]
  rw [hz]
  have key : ∀ L : List ℕ, (∀ i ∈ L, i < data.length) →
      (L.filterMap f).map (Exc.time ∘ fun p : ℕ × α => (⟨p.1, p.2, t.getD p.1 0⟩ : Exc α)) =
        ((L.map (fun i : ℕ => (data.getD i 0, t.getD i 0))).filter (fun p => decide (thresh < p.1))).map Prod.snd := by
    intro L
    induction L with
    | nil => intro _; rfl
    | cons a L ih =>
      intro h
      have ha := h a (by simp)
      have ih' := ih (fun i hi => h i (List.mem_cons_of_mem _ hi))
      by_cases hv : thresh < data[a]
      · simp only [List.filterMap_cons, f, List.getElem?_eq_getElem ha, hv, if_true, List.map_cons, List.filter_cons, List.getD,
          Option.getD_some, decide_true]
        simp only [f, List.getD] at ih'
        rw [ih']
        rfl
      · simp only [List.filterMap_cons, f, List.getElem?_eq_getElem ha, hv, if_false, List.map_cons, List.filter_cons, List.getD,
          Option.getD_some, decide_false]
        simp only [f, List.getD] at ih'
        rw [ih']
        rfl
  exact key _ (fun i hi => List.mem_range.1 hi)

theorem diff_sorted : ∀ l : List α, ((diff l).any (fun d => decide (d < 0)) = false) → l.Pairwise (· ≤ ·)
  | [], _ => by simp
  | [a], _ => by simp
  | a :: b :: l, h => by
    simp only [diff, List.any_cons, Bool.or_eq_false_iff, decide_eq_false_iff_not, not_lt] at h
    have ih := diff_sorted (b :: l) h.2
    refine List.pairwise_cons.2 ⟨fun x hx => ?_, ih⟩
    have hab : a ≤ b := by linarith [h.1]
    rcases List.mem_cons.1 hx with rfl | hx
    · exact hab
    · exact hab.trans ((List.pairwise_cons.1 ih).1 x hx)

theorem diff_get? : ∀ (l : List α) (k : ℕ), (diff l)[k]? = match l[k]?, l[k + 1]? with
    | some a, some b => some (b - a)
    | _, _ => none
  | [], k => by simp [diff]
  | [a], k => by rcases k with _ | k <;> simp [diff]
  | a :: b :: l, 0 => by simp [diff]
  | a :: b :: l, k + 1 => by
    have := diff_get? (b :: l) k
    simpa [diff] using this

/-- The gap after position `k` is at most `tmin`. -/
theorem small_get (tmin : α) (e : List (Exc α)) (k : ℕ) :
    (tooSmall tmin e)[k]? = some true ↔ ∃ x y, e[k]? = some x ∧ e[k + 1]? = some y ∧ y.time - x.time ≤ tmin := by
  unfold tooSmall
  rw [List.getElem?_map, diff_get?, List.getElem?_map, List.getElem?_map]
  cases h1 : e[k]? <;> cases h2 : e[k + 1]? <;> simp

theorem small_length (tmin : α) (e : List (Exc α)) : (tooSmall tmin e).length = e.length - 1 := by
  unfold tooSmall
  rw [List.length_map]
  have : ∀ l : List α, (diff l).length = l.length - 1 := by
    intro l
    induction l with
    | nil => rfl
    | cons a l ih =>
      cases l with
      | nil => rfl
      | cons b l => simp only [diff, List.length_cons] at ih ⊢; omega
  rw [this, List.length_map]

/-- Position `p` has no small gap on either side. -/
def Isolated (small : List Bool) (p : ℕ) : Prop := small[p]? ≠ some true ∧ ∀ k, p = k + 1 → small[k]? ≠ some true

/-- Position `p` is kept. -/
def Kept (desc : List (Exc α) → List (Exc α)) (tmin : α) (e : List (Exc α)) (p : ℕ) : Prop :=
  Isolated (tooSmall tmin e) p ∨
    ∃ s ∈ slices ((edges false 0 (tooSmall tmin e)).map (· + 1)), Accepted desc tmin e s p

theorem getD_eq_false_iff (l : List Bool) (k : ℕ) : l.getD k false = false ↔ l[k]? ≠ some true := by
  rw [List.getD]
  cases h : l[k]? with
  | none => simp
  | some b => cases b <;> simp

theorem edges_none : ∀ (l : List Bool) (pos : ℕ), l.any id = false → edges false pos l = []
  | [], pos, _ => rfl
  | b :: l, pos, h => by
    simp only [List.any_cons, id, Bool.or_eq_false_iff] at h
    rw [edges, h.1, if_pos rfl, edges_none l _ h.2]

theorem kept_none (desc : List (Exc α) → List (Exc α)) (tmin : α) (e : List (Exc α)) (h : (tooSmall tmin e).any id = false) (p : ℕ) :
    Kept desc tmin e p := by
  left
  have : ∀ k : ℕ, (tooSmall tmin e)[k]? ≠ some true := by
    intro k hk
    have hm := List.mem_of_getElem? hk
    rw [List.any_eq_false] at h
    exact h true hm rfl
  exact ⟨this p, fun k _ => this k⟩

/-- What the search returns. -/
theorem findpot_spec (byTime desc : List (Exc α) → List (Exc α)) (hb : SortsTime byTime)
    (data t : List α) (thresh tmin : α) (hl : data.length ≤ t.length) :
    ∃ e r : List (Exc α), findpot byTime desc data t thresh tmin = .ok (r.map Exc.idx) ∧
      e.Pairwise (fun a b => a.time ≤ b.time) ∧ (e.map Exc.idx).Nodup ∧
      (∀ x, x ∈ e ↔ IsExc data t thresh x.idx x.val x.time) ∧
      (e.map Exc.time).Perm (((data.zip t).filter (fun p => decide (thresh < p.1))).map Prod.snd) ∧
      r.Sublist e ∧ ∀ x, x ∈ r ↔ ∃ p : ℕ, e[p]? = some x ∧ Kept desc tmin e p := by
  obtain ⟨e0, he0, hinc, hmem⟩ := exceedances_spec data t thresh hl
  obtain ⟨e1, he1, htimes⟩ := exceedances_times data t thresh hl
  rw [he0] at he1
  obtain rfl : e0 = e1 := by simpa using he1
  have hall : ∀ e : List (Exc α), (tooSmall tmin e).any id = false →
      ∀ x, x ∈ e ↔ ∃ p : ℕ, e[p]? = some x ∧ Kept desc tmin e p := by
    intro e he x
    constructor
    · intro hx
      obtain ⟨p, hp⟩ := List.mem_iff_getElem?.1 hx
      exact ⟨p, hp, kept_none desc tmin e he p⟩
    · rintro ⟨p, hp, -⟩; exact List.mem_of_getElem? hp
  unfold findpot
  rw [he0]
  simp only
  by_cases hn : e0.length ≤ 1
  · rw [if_pos hn]
    have hs : (tooSmall tmin e0).any id = false := by
      have := small_length tmin e0
      have h0 : tooSmall tmin e0 = [] := List.eq_nil_of_length_eq_zero (by omega)
      rw [h0]; rfl
    refine ⟨e0, e0, rfl, ?_, hinc.imp (fun h => by omega), hmem, by rw [htimes], List.Sublist.refl _, hall e0 hs⟩
    match e0, hn with
    | [], _ => simp
    | [a], _ => simp
  · rw [if_neg hn]
    set e := (if (diff (e0.map Exc.time)).any (fun d => decide (d < 0)) then byTime e0 else e0) with he
    have hperm : e.Perm e0 := by
      rw [he]; split
      · exact (hb e0).1
      · exact List.Perm.refl _
    have hsort : e.Pairwise (fun a b => a.time ≤ b.time) := by
      rw [he]; split
      · exact (hb e0).2
      · rename_i h
        have := diff_sorted (e0.map Exc.time) (by simpa using h)
        rwa [List.pairwise_map] at this
    have hnd : (e.map Exc.idx).Nodup := by
      rw [(hperm.map Exc.idx).nodup_iff]
      exact hinc.imp (fun h => by omega)
    have hmem' : ∀ x, x ∈ e ↔ IsExc data t thresh x.idx x.val x.time := by
      intro x; rw [hperm.mem_iff, hmem]
    have htp : (e.map Exc.time).Perm (((data.zip t).filter (fun p => decide (thresh < p.1))).map Prod.snd) := by
      rw [← htimes]; exact hperm.map _
    have hlen : 1 < e.length := by rw [hperm.length_eq]; omega
    by_cases hs : (tooSmall tmin e).any id
    · rw [if_pos hs]
      unfold removeClose
      rw [extrema_edges]
      simp only
      set sl := slices ((edges false 0 (tooSmall tmin e)).map (· + 1)) with hsl
      obtain ⟨f1, f2⟩ := flags_get desc tmin e sl (tooClose false (tooSmall tmin e))
      obtain ⟨c1, c2⟩ := tooClose_get (tooSmall tmin e) false
      set flags := sl.foldl (clear desc tmin e) (tooClose false (tooSmall tmin e)) with hfl
      have hfe : flags.length = e.length := by rw [f1, c1, small_length]; omega
      obtain ⟨s1, s2⟩ := select_mem e flags hfe
      refine ⟨e, (e.zip flags).filterMap (fun p => if p.2 then none else some p.1), ?_, hsort, hnd, hmem', htp, s1, ?_⟩
      · rw [List.map_filterMap]
        congr 2
        funext p
        cases p.2 <;> rfl
      · intro x
        rw [s2]
        apply exists_congr
        intro p
        constructor
        · rintro ⟨h1, h2⟩
          refine ⟨h1, ?_⟩
          obtain ⟨h3, h4⟩ := (f2 p).1 h2
          rcases h4 with h4 | h4
          · left
            rw [c2 p (by omega)] at h4
            simp only [Option.some.injEq, Bool.or_eq_false_iff] at h4
            refine ⟨(getD_eq_false_iff _ _).1 h4.2, fun k hk => ?_⟩
            have := h4.1
            rw [if_neg (by omega), hk, Nat.add_sub_cancel] at this
            exact (getD_eq_false_iff _ _).1 this
          · right; exact h4
        · rintro ⟨h1, h2⟩
          refine ⟨h1, ?_⟩
          have hp := (List.getElem?_eq_some_iff.1 h1).1
          refine (f2 p).2 ⟨by omega, ?_⟩
          rcases h2 with ⟨h2, h3⟩ | h2
          · left
            rw [c2 p (by rw [small_length]; omega)]
            simp only [Option.some.injEq, Bool.or_eq_false_iff]
            refine ⟨?_, (getD_eq_false_iff _ _).2 h2⟩
            split
            · rfl
            · rename_i h0
              exact (getD_eq_false_iff _ _).2 (h3 (p - 1) (by omega))
          · right; exact h2
    · rw [if_neg hs]
      exact ⟨e, e, rfl, hsort, hnd, hmem', htp, List.Sublist.refl _, hall e (by simpa using hs)⟩

/-- Groups of at least two times with consecutive gaps of at most `tmin`; the flag tells that the first time belongs to a
group already counted. -/
def groups (tmin : α) : Bool → List α → ℕ
  | prev, a :: b :: l =>
    if b - a ≤ tmin then (if prev then 0 else 1) + groups tmin true (b :: l) else groups tmin false (b :: l)
  | _, _ => 0

theorem edges_length (tmin : α) : ∀ (l : List (Exc α)) (prev : Bool) (pos : ℕ),
    (edges prev pos (tooSmall tmin l)).length = 2 * groups tmin prev (l.map Exc.time) + if prev then 1 else 0
  | [], prev, pos => by cases prev <;> simp [tooSmall, diff, edges, groups]
  | [a], prev, pos => by cases prev <;> simp [tooSmall, diff, edges, groups]
  | a :: b :: l, prev, pos => by
    have ih := edges_length tmin (b :: l)
    by_cases h : b.time - a.time ≤ tmin
    · have e1 : tooSmall tmin (a :: b :: l) = true :: tooSmall tmin (b :: l) := by simp [tooSmall, diff, h]
      rw [e1]
      have i1 := ih true (pos + 1)
      simp only [List.map_cons] at i1
      cases prev
      · simp only [edges, Bool.false_eq_true, if_false, List.length_cons, i1, List.map_cons, groups, h, if_true]; ring
      · simp only [edges, if_true, i1, List.map_cons, groups, h]; ring
    · have e1 : tooSmall tmin (a :: b :: l) = false :: tooSmall tmin (b :: l) := by simp [tooSmall, diff, h]
      rw [e1]
      have i1 := ih false (pos + 1)
      simp only [List.map_cons] at i1
      cases prev
      · simp only [edges, if_true, i1, List.map_cons, groups, h, if_false]
      · simp [edges, i1, List.map_cons, groups, h]

theorem edges_close : ∀ (l : List Bool) (pos i y : ℕ),
    ((edges false pos l)[2 * i + 1]? = some y → l[y - pos]? ≠ some true) ∧
    ((edges true pos l)[2 * i]? = some y → l[y - pos]? ≠ some true)
  | [], pos, i, y => by simp
  | b :: l, pos, i, y => by
    have hstep : ∀ (c : Bool) (k : ℕ), (edges c (pos + 1) l)[k]? = some y → pos + 1 ≤ y := by
      intro c k h; exact edges_ge l c (pos + 1) y (List.mem_of_getElem? h)
    have hdrop : pos + 1 ≤ y → l[y - (pos + 1)]? ≠ some true → (b :: l)[y - pos]? ≠ some true := by
      intro h1 h2
      rwa [show y - pos = (y - (pos + 1)) + 1 by omega, List.getElem?_cons_succ]
    cases b
    · constructor
      · intro h
        simp only [edges, if_true] at h
        exact hdrop (hstep _ _ h) ((edges_close l (pos + 1) i y).1 h)
      · intro h
        rcases i with _ | i
        · simp only [edges, Bool.true_eq_false, if_false, Nat.mul_zero, List.getElem?_cons_zero, Option.some.injEq] at h
          simp [← h]
        · simp only [edges, Bool.true_eq_false, if_false, show 2 * (i + 1) = (2 * i + 1) + 1 by ring, List.getElem?_cons_succ] at h
          exact hdrop (hstep _ _ h) ((edges_close l (pos + 1) i y).1 h)
    · constructor
      · intro h
        simp only [edges, Bool.false_eq_true, if_false, List.getElem?_cons_succ] at h
        exact hdrop (hstep _ _ h) ((edges_close l (pos + 1) i y).2 h)
      · intro h
        simp only [edges, if_true] at h
        exact hdrop (hstep _ _ h) ((edges_close l (pos + 1) i y).2 h)

/-- The slices that are searched. -/
theorem slices_cases (E : List ℕ) :
    slices (E.map (· + 1)) = match E with
      | a :: b :: _ :: d :: _ => [(a, b + 1), (b, d + 1)]
      | a :: b :: _ => [(a, b + 1)]
      | _ => [] := by
  rcases E with _ | ⟨a, _ | ⟨b, _ | ⟨c, _ | ⟨d, E⟩⟩⟩⟩ <;> simp [slices, everyOther]
  cases E <;> simp [everyOther]

end Wafo.Stats
