import Verif.Discretize.Model
import Mathlib.Tactic.FieldSimp
import Mathlib.Tactic.NormNum

/-!
Lemmas for C48: `linspace` and the invariant of the adaptive loop.
-/

set_option linter.unusedSectionVars false

namespace Wafo.Discretize

variable {α : Type*} [Field α] [LinearOrder α] [IsStrictOrderedRing α]

theorem linspace_length (a b : α) (n : ℕ) : (linspace a b n).length = n := by
  unfold linspace
  split
  · rename_i h; subst h; rfl
  · simp

theorem linspace_get (a b : α) (n k : ℕ) (hn : 2 ≤ n) (hk : k < n) :
    (linspace a b n)[k]? = some (a + (k : α) * ((b - a) / ((n : α) - 1))) := by
  unfold linspace
  rw [if_neg (by omega), List.getElem?_map, List.getElem?_range hk]
  rfl

theorem linspace_sorted (a b : α) (n : ℕ) (hab : a < b) (hn : 2 ≤ n) :
    (linspace a b n).Pairwise (· < ·) := by
  have h2 : (2 : α) ≤ n := by exact_mod_cast hn
  have hd : 0 < (b - a) / ((n : α) - 1) := div_pos (by linarith) (by linarith)
  unfold linspace
  rw [if_neg (by omega), List.pairwise_map]
  refine List.pairwise_lt_range.imp ?_
  intro i j hij
  have : (i : α) < j := by exact_mod_cast hij
  nlinarith

theorem linspace_first (a b : α) (n : ℕ) (hn : 2 ≤ n) : (linspace a b n)[0]? = some a := by
  rw [linspace_get a b n 0 hn (by omega)]
  simp

theorem linspace_last (a b : α) (n : ℕ) (hn : 2 ≤ n) : (linspace a b n)[n - 1]? = some b := by
  have h2 : (2 : α) ≤ n := by exact_mod_cast hn
  have h1 : (n : α) - 1 ≠ 0 := by intro h; linarith
  rw [linspace_get a b n (n - 1) hn (by omega), Nat.cast_sub (by omega)]
  congr 1
  field_simp
  simp
  ring

/-! ### Invariant of the adaptive grid -/

/-- Grid invariant: strictly increasing from `a` to `b`, ordinates are function values, the points with error
above tolerance are neither first nor last nor adjacent. -/
structure Inv (p : Par α) (g : List (Node α)) : Prop where
  sorted : g.Pairwise (fun u v => u.x < v.x)
  vals : ∀ v ∈ g, v.fx = p.fn v.x
  first : ∃ v, g[0]? = some v ∧ v.x = p.a ∧ ¬ p.tol < v.err
  last : ∃ v, g[g.length - 1]? = some v ∧ v.x = p.b ∧ ¬ p.tol < v.err
  gap : ∀ (i : ℕ) u v, g[i]? = some u → g[i + 1]? = some v → ¬ (p.tol < u.err ∧ p.tol < v.err)

theorem getElem?_mono {g : List (Node α)} (h : g.Pairwise (fun u v => u.x < v.x)) {i j : ℕ} {u v : Node α}
    (hi : g[i]? = some u) (hj : g[j]? = some v) (hij : i < j) : u.x < v.x := by
  obtain ⟨hi', rfl⟩ := List.getElem?_eq_some_iff.1 hi
  obtain ⟨hj', rfl⟩ := List.getElem?_eq_some_iff.1 hj
  exact List.pairwise_iff_getElem.1 h i j hi' hj' hij

theorem getElem?_lt_iff {g : List (Node α)} (h : g.Pairwise (fun u v => u.x < v.x)) {i j : ℕ} {u v : Node α}
    (hi : g[i]? = some u) (hj : g[j]? = some v) (hx : u.x < v.x) : i < j := by
  by_contra hc
  rcases Nat.lt_or_ge j i with h1 | h1
  · exact absurd (getElem?_mono h hj hi h1) (not_lt.2 hx.le)
  · have : i = j := by omega
    subst this
    rw [hi] at hj
    cases hj
    exact lt_irrefl _ hx

theorem pyGet_nat {β : Type*} (x : List β) (i : ℕ) (v : β) (h : x[i]? = some v) : pyGet x (i : ℤ) = .ok v := by
  unfold pyGet
  dsimp only
  have h0 : ¬ (i : ℤ) < 0 := by omega
  have h1 : (0 : ℤ) ≤ i := by omega
  rw [if_neg h0, if_pos h1, Int.toNat_natCast, h]

theorem midPair_ok (x : List α) (i : ℕ) (l c r : α) (h0 : 0 < i) (hl : x[i - 1]? = some l)
    (hc : x[i]? = some c) (hr : x[i + 1]? = some r) :
    midPair x i = .ok [(c + l) / 2, (r + c) / 2] := by
  unfold midPair
  rw [pyGet_nat x i c hc, show (i : ℤ) - 1 = ((i - 1 : ℕ) : ℤ) by omega, pyGet_nat x _ l hl,
    show (i : ℤ) + 1 = ((i + 1 : ℕ) : ℤ) by omega, pyGet_nat x _ r hr]

theorem mem_hotIdx (p : Par α) (g : List (Node α)) (i : ℕ) :
    i ∈ hotIdx p g ↔ ∃ v, g[i]? = some v ∧ p.tol < v.err := by
  unfold hotIdx
  rw [List.mem_filter, List.mem_range]
  constructor
  · rintro ⟨h, h2⟩
    rw [List.getElem?_eq_getElem h] at h2 ⊢
    exact ⟨_, rfl, by simpa using h2⟩
  · rintro ⟨v, hv, ht⟩
    exact ⟨(List.getElem?_eq_some_iff.1 hv).1, by rw [hv]; simpa using ht⟩

theorem hotIdx_sorted (p : Par α) (g : List (Node α)) : (hotIdx p g).Pairwise (· < ·) :=
  List.pairwise_lt_range.filter _

/-- Every index of the list has both neighbours. -/
def HasNb (n : ℕ) (i : ℕ) : Prop := 0 < i ∧ i + 1 < n

/-- The midpoints computed belong to intervals of the grid; if the selected points are at least two apart they
come out strictly increasing. -/
theorem midPoints_spec (x : List α) (hx : x.Pairwise (· < ·)) (ix : List ℕ)
    (hnb : ∀ i ∈ ix, HasNb x.length i) (hs : ix.Pairwise (fun i j => i + 1 < j)) :
    ∃ y, midPoints x ix = .ok y ∧ y.Pairwise (· < ·) ∧
      (∀ v ∈ y, ∃ (j : ℕ) (l r : α), x[j]? = some l ∧ x[j + 1]? = some r ∧ v = (l + r) / 2 ∧
        (j ∈ ix ∨ j + 1 ∈ ix)) := by
  induction ix with
  | nil => exact ⟨[], rfl, by simp, by simp⟩
  | cons i ix ih =>
    rw [List.pairwise_cons] at hs
    obtain ⟨y, h1, h2, h3⟩ := ih (fun k hk => hnb k (List.mem_cons_of_mem _ hk)) hs.2
    obtain ⟨n1, n2⟩ := hnb i (by simp)
    have gl : x[i - 1]? = some (x[i - 1]'(by omega)) := List.getElem?_eq_getElem _
    have gc : x[i]? = some (x[i]'(by omega)) := List.getElem?_eq_getElem _
    have gr : x[i + 1]? = some (x[i + 1]'(by omega)) := List.getElem?_eq_getElem _
    have mono : ∀ (a b : ℕ) (ha : a < x.length) (hb : b < x.length), a < b → x[a] < x[b] :=
      fun a b ha hb hab => List.pairwise_iff_getElem.1 hx a b ha hb hab
    have m1 := mono (i - 1) i (by omega) (by omega) (by omega)
    have m2 := mono i (i + 1) (by omega) (by omega) (by omega)
    refine ⟨[(x[i] + x[i - 1]) / 2, (x[i + 1] + x[i]) / 2] ++ y, ?_, ?_, ?_⟩
    · unfold midPoints
      rw [midPair_ok x i _ _ _ n1 gl gc gr, h1]
    · rw [List.pairwise_append]
      refine ⟨?_, h2, ?_⟩
      · simp only [List.pairwise_cons, List.mem_singleton, List.not_mem_nil, false_imp_iff,
          implies_true, List.Pairwise.nil, and_true]
        rintro v rfl
        linarith
      · intro u hu v hv
        have hub : u < x[i + 1] := by
          simp only [List.mem_cons, List.not_mem_nil, or_false] at hu
          rcases hu with rfl | rfl <;> linarith
        obtain ⟨j, l, r, hl, hr, rfl, hj⟩ := h3 v hv
        obtain ⟨hjl, rfl⟩ := List.getElem?_eq_some_iff.1 hl
        obtain ⟨hjr, rfl⟩ := List.getElem?_eq_some_iff.1 hr
        have hij : i + 1 ≤ j := by
          rcases hj with h | h
          · have := hs.1 _ h; omega
          · have := hs.1 _ h; omega
        have hle : x[i + 1] ≤ x[j] := by
          rcases Nat.lt_or_ge (i + 1) j with h | h
          · exact (mono _ _ _ _ h).le
          · have : j = i + 1 := by omega
            subst this; exact le_rfl
        have := mono j (j + 1) hjl hjr (by omega)
        linarith
    · intro v hv
      rcases List.mem_append.1 hv with hv | hv
      · simp only [List.mem_cons, List.not_mem_nil, or_false] at hv
        rcases hv with rfl | rfl
        · refine ⟨i - 1, _, _, gl, by rw [Nat.sub_add_cancel n1]; exact gc, by ring, ?_⟩
          right; rw [Nat.sub_add_cancel n1]; simp
        · exact ⟨i, _, _, gc, gr, by ring, by simp⟩
      · obtain ⟨j, l, r, hl, hr, e, hj⟩ := h3 v hv
        exact ⟨j, l, r, hl, hr, e, hj.imp (List.mem_cons_of_mem _) (List.mem_cons_of_mem _)⟩

theorem map_x_getElem? {g : List (Node α)} {j : ℕ} {l : α} (h : (g.map Node.x)[j]? = some l) :
    ∃ v, g[j]? = some v ∧ v.x = l := by
  rw [List.getElem?_map] at h
  cases hg : g[j]? with
  | none => rw [hg] at h; simp at h
  | some v => rw [hg] at h; simp at h; exact ⟨v, rfl, h⟩

theorem inv_hot (p : Par α) (g : List (Node α)) (hI : Inv p g) :
    (∀ i ∈ hotIdx p g, HasNb g.length i) ∧ (hotIdx p g).Pairwise (fun i j => i + 1 < j) := by
  constructor
  · intro i hi
    obtain ⟨v, hv, ht⟩ := (mem_hotIdx p g i).1 hi
    have hlt := (List.getElem?_eq_some_iff.1 hv).1
    constructor
    · rcases Nat.eq_zero_or_pos i with h | h
      · subst h
        obtain ⟨w, hw, _, hn⟩ := hI.first
        rw [hv] at hw; cases hw
        exact absurd ht hn
      · exact h
    · by_contra hc
      obtain ⟨w, hw, _, hn⟩ := hI.last
      rw [show g.length - 1 = i by omega, hv] at hw
      cases hw
      exact hn ht
  · refine List.Pairwise.imp_of_mem ?_ (hotIdx_sorted p g)
    intro i j hi hj hij
    obtain ⟨u, hu, htu⟩ := (mem_hotIdx p g i).1 hi
    obtain ⟨v, hv, htv⟩ := (mem_hotIdx p g j).1 hj
    by_contra hc
    have : j = i + 1 := by omega
    subst this
    exact hI.gap i u v hu hv ⟨htu, htv⟩

/-- One refinement succeeds, keeps the invariant and all grid points. -/
theorem adStep_inv (p : Par α) (ht : 0 ≤ p.tol) (s : AdState α) (hI : Inv p s.grid) :
    ∃ s', adStep p s = .ok s' ∧ Inv p s'.grid ∧ ∀ v ∈ s.grid, ∃ w ∈ s'.grid, w.x = v.x := by
  obtain ⟨hnb, hgap⟩ := inv_hot p s.grid hI
  have hxs : (s.grid.map Node.x).Pairwise (· < ·) := by
    rw [List.pairwise_map]; exact hI.sorted
  obtain ⟨y, hy, hys, hym⟩ := midPoints_spec (s.grid.map Node.x) hxs (hotIdx p s.grid)
    (by rw [List.length_map]; exact hnb) hgap
  unfold adStep
  dsimp only
  rw [hy]
  dsimp only
  refine ⟨_, rfl, ?_, ?_⟩
  rotate_left
  · intro v hv
    refine ⟨{ v with err := 0 }, ?_, rfl⟩
    rw [(List.perm_insertionSort _ _).mem_iff]
    exact List.mem_append_left _ (List.mem_map_of_mem hv)
  set old : List (Node α) := s.grid.map (fun v => { v with err := 0 }) with hold
  set new : List (Node α) := y.map (fun v =>
      { x := v, fx := p.fn v, err := 1 / 2 * relErr p.tiny p.tol (p.interp (s.grid.map Node.x) (s.grid.map Node.fx) v) (p.fn v) : Node α }) with hnew
  dsimp only
  set g' := (old ++ new).insertionSort (fun u v => u.x ≤ v.x) with hg'
  have hperm : g'.Perm (old ++ new) := List.perm_insertionSort _ _
  -- properties of old and new points
  have oldm : ∀ v ∈ old, ∃ (i : ℕ) (u : Node α), s.grid[i]? = some u ∧ v.x = u.x ∧ v.fx = u.fx ∧ v.err = 0 := by
    intro v hv
    rw [hold, List.mem_map] at hv
    obtain ⟨u, hu, rfl⟩ := hv
    obtain ⟨i, hi⟩ := List.mem_iff_getElem?.1 hu
    exact ⟨i, u, hi, rfl, rfl, rfl⟩
  have newm : ∀ v ∈ new, v.fx = p.fn v.x ∧ ∃ (j : ℕ) (l r : Node α), s.grid[j]? = some l ∧ s.grid[j + 1]? = some r ∧
      v.x = (l.x + r.x) / 2 := by
    intro v hv
    rw [hnew, List.mem_map] at hv
    obtain ⟨u, hu, rfl⟩ := hv
    refine ⟨rfl, ?_⟩
    obtain ⟨j, l, r, hl, hr, e, _⟩ := hym u hu
    obtain ⟨l', hl', rfl⟩ := map_x_getElem? hl
    obtain ⟨r', hr', rfl⟩ := map_x_getElem? hr
    exact ⟨j, l', r', hl', hr', e⟩
  have oldIn : ∀ (i : ℕ) u, s.grid[i]? = some u → ∃ v ∈ old, v.x = u.x ∧ v.err = 0 := by
    intro i u hu
    exact ⟨{ u with err := 0 }, List.mem_map_of_mem (List.mem_of_getElem? hu), rfl, rfl⟩
  have sorted_le : g'.Pairwise (fun u v => u.x ≤ v.x) := by
    have : IsTrans (Node α) (fun u v => u.x ≤ v.x) := ⟨fun _ _ _ => le_trans⟩
    have : Std.Total (fun u v : Node α => u.x ≤ v.x) := ⟨fun _ _ => le_total _ _⟩
    exact List.pairwise_insertionSort _ _
  have distinct : (old ++ new).Pairwise (fun u v => u.x ≠ v.x) := by
    rw [List.pairwise_append]
    refine ⟨?_, ?_, ?_⟩
    · rw [hold, List.pairwise_map]
      exact hI.sorted.imp (fun h => ne_of_lt h)
    · rw [hnew, List.pairwise_map]
      exact hys.imp (fun h => ne_of_lt h)
    · intro u hu v hv he
      obtain ⟨i, w, hw, ew, _⟩ := oldm u hu
      obtain ⟨_, j, l, r, hl, hr, ev⟩ := newm v hv
      have hlr := getElem?_mono hI.sorted hl hr (by omega)
      have h1 : l.x < w.x := by rw [← ew, he, ev]; linarith
      have h2 : w.x < r.x := by rw [← ew, he, ev]; linarith
      have := getElem?_lt_iff hI.sorted hl hw h1
      have := getElem?_lt_iff hI.sorted hw hr h2
      omega
  have distinct' : g'.Pairwise (fun u v => u.x ≠ v.x) := by
    refine (List.Perm.pairwise_iff ?_ hperm).2 distinct
    intro a b h; exact h.symm
  have sorted_lt : g'.Pairwise (fun u v => u.x < v.x) :=
    (sorted_le.and distinct').imp (fun h => lt_of_le_of_ne h.1 h.2)
  have mem' : ∀ v, v ∈ g' ↔ v ∈ old ∨ v ∈ new := by
    intro v; rw [hperm.mem_iff, List.mem_append]
  -- all points within [a, b]
  obtain ⟨f, hf, hfa, _⟩ := hI.first
  obtain ⟨e, he, heb, _⟩ := hI.last
  have range0 : ∀ (i : ℕ) u, s.grid[i]? = some u → p.a ≤ u.x ∧ u.x ≤ p.b := by
    intro i u hu
    have hlt := (List.getElem?_eq_some_iff.1 hu).1
    constructor
    · rcases Nat.eq_zero_or_pos i with h | h
      · subst h; rw [hf] at hu; cases hu; exact hfa.ge
      · rw [← hfa]; exact (getElem?_mono hI.sorted hf hu h).le
    · rcases Nat.lt_or_ge i (s.grid.length - 1) with h | h
      · rw [← heb]; exact (getElem?_mono hI.sorted hu he h).le
      · rw [show i = s.grid.length - 1 by omega, he] at hu; cases hu; exact heb.le
  have range1 : ∀ v ∈ g', p.a ≤ v.x ∧ v.x ≤ p.b := by
    intro v hv
    rcases (mem' v).1 hv with h | h
    · obtain ⟨i, u, hu, ex, _⟩ := oldm v h
      rw [ex]; exact range0 i u hu
    · obtain ⟨_, j, l, r, hl, hr, ev⟩ := newm v h
      have := range0 _ _ hl
      have := range0 _ _ hr
      rw [ev]
      constructor <;> linarith
  -- a point of g' with the abscissa of an old point has error zero
  have uniq : ∀ u ∈ g', ∀ v ∈ g', u.x = v.x → u = v := by
    intro u hu v hv hx
    obtain ⟨i, hi⟩ := List.mem_iff_getElem?.1 hu
    obtain ⟨j, hj⟩ := List.mem_iff_getElem?.1 hv
    rcases Nat.lt_trichotomy i j with h | h | h
    · exact absurd (getElem?_mono sorted_lt hi hj h) (by rw [hx]; exact lt_irrefl _)
    · subst h; rw [hi] at hj; cases hj; rfl
    · exact absurd (getElem?_mono sorted_lt hj hi h) (by rw [hx]; exact lt_irrefl _)
  have hlen : 0 < g'.length := by
    obtain ⟨v, hv, _⟩ := oldIn 0 f hf
    exact List.length_pos_of_mem ((mem' v).2 (Or.inl hv))
  refine ⟨sorted_lt, ?_, ?_, ?_, ?_⟩
  · intro v hv
    rcases (mem' v).1 hv with h | h
    · obtain ⟨i, u, hu, ex, ef, _⟩ := oldm v h
      rw [ef, ex]; exact hI.vals u (List.mem_of_getElem? hu)
    · exact (newm v h).1
  · obtain ⟨v, hv, hvx, hve⟩ := oldIn 0 f hf
    have hvg : v ∈ g' := (mem' v).2 (Or.inl hv)
    have h0 : g'[0]? = some g'[0] := List.getElem?_eq_getElem _
    refine ⟨g'[0], h0, ?_⟩
    have hx0 : g'[0].x = p.a := by
      apply le_antisymm _ (range1 _ (List.getElem_mem _)).1
      obtain ⟨i, hi⟩ := List.mem_iff_getElem?.1 hvg
      rw [← hfa, ← hvx]
      rcases Nat.eq_zero_or_pos i with h | h
      · subst h; rw [h0] at hi; cases hi; exact le_rfl
      · exact (getElem?_mono sorted_lt h0 hi h).le
    refine ⟨hx0, ?_⟩
    rw [uniq _ (List.getElem_mem _) v hvg (by rw [hx0, hvx, hfa]), hve]
    exact not_lt.2 ht
  · obtain ⟨v, hv, hvx, hve⟩ := oldIn _ e he
    have hvg : v ∈ g' := (mem' v).2 (Or.inl hv)
    have h0 : g'[g'.length - 1]? = some (g'[g'.length - 1]'(by omega)) := List.getElem?_eq_getElem _
    refine ⟨_, h0, ?_⟩
    have hx0 : (g'[g'.length - 1]'(by omega)).x = p.b := by
      apply le_antisymm (range1 _ (List.getElem_mem _)).2
      obtain ⟨i, hi⟩ := List.mem_iff_getElem?.1 hvg
      have hil := (List.getElem?_eq_some_iff.1 hi).1
      rw [← heb, ← hvx]
      rcases Nat.lt_or_ge i (g'.length - 1) with h | h
      · exact (getElem?_mono sorted_lt hi h0 h).le
      · rw [show i = g'.length - 1 by omega, h0] at hi; cases hi; exact le_rfl
    refine ⟨hx0, ?_⟩
    rw [uniq _ (List.getElem_mem _) v hvg (by rw [hx0, hvx, heb]), hve]
    exact not_lt.2 ht
  · intro i u v hu hv ⟨tu, tv⟩
    have isnew : ∀ w ∈ g', p.tol < w.err → w ∈ new := by
      intro w hw htw
      rcases (mem' w).1 hw with h | h
      · obtain ⟨_, _, _, _, _, e0⟩ := oldm w h
        rw [e0] at htw
        exact absurd htw (not_lt.2 ht)
      · exact h
    have hum := List.mem_of_getElem? hu
    have hvm := List.mem_of_getElem? hv
    have huv := getElem?_mono sorted_lt hu hv (by omega)
    obtain ⟨_, j, l, r, hl, hr, eu⟩ := newm u (isnew u hum tu)
    obtain ⟨_, j', l', r', hl', hr', ev⟩ := newm v (isnew v hvm tv)
    have hlr := getElem?_mono hI.sorted hl hr (by omega)
    have hlr' := getElem?_mono hI.sorted hl' hr' (by omega)
    have hjj : j < j' := by
      by_contra hc
      rcases Nat.lt_or_ge j' j with h | h
      · have hle : r'.x ≤ l.x := by
          rcases Nat.lt_or_ge (j' + 1) j with h2 | h2
          · exact (getElem?_mono hI.sorted hr' hl h2).le
          · rw [show j' + 1 = j by omega, hl] at hr'; cases hr'; exact le_rfl
        rw [eu, ev] at huv
        linarith
      · have : j = j' := by omega
        subst this
        rw [hl] at hl'; cases hl'
        rw [hr] at hr'; cases hr'
        rw [eu, ev] at huv
        exact lt_irrefl _ huv
    have hle : r.x ≤ l'.x := by
      rcases Nat.lt_or_ge (j + 1) j' with h2 | h2
      · exact (getElem?_mono hI.sorted hr hl' h2).le
      · rw [show j + 1 = j' by omega, hl'] at hr; cases hr; exact le_rfl
    obtain ⟨w, hw, hwx, _⟩ := oldIn (j + 1) r hr
    obtain ⟨k, hk⟩ := List.mem_iff_getElem?.1 ((mem' w).2 (Or.inl hw))
    have h1 := getElem?_lt_iff sorted_lt hu hk (by rw [eu, hwx]; linarith)
    have h2 := getElem?_lt_iff sorted_lt hk hv (by rw [ev, hwx]; linarith)
    omega

theorem adLoop_inv (p : Par α) (ht : 0 ≤ p.tol) (k : ℕ) (s : AdState α) (hI : Inv p s.grid) :
    ∃ g, adLoop p k s = .ok g ∧ Inv p g ∧ ∀ v ∈ s.grid, ∃ w ∈ g, w.x = v.x := by
  induction k generalizing s with
  | zero => exact ⟨_, rfl, hI, fun v hv => ⟨v, hv, rfl⟩⟩
  | succ k ih =>
    unfold adLoop
    split
    · obtain ⟨s', h1, h2, h3⟩ := adStep_inv p ht s hI
      rw [h1]
      obtain ⟨g, e1, e2, e3⟩ := ih s' h2
      refine ⟨g, e1, e2, ?_⟩
      intro v hv
      obtain ⟨w, hw, hx⟩ := h3 v hv
      obtain ⟨w', hw', hx'⟩ := e3 w hw
      exact ⟨w', hw', hx'.trans hx⟩
    · exact ⟨_, rfl, hI, fun v hv => ⟨v, hv, rfl⟩⟩

end Wafo.Discretize
