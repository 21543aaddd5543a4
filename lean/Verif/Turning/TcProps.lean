import Verif.Turning.Lemmas
import Verif.Cross.Props

/-!
Property theorem for `findtc` (C11).
-/

set_option linter.unusedSectionVars false

namespace Wafo.Turning
open Wafo.Cross

variable {α : Type*} [Field α] [LinearOrder α] [IsStrictOrderedRing α]

/-- `a` is at least as extreme as `b`: at most (`isMin`) or at least. -/
def AtLeastAs (isMin : Bool) (a b : α) : Prop := if isMin then a ≤ b else b ≤ a

theorem argGo_spec (isMin : Bool) (full : List α) (l : List α) : ∀ best bv i,
    full[best]? = some bv → best < i → full.drop i = l →
    (∀ k b, k < i → full[k]? = some b → AtLeastAs isMin bv b ∧ (k < best → bv ≠ b)) →
    ∃ r, full[argGo (better isMin) best bv i l]?
        = some r ∧
      ∀ (k : ℕ) b, full[k]? = some b → AtLeastAs isMin r b ∧
        (k < argGo (better isMin) best bv i l → r ≠ b) := by
  induction l with
  | nil =>
    intro best bv i h1 h2 h3 h4
    refine ⟨bv, by simpa [argGo] using h1, fun k b hk => h4 k b ?_ hk⟩
    have : full.length ≤ i := List.drop_eq_nil_iff.1 h3
    have := (List.getElem?_eq_some_iff.1 hk).1
    omega
  | cons a l ih =>
    intro best bv i h1 h2 h3 h4
    have hd : full.drop (i + 1) = l := by rw [← List.drop_drop, h3]; simp
    have ha : full[i]? = some a := by
      have : (full.drop i)[0]? = some a := by rw [h3]; simp
      simpa using this
    rw [argGo]
    split
    · rename_i hb
      apply ih i a (i + 1) ha (by omega) hd
      intro k b hk hkb
      rcases Nat.lt_or_ge k i with h5 | h5
      · have := (h4 k b h5 hkb).1
        unfold AtLeastAs at this ⊢
        cases isMin <;> simp [better] at hb this ⊢
        · exact ⟨le_trans this hb.le, fun _ => (lt_of_le_of_lt this hb).ne'⟩
        · exact ⟨le_trans hb.le this, fun _ => (lt_of_lt_of_le hb this).ne⟩
      · obtain rfl : k = i := by omega
        rw [ha] at hkb; rw [Option.some.inj hkb]; unfold AtLeastAs
        exact ⟨by split <;> exact le_refl _, fun h => absurd h (lt_irrefl _)⟩
    · rename_i hb
      apply ih best bv (i + 1) h1 (by omega) hd
      intro k b hk hkb
      rcases Nat.lt_or_ge k i with h5 | h5
      · exact h4 k b h5 hkb
      · obtain rfl : k = i := by omega
        rw [ha] at hkb; obtain rfl := Option.some.inj hkb
        unfold AtLeastAs
        refine ⟨?_, fun h => absurd h (by omega)⟩
        cases isMin <;> simpa [better] using hb

theorem argExtreme_spec (isMin : Bool) (l : List α) (hl : l ≠ []) :
    ∃ k r, argExtreme isMin l = some k ∧ l[k]? = some r ∧
      ∀ (j : ℕ) b, l[j]? = some b → AtLeastAs isMin r b ∧ (j < k → r ≠ b) := by
  rcases l with _ | ⟨a, l⟩
  · exact absurd rfl hl
  · obtain ⟨r, h1, h2⟩ := argGo_spec isMin (a :: l) l 0 a 1 (by simp) (by omega) (by simp) (by
      intro k b hk hkb
      obtain rfl : k = 0 := by omega
      simp at hkb; rw [hkb]; unfold AtLeastAs
      exact ⟨by split <;> exact le_refl _, fun h => absurd h (lt_irrefl _)⟩)
    exact ⟨_, r, rfl, h1, h2⟩

theorem altDir_get (y : List ℤ) (l : List ℕ) : ∀ s : ℤ, AltDir y s l → ∀ j i, l[j]? = some i →
    ∃ b, y[i + 1]? = some b ∧ 0 < (if j % 2 = 0 then s else -s) * b := by
  induction l with
  | nil => intro s _ j i h; simp at h
  | cons i0 r ih =>
    intro s h j i hj
    rcases j with _ | j
    · simp at hj; subst hj; simpa using h.1
    · obtain ⟨b, hb, hs⟩ := ih (-s) h.2 j i (by simpa using hj)
      refine ⟨b, hb, ?_⟩
      rcases Nat.mod_two_eq_zero_or_one j with h1 | h1
      · rw [if_pos h1] at hs; rw [if_neg (by omega)]; exact hs
      · rw [if_neg (by omega)] at hs; rw [if_pos (by omega)]; simpa using hs

theorem tcSlice_getElem? (x : List α) (a b k : ℕ) (h : k < b - a) :
    (tcSlice x a b)[k]? = x[a + 1 + k]? := by
  unfold tcSlice
  rw [List.getElem?_take_of_lt h, List.getElem?_drop]

theorem mapM_range_ok {β : Type*} (f : ℕ → Except PyErr β) (g : ℕ → β) (n : ℕ)
    (h : ∀ j < n, f j = .ok (g j)) :
    (List.range n).mapM f = .ok ((List.range n).map g) := by
  have : ∀ l : List ℕ, (∀ j ∈ l, j < n) → l.mapM f = .ok (l.map g) := by
    intro l
    induction l with
    | nil => intro _; rfl
    | cons a l ih =>
      intro hl
      rw [List.mapM_cons, h a (hl a (by simp)), ih (fun j hj => hl j (by simp [hj]))]
      rfl
  exact this _ (fun j hj => List.mem_range.1 hj)

theorem altDir_part (y : List ℤ) (p m q : List ℕ) : ∀ s : ℤ, (s = 1 ∨ s = -1) → AltDir y s (p ++ m ++ q) →
    ∃ s' : ℤ, (s' = 1 ∨ s' = -1) ∧ AltDir y s' m := by
  have htake : ∀ (m q : List ℕ) (s : ℤ), AltDir y s (m ++ q) → AltDir y s m := by
    intro m q
    induction m with
    | nil => intro s _; trivial
    | cons a m ih => intro s h; exact ⟨h.1, ih _ h.2⟩
  induction p with
  | nil => intro s hs h; exact ⟨s, hs, htake m q s (by simpa using h)⟩
  | cons a p ih =>
    intro s hs h
    exact ih (-s) (by rcases hs with h | h <;> simp [h]) h.2

/-- The common core of the C11 theorems: `c` is a contiguous part of all the crossings `l`. -/
theorem findtc_core (x : List α) (v : α) (kind : Option String) (l c p q : List ℕ) (hl : findcross x v none = .ok l)
    (hc : findcross x v kind = .ok c) (hpart : l = p ++ c ++ q)
    (hkind : (kind = none ∨ kind = some "tw" ∨ kind = some "cw") ∨ c.length % 2 = 1)
    (h3 : 3 ≤ c.length) :
    ∃ tc, findtc x v kind = .ok (tc, c) ∧ tc.length = c.length - 1 ∧ tc.Pairwise (· < ·) ∧
      ∀ j a b, c[j]? = some a → c[j + 1]? = some b →
        ∃ t e, tc[j]? = some t ∧ a < t ∧ t ≤ b ∧ x[t]? = some e ∧
          ((DownAt x v a ∧ e < v ∧ ∀ k d, a < k → k ≤ b → x[k]? = some d → e ≤ d ∧ (k < t → e < d)) ∨
           (UpAt x v a ∧ v < e ∧ ∀ k d, a < k → k ≤ b → x[k]? = some d → d ≤ e ∧ (k < t → d < e))) := by
  have hc0 : findcross0 (signs x v) = .ok l := by rw [← findcross_none_eq]; exact hl
  obtain ⟨s0, hs0, halt0⟩ := findcross0_alt _ _ hc0
  rw [hpart] at halt0
  obtain ⟨s, hs, halt⟩ := altDir_part _ p c q s0 hs0 halt0
  obtain ⟨hpw0, hrange0, -⟩ := C02_findcross_ordered x v l hl
  have hmem : ∀ i ∈ c, i ∈ l := by intro i hi; rw [hpart]; simp [hi]
  have hrange : ∀ i ∈ c, i + 1 < x.length := fun i hi => hrange0 i (hmem i hi)
  have hpw : c.Pairwise (· < ·) := by
    rw [hpart, List.pairwise_append] at hpw0
    exact (List.pairwise_append.1 hpw0.1).2.1
  have hlt : ∀ (i j a b : ℕ), i < j → c[i]? = some a → c[j]? = some b → a < b := by
    intro i j a b hij ha hb
    obtain ⟨h1, rfl⟩ := List.getElem?_eq_some_iff.1 ha
    obtain ⟨h2, rfl⟩ := List.getElem?_eq_some_iff.1 hb
    exact List.pairwise_iff_getElem.1 hpw i j h1 h2 hij
  -- direction of the first crossing
  obtain ⟨c0, r, rfl⟩ : ∃ c0 r, c = c0 :: r := by
    rcases c with _ | ⟨c0, r⟩
    · simp at h3
    · exact ⟨c0, r, rfl⟩
  obtain ⟨a0s, b0s, ha0s, hb0s, hb0, hab0⟩ := findcross0_prev _ _ hc0 c0 (hmem c0 (by simp))
  have hs0 : 0 < s * b0s := by
    obtain ⟨⟨b', hb', hsb⟩, -⟩ := halt
    rw [hb0s] at hb'; obtain rfl := Option.some.inj hb'; exact hsb
  obtain ⟨a0, ha0, rfl⟩ := (signs_some_iff _ _ _ _).1 ha0s
  obtain ⟨b0, hb0', rfl⟩ := (signs_some_iff _ _ _ _).1 hb0s
  have hfd : decide (a0 > b0) = decide (s = -1) := by
    rw [decide_eq_decide]
    rcases hs with rfl | rfl
    · have h1 : v < b0 := (sgn_pos_iff _ _).1 (by omega)
      have h2 : a0 ≤ v := by
        by_contra hcon
        have := (sgn_pos_iff v a0).2 (not_le.1 hcon)
        nlinarith
      constructor
      · intro h; exfalso; linarith
      · intro h; omega
    · have h1 : b0 < v := (sgn_neg_iff _ _).1 (by omega)
      have h2 : v ≤ a0 := by
        by_contra hcon
        have := (sgn_neg_iff v a0).2 (not_le.1 hcon)
        nlinarith
      constructor
      · intro _; rfl
      · intro _; linarith
  -- one entry
  have hentry : ∀ j a b, (c0 :: r)[j]? = some a → (c0 :: r)[j + 1]? = some b →
      ∃ t e, tcEntry x (c0 :: r) (decide (s = -1)) kind j = .ok t ∧ a < t ∧ t ≤ b ∧ x[t]? = some e ∧
          ((DownAt x v a ∧ e < v ∧ ∀ k d, a < k → k ≤ b → x[k]? = some d → e ≤ d ∧ (k < t → e < d)) ∨
           (UpAt x v a ∧ v < e ∧ ∀ k d, a < k → k ≤ b → x[k]? = some d → d ≤ e ∧ (k < t → d < e))) := by
    intro j a b ha hb
    have hab := hlt j (j + 1) a b (by omega) ha hb
    have hjl : j + 1 < (c0 :: r).length := (List.getElem?_eq_some_iff.1 hb).1
    have hal : a + 1 < x.length := hrange a (List.mem_of_getElem? ha)
    have hbl : b + 1 < x.length := hrange b (List.mem_of_getElem? hb)
    have hne : tcSlice x a b ≠ [] := by
      intro h
      have := congrArg List.length h
      simp [tcSlice] at this
      omega
    have hfill : ∀ isMin : Bool, (isMin = true ↔ DownAt x v a) → (isMin = false ↔ UpAt x v a) →
        ∃ k t e, argExtreme isMin (tcSlice x a b) = some k ∧ t = a + k + 1 ∧ a < t ∧ t ≤ b ∧
          x[t]? = some e ∧
          ((DownAt x v a ∧ e < v ∧ ∀ k d, a < k → k ≤ b → x[k]? = some d → e ≤ d ∧ (k < t → e < d)) ∨
           (UpAt x v a ∧ v < e ∧ ∀ k d, a < k → k ≤ b → x[k]? = some d → d ≤ e ∧ (k < t → d < e))) := by
      intro isMin hdown hup
      obtain ⟨k, e, hk1, hk2, hk3⟩ := argExtreme_spec isMin _ hne
      have hkb : k < b - a := by
        have := (List.getElem?_eq_some_iff.1 hk2).1
        simp [tcSlice] at this; omega
      rw [tcSlice_getElem? _ _ _ _ hkb] at hk2
      have hall : ∀ k' d, a < k' → k' ≤ b → x[k']? = some d → AtLeastAs isMin e d ∧
          (k' < a + k + 1 → e ≠ d) := by
        intro k' d h1 h2 h3
        have := hk3 (k' - a - 1) d (by
          rw [tcSlice_getElem? _ _ _ _ (by omega)]
          rw [← h3]; congr 1; omega)
        exact ⟨this.1, fun h => this.2 (by omega)⟩
      have hnext : AtLeastAs isMin e x[a + 1] :=
        (hall (a + 1) _ (by omega) (by omega) (List.getElem?_eq_getElem hal)).1
      refine ⟨k, a + k + 1, e, hk1, rfl, by omega, by omega, ?_, ?_⟩
      · rw [← hk2]; congr 1; omega
      · cases isMin with
        | true =>
          left
          obtain ⟨d, hd, hdv⟩ := hdown.1 rfl
          refine ⟨hdown.1 rfl, ?_, fun k' d h1 h2 h3 => ?_⟩
          on_goal 2 =>
            obtain ⟨h4, h5⟩ := hall k' d h1 h2 h3
            have h6 : e ≤ d := by simpa [AtLeastAs] using h4
            exact ⟨h6, fun h => lt_of_le_of_ne h6 (h5 h)⟩
          rw [List.getElem?_eq_getElem hal] at hd
          rw [Option.some.inj hd] at hnext
          simp [AtLeastAs] at hnext
          exact lt_of_le_of_lt hnext hdv
        | false =>
          right
          obtain ⟨d, hd, hdv⟩ := hup.1 rfl
          refine ⟨hup.1 rfl, ?_, fun k' d h1 h2 h3 => ?_⟩
          on_goal 2 =>
            obtain ⟨h4, h5⟩ := hall k' d h1 h2 h3
            have h6 : d ≤ e := by simpa [AtLeastAs] using h4
            exact ⟨h6, fun h => lt_of_le_of_ne h6 (Ne.symm (h5 h))⟩
          rw [List.getElem?_eq_getElem hal] at hd
          rw [Option.some.inj hd] at hnext
          simp [AtLeastAs] at hnext
          exact lt_of_lt_of_le hdv hnext
    -- direction of crossing j
    obtain ⟨sb, hsb, hdir⟩ := altDir_get _ _ s halt j a ha
    have hdir' : ∀ isMin : Bool, (isMin = decide ((if j % 2 = 0 then s else -s) = -1)) →
        (isMin = true ↔ DownAt x v a) ∧ (isMin = false ↔ UpAt x v a) := by
      intro isMin hmin
      have hex : ¬ (DownAt x v a ∧ UpAt x v a) := by
        rintro ⟨⟨p, hp, hpv⟩, q, hq, hqv⟩
        rw [hp] at hq
        rw [Option.some.inj hq] at hpv
        exact lt_asymm hpv hqv
      rcases (show (if j % 2 = 0 then s else -s) = 1 ∨ (if j % 2 = 0 then s else -s) = -1 by
        split <;> rcases hs with h | h <;> simp [h]) with h1 | h1
      · rw [h1] at hdir hmin
        have hu : UpAt x v a := upAt_of_sgn hsb (by omega)
        have hd : ¬ DownAt x v a := fun h => hex ⟨h, hu⟩
        simp at hmin
        simp [hmin, hu, hd]
      · rw [h1] at hdir hmin
        have hd : DownAt x v a := downAt_of_sgn hsb (by omega)
        have hu : ¬ UpAt x v a := fun h => hex ⟨hd, h⟩
        simp at hmin
        simp [hmin, hu, hd]
    -- which branch is taken
    have hbranch : tcEntry x (c0 :: r) (decide (s = -1)) kind j =
        (match argExtreme (decide ((if j % 2 = 0 then s else -s) = -1)) (tcSlice x a b) with
          | none => Except.error PyErr.valueError
          | some k => Except.ok (a + k + 1)) := by
      unfold tcEntry
      simp only [ha, hb]
      have hpar : (if j % 2 = 0 then decide (s = -1) else !decide (s = -1)) =
          decide ((if j % 2 = 0 then s else -s) = -1) := by
        split
        · rfl
        · rcases hs with h | h <;> simp [h]
      split
      · rw [hpar]; rfl
      · rename_i hge
        have hj2 : j = (c0 :: r).length - 2 := by
          simp only [List.length_cons] at hge hjl ⊢; omega
        have hev : j % 2 = 0 := by
          simp only [List.length_cons] at hge hjl hj2 ⊢; omega
        rw [if_pos]
        · rw [if_pos hev]; rfl
        · refine ⟨?_, ?_, hj2⟩
          · simp only [List.length_cons] at hge hjl hj2 ⊢; omega
          · rcases hkind with h | h
            · exact h
            · exfalso
              simp only [List.length_cons] at hge hjl hj2 h; omega
    obtain ⟨hd1, hd2⟩ := hdir' _ rfl
    obtain ⟨k, t, e, hk, rfl, h1, h2, h3, h4⟩ := hfill _ hd1 hd2
    refine ⟨a + k + 1, e, ?_, h1, h2, h3, h4⟩
    rw [hbranch, hk]
  -- assemble
  have hg : ∀ j, j < (c0 :: r).length - 1 → ∃ t,
      tcEntry x (c0 :: r) (decide (s = -1)) kind j = .ok t := by
    intro j hj
    have h1 : j < (c0 :: r).length := by omega
    have h2 : j + 1 < (c0 :: r).length := by omega
    obtain ⟨t, e, ht, -⟩ := hentry j _ _ (List.getElem?_eq_getElem h1) (List.getElem?_eq_getElem h2)
    exact ⟨t, ht⟩
  let g : ℕ → ℕ := fun j => match tcEntry x (c0 :: r) (decide (s = -1)) kind j with
    | .ok t => t
    | .error _ => 0
  have hgj : ∀ j < (c0 :: r).length - 1,
      tcEntry x (c0 :: r) (decide (s = -1)) kind j = .ok (g j) := by
    intro j hj
    obtain ⟨t, ht⟩ := hg j hj
    simp only [g, ht]
  have hget : ∀ j, j < (c0 :: r).length - 1 →
      ((List.range ((c0 :: r).length - 1)).map g)[j]? = some (g j) := by
    intro j hj
    rw [List.getElem?_map, List.getElem?_range hj]; rfl
  have hmain : ∀ j a b, (c0 :: r)[j]? = some a → (c0 :: r)[j + 1]? = some b →
        ∃ t e, ((List.range ((c0 :: r).length - 1)).map g)[j]? = some t ∧ a < t ∧ t ≤ b ∧
          x[t]? = some e ∧
          ((DownAt x v a ∧ e < v ∧ ∀ k d, a < k → k ≤ b → x[k]? = some d → e ≤ d ∧ (k < t → e < d)) ∨
           (UpAt x v a ∧ v < e ∧ ∀ k d, a < k → k ≤ b → x[k]? = some d → d ≤ e ∧ (k < t → d < e))) := by
    intro j a b ha hb
    have hjl : j + 1 < (c0 :: r).length := (List.getElem?_eq_some_iff.1 hb).1
    obtain ⟨t, e, ht, h1, h2, h3, h4⟩ := hentry j a b ha hb
    have : g j = t := by simp only [g, ht]
    exact ⟨t, e, by rw [hget j (by omega), this], h1, h2, h3, h4⟩
  refine ⟨(List.range ((c0 :: r).length - 1)).map g, ?_, by simp, ?_, hmain⟩
  · unfold findtc
    simp only [hc]
    rw [if_neg (by omega)]
    simp only [ha0, hb0', hfd]
    rw [mapM_range_ok _ g _ hgj]
  · rw [List.pairwise_iff_getElem]
    intro i j hi hj hij
    simp only [List.length_map, List.length_range] at hi hj
    have h1 : i < (c0 :: r).length := by omega
    have h2 : i + 1 < (c0 :: r).length := by omega
    have h3 : j < (c0 :: r).length := by omega
    have h4 : j + 1 < (c0 :: r).length := by omega
    obtain ⟨t, e, ht, -, e2, -⟩ := hmain i _ _ (List.getElem?_eq_getElem h1)
      (List.getElem?_eq_getElem h2)
    obtain ⟨t', e', ht', e1', -, -⟩ := hmain j _ _ (List.getElem?_eq_getElem h3)
      (List.getElem?_eq_getElem h4)
    rw [hget i hi] at ht
    rw [hget j hj] at ht'
    simp only [List.getElem_map, List.getElem_range]
    rw [Option.some.inj ht, Option.some.inj ht']
    have : (c0 :: r)[i + 1] ≤ (c0 :: r)[j] := by
      rcases Nat.eq_or_lt_of_le (show i + 1 ≤ j by omega) with h | h
      · simp only [h]; exact le_refl _
      · exact (hlt _ _ _ _ h (List.getElem?_eq_getElem h2) (List.getElem?_eq_getElem h3)).le
    omega

/-- **C11**  With at least three crossings `c`, `findtc(x, v)` returns one index per pair of consecutive
crossings; after a down-crossing it is the first minimum of the signal over the samples after that crossing up
to the next one and lies below the level (trough), after an up-crossing the first maximum, above the level
(crest).  Indices are strictly increasing. -/
theorem C11_findtc_extremes (x : List α) (v : α) (c : List ℕ) (hc : findcross x v none = .ok c)
    (h3 : 3 ≤ c.length) :
    ∃ tc, findtc x v none = .ok (tc, c) ∧ tc.length = c.length - 1 ∧ tc.Pairwise (· < ·) ∧
      ∀ j a b, c[j]? = some a → c[j + 1]? = some b →
        ∃ t e, tc[j]? = some t ∧ a < t ∧ t ≤ b ∧ x[t]? = some e ∧
          ((DownAt x v a ∧ e < v ∧ ∀ k d, a < k → k ≤ b → x[k]? = some d → e ≤ d ∧ (k < t → e < d)) ∨
           (UpAt x v a ∧ v < e ∧ ∀ k d, a < k → k ≤ b → x[k]? = some d → d ≤ e ∧ (k < t → d < e))) :=
  findtc_core x v none c c [] [] hc hc (by simp) (Or.inl (Or.inl rfl)) h3

/-- **C11** (wave kinds)  The same for the crossing-defined wave kinds: the crossings used are those selected by `findcross` for
that kind, every trough and crest lies between two consecutive ones. -/
theorem C11_findtc_waves (x : List α) (v : α) (kind : String) (hk : kind ∈ ["dw", "uw", "tw", "cw"]) (c : List ℕ)
    (hc : findcross x v (some kind) = .ok c) (h3 : 3 ≤ c.length) :
    ∃ tc, findtc x v (some kind) = .ok (tc, c) ∧ tc.length = c.length - 1 ∧ tc.Pairwise (· < ·) ∧
      ∀ j a b, c[j]? = some a → c[j + 1]? = some b →
        ∃ t e, tc[j]? = some t ∧ a < t ∧ t ≤ b ∧ x[t]? = some e ∧
          ((DownAt x v a ∧ e < v ∧ ∀ k d, a < k → k ≤ b → x[k]? = some d → e ≤ d ∧ (k < t → e < d)) ∨
           (UpAt x v a ∧ v < e ∧ ∀ k d, a < k → k ≤ b → x[k]? = some d → d ≤ e ∧ (k < t → d < e))) := by
  obtain ⟨l, hl⟩ : ∃ l, findcross x v none = .ok l := by
    rcases x with _ | ⟨x0, x⟩
    · rw [(C01_findcross_empty v (some kind))] at hc; cases hc
    · obtain ⟨l, h, -⟩ := C01_findcross_exact (x0 :: x) v (by simp)
      exact ⟨l, h⟩
  obtain ⟨m, p, q, hm, hpart, -, -, -, -, hodd, -⟩ := C04_findcross_waves x v l kind hk hl
  rw [hc] at hm
  obtain rfl := Except.ok.inj hm
  refine findtc_core x v (some kind) l c p q hl hc hpart ?_ h3
  simp only [List.mem_cons, List.not_mem_nil, or_false] at hk
  rcases hk with rfl | rfl | rfl | rfl
  · right
    rw [if_pos (by decide)] at hodd
    rcases hodd with h | h
    · rw [h] at h3; simp at h3
    · exact h
  · right
    rw [if_pos (by decide)] at hodd
    rcases hodd with h | h
    · rw [h] at h3; simp at h3
    · exact h
  · left; right; left; rfl
  · left; right; right; rfl

/-- **C11** (too few crossings)  With fewer than three crossings there is no complete wave and both results are empty. -/
theorem C11_findtc_few (x : List α) (v : α) (kind : Option String) (c : List ℕ) (hc : findcross x v kind = .ok c)
    (h2 : c.length ≤ 2) : findtc x v kind = .ok ([], []) := by
  unfold findtc
  simp only [hc]
  exact if_pos h2

example : findtc ([1, -1, -3, 0, 2, 5, -2, 1] : List ℚ) 0 none =
    .ok ([2, 5, 6], [0, 3, 5, 6]) := by decide +kernel

example : findtc ([1, -1, -3, 0, 2, 5, -2, 1] : List ℚ) 0 (some "dw") = .ok ([2, 5], [0, 3, 5]) ∧
    findtc ([1, -1, -3, 0, 2, 5] : List ℚ) 0 none = .ok ([], []) := by decide +kernel

end Wafo.Turning
