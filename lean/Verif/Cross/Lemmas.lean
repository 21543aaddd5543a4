import Verif.Cross.Model

/-! Helper lemmas about the crossing scan. -/

set_option linter.unusedSectionVars false

namespace Wafo.Cross

/-- Sign of the last non-zero element, `d` if there is none. -/
def lastNZ (d : ℤ) (l : List ℤ) : ℤ :=
  l.foldl (fun d a => if a < 0 then -1 else if 0 < a then 1 else d) d

@[simp] theorem lastNZ_nil (d : ℤ) : lastNZ d [] = d := rfl

theorem lastNZ_cons (d a : ℤ) (l : List ℤ) :
    lastNZ d (a :: l) = lastNZ (if a < 0 then -1 else if 0 < a then 1 else d) l := rfl

theorem lastNZ_cons_of_same (d a : ℤ) (l : List ℤ) (hd : d = 1 ∨ d = -1) (h : 0 ≤ d * a) :
    lastNZ d (a :: l) = lastNZ d l := by
  rw [lastNZ_cons]
  rcases hd with rfl | rfl
  · have : 0 ≤ a := by linarith
    rw [if_neg (by omega)]
    split <;> rfl
  · have : a ≤ 0 := by linarith
    split
    · rfl
    · rw [if_neg (by omega)]

theorem lastNZ_cons_of_ne (d a : ℤ) (l : List ℤ) (h : a ≠ 0) (e : ℤ) :
    lastNZ d (a :: l) = lastNZ e (a :: l) := by
  rw [lastNZ_cons, lastNZ_cons]
  split
  · rfl
  · rw [if_pos (by omega), if_pos (by omega)]

theorem lastNZ_cases (d : ℤ) (l : List ℤ) :
    ((∀ a ∈ l, a = 0) ∧ lastNZ d l = d) ∨
    ∃ j a, l[j]? = some a ∧ (∀ k, j < k → k < l.length → l[k]? = some 0) ∧
      ((a < 0 ∧ lastNZ d l = -1) ∨ (0 < a ∧ lastNZ d l = 1)) := by
  induction l generalizing d with
  | nil => left; simp
  | cons b l ih =>
    rw [lastNZ_cons]
    rcases ih (if b < 0 then -1 else if 0 < b then 1 else d) with ⟨h0, h1⟩ | ⟨j, a, h1, h2, h3⟩
    · rcases lt_trichotomy b 0 with hb | hb | hb
      · right
        refine ⟨0, b, by simp, ?_, Or.inl ⟨hb, by rw [h1, if_pos hb]⟩⟩
        intro k hk hk2
        obtain ⟨k, rfl⟩ : ∃ m, k = m + 1 := ⟨k - 1, by omega⟩
        simp only [List.length_cons, add_lt_add_iff_right] at hk2
        simp only [List.getElem?_cons_succ]
        rw [List.getElem?_eq_getElem hk2]
        rw [h0 _ (List.getElem_mem hk2)]
      · left
        refine ⟨by intro a ha; rcases List.mem_cons.1 ha with rfl | h; exacts [hb, h0 _ h], ?_⟩
        rw [h1, hb]; simp
      · right
        refine ⟨0, b, by simp, ?_, Or.inr ⟨hb, by rw [h1, if_neg (by omega), if_pos hb]⟩⟩
        intro k hk hk2
        obtain ⟨k, rfl⟩ : ∃ m, k = m + 1 := ⟨k - 1, by omega⟩
        simp only [List.length_cons, add_lt_add_iff_right] at hk2
        simp only [List.getElem?_cons_succ]
        rw [List.getElem?_eq_getElem hk2]
        rw [h0 _ (List.getElem_mem hk2)]
    · right
      refine ⟨j + 1, a, by simpa using h1, ?_, h3⟩
      intro k hk hk2
      obtain ⟨k, rfl⟩ : ∃ m, k = m + 1 := ⟨k - 1, by omega⟩
      simp only [List.length_cons, add_lt_add_iff_right] at hk2
      simpa using h2 k (by omega) hk2

/-- `scan` reports exactly the sign changes. -/
theorem mem_scan (l : List ℤ) : ∀ (i : ℕ) (d a : ℤ), (d = 1 ∨ d = -1) → 0 ≤ d * a → ∀ j,
    (j ∈ scan i d (a :: l) ↔ ∃ k b, j = i + k ∧ (a :: l)[k + 1]? = some b ∧
      lastNZ d ((a :: l).take (k + 1)) * b < 0) := by
  induction l with
  | nil => intro i d a hd ha j; simp [scan]
  | cons b l ih =>
    intro i d a hd ha j
    have hlast : ∀ m, lastNZ d (a :: m) = lastNZ d m := fun m => lastNZ_cons_of_same d a m hd ha
    have hcond : ((d = -1 ∧ a ≤ 0 ∧ 0 < b) ∨ (d = 1 ∧ 0 ≤ a ∧ b < 0)) ↔ d * b < 0 := by
      rcases hd with rfl | rfl
      · constructor
        · rintro (⟨h, -⟩ | ⟨-, -, h⟩) <;> omega
        · intro h; right; refine ⟨rfl, ?_, ?_⟩ <;> omega
      · constructor
        · rintro (⟨-, -, h⟩ | ⟨h, -⟩) <;> omega
        · intro h; left; refine ⟨rfl, ?_, ?_⟩ <;> omega
    rw [scan]
    simp only [hcond]
    have hR : (∃ k c, j = i + k ∧ (a :: b :: l)[k + 1]? = some c ∧
        lastNZ d ((a :: b :: l).take (k + 1)) * c < 0) ↔
        ((j = i ∧ d * b < 0) ∨ ∃ k c, j = i + 1 + k ∧ (b :: l)[k + 1]? = some c ∧
          lastNZ d ((b :: l).take (k + 1)) * c < 0) := by
      constructor
      · rintro ⟨k, c, rfl, h1, h2⟩
        rcases k with _ | k
        · left
          simp only [zero_add, List.getElem?_cons_succ, List.getElem?_cons_zero,
            Option.some.injEq] at h1
          subst h1
          refine ⟨rfl, ?_⟩
          simpa [hlast] using h2
        · right
          refine ⟨k, c, by omega, by simpa using h1, ?_⟩
          rw [List.take_succ_cons, hlast] at h2
          exact h2
      · rintro (⟨rfl, h⟩ | ⟨k, c, rfl, h1, h2⟩)
        · exact ⟨0, b, rfl, by simp, by simpa [hlast] using h⟩
        · refine ⟨k + 1, c, by omega, by simpa using h1, ?_⟩
          rw [List.take_succ_cons, hlast]
          exact h2
    rw [hR]
    by_cases hc : d * b < 0
    · rw [if_pos hc, List.mem_cons, ih (i + 1) (-d) b (by rcases hd with h | h <;> simp [h]) (by nlinarith)]
      have hb : b ≠ 0 := by rintro rfl; simp at hc
      have : ∀ k, lastNZ (-d) ((b :: l).take (k + 1)) = lastNZ d ((b :: l).take (k + 1)) := by
        intro k; rw [List.take_succ_cons]; exact lastNZ_cons_of_ne _ _ _ hb _
      simp only [this, hc, and_true]
    · rw [if_neg hc, ih (i + 1) d b hd (by omega)]
      simp only [hc, and_false, false_or]

theorem scan_ge (l : List ℤ) : ∀ (i : ℕ) (d : ℤ), ∀ j ∈ scan i d l, i ≤ j ∧ j + 1 < i + l.length := by
  induction l with
  | nil => intro i d j hj; simp [scan] at hj
  | cons a l ih =>
    intro i d j hj
    rcases l with _ | ⟨b, l⟩
    · simp [scan] at hj
    · rw [scan] at hj
      split at hj
      · rcases List.mem_cons.1 hj with rfl | hj
        · simp
        · have := ih _ _ _ hj
          simp only [List.length_cons] at this ⊢; omega
      · have := ih _ _ _ hj
        simp only [List.length_cons] at this ⊢; omega

theorem scan_pairwise (l : List ℤ) : ∀ (i : ℕ) (d : ℤ), (scan i d l).Pairwise (· < ·) := by
  induction l with
  | nil => intro i d; simp [scan]
  | cons a l ih =>
    intro i d
    rcases l with _ | ⟨b, l⟩
    · simp [scan]
    · rw [scan]
      split
      · refine List.pairwise_cons.2 ⟨fun j hj => ?_, ih _ _⟩
        have := scan_ge _ _ _ _ hj
        omega
      · exact ih _ _

/-- Directions of the crossings alternate, beginning with sign `s`. -/
def AltDir (y : List ℤ) : ℤ → List ℕ → Prop
  | _, [] => True
  | s, i :: r => (∃ b, y[i + 1]? = some b ∧ 0 < s * b) ∧ AltDir y (-s) r

theorem scan_alt (y : List ℤ) (l : List ℤ) : ∀ (i : ℕ) (d : ℤ), (d = 1 ∨ d = -1) →
    y.drop i = l → AltDir y (-d) (scan i d l) := by
  induction l with
  | nil => intro i d _ _; simp [scan, AltDir]
  | cons a l ih =>
    intro i d hd hy
    have hy1 : y.drop (i + 1) = l := by
      rw [← List.drop_drop, hy]; simp
    rcases l with _ | ⟨b, l⟩
    · simp [scan, AltDir]
    · have hb : y[i + 1]? = some b := by
        have : (y.drop (i + 1))[0]? = some b := by rw [hy1]; simp
        simpa using this
      rw [scan]
      split
      · rename_i h
        refine ⟨⟨b, hb, ?_⟩, ?_⟩
        · rcases h with ⟨rfl, -, h⟩ | ⟨rfl, -, h⟩ <;> omega
        · exact ih (i + 1) (-d) (by omega) hy1
      · exact ih (i + 1) d hd hy1

theorem zeroScan_spec (y : List ℤ) (l : List ℤ) : ∀ (i : ℕ), y.drop (i + 1) = l →
    (∀ k ≤ i, y[k]? = some 0) →
    ((zeroScan (i + 1) l = [] ∧ ∀ k < y.length, y[k]? = some 0) ∨
      ∃ m s a r, i ≤ m ∧ (∀ k ≤ m, y[k]? = some 0) ∧ y.drop (m + 1) = a :: r ∧
      (s = 1 ∨ s = -1) ∧ 0 < s * a ∧ zeroScan (i + 1) l = m :: scan (m + 1) s (a :: r)) := by
  induction l with
  | nil =>
    intro i h h0
    left
    refine ⟨by simp [zeroScan], fun k hk => ?_⟩
    have : y.length ≤ i + 1 := List.drop_eq_nil_iff.1 h
    exact h0 k (by omega)
  | cons a l ih =>
    intro i h h0
    have hy1 : y.drop (i + 1 + 1) = l := by
      rw [← List.drop_drop, h]; simp
    have ha : y[i + 1]? = some a := by
      have : (y.drop (i + 1))[0]? = some a := by rw [h]; simp
      simpa using this
    rw [zeroScan]
    split
    · right
      exact ⟨i, -1, a, l, le_refl _, h0, h, Or.inr rfl, by omega, by simp⟩
    · split
      · right
        exact ⟨i, 1, a, l, le_refl _, h0, h, Or.inl rfl, by omega, by simp⟩
      · have ha0 : a = 0 := by omega
        rcases ih (i + 1) hy1 (by
          intro k hk
          rcases Nat.lt_or_ge k (i + 1) with h1 | h1
          · exact h0 k (by omega)
          · obtain rfl : k = i + 1 := by omega
            rw [ha, ha0]) with h1 | ⟨m, s, a', r, h1, h2, h3, h4, h5, h6⟩
        · left; exact h1
        · right; exact ⟨m, s, a', r, by omega, h2, h3, h4, h5, h6⟩

/-- One-step form of the result of `findcross0`. -/
theorem findcross0_cases (y : List ℤ) (l : List ℕ) (h : findcross0 y = .ok l) :
    (∃ a r s, y = a :: r ∧ (s = 1 ∨ s = -1) ∧ 0 < s * a ∧ l = scan 0 s y) ∨
    (l = [] ∧ ∀ k < y.length, y[k]? = some 0) ∨
    (∃ m s a r, (∀ k ≤ m, y[k]? = some 0) ∧ y.drop (m + 1) = a :: r ∧
      (s = 1 ∨ s = -1) ∧ 0 < s * a ∧ l = m :: scan (m + 1) s (a :: r)) := by
  rcases y with _ | ⟨y0, ys⟩
  · simp [findcross0] at h
  · rw [findcross0] at h
    split at h
    · left
      refine ⟨y0, ys, -1, rfl, Or.inr rfl, by omega, ?_⟩
      injection h with h; exact h.symm
    · split at h
      · left
        refine ⟨y0, ys, 1, rfl, Or.inl rfl, by omega, ?_⟩
        injection h with h; exact h.symm
      · right
        have h0 : y0 = 0 := by omega
        injection h with h
        rcases zeroScan_spec (y0 :: ys) ys 0 (by simp) (by
          intro k hk; obtain rfl : k = 0 := by omega
          simp [h0]) with ⟨h1, h2⟩ | ⟨m, s, a, r, -, h2, h3, h4, h5, h6⟩
        · left; exact ⟨by rw [← h]; exact h1, h2⟩
        · right; exact ⟨m, s, a, r, h2, h3, h4, h5, by rw [← h]; exact h6⟩

theorem lastNZ_zeros (d : ℤ) (l : List ℤ) (h : ∀ a ∈ l, a = 0) : lastNZ d l = d := by
  induction l with
  | nil => rfl
  | cons a l ih =>
    rw [lastNZ_cons, h a (by simp)]
    simpa using ih (fun b hb => h b (by simp [hb]))

theorem lastNZ_append (d : ℤ) (l m : List ℤ) : lastNZ d (l ++ m) = lastNZ (lastNZ d l) m := by
  simp [lastNZ, List.foldl_append]

theorem take_zero_of (y : List ℤ) (m : ℕ) (h : ∀ k ≤ m, y[k]? = some 0) (n : ℕ) (hn : n ≤ m + 1) :
    ∀ a ∈ y.take n, a = 0 := by
  intro a ha
  rw [List.mem_iff_getElem?] at ha
  obtain ⟨k, hk⟩ := ha
  rw [List.getElem?_take] at hk
  split at hk
  · rw [h k (by omega)] at hk; simpa using hk.symm
  · simp at hk

/-- `findcross0` reports exactly the positions where the next sample is non-zero and the last
non-zero sample so far has the other sign or does not exist. -/
theorem mem_findcross0 (y : List ℤ) (l : List ℕ) (h : findcross0 y = .ok l) (j : ℕ) :
    j ∈ l ↔ ∃ b, y[j + 1]? = some b ∧ b ≠ 0 ∧ lastNZ 0 (y.take (j + 1)) * b ≤ 0 := by
  rcases findcross0_cases y l h with ⟨a, r, s, rfl, hs, hsa, rfl⟩ | ⟨rfl, h0⟩ |
    ⟨m, s, a, r, h0, hdrop, hs, hsa, rfl⟩
  · rw [mem_scan r 0 s a hs (le_of_lt hsa)]
    have ha : a ≠ 0 := by rintro rfl; simp at hsa
    have hnz : ∀ k, lastNZ 0 ((a :: r).take (k + 1)) = lastNZ s ((a :: r).take (k + 1)) := by
      intro k; rw [List.take_succ_cons]; exact lastNZ_cons_of_ne _ _ _ ha _
    have hpm : ∀ k, lastNZ s ((a :: r).take (k + 1)) = 1 ∨ lastNZ s ((a :: r).take (k + 1)) = -1 := by
      intro k
      rcases lastNZ_cases s ((a :: r).take (k + 1)) with ⟨-, h1⟩ | ⟨_, _, _, _, ⟨-, h1⟩ | ⟨-, h1⟩⟩
      · rw [h1]; exact hs
      · right; exact h1
      · left; exact h1
    constructor
    · rintro ⟨k, b, rfl, h1, h2⟩
      rw [Nat.zero_add]
      refine ⟨b, h1, ?_, ?_⟩
      · rintro rfl; simp at h2
      · rw [hnz]; omega
    · rintro ⟨b, h1, hb, h2⟩
      refine ⟨j, b, by omega, h1, ?_⟩
      rw [hnz] at h2
      rcases hpm j with h3 | h3 <;> rw [h3] at h2 ⊢ <;> omega
  · simp only [List.not_mem_nil, false_iff, not_exists, not_and]
    intro b hb hb0
    exfalso
    obtain ⟨h1, h2⟩ := List.getElem?_eq_some_iff.1 hb
    have := h0 (j + 1) h1
    rw [this] at hb
    simp at hb; exact hb0 hb.symm
  · have hyeq : y = y.take (m + 1) ++ (a :: r) := by rw [← hdrop, List.take_append_drop]
    have hlen : m + 1 < y.length := by
      by_contra hc
      have : y.drop (m + 1) = [] := List.drop_eq_nil_iff.2 (by omega)
      rw [this] at hdrop; simp at hdrop
    have hgm : y[m + 1]? = some a := by
      have : (y.drop (m + 1))[0]? = some a := by rw [hdrop]; simp
      simpa using this
    have ha : a ≠ 0 := by rintro rfl; simp at hsa
    rw [List.mem_cons, mem_scan r (m + 1) s a hs (le_of_lt hsa)]
    have htk : ∀ k, y.take (m + 1 + k + 1) = y.take (m + 1) ++ (a :: r).take (k + 1) := by
      intro k
      conv_lhs => rw [hyeq]
      rw [List.take_append]
      have : (y.take (m + 1)).length = m + 1 := by simp; omega
      rw [this, List.take_of_length_le (by omega)]
      congr 2
      omega
    have hnz : ∀ k, lastNZ 0 (y.take (m + 1 + k + 1)) = lastNZ s ((a :: r).take (k + 1)) := by
      intro k; rw [htk, lastNZ_append, List.take_succ_cons]; exact lastNZ_cons_of_ne _ _ _ ha _
    have hpm : ∀ k, lastNZ s ((a :: r).take (k + 1)) = 1 ∨ lastNZ s ((a :: r).take (k + 1)) = -1 := by
      intro k
      rcases lastNZ_cases s ((a :: r).take (k + 1)) with ⟨-, h1⟩ | ⟨_, _, _, _, ⟨-, h1⟩ | ⟨-, h1⟩⟩
      · rw [h1]; exact hs
      · right; exact h1
      · left; exact h1
    have hget : ∀ k, y[m + 1 + k]? = (a :: r)[k]? := by
      intro k; rw [← hdrop]; simp
    constructor
    · rintro (rfl | ⟨k, b, rfl, h1, h2⟩)
      · refine ⟨a, hgm, ha, ?_⟩
        rw [lastNZ_zeros _ _ (take_zero_of y j h0 _ (by omega))]; simp
      · refine ⟨b, ?_, ?_, ?_⟩
        · rw [← h1, ← hget]; rfl
        · rintro rfl; simp at h2
        · rw [hnz]; omega
    · rintro ⟨b, h1, hb, h2⟩
      rcases Nat.lt_trichotomy j m with hj | hj | hj
      · rw [h0 (j + 1) (by omega)] at h1
        simp at h1; exact absurd h1.symm hb
      · left; exact hj
      · right
        obtain ⟨k, rfl⟩ : ∃ k, j = m + 1 + k := ⟨j - (m + 1), by omega⟩
        refine ⟨k, b, rfl, ?_, ?_⟩
        · rw [← hget]; exact h1
        · rw [hnz] at h2
          rcases hpm k with h3 | h3 <;> rw [h3] at h2 ⊢ <;> omega

theorem findcross0_pairwise (y : List ℤ) (l : List ℕ) (h : findcross0 y = .ok l) :
    l.Pairwise (· < ·) := by
  rcases findcross0_cases y l h with ⟨a, r, s, rfl, hs, hsa, rfl⟩ | ⟨rfl, h0⟩ |
    ⟨m, s, a, r, h0, hdrop, hs, hsa, rfl⟩
  · exact scan_pairwise _ _ _
  · simp
  · refine List.pairwise_cons.2 ⟨fun j hj => ?_, scan_pairwise _ _ _⟩
    have := scan_ge _ _ _ _ hj
    omega

theorem findcross0_alt (y : List ℤ) (l : List ℕ) (h : findcross0 y = .ok l) :
    ∃ s : ℤ, (s = 1 ∨ s = -1) ∧ AltDir y s l := by
  rcases findcross0_cases y l h with ⟨a, r, s, rfl, hs, hsa, rfl⟩ | ⟨rfl, h0⟩ |
    ⟨m, s, a, r, h0, hdrop, hs, hsa, rfl⟩
  · exact ⟨-s, by omega, scan_alt _ _ 0 s hs rfl⟩
  · exact ⟨1, Or.inl rfl, trivial⟩
  · have hgm : y[m + 1]? = some a := by
      have : (y.drop (m + 1))[0]? = some a := by rw [hdrop]; simp
      simpa using this
    exact ⟨s, hs, ⟨a, hgm, hsa⟩, scan_alt _ _ (m + 1) s hs hdrop⟩

end Wafo.Cross

namespace Wafo.Cross

theorem everyOther_cons {α : Type*} (a : α) (l : List α) :
    everyOther (a :: l) = a :: everyOther (l.drop 1) := by
  rcases l with _ | ⟨b, l⟩ <;> simp [everyOther]

/-- Does the crossing at `i` go in direction `s`? -/
def dirb (y : List ℤ) (s : ℤ) (i : ℕ) : Bool := (y[i + 1]?).any (fun b => decide (0 < s * b))

theorem altDir_filter (y : List ℤ) (l : List ℕ) : ∀ s : ℤ, AltDir y s l →
    everyOther l = l.filter (dirb y s) ∧ everyOther (l.drop 1) = l.filter (dirb y (-s)) := by
  induction l with
  | nil => intro s _; simp [everyOther]
  | cons i r ih =>
    intro s h
    obtain ⟨⟨b, hb, hsb⟩, hr⟩ := h
    obtain ⟨h1, h2⟩ := ih (-s) hr
    have hd1 : dirb y s i = true := by simp [dirb, hb, hsb]
    have hd2 : dirb y (-s) i = false := by simp [dirb, hb]; nlinarith
    refine ⟨?_, ?_⟩
    · rw [everyOther_cons, h2, List.filter_cons_of_pos hd1, neg_neg]
    · rw [List.filter_cons_of_neg (by simp [hd2]), List.drop_one, List.tail_cons, h1]

theorem altDir_drop (y : List ℤ) (l : List ℕ) (s : ℤ) (h : AltDir y s l) :
    AltDir y (-s) (l.drop 1) := by
  rcases l with _ | ⟨i, r⟩
  · simp [AltDir]
  · simpa using h.2

theorem altDir_dropLast (y : List ℤ) (l : List ℕ) : ∀ s : ℤ, AltDir y s l →
    AltDir y s l.dropLast := by
  induction l with
  | nil => intro s _; simp [AltDir]
  | cons i r ih =>
    intro s h
    rcases r with _ | ⟨j, r⟩
    · simp [AltDir]
    · rw [List.dropLast_cons_cons]
      exact ⟨h.1, ih _ h.2⟩

/-- In an alternating list of odd length the last crossing has the direction of the first, in one of
even length the opposite one. -/
theorem altDir_getLast (y : List ℤ) (l : List ℕ) : ∀ s : ℤ, AltDir y s l → ∀ i,
    l.getLast? = some i → ∃ b, y[i + 1]? = some b ∧
      0 < (if l.length % 2 = 1 then s else -s) * b := by
  induction l with
  | nil => intro s _ i h; simp at h
  | cons j r ih =>
    intro s h i hi
    rcases r with _ | ⟨k, r⟩
    · simp at hi; subst hi
      simpa using h.1
    · rw [List.getLast?_cons_cons] at hi
      obtain ⟨b, hb, hs⟩ := ih (-s) h.2 i hi
      refine ⟨b, hb, ?_⟩
      simp only [List.length_cons] at hs ⊢
      rcases Nat.mod_two_eq_zero_or_one (r.length + 1) with h1 | h1
      · rw [if_neg (by omega)] at hs
        rw [if_pos (by omega)]; simpa using hs
      · rw [if_pos (by omega)] at hs
        rw [if_neg (by omega)]; simpa using hs

/-- The sample before a crossing is not on the same side as the sample after it. -/
theorem findcross0_prev (y : List ℤ) (l : List ℕ) (h : findcross0 y = .ok l) (j : ℕ) (hj : j ∈ l) :
    ∃ a b, y[j]? = some a ∧ y[j + 1]? = some b ∧ b ≠ 0 ∧ a * b ≤ 0 := by
  obtain ⟨b, hb, hb0, hl⟩ := (mem_findcross0 y l h j).1 hj
  obtain ⟨hlen, -⟩ := List.getElem?_eq_some_iff.1 hb
  have hj' : j < y.length := by omega
  refine ⟨y[j], b, List.getElem?_eq_getElem hj', hb, hb0, ?_⟩
  rw [List.take_add_one, List.getElem?_eq_getElem hj', lastNZ_append] at hl
  simp only [Option.toList_some, lastNZ_cons, lastNZ_nil] at hl
  rcases lt_trichotomy y[j] 0 with h1 | h1 | h1
  · rw [if_pos h1] at hl; nlinarith
  · rw [h1]; simp
  · rw [if_neg (by omega), if_pos h1] at hl; nlinarith

section
variable {α : Type*} [Field α] [LinearOrder α] [IsStrictOrderedRing α]

theorem sgn_neg_iff (v a : α) : sgn v a < 0 ↔ a < v := by
  unfold sgn
  split
  · constructor
    · intro _; linarith
    · intro _; norm_num
  · split
    · constructor
      · intro h; norm_num at h
      · intro _; linarith
    · constructor
      · intro h; norm_num at h
      · intro _; linarith

theorem sgn_pos_iff (v a : α) : 0 < sgn v a ↔ v < a := by
  unfold sgn
  split
  · constructor
    · intro h; norm_num at h
    · intro _; linarith
  · split
    · constructor
      · intro _; linarith
      · intro _; norm_num
    · constructor
      · intro h; norm_num at h
      · intro _; linarith

theorem sgn_eq_zero_iff (v a : α) : sgn v a = 0 ↔ a = v := by
  have h1 := sgn_neg_iff v a
  have h2 := sgn_pos_iff v a
  constructor
  · intro h
    rw [h] at h1 h2
    simp only [lt_irrefl, false_iff, not_lt] at h1 h2
    exact le_antisymm h2 h1
  · rintro rfl; simp [sgn]

theorem signs_getElem? (x : List α) (v : α) (i : ℕ) :
    (signs x v)[i]? = (x[i]?).map (sgn v) := by
  simp [signs]

theorem signs_some_iff (x : List α) (v : α) (i : ℕ) (s : ℤ) :
    (signs x v)[i]? = some s ↔ ∃ a, x[i]? = some a ∧ sgn v a = s := by
  rw [signs_getElem?]; simp

theorem signs_zero_iff (x : List α) (v : α) (i : ℕ) :
    (signs x v)[i]? = some 0 ↔ x[i]? = some v := by
  rw [signs_some_iff]
  constructor
  · rintro ⟨a, h, h0⟩; rw [sgn_eq_zero_iff] at h0; rw [h, h0]
  · intro h; exact ⟨v, h, by rw [sgn_eq_zero_iff]⟩

theorem findcross0_ok (y : List ℤ) (h : y ≠ []) : ∃ l, findcross0 y = .ok l := by
  rcases y with _ | ⟨a, r⟩
  · exact absurd rfl h
  · rw [findcross0]
    split
    · exact ⟨_, rfl⟩
    · split
      · exact ⟨_, rfl⟩
      · exact ⟨_, rfl⟩

theorem findcross_none_eq (x : List α) (v : α) : findcross x v none = findcross0 (signs x v) := by
  unfold findcross
  cases h : findcross0 (signs x v) with
  | error e => simp [h]
  | ok l =>
    rcases l with _ | ⟨i, r⟩
    · simp [h]
    · simp [h, selectKind]

end

end Wafo.Cross
