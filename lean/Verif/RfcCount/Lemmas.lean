import Verif.RfcCount.Model

/-! Specification of rainflow cycles and correctness of the search loops. -/

set_option linter.unusedSectionVars false

namespace Wafo.RfcCount

variable {α : Type} [Field α] [LinearOrder α] [IsStrictOrderedRing α]

/-- Minimum `t` (an even position) can be reached from the maximum at `2 i + 1` going back in time
without meeting a higher maximum. -/
def LeftReach (y : ℕ → α) (i t : ℕ) : Prop :=
  ∃ j, j ≤ i ∧ t = 2 * j ∧ ∀ k, j ≤ k → k < i → y (2 * k + 1) ≤ y (2 * i + 1)

/-- Minimum `t` comes after the maximum at `2 i + 1` and before the signal first returns to its
height; `nc` is the number of maxima. -/
def RightReach (y : ℕ → α) (nc i t : ℕ) : Prop :=
  ∃ j, i ≤ j ∧ j < nc ∧ t = 2 * j + 2 ∧ ∀ k, i < k → k ≤ j → y (2 * k + 1) < y (2 * i + 1)

/-- The signal returns to the height of the maximum at `2 i + 1`. -/
def Returns (y : ℕ → α) (nc i : ℕ) : Prop := ∃ k, i < k ∧ k < nc ∧ y (2 * i + 1) ≤ y (2 * k + 1)

/-- `t` is the (latest) lowest point among those satisfying `P`. -/
def Lowest (y : ℕ → α) (P : ℕ → Prop) (t : ℕ) : Prop :=
  P t ∧ ∀ t', P t' → y t ≤ y t' ∧ (t < t' → y t < y t')

/-- `t` is the rainflow minimum that belongs to the maximum at `2 i + 1`: the lower bound of the
excursion to the right if the signal returns and that bound is higher than the one to the left,
the lower bound of the excursion to the left otherwise. -/
def RainflowMin (y : ℕ → α) (nc i t : ℕ) : Prop :=
  ∃ l r, Lowest y (LeftReach y i) l ∧ Lowest y (RightReach y nc i) r ∧
    ((Returns y nc i ∧ y l < y r ∧ t = r) ∨ (¬ (Returns y nc i ∧ y l < y r) ∧ t = l))

theorem back_spec (y : ℕ → α) (i : ℕ) (j : ℕ) : ∀ (t : ℕ), j ≤ i →
    (∀ k, j ≤ k → k < i → y (2 * k + 1) ≤ y (2 * i + 1)) →
    (∃ j0, j ≤ j0 ∧ j0 ≤ i ∧ t = 2 * j0) →
    (∀ m, j ≤ m → m ≤ i → y t ≤ y (2 * m) ∧ (t < 2 * m → y t < y (2 * m))) →
    ∃ t', back y (y (2 * i + 1)) j (y t, t) = (y t', t') ∧ Lowest y (LeftReach y i) t' := by
  induction j with
  | zero =>
    intro t hj hreach ⟨j0, h1, h2, h3⟩ hmin
    refine ⟨t, rfl, ⟨j0, h2, h3, fun k _ hk => hreach k (Nat.zero_le _) hk⟩, ?_⟩
    rintro t' ⟨j', g1, rfl, -⟩
    exact hmin j' (Nat.zero_le _) g1
  | succ j ih =>
    intro t hj hreach ⟨j0, h1, h2, h3⟩ hmin
    rw [back]
    by_cases hc : y (2 * j + 1) ≤ y (2 * i + 1)
    · rw [if_pos hc]
      have hreach' : ∀ k, j ≤ k → k < i → y (2 * k + 1) ≤ y (2 * i + 1) := by
        intro k hk1 hk2
        rcases Nat.eq_or_lt_of_le hk1 with rfl | h
        · exact hc
        · exact hreach k h hk2
      by_cases hlt : y (2 * j) < y t
      · simp only [hlt, ↓reduceIte]
        apply ih (2 * j) (by omega) hreach' ⟨j, le_refl _, by omega, rfl⟩
        intro m hm1 hm2
        rcases Nat.eq_or_lt_of_le hm1 with rfl | h
        · exact ⟨le_refl _, fun h => absurd h (lt_irrefl _)⟩
        · have := (hmin m h hm2).1
          exact ⟨by linarith, fun _ => by linarith⟩
      · simp only [hlt, ↓reduceIte]
        apply ih t (by omega) hreach' ⟨j0, by omega, h2, h3⟩
        intro m hm1 hm2
        rcases Nat.eq_or_lt_of_le hm1 with rfl | h
        · exact ⟨not_lt.1 hlt, fun h => by omega⟩
        · exact hmin m h hm2
    · rw [if_neg hc]
      refine ⟨t, rfl, ⟨j0, h2, h3, fun k hk1 hk2 => hreach k (by omega) hk2⟩, ?_⟩
      rintro t' ⟨j', g1, rfl, g3⟩
      apply hmin j' _ g1
      by_contra hlt
      exact hc (g3 j (by omega) (by omega))

theorem fwd_spec (y : ℕ → α) (nc i : ℕ) (fuel : ℕ) : ∀ (j t : ℕ), fuel = nc - j → j ≤ nc → i < j →
    (∀ k, i < k → k < j → y (2 * k + 1) < y (2 * i + 1)) →
    (∃ j0, i ≤ j0 ∧ j0 < j ∧ t = 2 * j0 + 2) →
    (∀ m, i ≤ m → m < j → y t ≤ y (2 * m + 2) ∧ (t < 2 * m + 2 → y t < y (2 * m + 2))) →
    ∃ b t', fwd y (y (2 * i + 1)) fuel j (y t, t) = (b, y t', t') ∧
      Lowest y (RightReach y nc i) t' ∧ (b = true ↔ Returns y nc i) := by
  induction fuel with
  | zero =>
    intro j t hf hj hij hreach ⟨j0, h1, h2, h3⟩ hmin
    refine ⟨false, t, rfl, ⟨⟨j0, h1, by omega, h3, fun k hk1 hk2 => hreach k hk1 (by omega)⟩, ?_⟩, ?_⟩
    · rintro t' ⟨j', g1, g2, rfl, -⟩
      exact hmin j' g1 (by omega)
    · simp only [Bool.false_eq_true, false_iff]
      rintro ⟨k, h1, h2, h3⟩
      exact absurd (hreach k h1 (by omega)) (not_lt.2 h3)
  | succ fuel ih =>
    intro j t hf hj hij hreach ⟨j0, h1, h2, h3⟩ hmin
    rw [fwd]
    by_cases hc : y (2 * i + 1) ≤ y (2 * j + 1)
    · rw [if_pos hc]
      refine ⟨true, t, rfl, ⟨⟨j0, h1, by omega, h3, fun k hk1 hk2 => hreach k hk1 (by omega)⟩, ?_⟩,
        ?_⟩
      · rintro t' ⟨j', g1, g2, rfl, g4⟩
        apply hmin j' g1
        by_contra hlt
        exact absurd (g4 j hij (by omega)) (not_lt.2 hc)
      · simp only [true_iff]
        exact ⟨j, hij, by omega, hc⟩
    · rw [if_neg hc]
      have hreach' : ∀ k, i < k → k < j + 1 → y (2 * k + 1) < y (2 * i + 1) := by
        intro k hk1 hk2
        rcases Nat.eq_or_lt_of_le (Nat.le_of_lt_succ hk2) with rfl | h
        · exact not_le.1 hc
        · exact hreach k hk1 h
      by_cases hle : y (2 * j + 2) ≤ y t
      · simp only [hle, ↓reduceIte]
        apply ih (j + 1) (2 * j + 2) (by omega) (by omega) (by omega) hreach'
          ⟨j, by omega, by omega, rfl⟩
        intro m hm1 hm2
        rcases Nat.eq_or_lt_of_le (Nat.le_of_lt_succ hm2) with rfl | h
        · exact ⟨le_refl _, fun h => absurd h (lt_irrefl _)⟩
        · have := (hmin m hm1 h).1
          exact ⟨by linarith, fun h => by omega⟩
      · simp only [hle, ↓reduceIte]
        apply ih (j + 1) t (by omega) (by omega) (by omega) hreach' ⟨j0, h1, by omega, h3⟩
        intro m hm1 hm2
        rcases Nat.eq_or_lt_of_le (Nat.le_of_lt_succ hm2) with rfl | h
        · exact ⟨(not_le.1 hle).le, fun _ => not_le.1 hle⟩
        · exact hmin m hm1 h

/-- The pair of positions emitted for the maximum at `2 i + 1`, in order of time. -/
def cycleOf (i t : ℕ) : List ℕ := [min t (2 * i + 1), max t (2 * i + 1)]

theorem cycleOf_left (i t : ℕ) (h : t ≤ 2 * i) : cycleOf i t = [t, 2 * i + 1] := by
  unfold cycleOf; rw [min_eq_left (by omega), max_eq_right (by omega)]

theorem cycleOf_right (i t : ℕ) (h : 2 * i + 2 ≤ t) : cycleOf i t = [2 * i + 1, t] := by
  unfold cycleOf; rw [min_eq_right (by omega), max_eq_left (by omega)]

theorem emit_spec (y : ℕ → α) (nc : ℕ) (h : α) (i : ℕ) (hi : i < nc) :
    ∃ t, RainflowMin y nc i t ∧
      emit y nc h i = if h ≤ y (2 * i + 1) - y t then cycleOf i t else [] := by
  obtain ⟨l, hl1, hl2⟩ := back_spec y i i (2 * i) (le_refl _) (by intro k h1 h2; omega)
    ⟨i, le_refl _, le_refl _, rfl⟩ (by
      intro m h1 h2
      obtain rfl : m = i := by omega
      exact ⟨le_refl _, fun h => absurd h (lt_irrefl _)⟩)
  obtain ⟨b, r, hr1, hr2, hr3⟩ := fwd_spec y nc i (nc - (i + 1)) (i + 1) (2 * i + 2) rfl (by omega)
    (by omega) (by intro k h1 h2; omega) ⟨i, le_refl _, by omega, rfl⟩ (by
      intro m h1 h2
      obtain rfl : m = i := by omega
      exact ⟨le_refl _, fun h => absurd h (lt_irrefl _)⟩)
  have hll : l ≤ 2 * i := by
    obtain ⟨j, h1, rfl, -⟩ := hl2.1; omega
  have hrr : 2 * i + 2 ≤ r := by
    obtain ⟨j, h1, -, rfl, -⟩ := hr2.1; omega
  have hri : y r ≤ y (2 * i + 2) :=
    (hr2.2 _ ⟨i, le_refl _, hi, rfl, by intro k h1 h2; omega⟩).1
  by_cases hR : Returns y nc i ∧ y l < y r
  · refine ⟨r, ⟨l, r, hl2, hr2, Or.inl ⟨hR.1, hR.2, rfl⟩⟩, ?_⟩
    have hb : b = true := hr3.2 hR.1
    unfold emit
    simp only [hl1, hr1, hb]
    rw [if_neg (by linarith [hR.2]), if_neg (by linarith [hR.2]), cycleOf_right i r hrr]
  · refine ⟨l, ⟨l, r, hl2, hr2, Or.inr ⟨hR, rfl⟩⟩, ?_⟩
    unfold emit
    simp only [hl1, hr1]
    rw [cycleOf_left i l hll]
    by_cases h1 : y (2 * i + 2) ≤ y l
    · rw [if_pos h1]
    · rw [if_neg h1]
      rcases b with _ | _
      · rfl
      · have : y r ≤ y l := by
          by_contra h2
          exact hR ⟨hr3.1 rfl, not_le.1 h2⟩
        simp only [this, ↓reduceIte]

/-- The rainflow minimum of a maximum is unique. -/
theorem lowest_unique (y : ℕ → α) (P : ℕ → Prop) (s t : ℕ) (hs : Lowest y P s) (ht : Lowest y P t) :
    s = t := by
  rcases lt_trichotomy s t with h | h | h
  · exact absurd ((hs.2 t ht.1).2 h) (not_lt.2 (ht.2 s hs.1).1)
  · exact h
  · exact absurd ((ht.2 s hs.1).2 h) (not_lt.2 (hs.2 t ht.1).1)

/-- No minimum belongs to two maxima. -/
theorem rainflowMin_inj (y : ℕ → α) (nc i1 i2 t : ℕ) (h12 : i1 < i2) (h2n : i2 < nc)
    (h1 : RainflowMin y nc i1 t) (h2 : RainflowMin y nc i2 t) : False := by
  obtain ⟨l1, r1, hl1, hr1, hc1⟩ := h1
  obtain ⟨l2, r2, hl2, hr2, hc2⟩ := h2
  obtain ⟨⟨jl1, a1, a2, a3⟩, a4⟩ := hl1
  obtain ⟨⟨jr1, b1, b2, b3, b4⟩, b5⟩ := hr1
  obtain ⟨⟨jl2, c1, c2, c3⟩, c4⟩ := hl2
  obtain ⟨⟨jr2, d1, d2, d3, d4⟩, d5⟩ := hr2
  rcases hc1 with ⟨e1, e2, e3⟩ | ⟨e1, e3⟩
  · rcases hc2 with ⟨f1, f2, f3⟩ | ⟨f1, f3⟩
    · -- both use the right excursion
      have hM : y (2 * i2 + 1) < y (2 * i1 + 1) := b4 i2 h12 (by omega)
      have hl : i1 < jl2 := by
        by_contra hle
        have := c3 i1 (by omega) h12
        linarith
      have := (b5 l2 ⟨jl2 - 1, by omega, by omega, by omega, fun k h1 h2 => b4 k h1 (by omega)⟩).1
      rw [← e3, f3] at this
      linarith
    · -- right of the first, left of the second
      have hj : jl2 = jr1 + 1 := by omega
      rcases le_or_gt (y (2 * i1 + 1)) (y (2 * i2 + 1)) with hM | hM
      · have hreach : LeftReach y i2 l1 := by
          refine ⟨jl1, by omega, a2, ?_⟩
          intro k h1 h2
          rcases lt_trichotomy k i1 with h | h | h
          · exact le_trans (a3 k h1 h) hM
          · rw [h]; exact hM
          · rcases Nat.lt_or_ge jr1 k with h' | h'
            · exact c3 k (by omega) h2
            · exact le_trans (b4 k h h').le hM
        have := (c4 l1 hreach).1
        rw [← f3, e3] at this
        linarith
      · obtain ⟨k, k1, k2, k3⟩ := e1
        have hk : i2 < k := by
          by_contra hle
          rcases Nat.lt_or_ge jr1 k with h' | h'
          · rcases Nat.eq_or_lt_of_le (not_lt.1 hle) with h | h
            · rw [h] at k3; linarith
            · have := c3 k (by omega) h; linarith
          · have := b4 k k1 h'; linarith
        have hret2 : Returns y nc i2 := ⟨k, hk, k2, by linarith⟩
        have hr2l2 : y r2 ≤ y l2 := by
          by_contra h; exact f1 ⟨hret2, not_le.1 h⟩
        have hjr2 : jr2 < k := by
          by_contra h
          have := d4 k hk (by omega)
          linarith
        have hreach : RightReach y nc i1 r2 := by
          refine ⟨jr2, by omega, d2, d3, ?_⟩
          intro m m1 m2
          rcases lt_trichotomy m i2 with h | h | h
          · rcases Nat.lt_or_ge jr1 m with h' | h'
            · exact lt_of_le_of_lt (c3 m (by omega) h) hM
            · exact b4 m m1 h'
          · rw [h]; exact hM
          · exact lt_trans (d4 m h m2) hM
        have := (b5 r2 hreach).2 (by omega)
        rw [← e3, f3] at this
        linarith
  · rcases hc2 with ⟨f1, f2, f3⟩ | ⟨f1, f3⟩
    · omega
    · -- both use the left excursion
      have hj : jl1 = jl2 := by omega
      have hM : y (2 * i1 + 1) ≤ y (2 * i2 + 1) := c3 i1 (by omega) h12
      have hret : Returns y nc i1 := ⟨i2, h12, h2n, hM⟩
      have hr : y r1 ≤ y l1 := by
        by_contra h; exact e1 ⟨hret, not_le.1 h⟩
      have hjr : jr1 < i2 := by
        by_contra h
        have := b4 i2 h12 (by omega)
        linarith
      have hreach : LeftReach y i2 r1 := by
        refine ⟨jr1 + 1, by omega, by omega, ?_⟩
        intro k k1 k2
        exact c3 k (by omega) k2
      have := (c4 r1 hreach).2 (by omega)
      rw [← f3, e3] at this
      linarith

theorem back_congr (y y' : ℕ → α) (M : α) (j : ℕ) : ∀ acc, (∀ k, k < 2 * j → y k = y' k) →
    back y M j acc = back y' M j acc := by
  induction j with
  | zero => intro acc _; rfl
  | succ j ih =>
    intro acc h
    rw [back, back, h (2 * j + 1) (by omega), h (2 * j) (by omega)]
    simp only [ih _ (fun k hk => h k (by omega))]

theorem fwd_congr (y y' : ℕ → α) (M : α) (nc fuel : ℕ) : ∀ j acc, j + fuel ≤ nc →
    (∀ k, k ≤ 2 * nc → y k = y' k) → fwd y M fuel j acc = fwd y' M fuel j acc := by
  induction fuel with
  | zero => intro j acc _ _; rfl
  | succ fuel ih =>
    intro j acc hj h
    rw [fwd, fwd, h (2 * j + 1) (by omega), h (2 * j + 2) (by omega)]
    simp only [ih _ _ (show j + 1 + fuel ≤ nc by omega) h]

theorem emit_congr (y y' : ℕ → α) (nc : ℕ) (h : α) (i : ℕ) (hi : i < nc)
    (hy : ∀ k, k ≤ 2 * nc → y k = y' k) : emit y nc h i = emit y' nc h i := by
  have hb : ∀ M acc, back y M i acc = back y' M i acc :=
    fun M acc => back_congr y y' M i acc (fun k hk => hy k (by omega))
  have hf : ∀ M acc, fwd y M (nc - (i + 1)) (i + 1) acc = fwd y' M (nc - (i + 1)) (i + 1) acc :=
    fun M acc => fwd_congr y y' M nc (nc - (i + 1)) (i + 1) acc (by omega) hy
  unfold emit
  simp only [hb, hf, hy (2 * i + 1) (by omega), hy (2 * i + 2) (by omega), hy (2 * i) (by omega)]

theorem fwd_congr_lt (y y' : ℕ → α) (M : α) (nc fuel : ℕ) : ∀ j acc acc', j + fuel = nc →
    (∀ k, k < 2 * nc → y k = y' k) → (fuel = 0 ∨ acc = acc') →
    (fwd y M fuel j acc = fwd y' M fuel j acc' ∨
      ((fwd y M fuel j acc).1 = false ∧ (fwd y' M fuel j acc').1 = false)) := by
  induction fuel with
  | zero => intro j acc acc' _ _ _; right; exact ⟨rfl, rfl⟩
  | succ fuel ih =>
    intro j acc acc' hj hy hacc
    have hacc' : acc = acc' := hacc.resolve_left (by omega)
    subst hacc'
    rw [fwd, fwd, hy (2 * j + 1) (by omega)]
    by_cases hc : M ≤ y' (2 * j + 1)
    · left; rw [if_pos hc, if_pos hc]
    · rw [if_neg hc, if_neg hc]
      apply ih (j + 1) _ _ (by omega) hy
      rcases Nat.eq_zero_or_pos fuel with h | h
      · left; exact h
      · right; rw [hy (2 * j + 2) (by omega)]

theorem emit_congr_lt (y y' : ℕ → α) (nc : ℕ) (h : α) (i : ℕ) (hi : i < nc)
    (hy : ∀ k, k < 2 * nc → y k = y' k) : emit y nc h i = emit y' nc h i := by
  have hb : ∀ M acc, back y M i acc = back y' M i acc :=
    fun M acc => back_congr y y' M i acc (fun k hk => hy k (by omega))
  unfold emit
  simp only [hb, hy (2 * i + 1) (by omega), hy (2 * i) (by omega)]
  rcases Nat.eq_or_lt_of_le (Nat.succ_le_of_lt hi) with hlast | hlt
  · have h0 : nc - (i + 1) = 0 := by omega
    rw [h0]
    simp only [fwd]
    split_ifs <;> rfl
  · have h2 := fwd_congr_lt y y' (y' (2 * i + 1)) nc (nc - (i + 1)) (i + 1) (y' (2 * i + 2), 2 * i + 2)
      (y' (2 * i + 2), 2 * i + 2) (by omega) hy (Or.inr rfl)
    rw [hy (2 * i + 2) (by omega)]
    rcases h2 with h2 | ⟨h2, h3⟩
    · rw [h2]
    · rcases hf : fwd y (y' (2 * i + 1)) (nc - (i + 1)) (i + 1) (y' (2 * i + 2), 2 * i + 2)
        with ⟨b, x, t⟩
      rcases hf' : fwd y' (y' (2 * i + 1)) (nc - (i + 1)) (i + 1) (y' (2 * i + 2), 2 * i + 2)
        with ⟨b', x', t'⟩
      rw [hf] at h2
      rw [hf'] at h3
      simp only at h2 h3
      subst h2 h3
      rfl

theorem rd_ok (y : List α) (f : ℕ → α) (n : ℕ) (hf : ∀ k, k < n → y[k]? = some (f k)) (k : ℕ)
    (hk : k < n) : rd y k = .ok (f k) := by
  simp [rd, hf k hk]

theorem backC_ok (y : List α) (f : ℕ → α) (n : ℕ) (hf : ∀ k, k < n → y[k]? = some (f k)) (M : α)
    (j : ℕ) : ∀ acc, 2 * j ≤ n → backC y M j acc = .ok (back f M j acc) := by
  induction j with
  | zero => intro acc _; rfl
  | succ j ih =>
    intro acc hj
    rw [backC, back, rd_ok y f n hf _ (by omega)]
    by_cases hc : f (2 * j + 1) ≤ M
    · rw [if_pos hc]
      simp only [bind, Except.bind, hc, ↓reduceIte]
      rw [rd_ok y f n hf _ (by omega)]
      exact ih _ (by omega)
    · rw [if_neg hc]
      simp only [bind, Except.bind, hc, ↓reduceIte]

theorem fwdC_ok (y : List α) (f : ℕ → α) (n : ℕ) (hf : ∀ k, k < n → y[k]? = some (f k)) (M : α)
    (fuel : ℕ) : ∀ j acc, 2 * (j + fuel) < n →
    fwdC y M fuel j acc = .ok (fwd f M fuel j acc) := by
  induction fuel with
  | zero => intro j acc _; rfl
  | succ fuel ih =>
    intro j acc hj
    rw [fwdC, fwd, rd_ok y f n hf _ (by omega)]
    by_cases hc : M ≤ f (2 * j + 1)
    · rw [if_pos hc]
      simp only [bind, Except.bind, hc, ↓reduceIte]
    · rw [if_neg hc]
      simp only [bind, Except.bind, hc, ↓reduceIte]
      rw [rd_ok y f n hf _ (by omega)]
      exact ih _ _ (by omega)

theorem emitC_ok (y : List α) (f : ℕ → α) (n nc : ℕ) (hf : ∀ k, k < n → y[k]? = some (f k))
    (hn : 2 * nc < n) (h : α) (i : ℕ) (hi : i < nc) : emitC y nc h i = .ok (emit f nc h i) := by
  unfold emitC emit
  rw [rd_ok y f n hf _ (by omega), rd_ok y f n hf _ (by omega), rd_ok y f n hf _ (by omega)]
  simp only [bind, Except.bind]
  rw [backC_ok y f n hf _ i _ (by omega)]
  rcases back f (f (2 * i + 1)) i (f (2 * i), 2 * i) with ⟨xm, tm⟩
  simp only
  by_cases hc : f (2 * i + 2) ≤ xm
  · rw [if_pos hc, if_pos hc]
  · rw [if_neg hc, if_neg hc, fwdC_ok y f n hf _ _ _ _ (by omega)]
    rcases fwd f (f (2 * i + 1)) (nc - (i + 1)) (i + 1) (f (2 * i + 2), 2 * i + 2) with ⟨b, x, t⟩
    cases b <;> rfl

theorem emitAllC_ok (y : List α) (f : ℕ → α) (n nc : ℕ) (hf : ∀ k, k < n → y[k]? = some (f k))
    (hn : 2 * nc < n) (h : α) (l : List ℕ) (hl : ∀ i ∈ l, i < nc) :
    emitAllC y nc h l = .ok (l.flatMap (emit f nc h)) := by
  induction l with
  | nil => rfl
  | cons i l ih =>
    rw [emitAllC, emitC_ok y f n nc hf hn h i (hl i (by simp)), ih (fun j hj => hl j (by simp [hj]))]
    rfl

/-- Every failure of the checked model is a stray read. -/
def OnlyOob {β : Type} (e : Except PyErr β) : Prop := ∀ x, e = .error x → x = .oobRead

theorem rd_oob (y : List α) (k : ℕ) : OnlyOob (rd y k) := by
  intro x hx
  unfold rd at hx
  rcases h : y[k]? with _ | a
  · simp [h] at hx; exact hx.symm
  · simp [h] at hx

theorem OnlyOob.bind {β γ : Type} {e : Except PyErr β} {f : β → Except PyErr γ} (he : OnlyOob e)
    (hf : ∀ b, OnlyOob (f b)) : OnlyOob (e >>= f) := by
  intro x hx
  rcases e with e | b
  · apply he; simpa [Bind.bind, Except.bind] using hx
  · exact hf b x hx

theorem OnlyOob.ok {β : Type} (b : β) : OnlyOob (Except.ok b : Except PyErr β) := by
  intro x hx; simp at hx

theorem backC_oob (y : List α) (M : α) (j : ℕ) : ∀ acc, OnlyOob (backC y M j acc) := by
  induction j with
  | zero => intro acc; exact OnlyOob.ok _
  | succ j ih =>
    intro acc
    rw [backC]
    refine (rd_oob y _).bind (fun a => ?_)
    split
    · exact (rd_oob y _).bind (fun b => ih _)
    · exact OnlyOob.ok _

theorem fwdC_oob (y : List α) (M : α) (fuel : ℕ) : ∀ j acc, OnlyOob (fwdC y M fuel j acc) := by
  induction fuel with
  | zero => intro j acc; exact OnlyOob.ok _
  | succ fuel ih =>
    intro j acc
    rw [fwdC]
    refine (rd_oob y _).bind (fun a => ?_)
    split
    · exact OnlyOob.ok _
    · exact (rd_oob y _).bind (fun b => ih _ _)

theorem emitC_oob (y : List α) (nc : ℕ) (h : α) (i : ℕ) : OnlyOob (emitC y nc h i) := by
  unfold emitC
  refine (rd_oob y _).bind (fun a => (rd_oob y _).bind (fun b => (rd_oob y _).bind (fun c =>
    (backC_oob y _ _ _).bind (fun d => ?_))))
  rcases d with ⟨d1, d2⟩
  simp only
  split
  · exact OnlyOob.ok _
  · refine (fwdC_oob y _ _ _ _).bind (fun e => ?_)
    rcases e with ⟨b, x, t⟩
    cases b <;> exact OnlyOob.ok _

theorem emitAllC_error (y : List α) (nc : ℕ) (h : α) (i : ℕ) (he : emitC y nc h i = .error .oobRead)
    (l : List ℕ) (hl : i ∈ l) : emitAllC y nc h l = .error .oobRead := by
  induction l with
  | nil => simp at hl
  | cons j l ih =>
    rw [emitAllC]
    rcases hj : emitC y nc h j with x | a
    · rw [emitC_oob y nc h j x hj]; rfl
    · have hne : i ≠ j := by rintro rfl; rw [hj] at he; simp at he
      rw [ih ((List.mem_cons.1 hl).resolve_left hne)]
      rfl

theorem memory_get (y : List α) (oob : ℕ → α) (k : ℕ) (hk : k < y.length) :
    y[k]? = some (memory y oob k) := by
  simp [memory, List.getD, List.getElem?_eq_getElem hk]

end Wafo.RfcCount
