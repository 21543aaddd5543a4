import Verif.RfcFilter.Lemmas2
import Mathlib.Data.Rat.Defs
import Mathlib.Algebra.Order.Field.Rat
import Mathlib.Tactic.NormNum

/-!
Property theorems for the rainflow filter (C12 - C16).
`strict = false` is method 0 (cycles of height at least `h` are kept), `strict = true` is method 1
(cycles higher than `h` are kept); see `High`.
-/

set_option linter.unusedSectionVars false

namespace Wafo.RfcFilter

variable {α : Type*} [Field α] [LinearOrder α] [IsStrictOrderedRing α]

/-! ### C12 -/

theorem step_dir_range (strict : Bool) (h : α) (n : ℕ) (st : St α) (ti : ℕ) (yi : α)
    (hz : st.z0 = 0 ∨ st.z0 = 1 ∨ st.z0 = -1) :
    step strict h n st ti yi ≠ .error .valueError ∧
    ∀ st', step strict h n st ti yi = .ok st' → (st'.z0 = 0 ∨ st'.z0 = 1 ∨ st'.z0 = -1) := by
  rcases hz with hz | hz
  · rw [step_zero _ _ _ _ _ _ hz]
    split_ifs <;> simp
  · have hs : ∃ s : α, (s = 1 ∧ st.z0 = 1) ∨ (s = -1 ∧ st.z0 = -1) := by
      rcases hz with hz | hz
      · exact ⟨1, Or.inl ⟨rfl, hz⟩⟩
      · exact ⟨-1, Or.inr ⟨rfl, hz⟩⟩
    obtain ⟨s, hs⟩ := hs
    rw [step_dir _ _ _ _ _ _ s hs]
    split_ifs <;> simp <;> omega

theorem loop_no_valueError (strict : Bool) (h : α) (n : ℕ) (l : List α) : ∀ (st : St α) (ti : ℕ),
    (st.z0 = 0 ∨ st.z0 = 1 ∨ st.z0 = -1) → loop strict h n st ti l ≠ .error .valueError := by
  induction l with
  | nil => intro st ti _; simp [loop]
  | cons a l ih =>
    intro st ti hz
    obtain ⟨h1, h2⟩ := step_dir_range strict h n st ti a hz
    rw [loop]
    rcases hs : step strict h n st ti a with e | st'
    · intro h3; rw [hs] at h1; simp only [Except.error.injEq] at h3; exact h1 (by rw [h3])
    · exact ih st' _ (h2 st' hs)

/-- C12: whatever the signal and the threshold (even negative), the "something wrong" ValueError of
the filter is never raised. -/
theorem C12_no_valueError (strict : Bool) (h : α) (y : List α) :
    rfc strict h y ≠ .error .valueError := by
  rcases y with _ | ⟨y0, ys⟩
  · simp [rfc]
  · rw [rfc]
    have := loop_no_valueError strict h (y0 :: ys).length ys ⟨0, y0, 0, [0]⟩ 1 (Or.inl rfl)
    rcases hl : loop strict h (y0 :: ys).length ⟨0, y0, 0, [0]⟩ 1 ys with e | st
    · intro h3; rw [hl] at this
      simp only [Except.error.injEq] at h3
      exact this (by rw [h3])
    · simp only [finish]
      rcases st.out with _ | ⟨e, r⟩
      · simp
      · simp only
        rcases (y0 :: ys)[e]? with _ | v
        · simp
        · simp only; split_ifs <;> simp

example : rfc false (-3) ([0, 1, -1] : List ℚ) = .ok [0, 1, 2] := by decide +kernel

/-! ### C13 -/

/-- The thresholds for which the filter is meant: positive, or zero for method 1 and a signal that is
not constant. -/
def Sensible (strict : Bool) (h : α) (y : List α) : Prop :=
  0 < h ∨ (strict = true ∧ h = 0 ∧ ∃ a ∈ y, ∃ b ∈ y, a ≠ b)

theorem Sensible.adm {strict : Bool} {h : α} {y : List α} (H : Sensible strict h y) :
    Adm strict h := by
  rcases H with h1 | ⟨h1, h2, -⟩
  · exact Or.inl h1
  · exact Or.inr ⟨h1, h2.ge⟩

theorem Sensible.const {strict : Bool} {h : α} {y : List α} (H : Sensible strict h y) (h0 : h = 0) :
    ¬ Constant y := by
  rcases H with h1 | ⟨h1, h2, a, ha, b, hb, hab⟩
  · exact absurd h0 h1.ne'
  · intro hc
    obtain ⟨i, hi⟩ := List.getElem?_of_mem ha
    obtain ⟨j, hj⟩ := List.getElem?_of_mem hb
    exact hab (hc i j a b hi hj)

/-- C13: the filter returns a strictly increasing list of indices into the signal that starts with 0;
in particular it does not write beyond its result buffer. -/
theorem C13_increasing (strict : Bool) (h : α) (y : List α) (hy : y ≠ [])
    (H : Sensible strict h y) :
    ∃ l, rfc strict h y = .ok l ∧ l[0]? = some 0 ∧ l.Pairwise (· < ·) ∧ (∀ k ∈ l, k < y.length) ∧
      l.length ≤ y.length := by
  obtain ⟨out, h1, s, hs, hk, hlt, -⟩ := rfc_result strict h H.adm y hy H.const (sig y) (sig_of y)
  obtain ⟨h2, h3⟩ := kept_pairwise _ _ _ _ _ hk
  refine ⟨_, h1, ?_, ?_, ?_, ?_⟩
  · rw [← List.head?_eq_getElem?, List.head?_reverse, h3]
  · rw [List.pairwise_reverse]; exact h2
  · intro k hk'; exact hlt k (List.mem_reverse.1 hk')
  · rw [List.length_reverse]; exact length_le_of_pairwise _ h2 _ hlt

/-- The same for the values: `rfcfilter` succeeds. -/
theorem C13_rfcfilter_ok (strict : Bool) (h : α) (y : List α) (hy : y ≠ [])
    (H : Sensible strict h y) : ∃ z, rfcfilter strict h y = .ok z ∧ z ≠ [] ∧ z[0]? = y[0]? := by
  obtain ⟨l, h1, h2, -, h4, -⟩ := C13_increasing strict h y hy H
  obtain ⟨z, hz⟩ := takeIdx_ok y l h4
  obtain ⟨h5, h6⟩ := takeIdx_get y l z hz
  have hl : 0 < l.length := (List.getElem?_eq_some_iff.1 h2).1
  have hzl : 0 < z.length := by omega
  refine ⟨z, by simp [rfcfilter, h1, hz], ?_, ?_⟩
  · rintro rfl; simp at hzl
  · obtain ⟨i, hi, hi'⟩ := h6 0 _ (List.getElem?_eq_getElem hzl)
    rw [h2] at hi; cases hi
    rw [hi', List.getElem?_eq_getElem hzl]

example : Sensible false (1 : ℚ) [0, 3, 1, 4] ∧
    rfc false 1 ([0, 3, 1, 4, 3 + 1/2, 0] : List ℚ) = .ok [0, 1, 2, 3, 5] :=
  ⟨Or.inl (by norm_num), by decide +kernel⟩

/-- Outside the sensible thresholds the buffer can overflow: method 1, `h = 0`, one sample. -/
theorem C13_overflow_at_zero : rfc true (0 : ℚ) [5] = .error .oobWrite := by decide +kernel

/-- Method 1 with `h = 0` on a constant signal repeats index 0. -/
theorem C13_constant_repeats : rfc true (0 : ℚ) [5, 5] = .ok [0, 0] := by decide +kernel

/-! ### C14 -/

theorem rev_get {β : Type*} (l : List β) (i : ℕ) (a : β) (h : l.reverse[i]? = some a) :
    i < l.length ∧ l[l.length - 1 - i]? = some a := by
  have hi := (List.getElem?_eq_some_iff.1 h).1
  rw [List.length_reverse] at hi
  exact ⟨hi, by rw [← List.getElem?_reverse hi]; exact h⟩

theorem adj_of_rfc (strict : Bool) (h : α) (y : List α) (hy : y ≠ []) (H : Sensible strict h y)
    (l : List ℕ) (hl : rfc strict h y = .ok l) :
    ∀ (i p q : ℕ), l[i]? = some p → l[i + 1]? = some q →
    ∃ s : α, (s = 1 ∨ s = -1) ∧ p < q ∧ q < y.length ∧
      cmp1 strict (s * sig y p + h) (s * sig y q) = true ∧
      (1 ≤ i → Good strict h (sig y) s p q) ∧
      (i = 0 → ∀ k, k ≤ q → s * sig y k ≤ s * sig y q ∧ s * sig y 0 - h ≤ s * sig y k) ∧
      (∀ o, 1 ≤ i → l[i - 1]? = some o → cmp1 strict (-s * sig y o + h) (-s * sig y p) = true) := by
  obtain ⟨out, h1, s, hs, hk, hlt, -⟩ := rfc_result strict h H.adm y hy H.const (sig y) (sig_of y)
  rw [h1] at hl
  cases hl
  intro i p q hp hq
  obtain ⟨a1, a2⟩ := rev_get _ _ _ hp
  obtain ⟨b1, b2⟩ := rev_get _ _ _ hq
  obtain ⟨s', g1, g2, g3, g4, g5, g6⟩ := kept_adj _ _ _ _ s hs hk (out.length - 1 - (i + 1)) q p b2
    (by rw [show out.length - 1 - (i + 1) + 1 = out.length - 1 - i by omega]; exact a2)
  refine ⟨s', g1, g2, hlt q (List.mem_of_getElem? b2), g3, ?_, ?_, ?_⟩
  · intro hi; exact g4 (by omega)
  · intro hi; exact (g5 (by omega)).2
  · intro o hi ho
    obtain ⟨c1, c2⟩ := rev_get _ _ _ ho
    refine g6 o ?_
    rw [show out.length - 1 - (i + 1) + 2 = out.length - 1 - (i - 1) by omega]; exact c2

theorem adj_values (strict : Bool) (h : α) (y z : List α) (hz : rfcfilter strict h y = .ok z) :
    ∃ l, rfc strict h y = .ok l ∧ z.length = l.length ∧
      ∀ (k : ℕ) a, z[k]? = some a → ∃ i, l[k]? = some i ∧ sig y i = a := by
  unfold rfcfilter at hz
  rcases hl : rfc strict h y with e | l
  · simp [hl] at hz
  · simp only [hl] at hz
    obtain ⟨h1, h2⟩ := takeIdx_get y l z hz
    refine ⟨l, rfl, h1, ?_⟩
    intro k a hk
    obtain ⟨i, hi, hi'⟩ := h2 k a hk
    exact ⟨i, hi, sig_of y i a hi'⟩

/-- C14: consecutive values kept by the filter differ by at least `h` (method 0), respectively by more
than `h` (method 1). -/
theorem C14_heights (strict : Bool) (h : α) (y z : List α) (hy : y ≠ []) (H : Sensible strict h y)
    (hz : rfcfilter strict h y = .ok z) :
    ∀ (i : ℕ) a b, z[i]? = some a → z[i + 1]? = some b → High strict h |b - a| := by
  obtain ⟨l, hl, -, hv⟩ := adj_values strict h y z hz
  intro i a b ha hb
  obtain ⟨p, hp, rfl⟩ := hv i a ha
  obtain ⟨q, hq, rfl⟩ := hv (i + 1) b hb
  obtain ⟨s, hs, -, -, hc, -⟩ := adj_of_rfc strict h y hy H l hl i p q hp hq
  have h1 := cmp1_high strict h _ _ hc
  have h2 := cmp1_true hc
  have := H.adm.nonneg
  have h3 : |sig y q - sig y p| = s * sig y q - s * sig y p := by
    rcases hs with rfl | rfl
    · rw [abs_of_nonneg (by linarith)]; ring
    · rw [abs_of_nonpos (by linarith)]; ring
  rw [h3]; exact h1

/-- C14: rises and falls alternate: every kept value with two neighbours is a strict local extreme of
the kept values. -/
theorem C14_alternate (strict : Bool) (h : α) (y z : List α) (hy : y ≠ []) (H : Sensible strict h y)
    (hz : rfcfilter strict h y = .ok z) :
    ∀ (i : ℕ) a b c, z[i]? = some a → z[i + 1]? = some b → z[i + 2]? = some c →
      (a < b ∧ c < b) ∨ (b < a ∧ b < c) := by
  obtain ⟨l, hl, -, hv⟩ := adj_values strict h y z hz
  intro i a b c ha hb hc
  obtain ⟨o, ho, rfl⟩ := hv i a ha
  obtain ⟨p, hp, rfl⟩ := hv (i + 1) b hb
  obtain ⟨q, hq, rfl⟩ := hv (i + 2) c hc
  obtain ⟨s, hs, -, -, h1, -, -, h2⟩ := adj_of_rfc strict h y hy H l hl (i + 1) p q hp hq
  have h2 := h2 o (by omega) (by simpa using ho)
  have strictly : ∀ a b : α, cmp1 strict (a + h) b = true → a < b := by
    intro a b hab
    rcases H with h3 | ⟨rfl, rfl, -⟩
    · have := cmp1_true hab; linarith
    · simpa [cmp1] using hab
  have e1 := strictly _ _ h1
  have e2 := strictly _ _ h2
  rcases hs with rfl | rfl
  · right; constructor <;> linarith
  · left; constructor <;> linarith

example : rfcfilter true 1 ([0, 3, 2, 4, 1] : List ℚ) = .ok [0, 4, 1] ∧
    rfcfilter false 1 ([0, 3, 2, 4, 1] : List ℚ) = .ok [0, 3, 2, 4, 1] := by decide +kernel

/-! ### C15 -/

/-- The values of `y` rise from index `p` to index `q` without a reversal that is high enough: all
samples lie between the two end values and no later sample lies low enough below an earlier one. -/
def RisesWithout (strict : Bool) (h : α) (y : List α) (p q : ℕ) : Prop :=
  (∀ (k : ℕ) a b c, p ≤ k → k ≤ q → y[p]? = some a → y[k]? = some b → y[q]? = some c →
    a ≤ b ∧ b ≤ c) ∧
  ∀ (i j : ℕ) a b, p ≤ i → i < j → j ≤ q → y[i]? = some a → y[j]? = some b →
    ¬ High strict h (a - b)

/-- The same for a fall. -/
def FallsWithout (strict : Bool) (h : α) (y : List α) (p q : ℕ) : Prop :=
  (∀ (k : ℕ) a b c, p ≤ k → k ≤ q → y[p]? = some a → y[k]? = some b → y[q]? = some c →
    b ≤ a ∧ c ≤ b) ∧
  ∀ (i j : ℕ) a b, p ≤ i → i < j → j ≤ q → y[i]? = some a → y[j]? = some b →
    ¬ High strict h (b - a)

theorem good_rises (strict : Bool) (h : α) (y : List α) (s : α) (hs : s = 1 ∨ s = -1) (p q : ℕ)
    (hg : Good strict h (sig y) s p q) :
    (s = 1 → RisesWithout strict h y p q) ∧ (s = -1 → FallsWithout strict h y p q) := by
  obtain ⟨g1, g2⟩ := hg
  refine ⟨?_, ?_⟩
  · rintro rfl
    refine ⟨?_, ?_⟩
    · intro k a b c hk1 hk2 ha hb hc
      have := g1 k hk1 hk2
      rw [sig_of y _ _ ha, sig_of y _ _ hb, sig_of y _ _ hc] at this
      simpa using this
    · intro i j a b hi hij hj ha hb
      have := g2 i j hi hij hj
      rw [sig_of y _ _ ha, sig_of y _ _ hb, one_mul, one_mul] at this
      exact cmp1_low strict h a b this
  · rintro rfl
    refine ⟨?_, ?_⟩
    · intro k a b c hk1 hk2 ha hb hc
      have := g1 k hk1 hk2
      rw [sig_of y _ _ ha, sig_of y _ _ hb, sig_of y _ _ hc] at this
      constructor <;> linarith [this.1, this.2]
    · intro i j a b hi hij hj ha hb
      have := g2 i j hi hij hj
      rw [sig_of y _ _ ha, sig_of y _ _ hb] at this
      have h3 := cmp1_low strict h _ _ this
      rwa [show -1 * a - -1 * b = b - a by ring] at h3

/-- C15, all stretches but the first: between two consecutive kept points after the first kept point
the signal moves in one direction without any reversal that reaches the threshold.
What is missing for the full claim is the stretch before the second kept point, where it is false, see
`C15_refuted` and `C15_first_stretch`. -/
theorem C15_no_cycle_lost_partial (strict : Bool) (h : α) (y : List α) (hy : y ≠ [])
    (H : Sensible strict h y) (l : List ℕ) (hl : rfc strict h y = .ok l) :
    ∀ (i p q : ℕ), 1 ≤ i → l[i]? = some p → l[i + 1]? = some q →
      RisesWithout strict h y p q ∨ FallsWithout strict h y p q := by
  intro i p q hi hp hq
  obtain ⟨s, hs, -, -, -, hg, -⟩ := adj_of_rfc strict h y hy H l hl i p q hp hq
  obtain ⟨h1, h2⟩ := good_rises strict h y s hs p q (hg hi)
  rcases hs with h3 | h3
  · exact Or.inl (h1 h3)
  · exact Or.inr (h2 h3)

/-- In the first stretch only this much holds: the second kept point is the extreme of all samples so
far, and no sample lies further than `h` from the first one on the other side. -/
theorem C15_first_stretch (strict : Bool) (h : α) (y : List α) (hy : y ≠ [])
    (H : Sensible strict h y) (l : List ℕ) (hl : rfc strict h y = .ok l) (q : ℕ)
    (hq : l[1]? = some q) :
    (∀ (k : ℕ) a b c, k ≤ q → y[0]? = some a → y[k]? = some b → y[q]? = some c →
      a - h ≤ b ∧ b ≤ c) ∨
    (∀ (k : ℕ) a b c, k ≤ q → y[0]? = some a → y[k]? = some b → y[q]? = some c →
      b ≤ a + h ∧ c ≤ b) := by
  have h0 : l[0]? = some 0 := by
    obtain ⟨l', h1, h2, -⟩ := C13_increasing strict h y hy H
    rw [hl] at h1; cases h1; exact h2
  obtain ⟨s, hs, -, -, -, -, hg, -⟩ := adj_of_rfc strict h y hy H l hl 0 0 q h0 hq
  rcases hs with rfl | rfl
  · left
    intro k a b c hk ha hb hc
    have := hg rfl k hk
    rw [sig_of y _ _ ha, sig_of y _ _ hb, sig_of y _ _ hc] at this
    constructor <;> linarith [this.1, this.2]
  · right
    intro k a b c hk ha hb hc
    have := hg rfl k hk
    rw [sig_of y _ _ ha, sig_of y _ _ hb, sig_of y _ _ hc] at this
    constructor <;> linarith [this.1, this.2]

/-- After the last kept point the signal stays within `h` of it. -/
theorem C15_tail (strict : Bool) (h : α) (y : List α) (hy : y ≠ []) (H : Sensible strict h y)
    (l : List ℕ) (hl : rfc strict h y = .ok l) (p : ℕ) (hp : l.getLast? = some p) :
    ∀ (k : ℕ) a b, p ≤ k → y[p]? = some a → y[k]? = some b → |b - a| ≤ h := by
  obtain ⟨out, h1, s, hs, hk, hlt, htail⟩ :=
    rfc_result strict h H.adm y hy H.const (sig y) (sig_of y)
  have hnn := H.adm.nonneg
  rw [h1] at hl
  cases hl
  rw [List.getLast?_reverse] at hp
  intro k a b hpk ha hb
  have hkl := (List.getElem?_eq_some_iff.1 hb).1
  have ha' := sig_of y _ _ ha
  have hb' := sig_of y _ _ hb
  rcases htail with ⟨rfl, ht⟩ | ⟨e, r, rfl, -, -, ht⟩ | ⟨-, e, r, t, rfl, het, htl, htie, ht⟩
  · simp at hp; subst hp
    rcases Nat.eq_zero_or_pos k with rfl | hkp
    · rw [ha] at hb; cases hb; simpa using hnn
    · obtain ⟨e1, e2⟩ := ht k hkp hkl
      have e1 := cmp1_false e1
      have e2 := cmp1_false e2
      rw [ha', hb'] at *
      rw [abs_le]; constructor <;> linarith
  · simp at hp; subst hp
    obtain ⟨e1, e2⟩ := ht k hpk hkl
    have e2 := cmp1_false e2
    rw [ha', hb'] at *
    rw [abs_le]
    rcases hs with rfl | rfl <;> constructor <;> linarith
  · simp at hp; subst hp
    obtain ⟨e1, e2⟩ := ht k hpk hkl
    rw [ha'] at e1 htie
    rw [hb'] at e1 e2
    rw [abs_le]
    rcases hs with rfl | rfl <;> constructor <;> linarith

example : rfc false 1 ([0, 3, 2 + 1/2, 4, 1, 1 + 1/2] : List ℚ) = .ok [0, 3, 4] := by decide +kernel

/-- The full claim is false in the first stretch: the signal falls by 1.8 but with `h = 1` only the
first sample is kept. -/
theorem C15_refuted :
    rfc false (1 : ℚ) [0, 9 / 10, -9 / 10] = .ok [0] ∧ High false (1 : ℚ) (9 / 10 - -9 / 10) :=
  ⟨by decide +kernel, by norm_num [High]⟩

/-! ### C16 -/

/-- A zigzag signal whose swings are all high enough (and, for the last one, higher than `h`) passes
the filter unchanged. -/
theorem C16_zigzag_unchanged (strict : Bool) (h : α) (hn0 : 0 ≤ h) (z : List α) (hz : z ≠ [])
    (hpos : z.length = 1 → strict = true → 0 < h)
    (hsw : ∀ (i : ℕ) a b, z[i]? = some a → z[i + 1]? = some b → High strict h |b - a|)
    (hlast : ∀ a b, 2 ≤ z.length → z[z.length - 2]? = some a → z[z.length - 1]? = some b →
      h < |b - a|)
    (halt : ∀ (i : ℕ) a b c, z[i]? = some a → z[i + 1]? = some b → z[i + 2]? = some c →
      (a < b ∧ c < b) ∨ (b < a ∧ b < c)) :
    rfcfilter strict h z = .ok z := by
  unfold rfcfilter
  rw [rfc_zigzag strict h hn0 z hz hpos hsw hlast halt]
  exact takeIdx_range z

example : rfcfilter false (0 : ℚ) [0, 2, 1, 3] = .ok [0, 2, 1, 3] := by decide +kernel

/-- C16, method 1: filtering the filtered signal again with the same threshold changes nothing. -/
theorem C16_idempotent_method1 (h : α) (y z : List α) (hy : y ≠ []) (H : Sensible true h y)
    (hz : rfcfilter true h y = .ok z) : rfcfilter true h z = .ok z := by
  have hn0 := H.adm.nonneg
  obtain ⟨z', h1, h2, -⟩ := C13_rfcfilter_ok true h y hy H
  rw [hz] at h1; cases h1
  have hsw := C14_heights true h y z hy H hz
  refine C16_zigzag_unchanged true h hn0 z h2 ?_ hsw ?_ (C14_alternate true h y z hy H hz)
  · intro hlen _
    rcases lt_or_eq_of_le hn0 with h3 | h3
    · exact h3
    · exfalso
      -- with h = 0 a single kept point means a constant signal
      obtain ⟨l, hl, hzl, -⟩ := adj_values true h y z hz
      have hl0 : l[0]? = some 0 := by
        obtain ⟨l', h1, h2, -⟩ := C13_increasing true h y hy H
        rw [hl] at h1; cases h1; exact h2
      have hlast : l.getLast? = some 0 := by
        rw [List.getLast?_eq_getElem?, ← hzl, hlen]; exact hl0
      have ht := C15_tail true h y hy H l hl 0 hlast
      refine H.const h3.symm ?_
      have hy0 : 0 < y.length := List.length_pos_iff.2 hy
      have hall : ∀ (i : ℕ) a, y[i]? = some a → a = y[0] := by
        intro i a ha
        have := ht i y[0] a (Nat.zero_le _) (List.getElem?_eq_getElem hy0) ha
        rw [← h3] at this
        have := abs_nonpos_iff.1 this
        linarith
      intro i j a b ha hb
      rw [hall i a ha, hall j b hb]
  · intro a b hl ha hb
    have := hsw (z.length - 2) a b ha (by rw [show z.length - 2 + 1 = z.length - 1 by omega]; exact hb)
    simpa [High] using this

example : ∃ z, rfcfilter true (1 : ℚ) [0, 3, 2, 4, 1] = .ok z ∧ z ≠ [0, 3, 2, 4, 1] ∧
    rfcfilter true 1 z = .ok z := ⟨[0, 4, 1], by decide +kernel⟩

/-- C16, method 0: idempotent unless the last two kept values differ by exactly `h`.  Without that
exclusion the claim is false, see `C16_refuted`. -/
theorem C16_idempotent_method0_partial (h : α) (y z : List α) (hy : y ≠ [])
    (hh : 0 < h) (hz : rfcfilter false h y = .ok z)
    (hlast : ∀ a b, 2 ≤ z.length → z[z.length - 2]? = some a → z[z.length - 1]? = some b →
      |b - a| ≠ h) : rfcfilter false h z = .ok z := by
  have H : Sensible false h y := Or.inl hh
  obtain ⟨z', h1, h2, -⟩ := C13_rfcfilter_ok false h y hy H
  rw [hz] at h1; cases h1
  have hsw := C14_heights false h y z hy H hz
  refine C16_zigzag_unchanged false h hh.le z h2 (by simp) hsw ?_ (C14_alternate false h y z hy H hz)
  intro a b hl ha hb
  have := hsw (z.length - 2) a b ha (by rw [show z.length - 2 + 1 = z.length - 1 by omega]; exact hb)
  simp only [High, Bool.false_eq_true, ↓reduceIte] at this
  exact lt_of_le_of_ne this (Ne.symm (hlast a b hl ha hb))

/-- Method 0 is not idempotent: a final swing of exactly `h` survives the first pass only. -/
theorem C16_refuted : rfcfilter false (1 : ℚ) [0, 1, 0] = .ok [0, 1] ∧
    rfcfilter false (1 : ℚ) [0, 1] = .ok [0] := by decide +kernel

end Wafo.RfcFilter
