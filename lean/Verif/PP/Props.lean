import Verif.PP.Lemmas
import Mathlib.Data.Rat.Floor
import Mathlib.Tactic.NormNum
import Mathlib.Tactic.Linarith

set_option linter.unusedSectionVars false

/-! Evaluation of piecewise polynomials (C67). -/

namespace Wafo.PP
open Wafo.Poly

variable {α : Type*} [Field α] [LinearOrder α] [IsStrictOrderedRing α]

theorem inside_make {k : ℕ} {c : List (List α)} {b : List α} {f : α} {pp : PPform α} (h : make k c b f = .ok pp)
    (hb : 0 < b.length) (x : α) : inside pp x = true ↔ b[0] ≤ x ∧ x ≤ b[b.length - 1] := by
  have hne : b ≠ [] := List.length_pos_iff.1 hb
  rw [make_ok k c b f hne] at h
  injection h with h
  subst h
  simp [inside, List.head_eq_getElem, List.getLast_eq_getElem]

theorem fields_make {k : ℕ} {c : List (List α)} {b : List α} {f : α} {pp : PPform α} (h : make k c b f = .ok pp) :
    pp.order = k ∧ pp.coefs = c ∧ pp.breaks = b ∧ pp.fill = f := by
  unfold make at h
  split at h
  · injection h with h; subst h; exact ⟨rfl, rfl, rfl, rfl⟩
  · simp at h

/-- **C67 (partial)**  For strictly increasing breaks and one column of coefficients per interval, evaluation never
fails; outside `[breaks[0], breaks[-1]]` it returns `fill`, at `breaks[0]` the first piece, and for
`breaks[i] < x <= breaks[i+1]` the polynomial of piece `i` in powers of `x - breaks[i]`.

Missing: the documented convention `breaks[i] <= x < breaks[i+1]`; see `C67_refuted` for points on an interior break,
and `C67_continuous` for continuous piecewise polynomials, where the two conventions agree. -/
theorem C67_call_partial (k : ℕ) (c : List (List α)) (b : List α) (f : α) (pp : PPform α)
    (hm : make k c b f = .ok pp) (hw : WF pp) (store : α → α) (x : α) (h0 : 0 < b.length) (hc0 : 0 < c.length) :
    (∃ v, call store pp x = .ok v) ∧
    ((x < b[0] ∨ b[b.length - 1] < x) → call store pp x = .ok (store f)) ∧
    (x = b[0] → call store pp x = .ok (store (peval c[0] (x - b[0])))) ∧
    ∀ i (hi : i + 1 < b.length) (hic : i < c.length), b[i] < x → x ≤ b[i + 1] →
      call store pp x = .ok (store (peval c[i] (x - b[i]))) := by
  have hin := inside_make hm h0
  obtain ⟨e1, e2, e3, e4⟩ := fields_make hm
  obtain ⟨hs, hl, hcols, hpos, hpc⟩ := hw
  subst e1 e2 e3 e4
  have hp := List.pairwise_iff_getElem.1 hs
  have hne : ∀ i (h : i < pp.coefs.length), pp.coefs[i] ≠ [] := by
    intro i h e
    have := hcols _ (List.getElem_mem h)
    rw [e] at this; simp at this; omega
  have hout : (x < pp.breaks[0] ∨ pp.breaks[pp.breaks.length - 1] < x) → call store pp x = .ok (store pp.fill) := by
    intro h
    have : ¬ inside pp x = true := by
      rw [hin]; rintro ⟨h1, h2⟩; rcases h with h | h
      · exact absurd h1 (not_le.2 h)
      · exact absurd h2 (not_le.2 h)
    unfold call; rw [if_neg this]
  have hfirst : x = pp.breaks[0] → call store pp x = .ok (store (peval pp.coefs[0] (x - pp.breaks[0]))) := by
    intro h
    refine call_piece store pp x 0 ((hin x).2 ⟨h.ge, ?_⟩) (pieceIndex_low _ hs x h0 h.le) _ _ (hne 0 hc0)
    rw [h]
    exact (hp 0 (pp.breaks.length - 1) h0 (by omega) (by omega)).le
  have hmid : ∀ i (hi : i + 1 < pp.breaks.length) (hic : i < pp.coefs.length), pp.breaks[i] < x →
      x ≤ pp.breaks[i + 1] → call store pp x = .ok (store (peval pp.coefs[i] (x - pp.breaks[i]))) := by
    intro i hi hic h1 h2
    refine call_piece store pp x i ((hin x).2 ⟨?_, ?_⟩) (pieceIndex_eq _ hs x i hi h1 h2) _ _ (hne i hic)
    · rcases Nat.eq_zero_or_pos i with rfl | h
      · exact h1.le
      · exact (lt_trans (hp 0 i h0 (by omega) h) h1).le
    · rcases Nat.lt_or_ge (i + 1) (pp.breaks.length - 1) with h | h
      · exact h2.trans (hp (i + 1) (pp.breaks.length - 1) hi (by omega) h).le
      · have : i + 1 = pp.breaks.length - 1 := by omega
        simpa [this] using h2
  refine ⟨?_, hout, hfirst, hmid⟩
  rcases lt_trichotomy x pp.breaks[0] with h | h | h
  · exact ⟨_, hout (.inl h)⟩
  · exact ⟨_, hfirst h⟩
  · rcases le_or_gt x pp.breaks[pp.breaks.length - 1] with h2 | h2
    · obtain ⟨i, hi, h3, h4⟩ := interval_exists pp.breaks x h0 h h2
      exact ⟨_, hmid i hi (by omega) h3 h4⟩
    · exact ⟨_, hout (.inr h2)⟩

/-- **C67**  When neighbouring pieces take the same value at the break between them, the value on
`breaks[i] <= x < breaks[i+1]` is the documented one. -/
theorem C67_continuous (k : ℕ) (c : List (List α)) (b : List α) (f : α) (pp : PPform α)
    (hm : make k c b f = .ok pp) (hw : WF pp) (store : α → α)
    (hcont : ∀ i (hi : i + 1 < c.length) (hb : i + 1 < b.length),
      peval c[i] (b[i + 1] - b[i]) = peval c[i + 1] 0)
    (x : α) (i : ℕ) (hi : i + 1 < b.length) (hic : i < c.length) (h1 : b[i] ≤ x) (h2 : x < b[i + 1]) :
    call store pp x = .ok (store (peval c[i] (x - b[i]))) := by
  obtain ⟨_, _, hz, hmid⟩ := C67_call_partial k c b f pp hm hw store x (by omega) (by omega)
  rcases h1.lt_or_eq with h | h
  · exact hmid i hi hic h h2.le
  · rcases Nat.eq_zero_or_pos i with rfl | hip
    · exact hz h.symm
    · obtain ⟨j, rfl⟩ : ∃ j, i = j + 1 := ⟨i - 1, by omega⟩
      have hs : b.Pairwise (· < ·) := by
        have := hw.sorted; rw [(fields_make hm).2.2.1] at this; exact this
      rw [hmid j (by omega) (by omega)
        (by rw [← h]; exact List.pairwise_iff_getElem.1 hs j (j + 1) (by omega) (by omega) (by omega)) h.symm.le]
      rw [← h, hcont j (by omega) (by omega), sub_self]

/-- The class example: linear pieces from 0 to 2 and 2 to 4. -/
example : ∃ pp, make 2 [[(2 : ℚ), 0], [2, 2]] [0, 1, 2] 0 = .ok pp ∧ WF pp ∧
    call id pp (3 / 2) = .ok 3 ∧ call id pp 1 = .ok 2 ∧ call id pp 3 = .ok 0 :=
  ⟨_, rfl, ⟨by decide +kernel, rfl, by decide +kernel, by decide +kernel, by decide⟩, by decide +kernel,
    by decide +kernel, by decide +kernel⟩

/-- **C67 refuted**  The documented convention `breaks[i] <= x < breaks[i+1]`: for the step function 1 on `[0, 1)`, 2 on
`[1, 2)`, the value at 1 is 1. -/
theorem C67_refuted : ∃ (c : List (List ℚ)) (b : List ℚ) (pp : PPform ℚ) (x : ℚ),
    make 1 c b 0 = .ok pp ∧ WF pp ∧ c = [[1], [2]] ∧ b = [0, 1, 2] ∧ x = 1 ∧ call id pp x = .ok 1 :=
  ⟨[[1], [2]], [0, 1, 2], _, 1, rfl, ⟨by decide +kernel, rfl, by decide +kernel, by decide +kernel, by decide⟩, rfl,
    rfl, rfl, by decide +kernel⟩

/-- **C67 refuted** (integer points)  The result array takes the type of the points, so at integer points the value
1/2 of `x/2` is returned as 0. -/
theorem C67_integer_refuted : ∃ pp : PPform ℚ, make 2 [[1 / 2, 0]] [0, 4] 0 = .ok pp ∧ WF pp ∧
    peval [(1 / 2 : ℚ), 0] 1 = 1 / 2 ∧ call truncInt pp 1 = .ok 0 :=
  ⟨_, rfl, ⟨by decide +kernel, rfl, by decide +kernel, by decide +kernel, by decide⟩, by decide +kernel,
    by decide +kernel⟩

end Wafo.PP
