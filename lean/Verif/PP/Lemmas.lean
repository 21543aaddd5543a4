import Verif.PP.Model
import Verif.Poly.Props
import Mathlib.Tactic.Ring
import Mathlib.Tactic.LinearCombination

set_option linter.unusedSectionVars false

namespace Wafo.PP
open Wafo.Poly

variable {α : Type*} [Field α] [LinearOrder α] [IsStrictOrderedRing α]

/-- What a user passes: strictly increasing breaks, one column of `order >= 1` coefficients per interval. -/
structure WF (pp : PPform α) : Prop where
  sorted : pp.breaks.Pairwise (· < ·)
  len : pp.breaks.length = pp.coefs.length + 1
  cols : ∀ p ∈ pp.coefs, p.length = pp.order
  pos : 1 ≤ pp.order
  pieces : pp.coefs ≠ []

theorem horner_eq (d : α) (c : α) (l : List α) : l.foldl (fun v c' => d * v + c') c = peval (c :: l) d := by
  have : ∀ (l : List α) (c : α), l.foldl (fun v c' => d * v + c') c = l.foldl (fun acc c' => acc * d + c') c := by
    intro l
    induction l with
    | nil => intro c; rfl
    | cons a l ih => intro c; simp only [List.foldl_cons]; rw [ih, mul_comm d c]
  rw [this]; simp [peval]

theorem countP_split (l : List α) (f : α → Bool) (k : ℕ) (hk : k ≤ l.length)
    (h1 : ∀ j (hj : j < l.length), j < k → f l[j] = true) (h2 : ∀ j (hj : j < l.length), k ≤ j → f l[j] = false) :
    l.countP f = k := by
  conv_lhs => rw [← List.take_append_drop k l]
  rw [List.countP_append]
  have e1 : (l.take k).countP f = k := by
    rw [List.countP_eq_length.2, List.length_take, min_eq_left hk]
    intro a ha
    obtain ⟨j, hj, rfl⟩ := List.mem_iff_getElem.1 ha
    simp only [List.length_take] at hj
    rw [List.getElem_take]
    exact h1 j (by omega) (by omega)
  have e2 : (l.drop k).countP f = 0 := by
    rw [List.countP_eq_zero]
    intro a ha
    obtain ⟨j, hj, rfl⟩ := List.mem_iff_getElem.1 ha
    simp only [List.length_drop] at hj
    rw [List.getElem_drop, h2 (k + j) (by omega) (by omega)]
    simp
  rw [e1, e2, add_zero]

theorem pieceIndex_eq (b : List α) (hb : b.Pairwise (· < ·)) (x : α) (i : ℕ) (hi : i + 1 < b.length)
    (h1 : b[i] < x) (h2 : x ≤ b[i + 1]) : pieceIndex b x = i := by
  have hp := List.pairwise_iff_getElem.1 hb
  unfold pieceIndex
  rw [countP_split b.dropLast _ (i + 1) (by simp; omega)]
  · omega
  · intro j hj hjk
    simp only [List.length_dropLast] at hj
    rw [List.getElem_dropLast, decide_eq_true_eq]
    rcases Nat.lt_or_ge j i with h | h
    · exact lt_trans (hp j i (by omega) (by omega) h) h1
    · obtain rfl : j = i := by omega
      exact h1
  · intro j hj hjk
    simp only [List.length_dropLast] at hj
    rw [List.getElem_dropLast, decide_eq_false_iff_not, not_lt]
    rcases Nat.lt_or_ge (i + 1) j with h | h
    · exact le_trans h2 (hp (i + 1) j (by omega) (by omega) h).le
    · obtain rfl : j = i + 1 := by omega
      exact h2

theorem pieceIndex_low (b : List α) (hb : b.Pairwise (· < ·)) (x : α) (hi : 0 < b.length) (h : x ≤ b[0]) :
    pieceIndex b x = 0 := by
  have hp := List.pairwise_iff_getElem.1 hb
  unfold pieceIndex
  rw [countP_split b.dropLast _ 0 (by omega)]
  · simp
  · intro j _ hj; omega
  · intro j hj _
    simp only [List.length_dropLast] at hj
    rw [List.getElem_dropLast, decide_eq_false_iff_not, not_lt]
    rcases Nat.eq_zero_or_pos j with rfl | h'
    · exact h
    · exact le_trans h (hp 0 j (by omega) (by omega) h').le

/-- A point above the last but one break uses the last piece. -/
theorem pieceIndex_high (b : List α) (hb : b.Pairwise (· < ·)) (x : α) (i : ℕ) (hi : i + 2 = b.length)
    (h : b[i] < x) : pieceIndex b x = i := by
  have hp := List.pairwise_iff_getElem.1 hb
  unfold pieceIndex
  rw [countP_split b.dropLast _ (i + 1) (by simp; omega)]
  · omega
  · intro j hj hjk
    simp only [List.length_dropLast] at hj
    rw [List.getElem_dropLast, decide_eq_true_eq]
    rcases Nat.lt_or_ge j i with h' | h'
    · exact lt_trans (hp j i (by omega) (by omega) h') h
    · obtain rfl : j = i := by omega
      exact h
  · intro j hj hjk
    simp only [List.length_dropLast] at hj
    omega

/-- Value at a point whose piece is known. -/
theorem call_piece (store : α → α) (pp : PPform α) (x : α) (i : ℕ) (hin : inside pp x = true)
    (hidx : pieceIndex pp.breaks x = i) (hb : i < pp.breaks.length) (hc : i < pp.coefs.length)
    (hne : pp.coefs[i] ≠ []) :
    call store pp x = .ok (store (peval pp.coefs[i] (x - pp.breaks[i]))) := by
  unfold call
  rw [if_pos hin, hidx, List.getElem?_eq_getElem hb, List.getElem?_eq_getElem hc]
  generalize pp.coefs[i] = p at hne
  cases p with
  | nil => exact absurd rfl hne
  | cons c l => simp only; rw [horner_eq]

theorem make_ok (k : ℕ) (c : List (List α)) (b : List α) (f : α) (hb : b ≠ []) :
    make k c b f = .ok ⟨k, c, b, f, some (b.head hb), some (b.getLast hb)⟩ := by
  simp [make, List.head?_eq_some_head hb, List.getLast?_eq_some_getLast hb]

theorem interval_exists (b : List α) (x : α) (h0 : 0 < b.length) (hlo : b[0] < x)
    (hhi : x ≤ b[b.length - 1]) : ∃ i, ∃ h : i + 1 < b.length, b[i] < x ∧ x ≤ b[i + 1] := by
  by_contra hcon
  push Not at hcon
  have : ∀ j (hj : j < b.length), b[j] < x := by
    intro j
    induction j with
    | zero => intro _; exact hlo
    | succ j ih =>
      intro hj
      exact hcon j hj (ih (by omega))
  exact absurd hhi (not_le.2 (this _ (by omega)))

end Wafo.PP
