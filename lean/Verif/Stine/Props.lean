import Verif.Stine.Model
import Verif.PP.Lemmas
import Verif.Slopes.Props

set_option linter.unusedSectionVars false

/-! Stineman interpolation runs through the data and stays near the chord (C72). -/

namespace Wafo.Stine

open Wafo.Slopes

section general
variable {α : Type*} [Field α] [LinearOrder α] [IsStrictOrderedRing α]

/-- The chord through two points, at `xi`. -/
def chord (x0 x1 y0 y1 xi : α) : α := y0 + (y1 - y0) / (x1 - x0) * (xi - x0)

/-- The line through `(x0, y0)` with slope `p`, at `xi`. -/
def tangent (x0 y0 p xi : α) : α := y0 + p * (xi - x0)

/-- Closed form of a piece, free of the division guards. -/
def pieceVal (x0 x1 y0 y1 p0 p1 xi : α) : α :=
  let s := (y1 - y0) / (x1 - x0)
  let dy1 := (p0 - s) * (xi - x0)
  let dy2 := (p1 - s) * (xi - x1)
  chord x0 x1 y0 y1 xi +
    (if dy1 * dy2 < 0 then dy1 * dy2 * ((2 * xi - x0 - x1) / ((dy1 - dy2) * (x1 - x0)))
     else if dy1 * dy2 = 0 then 0 else dy1 * dy2 * (1 / (dy1 + dy2)))

theorem piece_eq (x0 x1 y0 y1 p0 p1 xi : α) (h : x0 < x1) :
    piece x0 x1 y0 y1 p0 p1 xi = some (pieceVal x0 x1 y0 y1 p0 p1 xi) := by
  have hx : x1 - x0 ≠ 0 := (sub_pos.2 h).ne'
  simp only [piece, div?, if_neg hx, Option.bind_some, pieceVal, chord]
  generalize (p0 - (y1 - y0) / (x1 - x0)) * (xi - x0) = a
  generalize (p1 - (y1 - y0) / (x1 - x0)) * (xi - x1) = b
  by_cases c1 : a * b < 0
  · have : (a - b) * (x1 - x0) ≠ 0 := by
      refine mul_ne_zero ?_ hx
      intro e
      have : a = b := by linear_combination e
      subst this
      exact absurd c1 (not_lt.2 (mul_self_nonneg a))
    rw [if_pos c1, if_neg this, if_pos c1]; rfl
  · rw [if_neg c1, if_neg c1]
    by_cases c2 : a * b = 0
    · rw [if_pos c2, if_pos c2, add_zero]
    · have hp : 0 < a * b := lt_of_le_of_ne (not_lt.1 c1) (Ne.symm c2)
      have : a + b ≠ 0 := by
        intro e
        have : b = -a := by linear_combination e
        subst this
        nlinarith [mul_self_nonneg a]
      rw [if_neg c2, if_neg this, if_neg c2]; rfl

theorem pieceVal_left (x0 x1 y0 y1 p0 p1 : α) : pieceVal x0 x1 y0 y1 p0 p1 x0 = y0 := by
  simp [pieceVal, chord]

theorem pieceVal_right (x0 x1 y0 y1 p0 p1 : α) (h : x0 < x1) : pieceVal x0 x1 y0 y1 p0 p1 x1 = y1 := by
  have hx : x1 - x0 ≠ 0 := (sub_pos.2 h).ne'
  simp [pieceVal, chord, hx]

theorem correction_bound (a b q : α) (hq : |q| ≤ 1) (hab : a * b < 0) :
    |a * b * q / (a - b)| ≤ |a| ∧ |a * b * q / (a - b)| ≤ |b| := by
  have key : |a - b| = |a| + |b| := by
    rcases mul_neg_iff.1 hab with ⟨h1, h2⟩ | ⟨h1, h2⟩
    · rw [abs_of_pos h1, abs_of_neg h2, abs_of_pos (by linarith)]; ring
    · rw [abs_of_neg h1, abs_of_pos h2, abs_of_neg (by linarith)]; ring
  have ha : 0 < |a| := abs_pos.2 (by rintro rfl; simp at hab)
  have hb : 0 < |b| := abs_pos.2 (by rintro rfl; simp at hab)
  have hp : 0 < |a| * |b| := mul_pos ha hb
  rw [abs_div, abs_mul, abs_mul, key]
  have h1 : |a| * |b| * |q| ≤ |a| * |b| := by nlinarith
  constructor
  · rw [div_le_iff₀ (by positivity)]; nlinarith
  · rw [div_le_iff₀ (by positivity)]; nlinarith

theorem pieceVal_bound (x0 x1 y0 y1 p0 p1 xi : α) (h : x0 < x1) (h0 : x0 ≤ xi) (h1 : xi ≤ x1) :
    let C := chord x0 x1 y0 y1 xi
    let L := tangent x0 y0 p0 xi
    let R := tangent x1 y1 p1 xi
    let v := pieceVal x0 x1 y0 y1 p0 p1 xi
    |v - C| ≤ |L - C| ∧ |v - C| ≤ |R - C| ∧ (C ≤ L → C ≤ R → C ≤ v) ∧ (L ≤ C → R ≤ C → v ≤ C) := by
  intro C L R v
  have hx : 0 < x1 - x0 := sub_pos.2 h
  set s := (y1 - y0) / (x1 - x0) with hs
  have hs' : y1 - y0 = s * (x1 - x0) := by rw [hs, div_mul_cancel₀ _ hx.ne']
  have eL : L - C = (p0 - s) * (xi - x0) := by simp only [L, C, tangent, chord, ← hs]; ring
  have eR : R - C = (p1 - s) * (xi - x1) := by
    simp only [R, C, tangent, chord, ← hs]; linear_combination hs'
  have ev : v - C = (if (L - C) * (R - C) < 0 then (L - C) * (R - C) * ((2 * xi - x0 - x1) / ((L - C - (R - C)) * (x1 - x0)))
     else if (L - C) * (R - C) = 0 then 0 else (L - C) * (R - C) * (1 / (L - C + (R - C)))) := by
    rw [eL, eR]; simp only [v, C, pieceVal, ← hs]; ring
  have sL : C ≤ L ↔ 0 ≤ L - C := sub_nonneg.symm
  have sR : C ≤ R ↔ 0 ≤ R - C := sub_nonneg.symm
  have tL : L ≤ C ↔ L - C ≤ 0 := sub_nonpos.symm
  have tR : R ≤ C ↔ R - C ≤ 0 := sub_nonpos.symm
  have sv : C ≤ v ↔ 0 ≤ v - C := sub_nonneg.symm
  have tv : v ≤ C ↔ v - C ≤ 0 := sub_nonpos.symm
  rw [sL, sR, tL, tR, sv, tv, ev]
  generalize L - C = a
  generalize R - C = b
  by_cases c1 : a * b < 0
  · rw [if_pos c1]
    have hq : |(2 * xi - x0 - x1) / (x1 - x0)| ≤ 1 := by
      rw [abs_div, abs_of_pos hx, div_le_one hx, abs_le]; constructor <;> linarith
    have e : a * b * ((2 * xi - x0 - x1) / ((a - b) * (x1 - x0))) =
        a * b * ((2 * xi - x0 - x1) / (x1 - x0)) / (a - b) := by
      rw [mul_comm (a - b), ← div_div, mul_div_assoc]
    rw [e]
    obtain ⟨k1, k2⟩ := correction_bound a b _ hq c1
    refine ⟨k1, k2, fun ha hb => absurd c1 (not_lt.2 (mul_nonneg ha hb)),
      fun ha hb => absurd c1 (not_lt.2 (mul_nonneg_of_nonpos_of_nonpos ha hb))⟩
  · rw [if_neg c1]
    by_cases c2 : a * b = 0
    · rw [if_pos c2]; simp
    · rw [if_neg c2]
      have hp : 0 < a * b := lt_of_le_of_ne (not_lt.1 c1) (Ne.symm c2)
      have e : a * b * (1 / (a + b)) = a * b / (a + b) := by ring
      rw [e]
      rcases mul_pos_iff.1 hp with ⟨ha, hb⟩ | ⟨ha, hb⟩
      · have hv : 0 ≤ a * b / (a + b) := by positivity
        rw [abs_of_nonneg hv, abs_of_pos ha, abs_of_pos hb]
        refine ⟨?_, ?_, fun _ _ => hv, fun h => absurd ha (not_lt.2 h)⟩
        · rw [div_le_iff₀ (by positivity)]; nlinarith
        · rw [div_le_iff₀ (by positivity)]; nlinarith
      · have hv : a * b / (a + b) ≤ 0 := div_nonpos_of_nonneg_of_nonpos hp.le (by linarith)
        rw [abs_of_nonpos hv, abs_of_neg ha, abs_of_neg hb]
        refine ⟨?_, ?_, fun h => absurd ha (not_lt.2 h), fun _ _ => hv⟩
        · rw [neg_le_neg_iff, le_div_iff_of_neg (by linarith)]; nlinarith
        · rw [neg_le_neg_iff, le_div_iff_of_neg (by linarith)]; nlinarith

/-! ### The segment search -/

theorem segment_lt (x : List α) (xi : α) (hn : 2 ≤ x.length) : segment x xi + 1 < x.length := by
  have := List.countP_le_length (l := x.tail.dropLast) (p := fun b => decide (b < xi))
  simp at this
  unfold segment
  omega

theorem segment_eq (x : List α) (hx : x.Pairwise (· < ·)) (xi : α) (i : ℕ) (hi : i + 1 < x.length)
    (h1 : i = 0 ∨ x[i] < xi) (h2 : i + 2 = x.length ∨ xi ≤ x[i + 1]) : segment x xi = i := by
  have hp := List.pairwise_iff_getElem.1 hx
  unfold segment
  apply PP.countP_split
  · simp; omega
  · intro j hj hji
    rw [List.getElem_dropLast, List.getElem_tail, decide_eq_true_eq]
    rcases h1 with rfl | h1
    · omega
    · rcases Nat.lt_or_ge (j + 1) i with h | h
      · exact lt_trans (hp (j + 1) i (by omega) (by omega) h) h1
      · obtain rfl : i = j + 1 := by omega
        exact h1
  · intro j hj hji
    simp only [List.length_dropLast, List.length_tail] at hj
    rw [List.getElem_dropLast, List.getElem_tail, decide_eq_false_iff_not, not_lt]
    rcases h2 with h2 | h2
    · omega
    · rcases Nat.lt_or_ge (i + 1) (j + 1) with h | h
      · exact le_trans h2 (hp (i + 1) (j + 1) (by omega) (by omega) h).le
      · obtain rfl : i = j := by omega
        exact h2

theorem interp_eq (x y yp : List α) (xi : α) (hx : x.Pairwise (· < ·)) (hy : y.length = x.length)
    (hp : yp.length = x.length) (hn : 2 ≤ x.length) (i : ℕ) (hi : segment x xi = i) :
    interp x y yp xi = .ok (some (pieceVal (x.getD i 0) (x.getD (i + 1) 0) (y.getD i 0) (y.getD (i + 1) 0)
      (yp.getD i 0) (yp.getD (i + 1) 0) xi)) := by
  have hlt := segment_lt x xi hn
  rw [hi] at hlt
  have hxx : x[i] < x[i + 1] := List.pairwise_iff_getElem.1 hx _ _ _ _ (by omega)
  unfold interp
  rw [if_neg (by omega)]
  simp only [hi]
  rw [List.getElem?_eq_getElem (by omega), List.getElem?_eq_getElem hlt, List.getElem?_eq_getElem (by omega),
    List.getElem?_eq_getElem (by omega), List.getElem?_eq_getElem (by omega), List.getElem?_eq_getElem (by omega)]
  simp only
  rw [List.getD_eq_getElem _ _ (by omega), List.getD_eq_getElem _ _ (by omega), List.getD_eq_getElem _ _ (by omega),
    List.getD_eq_getElem _ _ (by omega), List.getD_eq_getElem _ _ (by omega), List.getD_eq_getElem _ _ (by omega),
    piece_eq _ _ _ _ _ _ _ hxx]

/-- On a closed interval between neighbouring abscissae the value is that of the piece of this interval. -/
theorem interp_on (x y yp : List α) (xi : α) (hx : x.Pairwise (· < ·)) (hy : y.length = x.length)
    (hp : yp.length = x.length) (i : ℕ) (hi : i + 1 < x.length)
    (h0 : x.getD i 0 ≤ xi) (h1 : xi ≤ x.getD (i + 1) 0) :
    interp x y yp xi = .ok (some (pieceVal (x.getD i 0) (x.getD (i + 1) 0) (y.getD i 0) (y.getD (i + 1) 0)
      (yp.getD i 0) (yp.getD (i + 1) 0) xi)) := by
  have hp' := List.pairwise_iff_getElem.1 hx
  have e0 : x.getD i 0 = x[i] := List.getD_eq_getElem _ _ (by omega)
  have e1 : x.getD (i + 1) 0 = x[i + 1] := List.getD_eq_getElem _ _ hi
  rcases Nat.eq_zero_or_pos i with rfl | hpos
  · exact interp_eq x y yp xi hx hy hp (by omega) 0 (segment_eq x hx xi 0 hi (.inl rfl) (.inr (e1 ▸ h1)))
  · rcases lt_or_eq_of_le h0 with h | h
    · exact interp_eq x y yp xi hx hy hp (by omega) i (segment_eq x hx xi i hi (.inr (e0 ▸ h)) (.inr (e1 ▸ h1)))
    · obtain ⟨j, rfl⟩ : ∃ j, i = j + 1 := ⟨i - 1, by omega⟩
      have hlt : x[j] < x[j + 1] := hp' _ _ _ _ (by omega)
      rw [interp_eq x y yp xi hx hy hp (by omega) j (segment_eq x hx xi j (by omega)
        (.inr (by rw [← h, e0]; exact hlt)) (.inr (by rw [← h, e0])))]
      rw [← h, pieceVal_left, pieceVal_right]
      rw [List.getD_eq_getElem _ _ (by omega), e0]; exact hlt

/-- **C72**  For strictly increasing abscissae (at least two), ordinates and slopes of the same length, `stineman_interp`
returns a number at every point `xi` (no division by zero, also outside the data), the ordinate `y[j]` at `xi = x[j]`,
and between neighbouring abscissae a value no further from the chord than either end tangent; when both tangents lie on
one side of the chord, the value lies on that side too. -/
theorem C72_stineman (x y yp : List α) (hx : x.Pairwise (· < ·)) (hy : y.length = x.length)
    (hp : yp.length = x.length) (hn : 2 ≤ x.length) :
    (∀ xi, ∃ v, interp x y yp xi = .ok (some v)) ∧
    (∀ j (hj : j < x.length), interp x y yp x[j] = .ok (some y[j])) ∧
    (∀ i (hi : i + 1 < x.length) xi, x[i] ≤ xi → xi ≤ x[i + 1] →
      ∃ v, interp x y yp xi = .ok (some v) ∧
        let C := chord x[i] x[i + 1] y[i] y[i + 1] xi
        let L := tangent x[i] y[i] yp[i] xi
        let R := tangent x[i + 1] y[i + 1] yp[i + 1] xi
        |v - C| ≤ |L - C| ∧ |v - C| ≤ |R - C| ∧ (C ≤ L → C ≤ R → C ≤ v) ∧ (L ≤ C → R ≤ C → v ≤ C)) := by
  have hp' := List.pairwise_iff_getElem.1 hx
  refine ⟨fun xi => ⟨_, interp_eq x y yp xi hx hy hp hn _ rfl⟩, fun j hj => ?_, fun i hi xi h0 h1 => ?_⟩
  · have gx : ∀ k, k < x.length → ∀ h, x.getD k 0 = x[k]'h := fun k _ h => List.getD_eq_getElem _ _ h
    rcases Nat.lt_or_ge (j + 1) x.length with h | h
    · rw [interp_on x y yp x[j] hx hy hp j h (by rw [gx j hj hj])
        (by rw [gx (j + 1) h h]; exact (hp' _ _ _ _ (by omega)).le), gx j hj hj, pieceVal_left,
        List.getD_eq_getElem _ _ (by omega)]
    · obtain ⟨i, rfl⟩ : ∃ i, j = i + 1 := ⟨j - 1, by omega⟩
      have hlt : x[i] < x[i + 1] := hp' _ _ _ _ (by omega)
      rw [interp_on x y yp x[i + 1] hx hy hp i hj (by rw [gx i (by omega) (by omega)]; exact hlt.le)
        (by rw [gx (i + 1) hj hj]), gx (i + 1) hj hj, pieceVal_right _ _ _ _ _ _ (by
          rw [gx i (by omega) (by omega)]; exact hlt), List.getD_eq_getElem _ _ (by omega)]
  · have hlt : x[i] < x[i + 1] := hp' _ _ _ _ (by omega)
    refine ⟨_, interp_on x y yp xi hx hy hp i hi (by rw [List.getD_eq_getElem _ _ (by omega)]; exact h0)
      (by rw [List.getD_eq_getElem _ _ hi]; exact h1), ?_⟩
    rw [List.getD_eq_getElem _ _ (by omega), List.getD_eq_getElem _ _ (by omega), List.getD_eq_getElem _ _ (by omega),
      List.getD_eq_getElem _ _ (by omega), List.getD_eq_getElem _ _ (by omega), List.getD_eq_getElem _ _ (by omega)]
    exact pieceVal_bound _ _ _ _ _ _ _ hlt h0 h1

/-- **C72 (errors)**  Different lengths of `x` and `y` raise ValueError, a single point IndexError. -/
theorem C72_errors (x y yp : List α) (xi : α) :
    (x.length ≠ y.length → interp x y yp xi = .error .valueError) ∧
    (x.length = y.length → x.length < 2 → interp x y yp xi = .error .indexError) := by
  constructor
  · intro h; simp [interp, h]
  · intro h h2
    have : ∀ k, x[k + 1]? = none := fun k => List.getElem?_eq_none (by omega)
    simp only [interp, h, ne_eq, not_true_eq_false, if_false, this]
    cases x[segment x xi]? <;> rfl

end general

example : interp [0, 1, 3] [0, 1, 2] [2, 1 / 2, 0] (1 / 2 : ℚ) = .ok (some (2 / 3)) := by decide +kernel
example : interp [0, 1, 3] [0, 1, 2] [2, 2, 0] (1 / 4 : ℚ) = .ok (some (11 / 32)) := by decide +kernel
example : interp [0, 1, 3] [0, 1, 2] [2, 2, 0] (5 : ℚ) = .ok (some (3 / 7)) := by decide +kernel

end Wafo.Stine
