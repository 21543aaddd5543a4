import Verif.Stine.Props
import Verif.Slopes.Mono
import Mathlib.Analysis.Convex.Slope
import Mathlib.Tactic.LinearCombination

set_option linter.unusedSectionVars false

/-! Stineman's documented properties (C100): convex data give a convex curve, monotone convex data a monotone one. -/

namespace Wafo.Stine

open Wafo.Slopes

/-- `f` is convex on `[a, b]` and all its chords there have slopes between `v` and `w`. -/
def Conv (f : ℝ → ℝ) (a b v w : ℝ) : Prop :=
  (∀ p q, a ≤ p → p < q → q ≤ b → v * (q - p) ≤ f q - f p ∧ f q - f p ≤ w * (q - p)) ∧
  (∀ p q r, a ≤ p → p < q → q < r → r ≤ b → (f q - f p) * (r - q) ≤ (f r - f q) * (q - p))

theorem Conv.congr {f g : ℝ → ℝ} {a b v w : ℝ} (h : Conv g a b v w) (e : ∀ t, a ≤ t → t ≤ b → f t = g t) :
    Conv f a b v w := by
  refine ⟨fun p q h0 h1 h2 => ?_, fun p q r h0 h1 h2 h3 => ?_⟩
  · rw [e q (by linarith) h2, e p h0 (by linarith)]; exact h.1 p q h0 h1 h2
  · rw [e q (by linarith) (by linarith), e p h0 (by linarith), e r (by linarith) h3]; exact h.2 p q r h0 h1 h2 h3

theorem Conv.glue {f : ℝ → ℝ} {a b c v w u : ℝ} (hab : a < b) (hbc : b < c) (h1 : Conv f a b v w) (h2 : Conv f b c w u) :
    Conv f a c v u := by
  have hvw : v ≤ w := by
    have := h1.1 a b le_rfl hab le_rfl
    nlinarith
  have hwu : w ≤ u := by
    have := h2.1 b c le_rfl hbc le_rfl
    nlinarith
  refine ⟨fun p q hp hpq hq => ?_, fun p q r hp hpq hqr hr => ?_⟩
  · rcases le_total q b with hb | hb
    · have := h1.1 p q hp hpq hb
      exact ⟨this.1, by nlinarith⟩
    · rcases le_total b p with hb' | hb'
      · have := h2.1 p q hb' hpq hq
        exact ⟨by nlinarith, this.2⟩
      · rcases hb.lt_or_eq with hb1 | rfl
        · rcases hb'.lt_or_eq with hb2 | rfl
          · have e1 := h1.1 p b hp hb2 le_rfl
            have e2 := h2.1 b q le_rfl hb1 hq
            exact ⟨by nlinarith, by nlinarith⟩
          · have := h2.1 p q le_rfl hpq hq
            exact ⟨by nlinarith, this.2⟩
        · have := h1.1 p b hp hpq le_rfl
          exact ⟨this.1, by nlinarith⟩
  · rcases le_total r b with hb | hb
    · exact h1.2 p q r hp hpq hqr hb
    · rcases le_total b p with hb' | hb'
      · exact h2.2 p q r hb' hpq hqr hr
      · -- `p ≤ b ≤ r`
        rcases le_total q b with hq | hq
        · -- left slope `σ ≤ w`
          have s1 := h1.1 p q hp hpq hq
          have key : (f q - f p) * (r - q) ≤ (f r - f q) * (q - p) := by
            rcases hb.lt_or_eq with hb1 | rfl
            · have s2 := h2.1 b r le_rfl hb1 hr
              rcases hq.lt_or_eq with hq1 | rfl
              · have s3 := h1.2 p q b hp hpq hq1 le_rfl
                have a1 : w * (r - b) * (q - p) ≤ (f r - f b) * (q - p) :=
                  mul_le_mul_of_nonneg_right s2.1 (by linarith)
                have a2 : (f q - f p) * (r - b) ≤ w * (q - p) * (r - b) :=
                  mul_le_mul_of_nonneg_right s1.2 (by linarith)
                nlinarith
              · have a1 : w * (r - q) * (q - p) ≤ (f r - f q) * (q - p) :=
                  mul_le_mul_of_nonneg_right s2.1 (by linarith)
                have a2 : (f q - f p) * (r - q) ≤ w * (q - p) * (r - q) :=
                  mul_le_mul_of_nonneg_right s1.2 (by linarith)
                nlinarith
            · exact h1.2 p q _ hp hpq hqr le_rfl
          exact key
        · have s1 := h2.1 q r hq hqr hr
          rcases hb'.lt_or_eq with hb1 | rfl
          · have s2 := h1.1 p b hp hb1 le_rfl
            rcases hq.lt_or_eq with hq1 | rfl
            · have s3 := h2.2 b q r le_rfl hq1 hqr hr
              have a1 : w * (r - q) * (b - p) ≤ (f r - f q) * (b - p) :=
                mul_le_mul_of_nonneg_right s1.1 (by linarith)
              have a2 : (f b - f p) * (r - q) ≤ w * (b - p) * (r - q) :=
                mul_le_mul_of_nonneg_right s2.2 (by linarith)
              nlinarith
            · have a1 : w * (r - b) * (b - p) ≤ (f r - f b) * (b - p) :=
                mul_le_mul_of_nonneg_right s1.1 (by linarith)
              have a2 : (f b - f p) * (r - b) ≤ w * (b - p) * (r - b) :=
                mul_le_mul_of_nonneg_right s2.2 (by linarith)
              nlinarith
          · exact h2.2 _ q r le_rfl hpq hqr hr

theorem conv_pieces (X V : ℕ → ℝ) (f : ℝ → ℝ) (N : ℕ) (hX : ∀ j, j < N → X j < X (j + 1))
    (h : ∀ j, j < N → Conv f (X j) (X (j + 1)) (V j) (V (j + 1))) (k : ℕ) (hk : k < N) :
    Conv f (X 0) (X (k + 1)) (V 0) (V (k + 1)) := by
  induction k with
  | zero => exact h 0 hk
  | succ k ih =>
    have h0 : ∀ j, j < N → X 0 < X (j + 1) := by
      intro j
      induction j with
      | zero => exact fun h => hX 0 h
      | succ j ih => exact fun h => (ih (by omega)).trans (hX _ h)
    exact (ih (by omega)).glue (h0 k (by omega)) (hX _ hk) (h _ hk)

theorem Conv.convexOn {f : ℝ → ℝ} {a b v w : ℝ} (h : Conv f a b v w) : ConvexOn ℝ (Set.Icc a b) f := by
  refine convexOn_of_slope_mono_adjacent (convex_Icc a b) ?_
  intro p q r hp hr hpq hqr
  rw [div_le_div_iff₀ (by linarith) (by linarith)]
  exact h.2 p q r hp.1 hpq hqr hr.2

theorem Conv.monotoneOn {f : ℝ → ℝ} {a b v w : ℝ} (h : Conv f a b v w) (hv : 0 ≤ v) : MonotoneOn f (Set.Icc a b) := by
  intro p hp q hq hpq
  rcases hpq.lt_or_eq with h' | rfl
  · have := (h.1 p q hp.1 h' hq.2).1
    nlinarith [mul_nonneg hv (sub_pos.2 h').le]
  · exact le_rfl

theorem Conv.antitoneOn {f : ℝ → ℝ} {a b v w : ℝ} (h : Conv f a b v w) (hw : w ≤ 0) : AntitoneOn f (Set.Icc a b) := by
  intro p hp q hq hpq
  rcases hpq.lt_or_eq with h' | rfl
  · have := (h.1 p q hp.1 h' hq.2).2
    nlinarith [mul_nonneg (neg_nonneg.2 hw) (sub_pos.2 h').le]
  · exact le_rfl

/-- The rational correction of a convex segment, as a function of the distances `t` and `u` to its ends. -/
theorem rational_chord (a b t1 t2 u1 u2 : ℝ) (H : ℝ) (e1 : t1 + u1 = H) (e2 : t2 + u2 = H) (D1 : a * t1 - b * u1 ≠ 0)
    (D2 : a * t2 - b * u2 ≠ 0) :
    (-(a * b * t2 * u2)) / (a * t2 - b * u2) - (-(a * b * t1 * u1)) / (a * t1 - b * u1) =
      (t2 - t1) * (a * b * (a * t1 * t2 + b * u1 * u2)) / ((a * t1 - b * u1) * (a * t2 - b * u2)) := by
  obtain rfl : u1 = H - t1 := by linarith
  obtain rfl : u2 = H - t2 := by linarith
  rw [div_sub_div _ _ D2 D1, div_eq_div_iff (mul_ne_zero D2 D1) (mul_ne_zero D1 D2)]
  ring

theorem pieceVal_convex_form (x0 x1 y0 y1 p0 p1 xi : ℝ) (h0 : x0 ≤ xi) (h1 : xi ≤ x1)
    (ha : p0 < (y1 - y0) / (x1 - x0)) (hb : (y1 - y0) / (x1 - x0) < p1) :
    pieceVal x0 x1 y0 y1 p0 p1 xi = y0 + (y1 - y0) / (x1 - x0) * (xi - x0) +
      (-((p0 - (y1 - y0) / (x1 - x0)) * (p1 - (y1 - y0) / (x1 - x0)) * (xi - x0) * (x1 - xi))) /
      ((p0 - (y1 - y0) / (x1 - x0)) * (xi - x0) - (p1 - (y1 - y0) / (x1 - x0)) * (x1 - xi)) := by
  simp only [pieceVal, chord]
  set s := (y1 - y0) / (x1 - x0)
  have hA : p0 - s < 0 := by linarith
  have hB : 0 < p1 - s := by linarith
  generalize p0 - s = a at *
  generalize p1 - s = b at *
  have hp : 0 ≤ a * (xi - x0) * (b * (xi - x1)) :=
    mul_nonneg_of_nonpos_of_nonpos (by nlinarith) (by nlinarith)
  rw [if_neg (not_lt.2 hp)]
  congr 1
  split_ifs with c
  · have : a * b * (xi - x0) * (x1 - xi) = 0 := by linear_combination -c
    rw [this]; simp
  · have e : a * (xi - x0) + b * (xi - x1) = a * (xi - x0) - b * (x1 - xi) := by ring
    rw [e]; ring

/-- A segment whose end slopes enclose the slope of its chord is convex with chords between the end slopes. -/
theorem pieceVal_conv (x0 x1 y0 y1 p0 p1 : ℝ) (h : x0 < x1)
    (ha : p0 ≤ (y1 - y0) / (x1 - x0)) (hb : (y1 - y0) / (x1 - x0) ≤ p1) :
    Conv (pieceVal x0 x1 y0 y1 p0 p1) x0 x1 p0 p1 := by
  rcases ha.lt_or_eq with ha' | ha'
  · rcases hb.lt_or_eq with hb' | hb'
    · have form := fun xi h0 h1 => pieceVal_convex_form x0 x1 y0 y1 p0 p1 xi h0 h1 ha' hb'
      have hs1 : p0 - (y1 - y0) / (x1 - x0) < 0 := by linarith
      have hs2 : 0 < p1 - (y1 - y0) / (x1 - x0) := by linarith
      have es0 : p0 = (y1 - y0) / (x1 - x0) + (p0 - (y1 - y0) / (x1 - x0)) := by ring
      have es1 : p1 = (y1 - y0) / (x1 - x0) + (p1 - (y1 - y0) / (x1 - x0)) := by ring
      generalize pieceVal x0 x1 y0 y1 p0 p1 = F at *
      generalize (y1 - y0) / (x1 - x0) = s at *
      generalize p0 - s = a at *
      generalize p1 - s = b at *
      have hD : ∀ t, x0 ≤ t → t ≤ x1 → a * (t - x0) - b * (x1 - t) < 0 := by
        intro t h0 h1
        rcases h0.lt_or_eq with h0 | rfl
        · nlinarith [mul_nonneg hs2.le (sub_nonneg.2 h1)]
        · nlinarith
      -- slope of a chord
      have hchord : ∀ p q, x0 ≤ p → p ≤ x1 → x0 ≤ q → q ≤ x1 →
          F q - F p = s * (q - p) + (q - p) * (a * b * (a * (p - x0) * (q - x0) + b * (x1 - p) * (x1 - q))) /
            ((a * (p - x0) - b * (x1 - p)) * (a * (q - x0) - b * (x1 - q))) := by
        intro p q h0 h1 h2 h3
        have := rational_chord a b (p - x0) (q - x0) (x1 - p) (x1 - q) (x1 - x0) (by ring) (by ring)
          (hD p h0 h1).ne (hD q h2 h3).ne
        rw [form q h2 h3, form p h0 h1]
        rw [show q - x0 - (p - x0) = q - p by ring] at this
        linear_combination this
      have hab : a * b < 0 := mul_neg_of_neg_of_pos hs1 hs2
      refine ⟨fun p q h0 h1 h2 => ?_, fun p q r h0 h1 h2 h3 => ?_⟩
      · have hp1 : p ≤ x1 := by linarith
        have hq0 : x0 ≤ q := by linarith
        rw [hchord p q h0 hp1 hq0 h2, es0, es1]
        have dp := hD p h0 hp1
        have dq := hD q hq0 h2
        have hdd : 0 < (a * (p - x0) - b * (x1 - p)) * (a * (q - x0) - b * (x1 - q)) := mul_pos_of_neg_of_neg dp dq
        obtain ⟨t1, rfl⟩ : ∃ t1, p = x0 + t1 := ⟨p - x0, by ring⟩
        obtain ⟨u1, e1⟩ : ∃ u1, x1 = x0 + t1 + u1 := ⟨x1 - x0 - t1, by ring⟩
        obtain ⟨t2, rfl⟩ : ∃ t2, q = x0 + t2 := ⟨q - x0, by ring⟩
        obtain ⟨u2, e2⟩ : ∃ u2, x1 = x0 + t2 + u2 := ⟨x1 - x0 - t2, by ring⟩
        have eu1 : x1 - (x0 + t1) = u1 := by linarith
        have eu2 : x1 - (x0 + t2) = u2 := by linarith
        have et1 : x0 + t1 - x0 = t1 := by ring
        have et2 : x0 + t2 - x0 = t2 := by ring
        rw [eu1, eu2, et1, et2] at hdd ⊢
        have g1 : 0 ≤ t1 := by linarith
        have g2 : 0 ≤ t2 := by linarith
        have g3 : 0 ≤ u1 := by linarith
        have g4 : 0 ≤ u2 := by linarith
        have hqp : 0 < x0 + t2 - (x0 + t1) := by linarith
        have i1 : 0 ≤ t1 * t2 := mul_nonneg g1 g2
        have i2 : 0 ≤ u1 * u2 := mul_nonneg g3 g4
        have i3 : 0 ≤ t1 * u2 := mul_nonneg g1 g4
        have i4 : 0 ≤ u1 * t2 := mul_nonneg g3 g2
        set d := x0 + t2 - (x0 + t1) with hd
        constructor
        · have : d * a ≤ d * (a * b * (a * t1 * t2 + b * u1 * u2)) / ((a * t1 - b * u1) * (a * t2 - b * u2)) := by
            rw [le_div_iff₀ hdd, mul_assoc]
            apply mul_le_mul_of_nonneg_left _ hqp.le
            have : 0 ≤ a ^ 2 * ((b - a) * (t1 * t2) + b * (t1 * u2 + u1 * t2)) :=
              mul_nonneg (sq_nonneg a) (add_nonneg (mul_nonneg (by linarith) i1) (mul_nonneg hs2.le (by linarith)))
            nlinarith
          linarith
        · have : d * (a * b * (a * t1 * t2 + b * u1 * u2)) / ((a * t1 - b * u1) * (a * t2 - b * u2)) ≤ d * b := by
            rw [div_le_iff₀ hdd, mul_assoc d b]
            apply mul_le_mul_of_nonneg_left _ hqp.le
            have : 0 ≤ b ^ 2 * ((b - a) * (u1 * u2) - a * (t1 * u2 + u1 * t2)) := by
              refine mul_nonneg (sq_nonneg b) ?_
              have := mul_nonneg (sub_nonneg.2 (hs1.trans hs2).le) i2
              have := mul_nonneg (neg_nonneg.2 hs1.le) (add_nonneg i3 i4)
              linarith
            nlinarith
          linarith
      · have hp1 : p ≤ x1 := by linarith
        have hq0 : x0 ≤ q := by linarith
        have hq1 : q ≤ x1 := by linarith
        have hr0 : x0 ≤ r := by linarith
        rw [hchord p q h0 hp1 hq0 hq1, hchord q r hq0 hq1 hr0 h3]
        have dp := hD p h0 hp1
        have dq := hD q hq0 hq1
        have dr := hD r hr0 h3
        have e1 : (q - p) * (a * b * (a * (p - x0) * (q - x0) + b * (x1 - p) * (x1 - q))) /
            ((a * (p - x0) - b * (x1 - p)) * (a * (q - x0) - b * (x1 - q))) =
            (q - p) * (a * b / (a * (q - x0) - b * (x1 - q))) *
              ((a * (p - x0) * (q - x0) + b * (x1 - p) * (x1 - q)) / (a * (p - x0) - b * (x1 - p))) := by
          field_simp [dp.ne, dq.ne]
        have e2 : (r - q) * (a * b * (a * (q - x0) * (r - x0) + b * (x1 - q) * (x1 - r))) /
            ((a * (q - x0) - b * (x1 - q)) * (a * (r - x0) - b * (x1 - r))) =
            (r - q) * (a * b / (a * (q - x0) - b * (x1 - q))) *
              ((a * (q - x0) * (r - x0) + b * (x1 - q) * (x1 - r)) / (a * (r - x0) - b * (x1 - r))) := by
          field_simp [dr.ne, dq.ne]
        rw [e1, e2]
        have key : (a * (p - x0) * (q - x0) + b * (x1 - p) * (x1 - q)) / (a * (p - x0) - b * (x1 - p)) ≤
            (a * (q - x0) * (r - x0) + b * (x1 - q) * (x1 - r)) / (a * (r - x0) - b * (x1 - r)) := by
          rw [← sub_nonneg, div_sub_div _ _ dr.ne dp.ne]
          apply div_nonneg _ (mul_pos_of_neg_of_neg dr dp).le
          have : 0 ≤ -(a * b) * (x1 - x0) ^ 2 * (r - p) :=
            mul_nonneg (mul_nonneg (by linarith) (sq_nonneg _)) (by linarith)
          nlinarith
        have c0 : 0 ≤ a * b / (a * (q - x0) - b * (x1 - q)) := (div_pos_of_neg_of_neg hab dq).le
        have c1 : 0 ≤ (q - p) * (r - q) := mul_nonneg (by linarith) (by linarith)
        have := mul_le_mul_of_nonneg_left key (mul_nonneg c1 c0)
        nlinarith
    · -- the right end slope is the slope of the chord: straight line
      have e : ∀ t, pieceVal x0 x1 y0 y1 p0 p1 t = y0 + (y1 - y0) / (x1 - x0) * (t - x0) := by
        intro t; simp only [pieceVal, chord, hb', sub_self, zero_mul, mul_zero]; simp
      refine Conv.congr (g := fun t => y0 + (y1 - y0) / (x1 - x0) * (t - x0)) ⟨fun p q h0 h1 h2 => ?_, fun p q r h0 h1 h2 h3 => ?_⟩
        (fun t _ _ => e t)
      · constructor <;> nlinarith
      · apply le_of_eq; ring
  · have e : ∀ t, pieceVal x0 x1 y0 y1 p0 p1 t = y0 + (y1 - y0) / (x1 - x0) * (t - x0) := by
      intro t; simp only [pieceVal, chord, ha', sub_self, zero_mul]; simp
    refine Conv.congr (g := fun t => y0 + (y1 - y0) / (x1 - x0) * (t - x0)) ⟨fun p q h0 h1 h2 => ?_, fun p q r h0 h1 h2 h3 => ?_⟩
      (fun t _ _ => e t)
    · constructor <;> nlinarith
    · apply le_of_eq; ring

/-! ### The slopes of the default method on convex data -/

theorem stinemanInner_between (h0 h1 m0 m1 : ℝ) (hh0 : 0 < h0) (hh1 : 0 < h1) (hm : m0 ≤ m1) :
    m0 ≤ stinemanInner h0 h1 m0 m1 ∧ stinemanInner h0 h1 m0 m1 ≤ m1 := by
  unfold stinemanInner
  have w0 : 0 < h0 * h1 ^ 2 * (1 + m1 ^ 2) := by positivity
  have w1 : 0 < h1 * h0 ^ 2 * (1 + m0 ^ 2) := by positivity
  constructor
  · rw [le_div_iff₀ (by positivity)]
    nlinarith [mul_nonneg w1.le (sub_nonneg.2 hm)]
  · rw [div_le_iff₀ (by positivity)]
    nlinarith [mul_nonneg w0.le (sub_nonneg.2 hm)]

theorem stinemanEnd_le (m0 a1 : ℝ) (h : m0 ≤ a1) : stinemanEnd m0 a1 (2 * m0 - a1) ≤ m0 := by
  simp only [stinemanEnd]
  split_ifs with c
  · linarith
  · have : |m0| * (m0 - a1) / (|m0| + |m0 - a1|) ≤ 0 :=
      div_nonpos_of_nonpos_of_nonneg (mul_nonpos_of_nonneg_of_nonpos (abs_nonneg _) (by linarith)) (by positivity)
    linarith

theorem stinemanEnd_ge (m0 a1 : ℝ) (h : a1 ≤ m0) : m0 ≤ stinemanEnd m0 a1 (2 * m0 - a1) := by
  simp only [stinemanEnd]
  split_ifs with c
  · linarith
  · have : 0 ≤ |m0| * (m0 - a1) / (|m0| + |m0 - a1|) :=
      div_nonneg (mul_nonneg (abs_nonneg _) (by linarith)) (by positivity)
    linarith

/-- With a rising end secant the end slope is nonnegative. -/
theorem stinemanEnd_nonneg (m0 a1 : ℝ) (hm : 0 < m0) : 0 ≤ stinemanEnd m0 a1 (2 * m0 - a1) := by
  simp only [stinemanEnd, sgn_pos hm, one_mul]
  split_ifs with c
  · linarith
  · have hd : m0 - a1 < 0 := not_le.1 c
    rw [abs_of_pos hm, abs_of_neg hd]
    have : m0 + m0 * (m0 - a1) / (m0 + -(m0 - a1)) = m0 ^ 2 / (m0 + -(m0 - a1)) := by
      have : m0 + -(m0 - a1) ≠ 0 := by
        have : 0 < m0 + -(m0 - a1) := by linarith
        exact this.ne'
      field_simp; ring
    rw [this]
    exact div_nonneg (sq_nonneg _) (by linarith)

theorem stinemanEnd_nonpos (m0 a1 : ℝ) (hm : m0 < 0) : stinemanEnd m0 a1 (2 * m0 - a1) ≤ 0 := by
  have := stinemanEnd_nonneg (-m0) (-a1) (by linarith)
  have e := stinemanEnd_neg m0 a1 (2 * m0 - a1)
  rw [show -(2 * m0 - a1) = 2 * -m0 - -a1 by ring] at e
  linarith

theorem stineman_convex (n : ℕ) (h m : ℕ → ℝ) (hn : 3 ≤ n) (hh : ∀ i, i + 1 < n → 0 < h i)
    (hm : ∀ i, i + 2 < n → m i ≤ m (i + 1)) :
    (∀ i, i + 1 < n → stineman n h m i ≤ m i ∧ m i ≤ stineman n h m (i + 1)) ∧
    (0 < m 0 → 0 ≤ stineman n h m 0) ∧ (m (n - 2) < 0 → stineman n h m (n - 1) ≤ 0) := by
  set inner : ℕ → ℝ := fun k => stinemanInner (h (k - 1)) (h k) (m (k - 1)) (m k) with hinner
  have hb : ∀ k, 0 < k → k + 1 < n → m (k - 1) ≤ inner k ∧ inner k ≤ m k := by
    intro k h0 h1
    have := hm (k - 1) (by omega)
    rw [show k - 1 + 1 = k by omega] at this
    exact stinemanInner_between _ _ _ _ (hh _ (by omega)) (hh _ h1) this
  have hin : ∀ k, 0 < k → k + 1 < n → stineman n h m k = inner k := by
    intro k h0 h1
    simp only [stineman]
    rw [if_neg (by omega), if_neg (by omega), withEnds_inner _ _ _ _ h0 h1]
  have h0 : stineman n h m 0 = stinemanEnd (m 0) (inner 1) (2 * m 0 - inner 1) := by
    simp only [stineman]
    rw [if_neg (by omega), if_pos trivial, withEnds_inner _ _ _ 1 (by omega) (by omega), withEnds_zero _ _ _ (by omega),
      if_pos (by omega)]
  have hl : stineman n h m (n - 1) = stinemanEnd (m (n - 2)) (inner (n - 2)) (2 * m (n - 2) - inner (n - 2)) := by
    simp only [stineman]
    rw [if_pos trivial, withEnds_inner _ _ _ (n - 2) (by omega) (by omega), withEnds_last _ _ _ (by omega),
      withEnds_inner _ _ _ (n - 2) (by omega) (by omega)]
  have b1 := hb 1 (by omega) (by omega)
  have bl := hb (n - 2) (by omega) (by omega)
  refine ⟨fun i hi => ⟨?_, ?_⟩, fun h => ?_, fun h => ?_⟩
  · rcases Nat.eq_zero_or_pos i with rfl | hpos
    · rw [h0]; exact stinemanEnd_le _ _ b1.1
    · rw [hin i hpos hi]; exact (hb i hpos hi).2
  · rcases Nat.lt_or_ge (i + 2) n with h | h
    · rw [hin (i + 1) (by omega) h]; exact (hb (i + 1) (by omega) h).1
    · obtain rfl : i = n - 2 := by omega
      rw [show n - 2 + 1 = n - 1 by omega, hl]; exact stinemanEnd_ge _ _ bl.2
  · rw [h0]; exact stinemanEnd_nonneg _ _ h
  · rw [hl]; exact stinemanEnd_nonpos _ _ h

/-- Data with given slopes that interlace the secants: the curve is convex with all chords between the end slopes. -/
theorem interp_conv (x y yp : List ℝ) (hx : x.Pairwise (· < ·)) (hy : y.length = x.length)
    (hp : yp.length = x.length) (hn : 2 ≤ x.length)
    (hi : ∀ i, i + 1 < x.length → yp.getD i 0 ≤ sec x y i ∧ sec x y i ≤ yp.getD (i + 1) 0)
    (f : ℝ → ℝ) (hf : ∀ xi, interp x y yp xi = .ok (some (f xi))) :
    Conv f (x.getD 0 0) (x.getD (x.length - 1) 0) (yp.getD 0 0) (yp.getD (x.length - 1) 0) := by
  have hX : ∀ j, j < x.length - 1 → x.getD j 0 < x.getD (j + 1) 0 :=
    fun j hj => sub_pos.1 (width_pos x hx j (by omega))
  have := conv_pieces (fun k => x.getD k 0) (fun k => yp.getD k 0) f (x.length - 1) hX (by
    intro j hj
    have h := hi j (by omega)
    refine (pieceVal_conv _ _ (y.getD j 0) (y.getD (j + 1) 0) _ _ (hX j hj) h.1 h.2).congr fun t h0 h1 => ?_
    have := interp_on x y yp t hx hy hp j (by omega) h0 h1
    rw [hf t, Except.ok.injEq, Option.some.injEq] at this
    exact this) (x.length - 2) (by omega)
  rw [show x.length - 2 + 1 = x.length - 1 by omega] at this
  exact this

/-- The slopes used by `stineman_interp(xi, x, y)` and `StinemanInterp(x, y)`. -/
theorem default_slopes (eps garb : ℝ) (rt : ℝ → ℝ) (x y : List ℝ) (hx : x.Pairwise (· < ·))
    (hy : y.length = x.length) (hn : 2 ≤ x.length) :
    slopes eps garb rt x y .stineman 0 false false =
      .ok ((List.range x.length).map (stineman x.length (width x) (sec x y))) :=
  slopes0_ok eps garb rt x y .stineman 0 false hx hy hn (by simp)

theorem interpDefault_eq (eps garb : ℝ) (rt : ℝ → ℝ) (x y : List ℝ) (xi : ℝ) (hx : x.Pairwise (· < ·))
    (hy : y.length = x.length) (hn : 2 ≤ x.length) :
    interpDefault eps garb rt x y .stineman false false xi =
      interp x y ((List.range x.length).map (stineman x.length (width x) (sec x y))) xi := by
  unfold interpDefault
  rw [default_slopes eps garb rt x y hx hy hn]

theorem interpDefault_conv (eps garb : ℝ) (rt : ℝ → ℝ) (x y : List ℝ) (hx : x.Pairwise (· < ·))
    (hy : y.length = x.length) (hn : 3 ≤ x.length) (hc : ∀ i, i + 2 < x.length → sec x y i ≤ sec x y (i + 1))
    (f : ℝ → ℝ) (hf : ∀ xi, interpDefault eps garb rt x y .stineman false false xi = .ok (some (f xi))) :
    ConvexOn ℝ (Set.Icc (x.getD 0 0) (x.getD (x.length - 1) 0)) f ∧
    (0 < sec x y 0 → MonotoneOn f (Set.Icc (x.getD 0 0) (x.getD (x.length - 1) 0))) ∧
    (sec x y (x.length - 2) < 0 → AntitoneOn f (Set.Icc (x.getD 0 0) (x.getD (x.length - 1) 0))) := by
  obtain ⟨k1, k2, k3⟩ := stineman_convex x.length (width x) (sec x y) hn (fun i hi => width_pos x hx i hi) hc
  have hconv := interp_conv x y ((List.range x.length).map (stineman x.length (width x) (sec x y))) hx hy (by simp)
    (by omega) (by
      intro i hi
      rw [getD_map_range _ _ _ (by omega), getD_map_range _ _ _ hi]
      exact k1 i hi) f (fun xi => by rw [← interpDefault_eq eps garb rt x y xi hx hy (by omega), hf])
  rw [getD_map_range _ _ _ (by omega), getD_map_range _ _ _ (by omega)] at hconv
  exact ⟨hconv.convexOn, fun h => hconv.monotoneOn (k2 h), fun h => hconv.antitoneOn (k3 h)⟩

theorem sec_neg (x y : List ℝ) (i : ℕ) : sec x (y.map (- ·)) i = - sec x y i := by
  have : ∀ k, (y.map (- ·)).getD k 0 = - y.getD k 0 := by
    intro k
    simp only [List.getD_eq_getElem?_getD, List.getElem?_map]
    cases y[k]? <;> simp
  simp only [sec, this]; ring

theorem pieceVal_neg (x0 x1 y0 y1 p0 p1 xi : ℝ) :
    pieceVal x0 x1 (-y0) (-y1) (-p0) (-p1) xi = - pieceVal x0 x1 y0 y1 p0 p1 xi := by
  simp only [pieceVal, chord]
  have e : (-y1 - -y0) / (x1 - x0) = - ((y1 - y0) / (x1 - x0)) := by rw [← neg_div]; ring_nf
  rw [e]
  generalize (y1 - y0) / (x1 - x0) = s
  have e1 : (-p0 - -s) * (xi - x0) * ((-p1 - -s) * (xi - x1)) = (p0 - s) * (xi - x0) * ((p1 - s) * (xi - x1)) := by ring
  rw [e1]
  split_ifs
  · have : ((-p0 - -s) * (xi - x0) - (-p1 - -s) * (xi - x1)) * (x1 - x0) =
        - (((p0 - s) * (xi - x0) - (p1 - s) * (xi - x1)) * (x1 - x0)) := by ring
    rw [this, div_neg]; ring
  · ring
  · have : (-p0 - -s) * (xi - x0) + (-p1 - -s) * (xi - x1) = - ((p0 - s) * (xi - x0) + (p1 - s) * (xi - x1)) := by ring
    rw [this, one_div_neg_eq_neg_one_div]; ring

theorem interpDefault_neg (eps garb : ℝ) (rt : ℝ → ℝ) (x y : List ℝ) (xi : ℝ) (hx : x.Pairwise (· < ·))
    (hy : y.length = x.length) (hn : 2 ≤ x.length) (v : ℝ)
    (h : interpDefault eps garb rt x y .stineman false false xi = .ok (some v)) :
    interpDefault eps garb rt x (y.map (- ·)) .stineman false false xi = .ok (some (-v)) := by
  have hg : ∀ k, (y.map (- ·)).getD k 0 = - y.getD k 0 := by
    intro k
    simp only [List.getD_eq_getElem?_getD, List.getElem?_map]
    cases y[k]? <;> simp
  have hlt := segment_lt x xi hn
  rw [interpDefault_eq eps garb rt x y xi hx hy hn, interp_eq x y _ xi hx hy (by simp) hn _ rfl, Except.ok.injEq,
    Option.some.injEq] at h
  rw [interpDefault_eq eps garb rt x _ xi hx (by simpa using hy) hn,
    interp_eq x _ _ xi hx (by simpa using hy) (by simp) hn _ rfl, ← h, hg, hg, ← pieceVal_neg,
    getD_map_range _ _ _ (by omega), getD_map_range _ _ _ hlt, getD_map_range _ _ _ (by omega),
    getD_map_range _ _ _ hlt]
  have : sec x (y.map (- ·)) = fun k => - sec x y k := funext fun k => sec_neg x y k
  rw [this, stineman_neg, stineman_neg]

end Wafo.Stine
