import Verif.Slopes.Model
import Verif.Slopes.Hermite
import Mathlib.Tactic.Positivity

set_option linter.unusedSectionVars false

namespace Wafo.Slopes

variable {α : Type*} [Field α] [LinearOrder α] [IsStrictOrderedRing α]

theorem sgn_pos {a : α} (h : 0 < a) : sgn a = 1 := by simp [sgn, h]
theorem sgn_neg' {a : α} (h : a < 0) : sgn a = -1 := by simp [sgn, h, not_lt.2 h.le]
theorem sgn_zero : sgn (0 : α) = 0 := by simp [sgn]

theorem sgn_eq_iff (a b : α) : sgn a = sgn b ↔ ((0 < a ∧ 0 < b) ∨ (a < 0 ∧ b < 0) ∨ (a = 0 ∧ b = 0)) := by
  have h1 : (1 : α) ≠ -1 := by
    intro h; have : (0 : α) < 1 := one_pos
    linarith
  have h2 : (1 : α) ≠ 0 := one_ne_zero
  have h3 : (-1 : α) ≠ 0 := by simp
  rcases lt_trichotomy a 0 with ha | ha | ha <;> rcases lt_trichotomy b 0 with hb | hb | hb
  · simp [sgn_neg' ha, sgn_neg' hb, ha, hb]
  · subst hb; simp [sgn_neg' ha, sgn_zero, ha, ha.ne, not_lt.2 ha.le]
  · simp [sgn_neg' ha, sgn_pos hb, ha.ne, not_lt.2 ha.le, not_lt.2 hb.le, h1.symm]
  · subst ha; simp [sgn_neg' hb, sgn_zero, hb.ne]
  · subst ha hb; simp
  · subst ha; simp [sgn_pos hb, sgn_zero, hb.ne']
  · simp [sgn_pos ha, sgn_neg' hb, hb.ne, not_lt.2 ha.le, not_lt.2 hb.le, h1]
  · subst hb; simp [sgn_pos ha, sgn_zero, ha.ne', not_lt.2 ha.le]
  · simp [sgn_pos ha, sgn_pos hb, ha, hb]

theorem sgn_neg (a : α) : sgn (-a) = - sgn a := by
  rcases lt_trichotomy a 0 with h | h | h
  · rw [sgn_neg' h, sgn_pos (by linarith)]; simp
  · subst h; simp [sgn_zero]
  · rw [sgn_pos h, sgn_neg' (by linarith)]

theorem Within.neg {m d : α} (h : Within (-m) (-d)) : Within m d := by
  rcases h with ⟨h1, h2⟩ | ⟨h1, h2⟩
  · right; constructor <;> linarith
  · left; constructor <;> linarith

theorem edgeCase_neg (h0 h1 m0 m1 : α) : edgeCase h0 h1 (-m0) (-m1) = - edgeCase h0 h1 m0 m1 := by
  have e : ((2 * h0 + h1) * -m0 - h0 * -m1) / (h0 + h1) = - (((2 * h0 + h1) * m0 - h0 * m1) / (h0 + h1)) := by
    ring
  simp only [edgeCase, e, sgn_neg, abs_neg, ne_eq, neg_inj]
  split_ifs <;> simp

theorem edgeCase_within (h0 h1 m0 m1 : α) (hh0 : 0 < h0) (hh1 : 0 < h1) : Within m0 (edgeCase h0 h1 m0 m1) := by
  -- by symmetry assume m0 >= 0
  have main : ∀ m0 m1 : α, 0 ≤ m0 → Within m0 (edgeCase h0 h1 m0 m1) := by
    intro m0 m1 hm
    simp only [edgeCase]
    set d := ((2 * h0 + h1) * m0 - h0 * m1) / (h0 + h1) with hd
    have hH : 0 < h0 + h1 := by linarith
    split_ifs with c1 c2
    · left; constructor <;> linarith
    · left; constructor <;> linarith
    · rw [not_not, sgn_eq_iff] at c1
      rcases c1 with ⟨d0, m0p⟩ | ⟨d0, m0n⟩ | ⟨d0, m00⟩
      · left
        refine ⟨d0.le, ?_⟩
        by_cases c3 : sgn m0 = sgn m1
        · rw [sgn_eq_iff] at c3
          have m1p : 0 < m1 := by rcases c3 with ⟨_, h⟩ | ⟨h, _⟩ | ⟨h, _⟩ <;> linarith
          rw [hd, div_le_iff₀ hH]
          nlinarith [mul_pos hh0 m1p, mul_pos hh1 m0p, mul_pos hh0 m0p]
        · have := not_and.1 c2 c3
          rw [not_lt, abs_of_pos d0, abs_of_pos m0p] at this
          exact this
      · linarith
      · left; constructor <;> linarith
  rcases le_total 0 m0 with h | h
  · exact main m0 m1 h
  · apply Within.neg
    rw [← edgeCase_neg]
    exact main (-m0) (-m1) (by linarith)

theorem pchipInner_neg (h0 h1 m0 m1 : α) : pchipInner h0 h1 (-m0) (-m1) = - pchipInner h0 h1 m0 m1 := by
  simp only [pchipInner, sgn_neg, ne_eq, neg_inj, neg_eq_zero]
  split_ifs
  · simp
  · rw [div_neg, div_neg, ← neg_add, neg_div, one_div, one_div, inv_neg]

theorem pchipInner_within (h0 h1 m0 m1 : α) (hh0 : 0 < h0) (hh1 : 0 < h1) :
    Within m0 (pchipInner h0 h1 m0 m1) ∧ Within m1 (pchipInner h0 h1 m0 m1) := by
  have main : ∀ m0 m1 : α, 0 < m0 → 0 < m1 →
      Within m0 (pchipInner h0 h1 m0 m1) ∧ Within m1 (pchipInner h0 h1 m0 m1) := by
    intro m0 m1 p0 p1
    have hform : pchipInner h0 h1 m0 m1 =
        3 * (h0 + h1) * m0 * m1 / ((2 * h1 + h0) * m1 + (h1 + 2 * h0) * m0) := by
      have : ¬ (sgn m1 ≠ sgn m0 ∨ m1 = 0 ∨ m0 = 0) := by
        rw [sgn_pos p0, sgn_pos p1]; simp [p0.ne', p1.ne']
      simp only [pchipInner]
      rw [if_neg this]
      have := p0.ne'
      have := p1.ne'
      field_simp
      ring
    have hden : 0 < (2 * h1 + h0) * m1 + (h1 + 2 * h0) * m0 := by positivity
    rw [hform]
    refine ⟨.inl ⟨by positivity, ?_⟩, .inl ⟨by positivity, ?_⟩⟩
    · rw [div_le_iff₀ hden]
      have : 3 * m0 * ((2 * h1 + h0) * m1 + (h1 + 2 * h0) * m0) - 3 * (h0 + h1) * m0 * m1 =
        3 * (m0 * m1 * h1) + 3 * (m0 * m0 * (h1 + 2 * h0)) := by ring
      have : 0 ≤ 3 * (m0 * m1 * h1) + 3 * (m0 * m0 * (h1 + 2 * h0)) := by positivity
      linarith
    · rw [div_le_iff₀ hden]
      have : 3 * m1 * ((2 * h1 + h0) * m1 + (h1 + 2 * h0) * m0) - 3 * (h0 + h1) * m0 * m1 =
        3 * (m0 * m1 * h0) + 3 * (m1 * m1 * (2 * h1 + h0)) := by ring
      have : 0 ≤ 3 * (m0 * m1 * h0) + 3 * (m1 * m1 * (2 * h1 + h0)) := by positivity
      linarith
  by_cases c : sgn m1 ≠ sgn m0 ∨ m1 = 0 ∨ m0 = 0
  · have : pchipInner h0 h1 m0 m1 = 0 := by simp only [pchipInner]; rw [if_pos c]
    rw [this]
    constructor
    · rcases le_total 0 m0 with h | h
      · left; constructor <;> linarith
      · right; constructor <;> linarith
    · rcases le_total 0 m1 with h | h
      · left; constructor <;> linarith
      · right; constructor <;> linarith
  · push Not at c
    obtain ⟨c1, c2, c3⟩ := c
    rcases (sgn_eq_iff _ _).1 c1 with ⟨p1, p0⟩ | ⟨p1, p0⟩ | ⟨p1, p0⟩
    · exact main m0 m1 p0 p1
    · have := main (-m0) (-m1) (by linarith) (by linarith)
      rw [pchipInner_neg] at this
      exact ⟨this.1.neg, this.2.neg⟩
    · exact absurd p1 c2

/-- Every pchip slope lies between 0 and three times each neighbouring secant. -/
theorem pchip_within (n : ℕ) (h m : ℕ → α) (hn : 2 ≤ n) (hh : ∀ i, i + 1 < n → 0 < h i) (i : ℕ) (hi : i + 1 < n) :
    Within (m i) (pchip n h m i) ∧ Within (m i) (pchip n h m (i + 1)) := by
  have triv : ∀ a : α, Within a a := by
    intro a
    rcases le_total 0 a with h | h
    · left; constructor <;> linarith
    · right; constructor <;> linarith
  unfold pchip
  by_cases h2 : n = 2
  · obtain rfl : i = 0 := by omega
    simp [h2, triv]
  rw [if_neg h2, if_neg h2]
  constructor
  · by_cases h0 : i = 0
    · subst h0; simpa using edgeCase_within _ _ _ (m 1) (hh 0 (by omega)) (hh 1 (by omega))
    · rw [if_neg h0, if_neg (by omega)]
      exact (pchipInner_within _ _ _ _ (hh (i - 1) (by omega)) (hh i hi)).2
  · rw [if_neg (by omega)]
    by_cases h1 : i + 1 = n - 1
    · rw [if_pos h1]
      have : n - 2 = i := by omega
      rw [this, show n - 3 = i - 1 by omega]
      exact edgeCase_within _ _ _ _ (hh i hi) (hh (i - 1) (by omega))
    · rw [if_neg h1]
      simpa using (pchipInner_within _ _ _ (m (i + 1)) (hh i hi) (hh (i + 1) (by omega))).1

end Wafo.Slopes
