import Verif.Gauss.Rect
import Verif.Gauss.Model

/-!
# `prbnorm2d`: rectangle probabilities (property C233)
-/

set_option linter.unusedSectionVars false

namespace Wafo.Gauss

open MeasureTheory ProbabilityTheory Set

/-- Specification: the probability `P(a₁ ≤ X₁ ≤ b₁, a₂ ≤ X₂ ≤ b₂)` for correlation `r`. -/
noncomputable def rectProb (a b : EReal × EReal) (r : ℝ) : ℝ :=
  (pairLaw r).real {p | (a.1 ≤ p.1 ∧ p.1 ≤ b.1) ∧ (a.2 ≤ p.2 ∧ p.2 ≤ b.2)}

/-- A limit the function distinguishes from infinity, or an infinite one. -/
def Admissible (x : EReal) : Prop := x = ⊥ ∨ x = ⊤ ∨ ∃ y : ℝ, x = y ∧ |y| < 37

theorem rect_measurable (a b : EReal) (f : ℝ × ℝ → ℝ) (hf : Measurable f) :
    MeasurableSet {p | a ≤ (f p : EReal) ∧ (f p : EReal) ≤ b} := by
  have hfe : Measurable (fun p => (f p : EReal)) := measurable_coe_real_ereal.comp hf
  exact (measurableSet_le measurable_const hfe).inter (measurableSet_le hfe measurable_const)

theorem rect_upper (a b : EReal × EReal) (r : ℝ) (h1 : a.1 ≤ b.1) (h2 : a.2 ≤ b.2) :
    rectProb a b r =
      (pairLaw r).real {p | a.1 ≤ p.1 ∧ a.2 ≤ p.2} - (pairLaw r).real {p | b.1 ≤ p.1 ∧ a.2 ≤ p.2} -
      ((pairLaw r).real {p | a.1 ≤ p.1 ∧ b.2 ≤ p.2} -
        (pairLaw r).real {p | b.1 ≤ p.1 ∧ b.2 ≤ p.2}) := by
  have m2 : ∀ c : EReal, MeasurableSet {p : ℝ × ℝ | c ≤ (p.2 : EReal)} := fun c =>
    measurableSet_le measurable_const (measurable_coe_real_ereal.comp measurable_snd)
  have m1 : ∀ c : EReal, MeasurableSet {p : ℝ × ℝ | c ≤ (p.1 : EReal)} := fun c =>
    measurableSet_le measurable_const (measurable_coe_real_ereal.comp measurable_fst)
  have s1 := split_upper (μ := pairLaw r) Prod.fst measurable_fst a.1 b.1 h1
    (pair_fst_null r) (rect_measurable a.2 b.2 Prod.snd measurable_snd)
  have s2 := fun c : EReal => split_upper (μ := pairLaw r) Prod.snd measurable_snd a.2 b.2 h2
    (pair_snd_null r) (m1 c)
  have e : ∀ c : EReal, {p : ℝ × ℝ | c ≤ (p.1 : EReal) ∧
      p ∈ {p : ℝ × ℝ | a.2 ≤ (p.2 : EReal) ∧ (p.2 : EReal) ≤ b.2}} =
      {p : ℝ × ℝ | (a.2 ≤ (p.2 : EReal) ∧ (p.2 : EReal) ≤ b.2) ∧
        p ∈ {p : ℝ × ℝ | c ≤ (p.1 : EReal)}} := fun c => by ext p; exact and_comm
  have e2 : ∀ c d : EReal, {p : ℝ × ℝ | d ≤ (p.2 : EReal) ∧ p ∈ {p : ℝ × ℝ | c ≤ (p.1 : EReal)}} =
      {p : ℝ × ℝ | c ≤ (p.1 : EReal) ∧ d ≤ (p.2 : EReal)} := fun c d => by ext p; exact and_comm
  unfold rectProb
  refine s1.trans ?_
  rw [e, e, s2, s2, e2, e2, e2, e2]
  ring

theorem rect_lower (a b : EReal × EReal) (r : ℝ) (h1 : a.1 ≤ b.1) (h2 : a.2 ≤ b.2) :
    rectProb a b r =
      (pairLaw r).real {p | p.1 ≤ b.1 ∧ p.2 ≤ b.2} - (pairLaw r).real {p | p.1 ≤ a.1 ∧ p.2 ≤ b.2} -
      ((pairLaw r).real {p | p.1 ≤ b.1 ∧ p.2 ≤ a.2} -
        (pairLaw r).real {p | p.1 ≤ a.1 ∧ p.2 ≤ a.2}) := by
  have m1 : ∀ c : EReal, MeasurableSet {p : ℝ × ℝ | (p.1 : EReal) ≤ c} := fun c =>
    measurableSet_le (measurable_coe_real_ereal.comp measurable_fst) measurable_const
  have s1 := split_lower (μ := pairLaw r) Prod.fst measurable_fst a.1 b.1 h1
    (pair_fst_null r) (rect_measurable a.2 b.2 Prod.snd measurable_snd)
  have s2 := fun c : EReal => split_lower (μ := pairLaw r) Prod.snd measurable_snd a.2 b.2 h2
    (pair_snd_null r) (m1 c)
  have e : ∀ c : EReal, {p : ℝ × ℝ | (p.1 : EReal) ≤ c ∧
      p ∈ {p : ℝ × ℝ | a.2 ≤ (p.2 : EReal) ∧ (p.2 : EReal) ≤ b.2}} =
      {p : ℝ × ℝ | (a.2 ≤ (p.2 : EReal) ∧ (p.2 : EReal) ≤ b.2) ∧
        p ∈ {p : ℝ × ℝ | (p.1 : EReal) ≤ c}} := fun c => by ext p; exact and_comm
  have e2 : ∀ c d : EReal, {p : ℝ × ℝ | (p.2 : EReal) ≤ d ∧ p ∈ {p : ℝ × ℝ | (p.1 : EReal) ≤ c}} =
      {p : ℝ × ℝ | (p.1 : EReal) ≤ c ∧ (p.2 : EReal) ≤ d} := fun c d => by ext p; exact and_comm
  unfold rectProb
  refine s1.trans ?_
  rw [e, e, s2, s2, e2, e2, e2, e2]
  ring

/-- An empty or degenerate side has probability zero. -/
theorem rect_empty (a b : EReal × EReal) (r : ℝ) (h : a.1 ≥ b.1 ∨ a.2 ≥ b.2) :
    rectProb a b r = 0 := by
  have key : ∀ (f : ℝ × ℝ → ℝ) (x y : EReal), x ≥ y → (∀ c : ℝ, (pairLaw r) {p | f p = c} = 0) →
      (pairLaw r) {p | x ≤ (f p : EReal) ∧ (f p : EReal) ≤ y} = 0 := by
    intro f x y hxy hn
    by_cases hx : ∃ c : ℝ, x = c
    · obtain ⟨c, rfl⟩ := hx
      refine measure_mono_null ?_ (hn c)
      intro p hp
      have h1 : ((f p : ℝ) : EReal) ≤ c := hp.2.trans hxy
      exact_mod_cast le_antisymm (EReal.coe_le_coe_iff.1 h1) (EReal.coe_le_coe_iff.1 hp.1)
    · have : {p | x ≤ (f p : EReal) ∧ (f p : EReal) ≤ y} = ∅ := by
        ext p
        simp only [mem_ofPred_eq, mem_empty_iff_false, iff_false]
        rintro ⟨h1, h2⟩
        exact hx ⟨f p, le_antisymm h1 (h2.trans hxy)⟩
      rw [this]; simp
  have hz : (pairLaw r) {p | (a.1 ≤ (p.1 : EReal) ∧ (p.1 : EReal) ≤ b.1) ∧
      (a.2 ≤ (p.2 : EReal) ∧ (p.2 : EReal) ≤ b.2)} = 0 := by
    rcases h with h | h
    · exact measure_mono_null (fun p hp => hp.1) (key Prod.fst a.1 b.1 h (pair_fst_null r))
    · exact measure_mono_null (fun p hp => hp.2) (key Prod.snd a.2 b.2 h (pair_snd_null r))
  unfold rectProb Measure.real
  rw [hz]
  rfl

theorem Admissible.cases {x : EReal} (h : Admissible x) :
    (x = ⊥ ∧ x < -37 ∧ ¬ x > 37) ∨ (x = ⊤ ∧ ¬ x < -37 ∧ x > 37) ∨
      (∃ y : ℝ, x = y ∧ |y| < 37 ∧ ¬ x < -37 ∧ ¬ x > 37) := by
  have e37 : (37 : EReal) = ((37 : ℝ) : EReal) := rfl
  have en37 : (-37 : EReal) = ((-37 : ℝ) : EReal) := by rw [EReal.coe_neg]; rfl
  rcases h with rfl | rfl | ⟨y, rfl, hy⟩
  · refine Or.inl ⟨rfl, ?_, ?_⟩
    · rw [en37]; exact EReal.bot_lt_coe _
    · simp
  · refine Or.inr (Or.inl ⟨rfl, ?_, ?_⟩)
    · simp
    · rw [e37]; exact EReal.coe_lt_top _
  · refine Or.inr (Or.inr ⟨y, rfl, hy, ?_, ?_⟩)
    · rw [en37, EReal.coe_lt_coe_iff]; rw [abs_lt] at hy; linarith [hy.1]
    · rw [e37, gt_iff_lt, EReal.coe_lt_coe_iff]; rw [abs_lt] at hy; linarith [hy.2]

/-- **C233** (partial). With an exact bivariate distribution function, `prbnorm2d` returns the
probability of the rectangle, for limits that are infinite or below 37 in magnitude.  Missing: the
strips, with exactly one variable unlimited on both sides, for which it fails
(`C233_not_strip`). -/
theorem C233_rectangle_partial (F : EReal → EReal → ℝ → ℝ)
    (hF : ∀ x y r : ℝ, F x y r = Phi2 x y r) (a b : EReal × EReal) (r : ℝ)
    (ha1 : Admissible a.1) (hb1 : Admissible b.1) (ha2 : Admissible a.2) (hb2 : Admissible b.2)
    (hstrip : (a.1 = ⊥ ∧ b.1 = ⊤) ↔ (a.2 = ⊥ ∧ b.2 = ⊤)) :
    prbnorm2d F a b r = rectProb a b r := by
  have hFn : ∀ x y r : ℝ, F (-(x : EReal)) (-(y : EReal)) r = Phi2 (-x) (-y) r := by
    intro x y r
    rw [← EReal.coe_neg, ← EReal.coe_neg, hF]
  have hFn1 : ∀ x y r : ℝ, F (-(x : EReal)) (y : EReal) r = Phi2 (-x) y r := by
    intro x y r
    rw [← EReal.coe_neg, hF]
  have hFn2 : ∀ x y r : ℝ, F (x : EReal) (-(y : EReal)) r = Phi2 x (-y) r := by
    intro x y r
    rw [← EReal.coe_neg, hF]
  have topc : ∀ x : ℝ, ¬ ((⊤ : EReal) ≤ x) := fun x => not_le.2 (EReal.coe_lt_top x)
  have botc : ∀ x : ℝ, ¬ ((x : EReal) ≤ ⊥) := fun x => not_le.2 (EReal.bot_lt_coe x)
  by_cases hall : (a.1 ≤ -37 ∧ 37 ≤ b.1) ∧ (a.2 ≤ -37 ∧ 37 ≤ b.2)
  · -- both unlimited
    have lo : ∀ x : EReal, Admissible x → x ≤ -37 → x = ⊥ := by
      intro x hx h
      rcases hx.cases with ⟨h1, _⟩ | ⟨h1, h2, h3⟩ | ⟨y, rfl, hy, _, _⟩
      · exact h1
      · exact absurd (h2) (not_not.2 (lt_of_le_of_ne h fun e => by
          rw [e, show (-37 : EReal) = ((-37 : ℝ) : EReal) by rw [EReal.coe_neg]; rfl] at h1
          exact EReal.coe_ne_top _ h1))
      · exfalso
        rw [show (-37 : EReal) = ((-37 : ℝ) : EReal) by rw [EReal.coe_neg]; rfl,
          EReal.coe_le_coe_iff] at h
        rw [abs_lt] at hy; linarith [hy.1]
    have up : ∀ x : EReal, Admissible x → 37 ≤ x → x = ⊤ := by
      intro x hx h
      rcases hx.cases with ⟨h1, h2, h3⟩ | ⟨h1, _⟩ | ⟨y, rfl, hy, _, _⟩
      · exact absurd (lt_of_le_of_ne h fun e => by
          rw [← e, show (37 : EReal) = ((37 : ℝ) : EReal) from rfl] at h1
          exact EReal.coe_ne_bot _ h1) h3
      · exact h1
      · exfalso
        rw [show (37 : EReal) = ((37 : ℝ) : EReal) from rfl, EReal.coe_le_coe_iff] at h
        rw [abs_lt] at hy; linarith [hy.2]
    have e1 := lo _ ha1 hall.1.1
    have e2 := up _ hb1 hall.1.2
    have e3 := lo _ ha2 hall.2.1
    have e4 := up _ hb2 hall.2.2
    rw [prbnorm2d, if_pos hall, rectProb, e1, e2, e3, e4]
    simp
  · by_cases hemp : a.1 ≥ b.1 ∨ a.2 ≥ b.2
    · rw [prbnorm2d, if_neg hall, if_pos hemp, rect_empty a b r hemp]
    · have h1 : a.1 < b.1 := not_le.1 fun h => hemp (Or.inl h)
      have h2 : a.2 < b.2 := not_le.1 fun h => hemp (Or.inr h)
      have hU := rect_upper a b r h1.le h2.le
      have hL := rect_lower a b r h1.le h2.le
      rw [prbnorm2d, if_neg hall, if_neg hemp]
      obtain ⟨a1, a2⟩ := a
      obtain ⟨b1, b2⟩ := b
      dsimp only at *
      simp only [infin, bvd, neg_neg]
      rcases ha1.cases with ⟨e1, p1, p2⟩ | ⟨e1, p1, p2⟩ | ⟨x1, e1, _, p1, p2⟩
      · rcases hb1.cases with ⟨e2, q1, q2⟩ | ⟨e2, q1, q2⟩ | ⟨y1, e2, _, q1, q2⟩
        · exact absurd h1 (by rw [e1, e2]; simp)
        · -- first variable unlimited
          have h3 := hstrip.1 ⟨e1, e2⟩
          exfalso
          apply hall
          rw [e1, e2, h3.1, h3.2]
          simp
        · rcases ha2.cases with ⟨e3, s1, s2⟩ | ⟨e3, s1, s2⟩ | ⟨x2, e3, _, s1, s2⟩
          · rcases hb2.cases with ⟨e4, t1, t2⟩ | ⟨e4, t1, t2⟩ | ⟨y2, e4, _, t1, t2⟩
            · exact absurd h2 (by rw [e3, e4]; simp)
            · have h3 := hstrip.2 ⟨e3, e4⟩
              rw [e2] at h3
              exact absurd h3.2 (by simp)
            · simp [p1, q2, s1, t2]
              rw [hL, e1, e2, e3, e4, hF]
              simp [pair_lower]
          · exact absurd h2 (by rw [e3]; simp)
          · rcases hb2.cases with ⟨e4, t1, t2⟩ | ⟨e4, t1, t2⟩ | ⟨y2, e4, _, t1, t2⟩
            · exact absurd h2 (by rw [e4]; simp)
            · simp [p1, q2, s1, t2]
              rw [rectProb, e1, e2, e3, e4, hFn2, ← pair_mixed']
              simp
            · simp [p1, q2, s1, t2]
              rw [hL, e1, e2, e3, e4, hF, hF]
              simp [pair_lower]
      · exact absurd h1 (by rw [e1]; simp)
      · rcases hb1.cases with ⟨e2, q1, q2⟩ | ⟨e2, q1, q2⟩ | ⟨y1, e2, _, q1, q2⟩
        · exact absurd h1 (by rw [e2]; simp)
        · rcases ha2.cases with ⟨e3, s1, s2⟩ | ⟨e3, s1, s2⟩ | ⟨x2, e3, _, s1, s2⟩
          · rcases hb2.cases with ⟨e4, t1, t2⟩ | ⟨e4, t1, t2⟩ | ⟨y2, e4, _, t1, t2⟩
            · exact absurd h2 (by rw [e4]; simp)
            · have h3 := hstrip.2 ⟨e3, e4⟩
              rw [e1] at h3
              exact absurd h3.1 (by simp)
            · simp [p1, q2, s1, t2]
              rw [rectProb, e1, e2, e3, e4, hFn1, ← pair_mixed]
              simp
          · exact absurd h2 (by rw [e3]; simp)
          · rcases hb2.cases with ⟨e4, t1, t2⟩ | ⟨e4, t1, t2⟩ | ⟨y2, e4, _, t1, t2⟩
            · exact absurd h2 (by rw [e4]; simp)
            · simp [p1, q2, s1, t2]
              rw [hU, e1, e2, e3, e4, hFn]
              simp [pair_upper]
            · simp [p1, q2, s1, t2]
              rw [hU, e1, e2, e3, e4, hFn, hFn]
              simp [pair_upper]
        · rcases ha2.cases with ⟨e3, s1, s2⟩ | ⟨e3, s1, s2⟩ | ⟨x2, e3, _, s1, s2⟩
          · rcases hb2.cases with ⟨e4, t1, t2⟩ | ⟨e4, t1, t2⟩ | ⟨y2, e4, _, t1, t2⟩
            · exact absurd h2 (by rw [e4]; simp)
            · have h3 := hstrip.2 ⟨e3, e4⟩
              rw [e1] at h3
              exact absurd h3.1 (by simp)
            · simp [p1, q2, s1, t2]
              rw [hL, e1, e2, e3, e4, hF, hF]
              simp [pair_lower]
          · exact absurd h2 (by rw [e3]; simp)
          · rcases hb2.cases with ⟨e4, t1, t2⟩ | ⟨e4, t1, t2⟩ | ⟨y2, e4, _, t1, t2⟩
            · exact absurd h2 (by rw [e4]; simp)
            · simp [p1, q2, s1, t2]
              rw [hU, e1, e2, e3, e4, hFn, hFn]
              simp [pair_upper]
            · simp [p1, q2, s1, t2]
              rw [hU, e1, e2, e3, e4, hFn, hFn, hFn, hFn]
              simp [pair_upper]
              ring

/-- The strip `-1 ≤ X₁ ≤ 1` with the second variable unlimited: the function returns one whatever
the bivariate distribution function, although the probability is below one. -/
theorem C233_not_strip (F : EReal → EReal → ℝ → ℝ) (r : ℝ) :
    prbnorm2d F (((-1 : ℝ) : EReal), ⊥) (((1 : ℝ) : EReal), ⊤) r = 1 ∧
      rectProb (((-1 : ℝ) : EReal), ⊥) (((1 : ℝ) : EReal), ⊤) r < 1 := by
  constructor
  · have e37 : (37 : EReal) = ((37 : ℝ) : EReal) := rfl
    have en37 : (-37 : EReal) = ((-37 : ℝ) : EReal) := by rw [EReal.coe_neg]; rfl
    have n1 : ¬ (((-1 : ℝ) : EReal) ≤ -37) := by rw [en37, EReal.coe_le_coe_iff]; norm_num
    have n2 : ¬ (((-1 : ℝ) : EReal) ≥ ((1 : ℝ) : EReal)) := by
      rw [ge_iff_le, EReal.coe_le_coe_iff]; norm_num
    have n3 : ¬ (((-1 : ℝ) : EReal) < -37) := by rw [en37, EReal.coe_lt_coe_iff]; norm_num
    have n4 : ¬ (((1 : ℝ) : EReal) > 37) := by rw [e37, gt_iff_lt, EReal.coe_lt_coe_iff]; norm_num
    have n5 : (⊥ : EReal) < -37 := by rw [en37]; exact EReal.bot_lt_coe _
    have n6 : (⊤ : EReal) > 37 := by rw [e37]; exact EReal.coe_lt_top _
    have i0 : infin ((-1 : ℝ) : EReal) ((1 : ℝ) : EReal) = 2 := by simp only [infin, n3, n4]; rfl
    have i1 : infin ⊥ ⊤ = -1 := by simp only [infin, n5, n6]; rfl
    rw [prbnorm2d, if_neg (fun h => n1 h.1.1), if_neg (fun h => h.elim n2 (by simp))]
    simp only [i0, i1]
    norm_num
  · have hset : {p : ℝ × ℝ | (((-1 : ℝ) : EReal) ≤ (p.1 : EReal) ∧ (p.1 : EReal) ≤ ((1 : ℝ) : EReal)) ∧
        ((⊥ : EReal) ≤ (p.2 : EReal) ∧ (p.2 : EReal) ≤ ⊤)} = {p | p.1 ∈ Icc (-1 : ℝ) 1} := by
      ext p
      simp only [mem_ofPred_eq, EReal.coe_le_coe_iff, bot_le, le_top, and_true, mem_Icc]
    have hle : rectProb (((-1 : ℝ) : EReal), ⊥) (((1 : ℝ) : EReal), ⊤) r ≤ Phi 1 := by
      unfold rectProb
      simp only [hset]
      unfold pairLaw
      have hm : MeasurableSet {p : ℝ × ℝ | p.1 ∈ Icc (-1 : ℝ) 1} := measurable_fst measurableSet_Icc
      rw [map_measureReal_apply (by fun_prop) hm]
      have : (fun p : ℝ × ℝ => (p.1, r * p.1 + √(1 - r ^ 2) * p.2)) ⁻¹'
          {p : ℝ × ℝ | p.1 ∈ Icc (-1 : ℝ) 1} ⊆ Iic 1 ×ˢ univ := by
        intro p hp
        exact ⟨hp.2, mem_univ _⟩
      refine (measureReal_mono this).trans ?_
      rw [measureReal_prod_prod]
      simp [Phi]
    exact lt_of_le_of_lt hle (Phi_lt_one 1)

/-- A bounded rectangle meeting the hypotheses. -/
example (F : EReal → EReal → ℝ → ℝ) (hF : ∀ x y r : ℝ, F x y r = Phi2 x y r) :
    prbnorm2d F (((-1 : ℝ) : EReal), ((-2 : ℝ) : EReal)) (((1 : ℝ) : EReal), ⊤) 0.3 =
      rectProb (((-1 : ℝ) : EReal), ((-2 : ℝ) : EReal)) (((1 : ℝ) : EReal), ⊤) 0.3 := by
  refine C233_rectangle_partial F hF _ _ _ (Or.inr (Or.inr ⟨-1, rfl, by norm_num [abs_lt]⟩))
    (Or.inr (Or.inr ⟨1, rfl, by norm_num [abs_lt]⟩)) (Or.inr (Or.inr ⟨-2, rfl, by norm_num [abs_lt]⟩))
    (Or.inr (Or.inl rfl)) ?_
  constructor
  · rintro ⟨h, _⟩; exact absurd h (EReal.coe_ne_bot _)
  · rintro ⟨h, _⟩; exact absurd h (EReal.coe_ne_bot _)

end Wafo.Gauss
