import Verif.Gauss.High
import Mathlib.MeasureTheory.Constructions.BorelSpace.Real

/-!
# Lemmas on rectangle probabilities of a correlated normal pair
-/

set_option linter.unusedSectionVars false

namespace Wafo.Gauss

open MeasureTheory ProbabilityTheory Set

instance pairLaw_prob (r : ℝ) : IsProbabilityMeasure (pairLaw r) := by
  unfold pairLaw
  exact Measure.isProbabilityMeasure_map (by fun_prop)

theorem stdN_neg : stdN.map (fun x => -x) = stdN := by
  rw [gaussianReal_map_neg, neg_zero]

/-- Changing the sign of the second variable changes the sign of the correlation. -/
theorem pairLaw_neg_snd (r : ℝ) :
    (pairLaw r).map (fun p => (p.1, -p.2)) = pairLaw (-r) := by
  unfold pairLaw
  have hp : (stdN.prod stdN).map (fun p : ℝ × ℝ => (p.1, -p.2)) = stdN.prod stdN := by
    have := Measure.map_prod_map (f := fun x : ℝ => x) (g := fun x : ℝ => -x) stdN stdN
      measurable_id measurable_neg
    rw [stdN_neg, show (fun x : ℝ => x) = id from rfl, Measure.map_id] at this
    exact this.symm
  conv_rhs => rw [← hp]
  rw [Measure.map_map (by fun_prop) (by fun_prop), Measure.map_map (by fun_prop) (by fun_prop)]
  congr 1
  funext p
  simp only [Function.comp, neg_sq]
  ext <;> simp
  ring

/-- Changing the sign of the first variable changes the sign of the correlation. -/
theorem pairLaw_neg_fst (r : ℝ) :
    (pairLaw r).map (fun p => (-p.1, p.2)) = pairLaw (-r) := by
  unfold pairLaw
  have hp : (stdN.prod stdN).map (fun p : ℝ × ℝ => (-p.1, p.2)) = stdN.prod stdN := by
    have := Measure.map_prod_map (f := fun x : ℝ => -x) (g := fun x : ℝ => x) stdN stdN
      measurable_neg measurable_id
    rw [stdN_neg, show (fun x : ℝ => x) = id from rfl, Measure.map_id] at this
    exact this.symm
  conv_rhs => rw [← hp]
  rw [Measure.map_map (by fun_prop) (by fun_prop), Measure.map_map (by fun_prop) (by fun_prop)]
  congr 1
  funext p
  simp only [Function.comp, neg_sq]
  ext <;> simp

/-- The law is symmetric about the origin. -/
theorem pairLaw_neg (r : ℝ) : (pairLaw r).map (fun p => (-p.1, -p.2)) = pairLaw r := by
  have h := pairLaw_neg_snd (-r)
  rw [neg_neg, ← pairLaw_neg_fst r, Measure.map_map (by fun_prop) (by fun_prop)] at h
  exact h

theorem pair_upper (r x y : ℝ) :
    (pairLaw r).real {p | x ≤ p.1 ∧ y ≤ p.2} = Phi2 (-x) (-y) r := by
  unfold Phi2
  conv_rhs => rw [← pairLaw_neg r]
  rw [map_measureReal_apply (by fun_prop) (measurableSet_Iic.prod measurableSet_Iic)]
  congr 1
  ext p
  simp

theorem pair_lower (r x y : ℝ) :
    (pairLaw r).real {p | p.1 ≤ x ∧ p.2 ≤ y} = Phi2 x y r := by
  unfold Phi2
  congr 1

theorem pair_mixed (r x y : ℝ) :
    (pairLaw r).real {p | x ≤ p.1 ∧ p.2 ≤ y} = Phi2 (-x) y (-r) := by
  unfold Phi2
  conv_rhs => rw [← pairLaw_neg_fst r]
  rw [map_measureReal_apply (by fun_prop) (measurableSet_Iic.prod measurableSet_Iic)]
  congr 1
  ext p
  simp

theorem pair_mixed' (r x y : ℝ) :
    (pairLaw r).real {p | p.1 ≤ x ∧ y ≤ p.2} = Phi2 x (-y) (-r) := by
  unfold Phi2
  conv_rhs => rw [← pairLaw_neg_snd r]
  rw [map_measureReal_apply (by fun_prop) (measurableSet_Iic.prod measurableSet_Iic)]
  congr 1
  ext p
  simp

theorem stdN_line (c s d : ℝ) (hs : s ≠ 0) : stdN.real {z | c + s * z = d} = 0 := by
  have : {z : ℝ | c + s * z = d} = {(d - c) / s} := by
    ext z
    simp only [mem_ofPred_eq, mem_singleton_iff]
    rw [eq_div_iff hs]
    constructor <;> intro h <;> linarith
  rw [this]
  have hna : NullSingletonClass stdN := nullSingletonClass_gaussianReal one_ne_zero
  simp [Measure.real]

/-- No mass on vertical lines. -/
theorem pair_fst_null (r c : ℝ) : (pairLaw r) {p | p.1 = c} = 0 := by
  unfold pairLaw
  rw [Measure.map_apply (by fun_prop) (measurableSet_eq_fun (by fun_prop) (by fun_prop))]
  have : ((fun p : ℝ × ℝ => (p.1, r * p.1 + √(1 - r ^ 2) * p.2)) ⁻¹' {p | p.1 = c}) =
      {c} ×ˢ (univ : Set ℝ) := by
    ext p; simp
  rw [this, Measure.prod_prod]
  have hna : NullSingletonClass stdN := nullSingletonClass_gaussianReal one_ne_zero
  simp

/-- No mass on horizontal lines. -/
theorem pair_snd_null (r c : ℝ) : (pairLaw r) {p | p.2 = c} = 0 := by
  have hms : MeasurableSet {p : ℝ × ℝ | p.2 = c} :=
    measurableSet_eq_fun (by fun_prop) (by fun_prop)
  have hreal : (pairLaw r).real {p | p.2 = c} = 0 := by
    rw [law_real r hms]
    rcases eq_or_ne (√(1 - r ^ 2)) 0 with h0 | h0
    · have hr2 : r ≠ 0 := by
        rintro rfl
        simp at h0
      have hae : ∀ᵐ x : ℝ, phi x * stdN.real {z | (x, r * x + √(1 - r ^ 2) * z) ∈
          {p : ℝ × ℝ | p.2 = c}} = 0 := by
        have hx : ∀ᵐ x : ℝ, x ≠ c / r := by
          rw [ae_iff]
          simp
        filter_upwards [hx] with x hx
        have : {z : ℝ | (x, r * x + √(1 - r ^ 2) * z) ∈ {p : ℝ × ℝ | p.2 = c}} = ∅ := by
          ext z
          simp only [mem_ofPred_eq, mem_empty_iff_false, iff_false, h0]
          intro h
          apply hx
          rw [eq_div_iff hr2]
          linarith
        show phi x * stdN.real {z : ℝ | (x, r * x + √(1 - r ^ 2) * z) ∈ {p : ℝ × ℝ | p.2 = c}} = 0
        rw [this]
        simp
      rw [integral_congr_ae hae]
      simp
    · have : ∀ x : ℝ, phi x * stdN.real {z | (x, r * x + √(1 - r ^ 2) * z) ∈
          {p : ℝ × ℝ | p.2 = c}} = 0 := by
        intro x
        have := stdN_line (r * x) (√(1 - r ^ 2)) c h0
        simp only [mem_ofPred_eq]
        rw [this, mul_zero]
      simp only [this, integral_zero]
  exact (measureReal_eq_zero_iff (measure_ne_top _ _)).1 hreal

/-- Splitting at a null boundary: `{a ≤ f ≤ b} ∩ Q` has the mass of `{a ≤ f} ∩ Q` minus that of
`{b ≤ f} ∩ Q`. -/
theorem split_upper {μ : Measure (ℝ × ℝ)} [IsProbabilityMeasure μ] (f : ℝ × ℝ → ℝ)
    (hf : Measurable f) (a b : EReal) (hab : a ≤ b) (hb : ∀ y : ℝ, μ {p | f p = y} = 0)
    {Q : Set (ℝ × ℝ)} (hQ : MeasurableSet Q) :
    μ.real {p | (a ≤ f p ∧ f p ≤ b) ∧ p ∈ Q} =
      μ.real {p | a ≤ f p ∧ p ∈ Q} - μ.real {p | b ≤ f p ∧ p ∈ Q} := by
  have hfe : Measurable (fun p => (f p : EReal)) := measurable_coe_real_ereal.comp hf
  have m1 : ∀ c : EReal, MeasurableSet {p | c ≤ (f p : EReal) ∧ p ∈ Q} := fun c =>
    (measurableSet_le measurable_const hfe).inter hQ
  have hsub : {p | b ≤ (f p : EReal) ∧ p ∈ Q} ⊆ {p | a ≤ (f p : EReal) ∧ p ∈ Q} :=
    fun p hp => ⟨hab.trans hp.1, hp.2⟩
  rw [← measureReal_sdiff hsub (m1 b)]
  refine measureReal_congr ?_
  have hnull : ∀ᵐ p ∂μ, (f p : EReal) ≠ b := by
    rw [ae_iff]
    simp only [not_not]
    induction b with
    | bot => simp
    | top => simp
    | coe y => simpa using hb y
  filter_upwards [hnull] with p hp
  apply propext
  show ((a ≤ (f p : EReal) ∧ (f p : EReal) ≤ b) ∧ p ∈ Q) ↔
    ((a ≤ (f p : EReal) ∧ p ∈ Q) ∧ ¬ (b ≤ (f p : EReal) ∧ p ∈ Q))
  constructor
  · rintro ⟨⟨h1, h2⟩, h3⟩
    exact ⟨⟨h1, h3⟩, fun h => hp (le_antisymm h2 h.1)⟩
  · rintro ⟨⟨h1, h3⟩, h⟩
    refine ⟨⟨h1, ?_⟩, h3⟩
    by_contra h'
    exact h ⟨(not_le.1 h').le, h3⟩

/-- The same with lower sets. -/
theorem split_lower {μ : Measure (ℝ × ℝ)} [IsProbabilityMeasure μ] (f : ℝ × ℝ → ℝ)
    (hf : Measurable f) (a b : EReal) (hab : a ≤ b) (ha : ∀ y : ℝ, μ {p | f p = y} = 0)
    {Q : Set (ℝ × ℝ)} (hQ : MeasurableSet Q) :
    μ.real {p | (a ≤ f p ∧ f p ≤ b) ∧ p ∈ Q} =
      μ.real {p | f p ≤ b ∧ p ∈ Q} - μ.real {p | f p ≤ a ∧ p ∈ Q} := by
  have hfe : Measurable (fun p => (f p : EReal)) := measurable_coe_real_ereal.comp hf
  have m1 : ∀ c : EReal, MeasurableSet {p | (f p : EReal) ≤ c ∧ p ∈ Q} := fun c =>
    (measurableSet_le hfe measurable_const).inter hQ
  have hsub : {p | (f p : EReal) ≤ a ∧ p ∈ Q} ⊆ {p | (f p : EReal) ≤ b ∧ p ∈ Q} :=
    fun p hp => ⟨hp.1.trans hab, hp.2⟩
  rw [← measureReal_sdiff hsub (m1 a)]
  refine measureReal_congr ?_
  have hnull : ∀ᵐ p ∂μ, (f p : EReal) ≠ a := by
    rw [ae_iff]
    simp only [not_not]
    induction a with
    | bot => simp
    | top => simp
    | coe y => simpa using ha y
  filter_upwards [hnull] with p hp
  apply propext
  show ((a ≤ (f p : EReal) ∧ (f p : EReal) ≤ b) ∧ p ∈ Q) ↔
    (((f p : EReal) ≤ b ∧ p ∈ Q) ∧ ¬ ((f p : EReal) ≤ a ∧ p ∈ Q))
  constructor
  · rintro ⟨⟨h1, h2⟩, h3⟩
    exact ⟨⟨h2, h3⟩, fun h => hp (le_antisymm h.1 h1)⟩
  · rintro ⟨⟨h1, h3⟩, h⟩
    refine ⟨⟨?_, h1⟩, h3⟩
    by_contra h'
    exact h ⟨(not_le.1 h').le, h3⟩

end Wafo.Gauss
