import Verif.Dist.TruncProps
import Verif.Dist.NormMomProps
import Verif.Dist.MomGammaProps

/-!
# The truncated normal distribution: moments
-/

set_option linter.unusedSectionVars false

namespace Wafo.Dist

open Real Set Wafo.Gauss MeasureTheory

namespace TruncNorm

/-- The points above `c`. -/
def above (c : EReal) : Set ℝ := {x : ℝ | c < x}

theorem above_meas (c : EReal) : MeasurableSet (above c) :=
  (isOpen_lt continuous_const continuous_coe_real_ereal).measurableSet

theorem above_bot : above ⊥ = univ := by ext x; simp [above]
theorem above_top : above ⊤ = ∅ := by ext x; simp [above]
theorem above_coe (c : ℝ) : above c = Ioi c := by ext x; simp [above]

/-- `c ^ k φ(c)`, zero at an infinite `c`. -/
noncomputable def edgeTerm (k : ℕ) (c : EReal) : ℝ := if c = ⊥ ∨ c = ⊤ then 0 else c.toReal ^ k * phi c.toReal

/-- The partial moments above `c`. -/
noncomputable def part (n : ℕ) (c : EReal) : ℝ := ∫ x in above c, x ^ n * phi x

theorem part_hasInt (n : ℕ) (c : EReal) : HasInt (above c) (fun x => x ^ n * phi x) (part n c) :=
  ⟨(integrable_pow_phi n).integrableOn, rfl⟩

theorem part_zero (c : EReal) : part 0 c = 1 - ndtr c := by
  unfold part
  induction c with
  | bot => rw [above_bot, (hasInt_nmom 0).2, ndtr_bot]; simp [nmom]
  | top => rw [above_top, setIntegral_empty, ndtr_top, sub_self]
  | coe c => rw [above_coe, (tail_zero c).2, ndtr_coe]

theorem part_one (c : EReal) : part 1 c = edgeTerm 0 c := by
  unfold part edgeTerm
  induction c with
  | bot => rw [above_bot, (hasInt_nmom 1).2, if_pos (by simp)]; simp [nmom]
  | top => rw [above_top, setIntegral_empty, if_pos (by simp)]
  | coe c => rw [above_coe, (tail_one c).2, if_neg (by simp)]; simp

theorem part_succ (n : ℕ) (c : EReal) : part (n + 2) c = edgeTerm (n + 1) c + (n + 1) * part n c := by
  unfold part edgeTerm
  induction c with
  | bot => rw [above_bot, (hasInt_nmom (n + 2)).2, (hasInt_nmom n).2, if_pos (by simp)]; simp [nmom]
  | top => rw [above_top, setIntegral_empty, setIntegral_empty, if_pos (by simp)]; simp
  | coe c =>
    have h := part_hasInt n c
    rw [part, above_coe] at h
    rw [above_coe, (tail_succ h).2, if_neg (by simp)]
    simp

theorem within_ae {a b : EReal} (hab : a < b) (n : ℕ) :
    HasInt (within a b) (fun x => x ^ n * phi x) (part n a - part n b) := by
  refine ⟨(integrable_pow_phi n).integrableOn, ?_⟩
  have hd : (above a \ above b : Set ℝ) =ᵐ[volume] (within a b : Set ℝ) := by
    have hsub : within a b ⊆ above a \ above b := fun x hx => ⟨hx.1, not_lt.2 hx.2.le⟩
    refine (ae_eq_set.2 ⟨?_, ?_⟩)
    · refine measure_mono_null (t := {b.toReal}) (fun x hx => ?_) (measure_singleton _)
      obtain ⟨⟨h1, h2⟩, h3⟩ := hx
      have e : (x : EReal) = b := by
        refine le_antisymm (not_lt.1 h2) (not_lt.1 fun h => h3 ⟨h1, h⟩)
      rw [mem_singleton_iff, ← e, EReal.toReal_coe]
    · rw [sdiff_eq_empty.2 hsub, measure_empty]
  have hs : above b ⊆ above a := fun x hx => hab.trans hx
  rw [← setIntegral_congr_set hd, setIntegral_sdiff (above_meas b) (integrable_pow_phi n).integrableOn hs]
  rfl

theorem within_moment {a b : EReal} (hab : a < b) (n : ℕ) :
    HasMoment (within a b) (pdf a b) n ((part n a - part n b) / (ndtr b - ndtr a)) :=
  ((within_ae hab n).const_mul (ndtr b - ndtr a)⁻¹).congr (within_open a b).measurableSet
    (fun x _ => by rw [pdf_eq hab]; ring) (by ring)

theorem pdfE_eq {a b : EReal} (hab : a < b) (c : EReal) : pdfE a b c = edgeTerm 0 c / (ndtr b - ndtr a) := by
  unfold pdfE edgeTerm
  split_ifs
  · simp
  · rw [pdf_eq hab, pow_zero, one_mul]

theorem edge_zero {a b : EReal} (hab : a < b) (k : ℕ) :
    edge a b 0 k = (edgeTerm k a - edgeTerm k b) / (ndtr b - ndtr a) := by
  have h : ∀ c : EReal, ∀ s : ℝ, (if s * pdfE a b c ≠ 0 then s * pdfE a b c * (c.toReal - 0) ^ k else 0) =
      s * edgeTerm k c / (ndtr b - ndtr a) := fun c s => by
    split_ifs with h
    · rw [pdfE_eq hab] at h ⊢
      unfold edgeTerm at h ⊢
      split_ifs at h ⊢ with h'
      · simp at h
      · rw [sub_zero]; ring
    · rw [not_not, pdfE_eq hab] at h
      rcases mul_eq_zero.1 h with h | h
      · simp [h]
      · rcases div_eq_zero_iff.1 h with h | h
        · unfold edgeTerm at h ⊢
          split_ifs at h ⊢ with h'
          · simp
          · simp [(phi_pos _).ne'] at h
        · exact absurd h (mass_pos hab).ne'
  have h1 := h a 1
  have h2 := h b (-1)
  simp only [one_mul, neg_one_mul] at h1 h2
  rw [edge, h1, h2]
  ring

theorem loop_eq {a b : EReal} (hab : a < b) : ∀ n : ℕ,
    loop a b (n + 1) = ((part n a - part n b) / (ndtr b - ndtr a), (part (n + 1) a - part (n + 1) b) / (ndtr b - ndtr a))
  | 0 => by
    have hp := mass_pos hab
    rw [loop, loop, edge_zero hab, part_zero, part_zero, part_one, part_one]
    simp only [Prod.mk.injEq]
    refine ⟨?_, by simp⟩
    rw [show 1 - ndtr a - (1 - ndtr b) = ndtr b - ndtr a by ring, div_self hp.ne']
  | n + 1 => by
    rw [loop, loop_eq hab n, edge_zero hab, part_succ, part_succ]
    simp only [Prod.mk.injEq, true_and]
    push_cast
    ring

end TruncNorm

open TruncNorm

/-- C272 truncnorm: every raw moment. -/
theorem C272_truncnorm_munp (a b : EReal) (hab : a < b) (n : ℕ) :
    HasMoment (within a b) (TruncNorm.pdf a b) n (TruncNorm.munp n a b) := by
  have hp := mass_pos hab
  have h := within_moment hab n
  cases n with
  | zero =>
    rw [part_zero, part_zero, show 1 - ndtr a - (1 - ndtr b) = ndtr b - ndtr a by ring, div_self hp.ne'] at h
    exact h
  | succ n =>
    rw [TruncNorm.munp, loop_eq hab n]
    exact h

theorem TruncNorm.munp_one (a b : EReal) : munp 1 a b = edge a b 0 0 := by simp [munp, loop]
theorem TruncNorm.munp_two (a b : EReal) : munp 2 a b = edge a b 0 1 + 1 := by simp [munp, loop]
theorem TruncNorm.munp_three (a b : EReal) : munp 3 a b = edge a b 0 2 + 2 * edge a b 0 0 := by simp [munp, loop]
theorem TruncNorm.munp_four (a b : EReal) : munp 4 a b = edge a b 0 3 + 3 * (edge a b 0 1 + 1) := by simp [munp, loop]

/-- C272 truncnorm: mean, variance, skewness and excess kurtosis. -/
theorem C272_truncnorm_stats (a b : EReal) (hab : a < b) :
    HasStats (within a b) (TruncNorm.pdf a b) (TruncNorm.stats a b) := by
  have e0 : pdfE a b a - pdfE a b b = munp 1 a b := by
    rw [munp_one, edge_zero hab, pdfE_eq hab, pdfE_eq hab]; ring
  have e1 : edge a b (munp 1 a b) 1 = edge a b 0 1 - munp 1 a b * edge a b 0 0 := by
    generalize munp 1 a b = mu
    unfold edge
    simp only [pow_zero, pow_one, sub_zero, mul_one]
    split_ifs <;> ring
  have hm := C272_truncnorm_munp a b hab
  have h0 := hm 0
  have h1 := hm 1
  have h2 := hm 2
  have h3 := hm 3
  have h4 := hm 4
  unfold TruncNorm.stats
  simp only [e0]
  rw [e1]
  refine hasStats_of_raw (within_open a b).measurableSet
    (fun x _ => by rw [pdf_eq hab]; exact (div_pos (phi_pos x) (mass_pos hab)).le) h0 h1 h2 h3 h4 ?_ (fun hv => ?_) (fun hv => ?_)
  · rw [munp_one, munp_two]; ring
  · rw [onehalf_eq, div_mul_cancel₀ _ (rpow_pos_of_pos hv _).ne', munp_one, munp_two, munp_three]; ring
  · rw [sub_add_cancel, div_mul_cancel₀ _ (pow_pos hv 2).ne', munp_one, munp_two, munp_three, munp_four]; ring

/-- The normal distribution truncated to the positive axis has mean `2 φ(0)`. -/
example : TruncNorm.munp 1 ((0 : ℝ) : EReal) ⊤ = 2 * phi 0 := by
  rw [munp_one, edge_zero (EReal.coe_lt_top 0), ndtr_top, ndtr_coe, Phi_zero]
  simp [edgeTerm]
  ring

end Wafo.Dist
