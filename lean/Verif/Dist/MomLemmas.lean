import Verif.Dist.MomSpec
import Mathlib.MeasureTheory.Function.JacobianOneDim
import Mathlib.MeasureTheory.Integral.IntervalIntegral.FundThmCalculus
import Mathlib.MeasureTheory.Measure.Lebesgue.Integral
import Mathlib.Analysis.SpecialFunctions.Gamma.Basic
import Mathlib.Analysis.SpecialFunctions.Integrability.Basic

/-!
# Computing moments
-/

namespace Wafo.Dist

open MeasureTheory Set Filter Topology Real

set_option linter.unusedSectionVars false

/-- `f` is integrable on `I` with integral `v`. -/
def HasInt (I : Set ℝ) (f : ℝ → ℝ) (v : ℝ) : Prop := IntegrableOn f I ∧ ∫ x in I, f x = v

theorem HasInt.add {I : Set ℝ} {f g : ℝ → ℝ} {v w : ℝ} (hf : HasInt I f v) (hg : HasInt I g w) :
    HasInt I (fun x => f x + g x) (v + w) :=
  ⟨hf.1.add hg.1, by rw [integral_add hf.1 hg.1, hf.2, hg.2]⟩

theorem HasInt.const_mul {I : Set ℝ} {f : ℝ → ℝ} {v : ℝ} (hf : HasInt I f v) (c : ℝ) :
    HasInt I (fun x => c * f x) (c * v) :=
  ⟨hf.1.const_mul c, by rw [integral_const_mul, hf.2]⟩

theorem HasInt.congr {I : Set ℝ} (hI : MeasurableSet I) {f g : ℝ → ℝ} {v w : ℝ} (hf : HasInt I f v)
    (h : ∀ x ∈ I, g x = f x) (hv : w = v) : HasInt I g w :=
  ⟨(integrableOn_congr_fun h hI).2 hf.1, by rw [setIntegral_congr_fun hI h, hf.2, hv]⟩

/-- A probability density has positive spread about every point. -/
theorem spread_pos {I : Set ℝ} (hI : MeasurableSet I) {f : ℝ → ℝ} (hn : ∀ x ∈ I, 0 ≤ f x)
    (h0 : ∫ x in I, f x = 1) {m v : ℝ} (hv : HasInt I (fun x => (x - m) ^ 2 * f x) v) : 0 < v := by
  have hnn : 0 ≤ᵐ[volume.restrict I] fun x => (x - m) ^ 2 * f x := by
    refine (ae_restrict_iff' hI).2 (Eventually.of_forall fun x hx => ?_)
    exact mul_nonneg (sq_nonneg _) (hn x hx)
  have h1 : 0 ≤ v := by
    rw [← hv.2]
    exact integral_nonneg_of_ae hnn
  refine lt_of_le_of_ne h1 fun h => ?_
  have h2 := (integral_eq_zero_iff_of_nonneg_ae hnn hv.1).1 (by rw [hv.2, ← h])
  have h3 : ∀ᵐ x ∂(volume.restrict I), x ≠ m := by
    refine ae_restrict_of_ae ?_
    simp [ae_iff]
  have h4 : f =ᵐ[volume.restrict I] 0 := by
    filter_upwards [h2, h3] with x hx hxm
    have : (x - m) ^ 2 ≠ 0 := pow_ne_zero 2 (sub_ne_zero.2 hxm)
    simpa [this] using hx
  rw [integral_congr_ae h4] at h0
  simp at h0

theorem hasVar_of_raw {I : Set ℝ} (hI : MeasurableSet I) {f : ℝ → ℝ} (hn : ∀ x ∈ I, 0 ≤ f x)
    {m1 m2 v : ℝ} (h0 : HasMoment I f 0 1) (h1 : HasMoment I f 1 m1)
    (h2 : HasMoment I f 2 m2) (hv : v = m2 - m1 ^ 2) : HasVar I f v := by
  have i0 : HasInt I (fun x => x ^ 0 * f x) 1 := h0
  have i1 : HasInt I (fun x => x ^ 1 * f x) m1 := h1
  have i2 : HasInt I (fun x => x ^ 2 * f x) m2 := h2
  have hv2 : HasInt I (fun x => (x - m1) ^ 2 * f x) v :=
    ((i2.add (i1.const_mul (-2 * m1))).add (i0.const_mul (m1 ^ 2))).congr hI
      (fun x _ => by ring) (by rw [hv]; ring)
  have ht : ∫ x in I, f x = 1 := by simpa using h0.2
  exact ⟨m1, h1, hv2.1, hv2.2, spread_pos hI hn ht hv2⟩

theorem hasSkew_of_raw {I : Set ℝ} (hI : MeasurableSet I) {f : ℝ → ℝ} (hn : ∀ x ∈ I, 0 ≤ f x)
    {m1 m2 m3 v g1 : ℝ} (h0 : HasMoment I f 0 1) (h1 : HasMoment I f 1 m1)
    (h2 : HasMoment I f 2 m2) (h3 : HasMoment I f 3 m3) (hv : v = m2 - m1 ^ 2)
    (hg1 : 0 < v → g1 * v ^ (3 / 2 : ℝ) = m3 - 3 * m1 * m2 + 2 * m1 ^ 3) : HasSkew I f g1 := by
  have i0 : HasInt I (fun x => x ^ 0 * f x) 1 := h0
  have i1 : HasInt I (fun x => x ^ 1 * f x) m1 := h1
  have i2 : HasInt I (fun x => x ^ 2 * f x) m2 := h2
  have i3 : HasInt I (fun x => x ^ 3 * f x) m3 := h3
  have hv3 : HasInt I (fun x => (x - m1) ^ 3 * f x) (m3 - 3 * m1 * m2 + 2 * m1 ^ 3) :=
    (((i3.add (i2.const_mul (-3 * m1))).add (i1.const_mul (3 * m1 ^ 2))).add
      (i0.const_mul (-m1 ^ 3))).congr hI (fun x _ => by ring) (by ring)
  have hvar := hasVar_of_raw hI hn h0 h1 h2 hv
  have hvp : 0 < v := hvar.elim fun _ h => h.2.2.2
  exact ⟨m1, v, h1, hvar, hv3.1, by
    rw [hv3.2, ← hg1 hvp, mul_div_cancel_right₀ _ (rpow_pos_of_pos hvp _).ne']⟩

theorem hasKurt_of_raw {I : Set ℝ} (hI : MeasurableSet I) {f : ℝ → ℝ} (hn : ∀ x ∈ I, 0 ≤ f x)
    {m1 m2 m3 m4 v g2 : ℝ} (h0 : HasMoment I f 0 1) (h1 : HasMoment I f 1 m1)
    (h2 : HasMoment I f 2 m2) (h3 : HasMoment I f 3 m3) (h4 : HasMoment I f 4 m4)
    (hv : v = m2 - m1 ^ 2)
    (hg2 : 0 < v → (g2 + 3) * v ^ 2 = m4 - 4 * m1 * m3 + 6 * m1 ^ 2 * m2 - 3 * m1 ^ 4) :
    HasKurt I f g2 := by
  have i0 : HasInt I (fun x => x ^ 0 * f x) 1 := h0
  have i1 : HasInt I (fun x => x ^ 1 * f x) m1 := h1
  have i2 : HasInt I (fun x => x ^ 2 * f x) m2 := h2
  have i3 : HasInt I (fun x => x ^ 3 * f x) m3 := h3
  have i4 : HasInt I (fun x => x ^ 4 * f x) m4 := h4
  have hv4 : HasInt I (fun x => (x - m1) ^ 4 * f x)
      (m4 - 4 * m1 * m3 + 6 * m1 ^ 2 * m2 - 3 * m1 ^ 4) :=
    ((((i4.add (i3.const_mul (-4 * m1))).add (i2.const_mul (6 * m1 ^ 2))).add
      (i1.const_mul (-4 * m1 ^ 3))).add (i0.const_mul (m1 ^ 4))).congr hI (fun x _ => by ring)
      (by ring)
  have hvar := hasVar_of_raw hI hn h0 h1 h2 hv
  have hvp : 0 < v := hvar.elim fun _ h => h.2.2.2
  refine ⟨m1, v, h1, hvar, hv4.1, ?_⟩
  rw [hv4.2, ← hg2 hvp, mul_div_cancel_right₀ _ (pow_pos hvp 2).ne']
  ring

theorem hasStats_of_raw {I : Set ℝ} (hI : MeasurableSet I) {f : ℝ → ℝ} (hn : ∀ x ∈ I, 0 ≤ f x)
    {m1 m2 m3 m4 v g1 g2 : ℝ} (h0 : HasMoment I f 0 1) (h1 : HasMoment I f 1 m1)
    (h2 : HasMoment I f 2 m2) (h3 : HasMoment I f 3 m3) (h4 : HasMoment I f 4 m4)
    (hv : v = m2 - m1 ^ 2)
    (hg1 : 0 < v → g1 * v ^ (3 / 2 : ℝ) = m3 - 3 * m1 * m2 + 2 * m1 ^ 3)
    (hg2 : 0 < v → (g2 + 3) * v ^ 2 = m4 - 4 * m1 * m3 + 6 * m1 ^ 2 * m2 - 3 * m1 ^ 4) :
    HasStats I f (m1, v, g1, g2) :=
  ⟨h1, hasVar_of_raw hI hn h0 h1 h2 hv, hasSkew_of_raw hI hn h0 h1 h2 h3 hv hg1,
    hasKurt_of_raw hI hn h0 h1 h2 h3 h4 hv hg2⟩

theorem rpow_exp_not_integrable {b : ℝ} (hb : b ≤ 0) :
    ¬ IntegrableOn (fun t : ℝ => t ^ (b - 1) * exp (-t)) (Ioi 0) := by
  intro h
  have h1 : IntegrableOn (fun t : ℝ => t ^ (b - 1) * exp (-t)) (Ioo 0 1) :=
    h.mono_set Ioo_subset_Ioi_self
  have h2 : IntegrableOn (fun t : ℝ => t ^ (b - 1)) (Ioo 0 1) := by
    refine Integrable.mono (h1.const_mul (exp 1)) ?_ ?_
    · refine ContinuousOn.aestronglyMeasurable (fun x hx => ?_) measurableSet_Ioo
      exact (continuousAt_rpow_const x _ (Or.inl hx.1.ne')).continuousWithinAt
    · refine (ae_restrict_iff' measurableSet_Ioo).2 (Eventually.of_forall fun x hx => ?_)
      have h3 := rpow_pos_of_pos hx.1 (b - 1)
      rw [norm_of_nonneg h3.le, norm_of_nonneg (by positivity),
        show exp 1 * (x ^ (b - 1) * exp (-x)) = x ^ (b - 1) * (exp 1 * exp (-x)) by ring,
        ← exp_add]
      refine le_mul_of_one_le_right h3.le (one_le_exp ?_)
      linarith [hx.2]
  rw [intervalIntegral.integrableOn_Ioo_rpow_iff one_pos] at h2
  linarith

/-- Moments of a variable whose image under `g` has a gamma distribution. -/
theorem gamma_moment {a s r : ℝ} {g gi g' pdf : ℝ → ℝ} (ha : 0 < a) (hs : 0 < s)
    (hg : ∀ x ∈ Ioi (0 : ℝ), 0 < g x) (hi : ∀ y : ℝ, 0 < y → gi y ∈ Ioi (0 : ℝ))
    (h1 : ∀ x ∈ Ioi (0 : ℝ), gi (g x) = x) (h2 : ∀ y : ℝ, 0 < y → g (gi y) = y)
    (hd : ∀ x ∈ Ioi (0 : ℝ), HasDerivAt g (g' x) x)
    (hp : ∀ x ∈ Ioi (0 : ℝ), pdf x = g x ^ (a - 1) * exp (-g x) / Gamma a * |g' x|)
    (hgi : ∀ y : ℝ, 0 < y → gi y = s * y ^ r) (n : ℕ) :
    (0 < a + n * r → HasMoment (Ioi 0) pdf n (s ^ n * Gamma (a + n * r) / Gamma a)) ∧
    (a + n * r ≤ 0 → NoMoment (Ioi 0) pdf n) := by
  have hG := Gamma_pos_of_pos ha
  have hinj : InjOn g (Ioi 0) := fun x hx y hy h => by rw [← h1 x hx, ← h1 y hy, h]
  have him : g '' Ioi 0 = Ioi 0 := by
    apply Subset.antisymm
    · rintro _ ⟨x, hx, rfl⟩
      exact hg x hx
    · intro y hy
      exact ⟨gi y, hi y hy, h2 y hy⟩
  have hd' : ∀ x ∈ Ioi (0 : ℝ), HasDerivWithinAt g (g' x) (Ioi 0) x :=
    fun x hx => (hd x hx).hasDerivWithinAt
  have key := integral_image_eq_integral_abs_deriv_smul measurableSet_Ioi hd' hinj
    (fun y => gi y ^ n * (y ^ (a - 1) * exp (-y) / Gamma a))
  have keyi := integrableOn_image_iff_integrableOn_abs_deriv_smul measurableSet_Ioi hd' hinj
    (fun y => gi y ^ n * (y ^ (a - 1) * exp (-y) / Gamma a))
  rw [him] at key keyi
  have e1 : ∀ x ∈ Ioi (0 : ℝ), x ^ n * pdf x =
      |g' x| • (gi (g x) ^ n * (g x ^ (a - 1) * exp (-g x) / Gamma a)) := by
    intro x hx
    rw [hp x hx, h1 x hx, smul_eq_mul]
    ring
  have e2 : ∀ y ∈ Ioi (0 : ℝ), gi y ^ n * (y ^ (a - 1) * exp (-y) / Gamma a) =
      s ^ n / Gamma a * (y ^ (a + n * r - 1) * exp (-y)) := by
    intro y hy
    have hy : 0 < y := hy
    rw [hgi y hy, mul_pow, ← rpow_natCast (y ^ r), ← rpow_mul hy.le,
      show a + n * r - 1 = r * n + (a - 1) by ring, rpow_add hy]
    ring
  unfold HasMoment NoMoment
  rw [integrableOn_congr_fun e1 measurableSet_Ioi, ← keyi,
    integrableOn_congr_fun e2 measurableSet_Ioi, setIntegral_congr_fun measurableSet_Ioi e1, ← key,
    setIntegral_congr_fun measurableSet_Ioi e2, integral_const_mul]
  refine ⟨fun hb => ⟨?_, ?_⟩, fun hb hh => ?_⟩
  · refine Integrable.const_mul ?_ _
    refine (integrableOn_congr_fun (fun y _ => mul_comm _ _) measurableSet_Ioi).2
      (GammaIntegral_convergent hb)
  · rw [Gamma_eq_integral hb, setIntegral_congr_fun measurableSet_Ioi fun y _ => mul_comm _ _]
    ring
  · refine rpow_exp_not_integrable hb ?_
    have hc : (s ^ n / Gamma a) ≠ 0 := by positivity
    have := hh.const_mul (s ^ n / Gamma a)⁻¹
    refine (integrableOn_congr_fun (fun y _ => ?_) measurableSet_Ioi).1 this
    field_simp

/-- Moments of a symmetric density from those of the upper half. -/
theorem even_moment {f : ℝ → ℝ} (he : ∀ x, f (-x) = f x) {n : ℕ} {m : ℝ}
    (h : HasMoment (Ioi 0) (fun x => 2 * f x) n m) :
    HasMoment univ f n (if n % 2 = 0 then m else 0) := by
  have hF : ∀ x, (-x) ^ n * f (-x) = (-1) ^ n * (x ^ n * f x) := by
    intro x
    rw [he, neg_pow]
    ring
  have h1 : HasInt (Ioi 0) (fun x => x ^ n * f x) (m / 2) := by
    have : HasInt (Ioi 0) (fun x => x ^ n * (2 * f x)) m := h
    exact (this.const_mul (1 / 2)).congr measurableSet_Ioi (fun x _ => by ring) (by ring)
  have h2 : HasInt (Iic 0) (fun x => x ^ n * f x) ((-1) ^ n * (m / 2)) := by
    have h3 := (h1.const_mul ((-1) ^ n))
    have h4 : HasInt (Ioi 0) (fun x => (-x) ^ n * f (-x)) ((-1) ^ n * (m / 2)) :=
      h3.congr measurableSet_Ioi (fun x _ => hF x) rfl
    constructor
    · have h5 := h4.1
      rw [integrableOn_Iic_iff_integrableOn_Iio]
      rw [← neg_zero] at h5
      have h6 := IntegrableOn.comp_neg_Iio h5
      simpa only [neg_neg] using h6
    · have := integral_comp_neg_Ioi 0 (fun x => x ^ n * f x)
      rw [neg_zero] at this
      rw [← this, h4.2]
  have hu : Iic (0 : ℝ) ∪ Ioi 0 = univ := Iic_union_Ioi
  constructor
  · rw [← hu]
    exact h2.1.union h1.1
  · rw [← hu, setIntegral_union (Set.Iic_disjoint_Ioi le_rfl) measurableSet_Ioi h2.1 h1.1, h2.2,
      h1.2]
    rcases Nat.even_or_odd n with hn | hn
    · rw [hn.neg_one_pow, if_pos (Nat.even_iff.1 hn)]
      ring
    · rw [hn.neg_one_pow, if_neg (by rw [Nat.odd_iff.1 hn]; norm_num)]
      ring

end Wafo.Dist
