import Verif.Dist.MomPowProps
import Verif.Dist.CircProps
import Verif.Dist.PieceProps
import Verif.Dist.ExpProps
import Mathlib.MeasureTheory.Integral.IntervalIntegral.FundThmCalculus
import Mathlib.Analysis.Real.Pi.Bounds

/-!
# C261: the reported moments of the distributions on bounded intervals are those of the densities
-/

namespace Wafo.Dist

open MeasureTheory Set Filter Topology Real

set_option linter.unusedSectionVars false

/-- The integral of a continuous function by a primitive. -/
theorem hasInt_ftc {a b : ℝ} (hab : a ≤ b) {F f : ℝ → ℝ} (hF : ContinuousOn F (Icc a b))
    (hf : ContinuousOn f (Icc a b)) (hd : ∀ x ∈ Ioo a b, HasDerivAt F (f x) x) {v : ℝ}
    (hv : v = F b - F a) : HasInt (Ioo a b) f v := by
  have hi : IntegrableOn f (Icc a b) := hf.integrableOn_Icc
  refine ⟨hi.mono_set Ioo_subset_Icc_self, ?_⟩
  rw [hv, ← integral_Ioc_eq_integral_Ioo, ← intervalIntegral.integral_of_le hab]
  refine intervalIntegral.integral_eq_sub_of_hasDerivAt_of_le hab hF hd ?_
  rw [intervalIntegrable_iff_integrableOn_Icc_of_le hab]
  exact hi

/-- Two adjacent intervals. -/
theorem hasInt_union {a b c : ℝ} (hac : a ≤ c) (hcb : c ≤ b) {f : ℝ → ℝ} {u v : ℝ}
    (h1 : HasInt (Ioo a c) f u) (h2 : HasInt (Ioo c b) f v) : HasInt (Ioo a b) f (u + v) := by
  have i1 : IntegrableOn f (Ioc a c) := (integrableOn_Ioc_iff_integrableOn_Ioo).2 h1.1
  have i2 : IntegrableOn f (Ioc c b) := (integrableOn_Ioc_iff_integrableOn_Ioo).2 h2.1
  have e1 : ∫ x in Ioc a c, f x = u := by rw [integral_Ioc_eq_integral_Ioo]; exact h1.2
  have e2 : ∫ x in Ioc c b, f x = v := by rw [integral_Ioc_eq_integral_Ioo]; exact h2.2
  have hu : Ioc a c ∪ Ioc c b = Ioc a b := Ioc_union_Ioc_eq_Ioc hac hcb
  have hd : Disjoint (Ioc a c) (Ioc c b) := by
    rw [Set.disjoint_left]
    intro x h h'
    exact absurd h.2 (not_le.2 h'.1)
  constructor
  · rw [← integrableOn_Ioc_iff_integrableOn_Ioo, ← hu]
    exact i1.union i2
  · rw [← integral_Ioc_eq_integral_Ioo, ← hu, setIntegral_union hd measurableSet_Ioc i1 i2, e1, e2]

/-- A polynomial of degree four. -/
def quart (a b c d e x : ℝ) : ℝ := a + b * x + c * x ^ 2 + d * x ^ 3 + e * x ^ 4

theorem hasDerivAt_quart (a b c d e x : ℝ) :
    HasDerivAt (quart a b c d e) (quart b (2 * c) (3 * d) (4 * e) 0 x) x := by
  refine HasDerivAt.congr_deriv (((((hasDerivAt_const x a).add ((hasDerivAt_id x).const_mul b)).add
    ((hasDerivAt_pow 2 x).const_mul c)).add ((hasDerivAt_pow 3 x).const_mul d)).add
    ((hasDerivAt_pow 4 x).const_mul e)) ?_
  simp only [quart]
  push_cast
  ring

/-- The statistics of a symmetric density. -/
theorem sym_stats {I : Set ℝ} (hI : MeasurableSet I) {f : ℝ → ℝ} (hn : ∀ x ∈ I, 0 ≤ f x)
    {m2 m4 g : ℝ} (h0 : HasMoment I f 0 1) (h1 : HasMoment I f 1 0) (h2 : HasMoment I f 2 m2)
    (h3 : HasMoment I f 3 0) (h4 : HasMoment I f 4 m4) (hg : 0 < m2 → (g + 3) * m2 ^ 2 = m4) :
    HasStats I f (0, m2, 0, g) := by
  refine hasStats_of_raw hI hn h0 h1 h2 h3 h4 (by ring) (fun _ => by ring) (fun h => ?_)
  rw [hg h]
  ring

/-! ### Anglit -/

theorem C261_anglit : HasStats (Ioo (-(π / 4)) (π / 4)) Anglit.pdf Anglit.stats := by
  have hp := pi_pos
  have hab : -(π / 4) ≤ π / 4 := by linarith
  have es : sin (2 * (π / 4)) = 1 := by rw [show 2 * (π / 4) = π / 2 by ring, sin_pi_div_two]
  have ec : cos (2 * (π / 4)) = 0 := by rw [show 2 * (π / 4) = π / 2 by ring, cos_pi_div_two]
  have es' : sin (2 * -(π / 4)) = -1 := by rw [mul_neg, sin_neg, es]
  have ec' : cos (2 * -(π / 4)) = 0 := by rw [mul_neg, cos_neg, ec]
  have hs : ∀ x : ℝ, HasDerivAt (fun x : ℝ => sin (2 * x)) (2 * cos (2 * x)) x := fun x => by
    refine HasDerivAt.congr_deriv (((hasDerivAt_id x).const_mul 2).sin) ?_
    simp only [id]
    ring
  have hc : ∀ x : ℝ, HasDerivAt (fun x : ℝ => cos (2 * x)) (-2 * sin (2 * x)) x := fun x => by
    refine HasDerivAt.congr_deriv (((hasDerivAt_id x).const_mul 2).cos) ?_
    simp only [id]
    ring
  have key : ∀ (n : ℕ) (a b c d e v : ℝ),
      (∀ x, 2 * quart a b c d e x + quart (2 * c / 2) (3 * d) (6 * e) 0 0 x = x ^ n) →
      v = quart a b c d e (π / 4) + quart a b c d e (-(π / 4)) →
      HasMoment (Ioo (-(π / 4)) (π / 4)) Anglit.pdf n v := by
    intro n a b c d e v h hv
    have hd : ∀ x, HasDerivAt (fun x => quart a b c d e x * sin (2 * x) +
        quart (b / 2) c (3 * d / 2) (2 * e) 0 x * cos (2 * x)) (x ^ n * cos (2 * x)) x := by
      intro x
      refine HasDerivAt.congr_deriv (((hasDerivAt_quart a b c d e x).mul (hs x)).add
        ((hasDerivAt_quart (b / 2) c (3 * d / 2) (2 * e) 0 x).mul (hc x))) ?_
      rw [← h x]
      simp only [quart]
      ring
    refine hasInt_ftc hab (F := fun x => quart a b c d e x * sin (2 * x) +
        quart (b / 2) c (3 * d / 2) (2 * e) 0 x * cos (2 * x))
      (fun x _ => (hd x).continuousAt.continuousWithinAt) ?_ (fun x _ => hd x) ?_
    · exact Continuous.continuousOn (by fun_prop)
    · simp only [es, ec, es', ec']
      rw [hv]
      ring
  have hpi2 : 0 < π * π / 16 - 1 / 2 := by nlinarith [pi_gt_three]
  have h0 : HasMoment (Ioo (-(π / 4)) (π / 4)) Anglit.pdf 0 1 :=
    key 0 (1 / 2) 0 0 0 0 1 (fun x => by simp only [quart]; ring) (by simp only [quart]; ring)
  have h1 : HasMoment (Ioo (-(π / 4)) (π / 4)) Anglit.pdf 1 0 :=
    key 1 0 (1 / 2) 0 0 0 0 (fun x => by simp only [quart]; ring) (by simp only [quart]; ring)
  have h2 : HasMoment (Ioo (-(π / 4)) (π / 4)) Anglit.pdf 2 (π * π / 16 - 0.5) :=
    key 2 (-1 / 4) 0 (1 / 2) 0 0 _ (fun x => by simp only [quart]; ring)
      (by simp only [quart]; norm_num; ring)
  have h3 : HasMoment (Ioo (-(π / 4)) (π / 4)) Anglit.pdf 3 0 :=
    key 3 0 (-3 / 4) 0 (1 / 2) 0 0 (fun x => by simp only [quart]; ring) (by simp only [quart]; ring)
  have h4 := key 4 (3 / 4) 0 (-3 / 2) 0 (1 / 2) _ (fun x => by simp only [quart]; ring) rfl
  refine sym_stats measurableSet_Ioo (fun x hx => cos_nonneg_of_mem_Icc
    ⟨by linarith [hx.1], by linarith [hx.2]⟩) h0 h1 h2 h3 h4 (fun _ => ?_)
  have hne : π * π - 8 ≠ 0 := by nlinarith [pi_gt_three]
  have hne' : π ^ 2 - 8 ≠ 0 := by nlinarith [pi_gt_three]
  simp only [quart]
  norm_num
  field_simp
  ring

/-! ### Cosine -/

theorem C261_cosine : HasStats (Ioo (-π) π) Cosine.pdf Cosine.stats := by
  have hp := pi_pos
  have hab : -π ≤ π := by linarith
  have key : ∀ (n : ℕ) (a b c d e v : ℝ),
      (∀ x, quart a b c d e x + quart (2 * c) (6 * d) (12 * e) 0 0 x = x ^ n) →
      v = 1 / 2 / π * ((π ^ (n + 1) - (-π) ^ (n + 1)) / (n + 1) -
        (quart b (2 * c) (3 * d) (4 * e) 0 π - quart b (2 * c) (3 * d) (4 * e) 0 (-π))) →
      HasMoment (Ioo (-π) π) Cosine.pdf n v := by
    intro n a b c d e v h hv
    have hd : ∀ x, HasDerivAt (fun x => 1 / 2 / π * (x ^ (n + 1) / (n + 1) +
        (quart a b c d e x * sin x + quart b (2 * c) (3 * d) (4 * e) 0 x * cos x)))
        (x ^ n * (1 / 2 / π * (1 + cos x))) x := by
      intro x
      refine HasDerivAt.congr_deriv ((((hasDerivAt_pow (n + 1) x).div_const (n + 1 : ℝ)).add
        (((hasDerivAt_quart a b c d e x).mul (hasDerivAt_sin x)).add
        ((hasDerivAt_quart b (2 * c) (3 * d) (4 * e) 0 x).mul (hasDerivAt_cos x)))).const_mul
        (1 / 2 / π)) ?_
      have : (n : ℝ) + 1 ≠ 0 := by positivity
      rw [add_tsub_cancel_right]
      push_cast
      rw [mul_div_cancel_left₀ _ this, ← h x]
      simp only [quart]
      ring
    refine hasInt_ftc hab (F := fun x => 1 / 2 / π * (x ^ (n + 1) / (n + 1) +
        (quart a b c d e x * sin x + quart b (2 * c) (3 * d) (4 * e) 0 x * cos x)))
      (fun x _ => (hd x).continuousAt.continuousWithinAt) ?_ (fun x _ => hd x) ?_
    · exact Continuous.continuousOn (by fun_prop)
    · simp only [sin_neg, cos_neg, sin_pi, cos_pi]
      rw [hv]
      ring
  have h0 : HasMoment (Ioo (-π) π) Cosine.pdf 0 1 :=
    key 0 1 0 0 0 0 1 (fun x => by simp only [quart]; ring)
      (by simp only [quart]; push_cast; field_simp; ring)
  have h1 : HasMoment (Ioo (-π) π) Cosine.pdf 1 0 :=
    key 1 0 1 0 0 0 0 (fun x => by simp only [quart]; ring)
      (by simp only [quart]; push_cast; field_simp; ring)
  have h2 : HasMoment (Ioo (-π) π) Cosine.pdf 2 (π * π / 3 - 2) :=
    key 2 (-2) 0 1 0 0 _ (fun x => by simp only [quart]; ring)
      (by simp only [quart]; push_cast; field_simp; ring)
  have h3 : HasMoment (Ioo (-π) π) Cosine.pdf 3 0 :=
    key 3 0 (-6) 0 1 0 0 (fun x => by simp only [quart]; ring)
      (by simp only [quart]; push_cast; field_simp; ring)
  have h4 := key 4 24 0 (-12) 0 1 _ (fun x => by simp only [quart]; ring) rfl
  refine sym_stats measurableSet_Ioo (fun x hx => by
    unfold Cosine.pdf
    have := neg_one_le_cos x
    have : 0 ≤ 1 + cos x := by linarith
    positivity) h0 h1 h2 h3 h4 (fun _ => ?_)
  have hne : π * π - 6 ≠ 0 := by nlinarith [pi_gt_three]
  have hne' : π ^ 2 - 6 ≠ 0 := by nlinarith [pi_gt_three]
  simp only [quart]
  push_cast
  field_simp
  ring

/-! ### Semicircular -/

theorem C261_semicircular : HasStats (Ioo (-1) 1) Semicircular.pdf Semicircular.stats := by
  have hp := pi_pos
  have hin : ∀ x ∈ Ioo (-1 : ℝ) 1, 0 < 1 - x * x := by
    intro x hx
    nlinarith [hx.1, hx.2]
  have key : ∀ (n : ℕ) (k : ℝ) (P P' : ℝ → ℝ) (v : ℝ), (∀ x, HasDerivAt P (P' x) x) →
      (∀ x, k + P' x * (1 - x * x) - P x * x = x ^ n * (1 - x * x)) → v = 2 * k →
      HasMoment (Ioo (-1) 1) Semicircular.pdf n v := by
    intro n k P P' v hP h hv
    have hPc : Continuous P := continuous_iff_continuousAt.2 fun x => (hP x).continuousAt
    have hd : ∀ x ∈ Ioo (-1 : ℝ) 1, HasDerivAt (fun x => 2 / π * (k * arcsin x +
        P x * √(1 - x * x))) (x ^ n * (2 / π * √(1 - x * x))) x := by
      intro x hx
      have h0 := hin x hx
      have hs := sqrt_pos.2 h0
      have hq : HasDerivAt (fun x : ℝ => 1 - x * x) (-(2 * x)) x := by
        refine HasDerivAt.congr_deriv (((hasDerivAt_id x).mul (hasDerivAt_id x)).const_sub 1) ?_
        simp only [id]
        ring
      refine HasDerivAt.congr_deriv ((((hasDerivAt_arcsin (x := x) (by linarith [hx.1])
        (by linarith [hx.2])).const_mul k).add ((hP x).mul (hq.sqrt h0.ne'))).const_mul (2 / π)) ?_
      have e : √(1 - x ^ 2) = √(1 - x * x) := by rw [pow_two]
      rw [e]
      have h2 := h x
      rw [← mul_self_sqrt h0.le] at h2
      generalize √(1 - x * x) = w at *
      field_simp
      linarith
    refine hasInt_ftc (by norm_num) (F := fun x => 2 / π * (k * arcsin x + P x * √(1 - x * x)))
      (Continuous.continuousOn ?_) (Continuous.continuousOn ?_) hd ?_
    · have := continuous_arcsin
      fun_prop
    · fun_prop
    · simp only [arcsin_one, arcsin_neg, hv]
      norm_num
      field_simp
      ring
  have h0 : HasMoment (Ioo (-1) 1) Semicircular.pdf 0 1 :=
    key 0 (1 / 2) (quart 0 (1 / 2) 0 0 0) _ _ (hasDerivAt_quart _ _ _ _ _)
      (fun x => by simp only [quart]; ring) (by norm_num)
  have h1 : HasMoment (Ioo (-1) 1) Semicircular.pdf 1 0 :=
    key 1 0 (quart (-1 / 3) 0 (1 / 3) 0 0) _ _ (hasDerivAt_quart _ _ _ _ _)
      (fun x => by simp only [quart]; ring) (by norm_num)
  have h2 : HasMoment (Ioo (-1) 1) Semicircular.pdf 2 0.25 :=
    key 2 (1 / 8) (quart 0 (-1 / 8) 0 (1 / 4) 0) _ _ (hasDerivAt_quart _ _ _ _ _)
      (fun x => by simp only [quart]; ring) (by norm_num)
  have h3 : HasMoment (Ioo (-1) 1) Semicircular.pdf 3 0 :=
    key 3 0 (quart (-2 / 15) 0 (-1 / 15) 0 (1 / 5)) _ _ (hasDerivAt_quart _ _ _ _ _)
      (fun x => by simp only [quart]; ring) (by norm_num)
  have h4 : HasMoment (Ioo (-1) 1) Semicircular.pdf 4 (1 / 8) :=
    key 4 (1 / 16) (fun x => quart 0 (-1 / 16) 0 (-1 / 24) 0 x + 1 / 6 * x ^ 5)
      (fun x => quart (-1 / 16) 0 (-1 / 8) 0 0 x + 5 / 6 * x ^ 4) _
      (fun x => by
        refine HasDerivAt.congr_deriv ((hasDerivAt_quart 0 (-1 / 16) 0 (-1 / 24) 0 x).add
          ((hasDerivAt_pow 5 x).const_mul (1 / 6))) ?_
        simp only [quart]
        push_cast
        ring)
      (fun x => by simp only [quart]; ring) (by norm_num)
  exact sym_stats measurableSet_Ioo (fun x hx => by unfold Semicircular.pdf; positivity)
    h0 h1 h2 h3 h4 (fun _ => by norm_num)

example : Semicircular.stats.2.1 = 1 / 4 ∧ Anglit.stats.1 = 0 ∧ Cosine.stats.1 = 0 :=
  ⟨by simp only [Semicircular.stats]; norm_num, rfl, rfl⟩

/-! ### Arcsine -/

theorem C261_arcsine : HasStats (Ioo 0 1) Arcsine.pdf Arcsine.stats := by
  have hp := pi_pos
  have key : ∀ (n : ℕ) (k a b c d v : ℝ),
      (∀ x, k + (x * quart a b c d 0 x - (1 - x ^ 2) * quart b (2 * c) (3 * d) 0 0 x) =
        ((1 - x) / 2) ^ n) → v = k → HasMoment (Ioo 0 1) Arcsine.pdf n v := by
    intro n k a b c d v h hv
    refine moment_ppf measurableSet_Ioo ordConnected_Ioo C255_arcsine ?_
    have e : ∀ q : ℝ, Arcsine.ppf q ^ n = ((1 - cos (π * q)) / 2) ^ n := by
      intro q
      rw [Arcsine.ppf, rpow_two, sin_sq_eq_half_sub, show 2 * (π / 2 * q) = π * q by ring]
      congr 1
      ring
    have hd : ∀ q, HasDerivAt (fun q => k * q + sin (π * q) * quart a b c d 0 (cos (π * q)) / π)
        (Arcsine.ppf q ^ n) q := by
      intro q
      have hs : HasDerivAt (fun q : ℝ => sin (π * q)) (π * cos (π * q)) q := by
        refine HasDerivAt.congr_deriv (((hasDerivAt_id q).const_mul π).sin) ?_
        simp only [id]
        ring
      have hc : HasDerivAt (fun q : ℝ => cos (π * q)) (-π * sin (π * q)) q := by
        refine HasDerivAt.congr_deriv (((hasDerivAt_id q).const_mul π).cos) ?_
        simp only [id]
        ring
      have hq := HasDerivAt.comp (h₂ := quart a b c d 0) (h := fun q => cos (π * q)) q
        (hasDerivAt_quart a b c d 0 (cos (π * q))) hc
      refine HasDerivAt.congr_deriv (((hasDerivAt_id q).const_mul k).add
        ((hs.mul hq).div_const π)) ?_
      rw [e, ← h (cos (π * q))]
      simp only [Function.comp_def, mul_zero]
      have := sin_sq_add_cos_sq (π * q)
      rw [← eq_sub_iff_add_eq] at this
      rw [← this]
      field_simp
      ring
    refine hasInt_ftc zero_le_one
      (F := fun q => k * q + sin (π * q) * quart a b c d 0 (cos (π * q)) / π)
      (fun x _ => (hd x).continuousAt.continuousWithinAt) ?_ (fun x _ => hd x) ?_
    · simp only [e]
      fun_prop
    · simp [hv]
  have h0 : HasMoment (Ioo 0 1) Arcsine.pdf 0 1 :=
    key 0 1 0 0 0 0 1 (fun x => by simp only [quart]; ring) rfl
  have h1 : HasMoment (Ioo 0 1) Arcsine.pdf 1 0.5 :=
    key 1 (1 / 2) (-1 / 2) 0 0 0 _ (fun x => by simp only [quart]; ring) (by norm_num)
  have h2 : HasMoment (Ioo 0 1) Arcsine.pdf 2 (3 / 8) :=
    key 2 (3 / 8) (-1 / 2) (1 / 8) 0 0 _ (fun x => by simp only [quart]; ring) rfl
  have h3 : HasMoment (Ioo 0 1) Arcsine.pdf 3 (5 / 16) :=
    key 3 (5 / 16) (-11 / 24) (3 / 16) (-1 / 24) 0 _ (fun x => by simp only [quart]; ring) rfl
  have h4 : HasMoment (Ioo 0 1) Arcsine.pdf 4 (35 / 128) :=
    key 4 (35 / 128) (-5 / 12) (27 / 128) (-1 / 12) (1 / 64) _
      (fun x => by simp only [quart]; ring) rfl
  exact hasStats_of_raw measurableSet_Ioo (fun x _ => by unfold Arcsine.pdf; positivity)
    h0 h1 h2 h3 h4 (by norm_num) (fun _ => by norm_num) (fun _ => by norm_num)

example : Arcsine.stats.2.1 = 1 / 8 := rfl

/-! ### Exponential quantiles: reciprocal and Bradford -/

theorem hasInt_exp {k : ℝ} (hk : k ≠ 0) :
    HasInt (Ioo 0 1) (fun q => exp (k * q)) ((exp k - 1) / k) := by
  have hd : ∀ q, HasDerivAt (fun q => exp (k * q) / k) (exp (k * q)) q := by
    intro q
    refine HasDerivAt.congr_deriv ((((hasDerivAt_id q).const_mul k).exp).div_const k) ?_
    simp only [id]
    field_simp
  refine hasInt_ftc zero_le_one (F := fun q => exp (k * q) / k)
    (fun x _ => (hd x).continuousAt.continuousWithinAt) (by fun_prop) (fun x _ => hd x) ?_
  simp
  ring

/-- `_munp` of the reciprocal distribution. -/
theorem C261_reciprocal (n : ℕ) (hn : 1 ≤ n) (a b : ℝ) (ha : 0 < a) (hab : a < b) :
    HasMoment (Ioo a b) (Reciprocal.pdf a b) n (Reciprocal.munp n a b) := by
  have hb : 0 < b := ha.trans hab
  have hr : 0 < b / a := by positivity
  have hL : 0 < log (b / a) := log_pos ((one_lt_div ha).2 hab)
  have hn' : (0 : ℝ) < n := by exact_mod_cast hn
  refine moment_ppf measurableSet_Ioo ordConnected_Ioo
    ⟨(C253_reciprocal a b ha hab).1, (C253_reciprocal a b ha hab).2.1⟩ ?_
  refine ((hasInt_exp (k := n * log (b / a)) (by positivity)).const_mul (a ^ n)).congr
    measurableSet_Ioo (fun q _ => ?_) ?_
  · rw [Reciprocal.ppf, mul_one, mul_pow, ← rpow_natCast ((b / a) ^ q), ← rpow_mul hr.le,
      rpow_def_of_pos hr]
    congr 2
    ring
  · rw [Reciprocal.munp, mul_one, mul_one, ← log_pow, exp_log (by positivity), log_pow, div_pow]
    field_simp

example : Reciprocal.munp 2 1 2 = 3 / 2 / log 2 := by
  simp only [Reciprocal.munp]
  norm_num
  ring

theorem bradford_moments (c : ℝ) (hc : 0 < c) (n : ℕ) (a0 a1 a2 a3 a4 : ℝ)
    (ha : ∀ y : ℝ, (y - 1) ^ n = quart a0 a1 a2 a3 a4 y) :
    HasMoment (Ioo 0 1) (Bradford.pdf c) n ((a0 + a1 * (c / log (1 + c)) +
      a2 * (((1 + c) ^ 2 - 1) / (2 * log (1 + c))) + a3 * (((1 + c) ^ 3 - 1) / (3 * log (1 + c))) +
      a4 * (((1 + c) ^ 4 - 1) / (4 * log (1 + c)))) / c ^ n) := by
  have h1 : (0 : ℝ) < 1 + c := by linarith
  have hL : 0 < log (1 + c) := log_pos (by linarith)
  have hE : ∀ j : ℕ, 1 ≤ j → HasInt (Ioo 0 1) (fun q => exp (q * log (1 + c)) ^ j)
      (((1 + c) ^ j - 1) / (j * log (1 + c))) := by
    intro j hj
    have hj' : (0 : ℝ) < j := by exact_mod_cast hj
    refine (hasInt_exp (k := j * log (1 + c)) (by positivity)).congr measurableSet_Ioo
      (fun q _ => ?_) ?_
    · rw [← exp_nat_mul]
      congr 1
      ring
    · rw [← log_pow, exp_log (by positivity), log_pow]
  have h0 : HasInt (Ioo 0 1) (fun _ : ℝ => (1 : ℝ)) 1 := by
    have := hasInt_rpow (s := 0) (by norm_num)
    simpa using this
  refine moment_ppf measurableSet_Ioo ordConnected_Ioo (C253_bradford c hc) ?_
  refine ((((((h0.const_mul a0).add ((hE 1 le_rfl).const_mul a1)).add
    ((hE 2 (by norm_num)).const_mul a2)).add ((hE 3 (by norm_num)).const_mul a3)).add
    ((hE 4 (by norm_num)).const_mul a4)).const_mul (1 / c ^ n)).congr measurableSet_Ioo
    (fun q _ => ?_) ?_
  · rw [Bradford.ppf, expm1, log1p, div_pow, ha]
    simp only [quart]
    ring
  · push_cast
    ring

theorem C261_bradford (c : ℝ) (hc : 0 < c) :
    HasStats (Ioo 0 1) (Bradford.pdf c) (Bradford.stats c) := by
  have hL : 0 < log (1 + c) := log_pos (by linarith)
  have h0 := bradford_moments c hc 0 1 0 0 0 0 (fun y => by simp only [quart]; ring)
  have h1 := bradford_moments c hc 1 (-1) 1 0 0 0 (fun y => by simp only [quart]; ring)
  have h2 := bradford_moments c hc 2 1 (-2) 1 0 0 (fun y => by simp only [quart]; ring)
  have h3 := bradford_moments c hc 3 (-1) 3 (-3) 1 0 (fun y => by simp only [quart]; ring)
  have h4 := bradford_moments c hc 4 1 (-4) 6 (-4) 1 (fun y => by simp only [quart]; ring)
  have hf : ∀ x ∈ Ioo (0 : ℝ) 1, 0 ≤ Bradford.pdf c x := by
    intro x hx
    have := hx.1
    have : 0 < log1p c := hL
    unfold Bradford.pdf
    positivity
  rw [Bradford.stats]
  generalize log (1 + c) = k at *
  have e0 : HasMoment (Ioo 0 1) (Bradford.pdf c) 0 1 := by
    convert h0 using 1
    ring
  have e1 : HasMoment (Ioo 0 1) (Bradford.pdf c) 1 ((c - k) / (c * k)) := by
    convert h1 using 1
    field_simp
    ring
  refine hasStats_of_raw measurableSet_Ioo hf e0 e1 h2 h3 h4 ?_ (fun hv => ?_) (fun hv => ?_)
  · field_simp
    ring
  all_goals
    have hw : 0 < c * (k - 2) + 2 * k := by
      have : 0 < (c + 2) * k - 2 * c := by
        rcases lt_or_ge 0 ((c + 2) * k - 2 * c) with h | h
        · exact h
        · exact absurd hv (not_lt.2 (div_nonpos_of_nonpos_of_nonneg h (by positivity)))
      linarith
    have ew : (c + 2) * k - 2 * c = c * (k - 2) + 2 * k := by ring
    have hw' : c * (k - 2) + k * 2 ≠ 0 := by linarith
    rw [ew] at hv ⊢
  · have e3 : 3 * c * (k - 2) + 6 * k = 3 * (c * (k - 2) + 2 * k) := by ring
    have e : √((c * (k - 2) + 2 * k) / (2 * c * k * k)) =
        √(c * (c * (k - 2) + 2 * k)) / (√2 * (c * k)) := by
      rw [show (c * (k - 2) + 2 * k) / (2 * c * k * k) =
        c * (c * (k - 2) + 2 * k) / (2 * (c * k) ^ 2) by field_simp,
        sqrt_div (by positivity), sqrt_mul (x := 2) (by norm_num), sqrt_sq (by positivity)]
    rw [rpow_threehalf hv.le, e, e3]
    have hs := sqrt_pos.2 (show 0 < c * (c * (k - 2) + 2 * k) by positivity)
    have h2' : (0 : ℝ) < √2 := sqrt_pos.2 (by norm_num)
    generalize √(c * (c * (k - 2) + 2 * k)) = r at *
    generalize √2 = t at *
    field_simp
    ring
  · field_simp
    ring

example : (0 : ℝ) < 1 ∧ (Bradford.stats 1).1 = (1 - log 2) / log 2 := by
  refine ⟨one_pos, ?_⟩
  simp only [Bradford.stats]
  norm_num

/-! ### Truncated exponential -/

/-- `_munp` of the truncated exponential distribution of the orders with a closed form. -/
theorem C261_truncexpon (n : ℕ) (b m : ℝ) (hb : 0 < b) (h : TruncExpon.munp n b = some m) :
    HasMoment (Ioo 0 b) (TruncExpon.pdf b) n m := by
  have hE : 0 < -expm1 (-b) := by
    have := exp_lt_one_iff.2 (show -b < 0 by linarith)
    simp only [expm1]
    linarith
  have key : ∀ (n : ℕ) (a0 a1 a2 v : ℝ),
      (∀ x, quart a0 a1 a2 0 0 x - quart a1 (2 * a2) 0 0 0 x = x ^ n) →
      v = (a0 - quart a0 a1 a2 0 0 b * exp (-b)) / (-expm1 (-b)) →
      HasMoment (Ioo 0 b) (TruncExpon.pdf b) n v := by
    intro n a0 a1 a2 v h hv
    have hd : ∀ x, HasDerivAt (fun x => -(quart a0 a1 a2 0 0 x * exp (-x) / (-expm1 (-b))))
        (x ^ n * (exp (-x) / (-expm1 (-b)))) x := by
      intro x
      refine HasDerivAt.congr_deriv ((((hasDerivAt_quart a0 a1 a2 0 0 x).mul
        ((hasDerivAt_id x).neg.exp)).div_const (-expm1 (-b))).neg) ?_
      rw [← h x]
      simp only [quart, Pi.neg_apply, id]
      field_simp
      ring
    refine hasInt_ftc hb.le (F := fun x => -(quart a0 a1 a2 0 0 x * exp (-x) / (-expm1 (-b))))
      (fun x _ => (hd x).continuousAt.continuousWithinAt) (by fun_prop) (fun x _ => hd x) ?_
    rw [hv]
    simp only [quart, neg_zero, exp_zero]
    field_simp
    ring
  rw [TruncExpon.munp] at h
  split_ifs at h with h1 h2
  · subst h1
    injection h with h
    exact key 1 1 1 0 m (fun x => by simp only [quart]; ring)
      (by rw [← h]; simp only [quart]; ring)
  · subst h2
    injection h with h
    exact key 2 2 2 1 m (fun x => by simp only [quart]; ring)
      (by rw [← h]; simp only [quart]; norm_num; ring)

example : TruncExpon.munp 1 2 = some ((1 - (2 + 1) * exp (-2)) / (-expm1 (-2))) := by
  simp [TruncExpon.munp]

/-! ### Triangular -/

theorem triang_moment (n : ℕ) (c : ℝ) (hc : Triang.argcheck c) :
    HasMoment (Ioo 0 1) (Triang.pdf c) n
      (2 / ((n + 1) * (n + 2)) * ∑ j ∈ Finset.range (n + 1), c ^ j) := by
  obtain ⟨h0, h1⟩ := hc
  have hn1 : (0 : ℝ) < n + 1 := by positivity
  have hn2 : (0 : ℝ) < n + 2 := by positivity
  have up : ∀ (k : ℕ) (a b : ℝ), a ≤ b → HasInt (Ioo a b) (fun x => x ^ k)
      ((b ^ (k + 1) - a ^ (k + 1)) / (k + 1)) := by
    intro k a b hab
    have hk : (k : ℝ) + 1 ≠ 0 := by positivity
    have hd : ∀ x : ℝ, HasDerivAt (fun x : ℝ => x ^ (k + 1) / (k + 1)) (x ^ k) x := by
      intro x
      refine HasDerivAt.congr_deriv ((hasDerivAt_pow (k + 1) x).div_const (k + 1 : ℝ)) ?_
      rw [add_tsub_cancel_right]
      push_cast
      field_simp
    exact hasInt_ftc hab (F := fun x => x ^ (k + 1) / (k + 1))
      (fun x _ => (hd x).continuousAt.continuousWithinAt) (by fun_prop) (fun x _ => hd x) (by ring)
  have left : 0 < c → HasInt (Ioo 0 c) (fun x => x ^ n * Triang.pdf c x)
      (2 * c ^ (n + 1) / (n + 2)) := by
    intro hc
    refine ((up (n + 1) 0 c h0).const_mul (2 / c)).congr measurableSet_Ioo (fun x hx => ?_) ?_
    · rw [Triang.pdf, if_neg hc.ne', if_pos hx.2]
      ring
    · push_cast
      field_simp
      ring
  have right : c < 1 → HasInt (Ioo c 1) (fun x => x ^ n * Triang.pdf c x)
      (2 / (1 - c) * ((1 - c ^ (n + 1)) / (n + 1) - (1 - c ^ (n + 2)) / (n + 2))) := by
    intro hc
    refine (((up n c 1 h1).add ((up (n + 1) c 1 h1).const_mul (-1))).const_mul
      (2 / (1 - c))).congr measurableSet_Ioo (fun x hx => ?_) ?_
    · rw [Triang.pdf]
      split_ifs with a1 a2 a3
      · subst a1
        ring
      · exact absurd hx.1 (not_lt.2 a2.le)
      · ring
      · exact absurd ⟨hx.1.le, hc.ne⟩ a3
    · push_cast
      ring
  have geo : c < 1 → ∑ j ∈ Finset.range (n + 1), c ^ j = (1 - c ^ (n + 1)) / (1 - c) := by
    intro hc
    rw [geom_sum_eq hc.ne, ← neg_div_neg_eq, neg_sub, neg_sub]
  rcases h0.eq_or_lt with h | h
  · subst h
    refine (right one_pos).congr measurableSet_Ioo (fun _ _ => rfl) ?_
    rw [geo one_pos, zero_pow (by omega), zero_pow (by omega)]
    field_simp
    ring
  · rcases h1.eq_or_lt with h' | h'
    · subst h'
      refine (left one_pos).congr measurableSet_Ioo (fun _ _ => rfl) ?_
      simp
      field_simp
    · refine (hasInt_union h0 h1 (left h) (right h')).congr measurableSet_Ioo (fun _ _ => rfl) ?_
      rw [geo h']
      have : 1 - c ≠ 0 := by linarith
      field_simp
      ring

theorem C261_triang (c : ℝ) (hc : Triang.argcheck c) :
    HasStats (Ioo 0 1) (Triang.pdf c) (Triang.stats c) := by
  have h0 := triang_moment 0 c hc
  have h1 := triang_moment 1 c hc
  have h2 := triang_moment 2 c hc
  have h3 := triang_moment 3 c hc
  have h4 := triang_moment 4 c hc
  simp only [Finset.sum_range_succ, Finset.sum_range_zero] at h0 h1 h2 h3 h4
  push_cast at h0 h1 h2 h3 h4
  norm_num at h0
  have e1 : HasMoment (Ioo 0 1) (Triang.pdf c) 1 ((c + 1) / 3) := by
    convert h1 using 1
    ring
  have hn : ∀ x ∈ Ioo (0 : ℝ) 1, 0 ≤ Triang.pdf c x := by
    intro x hx
    have := hx.1
    have := hx.2
    have : 0 ≤ 1 - x := by linarith
    have := hc.1
    have : 0 ≤ 1 - c := by linarith [hc.2]
    rw [Triang.pdf]
    split_ifs
    · linarith
    all_goals positivity
  refine hasStats_of_raw measurableSet_Ioo hn h0 e1 h2 h3 h4 (by ring) (fun hv => ?_)
    (fun _ => by ring)
  have hv' : 0 < 1 - c + c * c := by nlinarith
  have e : √((1 - c + c * c) / 18) = √(1 - c + c * c) / (3 * √2) := by
    rw [sqrt_div hv'.le, show (18 : ℝ) = 3 ^ 2 * 2 by norm_num, sqrt_mul (by norm_num),
      sqrt_sq (by norm_num)]
  rw [rpow_threehalf hv.le, e, onehalf_eq, rpow_threehalf hv'.le]
  have hne : 1 - c + c ^ 2 ≠ 0 := by rw [pow_two]; exact hv'.ne'
  have hs := sqrt_pos.2 hv'
  have h2 : (√2 : ℝ) ^ 2 = 2 := sq_sqrt (by norm_num)
  have h2' : (0 : ℝ) < √2 := sqrt_pos.2 (by norm_num)
  generalize √(1 - c + c * c) = w at *
  field_simp
  ring

example : Triang.argcheck (1 / 2) ∧ (Triang.stats (1 / 2)).1 = 1 / 2 ∧
    (Triang.stats 0).2.1 = 1 / 18 := by
  refine ⟨⟨by norm_num, by norm_num⟩, ?_, ?_⟩ <;> simp only [Triang.stats] <;> norm_num

end Wafo.Dist
