import Verif.Gauss.Cut

/-!
# The value for correlations close to one
-/

set_option linter.unusedSectionVars false

namespace Wafo.Gauss

open MeasureTheory ProbabilityTheory Set Filter Topology

/-- The integrand `highTerm` in the variable `x`, without the cut-off. -/
noncomputable def gfun (bs hk x : ℝ) : ℝ :=
  tailInt bs hk x - gexp bs hk x * (1 + (4 - hk) / 8 * x ^ 2 * (1 + (12 - hk) / 16 * x ^ 2))

open Classical in
/-- The integrand with the cut-off. -/
noncomputable def gcut (bs hk x : ℝ) : ℝ :=
  if -(bs / x ^ 2 + hk) / 2 > -100 then gfun bs hk x else 0

theorem measurable_gfun (bs hk : ℝ) : Measurable (gfun bs hk) := by
  have h1 := measurable_tailInt bs hk
  have h2 := measurable_gexp bs hk
  unfold gfun
  fun_prop

theorem measurable_gcut (bs hk : ℝ) : Measurable (gcut bs hk) := by
  unfold gcut
  exact Measurable.ite (measurableSet_lt measurable_const (by fun_prop)) (measurable_gfun bs hk)
    measurable_const

theorem tailInt_split (bs hk : ℝ) {x : ℝ} :
    tailInt bs hk x = gexp bs hk x *
      (Real.exp (-hk * (1 - √(1 - x ^ 2)) / (2 * (1 + √(1 - x ^ 2)))) / √(1 - x ^ 2)) := by
  unfold tailInt gexp
  rw [mul_div_assoc', ← Real.exp_add]
  congr 2
  have : 1 + √(1 - x ^ 2) ≠ 0 := by positivity
  rcases eq_or_ne x 0 with rfl | hx
  · norm_num
    ring
  · field_simp
    ring

theorem highTerm_eq (h k r t : ℝ) :
    highTerm h k r t = √((1 - r) * (1 + r)) / 2 *
      gcut (|h - k| * |h - k|) (h * k) (√((1 - r) * (1 + r)) / 2 * (t + 1)) := by
  simp only [highTerm, gcut, gfun, tailInt_split]
  split_ifs
  · unfold gexp
    ring
  · ring

theorem integral_highTerm (h k r : ℝ) (ha : 0 < √((1 - r) * (1 + r))) :
    ∫ t in (-1 : ℝ)..1, highTerm h k r t =
      ∫ x in (0 : ℝ)..√((1 - r) * (1 + r)), gcut (|h - k| * |h - k|) (h * k) x := by
  set a := √((1 - r) * (1 + r)) with hadef
  simp only [highTerm_eq, ← hadef]
  rw [intervalIntegral.integral_const_mul]
  have e : ∀ t : ℝ, a / 2 * (t + 1) = a / 2 * t + a / 2 := fun t => by ring
  simp only [e]
  rw [intervalIntegral.integral_comp_mul_add _ (by positivity : a / 2 ≠ 0), smul_eq_mul,
    mul_inv_cancel_left₀ (by positivity : a / 2 ≠ 0)]
  congr 1 <;> ring

theorem sq_facts (h k : ℝ) : 0 ≤ |h - k| * |h - k| ∧ -(|h - k| * |h - k|) ≤ 4 * (h * k) := by
  refine ⟨mul_self_nonneg _, ?_⟩
  rw [abs_mul_abs_self]
  nlinarith [sq_nonneg (h + k)]

theorem gcut_sub_le {bs hk a : ℝ} (ha2 : a ^ 2 ≤ 0.15) (hbs : 0 ≤ bs)
    (hk4 : -bs ≤ 4 * hk) {x : ℝ} (h0 : 0 < x) (h1 : x ≤ a) :
    |gcut bs hk x - gfun bs hk x| ≤ 1e-30 := by
  have hx2 : x ^ 2 ≤ 0.15 := by nlinarith
  unfold gcut
  split_ifs with hc
  · rw [sub_self, abs_zero]; norm_num
  · rw [zero_sub, abs_neg]
    exact drop3 h0 hx2 hbs hk4 (not_lt.1 hc)

/-- The accumulated value for `0.925 ≤ r < 1`, up to the quadrature error and the cut-offs. -/
theorem high_error {r : ℝ} (hr0 : 0.925 ≤ r) (hr1 : r < 1) (b1 b2 : ℝ) :
    |high (-b1) (-b2) r - 2 * Real.pi * (Phi (min b1 b2) - Phi2 b1 b2 r)| ≤
      |glSum tab20 (highTerm (-b1) (-b2) r) - ∫ t in (-1 : ℝ)..1, highTerm (-b1) (-b2) r t| +
        3e-20 := by
  have hrp : 0 < r := lt_of_lt_of_le (by norm_num) hr0
  have ea : (1 - r) * (1 + r) = 1 - r ^ 2 := by ring
  have hr2 : 0 < 1 - r ^ 2 := by nlinarith
  have ha : 0 < √((1 - r) * (1 + r)) := by rw [ea]; exact Real.sqrt_pos.2 hr2
  have ha2 : √((1 - r) * (1 + r)) ^ 2 ≤ 0.15 := by
    rw [ea, Real.sq_sqrt hr2.le]
    norm_num at hr0 ⊢
    nlinarith
  have ha1 : √((1 - r) * (1 + r)) < 1 := by norm_num at ha2; nlinarith
  have esq : √((1 - r) * (1 + r)) ^ 2 = (1 - r) * (1 + r) := by rw [ea, Real.sq_sqrt hr2.le]
  have hI := integral_highTerm (-b1) (-b2) r ha
  have ht := integral_tailInt hrp hr1 b1 b2
  rw [← ea] at ht
  obtain ⟨hbs, hk4⟩ := sq_facts (-b1) (-b2)
  obtain ⟨b, hb⟩ : ∃ b, b = |(-b1) - (-b2)| := ⟨_, rfl⟩
  have hb0 : 0 ≤ b := hb ▸ abs_nonneg _
  have hbb : (b1 - b2) ^ 2 = b * b := by rw [hb, abs_mul_abs_self]; ring
  have hhk : b1 * b2 = -b1 * -b2 := by ring
  rw [hbb, hhk] at ht
  rw [← hb] at hbs hk4 hI
  set hk := -b1 * -b2 with hkdef
  set a := √((1 - r) * (1 + r)) with hadef
  -- the integral with the cut-off against the integral without
  have hpi := integral_poly hb0 ha ha1 hk ((4 - hk) / 8) ((12 - hk) / 16)
  have iT : IntervalIntegrable (tailInt (b * b) hk) volume 0 a :=
    integrable_tailInt hbs ha.le ha1
  have iP := integrable_poly (b := b) ha.le ha1 hk ((4 - hk) / 8) ((12 - hk) / 16)
  have iG : IntervalIntegrable (gfun (b * b) hk) volume 0 a := iT.sub iP
  have hG : ∫ x in (0 : ℝ)..a, gfun (b * b) hk x =
      2 * Real.pi * (Phi (min b1 b2) - Phi2 b1 b2 r) -
        antider b hk ((4 - hk) / 8) ((12 - hk) / 16) a := by
    rw [← ht, ← hpi, ← intervalIntegral.integral_sub iT iP]
    rfl
  have iD : IntervalIntegrable (fun x => gcut (b * b) hk x - gfun (b * b) hk x) volume 0 a :=
    intervalIntegrable_of_bdd ha.le ((measurable_gcut _ _).sub (measurable_gfun _ _))
      fun x h0 h1 => gcut_sub_le ha2 hbs hk4 h0 h1
  have iC : IntervalIntegrable (gcut (b * b) hk) volume 0 a := by
    have h := iD.add iG
    simpa using h
  have hD : |(∫ x in (0 : ℝ)..a, gcut (b * b) hk x) - ∫ x in (0 : ℝ)..a, gfun (b * b) hk x| ≤
      1e-30 := by
    rw [← intervalIntegral.integral_sub iC iG]
    have := intervalIntegral.norm_integral_le_of_norm_le_const (a := 0) (b := a) (C := 1e-30)
      (f := fun x => gcut (b * b) hk x - gfun (b * b) hk x) (fun x hx => by
        rw [uIoc_of_le ha.le] at hx
        exact gcut_sub_le ha2 hbs hk4 hx.1 hx.2)
    rw [Real.norm_eq_abs, sub_zero, abs_of_pos ha] at this
    refine this.trans ?_
    norm_num
    nlinarith
  -- the end-point terms
  have hA : |high (-b1) (-b2) r - glSum tab20 (highTerm (-b1) (-b2) r) -
      antider b hk ((4 - hk) / 8) ((12 - hk) / 16) a| ≤ 2.5e-20 := by
    have d1 : -(b * b / a ^ 2 + hk) / 2 ≤ -100 → _ := drop1 ha ha2 hbs hk4
    have d2 : 100 ≤ hk → _ := drop2 ha ha2 hb0
    unfold antider
    simp only [high, fi_eq]
    rw [← hkdef, ← hadef, ← hb]
    rw [← esq]
    have egx : ∀ v, v = Real.exp (-(b * b / a ^ 2 + hk) / 2) → v = gexp (b * b) hk a :=
      fun v hv => hv
    rw [egx _ rfl]
    set T1 := a * gexp (b * b) hk a * (1 - (4 - hk) / 8 * (b * b - a ^ 2) *
      (1 - (12 - hk) / 16 * (b * b) / 5) / 3 + (4 - hk) / 8 * ((12 - hk) / 16) * (a ^ 2) ^ 2 / 5)
    set T2 := Real.exp (-hk / 2) * √(2 * Real.pi) * Phi (-b / a) * b *
      (1 - (4 - hk) / 8 * (b * b) * (1 - (12 - hk) / 16 * (b * b) / 5) / 3)
    by_cases c1 : -(b * b / a ^ 2 + hk) / 2 > -100
    · rw [if_pos c1]
      by_cases c2 : hk < 100
      · rw [if_pos c2, show T1 - T2 + glSum tab20 (highTerm (-b1) (-b2) r) -
          glSum tab20 (highTerm (-b1) (-b2) r) - (T1 - T2) = 0 by ring, abs_zero]
        norm_num
      · rw [if_neg c2, show T1 + glSum tab20 (highTerm (-b1) (-b2) r) -
          glSum tab20 (highTerm (-b1) (-b2) r) - (T1 - T2) = T2 by ring]
        have := d2 (not_lt.1 c2)
        norm_num at this ⊢
        linarith
    · rw [if_neg c1]
      have h1 := d1 (not_lt.1 c1)
      by_cases c2 : hk < 100
      · rw [if_pos c2, show 0 - T2 + glSum tab20 (highTerm (-b1) (-b2) r) -
          glSum tab20 (highTerm (-b1) (-b2) r) - (T1 - T2) = -T1 by ring, abs_neg]
        norm_num at h1 ⊢
        linarith
      · rw [if_neg c2, show 0 + glSum tab20 (highTerm (-b1) (-b2) r) -
          glSum tab20 (highTerm (-b1) (-b2) r) - (T1 - T2) = T2 - T1 by ring]
        have h2 := d2 (not_lt.1 c2)
        refine (abs_sub _ _).trans ?_
        norm_num at h1 h2 ⊢
        linarith
  rw [hI]
  have hsplit : high (-b1) (-b2) r - 2 * Real.pi * (Phi (min b1 b2) - Phi2 b1 b2 r) =
      (high (-b1) (-b2) r - glSum tab20 (highTerm (-b1) (-b2) r) -
        antider b hk ((4 - hk) / 8) ((12 - hk) / 16) a) +
      (glSum tab20 (highTerm (-b1) (-b2) r) - ∫ x in (0 : ℝ)..a, gcut (b * b) hk x) +
      ((∫ x in (0 : ℝ)..a, gcut (b * b) hk x) - ∫ x in (0 : ℝ)..a, gfun (b * b) hk x) := by
    rw [hG]; ring
  rw [hsplit]
  refine (abs_add_three _ _ _).trans ?_
  norm_num at hA hD ⊢
  linarith

end Wafo.Gauss
