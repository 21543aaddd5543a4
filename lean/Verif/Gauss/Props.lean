import Verif.Gauss.HighErr
import Mathlib.Algebra.Polynomial.Eval.Degree
import Mathlib.Analysis.SpecialFunctions.Integrals.Basic

/-!
# `cdfnorm2d`: the bivariate normal distribution function (properties C228-C232)
-/

set_option linter.unusedSectionVars false

namespace Wafo.Gauss

open MeasureTheory ProbabilityTheory Set Filter Topology

/-- Specification: the integrand of the bivariate normal distribution function along the arc from
independence to the correlation `r`, with the arc mapped to `[-1, 1]`. -/
noncomputable def arcIntegrand (b1 b2 r t : ℝ) : ℝ :=
  let s := Real.sin (Real.arcsin r * (t + 1) / 2)
  Real.exp (-(b1 ^ 2 - 2 * s * b1 * b2 + b2 ^ 2) / (2 * (1 - s ^ 2)))

theorem midTerm_arc (b1 b2 r : ℝ) : midTerm (-b1) (-b2) r = arcIntegrand b1 b2 r := by
  funext t; rw [midTerm_eq]; rfl

/-- **C228.** For a correlation below 0.925 in magnitude, the error of `cdfnorm2d` is the error of
the chosen Gauss-Legendre rule on the arc integral, times `arcsin r / (4π)`. -/
theorem C228_error (b1 b2 r : ℝ) (hr : |r| < 0.925) :
    ∃ v, cdf2 b1 b2 r = some v ∧
      v - Phi2 b1 b2 r = Real.arcsin r / (4 * Real.pi) *
        (glSum (tabOf r) (arcIntegrand b1 b2 r) -
          ∫ t in (-1 : ℝ)..1, arcIntegrand b1 b2 r t) := by
  have h1 : |r| < 1 := hr.trans (by norm_num)
  refine ⟨mid (-b1) (-b2) r, ?_, ?_⟩
  · rw [cdf2_eq, elemVal, if_neg (not_lt.2 h1.le), if_pos hr]
  · rw [mid_sub_Phi2 h1, midTerm_arc]

/-- A rule that integrates the arc integral to within `ε` gives the distribution function to within
`ε |arcsin r| / (4π)`. -/
theorem C228_bound (b1 b2 r ε : ℝ) (hr : |r| < 0.925)
    (hq : |glSum (tabOf r) (arcIntegrand b1 b2 r) -
      ∫ t in (-1 : ℝ)..1, arcIntegrand b1 b2 r t| ≤ ε) :
    ∃ v, cdf2 b1 b2 r = some v ∧
      |v - Phi2 b1 b2 r| ≤ |Real.arcsin r| / (4 * Real.pi) * ε := by
  obtain ⟨v, h1, h2⟩ := C228_error b1 b2 r hr
  refine ⟨v, h1, ?_⟩
  rw [h2, abs_mul, abs_div, abs_of_pos (show 0 < 4 * Real.pi by positivity)]
  exact mul_le_mul_of_nonneg_left hq (by positivity)

/-- Independent variables: the exact product. -/
theorem C228_zero (b1 b2 : ℝ) : cdf2 b1 b2 0 = some (Phi b1 * Phi b2) ∧
    Phi2 b1 b2 0 = Phi b1 * Phi b2 := by
  refine ⟨?_, Phi2_zero b1 b2⟩
  obtain ⟨v, h1, h2⟩ := C228_error b1 b2 0 (by norm_num)
  rw [Real.arcsin_zero, zero_div, zero_mul, Phi2_zero, sub_eq_zero] at h2
  rw [h1, h2]

/-- At the median of both variables with correlation one half the arc integrand is constant. -/
example : ∃ v, cdf2 0 0 (1 / 2) = some v ∧ |v - Phi2 0 0 (1 / 2)| ≤ 1e-15 := by
  have e : ∀ t, arcIntegrand 0 0 (1 / 2) t = 1 := by intro t; simp [arcIntegrand]
  have e' : arcIntegrand 0 0 (1 / 2) = fun _ => (1 : ℝ) := funext e
  have ht : tabOf (1 / 2) = tab12 := by norm_num [tabOf]
  obtain ⟨v, h1, h2⟩ := C228_bound 0 0 (1 / 2) 1e-15 (by norm_num [abs_lt]) (by
    rw [e', ht, glSum_eq]
    norm_num [tab12, abs_le])
  refine ⟨v, h1, h2.trans ?_⟩
  have h3 : |Real.arcsin (1 / 2)| / (4 * Real.pi) ≤ 1 := by
    rw [div_le_one (by positivity)]
    have h5 := Real.arcsin_le_pi_div_two (1 / 2)
    have h6 := Real.neg_pi_div_two_le_arcsin (1 / 2)
    have := Real.pi_pos
    rw [abs_le]; constructor <;> linarith
  have := mul_le_mul_of_nonneg_right h3 (show (0 : ℝ) ≤ 1e-15 by norm_num)
  linarith

/-- **C229.** Perfectly correlated variables get the exact value, and correlations outside
`[-1, 1]` give `nan`. -/
theorem C229_perfect (b1 b2 : ℝ) :
    cdf2 b1 b2 1 = some (Phi2 b1 b2 1) ∧ cdf2 b1 b2 (-1) = some (Phi2 b1 b2 (-1)) ∧
    ∀ r, 1 < |r| → cdf2 b1 b2 r = none := by
  refine ⟨?_, ?_, fun r hr => ?_⟩
  · rw [cdf2_eq, elemVal, Phi2_one]
    norm_num
  · rw [cdf2_eq, elemVal, Phi2_neg_one]
    norm_num
  · rw [cdf2_eq, elemVal, if_pos hr]

/-- The values themselves. -/
theorem C229_values (b1 b2 : ℝ) :
    cdf2 b1 b2 1 = some (Phi (min b1 b2)) ∧
      cdf2 b1 b2 (-1) = some (max 0 (Phi b1 - Phi (-b2))) := by
  obtain ⟨h1, h2, _⟩ := C229_perfect b1 b2
  rw [h1, h2, Phi2_one, Phi2_neg_one]
  exact ⟨rfl, rfl⟩

example : cdf2 0 3 1 = some (1 / 2) ∧ cdf2 0 0 (-1) = some 0 ∧ cdf2 0 0 (3 / 2) = none := by
  obtain ⟨h1, _⟩ := C229_values 0 3
  obtain ⟨_, h2⟩ := C229_values 0 0
  obtain ⟨_, _, h3⟩ := C229_perfect 0 0
  refine ⟨?_, ?_, h3 _ (by norm_num [abs_of_pos])⟩
  · rw [h1]; norm_num [Phi_zero]
  · rw [h2]; norm_num [Phi_zero]

theorem high_even (h k r : ℝ) : high h k (-r) = high h k r := by
  have e : (1 - -r) * (1 + -r) = (1 - r) * (1 + r) := by ring
  have e2 : highTerm h k (-r) = highTerm h k r := by
    funext t
    simp only [highTerm, e]
  simp only [high, e, e2]

theorem highTerm_even (h k r : ℝ) : highTerm h k (-r) = highTerm h k r := by
  have e : (1 - -r) * (1 + -r) = (1 - r) * (1 + r) := by ring
  funext t
  simp only [highTerm, e]

/-- **C230.** For a correlation of at least 0.925 in magnitude, the series part integrated in
closed form and the cut-offs at 100 are right: the error of `cdfnorm2d` is at most the error of the
20 point rule divided by `2π`, plus `10⁻²⁰`. -/
theorem C230_error (b1 b2 r : ℝ) (hr0 : 0.925 ≤ |r|) (hr1 : |r| < 1) :
    ∃ v, cdf2 b1 b2 r = some v ∧
      |v - Phi2 b1 b2 r| ≤
        |glSum tab20 (highTerm (-b1) (if r < 0 then b2 else -b2) r) -
          ∫ t in (-1 : ℝ)..1, highTerm (-b1) (if r < 0 then b2 else -b2) r t| / (2 * Real.pi) +
          1e-20 := by
  have hp : 0 < 2 * Real.pi := by positivity
  have hp3 : 3e-20 / (2 * Real.pi) ≤ 1e-20 := by
    rw [div_le_iff₀ hp]
    have := Real.two_le_pi
    norm_num
    linarith
  -- positive correlation
  have pos : ∀ b2 ρ : ℝ, 0.925 ≤ ρ → ρ < 1 →
      |-high (-b1) (-b2) ρ / (2 * Real.pi) + Phi (min b1 b2) - Phi2 b1 b2 ρ| ≤
        |glSum tab20 (highTerm (-b1) (-b2) ρ) - ∫ t in (-1 : ℝ)..1, highTerm (-b1) (-b2) ρ t| /
          (2 * Real.pi) + 1e-20 := by
    intro b2 ρ h0 h1
    have h := high_error h0 h1 b1 b2
    have e : -high (-b1) (-b2) ρ / (2 * Real.pi) + Phi (min b1 b2) - Phi2 b1 b2 ρ =
        -(high (-b1) (-b2) ρ - 2 * Real.pi * (Phi (min b1 b2) - Phi2 b1 b2 ρ)) / (2 * Real.pi) := by
      field_simp
      ring
    rw [e, abs_div, abs_neg, abs_of_pos hp]
    calc _ ≤ (|glSum tab20 (highTerm (-b1) (-b2) ρ) -
          ∫ t in (-1 : ℝ)..1, highTerm (-b1) (-b2) ρ t| + 3e-20) / (2 * Real.pi) :=
          div_le_div_of_nonneg_right h hp.le
      _ ≤ _ := by rw [add_div]; linarith
  have hn1 : ¬ |r| > 1 := not_lt.2 hr1.le
  have hn2 : ¬ |r| < 0.925 := not_lt.2 hr0
  by_cases hneg : r < 0
  · have hab : |r| = -r := abs_of_neg hneg
    refine ⟨_, by rw [cdf2_eq, elemVal, if_neg hn1, if_neg hn2, if_pos hneg, if_pos hr1], ?_⟩
    have h := pos (-b2) (-r) (hab ▸ hr0) (hab ▸ hr1)
    rw [neg_neg, high_even, highTerm_even] at h
    have hrefl := Phi2_reflect (r := -r) (by rwa [abs_neg]) b1 (-b2)
    rw [neg_neg, neg_neg] at hrefl
    rw [if_pos hneg, hrefl]
    have hm : max 0 (Phi b1 - Phi (-b2)) = Phi b1 - Phi (min b1 (-b2)) := by
      rcases le_total b1 (-b2) with hle | hle
      · rw [min_eq_left hle, sub_self, max_eq_left (sub_nonpos.2 (Phi_mono hle))]
      · rw [min_eq_right hle, max_eq_right (sub_nonneg.2 (Phi_mono hle))]
    rw [hm, show -(-high (-b1) b2 r / (2 * Real.pi)) + (Phi b1 - Phi (min b1 (-b2))) -
      (Phi b1 - Phi2 b1 (-b2) (-r)) = -(-high (-b1) b2 r / (2 * Real.pi) + Phi (min b1 (-b2)) -
        Phi2 b1 (-b2) (-r)) by ring, abs_neg]
    exact h
  · have hab : |r| = r := abs_of_nonneg (not_lt.1 hneg)
    refine ⟨_, by rw [cdf2_eq, elemVal, if_neg hn1, if_neg hn2, if_neg hneg, if_pos hr1], ?_⟩
    rw [if_neg hneg]
    exact pos b2 r (hab ▸ hr0) (hab ▸ hr1)

/-- The hypotheses hold on both sides. -/
example : (0.925 : ℝ) ≤ |(-0.95 : ℝ)| ∧ |(-0.95 : ℝ)| < 1 := by
  norm_num [abs_of_neg]

/-- **C231** (exchange). The two limits may be exchanged. -/
theorem C231_comm (b1 b2 r : ℝ) : cdf2 b1 b2 r = cdf2 b2 b1 r := by
  have hm : mid (-b1) (-b2) r = mid (-b2) (-b1) r := by
    unfold mid
    rw [glSum_congr _ (midTerm_comm (-b1) (-b2) r), mul_comm (fi (- -b1))]
  have hh : ∀ h k : ℝ, high h k r = high k h r := by
    intro h k
    have e : highTerm h k r = highTerm k h r := by
      funext t
      simp only [highTerm, mul_comm h k, abs_sub_comm h k]
    simp only [high, mul_comm h k, abs_sub_comm h k, e]
  have hneg : ∀ h k : ℝ, high (-h) k r = high (-k) h r := by
    intro h k
    have e1 : |-h - k| = |-k - h| := by congr 1; ring
    have e2 : -h * k = -k * h := by ring
    have e : highTerm (-h) k r = highTerm (-k) h r := by
      funext t
      simp only [highTerm, e1, e2]
    simp only [high, e1, e2, e]
  rw [cdf2_eq, cdf2_eq, elemVal, elemVal, hm, hneg b1 b2, hh (-b1) (-b2), min_comm b1 b2]
  have : Phi b1 - Phi (-b2) = Phi b2 - Phi (-b1) := by rw [Phi_neg, Phi_neg]; ring
  rw [this]

/-- **C231** (reflection, partial). `P(X₁ ≤ b1, X₂ ≤ b2) + P(X₁ ≤ b1, -X₂ ≤ -b2) = P(X₁ ≤ b1)` is
reproduced by `cdfnorm2d` for correlations below 0.3 and from 0.925 on in magnitude.  Missing: the
range between, where it fails (`C231_not_reflect`). -/
theorem C231_reflect_partial (b1 b2 r : ℝ) (hr : |r| < 0.3 ∨ (0.925 ≤ |r| ∧ |r| ≤ 1)) :
    ∃ v w, cdf2 b1 b2 r = some v ∧ cdf2 b1 (-b2) (-r) = some w ∧ v + w = Phi b1 := by
  rcases hr with hr | ⟨hr0, hr1⟩
  · have h9 : |r| < 0.925 := hr.trans (by norm_num)
    have h1 : ¬ |r| > 1 := not_lt.2 ((hr.trans (by norm_num)).le)
    have htab : ∀ ρ : ℝ, |ρ| < 0.3 → tabOf ρ = tab6 := by
      intro ρ h
      rw [abs_lt] at h
      unfold tabOf
      rw [if_neg, if_neg]
      · exact fun h' => absurd h'.1 (not_le.2 h.2)
      · intro h'
        have := h.2
        norm_num at h' this
        linarith
    refine ⟨mid (-b1) (-b2) r, mid (-b1) (- -b2) (-r), ?_, ?_, ?_⟩
    · rw [cdf2_eq, elemVal, if_neg h1, if_pos h9]
    · rw [cdf2_eq, elemVal, abs_neg, if_neg h1, if_pos h9]
    · unfold mid
      rw [htab r hr, htab (-r) (by rwa [abs_neg]), glSum_congr tab6 (midTerm_neg (-b1) (-b2) r),
        Real.arcsin_neg, fi_eq, fi_eq, fi_eq, neg_neg, neg_neg, Phi_neg]
      ring
  · have h1 : ¬ |r| > 1 := not_lt.2 hr1
    have h9 : ¬ |r| < 0.925 := not_lt.2 hr0
    have hm : ∀ b2 : ℝ, max 0 (Phi b1 - Phi b2) = Phi b1 - Phi (min b1 b2) := by
      intro b2
      rcases le_total b1 b2 with hle | hle
      · rw [min_eq_left hle, sub_self, max_eq_left (sub_nonpos.2 (Phi_mono hle))]
      · rw [min_eq_right hle, max_eq_right (sub_nonneg.2 (Phi_mono hle))]
    by_cases hneg : r < 0
    · refine ⟨_, _, by rw [cdf2_eq, elemVal, if_neg h1, if_neg h9, if_pos hneg],
        by rw [cdf2_eq, elemVal, abs_neg, if_neg h1, if_neg h9, if_neg (by linarith)], ?_⟩
      rw [high_even, neg_neg, hm]
      ring
    · have hpos : 0 < r := by
        rcases (not_lt.1 hneg).lt_or_eq with h | h
        · exact h
        · rw [← h, abs_zero] at hr0; norm_num at hr0
      refine ⟨_, _, by rw [cdf2_eq, elemVal, if_neg h1, if_neg h9, if_neg hneg],
        by rw [cdf2_eq, elemVal, abs_neg, if_neg h1, if_neg h9, if_pos (by linarith)], ?_⟩
      rw [high_even, neg_neg, hm]
      ring

/-- The specification has the identity for every correlation. -/
theorem C231_spec (b1 b2 r : ℝ) (hr : |r| < 1) : Phi2 b1 b2 r + Phi2 b1 (-b2) (-r) = Phi b1 := by
  rw [Phi2_reflect hr]; ring

example : ∃ v w, cdf2 1 2 (1 / 4) = some v ∧ cdf2 1 (-2) (-(1 / 4)) = some w ∧ v + w = Phi 1 :=
  C231_reflect_partial 1 2 (1 / 4) (Or.inl (by norm_num [abs_lt]))

theorem midTerm_diag (b r t : ℝ) (hr : |r| < 1) (ht : t ∈ Icc (-1 : ℝ) 1) :
    midTerm (-b) (-b) r t =
      Real.exp (-(b ^ 2 / (1 + Real.sin (Real.arcsin r * (t + 1) / 2)))) := by
  obtain ⟨m1, m2⟩ := arcsin_mul_mem hr ht
  have h := abs_lt.1 (abs_sin_lt_one m1 m2)
  rw [midTerm_eq]
  congr 1
  set s := Real.sin (Real.arcsin r * (t + 1) / 2)
  have e1 : (1 - s) ≠ 0 := by linarith [h.2]
  have e2 : (1 + s) ≠ 0 := by linarith [h.1]
  have e3 : 1 - s ^ 2 = (1 - s) * (1 + s) := by ring
  rw [e3]
  field_simp
  ring

/-- The reflection identity fails for correlation 0.9: the code takes the 20 point rule for `0.9`
but the 6 point rule for `-0.9`. -/
theorem C231_not_reflect : ∃ b v w : ℝ, cdf2 b b 0.9 = some v ∧ cdf2 b (-b) (-0.9) = some w ∧
    v + w ≠ Phi b := by
  have hr : |(0.9 : ℝ)| < 1 := by norm_num [abs_lt]
  have has : 0 < Real.arcsin 0.9 := Real.arcsin_pos.2 (by norm_num)
  have has2 : Real.arcsin 0.9 ≤ Real.pi / 2 := Real.arcsin_le_pi_div_two _
  -- the sine at a node
  set sn : ℝ → ℝ := fun t => Real.sin (Real.arcsin 0.9 * (t + 1) / 2) with hsn
  have hmono : ∀ s t : ℝ, s ∈ Icc (-1 : ℝ) 1 → t ∈ Icc (-1 : ℝ) 1 → s ≤ t → sn s ≤ sn t := by
    intro s t hs ht hst
    obtain ⟨m1, m2⟩ := arcsin_mul_mem hr hs
    obtain ⟨m3, m4⟩ := arcsin_mul_mem hr ht
    refine Real.sin_le_sin_of_le_of_le_pi_div_two m1.le m4.le ?_
    have : Real.arcsin 0.9 * (s + 1) ≤ Real.arcsin 0.9 * (t + 1) :=
      mul_le_mul_of_nonneg_left (by linarith) has.le
    linarith
  have hpos : ∀ t : ℝ, t ∈ Icc (-1 : ℝ) 1 → 0 ≤ sn t := by
    intro t ht
    have := hmono (-1) t ⟨le_rfl, by norm_num⟩ ht ht.1
    have e : sn (-1) = 0 := by simp [hsn]
    linarith
  obtain ⟨u, hu⟩ : ∃ u : ℝ, u = 0.9324695142031522 := ⟨_, rfl⟩
  obtain ⟨w, hw⟩ : ∃ w : ℝ, w = 0.9931285991850949 := ⟨_, rfl⟩
  have hui : u ∈ Icc (-1 : ℝ) 1 := by rw [hu]; constructor <;> norm_num
  have hwi : w ∈ Icc (-1 : ℝ) 1 := by rw [hw]; constructor <;> norm_num
  have hlt : sn u < sn w := by
    obtain ⟨m1, m2⟩ := arcsin_mul_mem hr hui
    obtain ⟨m3, m4⟩ := arcsin_mul_mem hr hwi
    refine Real.sin_lt_sin_of_lt_of_le_pi_div_two m1.le m4.le ?_
    have huw : u < w := by rw [hu, hw]; norm_num
    have : Real.arcsin 0.9 * (u + 1) < Real.arcsin 0.9 * (w + 1) :=
      mul_lt_mul_of_pos_left (by linarith) has
    linarith
  set δ := 1 / (1 + sn u) - 1 / (1 + sn w) with hδ
  have hδp : 0 < δ := by
    rw [hδ, sub_pos]
    exact one_div_lt_one_div_of_lt (by have := hpos u hui; linarith) (by linarith)
  -- the two sums
  obtain ⟨B, hB0, hB⟩ : ∃ B : ℝ, 0 ≤ B ∧ 200 < Real.exp (B * δ) := by
    refine ⟨200 / δ, by positivity, ?_⟩
    rw [div_mul_cancel₀ _ hδp.ne']
    have := Real.add_one_le_exp (200 : ℝ)
    linarith
  obtain ⟨b, hb⟩ : ∃ b : ℝ, b ^ 2 = B := ⟨√B, Real.sq_sqrt hB0⟩
  have term : ∀ t ∈ Icc (-1 : ℝ) 1, midTerm (-b) (-b) 0.9 t = Real.exp (-(B / (1 + sn t))) := by
    intro t ht
    rw [midTerm_diag b 0.9 t hr ht, hb]
  have h6 : glSum tab6 (midTerm (-b) (-b) 0.9) ≤ 3 * Real.exp (-(B / (1 + sn u))) := by
    have hle : ∀ t ∈ Icc (-1 : ℝ) 1, t ≤ u → midTerm (-b) (-b) 0.9 t ≤
        Real.exp (-(B / (1 + sn u))) := by
      intro t ht htu
      rw [term t ht]
      refine Real.exp_le_exp.2 (neg_le_neg ?_)
      exact div_le_div_of_nonneg_left hB0 (by linarith [hpos t ht])
        (by linarith [hmono t u ht hui htu])
    rw [glSum_eq]
    set M := Real.exp (-(B / (1 + sn u))) with hM
    have hMp : 0 < M := Real.exp_pos _
    simp only [tab6, List.map_cons, List.map_nil, List.sum_cons, List.sum_nil]
    have n1 := hle (-((-0.9324695142031522 : ℚ) : ℝ)) (by norm_num) (by rw [hu]; norm_num)
    have n2 := hle ((-0.9324695142031522 : ℚ) : ℝ) (by norm_num) (by rw [hu]; norm_num)
    have n3 := hle (-((-0.6612093864662647 : ℚ) : ℝ)) (by norm_num) (by rw [hu]; norm_num)
    have n4 := hle ((-0.6612093864662647 : ℚ) : ℝ) (by norm_num) (by rw [hu]; norm_num)
    have n5 := hle (-((-0.2386191860831970 : ℚ) : ℝ)) (by norm_num) (by rw [hu]; norm_num)
    have n6 := hle ((-0.2386191860831970 : ℚ) : ℝ) (by norm_num) (by rw [hu]; norm_num)
    have w1 := mul_le_mul_of_nonneg_left (add_le_add n1 n2)
      (show (0 : ℝ) ≤ ((0.1713244923791705 : ℚ) : ℝ) by norm_num)
    have w2 := mul_le_mul_of_nonneg_left (add_le_add n3 n4)
      (show (0 : ℝ) ≤ ((0.3607615730481384 : ℚ) : ℝ) by norm_num)
    have w3 := mul_le_mul_of_nonneg_left (add_le_add n5 n6)
      (show (0 : ℝ) ≤ ((0.4679139345726904 : ℚ) : ℝ) by norm_num)
    have e1 : ((0.1713244923791705 : ℚ) : ℝ) * (M + M) + (((0.3607615730481384 : ℚ) : ℝ) * (M + M) +
      ((0.4679139345726904 : ℚ) : ℝ) * (M + M)) ≤ 3 * M := by
      norm_num
      nlinarith
    linarith
  have h20 : 0.0176 * Real.exp (-(B / (1 + sn w))) ≤ glSum tab20 (midTerm (-b) (-b) 0.9) := by
    rw [glSum_eq]
    have hnn : ∀ t, 0 ≤ midTerm (-b) (-b) 0.9 t := fun t => (Real.exp_pos _).le
    have hrest : ∀ l : List (ℚ × ℚ), (∀ p ∈ l, (0 : ℚ) ≤ p.1) →
        0 ≤ (l.map fun p => (p.1 : ℝ) *
          (midTerm (-b) (-b) 0.9 (-p.2) + midTerm (-b) (-b) 0.9 p.2)).sum := by
      intro l hl
      refine List.sum_nonneg ?_
      intro x hx
      obtain ⟨p, hp, rfl⟩ := List.mem_map.1 hx
      refine mul_nonneg ?_ (add_nonneg (hnn _) (hnn _))
      exact_mod_cast hl p hp
    rw [tab20, List.map_cons, List.sum_cons]
    have hr' := hrest [(0.04060142980038694, -0.9639719272779138),
      (0.06267204833410906, -0.9122344282513259), (0.08327674157670475, -0.8391169718222188),
      (0.1019301198172404, -0.7463319064601508), (0.1181945319615184, -0.6360536807265150),
      (0.1316886384491766, -0.5108670019508271), (0.1420961093183821, -0.3737060887154196),
      (0.1491729864726037, -0.2277858511416451), (0.1527533871307259, -0.07652652113349733)]
      (by intro p hp; simp at hp; rcases hp with h | h | h | h | h | h | h | h | h <;> subst h <;>
        norm_num)
    have ew : (-((-0.9931285991850949 : ℚ) : ℝ)) = w := by rw [hw]; norm_num
    rw [ew, term w hwi]
    have := hnn ((-0.9931285991850949 : ℚ) : ℝ)
    have hM := Real.exp_pos (-(B / (1 + sn w)))
    have k : (0.0176 : ℝ) * Real.exp (-(B / (1 + sn w))) ≤ ((0.01761400713915212 : ℚ) : ℝ) *
        (Real.exp (-(B / (1 + sn w))) + midTerm (-b) (-b) 0.9 ((-0.9931285991850949 : ℚ) : ℝ)) := by
      norm_num at this ⊢
      nlinarith
    linarith
  have hgap : glSum tab6 (midTerm (-b) (-b) 0.9) < glSum tab20 (midTerm (-b) (-b) 0.9) := by
    refine lt_of_le_of_lt h6 (lt_of_lt_of_le ?_ h20)
    have e : Real.exp (-(B / (1 + sn w))) = Real.exp (-(B / (1 + sn u))) * Real.exp (B * δ) := by
      rw [← Real.exp_add]; congr 1; rw [hδ]; ring
    rw [e]
    have hM := Real.exp_pos (-(B / (1 + sn u)))
    have := mul_lt_mul_of_pos_left hB hM
    norm_num
    nlinarith
  have t20 : tabOf 0.9 = tab20 := by norm_num [tabOf]
  have t6 : tabOf (-0.9) = tab6 := by norm_num [tabOf]
  refine ⟨b, mid (-b) (-b) 0.9, mid (-b) (- -b) (-0.9), ?_, ?_, ?_⟩
  · rw [cdf2_eq, elemVal, if_neg (not_lt.2 hr.le), if_pos (by norm_num [abs_lt])]
  · rw [cdf2_eq, elemVal, abs_neg, if_neg (not_lt.2 hr.le), if_pos (by norm_num [abs_lt])]
  · unfold mid
    rw [t20, t6, glSum_congr tab6 (midTerm_neg (-b) (-b) 0.9), Real.arcsin_neg, fi_eq, fi_eq, neg_neg,
      Phi_neg]
    intro h
    have hz : (glSum tab20 (midTerm (-b) (-b) 0.9) - glSum tab6 (midTerm (-b) (-b) 0.9)) *
        (Real.arcsin 0.9 / (2 * (2 * Real.pi))) = 0 := by linear_combination h
    have hp : 0 < Real.arcsin 0.9 / (2 * (2 * Real.pi)) := by positivity
    rcases mul_eq_zero.1 hz with h' | h'
    · linarith
    · linarith

/-- **C232** (partial). Arrays are treated element by element when the elements whose correlation is
in `[0.925, 1]` in magnitude come first, or when no correlation is in `[0.925, 1)`.  Missing:
arrays with other orders, for which it fails (`C232_not_elementwise`). -/
theorem C232_elementwise_partial (n m : ℕ) (b1 b2 r : ℕ → ℝ) (hm : m ≤ n)
    (hlow : ∀ i, i < m → 0.925 ≤ |r i| ∧ |r i| ≤ 1)
    (hhigh : ∀ i, m ≤ i → i < n → ¬ (0.925 ≤ |r i| ∧ |r i| < 1)) (i : ℕ) (hi : i < n) :
    cdfnorm2d n b1 b2 r i = cdf2 (b1 i) (b2 i) (r i) := by
  rw [cdf2_eq, cdfnorm2d_eq_elem n b1 b2 r i hi (k3_ok hm hlow hhigh i hi)]

/-- The documented use, one correlation for all points: every element is the scalar value. -/
theorem C232_scalar (n : ℕ) (b1 b2 : ℕ → ℝ) (r : ℝ) (i : ℕ) (hi : i < n) :
    cdfnorm2d n b1 b2 (fun _ => r) i = cdf2 (b1 i) (b2 i) r := by
  by_cases h : 0.925 ≤ |r| ∧ |r| ≤ 1
  · exact C232_elementwise_partial n n b1 b2 _ le_rfl (fun _ _ => h) (fun j h1 h2 => by omega) i hi
  · exact C232_elementwise_partial n 0 b1 b2 _ (Nat.zero_le _) (fun j hj => by omega)
      (fun j _ _ h' => h ⟨h'.1, h'.2.le⟩) i hi

/-- An array with correlations 0 and 0.95: the first element becomes a negative number, although
its scalar value is the product of two positive probabilities; line 904 rescales position 0 instead
of position 1. -/
theorem C232_not_elementwise (b1 b2 : ℕ → ℝ) :
    ∃ v, cdfnorm2d 2 b1 b2 (fun i => if i = 0 then 0 else 0.95) 0 = some v ∧ v < 0 ∧
      cdf2 (b1 0) (b2 0) 0 = some (Phi (b1 0) * Phi (b2 0)) := by
  refine ⟨-(Phi (b1 0) * Phi (b2 0)) / (2 * Real.pi), ?_, ?_, (C228_zero _ _).1⟩
  · set r : ℕ → ℝ := fun i => if i = 0 then 0 else 0.95 with hr
    have hk1 : k1of 2 r = [1] := by
      unfold k1of nonzero
      rw [show List.range 2 = [0, 1] from rfl]
      have e0 : r 0 = 0 := by simp [hr]
      have e1 : r 1 = 0.95 := by simp [hr]
      norm_num [List.filter_cons, e0, e1, abs_of_pos]
    have h3 : (0 : ℕ) ∈ k3of 2 r := by
      rw [mem_k3of, hk1]
      have e1 : r 1 = 0.95 := by simp [hr]
      norm_num [e1, abs_of_pos]
    have h1 : (0 : ℕ) ∉ k1of 2 r := by rw [hk1]; simp
    rw [cdfnorm2d_apply 2 b1 b2 r 0 (by norm_num)]
    have e0 : r 0 = 0 := by simp [hr]
    have hmid : mid (-b1 0) (-b2 0) 0 = Phi (b1 0) * Phi (b2 0) := by
      have h := (C228_zero (b1 0) (b2 0)).1
      rw [cdf2_eq, elemVal, if_neg (by norm_num), if_pos (by norm_num)] at h
      exact Option.some.inj h
    simp only [h1, h3, e0, false_and, if_false, if_true, abs_zero, hmid]
    norm_num
  · have h1 := Phi_pos (b1 0)
    have h2 := Phi_pos (b2 0)
    have : 0 < Phi (b1 0) * Phi (b2 0) / (2 * Real.pi) := by positivity
    rw [neg_div]
    linarith

/-- A non-trivial array for the partial theorem: 0.95 first, then 0.2. -/
example (b1 b2 : ℕ → ℝ) : cdfnorm2d 2 b1 b2 (fun i => if i = 0 then 0.95 else 0.2) 1 =
    cdf2 (b1 1) (b2 1) 0.2 := by
  have := C232_elementwise_partial 2 1 b1 b2 (fun i => if i = 0 then 0.95 else 0.2) (by norm_num)
    (fun i hi => by
      have : i = 0 := by omega
      subst this; norm_num [abs_of_pos])
    (fun i h1 _ => by
      have : i ≠ 0 := by omega
      simp only [this, if_false]
      norm_num [abs_of_pos]) 1 (by norm_num)
  simpa using this

end Wafo.Gauss
