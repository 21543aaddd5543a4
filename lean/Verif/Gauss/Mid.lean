import Verif.Gauss.Elem
import Mathlib.Analysis.SpecialFunctions.Trigonometric.Deriv
import Mathlib.Analysis.SpecialFunctions.Trigonometric.Bounds

/-!
# Lemmas for correlations below 0.925 in magnitude
-/

set_option linter.unusedSectionVars false

namespace Wafo.Gauss

open MeasureTheory ProbabilityTheory Set Filter Topology

theorem abs_sin_lt_one {x : ℝ} (h1 : -(Real.pi / 2) < x) (h2 : x < Real.pi / 2) :
    |Real.sin x| < 1 := by
  have hc := Real.cos_pos_of_mem_Ioo ⟨h1, h2⟩
  have := Real.sin_sq_add_cos_sq x
  rw [← sq_lt_one_iff_abs_lt_one]
  nlinarith

theorem arcsin_mul_mem {r : ℝ} (hr : |r| < 1) {t : ℝ} (ht : t ∈ Icc (-1 : ℝ) 1) :
    -(Real.pi / 2) < Real.arcsin r * (t + 1) / 2 ∧ Real.arcsin r * (t + 1) / 2 < Real.pi / 2 := by
  rw [abs_lt] at hr
  have h1 : -(Real.pi / 2) < Real.arcsin r := Real.neg_pi_div_two_lt_arcsin.2 hr.1
  have h2 : Real.arcsin r < Real.pi / 2 := Real.arcsin_lt_pi_div_two.2 hr.2
  have hp := Real.pi_pos
  obtain ⟨t1, t2⟩ := ht
  constructor <;> nlinarith

theorem midTerm_eq (b1 b2 r t : ℝ) :
    midTerm (-b1) (-b2) r t =
      Real.exp (-(b1 ^ 2 - 2 * Real.sin (Real.arcsin r * (t + 1) / 2) * b1 * b2 + b2 ^ 2) /
        (2 * (1 - Real.sin (Real.arcsin r * (t + 1) / 2) ^ 2))) := by
  simp only [midTerm]
  congr 1
  rw [← sq, mul_comm 2 (1 - _), ← div_div]
  ring

theorem Phi2_arc {r : ℝ} (hr : |r| < 1) (b1 b2 : ℝ) :
    Phi2 b1 b2 r = Phi b1 * Phi b2 +
      Real.arcsin r / (4 * Real.pi) * ∫ t in (-1 : ℝ)..1, midTerm (-b1) (-b2) r t := by
  have hd : ∀ t ∈ uIcc (-1 : ℝ) 1, HasDerivAt
      (fun t => Phi2 b1 b2 (Real.sin (Real.arcsin r * (t + 1) / 2)))
      (Real.arcsin r / (4 * Real.pi) * midTerm (-b1) (-b2) r t) t := by
    intro t ht
    rw [uIcc_of_le (by norm_num)] at ht
    obtain ⟨m1, m2⟩ := arcsin_mul_mem hr ht
    have hs := abs_sin_lt_one m1 m2
    have hc := Real.cos_pos_of_mem_Ioo ⟨m1, m2⟩
    have d0 : HasDerivAt (fun t : ℝ => Real.arcsin r * (t + 1) / 2) (Real.arcsin r / 2) t := by
      have := (((hasDerivAt_id t).add_const 1).const_mul (Real.arcsin r)).div_const 2
      simpa using this
    have d1 := (hasDerivAt_Phi2 hs b1 b2).comp t ((Real.hasDerivAt_sin _).comp t d0)
    refine d1.congr_deriv ?_
    rw [midTerm_eq]
    unfold plackett
    have e : √(1 - Real.sin (Real.arcsin r * (t + 1) / 2) ^ 2) =
        Real.cos (Real.arcsin r * (t + 1) / 2) := by
      rw [← Real.cos_sq', Real.sqrt_sq hc.le]
    rw [e]
    have hp := Real.pi_ne_zero
    field_simp
    ring
  have hc : ContinuousOn (fun t => Real.arcsin r / (4 * Real.pi) * midTerm (-b1) (-b2) r t)
      (uIcc (-1 : ℝ) 1) := by
    simp only [midTerm_eq]
    refine ContinuousOn.mul continuousOn_const (ContinuousOn.rexp ?_)
    refine ContinuousOn.div (by fun_prop) (by fun_prop) fun t ht => ?_
    rw [uIcc_of_le (by norm_num)] at ht
    obtain ⟨m1, m2⟩ := arcsin_mul_mem hr ht
    have := one_sub_sq_pos (abs_sin_lt_one m1 m2)
    positivity
  have h := intervalIntegral.integral_eq_sub_of_hasDerivAt hd hc.intervalIntegrable
  rw [intervalIntegral.integral_const_mul] at h
  have e1 : Real.sin (Real.arcsin r * (1 + 1) / 2) = r := by
    rw [show Real.arcsin r * (1 + 1) / 2 = Real.arcsin r by ring]
    rw [abs_lt] at hr
    exact Real.sin_arcsin hr.1.le hr.2.le
  have e2 : Real.sin (Real.arcsin r * (-1 + 1) / 2) = 0 := by simp
  rw [e1, e2, Phi2_zero] at h
  linarith

theorem mid_sub_Phi2 {r : ℝ} (hr : |r| < 1) (b1 b2 : ℝ) :
    mid (-b1) (-b2) r - Phi2 b1 b2 r = Real.arcsin r / (4 * Real.pi) *
      (glSum (tabOf r) (midTerm (-b1) (-b2) r) - ∫ t in (-1 : ℝ)..1, midTerm (-b1) (-b2) r t) := by
  rw [Phi2_arc hr]
  unfold mid
  rw [fi_eq, fi_eq, neg_neg, neg_neg]
  ring

theorem glSum_foldl (tab : List (ℚ × ℚ)) (f : ℝ → ℝ) (acc : ℝ) :
    tab.foldl (fun acc p => (acc + p.1 * f (-1 * p.2)) + p.1 * f (1 * p.2)) acc =
      acc + (tab.map fun p => (p.1 : ℝ) * (f (-p.2) + f p.2)).sum := by
  induction tab generalizing acc with
  | nil => simp
  | cons p l ih =>
    rw [List.foldl_cons, ih, List.map_cons, List.sum_cons, neg_one_mul, one_mul]
    ring

theorem glSum_eq (tab : List (ℚ × ℚ)) (f : ℝ → ℝ) :
    glSum tab f = (tab.map fun p => (p.1 : ℝ) * (f (-p.2) + f p.2)).sum := by
  unfold glSum; rw [glSum_foldl, zero_add]

theorem glSum_congr (tab : List (ℚ × ℚ)) {f g : ℝ → ℝ} (h : ∀ t, f t = g t) :
    glSum tab f = glSum tab g := by
  rw [show f = g from funext h]

theorem midTerm_neg (h k r t : ℝ) : midTerm h (-k) (-r) t = midTerm h k r t := by
  simp only [midTerm, Real.arcsin_neg]
  have e : Real.sin (-Real.arcsin r * (t + 1) / 2) = -Real.sin (Real.arcsin r * (t + 1) / 2) := by
    rw [← Real.sin_neg]; congr 1; ring
  rw [e]
  congr 1
  ring

theorem midTerm_comm (h k r t : ℝ) : midTerm h k r t = midTerm k h r t := by
  simp only [midTerm, mul_comm h k, add_comm (h ^ 2)]

end Wafo.Gauss
