import Mathlib.Analysis.SpecialFunctions.Trigonometric.Deriv
import Mathlib.Analysis.SpecialFunctions.Trigonometric.DerivHyp
import Mathlib.Analysis.SpecialFunctions.ExpDeriv
import Mathlib.Analysis.Complex.RealDeriv
import Mathlib.Tactic.FieldSimp
import Mathlib.Tactic.Linarith
import Mathlib.Tactic.LinearCombination
import Verif.Theory.Model

set_option linter.unusedSectionVars false

namespace Wafo.Theory

/-- The hyperbolic function selected by a sign: cosh for a positive sign and sinh for a negative one. -/
noncomputable def Hyp (s : ℤ) (x : ℝ) : ℝ := if 0 < s then Real.cosh x else Real.sinh x

theorem sg_pos {s : ℤ} (h : 0 < s) : sg s = 1 := by simp [sg, Int.sign_eq_one_of_pos h]

theorem sg_neg {s : ℤ} (h : s < 0) : sg s = -1 := by simp [sg, Int.sign_eq_neg_one_of_neg h]

/-- The numerator (or denominator) with its sign is twice the hyperbolic function, scaled by `exp (-|x|)`. -/
theorem part_eq {s : ℤ} (h : s ≠ 0) (x : ℝ) :
    (if sg s * x < 0 then sg s else 1) * (if sg s < 0 then Real.exp (-2 * |x|) - 1 else 1 + Real.exp (-2 * |x|)) = 2 * Real.exp (-|x|) * Hyp s x := by
  have e2 : Real.exp (-2 * |x|) = Real.exp (-|x|) * Real.exp (-|x|) := by rw [← Real.exp_add]; ring_nf
  have e0 : Real.exp (-|x|) * Real.exp |x| = 1 := by rw [← Real.exp_add]; simp
  rcases lt_or_gt_of_ne h with hs | hs
  · rw [sg_neg hs]
    have : ¬ (0 < s) := by omega
    simp only [Hyp, this, if_false]
    rw [if_pos (show (-1 : ℝ) < 0 by norm_num), e2, Real.sinh_eq]
    rcases le_or_gt x 0 with hx | hx
    · rw [if_neg (by linarith)]
      rw [abs_of_nonpos hx] at e0 ⊢
      simp only [neg_neg] at e0 ⊢
      linear_combination e0
    · rw [if_pos (by linarith)]
      rw [abs_of_pos hx] at e0 ⊢
      linear_combination -e0
  · rw [sg_pos hs]
    simp only [Hyp, hs, if_true]
    rw [if_neg (show ¬ (1 : ℝ) < 0 by norm_num), e2, Real.cosh_eq]
    have : (if (1 : ℝ) * x < 0 then (1 : ℝ) else 1) = 1 := by split <;> rfl
    rw [this]
    rcases le_or_gt x 0 with hx | hx
    · rw [abs_of_nonpos hx] at e0 ⊢
      simp only [neg_neg] at e0 ⊢
      linear_combination -e0
    · rw [abs_of_pos hx] at e0 ⊢
      linear_combination -e0

theorem sgn_unit {s : ℤ} (h : s ≠ 0) (x : ℝ) :
    (if sg s * x < 0 then sg s else 1) = 1 ∨ (if sg s * x < 0 then sg s else (1 : ℝ)) = -1 := by
  rcases lt_or_gt_of_ne h with hs | hs
  · rw [sg_neg hs]; split <;> simp
  · rw [sg_pos hs]; split <;> simp

theorem hypRatio_eq {sa sb : ℤ} (ha : sa ≠ 0) (hb : sb ≠ 0) (a b : ℝ) :
    hypRatio a b sa sb = if Hyp sb b = 0 then (if Hyp sa a = 0 then some 1 else none) else some (Hyp sa a / Hyp sb b) := by
  have pa := part_eq ha a
  have pb := part_eq hb b
  have ua := sgn_unit ha a
  have ub := sgn_unit hb b
  have hsr : (if sg sb * b < 0 then sg sb * (if sg sa * a < 0 then sg sa else 1) else (if sg sa * a < 0 then sg sa else 1)) =
      (if sg sb * b < 0 then sg sb else 1) * (if sg sa * a < 0 then sg sa else (1 : ℝ)) := by
    split <;> simp
  unfold hypRatio
  simp only [hsr]
  have zeroA : ∀ {s : ℤ} (_ : s ≠ 0) (x : ℝ), Hyp s x = 0 → s < 0 ∧ x = 0 := by
    intro s hs x hx
    unfold Hyp at hx
    split at hx
    · exact absurd hx (Real.cosh_pos x).ne'
    · rename_i h0
      exact ⟨by omega, by simpa using hx⟩
  generalize hu : (if sg sa * a < 0 then sg sa else (1 : ℝ)) = u at *
  generalize hv : (if sg sb * b < 0 then sg sb else (1 : ℝ)) = v at *
  generalize hN : (if sg sa < 0 then Real.exp (-2 * |a|) - 1 else 1 + Real.exp (-2 * |a|)) = N at *
  generalize hD : (if sg sb < 0 then Real.exp (-2 * |b|) - 1 else 1 + Real.exp (-2 * |b|)) = D at *
  have hexp : Real.exp (|a| - |b|) * Real.exp (-|a|) = Real.exp (-|b|) := by rw [← Real.exp_add]; ring_nf
  have eb := Real.exp_pos (-|b|)
  have ea := Real.exp_pos (-|a|)
  have hu2 : u * u = 1 := by rcases ua with h | h <;> rw [h] <;> norm_num
  have hv2 : v * v = 1 := by rcases ub with h | h <;> rw [h] <;> norm_num
  have hN' : N = u * (2 * Real.exp (-|a|) * Hyp sa a) := by rw [← pa, ← mul_assoc, hu2, one_mul]
  have hD' : D = v * (2 * Real.exp (-|b|) * Hyp sb b) := by rw [← pb, ← mul_assoc, hv2, one_mul]
  by_cases hz : Hyp sb b = 0
  · rw [if_pos hz]
    have hD0 : D = 0 := by rw [hD', hz]; ring
    by_cases hza : Hyp sa a = 0
    · rw [if_pos hza]
      have hN0 : N = 0 := by rw [hN', hza]; ring
      obtain ⟨_, ra⟩ := zeroA ha a hza
      obtain ⟨_, rb⟩ := zeroA hb b hz
      rw [if_pos (by rw [hN0, hD0])]
      subst ra; subst rb
      simp only [mul_zero, lt_irrefl, if_false] at hu hv
      subst hu; subst hv
      simp
    · rw [if_neg hza]
      have hN0 : N ≠ 0 := by
        rw [hN']
        have : u ≠ 0 := by rintro rfl; norm_num at hu2
        positivity
      rw [if_neg (by rw [hD0]; exact hN0), if_pos hD0]
  · rw [if_neg hz]
    have hv0 : v ≠ 0 := by rintro rfl; norm_num at hv2
    have hD0 : D ≠ 0 := by rw [hD']; positivity
    have key : v * u * Real.exp (|a| - |b|) * (N * (1 / D)) = Hyp sa a / Hyp sb b := by
      rw [hN', hD']
      field_simp
      linear_combination (Hyp sa a * Real.exp (|a| - |b|) * Real.exp (-|a|)) * (hu2) + Hyp sa a * hexp
    by_cases hND : N = D
    · rw [if_pos hND, ← key, hND]
      field_simp
    · rw [if_neg hND, if_neg hD0, key]

/-- The complete transfer function `Hw * Gwt` of a sensor for one frequency, wave number and direction. -/
noncomputable def transfer (c : Conf) (s : Sensor) (w k th : ℝ) : ℂ :=
  (if c.igam = 2 then -1 else 1) * ((((response c s w k th).1.getD 0 : ℝ) : ℂ) * (response c s w k th).2)

theorem ratio_cc {c : Conf} {h k : ℝ} (hh : c.h = some h) :
    ratio c k 1 1 = some (Real.cosh (zk c h k) / Real.cosh (k * h)) := by
  simp only [ratio, hh]
  rw [hypRatio_eq (by norm_num) (by norm_num)]
  simp [Hyp, (Real.cosh_pos _).ne']

theorem ratio_cs {c : Conf} {h k : ℝ} (hh : c.h = some h) (hk : k * h ≠ 0) :
    ratio c k 1 (-1) = some (Real.cosh (zk c h k) / Real.sinh (k * h)) := by
  simp only [ratio, hh]
  rw [hypRatio_eq (by norm_num) (by norm_num)]
  rw [if_neg (show Hyp (-1) (k * h) ≠ 0 by simpa [Hyp] using hk)]
  simp [Hyp]

theorem ratio_ss {c : Conf} {h k : ℝ} (hh : c.h = some h) (hk : k * h ≠ 0) :
    ratio c k (-1) (-1) = some (Real.sinh (zk c h k) / Real.sinh (k * h)) := by
  simp only [ratio, hh]
  rw [hypRatio_eq (by norm_num) (by norm_num)]
  rw [if_neg (show Hyp (-1) (k * h) ≠ 0 by simpa [Hyp] using hk)]
  simp [Hyp]

theorem hwIndep (c : Conf) (s : Sensor) (w k th th' : ℝ) : (response c s w k th).1 = (response c s w k th').1 := by
  cases s <;> rfl

theorem ee_deriv_x (c : Conf) (th k x : ℝ) :
    HasDerivAt (fun x => ee { c with x := x } th k) (Complex.I * k * cthx c th * ee { c with x := x } th k) x := by
  have h1 : HasDerivAt (fun x : ℝ => ((x * cthx c th + c.y * cthy c th : ℝ) : ℂ)) ((cthx c th : ℝ) : ℂ) x := by
    have := ((hasDerivAt_id x).mul_const (cthx c th)).add_const (c.y * cthy c th)
    simpa using this.ofReal_comp
  have h2 := ((h1.const_mul Complex.I).mul_const (k : ℂ)).cexp
  refine h2.congr_deriv ?_
  simp only [ee, cthx, cthy]
  ring

theorem ee_deriv_y (c : Conf) (th k y : ℝ) :
    HasDerivAt (fun y => ee { c with y := y } th k) (Complex.I * k * cthy c th * ee { c with y := y } th k) y := by
  have h1 : HasDerivAt (fun y : ℝ => ((c.x * cthx c th + y * cthy c th : ℝ) : ℂ)) ((cthy c th : ℝ) : ℂ) y := by
    have := ((hasDerivAt_id y).mul_const (cthy c th)).const_add (c.x * cthx c th)
    simpa using this.ofReal_comp
  have h2 := ((h1.const_mul Complex.I).mul_const (k : ℂ)).cexp
  refine h2.congr_deriv ?_
  simp only [ee, cthx, cthy]
  ring

/-- The derivative of `zk` with respect to the vertical position. -/
noncomputable def up (c : Conf) : ℝ := if c.igam = 2 then -1 else 1

theorem zk_deriv (c : Conf) (h k z : ℝ) : HasDerivAt (fun z => zk { c with z := z } h k) (up c * k) z := by
  unfold zk up
  by_cases h1 : c.igam = 1
  · have h2 : ¬ (c.igam = 2) := by omega
    simp only [h1, if_true, show ¬ ((1 : ℕ) = 2) by norm_num, if_false]
    have := ((hasDerivAt_id z).const_add h).const_mul k
    simpa using this
  · by_cases h2 : c.igam = 2
    · simp only [h2, show ¬ ((2 : ℕ) = 1) by norm_num, if_true, if_false]
      have := ((hasDerivAt_id z).const_sub h).const_mul k
      simpa using this
    · simp only [h1, h2, if_false]
      have := (hasDerivAt_id z).const_mul k
      simpa using this

theorem cosh_zk_deriv (c : Conf) (h k z : ℝ) :
    HasDerivAt (fun z => (((Real.cosh (zk { c with z := z } h k)) : ℝ) : ℂ)) ((up c * k * Real.sinh (zk { c with z := z } h k) : ℝ) : ℂ) z := by
  have := ((zk_deriv c h k z).cosh).ofReal_comp
  refine this.congr_deriv ?_
  push_cast; ring

theorem sinh_zk_deriv (c : Conf) (h k z : ℝ) :
    HasDerivAt (fun z => (((Real.sinh (zk { c with z := z } h k)) : ℝ) : ℂ)) ((up c * k * Real.cosh (zk { c with z := z } h k) : ℝ) : ℂ) z := by
  have := ((zk_deriv c h k z).sinh).ofReal_comp
  refine this.congr_deriv ?_
  push_cast; ring

/-- The sign that is applied to all of `Gwt`. -/
noncomputable def flip (c : Conf) : ℂ := if c.igam = 2 then -1 else 1

theorem transfer_u {c : Conf} {h k : ℝ} (hh : c.h = some h) (hk : k * h ≠ 0) (w th : ℝ) :
    transfer c .u w k th = flip c * (w * (Real.cosh (zk c h k) : ℝ) / (Real.sinh (k * h) : ℝ) * cthx c th * ee c th k) := by
  simp only [transfer, response, ratio_cs hh hk, flip, Option.map_some, Option.getD_some]
  push_cast; ring

theorem transfer_v {c : Conf} {h k : ℝ} (hh : c.h = some h) (hk : k * h ≠ 0) (w th : ℝ) :
    transfer c .v w k th = flip c * (w * (Real.cosh (zk c h k) : ℝ) / (Real.sinh (k * h) : ℝ) * cthy c th * ee c th k) := by
  simp only [transfer, response, ratio_cs hh hk, flip, Option.map_some, Option.getD_some]
  push_cast; ring

theorem transfer_w {c : Conf} {h k : ℝ} (hh : c.h = some h) (hk : k * h ≠ 0) (w th : ℝ) :
    transfer c .w w k th = flip c * (-Complex.I * w * (Real.sinh (zk c h k) : ℝ) / (Real.sinh (k * h) : ℝ) * ee c th k) := by
  simp only [transfer, response, ratio_ss hh hk, flip, Option.map_some, Option.getD_some]
  push_cast; ring

theorem transfer_p {c : Conf} {h : ℝ} (hh : c.h = some h) (w k th : ℝ) :
    transfer c .p w k th = flip c * (c.rho * c.g * (Real.cosh (zk c h k) : ℝ) / (Real.cosh (k * h) : ℝ) * ee c th k) := by
  simp only [transfer, response, ratio_cc hh, flip, Option.map_some, Option.getD_some]
  push_cast; ring

end Wafo.Theory
