import Mathlib.Analysis.Calculus.Deriv.MeanValue
import Mathlib.Analysis.SpecialFunctions.Integrals.Basic
import Mathlib.Analysis.SpecialFunctions.ExpDeriv
import Verif.Spread.Props

/-!
The first Fourier coefficient of `sech-2` spreading is not the documented one.
-/

set_option linter.unusedSectionVars false

namespace Wafo.Spread

open Real MeasureTheory Set

theorem tanh_deriv (x : ℝ) : HasDerivAt tanh (1 - tanh x ^ 2) x := by
  have h := (hasDerivAt_sinh x).div (hasDerivAt_cosh x) (cosh_pos x).ne'
  have e : tanh = fun y => sinh y / cosh y := by funext y; exact tanh_eq_sinh_div_cosh y
  have e2 : (fun y => sinh y / cosh y) = sinh / cosh := rfl
  rw [e, e2]
  refine h.congr_deriv ?_
  have := (cosh_pos x).ne'
  rw [← e2, ← e, tanh_eq_sinh_div_cosh]
  field_simp

theorem mono_zero {f f' : ℝ → ℝ} (hf : ∀ x, HasDerivAt f (f' x) x) (h0 : f 0 = 0) {b : ℝ} (hb : 0 ≤ b) (hn : ∀ x, 0 ≤ x → x ≤ b → 0 ≤ f' x) : 0 ≤ f b := by
  have hm : MonotoneOn f (Icc 0 b) := by
    refine monotoneOn_of_deriv_nonneg (convex_Icc 0 b) (fun x _ => (hf x).continuousAt.continuousWithinAt) (fun x _ => (hf x).differentiableAt.differentiableWithinAt) fun x hx => ?_
    rw [interior_Icc] at hx
    rw [(hf x).deriv]
    exact hn x hx.1.le hx.2.le
  have := hm ⟨le_rfl, hb⟩ ⟨hb, le_rfl⟩ hb
  rwa [h0] at this

theorem tanh_nonneg' {x : ℝ} (hx : 0 ≤ x) : 0 ≤ tanh x := by
  rw [tanh_eq_sinh_div_cosh]
  exact div_nonneg (sinh_nonneg_iff.2 hx) (cosh_pos x).le

theorem tanh_le_self {x : ℝ} (hx : 0 ≤ x) : tanh x ≤ x := by
  have := mono_zero (f := fun x => x - tanh x) (f' := fun x => 1 - (1 - tanh x ^ 2)) (fun x => (hasDerivAt_id x).sub (tanh_deriv x)) (by simp) hx
    (fun x _ _ => by nlinarith [sq_nonneg (tanh x)])
  linarith

theorem tanh_ge_cubic {x : ℝ} (hx : 0 ≤ x) : x - x ^ 3 / 3 ≤ tanh x := by
  have := mono_zero (f := fun x => tanh x - (x - x ^ 3 / 3)) (f' := fun x => (1 - tanh x ^ 2) - (1 - 3 * x ^ 2 / 3))
    (fun x => (tanh_deriv x).sub ((hasDerivAt_id x).sub (by simpa using (hasDerivAt_pow 3 x).div_const 3))) (by simp) hx
    (fun x h _ => by nlinarith [tanh_le_self h, tanh_nonneg' h])
  linarith

theorem tanh_le_quintic {x : ℝ} (hx : 0 ≤ x) (h1 : x ≤ 1) : tanh x ≤ x - x ^ 3 / 3 + 2 * x ^ 5 / 15 := by
  have := mono_zero (f := fun x => x - x ^ 3 / 3 + 2 * x ^ 5 / 15 - tanh x) (f' := fun x => (1 - 3 * x ^ 2 / 3 + 2 * (5 * x ^ 4) / 15) - (1 - tanh x ^ 2))
    (fun x => (((hasDerivAt_id x).sub (by simpa using (hasDerivAt_pow 3 x).div_const 3)).add
      (by simpa using ((hasDerivAt_pow 5 x).const_mul 2).div_const 15)).sub (tanh_deriv x)) (by simp) hx
    (fun y h hy => by
      have h3 := tanh_ge_cubic h
      have h4 : 0 ≤ y - y ^ 3 / 3 := by nlinarith [mul_nonneg h (by nlinarith : 0 ≤ 1 - y ^ 2 / 3)]
      have : (y - y ^ 3 / 3) ^ 2 ≤ tanh y ^ 2 := pow_le_pow_left₀ h4 h3 2
      nlinarith [sq_nonneg (y ^ 3)])
  linarith

theorem sech2_density {B : ℝ} (hB : 0 < B) (x : ℝ) : density .sech2 B x = 0.5 * (B * (1 - tanh (B * x) ^ 2)) / tanh (π * B) := by
  rw [sech2_eq hB]
  congr 1
  have h := (cosh_pos (B * x)).ne'
  have hs := cosh_sq_sub_sinh_sq (B * x)
  have : 1 - tanh (B * x) ^ 2 = 1 / cosh (B * x) ^ 2 := by
    rw [tanh_eq_sinh_div_cosh]
    field_simp
    linarith
  rw [this]
  ring

theorem tanh_continuous (B : ℝ) : Continuous fun x => tanh (B * x) := by
  have : Continuous tanh := continuous_iff_continuousAt.2 fun x => (tanh_deriv x).continuousAt
  exact this.comp (continuous_const.mul continuous_id)

/-- The first Fourier coefficient by parts. -/
theorem sech2_coef {B : ℝ} (hB : 0 < B) :
    (∫ x in (-π)..π, density .sech2 B x * cos x) * tanh (π * B) = (∫ x in (0 : ℝ)..π, tanh (B * x) * sin x) - tanh (π * B) := by
  have hT : 0 < tanh (π * B) := by
    rw [tanh_eq_sinh_div_cosh]
    exact div_pos (sinh_pos_iff.2 (mul_pos pi_pos hB)) (cosh_pos _)
  have hc := tanh_continuous B
  have hd : ∀ x ∈ uIcc (-π) π, HasDerivAt (fun x => tanh (B * x) * cos x) (B * (1 - tanh (B * x) ^ 2) * cos x - tanh (B * x) * sin x) x := by
    intro x _
    have h1 : HasDerivAt (fun x => tanh (B * x)) ((1 - tanh (B * x) ^ 2) * (B * 1)) x := (tanh_deriv (B * x)).comp x ((hasDerivAt_id x).const_mul B)
    refine (h1.mul (hasDerivAt_cos x)).congr_deriv ?_
    ring
  have i1 : IntervalIntegrable (fun x => B * (1 - tanh (B * x) ^ 2) * cos x) volume (-π) π :=
    Continuous.intervalIntegrable (by fun_prop) _ _
  have i2 : IntervalIntegrable (fun x => tanh (B * x) * sin x) volume (-π) π :=
    Continuous.intervalIntegrable (by fun_prop) _ _
  have h := intervalIntegral.integral_eq_sub_of_hasDerivAt hd (i1.sub i2)
  rw [intervalIntegral.integral_sub i1 i2, even_integral (fun x => tanh (B * x) * sin x) (by fun_prop) (fun x => by rw [mul_neg, tanh_neg, sin_neg]; ring)] at h
  simp only [cos_pi, cos_neg, mul_neg, tanh_neg, mul_one, neg_neg] at h
  have e : ∀ x, density .sech2 B x * cos x = 0.5 / tanh (π * B) * (B * (1 - tanh (B * x) ^ 2) * cos x) := by
    intro x
    rw [sech2_density hB]
    ring
  simp only [e]
  rw [intervalIntegral.integral_const_mul, mul_comm π B]
  rw [mul_comm π B] at hT
  field_simp
  linarith

theorem cubic_integral (B : ℝ) : ∫ x in (0 : ℝ)..π, (B * x - (B * x) ^ 3 / 3) * sin x = B * π - B ^ 3 * (π ^ 3 - 6 * π) / 3 := by
  have hd : ∀ x ∈ uIcc 0 π, HasDerivAt (fun x => B * (sin x - x * cos x) - B ^ 3 / 3 * (-x ^ 3 * cos x + 3 * x ^ 2 * sin x + 6 * x * cos x - 6 * sin x))
      ((B * x - (B * x) ^ 3 / 3) * sin x) x := by
    intro x _
    have hs := hasDerivAt_sin x
    have hc := hasDerivAt_cos x
    have hx := hasDerivAt_id' x
    have h := ((hs.sub (hx.mul hc)).const_mul B).sub
      (((((((hasDerivAt_pow 3 x).neg.mul hc).add (((hasDerivAt_pow 2 x).const_mul 3).mul hs)).add ((hx.const_mul 6).mul hc)).sub (hs.const_mul 6)).const_mul (B ^ 3 / 3)))
    refine HasDerivAt.congr_deriv h ?_
    simp
    ring
  have := intervalIntegral.integral_eq_sub_of_hasDerivAt hd (Continuous.intervalIntegrable (by fun_prop) _ _)
  rw [this]
  simp
  ring

theorem sech2_coef_ge : (1 : ℝ) / 100 ≤ ∫ x in (-π)..π, density .sech2 (1 / 10) x * cos x := by
  have h := sech2_coef (B := 1 / 10) (by norm_num)
  have h3 := pi_gt_three
  have h4 := pi_lt_d2
  have hle := tanh_le_quintic (x := π * (1 / 10)) (by positivity) (by linarith)
  have hl2 := tanh_le_self (x := π * (1 / 10)) (by positivity)
  have hT : 0 < tanh (π * (1 / 10)) := by
    rw [tanh_eq_sinh_div_cosh]
    exact div_pos (sinh_pos_iff.2 (by positivity)) (cosh_pos _)
  have hi : ∫ x in (0 : ℝ)..π, ((1 / 10) * x - ((1 / 10) * x) ^ 3 / 3) * sin x ≤ ∫ x in (0 : ℝ)..π, tanh ((1 / 10) * x) * sin x := by
    have hc := tanh_continuous (1 / 10)
    refine intervalIntegral.integral_mono_on pi_pos.le (Continuous.intervalIntegrable (by fun_prop) _ _) (Continuous.intervalIntegrable (by fun_prop) _ _) fun x hx => ?_
    exact mul_le_mul_of_nonneg_right (tanh_ge_cubic (by linarith [hx.1])) (sin_nonneg_of_nonneg_of_le_pi hx.1 hx.2)
  rw [cubic_integral] at hi
  generalize ∫ x in (-π)..π, density .sech2 (1 / 10) x * cos x = c at *
  generalize tanh (π * (1 / 10)) = T at *
  have key : 1 / 100 * T ≤ c * T := by
    rw [h]
    have h5 : π ^ 5 ≤ 320 := by
      have : π ^ 5 ≤ 3.15 ^ 5 := pow_le_pow_left₀ (by positivity) h4.le 5
      norm_num at this ⊢
      linarith
    nlinarith
  exact le_of_mul_le_mul_right key hT

theorem r_small : π / (2 * (1 / 10) * sinh (π / (2 * (1 / 10)))) < 1 / 100 := by
  have h3 := pi_gt_three
  have h4 := pi_lt_d2
  have e : π / (2 * (1 / 10)) = 5 * π := by ring
  rw [e]
  have h1 : (5 * π) ^ 6 / 720 ≤ exp (5 * π) := by
    have := pow_div_factorial_le_exp (5 * π) (by positivity) 6
    simpa [Nat.factorial] using this
  have h2 : exp (-(5 * π)) ≤ 1 := exp_le_one_iff.2 (by linarith)
  have h6 : (15 : ℝ) ^ 6 ≤ (5 * π) ^ 6 := pow_le_pow_left₀ (by norm_num) (by linarith) 6
  have hs : 5000 ≤ sinh (5 * π) := by
    rw [sinh_eq]
    norm_num at h6
    linarith
  rw [div_lt_div_iff₀ (by positivity) (by norm_num)]
  linarith

/-- **C156 (refuted for `sech-2`).** The documented relation between the spread parameter and the first Fourier coefficient does not hold for `sech-2`: there are a spread
parameter and an exact solution of the documented equation for which the coefficient is larger. -/
theorem C156_sech2_refuted : ∃ (sol : Solvers) (d : Obj) (S : ℝ), typeOf d.type = .ok .sech2 ∧ Good d [1] 1 [S] 0 S 0 ∧ Solved sol .sech2 S ∧
    ∃ f : ℝ → ℝ, Column sol d [1] 1 0 f ∧ S / (S + 1) < ∫ th in (-π)..π, f th * cos (th - 0) := by
  set r : ℝ := π / (2 * (1 / 10) * sinh (π / (2 * (1 / 10)))) with hr
  have hr0 : 0 < r := div_pos pi_pos (mul_pos (by norm_num) (sinh_pos_iff.2 (by positivity)))
  have hr1 : r < 1 / 100 := r_small
  have h1 : 1 - r ≠ 0 := by linarith
  have e : r / (1 - r) / (r / (1 - r) + 1) = r := by
    field_simp
    ring
  have hS : 0 < r / (1 - r) := div_pos hr0 (by linarith)
  have hg : Good { default "sech2" 0 with method := .independent, sa := r / (1 - r) } [1] 1 [r / (1 - r)] 0 (r / (1 - r)) 0 :=
    { dirs := Or.inr rfl, par := rfl, nonneg := by simpa using hS.le, lt := by simp, spread := rfl, dir := rfl }
  have ht : typeOf ({ default "sech2" 0 with method := .independent, sa := r / (1 - r) } : Obj).type = .ok .sech2 := by
    change typeOf "sech2" = _
    decide
  have hsol : Solved ⟨id, id, fun _ => 1 / 10⟩ .sech2 (r / (1 - r)) := ⟨hS.ne', by norm_num, by rw [e]⟩
  refine ⟨⟨id, id, fun _ => 1 / 10⟩, _, r / (1 - r), ht, hg, hsol, _, (column ht (by decide) hg).2, ?_⟩
  have := integral_wrap (fun x => density .sech2 (param ⟨id, id, fun _ => 1 / 10⟩ .sech2 (r / (1 - r))) x * cos x) 0
  simp only [cos_wrap] at this
  rw [this, e]
  have hp : param ⟨id, id, fun _ => 1 / 10⟩ .sech2 (r / (1 - r)) = 1 / 10 := by
    simp only [param, if_pos (param_pos hS.ne' hS.le)]
    norm_num
  rw [hp]
  exact lt_of_lt_of_le hr1 sech2_coef_ge

end Wafo.Spread
