import Mathlib.Analysis.SpecialFunctions.Gamma.Beta
import Mathlib.Analysis.SpecialFunctions.Integrability.Basic
import Verif.Quad.Newton

/-! Integration against the Jacobi weight `(1-x)^α (1+x)^β`. -/

set_option linter.unusedSectionVars false

namespace Wafo.Quad

open Polynomial Finset Real MeasureTheory

variable {α β : ℝ}

theorem integrable_jw (hα : -1 < α) (hβ : -1 < β) :
    IntervalIntegrable (fun x : ℝ => (1 - x) ^ α * (1 + x) ^ β) volume (-1) 1 := by
  have h1 : IntervalIntegrable (fun x : ℝ => (1 - x) ^ α * (1 + x) ^ β) volume (-1) 0 := by
    have hb : IntervalIntegrable (fun x : ℝ => (1 + x) ^ β) volume (-1) 0 := by
      have := (intervalIntegral.intervalIntegrable_rpow' (a := 0) (b := 1) hβ).comp_add_left 1
      simpa using this
    refine hb.continuousOn_mul ?_
    refine ContinuousOn.rpow_const (by fun_prop) fun x hx => ?_
    rw [Set.uIcc_of_le (by norm_num)] at hx
    left; linarith [hx.2]
  have h2 : IntervalIntegrable (fun x : ℝ => (1 - x) ^ α * (1 + x) ^ β) volume 0 1 := by
    have ha : IntervalIntegrable (fun x : ℝ => (1 - x) ^ α) volume 0 1 := by
      have := (intervalIntegral.intervalIntegrable_rpow' (a := 0) (b := 1) hα).comp_sub_left 1
      simpa using this.symm
    refine ha.mul_continuousOn ?_
    refine ContinuousOn.rpow_const (by fun_prop) fun x hx => ?_
    rw [Set.uIcc_of_le (by norm_num)] at hx
    left; linarith [hx.1]
  exact h1.trans h2

theorem integrable_jac (hα : -1 < α) (hβ : -1 < β) (P : ℝ[X]) :
    IntervalIntegrable (fun x : ℝ => P.eval x * ((1 - x) ^ α * (1 + x) ^ β)) volume (-1) 1 :=
  (integrable_jw hα hβ).continuousOn_mul P.continuous.continuousOn

/-- Integration against the Jacobi weight as a linear functional. -/
noncomputable def jacLin (α β : ℝ) (hα : -1 < α) (hβ : -1 < β) : ℝ[X] →ₗ[ℝ] ℝ where
  toFun P := ∫ x in (-1 : ℝ)..1, P.eval x * ((1 - x) ^ α * (1 + x) ^ β)
  map_add' P Q := by
    simp only [eval_add, add_mul]
    exact intervalIntegral.integral_add (integrable_jac hα hβ P) (integrable_jac hα hβ Q)
  map_smul' c P := by
    simp only [eval_smul, RingHom.id_apply, smul_eq_mul, mul_assoc]
    exact intervalIntegral.integral_const_mul _ _

variable (hα : -1 < α) (hβ : -1 < β)

theorem jacLin_apply (P : ℝ[X]) :
    jacLin α β hα hβ P = ∫ x in (-1 : ℝ)..1, P.eval x * ((1 - x) ^ α * (1 + x) ^ β) := rfl

theorem jacLin_parts (P : ℝ[X]) :
    jacLin α β hα hβ ((1 - X ^ 2) * derivative P)
      = jacLin α β hα hβ ((C (α - β) + C (α + β + 2) * X) * P) := by
  set Q : ℝ[X] := (1 - X ^ 2) * derivative P - (C (α - β) + C (α + β + 2) * X) * P with hQ
  have hcont : ContinuousOn (fun x : ℝ => P.eval x * ((1 - x) ^ (α + 1) * (1 + x) ^ (β + 1)))
      (Set.Icc (-1) 1) := by
    refine P.continuous.continuousOn.mul (ContinuousOn.mul ?_ ?_)
    · exact ContinuousOn.rpow_const (by fun_prop) fun x _ => Or.inr (by linarith)
    · exact ContinuousOn.rpow_const (by fun_prop) fun x _ => Or.inr (by linarith)
  have hder : ∀ x ∈ Set.Ioo (-1 : ℝ) 1,
      HasDerivAt (fun x : ℝ => P.eval x * ((1 - x) ^ (α + 1) * (1 + x) ^ (β + 1)))
        (Q.eval x * ((1 - x) ^ α * (1 + x) ^ β)) x := by
    intro x hx
    have p1 : 0 < 1 - x := by linarith [hx.2]
    have p2 : 0 < 1 + x := by linarith [hx.1]
    have d1 : HasDerivAt (fun x : ℝ => (1 - x) ^ (α + 1)) (-1 * (α + 1) * (1 - x) ^ (α + 1 - 1)) x :=
      ((hasDerivAt_id x).const_sub 1).rpow_const (Or.inl p1.ne')
    have d2 : HasDerivAt (fun x : ℝ => (1 + x) ^ (β + 1)) (1 * (β + 1) * (1 + x) ^ (β + 1 - 1)) x :=
      ((hasDerivAt_id x).const_add 1).rpow_const (Or.inl p2.ne')
    have h := (P.hasDerivAt x).fun_mul (d1.fun_mul d2)
    have e : Q.eval x * ((1 - x) ^ α * (1 + x) ^ β)
        = (derivative P).eval x * ((1 - x) ^ (α + 1) * (1 + x) ^ (β + 1))
          + P.eval x * ((-1 * (α + 1) * (1 - x) ^ (α + 1 - 1)) * (1 + x) ^ (β + 1)
            + (1 - x) ^ (α + 1) * (1 * (β + 1) * (1 + x) ^ (β + 1 - 1))) := by
      rw [add_sub_cancel_right, add_sub_cancel_right, rpow_add_one p1.ne', rpow_add_one p2.ne', hQ]
      simp only [eval_sub, eval_mul, eval_add, eval_C, eval_X, eval_one, eval_pow]
      ring
    rw [e]
    exact h
  have hI := intervalIntegral.integral_eq_sub_of_hasDerivAt_of_le (by norm_num) hcont hder
    (integrable_jac hα hβ Q)
  have z1 : (1 - (1 : ℝ)) ^ (α + 1) = 0 := by
    rw [sub_self]; exact zero_rpow (by linarith)
  have z2 : (1 + (-1 : ℝ)) ^ (β + 1) = 0 := by
    rw [add_neg_cancel]; exact zero_rpow (by linarith)
  rw [z1, z2] at hI
  have : jacLin α β hα hβ Q = 0 := by rw [jacLin_apply, hI]; ring
  rw [hQ, map_sub] at this
  linarith

theorem beta_real {u v : ℝ} (hu : 0 < u) (hv : 0 < v) :
    ∫ x in (0 : ℝ)..1, x ^ (u - 1) * (1 - x) ^ (v - 1) = Gamma u * Gamma v / Gamma (u + v) := by
  have h := Complex.Gamma_mul_Gamma_eq_betaIntegral (s := (u : ℂ)) (t := (v : ℂ))
    (by simpa using hu) (by simpa using hv)
  have hb : Complex.betaIntegral u v
      = ((∫ x in (0 : ℝ)..1, x ^ (u - 1) * (1 - x) ^ (v - 1) : ℝ) : ℂ) := by
    rw [Complex.betaIntegral, ← intervalIntegral.integral_ofReal]
    refine intervalIntegral.integral_congr fun x hx => ?_
    rw [Set.uIcc_of_le (by norm_num)] at hx
    rw [Complex.ofReal_mul, Complex.ofReal_cpow hx.1, Complex.ofReal_cpow (by linarith [hx.2])]
    push_cast
    rfl
  rw [hb, ← Complex.ofReal_add, Complex.Gamma_ofReal, Complex.Gamma_ofReal, Complex.Gamma_ofReal] at h
  have h' : Gamma u * Gamma v
      = Gamma (u + v) * ∫ x in (0 : ℝ)..1, x ^ (u - 1) * (1 - x) ^ (v - 1) := by exact_mod_cast h
  rw [h', mul_div_cancel_left₀ _ (Gamma_pos_of_pos (by linarith)).ne']

theorem jacLin_one : jacLin α β hα hβ 1
    = 2 ^ (α + β + 1) * (Gamma (α + 1) * Gamma (β + 1) / Gamma (α + β + 2)) := by
  have hb := beta_real (u := β + 1) (v := α + 1) (by linarith) (by linarith)
  rw [add_sub_cancel_right, add_sub_cancel_right,
    show β + 1 + (α + 1) = α + β + 2 by ring, mul_comm (Gamma (β + 1))] at hb
  rw [← hb, jacLin_apply]
  have ha := integral_affine (a := 0) (b := 1) (f := fun x => x ^ β * (1 - x) ^ α)
  rw [ha, ← mul_assoc, ← intervalIntegral.integral_const_mul]
  refine intervalIntegral.integral_congr fun x hx => ?_
  rw [Set.uIcc_of_le (by norm_num)] at hx
  simp only [eval_one, one_mul]
  have p1 : 0 ≤ 1 - x := by linarith [hx.2]
  have p2 : 0 ≤ 1 + x := by linarith [hx.1]
  rw [show (1 - 0) / 2 * x + (0 + 1) / 2 = (1 / 2) * (1 + x) by ring,
    show 1 - (1 / 2) * (1 + x) = (1 / 2) * (1 - x) by ring,
    mul_rpow (by norm_num) p1, mul_rpow (by norm_num) p2]
  have h2 : (2 : ℝ) ^ (α + β + 1) * ((1 - 0) / 2) * ((1 / 2) ^ β * (1 / 2) ^ α) = 1 := by
    rw [← rpow_add (by norm_num), one_div, inv_rpow (by norm_num), rpow_add_one (by norm_num),
      show β + α = α + β by ring]
    have : (2 : ℝ) ^ (α + β) ≠ 0 := (rpow_pos_of_pos (by norm_num) _).ne'
    field_simp
    norm_num
  linear_combination (-(1 - x) ^ α * (1 + x) ^ β) * h2

end Wafo.Quad
