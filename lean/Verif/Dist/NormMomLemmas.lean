import Verif.Dist.NormLemmas
import Verif.Dist.MomLemmas
import Mathlib.Analysis.SpecialFunctions.Gaussian.GaussianIntegral

/-!
# Moments of normal variables
-/

namespace Wafo.Dist

open MeasureTheory Set Filter Topology Real Wafo.Gauss

set_option linter.unusedSectionVars false

theorem integrable_pow_phi (n : ℕ) : Integrable (fun x : ℝ => x ^ n * phi x) := by
  have h := integrable_rpow_mul_exp_neg_mul_sq (b := 1 / 2) (by norm_num) (s := (n : ℝ))
    (by have : (0 : ℝ) ≤ n := Nat.cast_nonneg n
        linarith)
  refine (h.const_mul (√(2 * π))⁻¹).congr (Eventually.of_forall fun x => ?_)
  simp only [phi, rpow_natCast]
  rw [show -(1 / 2) * x ^ 2 = -x ^ 2 / 2 by ring]
  ring

theorem hasDerivAt_phi (x : ℝ) : HasDerivAt phi (-x * phi x) x := by
  have h1 : HasDerivAt (fun x : ℝ => -x ^ 2 / 2) (-x) x := by
    refine HasDerivAt.congr_deriv (((hasDerivAt_id x).pow 2).neg.div_const 2) ?_
    simp only [id]
    push_cast
    ring
  refine HasDerivAt.congr_deriv (h1.exp.const_mul (√(2 * π))⁻¹) ?_
  rw [phi]
  ring

theorem hasDerivAt_pow_phi (n : ℕ) (x : ℝ) :
    HasDerivAt (fun x : ℝ => x ^ (n + 1) * phi x) ((n + 1) * (x ^ n * phi x) - x ^ (n + 2) * phi x) x := by
  refine HasDerivAt.congr_deriv ((hasDerivAt_pow (n + 1) x).mul (hasDerivAt_phi x)) ?_
  rw [Nat.add_sub_cancel]
  push_cast
  ring

theorem integrable_deriv_phi (n : ℕ) :
    Integrable (fun x : ℝ => (n + 1) * (x ^ n * phi x) - x ^ (n + 2) * phi x) :=
  ((integrable_pow_phi n).const_mul _).sub (integrable_pow_phi (n + 2))

theorem tendsto_pow_phi (n : ℕ) : Tendsto (fun x : ℝ => x ^ (n + 1) * phi x) atTop (𝓝 0) :=
  tendsto_zero_of_hasDerivAt_of_integrableOn_Ioi (a := 0)
    (fun x _ => hasDerivAt_pow_phi n x) (integrable_deriv_phi n).integrableOn
    (integrable_pow_phi (n + 1)).integrableOn

theorem tendsto_phi : Tendsto phi atTop (𝓝 0) := by
  have h : Integrable (fun x => -x * phi x) := by
    refine (integrable_pow_phi 1).neg.congr (Eventually.of_forall fun x => ?_)
    simp only [Pi.neg_apply, pow_one]
    ring
  exact tendsto_zero_of_hasDerivAt_of_integrableOn_Ioi (a := 0)
    (fun x _ => hasDerivAt_phi x) h.integrableOn integrable_phi.integrableOn

/-- Partial moments above `b`: the recursion. -/
theorem tail_succ {n : ℕ} {b v : ℝ} (h : HasInt (Ioi b) (fun x => x ^ n * phi x) v) :
    HasInt (Ioi b) (fun x => x ^ (n + 2) * phi x) (b ^ (n + 1) * phi b + (n + 1) * v) := by
  refine ⟨(integrable_pow_phi (n + 2)).integrableOn, ?_⟩
  have h1 := integral_Ioi_of_hasDerivAt_of_tendsto' (a := b)
    (fun x _ => hasDerivAt_pow_phi n x) (integrable_deriv_phi n).integrableOn (tendsto_pow_phi n)
  rw [integral_sub ((integrable_pow_phi n).const_mul _).integrableOn
    (integrable_pow_phi (n + 2)).integrableOn, integral_const_mul, h.2] at h1
  linarith

theorem tail_zero (b : ℝ) : HasInt (Ioi b) (fun x => x ^ 0 * phi x) (1 - Phi b) := by
  refine ⟨(integrable_pow_phi 0).integrableOn, ?_⟩
  simp only [pow_zero, one_mul]
  exact integral_Ioi_of_hasDerivAt_of_tendsto' (fun x _ => hasDerivAt_Phi x)
    integrable_phi.integrableOn tendsto_Phi_atTop

theorem tail_one (b : ℝ) : HasInt (Ioi b) (fun x => x ^ 1 * phi x) (phi b) := by
  refine ⟨(integrable_pow_phi 1).integrableOn, ?_⟩
  have h1 := integral_Ioi_of_hasDerivAt_of_tendsto' (a := b) (f := fun x => -phi x)
    (f' := fun x => x ^ 1 * phi x) (m := 0)
    (fun x _ => HasDerivAt.congr_deriv (hasDerivAt_phi x).neg (by ring))
    (integrable_pow_phi 1).integrableOn (by simpa using tendsto_phi.neg)
  rw [h1]
  ring

/-- The moments of a standard normal variable. -/
def nmom : ℕ → ℝ
  | 0 => 1
  | 1 => 0
  | n + 2 => (n + 1) * nmom n

theorem hasInt_nmom : ∀ n : ℕ, HasInt univ (fun x => x ^ n * phi x) (nmom n)
  | 0 => ⟨(integrable_pow_phi 0).integrableOn, by
      rw [setIntegral_univ]
      simp only [pow_zero, one_mul, nmom]
      rw [← phi_eq, ProbabilityTheory.integral_gaussianPDFReal_eq_one 0 one_ne]⟩
  | 1 => ⟨(integrable_pow_phi 1).integrableOn, by
      rw [setIntegral_univ, nmom]
      have h := integral_eq_zero_of_hasDerivAt_of_integrable (f := fun x => -phi x)
        (f' := fun x => x ^ 1 * phi x)
        (fun x => HasDerivAt.congr_deriv (hasDerivAt_phi x).neg (by ring))
        (integrable_pow_phi 1) integrable_phi.neg
      exact h⟩
  | n + 2 => ⟨(integrable_pow_phi (n + 2)).integrableOn, by
      rw [setIntegral_univ, nmom]
      have h := integral_eq_zero_of_hasDerivAt_of_integrable
        (fun x => hasDerivAt_pow_phi n x) (integrable_deriv_phi n) (integrable_pow_phi (n + 1))
      rw [integral_sub ((integrable_pow_phi n).const_mul _) (integrable_pow_phi (n + 2)),
        integral_const_mul] at h
      have h2 := (hasInt_nmom n).2
      rw [setIntegral_univ] at h2
      rw [h2] at h
      linarith⟩

/-- Expected values of functions of a normal variable. -/
theorem NormTr.expect {I : Set ℝ} (hI : MeasurableSet I) {g gi g' pdf : ℝ → ℝ}
    (t : NormTr I g gi g' pdf) {k : ℝ → ℝ} {v : ℝ}
    (hk : HasInt univ (fun y => k (gi y) * phi y) v) :
    HasInt I (fun x => k x * pdf x) v := by
  have hinj : InjOn g I := fun x hx y hy h => by rw [← t.left x hx, ← t.left y hy, h]
  have him : g '' I = univ := by
    rw [eq_univ_iff_forall]
    exact fun y => ⟨gi y, t.mem y, t.right y⟩
  have hd' : ∀ x ∈ I, HasDerivWithinAt g (g' x) I x := fun x hx => (t.deriv x hx).hasDerivWithinAt
  have key := integral_image_eq_integral_abs_deriv_smul hI hd' hinj (fun y => k (gi y) * phi y)
  have keyi := integrableOn_image_iff_integrableOn_abs_deriv_smul hI hd' hinj
    (fun y => k (gi y) * phi y)
  rw [him] at key keyi
  have e1 : ∀ x ∈ I, k x * pdf x = |g' x| • (k (gi (g x)) * phi (g x)) := by
    intro x hx
    rw [t.pdf_eq x hx, smul_eq_mul, t.left x hx, abs_of_nonneg (t.nonneg x hx)]
    ring
  exact ⟨(integrableOn_congr_fun e1 hI).2 (keyi.1 hk.1), by
    rw [setIntegral_congr_fun hI e1, ← key, hk.2]⟩

/-- The moment generating function of a normal variable. -/
theorem hasInt_exp_phi (t : ℝ) : HasInt univ (fun x => exp (t * x) * phi x) (exp (t ^ 2 / 2)) := by
  have e : ∀ x, exp (t * x) * phi x = exp (t ^ 2 / 2) * phi (x - t) := by
    intro x
    rw [phi, phi, mul_left_comm, mul_left_comm (exp (t ^ 2 / 2)), ← exp_add, ← exp_add]
    congr 2
    ring
  have h0 := (hasInt_nmom 0).2
  simp only [pow_zero, one_mul, nmom, setIntegral_univ] at h0
  refine ⟨?_, ?_⟩
  · rw [integrableOn_univ]
    simp only [e]
    exact (integrable_phi.comp_sub_right t).const_mul _
  · rw [setIntegral_univ]
    simp only [e]
    rw [integral_const_mul, integral_sub_right_eq_self phi t, h0, mul_one]

end Wafo.Dist
