import Mathlib.Analysis.SpecialFunctions.Sigmoid
import Mathlib.Analysis.Calculus.Deriv.Polynomial
import Mathlib.NumberTheory.ZetaValues
import Mathlib.MeasureTheory.Integral.Gamma
import Mathlib.Algebra.Polynomial.AlgebraMap
import Verif.Kde.Radial

/-! Integrals of the logistic kernel. -/

set_option linter.unusedSectionVars false

namespace Wafo.Kde

open Real MeasureTheory Filter Topology

/-- The one dimensional logistic kernel. -/
noncomputable def lk (x : ℝ) : ℝ := exp x / (exp x + 1) ^ 2

theorem lk_sigmoid (x : ℝ) : lk x = sigmoid x * (1 - sigmoid x) := by
  rw [lk, sigmoid_def, exp_neg]
  have := exp_pos x
  field_simp
  ring

theorem lk_nonneg (x : ℝ) : 0 ≤ lk x := by unfold lk; positivity

theorem lk_even (x : ℝ) : lk (-x) = lk x := by
  rw [lk_sigmoid, lk_sigmoid, sigmoid_neg]; ring

theorem lk_abs (x : ℝ) : lk |x| = lk x := by
  rcases abs_cases x with ⟨h, _⟩ | ⟨h, _⟩ <;> rw [h]
  exact lk_even x

theorem lk_cont : Continuous lk := by
  unfold lk
  refine continuous_exp.div (by fun_prop) fun x => ?_
  have := exp_pos x
  positivity

theorem lk_le (x : ℝ) : lk x ≤ exp (-|x|) := by
  rw [← lk_abs, lk, exp_neg, div_le_iff₀ (by positivity), ← div_eq_inv_mul, le_div_iff₀ (exp_pos _)]
  have := exp_pos |x|
  nlinarith

theorem integrable_exp_neg_abs : Integrable fun x : ℝ => exp (-|x|) := by
  by_contra h
  have := integral_undef h
  rw [integral_lapl1] at this
  norm_num at this

theorem lk_integrable : Integrable lk := by
  refine integrable_exp_neg_abs.mono' lk_cont.aestronglyMeasurable (Eventually.of_forall fun x => ?_)
  rw [norm_eq_abs, abs_of_nonneg (lk_nonneg x)]
  exact lk_le x

/-- Substitution `u = sigmoid x`. -/
theorem integral_sigmoid (G g : ℝ → ℝ) (hG : ∀ u, HasDerivAt G (g u) u) (hg : Continuous g) :
    ∫ x, g (sigmoid x) * lk x = G 1 - G 0 := by
  have hGc : Continuous G := continuous_iff_continuousAt.2 fun u => (hG u).continuousAt
  refine integral_of_hasDerivAt_of_tendsto (f := fun x => G (sigmoid x)) (fun x => ?_) ?_ ?_ ?_
  · rw [lk_sigmoid]
    exact (hG (sigmoid x)).comp x (hasDerivAt_sigmoid x)
  · obtain ⟨C, hC⟩ := (isCompact_Icc (a := (0 : ℝ)) (b := 1)).exists_bound_of_continuousOn hg.continuousOn
    refine lk_integrable.bdd_mul (c := C) (hg.comp continuous_sigmoid).aestronglyMeasurable
      (Eventually.of_forall fun x => hC _ ⟨sigmoid_nonneg x, sigmoid_le_one x⟩)
  · exact (hGc.tendsto 0).comp tendsto_sigmoid_atBot
  · exact (hGc.tendsto 1).comp tendsto_sigmoid_atTop

theorem integral_lk : ∫ x, lk x = 1 := by
  have := integral_sigmoid (fun u => u) (fun _ => 1) (fun u => hasDerivAt_id' u) continuous_const
  simpa using this

theorem integral_logi (d : ℕ) (r : ℝ) : ∫ x : Fin d → ℝ, kernelRaw r x .logi = 1 := by
  simp only [kernelRaw]
  rw [integral_prod_fun d (fun t => exp t / (exp t + 1) ^ 2)]
  have := integral_lk
  unfold lk at this
  rw [this, one_pow]

/-- `∫ lk² = 1/6`. -/
theorem integral_lk_sq : ∫ x, lk x ^ 2 = 1 / 6 := by
  have := integral_sigmoid (fun u => u ^ 2 / 2 - u ^ 3 / 3) (fun u => u * (1 - u)) (fun u => by
    have := ((hasDerivAt_pow 2 u).div_const 2).sub ((hasDerivAt_pow 3 u).div_const 3)
    refine this.congr_deriv ?_
    push_cast; ring) (by fun_prop)
  rw [show (1 : ℝ) / 6 = 1 ^ 2 / 2 - 1 ^ 3 / 3 - (0 ^ 2 / 2 - 0 ^ 3 / 3) by norm_num, ← this]
  refine integral_congr_ae (Eventually.of_forall fun x => ?_)
  simp only [lk_sigmoid]; ring

theorem lk_deriv (x : ℝ) : HasDerivAt lk (lk x * (1 - 2 * sigmoid x)) x := by
  have h : lk = fun x => sigmoid x * (1 - sigmoid x) := funext lk_sigmoid
  rw [h]
  have := (hasDerivAt_sigmoid x).mul ((hasDerivAt_const x (1 : ℝ)).sub (hasDerivAt_sigmoid x))
  refine this.congr_deriv ?_
  simp only [Pi.sub_apply]
  ring

theorem lk_deriv2 (x : ℝ) : HasDerivAt (fun x => lk x * (1 - 2 * sigmoid x)) (lk x * (1 - 6 * lk x)) x := by
  have := (lk_deriv x).mul ((hasDerivAt_const x (1 : ℝ)).sub ((hasDerivAt_sigmoid x).const_mul 2))
  refine this.congr_deriv ?_
  rw [lk_sigmoid]
  simp only [Pi.sub_apply]
  ring

/-- `∫ (lk'')² = 1/42`. -/
theorem integral_lk_dd : ∫ x, (lk x * (1 - 6 * lk x)) ^ 2 = 1 / 42 := by
  have := integral_sigmoid
    (fun u => u ^ 2 / 2 - 13 * u ^ 3 / 3 + 15 * u ^ 4 - 24 * u ^ 5 + 18 * u ^ 6 - 36 / 7 * u ^ 7)
    (fun u => u * (1 - u) * (1 - 6 * (u * (1 - u))) ^ 2) (fun u => by
    have := ((((((hasDerivAt_pow 2 u).div_const 2).sub (((hasDerivAt_pow 3 u).const_mul 13).div_const 3)).add
      ((hasDerivAt_pow 4 u).const_mul 15)).sub ((hasDerivAt_pow 5 u).const_mul 24)).add
      ((hasDerivAt_pow 6 u).const_mul 18)).sub ((hasDerivAt_pow 7 u).const_mul (36 / 7))
    refine this.congr_deriv ?_
    push_cast; ring) (by fun_prop)
  rw [show (1 : ℝ) / 42 = (1 ^ 2 / 2 - 13 * 1 ^ 3 / 3 + 15 * 1 ^ 4 - 24 * 1 ^ 5 + 18 * 1 ^ 6 - 36 / 7 * 1 ^ 7)
    - (0 ^ 2 / 2 - 13 * 0 ^ 3 / 3 + 15 * 0 ^ 4 - 24 * 0 ^ 5 + 18 * 0 ^ 6 - 36 / 7 * 0 ^ 7) by norm_num, ← this]
  refine integral_congr_ae (Eventually.of_forall fun x => ?_)
  simp only [lk_sigmoid]; ring

theorem integral_sq_exp (n : ℕ) (hn : n ≠ 0) : ∫ x in Set.Ioi (0 : ℝ), x ^ 2 * exp (-(n * x)) = 2 / (n : ℝ) ^ 3 := by
  have hn' : (0 : ℝ) < n := by exact_mod_cast Nat.pos_of_ne_zero hn
  have h := integral_rpow_mul_exp_neg_mul_Ioi (a := 3) (r := n) (by norm_num) hn'
  have e : ∀ x : ℝ, x ^ ((3 : ℝ) - 1) = x ^ 2 := fun x => by
    rw [show (3 : ℝ) - 1 = ((2 : ℕ) : ℝ) by norm_num, rpow_natCast]
  simp only [e] at h
  rw [h, show (3 : ℝ) = ((2 : ℕ) : ℝ) + 1 by norm_num, Real.Gamma_nat_eq_factorial]
  rw [show ((2 : ℕ) : ℝ) + 1 = ((3 : ℕ) : ℝ) by norm_num, rpow_natCast]
  simp [Nat.factorial]
  field_simp

theorem hasSum_lk (x : ℝ) (hx : 0 < x) :
    HasSum (fun n : ℕ => -((-1) ^ n * (n : ℝ)) * exp (-(n * x))) (lk x) := by
  have hr : ‖-exp (-x)‖ < 1 := by
    rw [norm_neg, norm_eq_abs, abs_of_pos (exp_pos _)]
    exact exp_lt_one_iff.mpr (by linarith)
  have h := (hasSum_coe_mul_geometric_of_norm_lt_one hr).neg
  have e : -(-exp (-x) / (1 - -exp (-x)) ^ 2) = lk x := by
    have h0 := exp_pos x
    have h1 : exp (-x) * exp x = 1 := by rw [← exp_add]; simp
    have h2 := exp_pos (-x)
    rw [lk, neg_div, neg_neg, sub_neg_eq_add, div_eq_div_iff (by positivity) (by positivity)]
    generalize exp (-x) = a at *
    generalize exp x = b at *
    linear_combination (b - a) * h1
  rw [e] at h
  have e2 : (fun n : ℕ => -((-1) ^ n * (n : ℝ)) * exp (-(n * x))) =
      fun b : ℕ => -((b : ℝ) * (-exp (-x)) ^ b) := by
    funext n
    rw [show (-exp (-x)) ^ n = (-1) ^ n * exp (-x) ^ n from neg_pow _ _, ← exp_nat_mul]
    rw [show (n : ℝ) * -x = -(n * x) by ring]
    ring
  rw [e2]
  exact h

theorem bernoulli_two_half : (Polynomial.bernoulli 2).eval (1 / 2) = -1 / 12 := by
  simp_rw [Polynomial.bernoulli, Finset.sum_range_succ, Polynomial.eval_add,
    Polynomial.eval_monomial]
  rw [Finset.sum_range_zero, Polynomial.eval_zero, zero_add, _root_.bernoulli_one]
  rw [bernoulli_eq_bernoulli'_of_ne_one zero_ne_one, bernoulli'_zero,
    bernoulli_eq_bernoulli'_of_ne_one (by decide : 2 ≠ 1), bernoulli'_two]
  norm_num

theorem hasSum_alt : HasSum (fun n : ℕ => (-1) ^ n / (n : ℝ) ^ 2) (-(π ^ 2 / 12)) := by
  have h := hasSum_one_div_nat_pow_mul_cos (k := 1) one_ne_zero (x := 1 / 2) ⟨by norm_num, by norm_num⟩
  have e : (fun n : ℕ => (-1) ^ n / (n : ℝ) ^ 2) =
      fun n : ℕ => 1 / (n : ℝ) ^ (2 * 1) * Real.cos (2 * π * n * (1 / 2)) := by
    funext n
    rw [show 2 * π * n * (1 / 2) = n * π by ring, Real.cos_nat_mul_pi]
    ring
  have e2 : (Polynomial.map (algebraMap ℚ ℝ) (Polynomial.bernoulli (2 * 1))).eval (1 / 2 : ℝ)
      = -1 / 12 := by
    rw [show (1 / 2 : ℝ) = algebraMap ℚ ℝ (1 / 2) by norm_num, Polynomial.eval_map_algebraMap,
      Polynomial.aeval_algebraMap_apply, mul_one]
    rw [show Polynomial.aeval (1 / 2 : ℚ) (Polynomial.bernoulli 2) = -1 / 12 from bernoulli_two_half]
    norm_num
  rw [e2] at h
  rw [e]
  convert! h using 1
  norm_num
  ring

/-- The second moment of the logistic kernel. -/
theorem integral_sq_lk : ∫ x : ℝ, x ^ 2 * lk x = π ^ 2 / 3 := by
  have h0 : ∫ x : ℝ, x ^ 2 * lk x = ∫ x : ℝ, (fun y => y ^ 2 * lk y) |x| :=
    integral_congr_ae (ae_of_all _ fun x => by simp [lk_abs, sq_abs])
  rw [h0, integral_comp_abs (f := fun y => y ^ 2 * lk y)]
  set F : ℕ → ℝ → ℝ := fun n x => -((-1) ^ n * (n : ℝ)) * (x ^ 2 * exp (-(n * x))) with hF
  have hI : ∀ n, IntegrableOn (F n) (Set.Ioi 0) := by
    intro n
    rcases eq_or_ne n 0 with rfl | hn
    · simp [hF]
    · refine Integrable.const_mul ?_ _
      by_contra hc
      have := integral_sq_exp n hn
      rw [integral_undef hc] at this
      have hn' : (0 : ℝ) < n := by exact_mod_cast Nat.pos_of_ne_zero hn
      have : (0 : ℝ) < 2 / (n : ℝ) ^ 3 := by positivity
      linarith
  have hv : ∀ n, ∫ x in Set.Ioi (0 : ℝ), F n x = -2 * ((-1) ^ n / (n : ℝ) ^ 2) := by
    intro n
    rcases eq_or_ne n 0 with rfl | hn
    · simp [hF]
    · simp only [hF]
      rw [integral_const_mul, integral_sq_exp n hn]
      have hn' : (n : ℝ) ≠ 0 := by exact_mod_cast hn
      field_simp
  have hN : ∀ n, ∫ x in Set.Ioi (0 : ℝ), ‖F n x‖ = 2 * (1 / (n : ℝ) ^ 2) := by
    intro n
    rcases eq_or_ne n 0 with rfl | hn
    · simp [hF]
    · have : ∀ x, ‖F n x‖ = n * (x ^ 2 * exp (-(n * x))) := by
        intro x
        simp only [hF]
        rw [norm_mul, norm_neg, norm_mul, norm_pow, norm_neg, norm_one, one_pow, one_mul,
          norm_eq_abs, norm_eq_abs, abs_of_nonneg (by positivity), abs_of_nonneg (by positivity)]
      simp only [this]
      rw [integral_const_mul, integral_sq_exp n hn]
      have hn' : (n : ℝ) ≠ 0 := by exact_mod_cast hn
      field_simp
  have hS : Summable fun n => ∫ x in Set.Ioi (0 : ℝ), ‖F n x‖ := by
    simp only [hN]
    exact (hasSum_zeta_two.summable).mul_left 2
  have h := hasSum_integral_of_summable_integral_norm hI hS
  have e : ∫ x in Set.Ioi (0 : ℝ), (∑' n, F n x) = ∫ x in Set.Ioi (0 : ℝ), x ^ 2 * lk x := by
    refine setIntegral_congr_fun measurableSet_Ioi ?_
    intro x hx
    have := ((hasSum_lk x hx).mul_left (x ^ 2)).tsum_eq
    simp only
    rw [← this]
    refine tsum_congr fun n => ?_
    simp only [hF]
    ring
  rw [e] at h
  simp only [hv] at h
  have := h.unique (hasSum_alt.mul_left (-2))
  rw [this]
  ring

end Wafo.Kde
