import Mathlib.Analysis.SpecialFunctions.Stirling
import Mathlib.Analysis.SpecialFunctions.Gamma.BohrMollerup
import Mathlib.Analysis.SpecialFunctions.Complex.LogBounds
import Mathlib.Analysis.Calculus.Deriv.MeanValue
import Mathlib.Analysis.Calculus.Deriv.Inv
import Mathlib.Analysis.Calculus.Deriv.Pow
import Mathlib.Tactic.FieldSimp
import Mathlib.Tactic.Positivity
import Mathlib.Tactic.LinearCombination

set_option linter.unusedSectionVars false

/-!
Lemmas for C224: bounds for the error of Stirling's formula by the partial sums of its asymptotic series, for all positive real arguments.
-/

namespace Wafo.Gam

open Filter Topology

/-- The error of Stirling's formula, `log(n!) - log(sqrt(2 pi n) (n/e)^n)` for real `n`. -/
noncomputable def stirErr (x : ℝ) : ℝ :=
  Real.log (Real.Gamma (x + 1)) - (1 / 2 * Real.log (2 * Real.pi * x) + x * Real.log x - x)

theorem log_gamma_succ {x : ℝ} (hx : 0 < x) : Real.log (Real.Gamma (x + 1)) = Real.log x + Real.log (Real.Gamma x) := by
  rw [Real.Gamma_add_one hx.ne', Real.log_mul hx.ne' (Real.Gamma_pos_of_pos hx).ne']

theorem stirErr_step {x : ℝ} (hx : 0 < x) : stirErr x - stirErr (x + 1) = (x + 1 / 2) * (Real.log (x + 1) - Real.log x) - 1 := by
  have h1 : 0 < x + 1 := by linarith
  have hp : (2 : ℝ) * Real.pi ≠ 0 := by positivity
  unfold stirErr
  rw [log_gamma_succ h1, Real.log_mul hp hx.ne', Real.log_mul hp h1.ne']
  ring

theorem stirErr_tendsto {x : ℝ} (hx : 0 < x) : Tendsto (fun n : ℕ => stirErr (x + n)) atTop (𝓝 0) := by
  have hfeq : ∀ {y : ℝ}, 0 < y → (Real.log ∘ Real.Gamma) (y + 1) = (Real.log ∘ Real.Gamma) y + Real.log y := by
    intro y hy
    simp only [Function.comp]
    rw [log_gamma_succ hy, add_comm]
  have hA : Tendsto (fun n : ℕ => Real.log (Real.Gamma x) - Real.BohrMollerup.logGammaSeq x n) atTop (𝓝 0) := by
    have := (Real.BohrMollerup.tendsto_log_gamma hx).const_sub (Real.log (Real.Gamma x))
    simpa using this
  have hB : Tendsto (fun n : ℕ => Real.log (Stirling.stirlingSeq n) - 1 / 2 * Real.log Real.pi) atTop (𝓝 0) := by
    have h1 := (Stirling.tendsto_stirlingSeq_sqrt_pi.log (by positivity)).sub_const (1 / 2 * Real.log Real.pi)
    have : Real.log (Real.sqrt Real.pi) - 1 / 2 * Real.log Real.pi = 0 := by
      rw [Real.log_sqrt Real.pi_pos.le]; ring
    rwa [this] at h1
  have hdiv : Tendsto (fun n : ℕ => x / (n : ℝ)) atTop (𝓝 0) := tendsto_const_div_atTop_nhds_zero_nat x
  have hC : Tendsto (fun n : ℕ => (x + 1 / 2) * Real.log (1 + x / (n : ℝ))) atTop (𝓝 0) := by
    have h1 : Tendsto (fun n : ℕ => 1 + x / (n : ℝ)) atTop (𝓝 (1 + 0)) := hdiv.const_add 1
    have h2 := (h1.log (by norm_num)).const_mul (x + 1 / 2)
    simpa using h2
  have hD : Tendsto (fun n : ℕ => (n : ℝ) * Real.log (1 + x / (n : ℝ)) - x) atTop (𝓝 0) := by
    have := ((Real.tendsto_mul_log_one_add_div_atTop x).comp tendsto_natCast_atTop_atTop).sub_const x
    simpa using this
  have hall := ((hA.add hB).sub hC).sub hD
  simp only [add_zero, sub_zero] at hall
  refine hall.congr' ?_
  filter_upwards [eventually_gt_atTop 0] with n hn
  have hn0 : (0 : ℝ) < n := by exact_mod_cast hn
  have hxn : 0 < x + n := by linarith
  have e1 := Real.BohrMollerup.f_add_nat_eq (f := Real.log ∘ Real.Gamma) hfeq hx (n + 1)
  simp only [Function.comp] at e1
  have e2 : x + ((n + 1 : ℕ) : ℝ) = x + n + 1 := by push_cast; ring
  rw [e2] at e1
  have e3 := Stirling.log_stirlingSeq_formula n
  have e4 : Real.log (1 + x / (n : ℝ)) = Real.log (x + n) - Real.log n := by
    rw [← Real.log_div hxn.ne' hn0.ne']
    congr 1
    field_simp
    ring
  have e5 : Real.log ((n : ℝ) / Real.exp 1) = Real.log n - 1 := by
    rw [Real.log_div hn0.ne' (Real.exp_pos 1).ne', Real.log_exp]
  have e6 : Real.log (2 * (n : ℝ)) = Real.log 2 + Real.log n := Real.log_mul two_ne_zero hn0.ne'
  have e7 : Real.log (2 * Real.pi * (x + n)) = Real.log 2 + Real.log Real.pi + Real.log (x + n) := by
    rw [Real.log_mul (by positivity) hxn.ne', Real.log_mul two_ne_zero Real.pi_pos.ne']
  unfold stirErr Real.BohrMollerup.logGammaSeq
  rw [e4, e3, e5, e6, e7, e1]
  ring

/-- A function on the positive numbers with a non-negative second derivative that vanishes at infinity together with its derivative is not negative. -/
theorem nonneg_of_convex (f f1 f2 : ℝ → ℝ) (h1 : ∀ x, 0 < x → HasDerivAt f (f1 x) x) (h2 : ∀ x, 0 < x → HasDerivAt f1 (f2 x) x)
    (h3 : ∀ x, 0 < x → 0 ≤ f2 x) (t1 : Tendsto f1 atTop (𝓝 0)) (t0 : Tendsto f atTop (𝓝 0)) : ∀ x, 0 < x → 0 ≤ f x := by
  have hmono : MonotoneOn f1 (Set.Ioi 0) := by
    apply monotoneOn_of_deriv_nonneg (convex_Ioi 0)
    · intro x hx; exact (h2 x hx).continuousAt.continuousWithinAt
    · rw [interior_Ioi]; intro x hx; exact (h2 x hx).differentiableAt.differentiableWithinAt
    · rw [interior_Ioi]; intro x hx; rw [(h2 x hx).deriv]; exact h3 x hx
  have hneg : ∀ x, 0 < x → f1 x ≤ 0 := by
    intro x hx
    apply ge_of_tendsto t1
    filter_upwards [eventually_ge_atTop x] with y hy
    exact hmono hx (hx.trans_le hy) hy
  have hanti : AntitoneOn f (Set.Ioi 0) := by
    apply antitoneOn_of_deriv_nonpos (convex_Ioi 0)
    · intro x hx; exact (h1 x hx).continuousAt.continuousWithinAt
    · rw [interior_Ioi]; intro x hx; exact (h1 x hx).differentiableAt.differentiableWithinAt
    · rw [interior_Ioi]; intro x hx; rw [(h1 x hx).deriv]; exact hneg x hx
  intro x hx
  apply le_of_tendsto t0
  filter_upwards [eventually_ge_atTop x] with y hy
  exact hanti hx (hx.trans_le hy) hy

/-- The coefficients of Stirling's series. -/
noncomputable def coef : ℕ → ℝ
  | 0 => 1 / 12
  | 1 => -(1 / 360)
  | 2 => 1 / 1260
  | 3 => -(1 / 1680)
  | 4 => 1 / 1188
  | 5 => -(691 / 360360)
  | _ => 0

/-- Partial sums of Stirling's series. -/
noncomputable def ser (K : ℕ) (x : ℝ) : ℝ := ∑ k ∈ Finset.range K, coef k / x ^ (2 * k + 1)

noncomputable def ser1 (K : ℕ) (x : ℝ) : ℝ := ∑ k ∈ Finset.range K, -(2 * (k : ℝ) + 1) * coef k / x ^ (2 * k + 2)

noncomputable def ser2 (K : ℕ) (x : ℝ) : ℝ := ∑ k ∈ Finset.range K, (2 * (k : ℝ) + 1) * (2 * (k : ℝ) + 2) * coef k / x ^ (2 * k + 3)

theorem hasDerivAt_div_pow (c x : ℝ) (hx : 0 < x) (n : ℕ) : HasDerivAt (fun y => c / y ^ (n + 1)) (-((n : ℝ) + 1) * c / x ^ (n + 2)) x := by
  have h := ((hasDerivAt_pow (n + 1) x).inv (pow_pos hx _).ne').const_mul c
  refine (h.congr_of_eventuallyEq (Eventually.of_forall fun y => ?_)).congr_deriv ?_
  · simp [div_eq_mul_inv]
  · have := hx.ne'
    push_cast
    field_simp
    try ring

theorem ser_deriv (K : ℕ) (x : ℝ) (hx : 0 < x) : HasDerivAt (ser K) (ser1 K x) x := by
  unfold ser ser1
  refine (HasDerivAt.fun_sum fun k _ => hasDerivAt_div_pow (coef k) x hx (2 * k)).congr_deriv ?_
  apply Finset.sum_congr rfl
  intro k _
  push_cast
  ring

theorem ser1_deriv (K : ℕ) (x : ℝ) (hx : 0 < x) : HasDerivAt (ser1 K) (ser2 K x) x := by
  unfold ser1 ser2
  refine (HasDerivAt.fun_sum fun (k : ℕ) _ => hasDerivAt_div_pow (-(2 * (k : ℝ) + 1) * coef k) x hx (2 * k + 1)).congr_deriv ?_
  apply Finset.sum_congr rfl
  intro k _
  push_cast
  ring

theorem div_pow_tendsto (c : ℝ) (n : ℕ) : Tendsto (fun x : ℝ => c / x ^ (n + 1)) atTop (𝓝 0) :=
  (tendsto_pow_atTop (Nat.succ_ne_zero n)).const_div_atTop c

theorem ser_tendsto (K : ℕ) : Tendsto (ser K) atTop (𝓝 0) := by
  have := tendsto_finsetSum (Finset.range K) fun (k : ℕ) _ => div_pow_tendsto (coef k) (2 * k)
  rw [Finset.sum_const_zero] at this
  exact this

theorem ser1_tendsto (K : ℕ) : Tendsto (ser1 K) atTop (𝓝 0) := by
  have := tendsto_finsetSum (Finset.range K) fun (k : ℕ) _ => div_pow_tendsto (-(2 * (k : ℝ) + 1) * coef k) (2 * k + 1)
  rw [Finset.sum_const_zero] at this
  exact this

/-- The step of the error of Stirling's formula and its derivatives. -/
noncomputable def step (x : ℝ) : ℝ := (x + 1 / 2) * (Real.log (x + 1) - Real.log x) - 1
noncomputable def step1 (x : ℝ) : ℝ := (Real.log (x + 1) - Real.log x) + (x + 1 / 2) * (1 / (x + 1) - 1 / x)

theorem log_step_deriv (x : ℝ) (hx : 0 < x) : HasDerivAt (fun y => Real.log (y + 1) - Real.log y) (1 / (x + 1) - 1 / x) x := by
  have h1 : HasDerivAt (fun y : ℝ => y + 1) 1 x := (hasDerivAt_id x).add_const 1
  have h2 := h1.log (by linarith)
  exact (h2.sub (Real.hasDerivAt_log hx.ne')).congr_deriv (by simp)

theorem step_deriv (x : ℝ) (hx : 0 < x) : HasDerivAt step (step1 x) x := by
  have h0 : HasDerivAt (fun y : ℝ => y + 1 / 2) 1 x := (hasDerivAt_id x).add_const _
  have h := (h0.mul (log_step_deriv x hx)).sub_const 1
  refine h.congr_deriv ?_
  simp [step1]

theorem step1_deriv (x : ℝ) (hx : 0 < x) : HasDerivAt step1 (1 / (2 * x ^ 2 * (x + 1) ^ 2)) x := by
  have h0 : HasDerivAt (fun y : ℝ => y + 1 / 2) 1 x := (hasDerivAt_id x).add_const _
  have h1 : HasDerivAt (fun y : ℝ => y + 1) 1 x := (hasDerivAt_id x).add_const 1
  have hx1 : x + 1 ≠ 0 := by linarith
  have h2 : HasDerivAt (fun y : ℝ => 1 / (y + 1) - 1 / y) (-1 / (x + 1) ^ 2 - -1 / x ^ 2) x := by
    have ha := (h1.inv hx1)
    have hb := (hasDerivAt_id x).inv hx.ne'
    have hc := ha.sub hb
    refine (hc.congr_of_eventuallyEq (Eventually.of_forall fun y => ?_)).congr_deriv ?_
    · simp
    · simp
  have h := (log_step_deriv x hx).add (h0.mul h2)
  refine h.congr_deriv ?_
  have := hx.ne'
  field_simp
  ring

theorem log_step_tendsto : Tendsto (fun x : ℝ => Real.log (x + 1) - Real.log x) atTop (𝓝 0) := by
  have h1 : Tendsto (fun x : ℝ => 1 + 1 / x) atTop (𝓝 (1 + 0)) := (tendsto_const_nhds.div_atTop tendsto_id).const_add 1
  have h2 := h1.log (by norm_num)
  simp only [add_zero, Real.log_one] at h2
  refine h2.congr' ?_
  filter_upwards [eventually_gt_atTop 0] with x hx
  rw [← Real.log_div (by linarith) hx.ne']
  congr 1
  field_simp

theorem step_tendsto : Tendsto step atTop (𝓝 0) := by
  have h1 := (Real.tendsto_mul_log_one_add_div_atTop 1).sub_const 1
  have h2 := log_step_tendsto.const_mul (1 / 2)
  have h3 := h1.add h2
  simp only [sub_self, mul_zero, add_zero] at h3
  refine h3.congr' ?_
  filter_upwards [eventually_gt_atTop 0] with x hx
  have : Real.log (1 + 1 / x) = Real.log (x + 1) - Real.log x := by
    rw [← Real.log_div (by linarith) hx.ne']
    congr 1
    field_simp
  rw [this]
  unfold step
  ring

theorem step1_tendsto : Tendsto step1 atTop (𝓝 0) := by
  have t1 : Tendsto (fun x : ℝ => x + 1) atTop atTop := tendsto_atTop_add_const_right _ _ tendsto_id
  have h1 : Tendsto (fun x : ℝ => (1 : ℝ) / x) atTop (𝓝 0) := tendsto_const_nhds.div_atTop tendsto_id
  have h2 : Tendsto (fun x : ℝ => (1 : ℝ) / (x + 1)) atTop (𝓝 0) := tendsto_const_nhds.div_atTop t1
  have h3 := (log_step_tendsto.sub (h1.const_mul (1 / 2))).sub (h2.const_mul (1 / 2))
  simp only [mul_zero, sub_zero] at h3
  refine h3.congr' ?_
  filter_upwards [eventually_gt_atTop 0] with x hx
  unfold step1
  have hx1 : x + 1 ≠ 0 := by linarith
  have := hx.ne'
  field_simp
  ring

/-- If the terms decrease along the integers and tend to zero, the first one is not negative. -/
theorem nonneg_of_steps (g : ℝ → ℝ) (hstep : ∀ x, 0 < x → g (x + 1) ≤ g x) (x : ℝ) (hx : 0 < x) (ht : Tendsto (fun n : ℕ => g (x + n)) atTop (𝓝 0)) : 0 ≤ g x := by
  have hle : ∀ n : ℕ, g (x + n) ≤ g x := by
    intro n
    induction n with
    | zero => simp
    | succ n ih =>
      have := hstep (x + n) (by positivity)
      rw [show x + ((n + 1 : ℕ) : ℝ) = x + n + 1 by push_cast; ring]
      exact this.trans ih
  exact le_of_tendsto ht (Eventually.of_forall hle)

theorem gap_deriv (K : ℕ) (x : ℝ) (hx : 0 < x) : HasDerivAt (fun y => step y - ser K y + ser K (y + 1)) (step1 x - ser1 K x + ser1 K (x + 1)) x := by
  have h1 : HasDerivAt (fun y : ℝ => ser K (y + 1)) (ser1 K (x + 1)) x := (ser_deriv K (x + 1) (by linarith)).comp_add_const x 1
  exact ((step_deriv x hx).sub (ser_deriv K x hx)).add h1

theorem gap1_deriv (K : ℕ) (x : ℝ) (hx : 0 < x) :
    HasDerivAt (fun y => step1 y - ser1 K y + ser1 K (y + 1)) (1 / (2 * x ^ 2 * (x + 1) ^ 2) - ser2 K x + ser2 K (x + 1)) x := by
  have h1 : HasDerivAt (fun y : ℝ => ser1 K (y + 1)) (ser2 K (x + 1)) x := (ser1_deriv K (x + 1) (by linarith)).comp_add_const x 1
  exact ((step1_deriv x hx).sub (ser1_deriv K x hx)).add h1

theorem gap_tendsto (K : ℕ) : Tendsto (fun y => step y - ser K y + ser K (y + 1)) atTop (𝓝 0) := by
  have t1 : Tendsto (fun x : ℝ => x + 1) atTop atTop := tendsto_atTop_add_const_right _ _ tendsto_id
  simpa using (step_tendsto.sub (ser_tendsto K)).add ((ser_tendsto K).comp t1)

theorem gap1_tendsto (K : ℕ) : Tendsto (fun y => step1 y - ser1 K y + ser1 K (y + 1)) atTop (𝓝 0) := by
  have t1 : Tendsto (fun x : ℝ => x + 1) atTop atTop := tendsto_atTop_add_const_right _ _ tendsto_id
  simpa using (step1_tendsto.sub (ser1_tendsto K)).add ((ser1_tendsto K).comp t1)

theorem err_tendsto (K : ℕ) (x : ℝ) (hx : 0 < x) : Tendsto (fun n : ℕ => stirErr (x + n) - ser K (x + n)) atTop (𝓝 0) := by
  have t1 : Tendsto (fun n : ℕ => x + (n : ℝ)) atTop atTop := tendsto_atTop_add_const_left _ _ tendsto_natCast_atTop_atTop
  simpa using (stirErr_tendsto hx).sub ((ser_tendsto K).comp t1)

/-- The series is a lower bound if the second difference is not negative. -/
theorem lower_of (K : ℕ) (h : ∀ x : ℝ, 0 < x → 0 ≤ 1 / (2 * x ^ 2 * (x + 1) ^ 2) - ser2 K x + ser2 K (x + 1)) (x : ℝ) (hx : 0 < x) : ser K x ≤ stirErr x := by
  have hg := nonneg_of_convex _ _ _ (gap_deriv K) (gap1_deriv K) h (gap1_tendsto K) (gap_tendsto K)
  have := nonneg_of_steps (fun y => stirErr y - ser K y) (fun y hy => by
    have h1 := hg y hy
    have h2 := stirErr_step hy
    unfold step at h1
    linarith) x hx (err_tendsto K x hx)
  linarith

/-- The series is an upper bound if the second difference is not positive. -/
theorem upper_of (K : ℕ) (h : ∀ x : ℝ, 0 < x → 1 / (2 * x ^ 2 * (x + 1) ^ 2) - ser2 K x + ser2 K (x + 1) ≤ 0) (x : ℝ) (hx : 0 < x) : stirErr x ≤ ser K x := by
  have hg := nonneg_of_convex _ _ _ (fun y hy => (gap_deriv K y hy).fun_neg) (fun y hy => (gap1_deriv K y hy).fun_neg)
    (fun y hy => neg_nonneg.2 (h y hy)) (by simpa using (gap1_tendsto K).neg) (by simpa using (gap_tendsto K).neg)
  have := nonneg_of_steps (fun y => -(stirErr y - ser K y)) (fun y hy => by
    have h1 := hg y hy
    have h2 := stirErr_step hy
    unfold step at h1
    linarith) x hx (by simpa using (err_tendsto K x hx).neg)
  linarith

theorem lower_2 (x : ℝ) (hx : 0 < x) : ser 2 x ≤ stirErr x := by
  refine lower_of 2 (fun x hx => ?_) x hx
  have hx0 : x ≠ 0 := hx.ne'
  have hx1 : x + 1 ≠ 0 := by linarith
  have e : 1 / (2 * x ^ 2 * (x + 1) ^ 2) - ser2 2 x + ser2 2 (x + 1) = (1 / 30 * x ^ 0 + 1 / 6 * x ^ 1 + 1 / 6 * x ^ 2) / (x ^ 5 * (x + 1) ^ 5) := by
    simp only [ser2, Finset.sum_range_succ, Finset.sum_range_zero, coef]
    push_cast
    field_simp
    ring
  rw [e]
  positivity

theorem upper_3 (x : ℝ) (hx : 0 < x) : stirErr x ≤ ser 3 x := by
  refine upper_of 3 (fun x hx => ?_) x hx
  have hx0 : x ≠ 0 := hx.ne'
  have hx1 : x + 1 ≠ 0 := by linarith
  have e : 1 / (2 * x ^ 2 * (x + 1) ^ 2) - ser2 3 x + ser2 3 (x + 1) = -((1 / 42 * x ^ 0 + 1 / 6 * x ^ 1 + 7 / 15 * x ^ 2 + 3 / 5 * x ^ 3 + 3 / 10 * x ^ 4) / (x ^ 7 * (x + 1) ^ 7)) := by
    simp only [ser2, Finset.sum_range_succ, Finset.sum_range_zero, coef]
    push_cast
    field_simp
    ring
  rw [e]
  exact neg_nonpos.2 (by positivity)

theorem lower_4 (x : ℝ) (hx : 0 < x) : ser 4 x ≤ stirErr x := by
  refine lower_of 4 (fun x hx => ?_) x hx
  have hx0 : x ≠ 0 := hx.ne'
  have hx1 : x + 1 ≠ 0 := by linarith
  have e : 1 / (2 * x ^ 2 * (x + 1) ^ 2) - ser2 4 x + ser2 4 (x + 1) = (1 / 30 * x ^ 0 + 3 / 10 * x ^ 1 + 247 / 210 * x ^ 2 + 181 / 70 * x ^ 3 + 709 / 210 * x ^ 4 + 5 / 2 * x ^ 5 + 5 / 6 * x ^ 6) / (x ^ 9 * (x + 1) ^ 9) := by
    simp only [ser2, Finset.sum_range_succ, Finset.sum_range_zero, coef]
    push_cast
    field_simp
    ring
  rw [e]
  positivity

theorem upper_5 (x : ℝ) (hx : 0 < x) : stirErr x ≤ ser 5 x := by
  refine upper_of 5 (fun x hx => ?_) x hx
  have hx0 : x ≠ 0 := hx.ne'
  have hx1 : x + 1 ≠ 0 := by linarith
  have e : 1 / (2 * x ^ 2 * (x + 1) ^ 2) - ser2 5 x + ser2 5 (x + 1) = -((5 / 66 * x ^ 0 + 5 / 6 * x ^ 1 + 62 / 15 * x ^ 2 + 182 / 15 * x ^ 3 + 487 / 21 * x ^ 4 + 625 / 21 * x ^ 5 + 2654 / 105 * x ^ 6 + 1382 / 105 * x ^ 7 + 691 / 210 * x ^ 8) / (x ^ 11 * (x + 1) ^ 11)) := by
    simp only [ser2, Finset.sum_range_succ, Finset.sum_range_zero, coef]
    push_cast
    field_simp
    ring
  rw [e]
  exact neg_nonpos.2 (by positivity)

theorem lower_6 (x : ℝ) (hx : 0 < x) : ser 6 x ≤ stirErr x := by
  refine lower_of 6 (fun x hx => ?_) x hx
  have hx0 : x ≠ 0 := hx.ne'
  have hx1 : x + 1 ≠ 0 := by linarith
  have e : 1 / (2 * x ^ 2 * (x + 1) ^ 2) - ser2 6 x + ser2 6 (x + 1) = (691 / 2730 * x ^ 0 + 691 / 210 * x ^ 1 + 45431 / 2310 * x ^ 2 + 164947 / 2310 * x ^ 3 + 202241 / 1155 * x ^ 4 + 6395 / 21 * x ^ 5 + 40189 / 105 * x ^ 6 + 5191 / 15 * x ^ 7 + 6533 / 30 * x ^ 8 + 175 / 2 * x ^ 9 + 35 / 2 * x ^ 10) / (x ^ 13 * (x + 1) ^ 13) := by
    simp only [ser2, Finset.sum_range_succ, Finset.sum_range_zero, coef]
    push_cast
    field_simp
    ring
  rw [e]
  positivity

end Wafo.Gam
