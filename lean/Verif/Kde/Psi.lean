import Mathlib.Analysis.Calculus.IteratedDeriv.Lemmas
import Mathlib.RingTheory.Polynomial.Hermite.Gaussian
import Verif.Poly.Props
import Verif.Quad.Hermite
import Verif.Kde.Kernel

/-! Derivatives of the Gaussian density and the functionals `psi`. -/

set_option linter.unusedSectionVars false

namespace Wafo.Kde

open Real MeasureTheory Wafo.Poly

theorem peval_zeros (n : ℕ) (a : List ℝ) (t : ℝ) : peval (List.replicate n 0 ++ a) t = peval a t := by
  induction n with
  | zero => rfl
  | succ n ih => rw [List.replicate_succ, List.cons_append, peval_cons, zero_mul, zero_add, ih]

theorem peval_zip : ∀ a b : List ℝ, a.length = b.length → ∀ t : ℝ,
    peval (List.zipWith (· + ·) a b) t = peval a t + peval b t
  | [], [], _, t => by simp [peval]
  | x :: a, y :: b, h, t => by
    have h' : a.length = b.length := by simpa using h
    rw [List.zipWith_cons_cons, peval_cons, peval_cons, peval_cons, peval_zip a b h' t, List.length_zipWith, h',
      min_self]
    ring

theorem peval_polyadd (a b : List ℝ) (t : ℝ) : peval (polyadd a b) t = peval a t + peval b t := by
  rw [polyadd, peval_zip, peval_zeros, peval_zeros]
  simp only [List.length_append, List.length_replicate]
  omega

theorem peval_neg (a : List ℝ) (t : ℝ) : peval (a.map fun c => -c) t = -peval a t := by
  induction a with
  | nil => simp [peval]
  | cons x a ih => rw [List.map_cons, peval_cons, peval_cons, ih, List.length_map]; ring

theorem peval_nextPoly (p : List ℝ) (t : ℝ) : peval (nextPoly p) t = peval (der1 p) t - t * peval p t := by
  rw [nextPoly, peval_polyadd, peval_neg, peval_append_singleton]
  ring

/-- The standard normal density. -/
noncomputable def phi (t : ℝ) : ℝ := exp (-(t ^ 2) / 2) / √(2 * π)

theorem phi_hasDerivAt (t : ℝ) : HasDerivAt phi (-t * phi t) t := by
  unfold phi
  have h : HasDerivAt (fun x : ℝ => -(x ^ 2) / 2) (-t) t := by
    have := ((hasDerivAt_pow 2 t).fun_neg).div_const 2
    refine this.congr_deriv ?_
    push_cast; ring
  have := (h.exp).div_const √(2 * π)
  refine this.congr_deriv ?_
  ring

theorem phi_contDiff : ContDiff ℝ ⊤ phi := by
  unfold phi
  fun_prop

theorem iter_next (n : ℕ) (p : List ℝ) (h : ∀ t, iteratedDeriv n phi t = peval p t * phi t) (t : ℝ) :
    iteratedDeriv (n + 1) phi t = peval (nextPoly p) t * phi t := by
  rw [iteratedDeriv_succ, show iteratedDeriv n phi = fun t => peval p t * phi t from funext h]
  rw [((der1_hasDerivAt p t).fun_mul (phi_hasDerivAt t)).deriv, peval_nextPoly]
  ring

theorem iter_derivPolys : ∀ (m n : ℕ) (p : List ℝ), (∀ t, iteratedDeriv n phi t = peval p t * phi t) →
    ∀ (i : ℕ) (q : List ℝ), (derivPolys m p)[i]? = some q → ∀ t, iteratedDeriv (n + 2 * i) phi t = peval q t * phi t
  | 0, n, p, h, i, q, hq, t => by
    rcases i with _ | i
    · simp [derivPolys] at hq
      rw [← hq]; exact h t
    · simp [derivPolys] at hq
  | m + 1, n, p, h, i, q, hq, t => by
    rcases i with _ | i
    · simp [derivPolys] at hq
      rw [← hq]; exact h t
    · simp only [derivPolys, List.getElem?_cons_succ] at hq
      have h2 := iter_derivPolys m (n + 2) (nextPoly (nextPoly p)) (iter_next (n + 1) _ (iter_next n p h)) i q hq t
      rw [show n + 2 * (i + 1) = n + 2 + 2 * i by ring]
      exact h2

theorem derivPolys_length (m : ℕ) (p : List ℝ) : (derivPolys m p).length = m + 1 := by
  induction m generalizing p with
  | zero => rfl
  | succ m ih => simp [derivPolys, ih]

theorem iter_four (t : ℝ) : iteratedDeriv 4 phi t = peval [1, 0, -6, 0, 3] t * phi t := by
  have h0 : ∀ t, iteratedDeriv 0 phi t = peval [1] t * phi t := fun t => by simp [peval, iteratedDeriv_zero]
  have h4 := iter_next 3 _ (iter_next 2 _ (iter_next 1 _ (iter_next 0 _ h0)))
  rw [h4 t]
  congr 1
  norm_num [nextPoly, polyadd, der1, List.range_succ, List.replicate_succ, peval]
  try ring

theorem phi_eq (t : ℝ) : exp (-(1 / 2) * t ^ 2) / √(2 * π) = phi t := by
  unfold phi
  congr 2
  ring

theorem deriv4_get (t : ℝ) (numout i : ℕ) (hi : i < numout) :
    (deriv4 t numout)[i]? = some (iteratedDeriv (4 + 2 * i) phi t) := by
  rw [deriv4, List.getElem?_map]
  have hl : i < (derivPolys (numout - 1) [1, 0, -6, 0, 3]).length := by
    rw [derivPolys_length]; omega
  rw [List.getElem?_eq_getElem hl, Option.map_some, phi_eq]
  rw [iter_derivPolys (numout - 1) 4 _ iter_four i _ (List.getElem?_eq_getElem hl) t]

/-! ### psi -/

open Polynomial in
theorem herm_deriv (n : ℕ) : derivative (hermite (n + 1)) = (n + 1 : ℤ[X]) * hermite n := by
  induction n with
  | zero => simp [hermite_succ]
  | succ n ih =>
    rw [hermite_succ (n + 1), derivative_sub, derivative_mul, derivative_X, ih, derivative_mul]
    have h1 : derivative (hermite n) = X * hermite n - hermite (n + 1) := by rw [hermite_succ]; ring
    rw [h1]
    have h2 : derivative ((n : ℤ[X]) + 1) = 0 := by
      rw [derivative_add, derivative_natCast, derivative_one, add_zero]
    rw [h2]
    push_cast
    ring

open Polynomial in
/-- Hermite polynomial with real coefficients. -/
noncomputable def hr (n : ℕ) : ℝ[X] := (hermite n).map (Int.castRingHom ℝ)

open Polynomial in
theorem hr_succ (n : ℕ) : hr (n + 1) = X * hr n - derivative (hr n) := by
  simp only [hr]
  rw [hermite_succ, Polynomial.map_sub, Polynomial.map_mul, Polynomial.map_X, derivative_map]

open Polynomial in
theorem hr_deriv (n : ℕ) : derivative (hr (n + 1)) = C ((n : ℝ) + 1) * hr n := by
  simp only [hr]
  rw [derivative_map, herm_deriv, Polynomial.map_mul]
  simp

open Polynomial in
theorem her_rec (n : ℕ) : Quad.herLin (hr (n + 2)) = -((n : ℝ) + 1) / 2 * Quad.herLin (hr n) := by
  have hp := Quad.herLin_parts (hr (n + 1))
  rw [hr_succ (n + 1), map_sub]
  have e : C 2 * X * hr (n + 1) = (2 : ℝ) • (X * hr (n + 1)) := by rw [smul_eq_C_mul]; ring
  rw [e, map_smul, smul_eq_mul] at hp
  have hd : Quad.herLin (derivative (hr (n + 1))) = ((n : ℝ) + 1) * Quad.herLin (hr n) := by
    rw [hr_deriv, ← smul_eq_C_mul, map_smul, smul_eq_mul]
  rw [hd] at hp
  rw [hd]
  linarith

open Polynomial in
theorem her_even (m : ℕ) : Quad.herLin (hr (2 * m)) * m.factorial * 4 ^ m = (-1) ^ m * (2 * m).factorial * √π := by
  induction m with
  | zero =>
    simp only [hr, mul_zero, hermite_zero]
    rw [Quad.herLin_apply]
    have := integral_gaussian 1
    simp at this ⊢
    exact this
  | succ m ih =>
    rw [show 2 * (m + 1) = 2 * m + 2 by ring, her_rec, Nat.factorial_succ, Nat.factorial_succ (2 * m + 1),
      Nat.factorial_succ (2 * m)]
    push_cast
    have := ih
    linear_combination (-(2 * (m : ℝ) + 1) * (2 * m + 2)) * ih

/-- The normal density with standard deviation `s`. -/
noncomputable def gaussDensity (s x : ℝ) : ℝ := exp (-(x / s) ^ 2 / 2) / (s * √(2 * π))

open Polynomial in
theorem iter_phi (n : ℕ) (x : ℝ) : iteratedDeriv n phi x = (-1) ^ n * (hr n).eval x * phi x := by
  induction n generalizing x with
  | zero => simp [hr, iteratedDeriv_zero]
  | succ n ih =>
    rw [iteratedDeriv_succ, show iteratedDeriv n phi = fun t => (-1) ^ n * (hr n).eval t * phi t from funext ih]
    rw [((((hr n).hasDerivAt x).const_mul ((-1) ^ n)).fun_mul (phi_hasDerivAt x)).deriv, hr_succ, eval_sub, eval_mul,
      eval_X]
    ring

theorem gaussDensity_eq (s : ℝ) : gaussDensity s = fun x => s⁻¹ * phi (s⁻¹ * x) := by
  funext x
  unfold gaussDensity phi
  rw [show x / s = s⁻¹ * x by ring]
  rw [div_mul_eq_div_div_swap, div_eq_inv_mul _ s]

theorem phi_sq (u : ℝ) : phi u * phi u = exp (-u ^ 2) / (2 * π) := by
  unfold phi
  rw [div_mul_div_comm, mul_self_sqrt (by positivity), ← exp_add]
  congr 2
  ring

theorem prod_Ico_fact (m n : ℕ) (h : m ≤ n) :
    (∏ k ∈ Finset.Ico (m + 1) (n + 1), (k : ℝ)) * m.factorial = n.factorial := by
  induction n, h using Nat.le_induction with
  | base => simp
  | succ n hmn ih =>
    rw [Finset.prod_Ico_succ_top (by omega), Nat.factorial_succ]
    push_cast at ih ⊢
    rw [← ih]; ring

theorem psi_integral (m : ℕ) (s : ℝ) (hs : 0 < s) :
    ∫ x, iteratedDeriv (2 * m) (gaussDensity s) x * gaussDensity s x = psi (2 * m) s := by
  have h1 : ∀ x, iteratedDeriv (2 * m) (gaussDensity s) x * gaussDensity s x
      = (s⁻¹) ^ (2 * m + 2) / (2 * π) * (fun u => (hr (2 * m)).eval u * exp (-u ^ 2)) (s⁻¹ * x) := by
    intro x
    rw [gaussDensity_eq, iteratedDeriv_const_mul_field,
      iteratedDeriv_comp_const_mul (phi_contDiff.of_le le_top) s⁻¹]
    simp only
    rw [iter_phi, Even.neg_one_pow ⟨m, by ring⟩]
    have := phi_sq (s⁻¹ * x)
    linear_combination (s⁻¹ ^ (2 * m + 2) * (hr (2 * m)).eval (s⁻¹ * x)) * this
  rw [integral_congr_ae (ae_of_all _ h1), integral_const_mul,
    Measure.integral_comp_mul_left (fun u => (hr (2 * m)).eval u * exp (-u ^ 2)) s⁻¹, ← Quad.herLin_apply, inv_inv,
    abs_of_pos hs, smul_eq_mul]
  have he := her_even m
  rw [psi, show 2 * m / 2 = m by omega]
  have hf := prod_Ico_fact m (2 * m) (by omega)
  have hm : (m.factorial : ℝ) ≠ 0 := by exact_mod_cast m.factorial_ne_zero
  have hpi : √π * √π = π := mul_self_sqrt pi_pos.le
  have hq : √π ≠ 0 := (sqrt_pos.mpr pi_pos).ne'
  generalize Quad.herLin (hr (2 * m)) = L at *
  generalize (∏ k ∈ Finset.Ico (m + 1) (2 * m + 1), (k : ℝ)) = Q at *
  rw [← hf] at he
  have he2 : L * 4 ^ m = (-1) ^ m * Q * √π := by
    apply mul_right_cancel₀ hm
    linear_combination he
  generalize √π = q at *
  rw [inv_pow, ← hpi]
  rw [show (2 * s) ^ (2 * m + 1) = 4 ^ m * 2 * s ^ (2 * m + 1) by rw [mul_pow, pow_succ 2, pow_mul]; norm_num]
  field_simp
  linear_combination (s ^ (2 * m + 2)) * he2

end Wafo.Kde
