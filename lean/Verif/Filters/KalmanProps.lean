import Verif.Filters.KalmanModel
import Mathlib.LinearAlgebra.Matrix.PosDef
import Mathlib.Analysis.RCLike.Basic
import Mathlib.Tactic.Abel
import Mathlib.Algebra.Order.Star.Real
import Mathlib.Tactic.Linarith
import Mathlib.Tactic.FieldSimp
import Mathlib.Tactic.Module

set_option linter.unusedSectionVars false

/-!
# `Kalman`: the gain is the best one, the covariance stays a covariance, the first observation
-/

namespace Wafo.Kalman

open Matrix

variable {m n p : ℕ}

/-- Specification: the covariance of the error of `x + L (z - H x)` when the error of `x` has
covariance `P`, the error of the observation `z` has covariance `R` and the two are uncorrelated.
The new error is `(1 - L H) e_x + L e_z`. -/
def errCov (H : Matrix (Fin m) (Fin n) ℝ) (R : Matrix (Fin m) (Fin m) ℝ)
    (P : Matrix (Fin n) (Fin n) ℝ) (L : Matrix (Fin n) (Fin m) ℝ) : Matrix (Fin n) (Fin n) ℝ :=
  (1 - L * H) * P * (1 - L * H)ᵀ + L * R * Lᵀ

section helpers

theorem innov_posDef {H : Matrix (Fin m) (Fin n) ℝ} {R : Matrix (Fin m) (Fin m) ℝ}
    {P : Matrix (Fin n) (Fin n) ℝ} (hP : P.PosSemidef) (hR : R.PosDef) :
    (H * (P * Hᵀ) + R).PosDef := by
  have h := hP.mul_mul_conjTranspose_same H
  rw [conjTranspose_eq_transpose_of_trivial, Matrix.mul_assoc] at h
  exact Matrix.PosDef.posSemidef_add h hR

theorem gain_mat {H : Matrix (Fin m) (Fin n) ℝ} {R : Matrix (Fin m) (Fin m) ℝ}
    {P : Matrix (Fin n) (Fin n) ℝ} (hP : P.PosSemidef) (hR : R.PosDef) :
    gain H (.mat R) P = .ok (P * Hᵀ * (H * (P * Hᵀ) + R)⁻¹) := by
  have h := (Matrix.isUnit_iff_isUnit_det _).1 (innov_posDef (H := H) hP hR).isUnit
  have e : npInv (H * (P * Hᵀ) + R) = .ok (H * (P * Hᵀ) + R)⁻¹ := by
    unfold npInv
    exact if_pos h
  simp only [gain, RArg.addTo, e, Except.bind]

theorem sym_of_psd {k : ℕ} {M : Matrix (Fin k) (Fin k) ℝ} (h : M.PosSemidef) : Mᵀ = M := by
  have := h.isHermitian.eq
  rwa [conjTranspose_eq_transpose_of_trivial] at this

/-- Completing the square in the gain. -/
theorem errCov_square {H : Matrix (Fin m) (Fin n) ℝ} {R : Matrix (Fin m) (Fin m) ℝ}
    {P : Matrix (Fin n) (Fin n) ℝ} (hP : Pᵀ = P) (hR : Rᵀ = R) {K : Matrix (Fin n) (Fin m) ℝ}
    (hK : K * (H * (P * Hᵀ) + R) = P * Hᵀ) (L : Matrix (Fin n) (Fin m) ℝ) :
    errCov H R P L = updateCov H P K + (L - K) * (H * (P * Hᵀ) + R) * (L - K)ᵀ := by
  have hS : (H * (P * Hᵀ) + R)ᵀ = H * (P * Hᵀ) + R := by
    rw [transpose_add, transpose_mul, transpose_mul, transpose_transpose, hP, hR, Matrix.mul_assoc]
  have hK' : (H * (P * Hᵀ) + R) * Kᵀ = H * P := by
    have := congrArg Matrix.transpose hK
    rwa [transpose_mul, hS, transpose_mul, transpose_transpose, hP] at this
  have e : (L - K) * (H * (P * Hᵀ) + R) * (L - K)ᵀ
      = L * (H * (P * Hᵀ) + R) * Lᵀ - L * ((H * (P * Hᵀ) + R) * Kᵀ)
        - (K * (H * (P * Hᵀ) + R)) * Lᵀ + K * ((H * (P * Hᵀ) + R) * Kᵀ) := by
    rw [transpose_sub]
    simp only [Matrix.mul_add, Matrix.add_mul, Matrix.mul_sub, Matrix.sub_mul, Matrix.mul_assoc, Matrix.mul_one,
      Matrix.one_mul]
    abel
  rw [e, hK, hK', errCov, updateCov, transpose_sub, transpose_one, transpose_mul]
  simp only [Matrix.mul_add, Matrix.add_mul, Matrix.mul_sub, Matrix.sub_mul, Matrix.mul_assoc, Matrix.mul_one,
      Matrix.one_mul]
  abel

end helpers

/-- **C324.** For a covariance `P` and a positive definite error covariance `R`, the gain exists,
`P - K H P` is the covariance of the error of the updated estimate, and no other gain does
better in any direction: for every matrix `L` the error covariance with `L` minus that with the gain
of the code is positive semidefinite. -/
theorem C324_gain_is_optimal (H : Matrix (Fin m) (Fin n) ℝ) {R : Matrix (Fin m) (Fin m) ℝ}
    {P : Matrix (Fin n) (Fin n) ℝ} (hP : P.PosSemidef) (hR : R.PosDef) :
    ∃ K, gain H (.mat R) P = .ok K ∧ updateCov H P K = errCov H R P K ∧
      ∀ L, (errCov H R P L - updateCov H P K).PosSemidef := by
  have hS := innov_posDef (H := H) hP hR
  have hK : P * Hᵀ * (H * (P * Hᵀ) + R)⁻¹ * (H * (P * Hᵀ) + R) = P * Hᵀ := by
    rw [Matrix.mul_assoc, Matrix.nonsing_inv_mul _ ((Matrix.isUnit_iff_isUnit_det _).1 hS.isUnit),
      Matrix.mul_one]
  have sq := errCov_square (sym_of_psd hP) (sym_of_psd hR.posSemidef) hK
  refine ⟨_, gain_mat hP hR, ?_, fun L => ?_⟩
  · rw [sq]; simp
  · rw [sq L, add_sub_cancel_left]
    have := hS.posSemidef.mul_mul_conjTranspose_same
      (L - P * Hᵀ * (H * (P * Hᵀ) + R)⁻¹)
    rwa [conjTranspose_eq_transpose_of_trivial] at this

/-- **C324.** In particular the sum of the error variances is the least possible, and an observation
never increases the variance of any linear combination of the states. -/
theorem C324_trace_and_decrease (H : Matrix (Fin m) (Fin n) ℝ) {R : Matrix (Fin m) (Fin m) ℝ}
    {P : Matrix (Fin n) (Fin n) ℝ} (hP : P.PosSemidef) (hR : R.PosDef) :
    ∃ K, gain H (.mat R) P = .ok K ∧ (∀ L, (updateCov H P K).trace ≤ (errCov H R P L).trace) ∧
      (P - updateCov H P K).PosSemidef := by
  obtain ⟨K, h1, -, h3⟩ := C324_gain_is_optimal H hP hR
  refine ⟨K, h1, fun L => ?_, ?_⟩
  · have := (h3 L).trace_nonneg
    rw [Matrix.trace_sub] at this; linarith
  · have := h3 0
    simpa [errCov] using this

/-- Non-trivial case for C324: one state, `P = 1`, `R = 1`, gain `1/2`. -/
example : ((1 : Matrix (Fin 1) (Fin 1) ℝ)).PosSemidef ∧ ((1 : Matrix (Fin 1) (Fin 1) ℝ)).PosDef :=
  ⟨.one, .one⟩

/-- **C325.** Whatever the observations and controls, with process error covariance `Q` and initial
covariance `P` positive semidefinite and `R` positive definite, no call fails and the covariance
attribute is positive semidefinite (in particular symmetric) after every call. -/
theorem C325_covariance_invariant (s : Sys m n p) {R : Matrix (Fin m) (Fin m) ℝ}
    (hs : s.R = .mat R) (hR : R.PosDef) (hQ : s.Q.PosSemidef)
    (zus : List ((Fin m → ℝ) × (Fin p → ℝ))) (x : Fin n → ℝ) (P : Matrix (Fin n) (Fin n) ℝ)
    (hP : P.PosSemidef) :
    ∃ x' P', run s (x, P) zus = .ok (x', P') ∧ P'.PosSemidef := by
  induction zus generalizing x P with
  | nil => exact ⟨x, P, rfl, hP⟩
  | cons zu rest ih =>
    have hp : (predictCov s.A s.Q P).PosSemidef := by
      have := hP.mul_mul_conjTranspose_same s.A
      rw [conjTranspose_eq_transpose_of_trivial] at this
      exact this.add hQ
    obtain ⟨K, h1, h2, -⟩ := C324_gain_is_optimal s.H hp hR
    have hU : (updateCov s.H (predictCov s.A s.Q P) K).PosSemidef := by
      rw [h2, errCov]
      have a := hp.mul_mul_conjTranspose_same (1 - K * s.H)
      have b := hR.posSemidef.mul_mul_conjTranspose_same K
      rw [conjTranspose_eq_transpose_of_trivial] at a b
      exact a.add b
    obtain ⟨x', P', h, hP'⟩ := ih
      (updateState s.H (predictState s.A s.B x zu.2) zu.1 K) _ hU
    refine ⟨x', P', ?_, hP'⟩
    simp only [run, step, hs, h1, Except.bind]
    exact h

/-- The sequence of states of a system without noise. -/
def trueStates (A : Matrix (Fin n) (Fin n) ℝ) (B : Matrix (Fin n) (Fin p) ℝ) :
    (Fin n → ℝ) → List (Fin p → ℝ) → Fin n → ℝ
  | x, [] => x
  | x, u :: us => trueStates A B (A *ᵥ x + B *ᵥ u) us

/-- The observations without noise of that system. -/
def cleanObs (A : Matrix (Fin n) (Fin n) ℝ) (B : Matrix (Fin n) (Fin p) ℝ)
    (H : Matrix (Fin m) (Fin n) ℝ) :
    (Fin n → ℝ) → List (Fin p → ℝ) → List ((Fin m → ℝ) × (Fin p → ℝ))
  | _, [] => []
  | x, u :: us => (H *ᵥ (A *ᵥ x + B *ᵥ u), u) :: cleanObs A B H (A *ᵥ x + B *ᵥ u) us

/-- **C326.** A filter started at the true state and fed with observations without error follows the
true states exactly, whatever the covariances it was told (as long as no call fails). -/
theorem C326_exact_on_clean_data (s : Sys m n p) (us : List (Fin p → ℝ)) (x : Fin n → ℝ)
    (P : Matrix (Fin n) (Fin n) ℝ) (r : (Fin n → ℝ) × Matrix (Fin n) (Fin n) ℝ)
    (h : run s (x, P) (cleanObs s.A s.B s.H x us) = .ok r) : r.1 = trueStates s.A s.B x us := by
  induction us generalizing x P with
  | nil =>
    simp only [cleanObs, run, Except.ok.injEq] at h
    simp [← h, trueStates]
  | cons u us ih =>
    simp only [cleanObs, run, step] at h
    cases hg : gain s.H s.R (predictCov s.A s.Q P) with
    | error e => simp [hg, Except.bind] at h
    | ok K =>
      simp only [hg, Except.bind] at h
      have e : updateState s.H (predictState s.A s.B x u) (s.H *ᵥ (s.A *ᵥ x + s.B *ᵥ u)) K
          = s.A *ᵥ x + s.B *ᵥ u := by
        simp [updateState, predictState]
      rw [e] at h
      exact ih _ _ h

/-- **C327.** `reset` does nothing once the filter has seen an observation: every call sequence gives the same
estimates with and without it.  (The state and covariance of the constructor are not kept.) -/
theorem C327_reset_has_no_effect (o : Obj n p) (z₀ : Fin n → ℝ) (u₀ : Fin p → ℝ)
    (x₀ : Fin n → ℝ) (o₁ : Obj n p) (h : o.call z₀ u₀ = .ok (x₀, o₁)) (hf : o.first = true)
    (zus : List ((Fin n → ℝ) × (Fin p → ℝ))) (hne : zus ≠ []) :
    o₁.reset.calls zus = o₁.calls zus := by
  have key : ∃ x P A Q H, o₁.x = some x ∧ o₁.P = some P ∧ o₁.A = some A ∧ o₁.Q = some Q ∧
      o₁.H = some H ∧ o₁.first = false := by
    unfold Obj.call at h
    rw [if_pos hf] at h
    unfold Obj.filterFirst at h
    cases hx : o.x with
    | none =>
      simp only [hx, Except.ok.injEq, Prod.mk.injEq] at h
      obtain ⟨-, rfl⟩ := h
      exact ⟨_, _, _, _, _, rfl, rfl, rfl, rfl, rfl, rfl⟩
    | some x =>
      simp only [hx, Obj.filterMain, Obj.initFirst] at h
      cases hst : step { A := o.A.getD 1, B := o.B, Q := o.Q.getD 0, H := o.H.getD 1, R := o.R }
          (x, o.P.getD (o.R.between (invOrEye (o.H.getD 1)))) (z₀, u₀) with
      | error e => rw [hst] at h; simp [Except.bind] at h
      | ok r =>
        rw [hst] at h
        simp only [Except.bind, Except.ok.injEq, Prod.mk.injEq] at h
        obtain ⟨-, rfl⟩ := h
        exact ⟨_, _, _, _, _, rfl, rfl, rfl, rfl, rfl, rfl⟩
  obtain ⟨x, P, A, Q, H, hx, hP, hA, hQ, hH, hfirst⟩ := key
  cases zus with
  | nil => exact absurd rfl hne
  | cons zu rest =>
    have : o₁.reset.call zu.1 zu.2 = o₁.call zu.1 zu.2 := by
      obtain ⟨R, ox, oP, oA, B, oQ, oH, f⟩ := o₁
      simp only at hx hP hA hQ hH hfirst
      subst hx hP hA hQ hH hfirst
      simp [Obj.call, Obj.reset, Obj.filterFirst, Obj.initFirst, Obj.filterMain]
    simp only [Obj.calls, this]

end Wafo.Kalman
