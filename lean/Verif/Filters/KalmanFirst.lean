import Verif.Filters.KalmanProps
import Mathlib.Topology.Instances.Matrix
import Mathlib.Topology.Algebra.Order.Field
import Mathlib.Topology.Instances.Real.Lemmas
import Mathlib.LinearAlgebra.Matrix.Notation
import Mathlib.Tactic.FinCases

set_option linter.unusedSectionVars false

/-!
# `Kalman`: the start from the first observation, averages, and what a number for `R` means
-/

namespace Wafo.Kalman

open Matrix Filter Topology

variable {n p : ℕ}

section helpers

theorem npInv_of_unit {M : Matrix (Fin n) (Fin n) ℝ} (h : IsUnit M.det) : npInv M = .ok M⁻¹ := by
  unfold npInv
  exact if_pos h

theorem npInv_of_not {M : Matrix (Fin n) (Fin n) ℝ} (h : ¬ IsUnit M.det) :
    npInv M = .error .valueError := by
  unfold npInv
  exact if_neg h

theorem invOrEye_of_unit {M : Matrix (Fin n) (Fin n) ℝ} (h : IsUnit M.det) : invOrEye M = M⁻¹ := by
  simp [invOrEye, npInv_of_unit h]

/-- The gain for an invertible observation matrix. -/
theorem gain_formula {H R P : Matrix (Fin n) (Fin n) ℝ} (hH : IsUnit H.det) (hP : P.PosSemidef)
    (hR : R.PosDef) :
    P * Hᵀ * (H * (P * Hᵀ) + R)⁻¹ = H⁻¹ - H⁻¹ * R * (H * (P * Hᵀ) + R)⁻¹ := by
  have hS := (Matrix.isUnit_iff_isUnit_det _).1 (innov_posDef (H := H) hP hR).isUnit
  set S := H * (P * Hᵀ) + R with hSdef
  have e : P * Hᵀ = H⁻¹ * (S - R) := by
    rw [hSdef, add_sub_cancel_right, ← Matrix.mul_assoc, Matrix.nonsing_inv_mul _ hH, Matrix.one_mul]
  rw [e, Matrix.mul_sub, Matrix.sub_mul, Matrix.mul_assoc H⁻¹ S, Matrix.mul_nonsing_inv _ hS,
    Matrix.mul_one]

theorem updateState_formula {H R P : Matrix (Fin n) (Fin n) ℝ} (hH : IsUnit H.det)
    (hP : P.PosSemidef) (hR : R.PosDef) (x z : Fin n → ℝ) :
    updateState H x z (P * Hᵀ * (H * (P * Hᵀ) + R)⁻¹)
      = H⁻¹ *ᵥ z - (H⁻¹ * R * (H * (P * Hᵀ) + R)⁻¹) *ᵥ (z - H *ᵥ x) := by
  rw [gain_formula hH hP hR, updateState, Matrix.sub_mulVec]
  have : H⁻¹ *ᵥ (z - H *ᵥ x) = H⁻¹ *ᵥ z - x := by
    rw [Matrix.mulVec_sub, Matrix.mulVec_mulVec, Matrix.nonsing_inv_mul _ hH, Matrix.one_mulVec]
  rw [this]; abel

theorem updateCov_formula {H R P : Matrix (Fin n) (Fin n) ℝ} (hH : IsUnit H.det)
    (hP : P.PosSemidef) (hR : R.PosDef) :
    updateCov H P (P * Hᵀ * (H * (P * Hᵀ) + R)⁻¹)
      = H⁻¹ * R * H⁻¹ᵀ - H⁻¹ * R * (H * (P * Hᵀ) + R)⁻¹ * R * H⁻¹ᵀ := by
  have hS := (Matrix.isUnit_iff_isUnit_det _).1 (innov_posDef (H := H) hP hR).isUnit
  rw [gain_formula hH hP hR]
  set S := H * (P * Hᵀ) + R with hSdef
  have hHt : Hᵀ * H⁻¹ᵀ = 1 := by
    rw [← Matrix.transpose_mul, Matrix.nonsing_inv_mul _ hH, Matrix.transpose_one]
  have e : H * P = (S - R) * H⁻¹ᵀ := by
    rw [hSdef, add_sub_cancel_right, Matrix.mul_assoc, Matrix.mul_assoc, hHt, Matrix.mul_one]
  have e2 : S⁻¹ * (H * P) = H⁻¹ᵀ - S⁻¹ * R * H⁻¹ᵀ := by
    rw [e, ← Matrix.mul_assoc, Matrix.mul_sub, Matrix.nonsing_inv_mul _ hS, Matrix.sub_mul,
      Matrix.one_mul]
  rw [updateCov, Matrix.sub_mul, ← Matrix.mul_assoc H⁻¹ H P, Matrix.nonsing_inv_mul _ hH,
    Matrix.one_mul, Matrix.mul_assoc (H⁻¹ * R), e2, Matrix.mul_sub]
  simp only [Matrix.mul_assoc]
  abel

/-- The inverse of `c M + R` tends to zero. -/
theorem tendsto_inv_smul {M R : Matrix (Fin n) (Fin n) ℝ} (hM : IsUnit M.det)
    (hu : ∀ c : ℝ, 0 < c → IsUnit (c • M + R).det) :
    Tendsto (fun c : ℝ => (c • M + R)⁻¹) atTop (𝓝 0) := by
  have hc : Continuous fun t : ℝ => M + t • R :=
    continuous_const.add (continuous_id.smul continuous_const)
  have h0 : ContinuousAt (fun t : ℝ => (M + t • R)⁻¹) 0 := by
    simp only [Matrix.inv_def, Ring.inverse_eq_inv']
    refine ContinuousAt.smul (ContinuousAt.inv₀ hc.matrix_det.continuousAt ?_)
      hc.matrix_adjugate.continuousAt
    simpa using hM.ne_zero
  have h1 : Tendsto (fun c : ℝ => (M + c⁻¹ • R)⁻¹) atTop (𝓝 ((M + (0 : ℝ) • R)⁻¹)) :=
    h0.tendsto.comp tendsto_inv_atTop_zero
  have h2 : Tendsto (fun c : ℝ => c⁻¹ • (M + c⁻¹ • R)⁻¹) atTop
      (𝓝 ((0 : ℝ) • (M + (0 : ℝ) • R)⁻¹)) := tendsto_inv_atTop_zero.smul h1
  rw [zero_smul] at h2
  refine h2.congr' ?_
  filter_upwards [eventually_gt_atTop (0 : ℝ)] with c hc0
  have e : c • M + R = c • (M + c⁻¹ • R) := by
    rw [smul_add, smul_smul, mul_inv_cancel₀ hc0.ne', one_smul]
  have hd : IsUnit (M + c⁻¹ • R).det := by
    have := hu c hc0
    rw [e, Matrix.det_smul] at this
    exact isUnit_of_mul_isUnit_right this
  symm
  apply Matrix.inv_eq_right_inv
  rw [e, Matrix.smul_mul, Matrix.mul_smul, smul_smul, mul_inv_cancel₀ hc0.ne', one_smul,
    Matrix.mul_nonsing_inv _ hd]

end helpers

/-- **C328.** Without a state estimate and covariance, and with an invertible observation matrix, the
first call returns the state that reproduces the observation, and stores a covariance which
gives back `R` for the observation. -/
theorem C328_first_observation (R H : Matrix (Fin n) (Fin n) ℝ) (hH : IsUnit H.det)
    (A Q : Option (Matrix (Fin n) (Fin n) ℝ)) (B : Matrix (Fin n) (Fin p) ℝ) (z : Fin n → ℝ)
    (u : Fin p → ℝ) :
    ∃ x P o', (Obj.new (.mat R) none none A B Q (some H)).call z u = .ok (x, o') ∧
      o'.x = some x ∧ o'.P = some P ∧ H *ᵥ x = z ∧ H * P * Hᵀ = R := by
  refine ⟨H⁻¹ *ᵥ z, H⁻¹ * R * H⁻¹ᵀ, _, by
    simp [Obj.new, Obj.reset, Obj.call, Obj.filterFirst, Obj.initFirst, RArg.between,
      invOrEye_of_unit hH]
    rfl, rfl, rfl, ?_, ?_⟩
  · rw [Matrix.mulVec_mulVec, Matrix.mul_nonsing_inv _ hH, Matrix.one_mulVec]
  · have hHt : H⁻¹ᵀ * Hᵀ = 1 := by
      rw [← Matrix.transpose_mul, Matrix.mul_nonsing_inv _ hH, Matrix.transpose_one]
    rw [Matrix.mul_assoc, Matrix.mul_assoc (H⁻¹ * R), hHt, Matrix.mul_one, ← Matrix.mul_assoc,
      Matrix.mul_nonsing_inv _ hH, Matrix.one_mul]

/-- **C328.** "This is mathematically equivalent to setting the initial state estimate covariance to
infinity": the update from any prior estimate `x` with covariance `c P₀` tends, as `c` grows,
to the state `H⁻¹ z` and the covariance `H⁻¹ R H⁻ᵀ` that the first call uses. -/
theorem C328_is_infinite_prior (H : Matrix (Fin n) (Fin n) ℝ) {R P₀ : Matrix (Fin n) (Fin n) ℝ}
    (hH : IsUnit H.det) (hR : R.PosDef) (hP : P₀.PosDef) (x z : Fin n → ℝ) :
    ∃ K : ℝ → Matrix (Fin n) (Fin n) ℝ,
      (∀ c, 0 ≤ c → gain H (.mat R) (c • P₀) = .ok (K c)) ∧
      Tendsto (fun c => updateState H x z (K c)) atTop (𝓝 (H⁻¹ *ᵥ z)) ∧
      Tendsto (fun c => updateCov H (c • P₀) (K c)) atTop (𝓝 (H⁻¹ * R * H⁻¹ᵀ)) := by
  have psd : ∀ c : ℝ, 0 ≤ c → (c • P₀).PosSemidef := fun c hc => hP.posSemidef.smul hc
  have eS : ∀ c : ℝ, H * (c • P₀ * Hᵀ) + R = c • (H * (P₀ * Hᵀ)) + R := fun c => by
    rw [Matrix.smul_mul, Matrix.mul_smul]
  have hM : IsUnit (H * (P₀ * Hᵀ)).det := by
    rw [Matrix.det_mul, Matrix.det_mul, Matrix.det_transpose]
    exact hH.mul (((Matrix.isUnit_iff_isUnit_det _).1 hP.isUnit).mul hH)
  have hu : ∀ c : ℝ, 0 < c → IsUnit (c • (H * (P₀ * Hᵀ)) + R).det := fun c hc => by
    rw [← eS]
    exact (Matrix.isUnit_iff_isUnit_det _).1 (innov_posDef (psd c hc.le) hR).isUnit
  have hlim := tendsto_inv_smul hM hu
  refine ⟨fun c => c • P₀ * Hᵀ * (H * (c • P₀ * Hᵀ) + R)⁻¹,
    fun c hc => gain_mat (psd c hc) hR, ?_, ?_⟩
  · have hcont : Continuous fun W : Matrix (Fin n) (Fin n) ℝ =>
        H⁻¹ *ᵥ z - (H⁻¹ * R * W) *ᵥ (z - H *ᵥ x) :=
      continuous_const.sub ((continuous_const.matrix_mul continuous_id).matrix_mulVec
        continuous_const)
    have h := (hcont.tendsto 0).comp hlim
    simp only [Matrix.mul_zero, Matrix.zero_mulVec, sub_zero] at h
    refine h.congr' ?_
    filter_upwards [eventually_ge_atTop (0 : ℝ)] with c hc
    rw [updateState_formula hH (psd c hc) hR, eS]
    rfl
  · have hcont : Continuous fun W : Matrix (Fin n) (Fin n) ℝ =>
        H⁻¹ * R * H⁻¹ᵀ - H⁻¹ * R * W * R * H⁻¹ᵀ :=
      continuous_const.sub (((continuous_const.matrix_mul continuous_id).matrix_mul
        continuous_const).matrix_mul continuous_const)
    have h := (hcont.tendsto 0).comp hlim
    simp only [Matrix.mul_zero, Matrix.zero_mul, sub_zero] at h
    refine h.congr' ?_
    filter_upwards [eventually_ge_atTop (0 : ℝ)] with c hc
    rw [updateCov_formula hH (psd c hc) hR, eS]
    rfl

/-- Non-trivial case for C328: a doubled observation. -/
example : IsUnit (!![(2 : ℝ)]).det := by simp

/-- One call of a filter which averages. -/
theorem average_step {R : Matrix (Fin n) (Fin n) ℝ} (hR : R.PosDef) (k : ℕ) (s z : Fin n → ℝ)
    (u : Fin p → ℝ) :
    step ({ A := 1, B := 0, Q := 0, H := 1, R := .mat R } : Sys n n p)
      (((k + 1 : ℕ) : ℝ)⁻¹ • s, ((k + 1 : ℕ) : ℝ)⁻¹ • R) (z, u)
      = .ok (((k + 2 : ℕ) : ℝ)⁻¹ • (s + z), ((k + 2 : ℕ) : ℝ)⁻¹ • R) := by
  have hk : (0 : ℝ) < ((k + 1 : ℕ) : ℝ) := by positivity
  have hk2 : (0 : ℝ) < ((k + 2 : ℕ) : ℝ) := by positivity
  have ek : ((k + 2 : ℕ) : ℝ) = ((k + 1 : ℕ) : ℝ) + 1 := by push_cast; ring
  set c : ℝ := ((k + 1 : ℕ) : ℝ) with hc
  have hRu := (Matrix.isUnit_iff_isUnit_det _).1 hR.isUnit
  have hp : (predictCov 1 0 (c⁻¹ • R) : Matrix (Fin n) (Fin n) ℝ) = c⁻¹ • R := by
    simp [predictCov]
  have hg : gain (1 : Matrix (Fin n) (Fin n) ℝ) (.mat R) (c⁻¹ • R)
      = .ok ((c + 1)⁻¹ • (1 : Matrix (Fin n) (Fin n) ℝ)) := by
    rw [gain_mat (hR.posSemidef.smul (inv_nonneg.2 hk.le)) hR]
    congr 1
    have e : (1 * (c⁻¹ • R * (1 : Matrix (Fin n) (Fin n) ℝ)ᵀ) + R)⁻¹ = (c / (c + 1)) • R⁻¹ := by
      apply Matrix.inv_eq_right_inv
      rw [Matrix.transpose_one, Matrix.mul_one, Matrix.one_mul, Matrix.add_mul, Matrix.smul_mul,
        Matrix.mul_smul, Matrix.mul_nonsing_inv _ hRu, smul_smul, ← add_smul]
      have : c⁻¹ * (c / (c + 1)) + c / (c + 1) = 1 := by
        field_simp
        ring
      rw [this, one_smul]
    rw [e, Matrix.transpose_one, Matrix.mul_one, Matrix.smul_mul, Matrix.mul_smul,
      Matrix.mul_nonsing_inv _ hRu, smul_smul]
    congr 1
    field_simp
  simp only [step, hp, hg, Except.bind, predictState, updateState, updateCov, Matrix.one_mulVec,
    Matrix.zero_mulVec, add_zero, Matrix.one_mul, Matrix.smul_mul, Matrix.smul_mulVec, ek]
  congr 2
  · funext i
    simp only [Pi.add_apply, Pi.smul_apply, Pi.sub_apply, smul_eq_mul]
    field_simp
    ring
  · ext i j
    simp only [Matrix.sub_apply, Matrix.smul_apply, smul_eq_mul]
    field_simp
    ring

/-- Later calls of a filter which averages. -/
theorem average_calls {R : Matrix (Fin n) (Fin n) ℝ} (hR : R.PosDef)
    (zs : List (Fin n → ℝ)) (u : Fin p → ℝ) (k : ℕ) (s : Fin n → ℝ) :
    ∃ outs o', (⟨.mat R, some (((k + 1 : ℕ) : ℝ)⁻¹ • s), some (((k + 1 : ℕ) : ℝ)⁻¹ • R), some 1, 0,
        some 0, some 1, false⟩ : Obj n p).calls (zs.map fun z => (z, u)) = .ok (outs, o') ∧
      o'.x = some (((k + 1 + zs.length : ℕ) : ℝ)⁻¹ • (s + zs.sum)) ∧
      o'.P = some (((k + 1 + zs.length : ℕ) : ℝ)⁻¹ • R) := by
  induction zs generalizing k s with
  | nil => exact ⟨_, _, rfl, by simp, by simp⟩
  | cons z rest ih =>
    obtain ⟨outs, o', h, hx, hP⟩ := ih (k + 1) (s + z)
    refine ⟨((k + 2 : ℕ) : ℝ)⁻¹ • (s + z) :: outs, o', ?_, ?_, ?_⟩
    · simp only [List.map_cons, Obj.calls, Obj.call, Bool.false_eq_true, if_false, Obj.filterMain]
      rw [average_step hR]
      simp only [Except.bind]
      rw [h]
    · rw [hx, List.length_cons, List.sum_cons, add_assoc s z]
      congr 3
      push_cast; ring
    · rw [hP, List.length_cons]
      congr 3
      push_cast; ring

/-- **C329.** With everything but the matrix `R` left at its default, the filter averages: after the
observations `zs` the estimate is their mean and its covariance is `R` over their number. -/
theorem C329_default_filter_is_the_mean {R : Matrix (Fin n) (Fin n) ℝ} (hR : R.PosDef)
    (zs : List (Fin n → ℝ)) (hne : zs ≠ []) (u : Fin p → ℝ) :
    ∃ outs o', (Obj.new (.mat R) none none none 0 none none : Obj n p).calls
        (zs.map fun z => (z, u)) = .ok (outs, o') ∧
      o'.x = some ((zs.length : ℝ)⁻¹ • zs.sum) ∧ o'.P = some ((zs.length : ℝ)⁻¹ • R) := by
  cases zs with
  | nil => exact absurd rfl hne
  | cons z rest =>
    obtain ⟨outs, o', h, hx, hP⟩ := average_calls (p := p) hR rest u 0 z
    have hI : invOrEye (1 : Matrix (Fin n) (Fin n) ℝ) = 1 := by
      rw [invOrEye_of_unit (by simp), inv_one]
    refine ⟨z :: outs, o', ?_, ?_, ?_⟩
    · simp only [List.map_cons, Obj.calls]
      have e : (Obj.new (.mat R) none none none 0 none none : Obj n p).call z u
          = .ok (z, ⟨.mat R, some (((0 + 1 : ℕ) : ℝ)⁻¹ • z), some (((0 + 1 : ℕ) : ℝ)⁻¹ • R), some 1, 0,
              some 0, some 1, false⟩) := by
        simp [Obj.new, Obj.reset, Obj.call, Obj.filterFirst, Obj.initFirst, RArg.between, hI]
      rw [e]
      simp only [Except.bind]
      rw [h]
    · rw [hx, List.length_cons, List.sum_cons]
      congr 3
      push_cast; ring
    · rw [hP, List.length_cons]
      congr 3
      push_cast; ring

/-- Non-trivial case for C329. -/
example : (1 : Matrix (Fin 2) (Fin 2) ℝ).PosDef := .one

/-- **C330.** A number for `R` is not the covariance `R I` when more than one quantity is observed:
`np.dot(HI, R)` multiplies by it but `HPH' + R` adds it to every entry.  With `R = 1` and the
observations `(0, 0)` and `(1, 0)` the estimate is `(2/3, -1/3)`: the second state
becomes negative although it was observed to be `0` twice, and with the matrix `R = I` the estimate
is `(1/2, 0)`. -/
theorem C330_scalar_R_refuted :
    (∃ outs o', (Obj.new (.scalar 1) none none none 0 none none : Obj 2 1).calls
        [(![0, 0], ![0]), (![1, 0], ![0])] = .ok (outs, o') ∧ o'.x = some ![2 / 3, -1 / 3]) ∧
    (∃ outs o', (Obj.new (.mat 1) none none none 0 none none : Obj 2 1).calls
        [(![0, 0], ![0]), (![1, 0], ![0])] = .ok (outs, o') ∧ o'.x = some ![1 / 2, 0]) := by
  constructor
  · have hI : invOrEye (1 : Matrix (Fin 2) (Fin 2) ℝ) = 1 := by
      rw [invOrEye_of_unit (by simp), inv_one]
    have e1 : (Obj.new (.scalar 1) none none none 0 none none : Obj 2 1).call ![0, 0] ![0]
        = .ok (![0, 0], ⟨.scalar 1, some ![0, 0], some 1, some 1, 0, some 0, some 1, false⟩) := by
      simp [Obj.new, Obj.reset, Obj.call, Obj.filterFirst, Obj.initFirst, RArg.between, hI]
    have hS : (RArg.scalar 1).addTo (1 * ((1 : Matrix (Fin 2) (Fin 2) ℝ) * 1ᵀ)) = !![2, 1; 1, 2] := by
      ext i j
      fin_cases i <;> fin_cases j <;> simp [RArg.addTo] <;> norm_num
    have hdet : IsUnit (!![(2 : ℝ), 1; 1, 2]).det := by
      rw [Matrix.det_fin_two]; simp; norm_num
    have hinv : (!![(2 : ℝ), 1; 1, 2])⁻¹ = !![2 / 3, -1 / 3; -1 / 3, 2 / 3] := by
      apply Matrix.inv_eq_right_inv
      ext i j
      fin_cases i <;> fin_cases j <;> simp [Matrix.mul_apply, Fin.sum_univ_two] <;> norm_num
    have hg : gain (1 : Matrix (Fin 2) (Fin 2) ℝ) (.scalar 1) 1
        = .ok !![2 / 3, -1 / 3; -1 / 3, 2 / 3] := by
      simp only [gain, hS, npInv_of_unit hdet, hinv, Except.bind]
      simp
    have hp : (predictCov 1 0 1 : Matrix (Fin 2) (Fin 2) ℝ) = 1 := by simp [predictCov]
    have e2 : (⟨.scalar 1, some ![0, 0], some 1, some 1, 0, some 0, some 1, false⟩ : Obj 2 1).call
        ![1, 0] ![0] = .ok (updateState 1 (predictState 1 (0 : Matrix (Fin 2) (Fin 1) ℝ) ![0, 0] ![0])
          ![1, 0] !![2 / 3, -1 / 3; -1 / 3, 2 / 3], ⟨.scalar 1,
          some (updateState 1 (predictState 1 (0 : Matrix (Fin 2) (Fin 1) ℝ) ![0, 0] ![0])
            ![1, 0] !![2 / 3, -1 / 3; -1 / 3, 2 / 3]),
          some (updateCov 1 1 !![2 / 3, -1 / 3; -1 / 3, 2 / 3]), some 1, 0, some 0, some 1, false⟩) := by
      simp only [Obj.call, Bool.false_eq_true, if_false, Obj.filterMain, step, hp, hg, Except.bind]
    refine ⟨_, _, by
      simp only [Obj.calls, e1, Except.bind, e2]
      rfl, ?_⟩
    simp only [Option.some.injEq]
    funext i
    fin_cases i <;> simp [updateState, predictState]
  · obtain ⟨outs, o', h, hx, -⟩ := C329_default_filter_is_the_mean (p := 1)
      (R := (1 : Matrix (Fin 2) (Fin 2) ℝ)) .one [![0, 0], ![1, 0]] (by simp) ![0]
    refine ⟨outs, o', h, ?_⟩
    rw [hx]
    simp only [Option.some.injEq]
    funext i
    fin_cases i <;> simp

/-- **C330.** What remains: with one observed quantity the number `r` is the matrix `(r)`. -/
theorem C330_scalar_R_one_observation_partial {n p : ℕ} (s : Sys 1 n p) (r : ℝ)
    (zus : List ((Fin 1 → ℝ) × (Fin p → ℝ))) (xP : (Fin n → ℝ) × Matrix (Fin n) (Fin n) ℝ) :
    run { s with R := .scalar r } xP zus = run { s with R := .mat !![r] } xP zus := by
  have hadd : ∀ S : Matrix (Fin 1) (Fin 1) ℝ, (RArg.scalar r).addTo S = (RArg.mat !![r]).addTo S := by
    intro S
    ext i j
    fin_cases i; fin_cases j
    simp [RArg.addTo]
  induction zus generalizing xP with
  | nil => rfl
  | cons zu rest ih =>
    have : step { s with R := .scalar r } xP zu = step { s with R := .mat !![r] } xP zu := by
      simp only [step, gain, hadd]
    simp only [run, this, ih]

/-- **C331.** A singular observation matrix does not fail at the start: the observation itself is
taken for the state, and unless `H z = z` that state does not reproduce it. -/
theorem C331_singular_H (R : RArg n) (H : Matrix (Fin n) (Fin n) ℝ) (hH : ¬ IsUnit H.det)
    (P A Q : Option (Matrix (Fin n) (Fin n) ℝ)) (B : Matrix (Fin n) (Fin p) ℝ) (z : Fin n → ℝ)
    (u : Fin p → ℝ) :
    ∃ o', (Obj.new R none P A B Q (some H)).call z u = .ok (z, o') ∧ o'.x = some z := by
  refine ⟨_, by
    simp [Obj.new, Obj.reset, Obj.call, Obj.filterFirst, Obj.initFirst, invOrEye, npInv_of_not hH]
    rfl, rfl⟩

/-- Refutation for C331: with `H = diag(2, 0)` and `z = (2, 0)` the state `(1, 0)` explains the
observation, but the filter starts at `(2, 0)`, for which `4` would be observed. -/
theorem C331_start_not_the_observation_refuted :
    ∃ (H : Matrix (Fin 2) (Fin 2) ℝ) (z : Fin 2 → ℝ), (∃ x, H *ᵥ x = z) ∧
      ∀ (R : RArg 2) (u : Fin 1 → ℝ), ∃ x o',
        (Obj.new R none none none 0 none (some H) : Obj 2 1).call z u = .ok (x, o') ∧
          H *ᵥ x ≠ z := by
  refine ⟨!![2, 0; 0, 0], ![2, 0], ⟨![1, 0], by funext i; fin_cases i <;> simp⟩, fun R u => ?_⟩
  obtain ⟨o', h, -⟩ := C331_singular_H (p := 1) R !![2, 0; 0, 0]
    (by rw [Matrix.det_fin_two]; simp) none none none 0 ![2, 0] u
  refine ⟨_, o', h, fun hc => ?_⟩
  have := congrFun hc 0
  simp at this

end Wafo.Kalman
