import Verif.Disufq.QtfProps

set_option linter.unusedSectionVars false

/-!
# C320: `disufq` for one regular wave is Stokes' second order wave
-/

namespace Wafo.Disufq
open Finset Complex

theorem comp_polar {rA iA : ℕ → ℝ} {m i c : ℕ} {a φ θ : ℝ} (hr : rA (c * m + i) = a / 2 * Real.cos φ)
    (hi : iA (c * m + i) = a / 2 * Real.sin φ) :
    comp rA iA m i θ c = ((a / 2 : ℝ) : ℂ) * exp (((c * θ + φ : ℝ) : ℂ) * I) := by
  unfold comp
  have h1 : (⟨rA (c * m + i), iA (c * m + i)⟩ : ℂ) = ((a / 2 : ℝ) : ℂ) * exp ((φ : ℂ) * I) := by
    rw [hr, hi]
    apply Complex.ext
    · rw [re_ofReal_mul, exp_ofReal_mul_I_re]
    · rw [im_ofReal_mul, exp_ofReal_mul_I_im]
  rw [h1, ← exp_nat_mul, mul_assoc, ← exp_add]
  congr 2
  push_cast
  ring

theorem re_sq_polar (a ψ : ℝ) : (((a / 2 : ℝ) : ℂ) * exp ((ψ : ℂ) * I) * (((a / 2 : ℝ) : ℂ) * exp ((ψ : ℂ) * I))).re =
    a ^ 2 / 4 * Real.cos (2 * ψ) := by
  rw [show ((a / 2 : ℝ) : ℂ) * exp ((ψ : ℂ) * I) * (((a / 2 : ℝ) : ℂ) * exp ((ψ : ℂ) * I)) =
    ((a ^ 2 / 4 : ℝ) : ℂ) * (exp ((ψ : ℂ) * I) * exp ((ψ : ℂ) * I)) by push_cast; ring, ← exp_add,
    re_ofReal_mul, show (ψ : ℂ) * I + (ψ : ℂ) * I = ((2 * ψ : ℝ) : ℂ) * I by push_cast; ring, exp_ofReal_mul_I_re]

theorem re_abs_polar (a ψ : ℝ) : ((starRingEnd ℂ) (((a / 2 : ℝ) : ℂ) * exp ((ψ : ℂ) * I)) *
    (((a / 2 : ℝ) : ℂ) * exp ((ψ : ℂ) * I))).re = a ^ 2 / 4 := by
  rw [← normSq_eq_conj_mul_self, ofReal_re, normSq_mul, normSq_ofReal, normSq_eq_norm_sq, norm_exp_ofReal_mul_I]
  ring

/-- The linear wave of one component with amplitude `a` and phase `φ`: the simulation holds the component and its
conjugate, so the complex amplitude is `a/2 e^{iφ}` (`spectrum/core.py:2909-2945`). -/
def IsRegular (rA iA : ℕ → ℝ) (m i c : ℕ) (a φ : ℝ) : Prop :=
  rA (c * m + i) = a / 2 * Real.cos φ ∧ iA (c * m + i) = a / 2 * Real.sin φ

/-- **C320 (deep water).**  For the regular wave `a cos ψ` the result is `k a² / 2 cos 2ψ`. -/
theorem C320_deep (rA iA w kw : ℕ → ℝ) (h g : ℝ) (c m n i : ℕ) (a φ θ : ℝ) (hh : 10000 < h) (hi : i < m)
    (hA : IsRegular rA iA m i c a φ) (s : Acc) (hs : disufq rA iA w kw h g c (c + 1) m n = .ok s) :
    realTransform m n i θ s = kw c * a ^ 2 / 2 * Real.cos (2 * (c * θ + φ)) := by
  rw [C313_deep rA iA w kw h g c (c + 1) m n i θ hh hi (fun a b h1 h2 h3 => by omega) s hs]
  unfold secondOrder
  rw [Nat.Ico_succ_singleton, sum_singleton, sum_singleton, comp_polar hA.1 hA.2, re_sq_polar, re_abs_polar]
  beta_reduce
  rw [sub_self, abs_zero]
  ring

/-- **C320 (sum factor).**  At finite depth the factor is Stokes' `k (3 - σ²) / (2 σ³)` with `σ = tanh(k h)`. -/
theorem C320_factor {g h k : ℝ} (hg : 0 < g) (hh : 0 < h) (hk : 0 < k) :
    sumDiag g h (omega g h k) k = k * (3 - Real.tanh (k * h) ^ 2) / (2 * Real.tanh (k * h) ^ 3) := by
  have hw2 := omega_sq hg hh hk
  have hw := omega_pos hg hh hk
  have hσ := tanh_pos' (mul_pos hk hh)
  have h2 : Real.tanh (2 * k * h) = 2 * Real.tanh (k * h) / (1 + Real.tanh (k * h) ^ 2) := by
    rw [show 2 * k * h = 2 * (k * h) by ring, Real.tanh_eq_sinh_div_cosh, Real.tanh_eq_sinh_div_cosh,
      Real.sinh_two_mul, Real.cosh_two_mul]
    have := Real.cosh_pos (k * h)
    have h3 : Real.cosh (k * h) ^ 2 + Real.sinh (k * h) ^ 2 ≠ 0 := by positivity
    field_simp
  set σ := Real.tanh (k * h) with hσd
  have e1 : 0.5 * g * (k / omega g h k) * (k / omega g h k) = 0.5 * k / σ := by
    rw [show 0.5 * g * (k / omega g h k) * (k / omega g h k) = 0.5 * g * k ^ 2 / omega g h k ^ 2 by ring, hw2]
    field_simp
  have e2 : 0.5 * omega g h k * omega g h k / g = 0.5 * k * σ := by
    rw [show 0.5 * omega g h k * omega g h k / g = 0.5 * omega g h k ^ 2 / g by ring, hw2]
    field_simp
  unfold sumDiag
  simp only [e1, e2, h2]
  have hne : (1 : ℝ) + σ ^ 2 ≠ 0 := by positivity
  have e3 : 1 - 0.5 * k / σ / k * (2 * σ / (1 + σ ^ 2)) = σ ^ 2 / (1 + σ ^ 2) := by
    field_simp
    ring
  rw [e3]
  field_simp
  ring

/-- **C320 (set-down).**  The factor of the mean is negative: waves lower the mean level. -/
theorem C320_setdown {g h k : ℝ} (hg : 0 < g) (hh : 0 < h) (hk : 0 < k) : difDiag g h (omega g h k) k < 0 := by
  have hw2 := omega_sq hg hh hk
  have hw := omega_pos hg hh hk
  have hx := mul_pos hk hh
  have hσ := tanh_pos' hx
  have hσ1 := tanh_lt_one' (k * h)
  have hcg := groupVel_pos hg hh hk hw
  have hlt := groupVel_sq_lt hg hh hk
  set c := groupVel g h (omega g h k) k with hc
  set σ := Real.tanh (k * h) with hσd
  have e1 : 0.5 * g * (k / omega g h k) * (k / omega g h k) = 0.5 * k / σ := by
    rw [show 0.5 * g * (k / omega g h k) * (k / omega g h k) = 0.5 * g * k ^ 2 / omega g h k ^ 2 by ring, hw2]
    field_simp
  have e2 : 0.5 * omega g h k * omega g h k / g = 0.5 * k * σ := by
    rw [show 0.5 * omega g h k * omega g h k / g = 0.5 * omega g h k ^ 2 / g by ring, hw2]
    field_simp
  have h1 : 0.5 * k * σ < 0.5 * k / σ := by
    rw [lt_div_iff₀ hσ]
    have : σ * σ < 1 := by nlinarith
    have : 0.5 * k * (σ * σ) < 0.5 * k * 1 := mul_lt_mul_of_pos_left this (by positivity)
    linarith
  have h2 : 0 < g * k / (omega g h k * c) := by positivity
  have h3 : 1 - g * h / (c * c) < 0 := by
    have : 1 < g * h / (c * c) := by rw [lt_div_iff₀ (by positivity)]; linarith
    linarith
  have h4 : 0 ≤ (if k * h < 300 then k / Real.sinh (2 * k * h) else 0) := by
    split_ifs
    · have := Real.sinh_pos_iff.2 (show 0 < 2 * k * h by positivity)
      positivity
    · exact le_rfl
  have h5 : (0.5 * k / σ - 0.5 * k * σ + g * k / (omega g h k * c)) / (1 - g * h / (c * c)) < 0 :=
    div_neg_of_pos_of_neg (by linarith) h3
  show (0.5 * g * (k / omega g h k) * (k / omega g h k) - 0.5 * omega g h k * omega g h k / g +
    g * k / (omega g h k * c)) / (1 - g * h / (c * c)) - (if k * h < 300 then k / Real.sinh (2 * k * h) else 0) < 0
  rw [e1, e2]
  linarith

/-- **C320 (finite depth).**  For the regular wave `a cos ψ` of wavenumber `k` and frequency `ω(k)` the result is
`k a² (3 - σ²) / (4 σ³) cos 2ψ` plus a constant that is not positive (negative if `a ≠ 0`). -/
theorem C320_finite (rA iA w kw : ℕ → ℝ) (h g : ℝ) (c m n i : ℕ) (a φ : ℝ) (hh : 0 < h) (hdeep : h ≤ 10000)
    (hg : 0 < g) (hk : 0 < kw c) (hw : w c = omega g h (kw c)) (hi : i < m)
    (hA : IsRegular rA iA m i c a φ) (s : Acc) (hs : disufq rA iA w kw h g c (c + 1) m n = .ok s) :
    ∃ mean ≤ 0, (a ≠ 0 → mean < 0) ∧ ∀ θ, realTransform m n i θ s =
      kw c * a ^ 2 * (3 - Real.tanh (kw c * h) ^ 2) / (4 * Real.tanh (kw c * h) ^ 3) * Real.cos (2 * (c * θ + φ)) +
        mean := by
  have hset := C320_setdown hg hh hk
  have hw0 := omega_pos hg hh hk
  refine ⟨a ^ 2 / 2 * difDiag g h (omega g h (kw c)) (kw c), ?_, ?_, ?_⟩
  · exact mul_nonpos_of_nonneg_of_nonpos (by positivity) hset.le
  · intro ha
    exact mul_neg_of_pos_of_neg (by positivity) hset
  · intro θ
    have hval : ∀ b, c ≤ b → b < c + 1 → b = c := fun b h1 h2 => by omega
    rw [C313_finite rA iA w kw h g c (c + 1) m n i θ hdeep hi hg.ne'
      (fun b h1 h2 => by rw [hval b h1 h2, hw]; exact hw0.ne') (fun b h1 h2 => by rw [hval b h1 h2]; exact hk.ne') s hs]
    unfold secondOrder
    rw [Nat.Ico_succ_singleton, sum_singleton, sum_singleton, comp_polar hA.1 hA.2, re_sq_polar, re_abs_polar]
    beta_reduce
    rw [if_pos rfl, ← sumDiag_eq hg.ne' (by rw [hw]; exact hw0.ne') hk.ne', hw, C320_factor hg hh hk]
    have hσ := tanh_pos' (mul_pos hk hh)
    field_simp
    ring

/-- Non-vacuity of C320. -/
example : IsRegular (fun _ => 1) (fun _ => 0) 1 0 3 2 0 := by
  constructor <;> norm_num

example : ∃ s, disufq (fun _ => 1) (fun _ => 0) (fun _ => omega 9.81 20 0.1) (fun _ => 0.1) 20 9.81 3 4 1 7 = .ok s :=
  C314_in_bounds _ _ _ _ _ _ _ _ _ _ (by norm_num)

end Wafo.Disufq
