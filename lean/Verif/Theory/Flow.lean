import Mathlib.Analysis.SpecialFunctions.Exp
import Verif.Theory.Props

set_option linter.unusedSectionVars false

/-!
Properties C216-C219 of wave_theory/core.py: the responses form a flow of an incompressible fluid without rotation that obeys the equations of
motion, the boundary conditions, the directions, and the pressure amplitude.
-/

namespace Wafo.Theory

/-- The x-axis is 90 degrees clockwise from the y-axis, as for the default axes. -/
def RightAngle (c : Conf) : Prop := c.thetax = c.thetay + 90

theorem axes {c : Conf} (ha : RightAngle c) (th : ℝ) :
    cthx c th = c.bet * Real.cos (th - c.thetay * Real.pi / 180) ∧ cthy c th = c.bet * Real.sin (th - c.thetay * Real.pi / 180) := by
  refine ⟨?_, rfl⟩
  unfold cthx
  rw [ha]
  congr 2
  ring

theorem unit_dir {c : Conf} (ha : RightAngle c) (hb : c.bet = 1 ∨ c.bet = -1) (th : ℝ) : cthx c th ^ 2 + cthy c th ^ 2 = 1 := by
  obtain ⟨h1, h2⟩ := axes ha th
  have := Real.sin_sq_add_cos_sq (th - c.thetay * Real.pi / 180)
  have hb2 : c.bet ^ 2 = 1 := by rcases hb with h | h <;> rw [h] <;> norm_num
  rw [h1, h2]
  linear_combination c.bet ^ 2 * this + hb2

/-- Derivatives of the velocities and of the pressure with respect to the position of the sensor. -/
theorem derivs {c : Conf} {h k : ℝ} (hh : c.h = some h) (hk : k * h ≠ 0) (w th : ℝ) :
    let E := ee c th k
    let C : ℂ := (Real.cosh (zk c h k) : ℝ)
    let S : ℂ := (Real.sinh (zk c h k) : ℝ)
    let Sh : ℂ := (Real.sinh (k * h) : ℝ)
    let Ch : ℂ := (Real.cosh (k * h) : ℝ)
    let cx : ℂ := (cthx c th : ℝ)
    let cy : ℂ := (cthy c th : ℝ)
    let σ : ℂ := (up c : ℝ)
    HasDerivAt (fun x => transfer { c with x := x } .u w k th) (flip c * (w * C / Sh * cx * (Complex.I * k * cx * E))) c.x ∧
    HasDerivAt (fun y => transfer { c with y := y } .u w k th) (flip c * (w * C / Sh * cx * (Complex.I * k * cy * E))) c.y ∧
    HasDerivAt (fun z => transfer { c with z := z } .u w k th) (flip c * (w * (σ * k * S) / Sh * cx * E)) c.z ∧
    HasDerivAt (fun x => transfer { c with x := x } .v w k th) (flip c * (w * C / Sh * cy * (Complex.I * k * cx * E))) c.x ∧
    HasDerivAt (fun y => transfer { c with y := y } .v w k th) (flip c * (w * C / Sh * cy * (Complex.I * k * cy * E))) c.y ∧
    HasDerivAt (fun z => transfer { c with z := z } .v w k th) (flip c * (w * (σ * k * S) / Sh * cy * E)) c.z ∧
    HasDerivAt (fun x => transfer { c with x := x } .w w k th) (flip c * (-Complex.I * w * S / Sh * (Complex.I * k * cx * E))) c.x ∧
    HasDerivAt (fun y => transfer { c with y := y } .w w k th) (flip c * (-Complex.I * w * S / Sh * (Complex.I * k * cy * E))) c.y ∧
    HasDerivAt (fun z => transfer { c with z := z } .w w k th) (flip c * (-Complex.I * w * (σ * k * C) / Sh * E)) c.z ∧
    HasDerivAt (fun x => transfer { c with x := x } .p w k th) (flip c * (c.rho * c.g * C / Ch * (Complex.I * k * cx * E))) c.x ∧
    HasDerivAt (fun y => transfer { c with y := y } .p w k th) (flip c * (c.rho * c.g * C / Ch * (Complex.I * k * cy * E))) c.y ∧
    HasDerivAt (fun z => transfer { c with z := z } .p w k th) (flip c * (c.rho * c.g * (σ * k * S) / Ch * E)) c.z := by
  intro E C S Sh Ch cx cy σ
  have dx := ee_deriv_x c th k c.x
  have dy := ee_deriv_y c th k c.y
  have dc := cosh_zk_deriv c h k c.z
  have ds := sinh_zk_deriv c h k c.z
  have hx : ∀ x, ({ c with x := x } : Conf).h = some h := fun _ => hh
  have hy : ∀ y, ({ c with y := y } : Conf).h = some h := fun _ => hh
  have hz : ∀ z, ({ c with z := z } : Conf).h = some h := fun _ => hh
  refine ⟨?_, ?_, ?_, ?_, ?_, ?_, ?_, ?_, ?_, ?_, ?_, ?_⟩
  · exact (((dx.const_mul (w * C / Sh * cx))).const_mul (flip c)).congr_of_eventuallyEq
      (Filter.Eventually.of_forall fun x => transfer_u (hx x) hk w th)
  · exact (((dy.const_mul (w * C / Sh * cx))).const_mul (flip c)).congr_of_eventuallyEq
      (Filter.Eventually.of_forall fun x => transfer_u (hy x) hk w th)
  · refine ((((((dc.const_mul (w : ℂ)).div_const Sh).mul_const cx).mul_const E).const_mul (flip c)).congr_of_eventuallyEq
      (Filter.Eventually.of_forall fun x => transfer_u (hz x) hk w th)).congr_deriv ?_
    simp only [Complex.ofReal_mul]; rfl
  · exact (((dx.const_mul (w * C / Sh * cy))).const_mul (flip c)).congr_of_eventuallyEq
      (Filter.Eventually.of_forall fun x => transfer_v (hx x) hk w th)
  · exact (((dy.const_mul (w * C / Sh * cy))).const_mul (flip c)).congr_of_eventuallyEq
      (Filter.Eventually.of_forall fun x => transfer_v (hy x) hk w th)
  · refine ((((((dc.const_mul (w : ℂ)).div_const Sh).mul_const cy).mul_const E).const_mul (flip c)).congr_of_eventuallyEq
      (Filter.Eventually.of_forall fun x => transfer_v (hz x) hk w th)).congr_deriv ?_
    simp only [Complex.ofReal_mul]; rfl
  · exact (((dx.const_mul (-Complex.I * w * S / Sh))).const_mul (flip c)).congr_of_eventuallyEq
      (Filter.Eventually.of_forall fun x => transfer_w (hx x) hk w th)
  · exact (((dy.const_mul (-Complex.I * w * S / Sh))).const_mul (flip c)).congr_of_eventuallyEq
      (Filter.Eventually.of_forall fun x => transfer_w (hy x) hk w th)
  · refine (((((ds.const_mul (-Complex.I * w : ℂ)).div_const Sh).mul_const E).const_mul (flip c)).congr_of_eventuallyEq
      (Filter.Eventually.of_forall fun x => transfer_w (hz x) hk w th)).congr_deriv ?_
    simp only [Complex.ofReal_mul]; rfl
  · exact (((dx.const_mul (c.rho * c.g * C / Ch))).const_mul (flip c)).congr_of_eventuallyEq
      (Filter.Eventually.of_forall fun x => transfer_p (hx x) w k th)
  · exact (((dy.const_mul (c.rho * c.g * C / Ch))).const_mul (flip c)).congr_of_eventuallyEq
      (Filter.Eventually.of_forall fun x => transfer_p (hy x) w k th)
  · refine (((((dc.const_mul (c.rho * c.g : ℂ)).div_const Ch).mul_const E).const_mul (flip c)).congr_of_eventuallyEq
      (Filter.Eventually.of_forall fun x => transfer_p (hz x) w k th)).congr_deriv ?_
    simp only [Complex.ofReal_mul]; rfl

/-! ### C216: continuity and rotation -/

/-- The velocities are those of an incompressible fluid when `z` is measured upwards: `U_x + V_y + W_z = 0`. -/
theorem C216_continuity {c : Conf} {h k : ℝ} (hh : c.h = some h) (hk : k * h ≠ 0) (hi : c.igam ≠ 2) (ha : RightAngle c)
    (hb : c.bet = 1 ∨ c.bet = -1) (w th : ℝ) :
    ∃ ux vy wz : ℂ, HasDerivAt (fun x => transfer { c with x := x } .u w k th) ux c.x ∧
      HasDerivAt (fun y => transfer { c with y := y } .v w k th) vy c.y ∧
      HasDerivAt (fun z => transfer { c with z := z } .w w k th) wz c.z ∧ ux + vy + wz = 0 := by
  obtain ⟨h1, _, _, _, h5, _, _, _, h9, _⟩ := derivs hh hk w th
  refine ⟨_, _, _, h1, h5, h9, ?_⟩
  have hu : (cthx c th : ℂ) ^ 2 + (cthy c th : ℂ) ^ 2 = 1 := by exact_mod_cast unit_dir ha hb th
  have hσ : ((up c : ℝ) : ℂ) = 1 := by simp [up, hi]
  rw [hσ]
  linear_combination (flip c * (w * ((Real.cosh (zk c h k) : ℝ) : ℂ) / ((Real.sinh (k * h) : ℝ) : ℂ) * Complex.I * k * ee c th k)) * hu

/-- The velocities are free of rotation when `z` is measured upwards: `U_z = W_x`, `V_z = W_y` and `U_y = V_x`. -/
theorem C216_irrotational {c : Conf} {h k : ℝ} (hh : c.h = some h) (hk : k * h ≠ 0) (hi : c.igam ≠ 2) (w th : ℝ) :
    (∃ d : ℂ, HasDerivAt (fun z => transfer { c with z := z } .u w k th) d c.z ∧ HasDerivAt (fun x => transfer { c with x := x } .w w k th) d c.x) ∧
    (∃ d : ℂ, HasDerivAt (fun z => transfer { c with z := z } .v w k th) d c.z ∧ HasDerivAt (fun y => transfer { c with y := y } .w w k th) d c.y) ∧
    (∃ d : ℂ, HasDerivAt (fun y => transfer { c with y := y } .u w k th) d c.y ∧ HasDerivAt (fun x => transfer { c with x := x } .v w k th) d c.x) := by
  obtain ⟨_, h2, h3, h4, _, h6, h7, h8, _⟩ := derivs hh hk w th
  have hI : Complex.I * Complex.I = -1 := Complex.I_mul_I
  have hσ : ((up c : ℝ) : ℂ) = 1 := by simp [up, hi]
  refine ⟨⟨_, h3, h7.congr_deriv ?_⟩, ⟨_, h6, h8.congr_deriv ?_⟩, ⟨_, h2, h4.congr_deriv ?_⟩⟩
  · rw [hσ]
    linear_combination -(flip c * (w * ((Real.sinh (zk c h k) : ℝ) : ℂ) / ((Real.sinh (k * h) : ℝ) : ℂ) * k * cthx c th * ee c th k)) * hI
  · rw [hσ]
    linear_combination -(flip c * (w * ((Real.sinh (zk c h k) : ℝ) : ℂ) / ((Real.sinh (k * h) : ℝ) : ℂ) * k * cthy c th * ee c th k)) * hI
  · ring

/-- When `z` is measured downwards the velocity in z-direction still points upwards: `U_x + V_y = W_z`, and `U_x + V_y + W_z` is not zero. -/
theorem C216_down_refuted {c : Conf} {h k : ℝ} (hh : c.h = some h) (hk : k * h ≠ 0) (hi : c.igam = 2) (ha : RightAngle c)
    (hb : c.bet = 1 ∨ c.bet = -1) {w : ℝ} (hw : w ≠ 0) (th : ℝ) :
    ∃ ux vy wz : ℂ, HasDerivAt (fun x => transfer { c with x := x } .u w k th) ux c.x ∧
      HasDerivAt (fun y => transfer { c with y := y } .v w k th) vy c.y ∧
      HasDerivAt (fun z => transfer { c with z := z } .w w k th) wz c.z ∧ ux + vy = wz ∧ ux + vy + wz ≠ 0 := by
  obtain ⟨h1, _, _, _, h5, _, _, _, h9, _⟩ := derivs hh hk w th
  have hu : (cthx c th : ℂ) ^ 2 + (cthy c th : ℂ) ^ 2 = 1 := by exact_mod_cast unit_dir ha hb th
  have hσ : ((up c : ℝ) : ℂ) = -1 := by simp [up, hi]
  refine ⟨_, _, _, h1, h5, h9, ?_, ?_⟩
  · rw [hσ]
    linear_combination (flip c * (w * ((Real.cosh (zk c h k) : ℝ) : ℂ) / ((Real.sinh (k * h) : ℝ) : ℂ) * Complex.I * k * ee c th k)) * hu
  · have e : ∀ X Y Z : ℂ, X + Y = Z → Z ≠ 0 → X + Y + Z ≠ 0 := by
      intro X Y Z h1 h2 h3
      apply h2
      linear_combination (1 / 2 : ℂ) * h3 - (1 / 2 : ℂ) * h1
    refine e _ _ _ ?_ ?_
    · rw [hσ]
      linear_combination (flip c * (w * ((Real.cosh (zk c h k) : ℝ) : ℂ) / ((Real.sinh (k * h) : ℝ) : ℂ) * Complex.I * k * ee c th k)) * hu
    · have k0 : (k : ℂ) ≠ 0 := by
        intro hk0
        apply hk
        have : k = 0 := by exact_mod_cast hk0
        rw [this, zero_mul]
      have hw' : (w : ℂ) ≠ 0 := by exact_mod_cast hw
      have hC : ((Real.cosh (zk c h k) : ℝ) : ℂ) ≠ 0 := by exact_mod_cast (Real.cosh_pos _).ne'
      have hS : ((Real.sinh (k * h) : ℝ) : ℂ) ≠ 0 := by
        have : Real.sinh (k * h) ≠ 0 := by simpa using hk
        exact_mod_cast this
      have hf : flip c ≠ 0 := by unfold flip; split <;> norm_num
      have hE : ee c th k ≠ 0 := Complex.exp_ne_zero _
      rw [hσ]
      have : -Complex.I * w * (-1 * k * ((Real.cosh (zk c h k) : ℝ) : ℂ)) ≠ 0 := by
        refine mul_ne_zero (mul_ne_zero (neg_ne_zero.2 Complex.I_ne_zero) hw') (mul_ne_zero (mul_ne_zero (by norm_num) k0) hC)
      exact mul_ne_zero hf (mul_ne_zero (div_ne_zero this hS) hE)

/-! ### C217: equations of motion and boundary conditions -/

/-- The accelerations are those caused by the pressure (`rho U_t = -P_x`, and the same in y- and z-direction, upwards) whenever the wave
number satisfies the dispersion relation for the gravity of the transfer function. -/
theorem C217_motion {c : Conf} {h k : ℝ} (hh : c.h = some h) (hk : k * h ≠ 0) (hi : c.igam ≠ 2) (w th : ℝ)
    (hd : w ^ 2 = c.g * k * Real.tanh (k * h)) :
    HasDerivAt (fun x => transfer { c with x := x } .p w k th) (-(c.rho * transfer c .u_t w k th)) c.x ∧
    HasDerivAt (fun y => transfer { c with y := y } .p w k th) (-(c.rho * transfer c .v_t w k th)) c.y ∧
    HasDerivAt (fun z => transfer { c with z := z } .p w k th) (-(c.rho * transfer c .w_t w k th)) c.z := by
  obtain ⟨_, _, _, _, _, _, _, _, _, h10, h11, h12⟩ := derivs hh hk w th
  have hI : Complex.I * Complex.I = -1 := Complex.I_mul_I
  have hσ : ((up c : ℝ) : ℂ) = 1 := by simp [up, hi]
  have hS : ((Real.sinh (k * h) : ℝ) : ℂ) ≠ 0 := by
    have : Real.sinh (k * h) ≠ 0 := by simpa using hk
    exact_mod_cast this
  have hCh : ((Real.cosh (k * h) : ℝ) : ℂ) ≠ 0 := by exact_mod_cast (Real.cosh_pos _).ne'
  have hd' : (w : ℂ) ^ 2 * ((Real.cosh (k * h) : ℝ) : ℂ) = c.g * k * ((Real.sinh (k * h) : ℝ) : ℂ) := by
    have : w ^ 2 * Real.cosh (k * h) = c.g * k * Real.sinh (k * h) := by
      rw [hd, Real.tanh_eq_sinh_div_cosh]
      field_simp [(Real.cosh_pos (k * h)).ne']
    exact_mod_cast this
  have hq : (c.g : ℂ) * k / ((Real.cosh (k * h) : ℝ) : ℂ) = (w : ℂ) ^ 2 / ((Real.sinh (k * h) : ℝ) : ℂ) := by
    rw [div_eq_div_iff hCh hS, hd']
  obtain ⟨_, _, t3, t4, t5, _, _, _⟩ := C215_time c w k th
  refine ⟨h10.congr_deriv ?_, h11.congr_deriv ?_, h12.congr_deriv ?_⟩
  · rw [t3, transfer_u hh hk]
    linear_combination (flip c * c.rho * ((Real.cosh (zk c h k) : ℝ) : ℂ) * Complex.I * cthx c th * ee c th k) * hq
  · rw [t4, transfer_v hh hk]
    linear_combination (flip c * c.rho * ((Real.cosh (zk c h k) : ℝ) : ℂ) * Complex.I * cthy c th * ee c th k) * hq
  · rw [t5, transfer_w hh hk, hσ]
    linear_combination (flip c * c.rho * ((Real.sinh (zk c h k) : ℝ) : ℂ) * ee c th k) * hq +
      (flip c * c.rho * (w : ℂ) ^ 2 * ((Real.sinh (zk c h k) : ℝ) : ℂ) / ((Real.sinh (k * h) : ℝ) : ℂ) * ee c th k) * hI

/-- The wave numbers `tran` computes itself belong to the gravity 9.81, whatever the gravity of the transfer function: with an exact solution
of the dispersion relation the horizontal acceleration is not the one caused by the pressure for any other gravity. -/
theorem C217_gravity_refuted {c : Conf} {h : ℝ} (hh : c.h = some h) (h0 : 0 < h) (hρ : 0 < c.rho) (hg : c.g ≠ 9.81)
    (w2k : ℝ → Option ℝ → ℝ → ℝ) {w : ℝ} (hK : 0 < w2k w (some h) 9.81)
    (hd : w ^ 2 = 9.81 * w2k w (some h) 9.81 * Real.tanh (w2k w (some h) 9.81 * h)) (th : ℝ) (hc : cthx c th ≠ 0) :
    (∀ name, tranDefault w2k c name [w] [th] = tran c name [(w, w2k w (some h) 9.81)] [th]) ∧
    ¬ HasDerivAt (fun x => transfer { c with x := x } .p w (w2k w (some h) 9.81) th) (-(c.rho * transfer c .u_t w (w2k w (some h) 9.81) th)) c.x := by
  refine ⟨fun name => by simp [tranDefault, hh], ?_⟩
  generalize w2k w (some h) 9.81 = k at *
  have hk : k * h ≠ 0 := (mul_pos hK h0).ne'
  intro hder
  obtain ⟨_, _, _, _, _, _, _, _, _, h10, _⟩ := derivs hh hk w th
  have heq := hder.unique h10
  obtain ⟨_, _, t3, _⟩ := C215_time c w k th
  rw [t3, transfer_u hh hk] at heq
  have hS : ((Real.sinh (k * h) : ℝ) : ℂ) ≠ 0 := by
    have : Real.sinh (k * h) ≠ 0 := by simpa using hk
    exact_mod_cast this
  have hCh : ((Real.cosh (k * h) : ℝ) : ℂ) ≠ 0 := by exact_mod_cast (Real.cosh_pos _).ne'
  have hd' : (w : ℂ) ^ 2 * ((Real.cosh (k * h) : ℝ) : ℂ) = (9.81 : ℝ) * k * ((Real.sinh (k * h) : ℝ) : ℂ) := by
    have : w ^ 2 * Real.cosh (k * h) = 9.81 * k * Real.sinh (k * h) := by
      rw [hd, Real.tanh_eq_sinh_div_cosh]
      field_simp [(Real.cosh_pos (k * h)).ne']
    exact_mod_cast this
  have hq : ((9.81 : ℝ) : ℂ) * k / ((Real.cosh (k * h) : ℝ) : ℂ) = (w : ℂ) ^ 2 / ((Real.sinh (k * h) : ℝ) : ℂ) := by
    rw [div_eq_div_iff hCh hS, hd']
  have hC : ((Real.cosh (zk c h k) : ℝ) : ℂ) ≠ 0 := by exact_mod_cast (Real.cosh_pos _).ne'
  have hf : flip c ≠ 0 := by unfold flip; split <;> norm_num
  have hE : ee c th k ≠ 0 := Complex.exp_ne_zero _
  have hc' : (cthx c th : ℂ) ≠ 0 := by exact_mod_cast hc
  have hρ' : (c.rho : ℂ) ≠ 0 := by exact_mod_cast hρ.ne'
  have hk' : (k : ℂ) ≠ 0 := by exact_mod_cast hK.ne'
  have hz : (flip c * c.rho * ((Real.cosh (zk c h k) : ℝ) : ℂ) * Complex.I * cthx c th * ee c th k * k / ((Real.cosh (k * h) : ℝ) : ℂ)) *
      (((9.81 : ℝ) : ℂ) - c.g) = 0 := by
    linear_combination heq + (flip c * c.rho * ((Real.cosh (zk c h k) : ℝ) : ℂ) * Complex.I * cthx c th * ee c th k) * hq
  rcases mul_eq_zero.1 hz with h1 | h1
  · exact absurd h1 (div_ne_zero (mul_ne_zero (mul_ne_zero (mul_ne_zero (mul_ne_zero (mul_ne_zero (mul_ne_zero hf hρ') hC) Complex.I_ne_zero) hc') hE) hk') hCh)
  · apply hg
    have : ((9.81 : ℝ) : ℂ) = (c.g : ℝ) := by linear_combination h1
    exact (Complex.ofReal_injective this).symm

/-- No water passes through the bottom: the vertical velocity, acceleration and displacement are zero there. -/
theorem C217_bottom {c : Conf} {h k : ℝ} (hh : c.h = some h) (hk : k * h ≠ 0)
    (hz : (c.igam = 1 ∧ c.z = -h) ∨ (c.igam = 2 ∧ c.z = h) ∨ (c.igam = 3 ∧ c.z = 0)) (w th : ℝ) :
    transfer c .w w k th = 0 ∧ transfer c .w_t w k th = 0 ∧ transfer c .z_p w k th = 0 := by
  have h0 : zk c h k = 0 := by
    unfold zk
    rcases hz with ⟨a, b⟩ | ⟨a, b⟩ | ⟨a, b⟩ <;> simp [a, b]
  refine ⟨?_, ?_, ?_⟩ <;> simp [transfer, response, ratio_ss hh hk, h0]

/-- At the mean water level the vertical movement of the water is that of the surface, and the pressure is the weight of the elevation. -/
theorem C217_surface {c : Conf} {h k : ℝ} (hh : c.h = some h) (hk : k * h ≠ 0)
    (hz : (c.igam = 1 ∧ c.z = 0) ∨ (c.igam = 2 ∧ c.z = 0) ∨ (c.igam = 3 ∧ c.z = h)) (w th : ℝ) :
    transfer c .z_p w k th = transfer c .n w k th ∧ transfer c .w w k th = transfer c .n_t w k th ∧
    transfer c .w_t w k th = transfer c .n_tt w k th ∧ transfer c .p w k th = c.rho * c.g * transfer c .n w k th := by
  have h0 : zk c h k = k * h := by
    unfold zk
    rcases hz with ⟨a, b⟩ | ⟨a, b⟩ | ⟨a, b⟩ <;> simp [a, b]
  have hS : Real.sinh (k * h) ≠ 0 := by simpa using hk
  refine ⟨?_, ?_, ?_, ?_⟩ <;>
    simp only [transfer, response, ratio_ss hh hk, ratio_cc hh, h0, div_self hS, div_self (Real.cosh_pos (k * h)).ne', Option.map_some,
      Option.getD_some, mul_one]
  push_cast; ring

/-! ### C218: directions -/

/-- With axes at a right angle and `bet = 1`, a wave of direction `th` travels along `(cos φ, sin φ)` with `φ = th - thetay` (in radians): for the
default axes `th` is measured from the x-axis towards the y-axis. -/
theorem C218_axes {c : Conf} (ha : RightAngle c) (hb : c.bet = 1) (w k th : ℝ) :
    transfer c .n w k th = (if c.igam = 2 then -1 else 1) * Complex.exp (Complex.I * k *
      ((c.x * Real.cos (th - c.thetay * Real.pi / 180) + c.y * Real.sin (th - c.thetay * Real.pi / 180) : ℝ) : ℂ)) := by
  obtain ⟨h1, h2⟩ := axes ha th
  simp only [transfer, response, Option.getD_some, ee, h1, h2, hb, one_mul]
  push_cast
  rw [show Complex.I * (c.x * Complex.cos (th - c.thetay * Real.pi / 180) + c.y * Complex.sin (th - c.thetay * Real.pi / 180)) * k =
    Complex.I * k * (c.x * Complex.cos (th - c.thetay * Real.pi / 180) + c.y * Complex.sin (th - c.thetay * Real.pi / 180)) by ring]
  ring

/-- A direction from which waves come (`bet = -1`) is the same as the opposite direction towards which they travel (`bet = 1`), for every
sensor. -/
theorem C218_from (c : Conf) (s : Sensor) (w k th : ℝ) :
    transfer { c with bet := -1 } s w k th = transfer { c with bet := 1 } s w k (th + Real.pi) := by
  have hx : cthx { c with bet := -1 } th = cthx { c with bet := 1 } (th + Real.pi) := by
    simp only [cthx]
    rw [show th + Real.pi - c.thetax * Real.pi / 180 + Real.pi / 2 = (th - c.thetax * Real.pi / 180 + Real.pi / 2) + Real.pi by ring, Real.cos_add_pi]
    ring
  have hy : cthy { c with bet := -1 } th = cthy { c with bet := 1 } (th + Real.pi) := by
    simp only [cthy]
    rw [show th + Real.pi - c.thetay * Real.pi / 180 = (th - c.thetay * Real.pi / 180) + Real.pi by ring, Real.sin_add_pi]
    ring
  have he : ee { c with bet := -1 } th k = ee { c with bet := 1 } (th + Real.pi) k := by
    simp only [ee, hx, hy]
  have hr : ∀ sa sb : ℤ, ratio { c with bet := -1 } k sa sb = ratio { c with bet := 1 } k sa sb := fun _ _ => rfl
  cases s <;> simp only [transfer, response, hx, hy, he, hr]

/-- All responses have period 2π in the direction. -/
theorem C218_period (c : Conf) (s : Sensor) (w k th : ℝ) : transfer c s w k (th + 2 * Real.pi) = transfer c s w k th := by
  have hx : cthx c (th + 2 * Real.pi) = cthx c th := by
    simp only [cthx]
    rw [show th + 2 * Real.pi - c.thetax * Real.pi / 180 + Real.pi / 2 = (th - c.thetax * Real.pi / 180 + Real.pi / 2) + 2 * Real.pi by ring,
      Real.cos_add_two_pi]
  have hy : cthy c (th + 2 * Real.pi) = cthy c th := by
    simp only [cthy]
    rw [show th + 2 * Real.pi - c.thetay * Real.pi / 180 = (th - c.thetay * Real.pi / 180) + 2 * Real.pi by ring, Real.sin_add_two_pi]
  have he : ee c (th + 2 * Real.pi) k = ee c th k := by simp only [ee, hx, hy]
  cases s <;> simp only [transfer, response, hx, hy, he]

/-- `thetax` and `thetay` are documented as angles clockwise from north to the two axes, but they are not read in the same way: for axes that
point in the same direction the slope along the x-axis is minus the slope along the y-axis. -/
theorem C218_same_refuted (c : Conf) (hs : c.thetax = c.thetay) (w k th : ℝ) :
    transfer c .n_x w k th = -transfer c .n_y w k th := by
  have hx : cthx c th = -cthy c th := by
    simp only [cthx, cthy, hs, Real.cos_add_pi_div_two]
    ring
  simp only [transfer, response, hx, Option.getD_some]
  push_cast; ring

/-! ### C219: pressure amplitude -/

/-- With a positive wave number `wave_pressure` at the level `z` is `rho g Hm0/2 cosh(k (h + z)) / cosh(k h)`: the value at the mean water level is
half the significant wave height times the weight of water, the amplitude is positive and increases from the bottom to the surface. -/
theorem C219_pressure (gam kw : ℝ → ℝ → ℝ) {hm0 h g rho : ℝ} (hm : 0 < hm0) (hg : 0 < g) (hρ : 0 < rho)
    (hk : ∀ w, 0 < kw w h) :
    wavePressure gam kw 0 hm0 h g rho = some (rho * g * hm0 / 2) ∧
    ∀ z z', -h ≤ z → z < z' → ∃ p p', wavePressure gam kw z hm0 h g rho = some p ∧ wavePressure gam kw z' hm0 h g rho = some p' ∧
      0 < p ∧ p < p' := by
  constructor
  · simp only [wavePressure, mul_zero, add_zero, (C212_ratio _ _).1, div_self (Real.cosh_pos _).ne', Option.map_some, mul_one]
  · intro z z' hz hlt
    simp only [wavePressure, (C212_ratio _ _).1, Option.map_some]
    generalize 2 * Real.pi / (4 * √hm0 / (1.30301 - 0.01698 * gam hm0 (4 * √hm0) + 0.12102 / gam hm0 (4 * √hm0))) = w
    have hkw := hk w
    have hq : 0 < rho * g * hm0 / 2 := by positivity
    have c0 := Real.cosh_pos (kw w h * h)
    refine ⟨_, _, rfl, rfl, mul_pos hq (div_pos (Real.cosh_pos _) c0), ?_⟩
    have hmono : Real.cosh (kw w h * h + kw w h * z) < Real.cosh (kw w h * h + kw w h * z') := by
      rw [Real.cosh_lt_cosh]
      have h1 : 0 ≤ kw w h * h + kw w h * z := by
        have := mul_nonneg hkw.le (show 0 ≤ h + z by linarith)
        linarith
      have h2 : kw w h * z < kw w h * z' := mul_lt_mul_of_pos_left hlt hkw
      rw [abs_of_nonneg h1, abs_of_nonneg (by linarith)]
      linarith
    exact mul_lt_mul_of_pos_left (div_lt_div_of_pos_right hmono c0) hq

/-- `wave_pressure` is half the significant wave height times the pressure response of a `TransferFunction` at the same level, with the wave number
at the frequency `2 pi / Tm02`, where `Tp = 4 sqrt(Hm0)` and `Tm02 = Tp / (1.30301 - 0.01698 gam + 0.12102 / gam)`. -/
theorem C219_transfer (gam kw : ℝ → ℝ → ℝ) (c : Conf) {h : ℝ} (hh : c.h = some h) (hi : c.igam = 1) (hx : c.x = 0) (hy : c.y = 0)
    (hm0 tp gm w : ℝ) (htp : tp = 4 * √hm0) (hgm : gm = gam hm0 tp) (hw : w = 2 * Real.pi / (tp / (1.30301 - 0.01698 * gm + 0.12102 / gm)))
    (th : ℝ) :
    ∃ p : ℝ, wavePressure gam kw c.z hm0 h c.g c.rho = some p ∧ (p : ℂ) = hm0 / 2 * transfer c .p w (kw w h) th := by
  simp only [wavePressure, (C212_ratio _ _).1, Option.map_some, ← htp, ← hgm, ← hw]
  refine ⟨_, rfl, ?_⟩
  rw [transfer_p hh]
  simp only [zk, hi, if_true, flip, show ¬ ((1 : ℕ) = 2) by norm_num, if_false, ee, hx, hy]
  push_cast
  simp only [zero_mul, add_zero, mul_zero, Complex.exp_zero, mul_one, one_mul, mul_add]
  ring

/-! ### C214: infinite depth -/

/-- As the depth increases the pressure response at `z` tends to `rho g exp(k z)` times the elevation, which is not zero; for infinite depth `tran` gives
zero (`C214_deep_refuted`). -/
theorem C214_deep_limit (c : Conf) (hi : c.igam = 1) {k : ℝ} (hk : 0 < k) (w th : ℝ) :
    Filter.Tendsto (fun h : ℝ => transfer { c with h := some h } .p w k th) Filter.atTop
      (nhds (c.rho * c.g * (Real.exp (k * c.z) : ℝ) * transfer c .n w k th)) := by
  have hE : Filter.Tendsto (fun h : ℝ => Real.exp (-(2 * k * h))) Filter.atTop (nhds 0) := by
    refine Real.tendsto_exp_neg_atTop_nhds_zero.comp ?_
    exact Filter.tendsto_id.const_mul_atTop (by positivity)
  have hlim : Filter.Tendsto (fun h : ℝ => Real.cosh (k * (h + c.z)) / Real.cosh (k * h)) Filter.atTop (nhds (Real.exp (k * c.z))) := by
    have e : ∀ h : ℝ, Real.cosh (k * (h + c.z)) / Real.cosh (k * h) =
        (Real.exp (k * c.z) + Real.exp (-(2 * k * h)) * Real.exp (-(k * c.z))) / (1 + Real.exp (-(2 * k * h))) := by
      intro h
      have e1 : Real.exp (k * (h + c.z)) = Real.exp (k * h) * Real.exp (k * c.z) := by rw [← Real.exp_add]; ring_nf
      have e2 : Real.exp (-(k * (h + c.z))) = Real.exp (k * h) * (Real.exp (-(2 * k * h)) * Real.exp (-(k * c.z))) := by
        rw [← Real.exp_add, ← Real.exp_add]; ring_nf
      have e3 : Real.exp (-(k * h)) = Real.exp (k * h) * Real.exp (-(2 * k * h)) := by rw [← Real.exp_add]; ring_nf
      rw [Real.cosh_eq, Real.cosh_eq, e1, e2, e3]
      have := Real.exp_pos (k * h)
      have := Real.exp_pos (-(2 * k * h))
      field_simp
    simp only [e]
    have := ((hE.mul_const (Real.exp (-(k * c.z)))).const_add (Real.exp (k * c.z))).div (hE.const_add 1) (by norm_num)
    rw [zero_mul, add_zero, add_zero, div_one] at this
    exact this
  have hf : ∀ h : ℝ, transfer { c with h := some h } .p w k th =
      (c.rho * c.g * transfer c .n w k th) * ((Real.cosh (k * (h + c.z)) / Real.cosh (k * h) : ℝ) : ℂ) := by
    intro h
    rw [transfer_p (c := { c with h := some h }) rfl]
    simp only [zk, flip, hi, if_true, show ¬ ((1 : ℕ) = 2) by norm_num, if_false, transfer, response, Option.getD_some, ee, cthx, cthy]
    push_cast; ring
  simp only [hf]
  have h2 := ((Complex.continuous_ofReal.tendsto _).comp hlim).const_mul ((c.rho : ℂ) * c.g * transfer c .n w k th)
  rw [show (c.rho : ℂ) * c.g * (Real.exp (k * c.z) : ℝ) * transfer c .n w k th = c.rho * c.g * transfer c .n w k th * (Real.exp (k * c.z) : ℝ) by ring]
  exact h2

/-! ### A concrete sea -/

/-- Depth 10, gravity 9.81, a point 2 below the mean water level. -/
noncomputable def sea : Conf := { x := 3, y := 1, z := -2, h := some 10, g := 9.81, rho := 1028, bet := 1, igam := 1, thetax := 90, thetay := 0 }

theorem sea_axes : RightAngle sea := by unfold RightAngle sea; norm_num

example : ∃ ux vy wz : ℂ, HasDerivAt (fun x => transfer { sea with x := x } .u 1 (1 / 5) 0) ux sea.x ∧
    HasDerivAt (fun y => transfer { sea with y := y } .v 1 (1 / 5) 0) vy sea.y ∧
    HasDerivAt (fun z => transfer { sea with z := z } .w 1 (1 / 5) 0) wz sea.z ∧ ux + vy + wz = 0 :=
  C216_continuity (h := 10) rfl (by norm_num) (by norm_num [sea]) sea_axes (Or.inl rfl) 1 0

example : HasDerivAt (fun x => transfer { sea with x := x } .p (Real.sqrt (9.81 * (1 / 5) * Real.tanh (1 / 5 * 10))) (1 / 5) 0)
    (-(sea.rho * transfer sea .u_t (Real.sqrt (9.81 * (1 / 5) * Real.tanh (1 / 5 * 10))) (1 / 5) 0)) sea.x := by
  refine (C217_motion (c := sea) (h := 10) rfl (by norm_num) (by norm_num [sea]) _ 0 ?_).1
  rw [Real.sq_sqrt]
  · simp [sea]
  · have : 0 < Real.tanh (1 / 5 * 10) := by
      rw [Real.tanh_eq_sinh_div_cosh]
      exact div_pos (Real.sinh_pos_iff.2 (by norm_num)) (Real.cosh_pos _)
    positivity

example : ∃ H G, tran sea "W" [(1, 1 / 5), (2, 2 / 5)] [0, 1, 2] = .ok (H, G) :=
  C214_water (h := 10) rfl (by norm_num) (by norm_num [sea]) (by norm_num [sea]) (Or.inl ⟨rfl, by norm_num [sea]⟩) (s := .w) rfl
    (by intro p hp; simp only [List.mem_cons, List.not_mem_nil, or_false] at hp; rcases hp with rfl | rfl <;> norm_num) _

end Wafo.Theory
