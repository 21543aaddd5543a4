import Mathlib.Analysis.SpecialFunctions.Sqrt
import Mathlib.Analysis.Calculus.Deriv.Inv
import Mathlib.Analysis.Calculus.Deriv.Add
import Verif.SpecD.Props

set_option linter.unusedSectionVars false

/-!
The delta method: the variance of a function of the moments is the quadratic form of the covariances of the moments in the gradient of the
function.  Here the variances in `characteristic` are compared with it.
-/

namespace Wafo.SpecD
open Cov Finset

noncomputable section

/-! ### Specification -/

/-- The characteristics as functions of the moments in hertz; `m 5` is the moment of order minus one. -/
def sHm0 (m : ℕ → ℝ) : ℝ := 4 * Real.sqrt (m 0)
def sTm01 (m : ℕ → ℝ) : ℝ := m 0 / m 1
def sTm02 (m : ℕ → ℝ) : ℝ := Real.sqrt (m 0 / m 2)
def sTm24 (m : ℕ → ℝ) : ℝ := Real.sqrt (m 2 / m 4)
def sTm_10 (m : ℕ → ℝ) : ℝ := m 5 / m 0
def sSs (g : ℝ) (m : ℕ → ℝ) : ℝ := 8 * Real.pi / g * (m 2 / Real.sqrt (m 0))
def sAlpha (m : ℕ → ℝ) : ℝ := m 2 / Real.sqrt (m 0 * m 4)
def sEps2 (m : ℕ → ℝ) : ℝ := Real.sqrt (m 0 * m 2 / m 1 ^ 2 - 1)
def sEps4 (m : ℕ → ℝ) : ℝ := Real.sqrt (1 - m 2 ^ 2 / (m 0 * m 4))

/-- `D` is the gradient of `g` at `m`. -/
def Grad (g : (ℕ → ℝ) → ℝ) (m D : ℕ → ℝ) : Prop := ∀ i < 6, HasDerivAt (fun t => g (Function.update m i t)) (D i) (m i)

/-- The covariance of two functions with gradients `D` and `E`, to first order, when the moments have the covariances `K`. -/
def form (D E : ℕ → ℝ) (K : ℕ → ℕ → ℝ) : ℝ := ∑ i ∈ range 6, ∑ j ∈ range 6, D i * E j * K i j

/-- The covariance of `g` and `h` by the delta method is `v`. -/
def Delta (g h : (ℕ → ℝ) → ℝ) (m : ℕ → ℝ) (K : ℕ → ℕ → ℝ) (v : ℝ) : Prop :=
  ∃ D E, Grad g m D ∧ Grad h m E ∧ v = form D E K

/-- The value is determined. -/
theorem Delta_unique (g h : (ℕ → ℝ) → ℝ) (m : ℕ → ℝ) (K : ℕ → ℕ → ℝ) (v w : ℝ) (hv : Delta g h m K v) (hw : Delta g h m K w) : v = w := by
  obtain ⟨D, E, hD, hE, rfl⟩ := hv
  obtain ⟨D', E', hD', hE', rfl⟩ := hw
  unfold form
  apply sum_congr rfl
  intro i hi
  apply sum_congr rfl
  intro j hj
  rw [(hD i (mem_range.mp hi)).unique (hD' i (mem_range.mp hi)), (hE j (mem_range.mp hj)).unique (hE' j (mem_range.mp hj))]

/-! ### Gradients -/

def vec (a b c d e f : ℝ) (i : ℕ) : ℝ := [a, b, c, d, e, f].getD i 0

theorem grad_of (g : (ℕ → ℝ) → ℝ) (m : ℕ → ℝ) (a b c d e f : ℝ)
    (h0 : HasDerivAt (fun t => g (Function.update m 0 t)) a (m 0)) (h1 : HasDerivAt (fun t => g (Function.update m 1 t)) b (m 1))
    (h2 : HasDerivAt (fun t => g (Function.update m 2 t)) c (m 2)) (h3 : HasDerivAt (fun t => g (Function.update m 3 t)) d (m 3))
    (h4 : HasDerivAt (fun t => g (Function.update m 4 t)) e (m 4)) (h5 : HasDerivAt (fun t => g (Function.update m 5 t)) f (m 5)) :
    Grad g m (vec a b c d e f) := by
  intro i hi
  have : i = 0 ∨ i = 1 ∨ i = 2 ∨ i = 3 ∨ i = 4 ∨ i = 5 := by omega
  rcases this with rfl | rfl | rfl | rfl | rfl | rfl
  · exact h0
  · exact h1
  · exact h2
  · exact h3
  · exact h4
  · exact h5

theorem const_of (g : (ℕ → ℝ) → ℝ) (m : ℕ → ℝ) (i : ℕ) (x : ℝ) (h : ∀ t, g (Function.update m i t) = g m) :
    HasDerivAt (fun t => g (Function.update m i t)) 0 x := by
  simp only [h]
  exact hasDerivAt_const _ _

theorem var_of (g : (ℕ → ℝ) → ℝ) (m : ℕ → ℝ) (i : ℕ) (x d d' : ℝ) (F : ℝ → ℝ) (h : HasDerivAt F d' x)
    (e : ∀ t, g (Function.update m i t) = F t) (hd : d = d') : HasDerivAt (fun t => g (Function.update m i t)) d x := by
  simp only [e]
  rw [hd]
  exact h

theorem deriv_id_sqrt (a : ℝ) (ha : 0 < a) : HasDerivAt (fun t => Real.sqrt t) (1 / (2 * Real.sqrt a)) a :=
  Real.hasDerivAt_sqrt ha.ne'

theorem deriv_over (a b : ℝ) (hb : b ≠ 0) : HasDerivAt (fun t => a / t) (-(a / b ^ 2)) b := by
  have h := (hasDerivAt_inv hb).const_mul a
  have e : a * -(b ^ 2)⁻¹ = -(a / b ^ 2) := by
    rw [div_eq_mul_inv]
    ring
  rw [e] at h
  exact h

theorem deriv_ratio (a b : ℝ) (ha : 0 < a) (hb : 0 < b) :
    HasDerivAt (fun t => Real.sqrt (t / b)) (Real.sqrt (a / b) / (2 * a)) a ∧
    HasDerivAt (fun t => Real.sqrt (a / t)) (-(Real.sqrt (a / b) / (2 * b))) b := by
  have hq : 0 < a / b := by positivity
  have hs := Real.sqrt_pos.mpr hq
  have h2 : Real.sqrt (a / b) ^ 2 = a / b := Real.sq_sqrt hq.le
  constructor
  · have h : HasDerivAt (fun t => Real.sqrt (t / b)) (1 / b / (2 * Real.sqrt (a / b))) a := ((hasDerivAt_id a).div_const b).sqrt hq.ne'
    have e : Real.sqrt (a / b) / (2 * a) = 1 / b / (2 * Real.sqrt (a / b)) := by
      generalize Real.sqrt (a / b) = q at *
      field_simp
      rw [h2]
      field_simp
    rw [e]
    exact h
  · have h : HasDerivAt (fun t => Real.sqrt (a / t)) (-(a / b ^ 2) / (2 * Real.sqrt (a / b))) b := (deriv_over a b hb.ne').sqrt hq.ne'
    have e : -(Real.sqrt (a / b) / (2 * b)) = -(a / b ^ 2) / (2 * Real.sqrt (a / b)) := by
      generalize Real.sqrt (a / b) = q at *
      field_simp
      rw [h2]
      field_simp
    rw [e]
    exact h

theorem deriv_inv_sqrt (a b c : ℝ) (ha : 0 < a) (hc : 0 < c) :
    HasDerivAt (fun t => b / Real.sqrt (t * c)) (-(b / Real.sqrt (a * c) / (2 * a))) a := by
  have hq : 0 < a * c := by positivity
  have hs := Real.sqrt_pos.mpr hq
  have h2 : Real.sqrt (a * c) ^ 2 = a * c := Real.sq_sqrt hq.le
  have h1 : HasDerivAt (fun t => Real.sqrt (t * c)) (1 * c / (2 * Real.sqrt (a * c))) a := ((hasDerivAt_id a).mul_const c).sqrt hq.ne'
  have h : HasDerivAt (fun t => b / Real.sqrt (t * c)) (-(b / Real.sqrt (a * c) ^ 2) * (1 * c / (2 * Real.sqrt (a * c)))) a :=
    (deriv_over b (Real.sqrt (a * c)) hs.ne').comp a h1
  have e : -(b / Real.sqrt (a * c) / (2 * a)) = -(b / Real.sqrt (a * c) ^ 2) * (1 * c / (2 * Real.sqrt (a * c))) := by
    rw [h2]
    field_simp
  rw [e]
  exact h

theorem grad_Hm0 (m : ℕ → ℝ) (h0 : 0 < m 0) : Grad sHm0 m (vec (2 / Real.sqrt (m 0)) 0 0 0 0 0) := by
  have hs := Real.sqrt_pos.mpr h0
  apply grad_of
  · exact var_of _ m 0 _ _ _ (fun t => 4 * Real.sqrt t) ((deriv_id_sqrt (m 0) h0).const_mul 4) (fun t => by simp [sHm0]) (by field_simp; norm_num)
  all_goals exact const_of _ _ _ _ fun t => by simp [sHm0]

theorem grad_Tm01 (m : ℕ → ℝ) (h1 : 0 < m 1) : Grad sTm01 m (vec (1 / m 1) (-(m 0 / m 1 ^ 2)) 0 0 0 0) := by
  apply grad_of
  · exact var_of _ m 0 _ _ _ (fun t => t / m 1) ((hasDerivAt_id (m 0)).div_const (m 1)) (fun t => by simp [sTm01]) rfl
  · exact var_of _ m 1 _ _ _ (fun t => m 0 / t) (deriv_over (m 0) (m 1) h1.ne') (fun t => by simp [sTm01]) rfl
  all_goals exact const_of _ _ _ _ fun t => by simp [sTm01]

theorem grad_Tm02 (m : ℕ → ℝ) (h0 : 0 < m 0) (h2 : 0 < m 2) :
    Grad sTm02 m (vec (sTm02 m / (2 * m 0)) 0 (-(sTm02 m / (2 * m 2))) 0 0 0) := by
  obtain ⟨a, b⟩ := deriv_ratio (m 0) (m 2) h0 h2
  apply grad_of
  · exact var_of _ m 0 _ _ _ _ a (fun t => by simp [sTm02]) rfl
  · exact const_of _ _ _ _ fun t => by simp [sTm02]
  · exact var_of _ m 2 _ _ _ _ b (fun t => by simp [sTm02]) rfl
  all_goals exact const_of _ _ _ _ fun t => by simp [sTm02]

theorem grad_Tm24 (m : ℕ → ℝ) (h2 : 0 < m 2) (h4 : 0 < m 4) :
    Grad sTm24 m (vec 0 0 (sTm24 m / (2 * m 2)) 0 (-(sTm24 m / (2 * m 4))) 0) := by
  obtain ⟨a, b⟩ := deriv_ratio (m 2) (m 4) h2 h4
  apply grad_of
  · exact const_of _ _ _ _ fun t => by simp [sTm24]
  · exact const_of _ _ _ _ fun t => by simp [sTm24]
  · exact var_of _ m 2 _ _ _ _ a (fun t => by simp [sTm24]) rfl
  · exact const_of _ _ _ _ fun t => by simp [sTm24]
  · exact var_of _ m 4 _ _ _ _ b (fun t => by simp [sTm24]) rfl
  · exact const_of _ _ _ _ fun t => by simp [sTm24]

theorem grad_Tm_10 (m : ℕ → ℝ) (h0 : 0 < m 0) : Grad sTm_10 m (vec (-(m 5 / m 0 ^ 2)) 0 0 0 0 (1 / m 0)) := by
  apply grad_of
  · exact var_of _ m 0 _ _ _ (fun t => m 5 / t) (deriv_over (m 5) (m 0) h0.ne') (fun t => by simp [sTm_10]) rfl
  · exact const_of _ _ _ _ fun t => by simp [sTm_10]
  · exact const_of _ _ _ _ fun t => by simp [sTm_10]
  · exact const_of _ _ _ _ fun t => by simp [sTm_10]
  · exact const_of _ _ _ _ fun t => by simp [sTm_10]
  · exact var_of _ m 5 _ _ _ (fun t => t / m 0) ((hasDerivAt_id (m 5)).div_const (m 0)) (fun t => by simp [sTm_10]) rfl

theorem grad_Ss (g : ℝ) (m : ℕ → ℝ) (h0 : 0 < m 0) :
    Grad (sSs g) m (vec (8 * Real.pi / g * -(m 2 / Real.sqrt (m 0) / (2 * m 0))) 0 (8 * Real.pi / g * (1 / Real.sqrt (m 0))) 0 0 0) := by
  apply grad_of
  · have h := (deriv_inv_sqrt (m 0) (m 2) 1 h0 one_pos).const_mul (8 * Real.pi / g)
    simp only [mul_one] at h
    exact var_of _ m 0 _ _ _ _ h (fun t => by simp [sSs]) rfl
  · exact const_of _ _ _ _ fun t => by simp [sSs]
  · exact var_of _ m 2 _ _ _ (fun t => 8 * Real.pi / g * (t / Real.sqrt (m 0)))
      (((hasDerivAt_id (m 2)).div_const (Real.sqrt (m 0))).const_mul (8 * Real.pi / g)) (fun t => by simp [sSs]) rfl
  all_goals exact const_of _ _ _ _ fun t => by simp [sSs]

theorem grad_Alpha (m : ℕ → ℝ) (h0 : 0 < m 0) (h2 : 0 < m 2) (h4 : 0 < m 4) :
    Grad sAlpha m (vec (-(sAlpha m / (2 * m 0))) 0 (sAlpha m / m 2) 0 (-(sAlpha m / (2 * m 4))) 0) := by
  apply grad_of
  · exact var_of _ m 0 _ _ _ _ (deriv_inv_sqrt (m 0) (m 2) (m 4) h0 h4) (fun t => by simp [sAlpha]) rfl
  · exact const_of _ _ _ _ fun t => by simp [sAlpha]
  · exact var_of _ m 2 _ _ _ (fun t => t / Real.sqrt (m 0 * m 4)) ((hasDerivAt_id (m 2)).div_const (Real.sqrt (m 0 * m 4)))
      (fun t => by simp [sAlpha]) (by unfold sAlpha; field_simp)
  · exact const_of _ _ _ _ fun t => by simp [sAlpha]
  · exact var_of _ m 4 _ _ _ _ (deriv_inv_sqrt (m 4) (m 2) (m 0) h4 h0) (fun t => by simp [sAlpha, mul_comm])
      (by unfold sAlpha; rw [mul_comm (m 0)])
  · exact const_of _ _ _ _ fun t => by simp [sAlpha]

theorem deriv_over_sq (a b : ℝ) (hb : b ≠ 0) : HasDerivAt (fun t => a / t ^ 2) (-(2 * a / b ^ 3)) b := by
  have h : HasDerivAt (fun t => a / t ^ 2) (-(a / (b ^ 2) ^ 2) * (((2 : ℕ) : ℝ) * b ^ (2 - 1) * 1)) b :=
    (deriv_over a (b ^ 2) (by positivity)).comp b ((hasDerivAt_id b).pow 2)
  have e : -(a / (b ^ 2) ^ 2) * (((2 : ℕ) : ℝ) * b ^ (2 - 1) * 1) = -(2 * a / b ^ 3) := by
    push_cast
    field_simp
  rw [e] at h
  exact h

theorem grad_Eps2 (m : ℕ → ℝ) (h1 : 0 < m 1) (hq : 0 < m 0 * m 2 / m 1 ^ 2 - 1) :
    Grad sEps2 m (vec (m 2 / m 1 ^ 2 / (2 * sEps2 m)) (-(2 * (m 0 * m 2) / m 1 ^ 3) / (2 * sEps2 m)) (m 0 / m 1 ^ 2 / (2 * sEps2 m)) 0 0 0) := by
  apply grad_of
  · have h : HasDerivAt (fun t => Real.sqrt (t * m 2 / m 1 ^ 2 - 1)) (1 * m 2 / m 1 ^ 2 / (2 * sEps2 m)) (m 0) :=
      ((((hasDerivAt_id (m 0)).mul_const (m 2)).div_const (m 1 ^ 2)).sub_const 1).sqrt hq.ne'
    exact var_of _ m 0 _ _ _ _ h (fun t => by simp [sEps2]) (by rw [one_mul])
  · have h : HasDerivAt (fun t => Real.sqrt (m 0 * m 2 / t ^ 2 - 1)) (-(2 * (m 0 * m 2) / m 1 ^ 3) / (2 * sEps2 m)) (m 1) :=
      ((deriv_over_sq (m 0 * m 2) (m 1) h1.ne').sub_const 1).sqrt hq.ne'
    exact var_of _ m 1 _ _ _ _ h (fun t => by simp [sEps2]) rfl
  · have h : HasDerivAt (fun t => Real.sqrt (m 0 * t / m 1 ^ 2 - 1)) (m 0 * 1 / m 1 ^ 2 / (2 * sEps2 m)) (m 2) :=
      ((((hasDerivAt_id (m 2)).const_mul (m 0)).div_const (m 1 ^ 2)).sub_const 1).sqrt hq.ne'
    exact var_of _ m 2 _ _ _ _ h (fun t => by simp [sEps2]) (by rw [mul_one])
  all_goals exact const_of _ _ _ _ fun t => by simp [sEps2]

theorem grad_Eps4 (m : ℕ → ℝ) (h0 : 0 < m 0) (h4 : 0 < m 4) (hq : 0 < 1 - m 2 ^ 2 / (m 0 * m 4)) :
    Grad sEps4 m (vec (m 2 ^ 2 / (m 0 ^ 2 * m 4) / (2 * sEps4 m)) 0 (-(2 * m 2 / (m 0 * m 4)) / (2 * sEps4 m)) 0
      (m 2 ^ 2 / (m 0 * m 4 ^ 2) / (2 * sEps4 m)) 0) := by
  apply grad_of
  · have h : HasDerivAt (fun t => Real.sqrt (1 - m 2 ^ 2 / (t * m 4)))
        (-(-(m 2 ^ 2 / (m 0 * m 4) ^ 2) * (1 * m 4)) / (2 * sEps4 m)) (m 0) :=
      (((deriv_over (m 2 ^ 2) (m 0 * m 4) (by positivity)).comp (m 0) ((hasDerivAt_id (m 0)).mul_const (m 4))).const_sub 1).sqrt hq.ne'
    exact var_of _ m 0 _ _ _ _ h (fun t => by simp [sEps4]) (by congr 1; field_simp)
  · exact const_of _ _ _ _ fun t => by simp [sEps4]
  · have h : HasDerivAt (fun t => Real.sqrt (1 - t ^ 2 / (m 0 * m 4)))
        (-(((2 : ℕ) : ℝ) * m 2 ^ (2 - 1) * 1 / (m 0 * m 4)) / (2 * sEps4 m)) (m 2) :=
      ((((hasDerivAt_id (m 2)).pow 2).div_const (m 0 * m 4)).const_sub 1).sqrt hq.ne'
    exact var_of _ m 2 _ _ _ _ h (fun t => by simp [sEps4]) (by congr 1; push_cast; ring)
  · exact const_of _ _ _ _ fun t => by simp [sEps4]
  · have h : HasDerivAt (fun t => Real.sqrt (1 - m 2 ^ 2 / (m 0 * t)))
        (-(-(m 2 ^ 2 / (m 0 * m 4) ^ 2) * (m 0 * 1)) / (2 * sEps4 m)) (m 4) :=
      (((deriv_over (m 2 ^ 2) (m 0 * m 4) (by positivity)).comp (m 4) ((hasDerivAt_id (m 4)).const_mul (m 0))).const_sub 1).sqrt hq.ne'
    exact var_of _ m 4 _ _ _ _ h (fun t => by simp [sEps4]) (by congr 1; field_simp)
  · exact const_of _ _ _ _ fun t => by simp [sEps4]

end

end Wafo.SpecD
