import Mathlib.Topology.Order.AtTopBotIxx
import Mathlib.Analysis.Calculus.Deriv.Inv
import Verif.Osc.Props

/-! Quadrature of oscillating functions: infinite intervals. -/

set_option linter.unusedSectionVars false

namespace Wafo.Osc
open Finset Filter Topology

noncomputable section

theorem deriv_up (a : ℝ) {t : ℝ} (ht : t ≠ 1) : HasDerivAt (fun t => a + t / (1 - t)) (1 / (1 - t) ^ 2) t := by
  have h1 : (1 : ℝ) - t ≠ 0 := sub_ne_zero.2 ht.symm
  have h := ((hasDerivAt_id t).div ((hasDerivAt_id t).const_sub 1) h1).const_add a
  refine HasDerivAt.congr_deriv h ?_
  simp only [id]
  congr 1
  ring

theorem deriv_down (b : ℝ) {t : ℝ} (ht : t ≠ -1) : HasDerivAt (fun t => b + t / (1 + t)) (1 / (1 + t) ^ 2) t := by
  have h1 : (1 : ℝ) + t ≠ 0 := fun h => ht (by linarith)
  have h := ((hasDerivAt_id t).div ((hasDerivAt_id t).const_add 1) h1).const_add b
  refine HasDerivAt.congr_deriv h ?_
  simp only [id]
  congr 1
  ring

theorem deriv_line {t : ℝ} (ht : t ^ 2 ≠ 1) : HasDerivAt (fun t => t / (1 - t ^ 2)) ((1 + t ^ 2) / (1 - t ^ 2) ^ 2) t := by
  have h1 : (1 : ℝ) - t ^ 2 ≠ 0 := sub_ne_zero.2 ht.symm
  have h := (hasDerivAt_id t).div ((hasDerivAt_pow 2 t).const_sub 1) h1
  refine HasDerivAt.congr_deriv h ?_
  simp only [id]
  congr 1
  push_cast
  ring

/-! ### C208 -/

/-- The third function returned by each change of variable is the derivative of the second. -/
theorem C208_derivative {g dg : ℝ → ℝ} (hg : ∀ x, HasDerivAt g (dg x) x) (a b : ℝ) :
    (∀ t, t ≠ 1 → HasDerivAt (upG g a) (upDg dg a t) t) ∧ (∀ t, t ≠ -1 → HasDerivAt (downG g b) (downDg dg b t) t) ∧
    ∀ t : ℝ, t ^ 2 ≠ 1 → HasDerivAt (lineG g) (lineDg dg t) t := by
  refine ⟨fun t ht => ?_, fun t ht => ?_, fun t ht => ?_⟩
  · have h := (hg _).comp t (deriv_up a ht)
    rw [mul_one_div] at h
    exact h
  · have h := (hg _).comp t (deriv_down b ht)
    rw [mul_one_div] at h
    exact h
  · have h := (hg _).comp t (deriv_line ht)
    rw [← mul_div_assoc] at h
    exact h

/-- From a finite limit to infinity: the integral of the transformed functions up to `T` is the integral of the original ones up to
`a + T / (1 - T)`. -/
theorem up_integral {f : ℝ → ℂ} {g : ℝ → ℝ} (hf : Continuous f) (hg : Continuous g) (om a : ℝ) {T : ℝ} (hT : T < 1) :
    ∫ t in (0 : ℝ)..T, upF f a t * phase om (upG g a t) = ∫ x in a..a + T / (1 - T), f x * phase om (g x) := by
  have hne : ∀ t ∈ Set.uIcc (0 : ℝ) T, t ≠ 1 := by
    intro t ht h
    rw [Set.mem_uIcc] at ht
    rcases ht with ht | ht <;> linarith [ht.1, ht.2]
  have h := intervalIntegral.integral_deriv_smul_comp (a := (0 : ℝ)) (b := T) (f := fun t => a + t / (1 - t))
    (f' := fun t => 1 / (1 - t) ^ 2) (g := fun x => f x * phase om (g x)) (fun t ht => deriv_up a (hne t ht))
    (by
      refine ContinuousOn.div continuousOn_const (by fun_prop) fun t ht => ?_
      exact pow_ne_zero _ (sub_ne_zero.2 (hne t ht).symm))
    (by unfold phase; fun_prop)
  rw [show a + 0 / (1 - 0) = a by simp] at h
  rw [← h]
  refine intervalIntegral.integral_congr fun t _ => ?_
  simp only [upF, upG, Function.comp, Complex.real_smul]
  push_cast
  ring

theorem down_integral {f : ℝ → ℂ} {g : ℝ → ℝ} (hf : Continuous f) (hg : Continuous g) (om b : ℝ) {T : ℝ} (hT : -1 < T) :
    ∫ t in T..0, downF f b t * phase om (downG g b t) = ∫ x in b + T / (1 + T)..b, f x * phase om (g x) := by
  have hne : ∀ t ∈ Set.uIcc T (0 : ℝ), t ≠ -1 := by
    intro t ht h
    rw [Set.mem_uIcc] at ht
    rcases ht with ht | ht <;> linarith [ht.1, ht.2]
  have h := intervalIntegral.integral_deriv_smul_comp (a := T) (b := (0 : ℝ)) (f := fun t => b + t / (1 + t))
    (f' := fun t => 1 / (1 + t) ^ 2) (g := fun x => f x * phase om (g x)) (fun t ht => deriv_down b (hne t ht))
    (by
      refine ContinuousOn.div continuousOn_const (by fun_prop) fun t ht => ?_
      exact pow_ne_zero _ (fun h => hne t ht (by linarith)))
    (by unfold phase; fun_prop)
  rw [show b + 0 / (1 + 0) = b by simp] at h
  rw [← h]
  refine intervalIntegral.integral_congr fun t _ => ?_
  simp only [downF, downG, Function.comp, Complex.real_smul]
  push_cast
  ring

theorem line_integral {f : ℝ → ℂ} {g : ℝ → ℝ} (hf : Continuous f) (hg : Continuous g) (om : ℝ) {S T : ℝ} (hS : S ^ 2 < 1) (hT : T ^ 2 < 1) :
    ∫ t in S..T, lineF f t * phase om (lineG g t) = ∫ x in S / (1 - S ^ 2)..T / (1 - T ^ 2), f x * phase om (g x) := by
  have hS' := abs_lt.1 ((sq_lt_one_iff_abs_lt_one S).1 hS)
  have hT' := abs_lt.1 ((sq_lt_one_iff_abs_lt_one T).1 hT)
  have hne : ∀ t ∈ Set.uIcc S T, t ^ 2 ≠ 1 := by
    intro t ht
    refine ne_of_lt ((sq_lt_one_iff_abs_lt_one t).2 (abs_lt.2 ?_))
    rw [Set.mem_uIcc] at ht
    rcases ht with ht | ht
    · exact ⟨hS'.1.trans_le ht.1, ht.2.trans_lt hT'.2⟩
    · exact ⟨hT'.1.trans_le ht.1, ht.2.trans_lt hS'.2⟩
  have h := intervalIntegral.integral_deriv_smul_comp (a := S) (b := T) (f := fun t => t / (1 - t ^ 2))
    (f' := fun t => (1 + t ^ 2) / (1 - t ^ 2) ^ 2) (g := fun x => f x * phase om (g x)) (fun t ht => deriv_line (hne t ht))
    (by
      refine ContinuousOn.div (by fun_prop) (by fun_prop) fun t ht => ?_
      exact pow_ne_zero _ (sub_ne_zero.2 (hne t ht).symm))
    (by unfold phase; fun_prop)
  rw [← h]
  refine intervalIntegral.integral_congr fun t _ => ?_
  simp only [lineF, lineG, Function.comp, Complex.real_smul]
  push_cast
  ring

theorem tendsto_up (a : ℝ) : Tendsto (fun t : ℝ => a + t / (1 - t)) (𝓝[<] 1) atTop := by
  refine tendsto_atTop_add_const_left _ _ ?_
  have h1 : Tendsto (fun t : ℝ => 1 - t) (𝓝[<] 1) (𝓝[>] 0) := by
    refine tendsto_nhdsWithin_iff.2 ⟨?_, ?_⟩
    · have : Tendsto (fun t : ℝ => 1 - t) (𝓝 1) (𝓝 (1 - 1)) := (continuous_const.sub continuous_id).tendsto 1
      rw [sub_self] at this
      exact this.mono_left nhdsWithin_le_nhds
    · filter_upwards [self_mem_nhdsWithin] with t ht
      exact Set.mem_Ioi.2 (sub_pos.2 ht)
  have h2 := h1.inv_tendsto_nhdsGT_zero
  have h3 : Tendsto (fun t : ℝ => t) (𝓝[<] 1) (𝓝 1) := tendsto_id.mono_left nhdsWithin_le_nhds
  simpa [div_eq_mul_inv] using h3.pos_mul_atTop one_pos h2

theorem tendsto_up_inv (a : ℝ) : Tendsto (fun x : ℝ => (x - a) / (1 + (x - a))) atTop (𝓝[<] 1) := by
  refine tendsto_nhdsWithin_iff.2 ⟨?_, ?_⟩
  · have h1 : Tendsto (fun x : ℝ => 1 + (x - a)) atTop atTop :=
      tendsto_atTop_add_const_left _ _ (tendsto_atTop_add_const_right _ _ tendsto_id)
    have h2 := (h1.inv_tendsto_atTop).const_sub 1
    rw [sub_zero] at h2
    refine h2.congr' ?_
    filter_upwards [h1.eventually_gt_atTop 0] with x hx
    simp only [Pi.inv_apply]
    field_simp
    ring
  · filter_upwards [eventually_gt_atTop (a - 1)] with x hx
    have : 0 < 1 + (x - a) := by linarith
    exact Set.mem_Iio.2 ((div_lt_one this).2 (by linarith))

/-- From `a` to infinity: the transformed integral over `[0, 1)` converges if and only if the original one over `[a, infinity)` does, and
the values are equal. -/
theorem C208_up {f : ℝ → ℂ} {g : ℝ → ℝ} (hf : Continuous f) (hg : Continuous g) (om a : ℝ) (v : ℂ) :
    Tendsto (fun T : ℝ => ∫ t in (0 : ℝ)..T, upF f a t * Complex.exp (Complex.I * om * upG g a t)) (𝓝[<] 1) (𝓝 v) ↔
    Tendsto (fun X : ℝ => ∫ x in a..X, f x * Complex.exp (Complex.I * om * g x)) atTop (𝓝 v) := by
  constructor
  · intro h
    refine (h.comp (tendsto_up_inv a)).congr' ?_
    filter_upwards [eventually_gt_atTop (a - 1)] with x hx
    have h0 : 0 < 1 + (x - a) := by linarith
    have := up_integral hf hg om a (T := (x - a) / (1 + (x - a))) ((div_lt_one h0).2 (by linarith))
    have e : a + (x - a) / (1 + (x - a)) / (1 - (x - a) / (1 + (x - a))) = x := by
      have : 1 - (x - a) / (1 + (x - a)) = 1 / (1 + (x - a)) := by field_simp; ring
      rw [this]
      field_simp
      ring
    rw [e] at this
    exact this
  · intro h
    refine (h.comp (tendsto_up a)).congr' ?_
    filter_upwards [self_mem_nhdsWithin] with t ht
    exact (up_integral hf hg om a ht).symm

/-- From minus infinity to `b`. -/
theorem C208_down {f : ℝ → ℂ} {g : ℝ → ℝ} (hf : Continuous f) (hg : Continuous g) (om b : ℝ) (v : ℂ) :
    Tendsto (fun T : ℝ => ∫ t in (-T)..0, downF f b t * Complex.exp (Complex.I * om * downG g b t)) (𝓝[<] 1) (𝓝 v) ↔
    Tendsto (fun X : ℝ => ∫ x in (-X)..b, f x * Complex.exp (Complex.I * om * g x)) atTop (𝓝 v) := by
  have key := C208_up (f := fun x => f (-x)) (g := fun x => g (-x)) (by fun_prop) (by fun_prop) om (-b) v
  have e1 : (fun T : ℝ => ∫ t in (-T)..0, downF f b t * Complex.exp (Complex.I * om * downG g b t)) =
      fun T : ℝ => ∫ t in (0 : ℝ)..T, upF (fun x => f (-x)) (-b) t * Complex.exp (Complex.I * om * upG (fun x => g (-x)) (-b) t) := by
    funext T
    have h := intervalIntegral.integral_comp_neg (a := 0) (b := T) fun t => downF f b t * Complex.exp (Complex.I * om * downG g b t)
    rw [neg_zero] at h
    rw [← h]
    refine intervalIntegral.integral_congr fun t _ => ?_
    have e : b + -t / (1 - t) = -(-b + t / (1 - t)) := by ring
    have e' : (1 : ℝ) + -t = 1 - t := by ring
    simp only [downF, downG, upF, upG, e', e]
  have e2 : (fun X : ℝ => ∫ x in (-X)..b, f x * Complex.exp (Complex.I * om * g x)) =
      fun X : ℝ => ∫ x in (-b)..X, f (-x) * Complex.exp (Complex.I * om * g (-x)) := by
    funext X
    have h := intervalIntegral.integral_comp_neg (a := -b) (b := X) fun x => f x * Complex.exp (Complex.I * om * g x)
    rw [neg_neg] at h
    exact h.symm
  rw [e1, e2]
  exact key

/-- The whole line: symmetric parts of the transformed integral are symmetric parts of the original one, in both directions. -/
theorem C208_line {f : ℝ → ℂ} {g : ℝ → ℝ} (hf : Continuous f) (hg : Continuous g) (om : ℝ) {S T : ℝ} (hS : S ^ 2 < 1) (hT : T ^ 2 < 1) :
    ∫ t in S..T, lineF f t * Complex.exp (Complex.I * om * lineG g t) =
      ∫ x in S / (1 - S ^ 2)..T / (1 - T ^ 2), f x * Complex.exp (Complex.I * om * g x) :=
  line_integral hf hg om hS hT

theorem tendsto_line : Tendsto (fun t : ℝ => t / (1 - t ^ 2)) (𝓝[<] 1) atTop := by
  have h1 : Tendsto (fun t : ℝ => 1 - t ^ 2) (𝓝[<] 1) (𝓝[>] 0) := by
    refine tendsto_nhdsWithin_iff.2 ⟨?_, ?_⟩
    · have : Tendsto (fun t : ℝ => 1 - t ^ 2) (𝓝 1) (𝓝 (1 - 1 ^ 2)) := (by fun_prop : Continuous fun t : ℝ => 1 - t ^ 2).tendsto 1
      rw [one_pow, sub_self] at this
      exact this.mono_left nhdsWithin_le_nhds
    · filter_upwards [Ioo_mem_nhdsLT (show (0 : ℝ) < 1 by norm_num)] with t ht
      exact Set.mem_Ioi.2 (by nlinarith [ht.1, ht.2])
  have h2 := h1.inv_tendsto_nhdsGT_zero
  have h3 : Tendsto (fun t : ℝ => t) (𝓝[<] 1) (𝓝 1) := tendsto_id.mono_left nhdsWithin_le_nhds
  simpa [div_eq_mul_inv] using h3.pos_mul_atTop one_pos h2

/-- If the two halves of the original integral converge, the transformed integral over `(-1, 1)` converges to their sum. -/
theorem C208_line_limit {f : ℝ → ℂ} {g : ℝ → ℝ} (hf : Continuous f) (hg : Continuous g) (om : ℝ) {u v : ℂ}
    (hu : Tendsto (fun X : ℝ => ∫ x in (-X)..0, f x * Complex.exp (Complex.I * om * g x)) atTop (𝓝 u))
    (hv : Tendsto (fun X : ℝ => ∫ x in (0 : ℝ)..X, f x * Complex.exp (Complex.I * om * g x)) atTop (𝓝 v)) :
    Tendsto (fun p : ℝ × ℝ => ∫ t in (-p.1)..p.2, lineF f t * Complex.exp (Complex.I * om * lineG g t)) (𝓝[<] 1 ×ˢ 𝓝[<] 1) (𝓝 (u + v)) := by
  have h1 := (hu.comp tendsto_line).comp (tendsto_fst (f := 𝓝[<] (1 : ℝ)) (g := 𝓝[<] (1 : ℝ)))
  have h2 := (hv.comp tendsto_line).comp (tendsto_snd (f := 𝓝[<] (1 : ℝ)) (g := 𝓝[<] (1 : ℝ)))
  refine (h1.add h2).congr' ?_
  have hev : ∀ᶠ t : ℝ in 𝓝[<] 1, t ^ 2 < 1 := by
    filter_upwards [Ioo_mem_nhdsLT (show (0 : ℝ) < 1 by norm_num)] with t ht
    nlinarith [ht.1, ht.2]
  filter_upwards [hev.prod_mk hev] with p hp
  have hi : ∀ x y, IntervalIntegrable (fun x => f x * Complex.exp (Complex.I * om * g x)) MeasureTheory.volume x y :=
    fun x y => Continuous.intervalIntegrable (by fun_prop) _ _
  rw [C208_line hf hg om (by rw [neg_sq]; exact hp.1) hp.2]
  simp only [Function.comp]
  rw [intervalIntegral.integral_add_adjacent_intervals (hi _ _) (hi _ _), neg_sq, neg_div]

/-- The Gaussian function on the half line: both integrals converge together. -/
example (v : ℂ) :
    Tendsto (fun T : ℝ => ∫ t in (0 : ℝ)..T, upF (fun x => Complex.exp (-(x : ℂ) ^ 2)) 1 t * Complex.exp (Complex.I * (3 : ℝ) * upG (fun x => x) 1 t))
      (𝓝[<] 1) (𝓝 v) ↔
    Tendsto (fun X : ℝ => ∫ x in (1 : ℝ)..X, Complex.exp (-(x : ℂ) ^ 2) * Complex.exp (Complex.I * (3 : ℝ) * x)) atTop (𝓝 v) :=
  C208_up (by fun_prop) (by fun_prop) 3 1 v

end

end Wafo.Osc
