import Verif.Disufq.Props
import Mathlib.Analysis.SpecialFunctions.Sqrt
import Mathlib.Analysis.Calculus.Deriv.Slope
import Mathlib.Analysis.Calculus.Deriv.MeanValue
import Mathlib.Analysis.Complex.ExponentialBounds

set_option linter.unusedSectionVars false

/-!
# C315-C319: the transfer functions of `disufq` and of `qtf`
-/

namespace Wafo.Disufq
open Filter Topology

/-- The linear dispersion relation: the angular frequency of wavenumber `k` at depth `h`. -/
noncomputable def omega (g h k : ℝ) : ℝ := Real.sqrt (g * k * Real.tanh (k * h))

theorem tanh_pos' {x : ℝ} (hx : 0 < x) : 0 < Real.tanh x := by
  rw [Real.tanh_eq_sinh_div_cosh]
  exact div_pos (Real.sinh_pos_iff.2 hx) (Real.cosh_pos x)

theorem one_sub_tanh_sq (x : ℝ) : 1 - Real.tanh x * Real.tanh x = 1 / Real.cosh x ^ 2 := by
  rw [Real.tanh_eq_sinh_div_cosh]
  have := (Real.cosh_pos x).ne'
  field_simp
  linarith [Real.cosh_sq x]

theorem tanh_hasDerivAt (x : ℝ) : HasDerivAt Real.tanh (1 - Real.tanh x * Real.tanh x) x := by
  have h := (Real.hasDerivAt_sinh x).div (Real.hasDerivAt_cosh x) (Real.cosh_pos x).ne'
  have e : (fun y => Real.sinh y / Real.cosh y) = Real.tanh := by
    funext y; rw [Real.tanh_eq_sinh_div_cosh]
  have e2 : (Real.sinh / Real.cosh) = Real.tanh := e
  rw [e2] at h
  refine h.congr_deriv ?_
  rw [one_sub_tanh_sq]
  congr 1
  have := Real.cosh_sq x
  linarith

theorem omega_sq {g h k : ℝ} (hg : 0 < g) (hh : 0 < h) (hk : 0 < k) :
    omega g h k ^ 2 = g * k * Real.tanh (k * h) :=
  Real.sq_sqrt (by have := tanh_pos' (mul_pos hk hh); positivity)

theorem omega_pos {g h k : ℝ} (hg : 0 < g) (hh : 0 < h) (hk : 0 < k) : 0 < omega g h k :=
  Real.sqrt_pos.2 (by have := tanh_pos' (mul_pos hk hh); positivity)

/-- The group velocity of the code is the derivative of the dispersion relation. -/
theorem omega_deriv {g h k : ℝ} (hg : 0 < g) (hh : 0 < h) (hk : 0 < k) :
    HasDerivAt (omega g h) (groupVel g h (omega g h k) k) k := by
  have h1 : HasDerivAt (fun κ => Real.tanh (κ * h)) ((1 - Real.tanh (k * h) * Real.tanh (k * h)) * h) k := by
    have h0 : HasDerivAt (fun κ : ℝ => κ * h) (1 * h) k := (hasDerivAt_id k).mul_const h
    refine (HasDerivAt.comp k (tanh_hasDerivAt (k * h)) h0).congr_deriv ?_
    ring
  have h2 : HasDerivAt (fun κ => g * κ * Real.tanh (κ * h))
      (g * Real.tanh (k * h) + g * k * ((1 - Real.tanh (k * h) * Real.tanh (k * h)) * h)) k := by
    have h0 : HasDerivAt (fun κ : ℝ => g * κ) (g * 1) k := (hasDerivAt_id k).const_mul g
    exact (h0.mul h1).congr_deriv (by ring)
  have hpos : g * k * Real.tanh (k * h) ≠ 0 := by
    have := tanh_pos' (mul_pos hk hh); positivity
  have h3 := h2.sqrt hpos
  refine HasDerivAt.congr_deriv (f := omega g h) h3 ?_
  unfold groupVel
  have hw := (omega_pos hg hh hk).ne'
  rw [show Real.sqrt (g * k * Real.tanh (k * h)) = omega g h k from rfl]
  field_simp
  ring

theorem groupVel_pos {g h w k : ℝ} (hg : 0 < g) (hh : 0 < h) (hk : 0 < k) (hw : 0 < w) : 0 < groupVel g h w k := by
  unfold groupVel
  have h1 := tanh_pos' (mul_pos hk hh)
  have h2 : 0 < 1 - Real.tanh (k * h) * Real.tanh (k * h) := by
    rw [one_sub_tanh_sq]; have := Real.cosh_pos (k * h); positivity
  have h3 := mul_pos hk hh
  have : 0 < Real.tanh (k * h) + k * h * (1 - Real.tanh (k * h) * Real.tanh (k * h)) :=
    add_pos h1 (mul_pos h3 h2)
  show 0 < 0.5 * g * (Real.tanh (k * h) + k * h * (1 - Real.tanh (k * h) * Real.tanh (k * h))) / w
  positivity

theorem tanh_lt_self {x : ℝ} (hx : 0 < x) : Real.tanh x < x := by
  rw [Real.tanh_eq_sinh_div_cosh, div_lt_iff₀ (Real.cosh_pos x)]
  have h1 : StrictMonoOn (fun y => y * Real.cosh y - Real.sinh y) (Set.Ici 0) := by
    apply strictMonoOn_of_deriv_pos (convex_Ici 0)
    · exact ((continuous_id.mul Real.continuous_cosh).sub Real.continuous_sinh).continuousOn
    · intro y hy
      rw [interior_Ici, Set.mem_Ioi] at hy
      have hd : HasDerivAt (fun y => y * Real.cosh y - Real.sinh y) (1 * Real.cosh y + y * Real.sinh y - Real.cosh y) y :=
        ((hasDerivAt_id y).mul (Real.hasDerivAt_cosh y)).sub (Real.hasDerivAt_sinh y)
      rw [hd.deriv]
      have := Real.sinh_pos_iff.2 hy
      nlinarith [mul_pos hy this]
  have h2 := h1 (Set.mem_Ici.2 le_rfl) (Set.mem_Ici.2 hx.le) hx
  simp only [Real.sinh_zero, zero_mul, sub_zero] at h2
  linarith

/-- The group velocity stays below the speed `√(g h)` of long waves. -/
theorem groupVel_sq_lt {g h k : ℝ} (hg : 0 < g) (hh : 0 < h) (hk : 0 < k) :
    groupVel g h (omega g h k) k * groupVel g h (omega g h k) k < g * h := by
  have hx := mul_pos hk hh
  have ht := tanh_pos' hx
  have htx := tanh_lt_self hx
  have hw2 := omega_sq hg hh hk
  have hw := omega_pos hg hh hk
  have hs : k * h * (1 - Real.tanh (k * h) * Real.tanh (k * h)) ≤ Real.tanh (k * h) := by
    rw [one_sub_tanh_sq, Real.tanh_eq_sinh_div_cosh, mul_one_div, div_le_div_iff₀ (by have := Real.cosh_pos (k * h); positivity)
      (Real.cosh_pos _)]
    have h1 := Real.self_le_sinh_iff.2 hx.le
    have h2 := Real.one_le_cosh (k * h)
    have h3 := Real.cosh_pos (k * h)
    have h4 : k * h ≤ Real.sinh (k * h) * Real.cosh (k * h) := by nlinarith
    nlinarith
  have hs0 : 0 < k * h * (1 - Real.tanh (k * h) * Real.tanh (k * h)) := by
    rw [one_sub_tanh_sq]; have := Real.cosh_pos (k * h); positivity
  show 0.5 * g * (Real.tanh (k * h) + k * h * (1 - Real.tanh (k * h) * Real.tanh (k * h))) / omega g h k *
    (0.5 * g * (Real.tanh (k * h) + k * h * (1 - Real.tanh (k * h) * Real.tanh (k * h))) / omega g h k) < g * h
  set t := Real.tanh (k * h) with htdef
  set s := k * h * (1 - t * t) with hsdef
  rw [div_mul_div_comm, ← pow_two (omega g h k), hw2, div_lt_iff₀ (by positivity)]
  have h5 : (t + s) * (t + s) ≤ 4 * (t * t) := by nlinarith
  have h6 : t * t < k * h * t := by nlinarith
  have h7 : (t + s) * (t + s) < 4 * (k * h * t) := by linarith
  calc 0.5 * g * (t + s) * (0.5 * g * (t + s)) = 0.25 * g ^ 2 * ((t + s) * (t + s)) := by ring
    _ < 0.25 * g ^ 2 * (4 * (k * h * t)) := by
        apply mul_lt_mul_of_pos_left h7; positivity
    _ = g * h * (g * k * t) := by ring

/-- **C315 (sum frequencies).**  The factor on the diagonal is the pair formula at equal components. -/
theorem C315_sum {g h w k : ℝ} (hg : g ≠ 0) (hw : w ≠ 0) (hk : k ≠ 0) : sumDiag g h w k = sumOff g h w w k k :=
  sumDiag_eq hg hw hk

/-- **C315 (difference frequencies).**  The pair formula is `0/0` at equal components; the factor on the diagonal
(up to `k h < 300`, where the code cuts off its last term) is its limit along the dispersion relation. -/
theorem C315_difference {g h k : ℝ} (hg : 0 < g) (hh : 0 < h) (hk : 0 < k) (hcut : k * h < 300) :
    Tendsto (fun κ => difOff g h (omega g h k) (omega g h κ) k κ) (𝓝[≠] k) (𝓝 (difDiag g h (omega g h k) k)) := by
  set w := omega g h k with hwdef
  set c := groupVel g h w k with hcdef
  have hw := omega_pos hg hh hk
  have hc : 0 < c := groupVel_pos hg hh hk hw
  have hd : HasDerivAt (omega g h) c k := omega_deriv hg hh hk
  have hω : Tendsto (omega g h) (𝓝[≠] k) (𝓝 w) := hd.continuousAt.tendsto.mono_left nhdsWithin_le_nhds
  have hid : Tendsto (fun κ : ℝ => κ) (𝓝[≠] k) (𝓝 k) := tendsto_id.mono_left nhdsWithin_le_nhds
  have hslope := hd.tendsto_slope
  have hq : Tendsto (fun κ => (slope (omega g h) k κ)⁻¹) (𝓝[≠] k) (𝓝 c⁻¹) := hslope.inv₀ hc.ne'
  have hT : Tendsto (fun κ => slope (fun x => Real.tanh ((x - k) * h)) k κ) (𝓝[≠] k) (𝓝 h) := by
    have h1 : HasDerivAt (fun x => Real.tanh ((x - k) * h)) h k := by
      have h0 : HasDerivAt (fun x : ℝ => (x - k) * h) (1 * h) k := ((hasDerivAt_id k).sub_const k).mul_const h
      refine (HasDerivAt.comp k (tanh_hasDerivAt ((k - k) * h)) h0).congr_deriv ?_
      rw [sub_self, zero_mul, Real.tanh_zero]
      ring
    exact h1.tendsto_slope
  have hne : ∀ᶠ κ in 𝓝[≠] k, slope (omega g h) k κ ≠ 0 := hslope.eventually_ne hc.ne'
  have hself : ∀ᶠ κ in 𝓝[≠] k, κ ≠ k := eventually_mem_nhdsWithin
  -- the factor written with the difference quotients
  have heq : ∀ᶠ κ in 𝓝[≠] k, difOff g h w (omega g h κ) k κ =
      (g * (k / w) * (κ / omega g h κ) - 0.5 / g * (w * w + omega g h κ * omega g h κ - w * omega g h κ) +
        -0.5 * g * (-(κ + k) * w * (slope (omega g h) k κ)⁻¹ + k * k) / (w * omega g h κ)) /
        (1 - g * ((slope (omega g h) k κ)⁻¹ * (slope (omega g h) k κ)⁻¹) *
          slope (fun x => Real.tanh ((x - k) * h)) k κ) +
        0.5 / g * (w * w + omega g h κ * omega g h κ - w * omega g h κ) - 0.5 * (g * (k / w) * (κ / omega g h κ)) := by
    filter_upwards [hne, hself] with κ h1 h2
    have hκ : κ - k ≠ 0 := sub_ne_zero.2 h2
    have hs : slope (omega g h) k κ = (omega g h κ - w) / (κ - k) := by rw [slope_def_field]
    have hsT : slope (fun x => Real.tanh ((x - k) * h)) k κ = Real.tanh ((κ - k) * h) / (κ - k) := by
      rw [slope_def_field, sub_self, zero_mul, Real.tanh_zero, sub_zero]
    have hωw : omega g h κ - w ≠ 0 := by
      intro e; apply h1; rw [hs, e, zero_div]
    have hwω : w - omega g h κ ≠ 0 := by
      intro e; apply hωw; linarith
    have e3 : -0.5 * g * (w * κ * κ - omega g h κ * k * k) / (w * omega g h κ * (w - omega g h κ)) =
        -0.5 * g * (-(κ + k) * w * (slope (omega g h) k κ)⁻¹ + k * k) / (w * omega g h κ) := by
      rw [hs, inv_div]
      have : -(κ + k) * w * ((κ - k) / (omega g h κ - w)) + k * k =
          (w * κ * κ - omega g h κ * k * k) / (w - omega g h κ) := by
        rw [eq_div_iff hwω]
        have : (κ - k) / (omega g h κ - w) * (w - omega g h κ) = -(κ - k) := by
          rw [show w - omega g h κ = -(omega g h κ - w) by ring, mul_neg, div_mul_cancel₀ _ hωw]
        linear_combination (-(κ + k) * w) * this
      rw [this, ← mul_div_assoc, div_div, mul_comm (w - omega g h κ)]
    have e4 : g * (k - κ) / (w - omega g h κ) / (w - omega g h κ) * Real.tanh ((k - κ) * h) =
        g * ((slope (omega g h) k κ)⁻¹ * (slope (omega g h) k κ)⁻¹) *
          slope (fun x => Real.tanh ((x - k) * h)) k κ := by
      rw [hs, hsT, inv_div, show (k - κ) * h = -((κ - k) * h) by ring, Real.tanh_neg,
        show w - omega g h κ = -(omega g h κ - w) by ring, show k - κ = -(κ - k) by ring]
      field_simp
    unfold difOff
    simp only [e3, e4]
  refine Tendsto.congr' (heq.mono fun κ h1 => h1.symm) ?_
  have hden : 1 - g * (c⁻¹ * c⁻¹) * h ≠ 0 := by
    have h1 : c * c < g * h := groupVel_sq_lt hg hh hk
    have h2 : 1 < g * (c⁻¹ * c⁻¹) * h := by
      rw [show g * (c⁻¹ * c⁻¹) * h = g * h / (c * c) by rw [← mul_inv]; ring, lt_div_iff₀ (by positivity)]
      linarith
    linarith
  have hlim : Tendsto (fun κ => (g * (k / w) * (κ / omega g h κ) -
        0.5 / g * (w * w + omega g h κ * omega g h κ - w * omega g h κ) +
        -0.5 * g * (-(κ + k) * w * (slope (omega g h) k κ)⁻¹ + k * k) / (w * omega g h κ)) /
        (1 - g * ((slope (omega g h) k κ)⁻¹ * (slope (omega g h) k κ)⁻¹) *
          slope (fun x => Real.tanh ((x - k) * h)) k κ) +
        0.5 / g * (w * w + omega g h κ * omega g h κ - w * omega g h κ) - 0.5 * (g * (k / w) * (κ / omega g h κ)))
      (𝓝[≠] k) (𝓝 ((g * (k / w) * (k / w) - 0.5 / g * (w * w + w * w - w * w) +
        -0.5 * g * (-(k + k) * w * c⁻¹ + k * k) / (w * w)) / (1 - g * (c⁻¹ * c⁻¹) * h) +
        0.5 / g * (w * w + w * w - w * w) - 0.5 * (g * (k / w) * (k / w)))) := by
    have a1 : Tendsto (fun κ => g * (k / w) * (κ / omega g h κ)) (𝓝[≠] k) (𝓝 (g * (k / w) * (k / w))) :=
      (hid.div hω hw.ne').const_mul _
    have a2 : Tendsto (fun κ => 0.5 / g * (w * w + omega g h κ * omega g h κ - w * omega g h κ)) (𝓝[≠] k)
        (𝓝 (0.5 / g * (w * w + w * w - w * w))) :=
      (((hω.mul hω).const_add _).sub (hω.const_mul w)).const_mul _
    have a3 : Tendsto (fun κ => -0.5 * g * (-(κ + k) * w * (slope (omega g h) k κ)⁻¹ + k * k) / (w * omega g h κ))
        (𝓝[≠] k) (𝓝 (-0.5 * g * (-(k + k) * w * c⁻¹ + k * k) / (w * w))) :=
      ((((((hid.add_const k).neg).mul_const w).mul hq).add_const _).const_mul _).div (hω.const_mul w)
        (mul_ne_zero hw.ne' hw.ne')
    have a4 : Tendsto (fun κ => 1 - g * ((slope (omega g h) k κ)⁻¹ * (slope (omega g h) k κ)⁻¹) *
          slope (fun x => Real.tanh ((x - k) * h)) k κ) (𝓝[≠] k) (𝓝 (1 - g * (c⁻¹ * c⁻¹) * h)) :=
      (((hq.mul hq).const_mul g).mul hT).const_sub 1
    exact ((((a1.sub a2).add a3).div a4 hden).add a2).sub (a1.const_mul 0.5)
  convert hlim using 2
  have hcut' : difDiag g h w k = (0.5 * g * (k / w) * (k / w) - 0.5 * w * w / g + g * k / (w * c)) /
      (1 - g * h / (c * c)) - k / Real.sinh (2 * k * h) := by
    unfold difDiag
    simp only [if_pos hcut]
    rfl
  rw [hcut']
  have e1 : g * (c⁻¹ * c⁻¹) * h = g * h / (c * c) := by rw [← mul_inv]; ring
  have e2 : g * (k / w) * (k / w) - 0.5 / g * (w * w + w * w - w * w) +
        -0.5 * g * (-(k + k) * w * c⁻¹ + k * k) / (w * w) =
      0.5 * g * (k / w) * (k / w) - 0.5 * w * w / g + g * k / (w * c) := by
    field_simp
    ring
  have e3 : 0.5 / g * (w * w + w * w - w * w) - 0.5 * (g * (k / w) * (k / w)) = -(k / Real.sinh (2 * k * h)) := by
    have hw2 : w ^ 2 = g * k * Real.tanh (k * h) := omega_sq hg hh hk
    rw [show 0.5 / g * (w * w + w * w - w * w) - 0.5 * (g * (k / w) * (k / w)) =
      0.5 / g * w ^ 2 - 0.5 * (g * k ^ 2 / w ^ 2) by field_simp; ring, hw2, show 2 * k * h = 2 * (k * h) by ring,
      Real.sinh_two_mul, Real.tanh_eq_sinh_div_cosh]
    have hS := (Real.sinh_pos_iff.2 (mul_pos hk hh)).ne'
    have hC := (Real.cosh_pos (k * h)).ne'
    field_simp
    linear_combination (-1 : ℝ) * Real.cosh_sq (k * h)
  rw [e1, e2]
  linarith [e3]

/-- Non-vacuity of C315. -/
example : Tendsto (fun κ => difOff 9.81 50 (omega 9.81 50 0.1) (omega 9.81 50 κ) 0.1 κ) (𝓝[≠] 0.1)
    (𝓝 (difDiag 9.81 50 (omega 9.81 50 0.1) 0.1)) :=
  C315_difference (by norm_num) (by norm_num) (by norm_num) (by norm_num)

end Wafo.Disufq
