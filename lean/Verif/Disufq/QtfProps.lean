import Verif.Disufq.FactorProps

set_option linter.unusedSectionVars false

/-!
# C316-C319: deep water limits, and the tables of `qtf`
-/

namespace Wafo.Disufq
open Filter Topology

theorem tanh_lt_one' (x : ℝ) : Real.tanh x < 1 := by
  rw [Real.tanh_eq_sinh_div_cosh, div_lt_one (Real.cosh_pos x)]
  exact Real.sinh_lt_cosh x

theorem one_sub_exp_le_tanh (x : ℝ) : 1 - Real.exp (-x) ≤ Real.tanh x := by
  have hc := Real.one_le_cosh x
  have hc0 := Real.cosh_pos x
  rw [Real.tanh_eq_sinh_div_cosh, le_div_iff₀ hc0]
  have h1 := Real.cosh_sub_sinh x
  have h2 := Real.exp_pos (-x)
  nlinarith

theorem tendsto_tanh : Tendsto Real.tanh atTop (𝓝 1) := by
  have h1 : Tendsto (fun x : ℝ => 1 - Real.exp (-x)) atTop (𝓝 (1 - 0)) :=
    (Real.tendsto_exp_atBot.comp tendsto_neg_atTop_atBot).const_sub 1
  rw [sub_zero] at h1
  refine tendsto_of_tendsto_of_tendsto_of_le_of_le' h1 tendsto_const_nhds ?_ ?_
  · exact Eventually.of_forall one_sub_exp_le_tanh
  · exact Eventually.of_forall fun x => (tanh_lt_one' x).le

theorem tendsto_tanh_mul {c : ℝ} (hc : 0 < c) : Tendsto (fun h => Real.tanh (c * h)) atTop (𝓝 1) :=
  tendsto_tanh.comp (tendsto_id.const_mul_atTop hc)

/-- **C316 (sum frequencies).**  In deep water (`w² = g k`) the finite depth factor tends to `(k1 + k2) / 2`, the
factor used for depths above 10000. -/
theorem C316_sum {g w1 w2 k1 k2 : ℝ} (hg : 0 < g) (h1 : 0 < w1) (h2 : 0 < w2) (d1 : w1 ^ 2 = g * k1)
    (d2 : w2 ^ 2 = g * k2) :
    Tendsto (fun h => sumOff g h w1 w2 k1 k2) atTop (𝓝 ((k1 + k2) / 2)) := by
  have e1 : k1 = w1 ^ 2 / g := by field_simp; linarith
  have e2 : k2 = w2 ^ 2 / g := by field_simp; linarith
  have hk : 0 < k1 + k2 := by rw [e1, e2]; positivity
  have ht := tendsto_tanh_mul hk
  have hden : Tendsto (fun h => 1 - g * (k1 + k2) / (w1 + w2) / (w1 + w2) * Real.tanh ((k1 + k2) * h)) atTop
      (𝓝 (1 - g * (k1 + k2) / (w1 + w2) / (w1 + w2) * 1)) := (ht.const_mul _).const_sub 1
  have hs : 0 < w1 + w2 := by linarith
  have hv : 1 - g * (k1 + k2) / (w1 + w2) / (w1 + w2) * 1 = 2 * w1 * w2 / (w1 + w2) ^ 2 := by
    rw [e1, e2]; field_simp; ring
  have hne : 1 - g * (k1 + k2) / (w1 + w2) / (w1 + w2) * 1 ≠ 0 := by rw [hv]; positivity
  have hlim := ((Tendsto.div (tendsto_const_nhds (x := g * (k1 / w1) * (k2 / w2) - 0.5 / g * (w1 * w1 + w2 * w2 + w1 * w2) +
    0.5 * g * (w1 * k2 * k2 + w2 * k1 * k1) / (w1 * w2 * (w1 + w2)))) hden hne).add_const
      (0.5 / g * (w1 * w1 + w2 * w2 + w1 * w2))).sub_const (0.5 * (g * (k1 / w1) * (k2 / w2)))
  refine Tendsto.congr (fun h => rfl) (hlim.trans (le_of_eq ?_))
  congr 1
  have hnum : g * (k1 / w1) * (k2 / w2) - 0.5 / g * (w1 * w1 + w2 * w2 + w1 * w2) +
    0.5 * g * (w1 * k2 * k2 + w2 * k1 * k1) / (w1 * w2 * (w1 + w2)) = 0 := by
    rw [e1, e2]; field_simp; ring
  rw [hnum, zero_div, e1, e2]
  field_simp
  ring

/-- **C316 (difference frequencies).**  Likewise `-|k1 - k2| / 2`. -/
theorem C316_difference {g w1 w2 k1 k2 : ℝ} (hg : 0 < g) (h1 : 0 < w1) (h2 : 0 < w2) (hne12 : w1 ≠ w2)
    (d1 : w1 ^ 2 = g * k1) (d2 : w2 ^ 2 = g * k2) :
    Tendsto (fun h => difOff g h w1 w2 k1 k2) atTop (𝓝 (-|k1 - k2| / 2)) := by
  wlog hlt : w1 < w2 generalizing w1 w2 k1 k2
  · have := this h2 h1 hne12.symm d2 d1 (lt_of_le_of_ne (not_lt.1 hlt) hne12.symm)
    rw [abs_sub_comm]
    exact Tendsto.congr (fun h => difOff_symm _ _ _ _ _ _) this
  have e1 : k1 = w1 ^ 2 / g := by field_simp; linarith
  have e2 : k2 = w2 ^ 2 / g := by field_simp; linarith
  have hk : 0 < k2 - k1 := by
    rw [e1, e2, ← sub_div]
    exact div_pos (by nlinarith) hg
  have habs : |k1 - k2| = k2 - k1 := by rw [abs_sub_comm]; exact abs_of_pos hk
  have ht : Tendsto (fun h => Real.tanh ((k1 - k2) * h)) atTop (𝓝 (-1)) := by
    refine Tendsto.congr (fun h => ?_) (tendsto_tanh_mul hk).neg
    rw [← Real.tanh_neg]
    congr 1
    ring
  have hden : Tendsto (fun h => 1 - g * (k1 - k2) / (w1 - w2) / (w1 - w2) * Real.tanh ((k1 - k2) * h)) atTop
      (𝓝 (1 - g * (k1 - k2) / (w1 - w2) / (w1 - w2) * (-1))) := (ht.const_mul _).const_sub 1
  have hs : w1 - w2 ≠ 0 := sub_ne_zero.2 hne12
  have hs' : w2 - w1 ≠ 0 := sub_ne_zero.2 hne12.symm
  have hv : 1 - g * (k1 - k2) / (w1 - w2) / (w1 - w2) * (-1) = -(2 * w1 / (w2 - w1)) := by
    rw [e1, e2]; field_simp; ring
  have hne : 1 - g * (k1 - k2) / (w1 - w2) / (w1 - w2) * (-1) ≠ 0 := by
    rw [hv, neg_ne_zero]
    exact div_ne_zero (by positivity) hs'
  have hlim := ((Tendsto.div (tendsto_const_nhds (x := g * (k1 / w1) * (k2 / w2) - 0.5 / g * (w1 * w1 + w2 * w2 - w1 * w2) +
    -0.5 * g * (w1 * k2 * k2 - w2 * k1 * k1) / (w1 * w2 * (w1 - w2)))) hden hne).add_const
      (0.5 / g * (w1 * w1 + w2 * w2 - w1 * w2))).sub_const (0.5 * (g * (k1 / w1) * (k2 / w2)))
  refine Tendsto.congr (fun h => rfl) (hlim.trans (le_of_eq ?_))
  congr 1
  have hnum : g * (k1 / w1) * (k2 / w2) - 0.5 / g * (w1 * w1 + w2 * w2 - w1 * w2) +
    -0.5 * g * (w1 * k2 * k2 - w2 * k1 * k1) / (w1 * w2 * (w1 - w2)) = 2 * w1 * w2 / g := by
    rw [e1, e2]; field_simp; ring
  rw [hnum, hv, habs, e1, e2]
  field_simp
  ring

/-- **C316 (mean).**  And the diagonal of the difference frequencies tends to zero. -/
theorem C316_mean {g w k : ℝ} (hg : 0 < g) (hw : 0 < w) (d : w ^ 2 = g * k) :
    Tendsto (fun h => difDiag g h w k) atTop (𝓝 0) := by
  have e : k = w ^ 2 / g := by field_simp; linarith
  have hk : 0 < k := by rw [e]; positivity
  have ht := tendsto_tanh_mul hk
  -- the second term of the group velocity vanishes
  have hx : Tendsto (fun h => k * h * (1 - Real.tanh (k * h) * Real.tanh (k * h))) atTop (𝓝 0) := by
    have hub : Tendsto (fun h : ℝ => (k * h)⁻¹) atTop (𝓝 0) :=
      tendsto_inv_atTop_zero.comp (tendsto_id.const_mul_atTop hk)
    refine tendsto_of_tendsto_of_tendsto_of_le_of_le' tendsto_const_nhds hub ?_ ?_
    · filter_upwards [eventually_gt_atTop (0 : ℝ)] with h hh
      rw [one_sub_tanh_sq]
      have := Real.cosh_pos (k * h)
      positivity
    · filter_upwards [eventually_gt_atTop (0 : ℝ)] with h hh
      have hp := mul_pos hk hh
      rw [one_sub_tanh_sq, mul_one_div, div_le_iff₀ (by have := Real.cosh_pos (k * h); positivity)]
      have h1 := Real.self_le_sinh_iff.2 hp.le
      have h2 := Real.cosh_sq (k * h)
      have h3 : (k * h) ^ 2 ≤ Real.cosh (k * h) ^ 2 := by nlinarith
      calc k * h = (k * h)⁻¹ * (k * h) ^ 2 := by field_simp
        _ ≤ (k * h)⁻¹ * Real.cosh (k * h) ^ 2 := mul_le_mul_of_nonneg_left h3 (by positivity)
  have hcg : Tendsto (fun h => groupVel g h w k) atTop (𝓝 (0.5 * g * (1 + 0) / w)) :=
    ((ht.add hx).const_mul (0.5 * g)).div_const w
  have hc0 : 0 < 0.5 * g * (1 + 0) / w := by positivity
  set c := 0.5 * g * (1 + 0) / w with hc
  have hnum : Tendsto (fun h => 0.5 * g * (k / w) * (k / w) - 0.5 * w * w / g + g * k / (w * groupVel g h w k)) atTop
      (𝓝 (0.5 * g * (k / w) * (k / w) - 0.5 * w * w / g + g * k / (w * c))) :=
    (Tendsto.div (tendsto_const_nhds (x := g * k)) (hcg.const_mul w) (mul_ne_zero hw.ne' hc0.ne')).const_add _
  have hgh : Tendsto (fun h => g * h / (groupVel g h w k * groupVel g h w k)) atTop atTop := by
    have h1 : Tendsto (fun h => (groupVel g h w k * groupVel g h w k)⁻¹) atTop (𝓝 (c * c)⁻¹) :=
      (hcg.mul hcg).inv₀ (mul_ne_zero hc0.ne' hc0.ne')
    have h2 : Tendsto (fun h : ℝ => g * h) atTop atTop := tendsto_id.const_mul_atTop hg
    exact h2.atTop_mul_pos (by positivity) h1
  have hden : Tendsto (fun h => (1 - g * h / (groupVel g h w k * groupVel g h w k))⁻¹) atTop (𝓝 0) := by
    have h1 : Tendsto (fun h => 1 - g * h / (groupVel g h w k * groupVel g h w k)) atTop atBot := by
      have := tendsto_neg_atTop_atBot.comp hgh
      have h2 := tendsto_atBot_add_const_left atTop (1 : ℝ) this
      exact h2.congr fun h => by simp [sub_eq_add_neg]
    exact tendsto_inv_atBot_zero.comp h1
  have hfirst := hnum.mul hden
  rw [mul_zero] at hfirst
  have hlast : ∀ᶠ h in atTop, (if k * h < 300 then k / Real.sinh (2 * k * h) else 0) = 0 := by
    filter_upwards [eventually_ge_atTop (300 / k)] with h hh
    rw [if_neg]
    rw [div_le_iff₀ hk] at hh
    linarith
  refine Tendsto.congr' ?_ hfirst
  filter_upwards [hlast] with h hh
  show _ = (0.5 * g * (k / w) * (k / w) - 0.5 * w * w / g + g * k / (w * groupVel g h w k)) /
    (1 - g * h / (groupVel g h w k * groupVel g h w k)) - (if k * h < 300 then k / Real.sinh (2 * k * h) else 0)
  rw [hh, sub_zero]
  exact (div_eq_mul_inv _ _).symm

/-! ## `qtf` -/

/-- **C317.**  The tables of `qtf` that agree with the factors of the simulation (half of them): both tables for
infinite depth, ... -/
theorem C317_infinite {k1 k2 : ℝ} (h1 : 0 ≤ k1) (h2 : 0 ≤ k2) :
    qtfSumInf k1 k2 = ((k1 + k2) / 2) / 2 ∧ qtfDifInf k1 k2 = (-|k1 - k2| / 2) / 2 := by
  unfold qtfSumInf qtfDifInf
  rw [abs_of_nonneg h1, abs_of_nonneg h2]
  constructor <;> ring

/-- ... the diagonal of the difference frequencies, ... -/
theorem C317_diagonal {g h w k : ℝ} (hcut : k * h < 300) : qtfDiag g h w k = difDiag g h w k / 2 := by
  have e : 0.5 * g * (Real.tanh (k * h) + k * h / Real.cosh (k * h) ^ 2) / w = groupVel g h w k := by
    unfold groupVel
    simp only
    rw [one_sub_tanh_sq, mul_one_div]
  unfold qtfDiag difDiag
  simp only [e, if_pos hcut]
  rw [show g * (k / w) ^ 2 - w ^ 2 / g + 2 * g * k / (w * groupVel g h w k) =
    2 * (0.5 * g * (k / w) * (k / w) - 0.5 * w * w / g + g * k / (w * groupVel g h w k)) by ring,
    show groupVel g h w k ^ 2 = groupVel g h w k * groupVel g h w k by ring, show 2 * (k * h) = 2 * k * h by ring]
  ring

theorem mul_tanh_abs (x h : ℝ) : x * Real.tanh (x * h) = |x| * Real.tanh (|x| * h) := by
  rcases le_total 0 x with hx | hx
  · rw [abs_of_nonneg hx]
  · rw [abs_of_nonpos hx, show -x * h = -(x * h) by ring, Real.tanh_neg]; ring

/-- ... and the difference frequencies of the method 'langley', wherever its denominator does not vanish. -/
theorem C317_langley_difference {g h w1 w2 k1 k2 : ℝ} (hg : g ≠ 0) (h1 : w1 ≠ 0) (h2 : w2 ≠ 0) (h12 : w1 ≠ w2)
    (hp : (w1 - w2) ^ 2 * Real.cosh (|k1 - k2| * h) - g * |k1 - k2| * Real.sinh (|k1 - k2| * h) ≠ 0) :
    qtfDifL g h w1 w2 k1 k2 = difOff g h w1 w2 k1 k2 / 2 := by
  have hs : w1 - w2 ≠ 0 := sub_ne_zero.2 h12
  have hC := (Real.cosh_pos (|k1 - k2| * h)).ne'
  have e4 : 1 - g * (k1 - k2) / (w1 - w2) / (w1 - w2) * Real.tanh ((k1 - k2) * h) =
      ((w1 - w2) ^ 2 * Real.cosh (|k1 - k2| * h) - g * |k1 - k2| * Real.sinh (|k1 - k2| * h)) /
        ((w1 - w2) ^ 2 * Real.cosh (|k1 - k2| * h)) := by
    rw [show g * (k1 - k2) / (w1 - w2) / (w1 - w2) * Real.tanh ((k1 - k2) * h) =
      g / (w1 - w2) / (w1 - w2) * ((k1 - k2) * Real.tanh ((k1 - k2) * h)) by ring, mul_tanh_abs,
      Real.tanh_eq_sinh_div_cosh]
    field_simp
  unfold qtfDifL difOff
  simp only [e4]
  set P := (w1 - w2) ^ 2 * Real.cosh (|k1 - k2| * h) - g * |k1 - k2| * Real.sinh (|k1 - k2| * h)
  set C := Real.cosh (|k1 - k2| * h)
  field_simp
  ring

/-- **C318.**  The method 'winterstein' (the default) places the depth outside the hyperbolic tangent.  Its tables
are right for depth one, ... -/
theorem C318_depth_one (g w1 w2 k1 k2 : ℝ) :
    qtfSumW g 1 w1 w2 k1 k2 = sumOff g 1 w1 w2 k1 k2 / 2 ∧ qtfDifW g 1 w1 w2 k1 k2 = difOff g 1 w1 w2 k1 k2 / 2 := by
  constructor
  · unfold qtfSumW sumOff
    have e4 : g * 1 * (k1 + k2) / (w1 + w2) ^ 2 * Real.tanh (k1 + k2) =
        g * (k1 + k2) / (w1 + w2) / (w1 + w2) * Real.tanh ((k1 + k2) * 1) := by
      rw [mul_one, mul_one, div_div, pow_two]
    simp only [e4]
    have e : 2 * g * (k1 * k2) / (w1 * w2) - (w1 ^ 2 + w2 ^ 2 + w1 * w2) / g +
        g * (w1 * k2 ^ 2 + w2 * k1 ^ 2) / (w1 * w2 * (w1 + w2)) =
        2 * (g * (k1 / w1) * (k2 / w2) - 0.5 / g * (w1 * w1 + w2 * w2 + w1 * w2) +
          0.5 * g * (w1 * k2 * k2 + w2 * k1 * k1) / (w1 * w2 * (w1 + w2))) := by
      ring
    rw [e]
    ring
  · unfold qtfDifW difOff
    have e4 : g * 1 * |k1 - k2| / (w1 - w2) ^ 2 * Real.tanh |k1 - k2| =
        g * (k1 - k2) / (w1 - w2) / (w1 - w2) * Real.tanh ((k1 - k2) * 1) := by
      have := mul_tanh_abs (k1 - k2) 1
      rw [mul_one, mul_one] at this
      rw [mul_one, mul_one, div_div, ← pow_two,
        show g * (k1 - k2) / (w1 - w2) ^ 2 * Real.tanh (k1 - k2) =
          g / (w1 - w2) ^ 2 * ((k1 - k2) * Real.tanh (k1 - k2)) by ring, this]
      ring
    simp only [e4]
    have e : 2 * g * (k1 * k2) / (w1 * w2) - (w1 ^ 2 + w2 ^ 2 - w1 * w2) / g -
        g * (w1 * k2 ^ 2 - w2 * k1 ^ 2) / (w1 * w2 * (w1 - w2)) =
        2 * (g * (k1 / w1) * (k2 / w2) - 0.5 / g * (w1 * w1 + w2 * w2 - w1 * w2) +
          -0.5 * g * (w1 * k2 * k2 - w2 * k1 * k1) / (w1 * w2 * (w1 - w2))) := by
      ring
    rw [e]
    ring

/-- ... but for growing depth its difference frequencies tend to `(w1 - w2)² / (4 g) > 0` instead of the negative
value `-|k1 - k2| / 4` returned for infinite depth: **the wrong sign for every pair of frequencies**. -/
theorem C318_limit_refuted {g w1 w2 k1 k2 : ℝ} (hg : 0 < g) (h1 : 0 < w1) (h2 : 0 < w2) (h12 : w1 ≠ w2)
    (d1 : w1 ^ 2 = g * k1) (d2 : w2 ^ 2 = g * k2) :
    Tendsto (fun h => qtfDifW g h w1 w2 k1 k2) atTop (𝓝 ((w1 - w2) ^ 2 / (4 * g))) ∧
      qtfDifInf k1 k2 < 0 ∧ 0 < (w1 - w2) ^ 2 / (4 * g) := by
  have e1 : k1 = w1 ^ 2 / g := by field_simp; linarith
  have e2 : k2 = w2 ^ 2 / g := by field_simp; linarith
  have hk12 : k1 ≠ k2 := by
    rw [e1, e2]
    intro e
    have : w1 ^ 2 = w2 ^ 2 := by field_simp at e; exact e
    exact h12 ((pow_left_inj₀ h1.le h2.le two_ne_zero).1 this)
  have hk : 0 < |k1 - k2| := abs_pos.2 (sub_ne_zero.2 hk12)
  have hs : w1 - w2 ≠ 0 := sub_ne_zero.2 h12
  have hs2 : 0 < (w1 - w2) ^ 2 := by positivity
  refine ⟨?_, ?_, by positivity⟩
  · have hc : 0 < g * |k1 - k2| / (w1 - w2) ^ 2 * Real.tanh |k1 - k2| := by
      have := tanh_pos' hk
      positivity
    have hgrow : Tendsto (fun h : ℝ => g * |k1 - k2| / (w1 - w2) ^ 2 * Real.tanh |k1 - k2| * h) atTop atTop :=
      tendsto_id.const_mul_atTop hc
    have hden : Tendsto (fun h : ℝ => (1 - g * h * |k1 - k2| / (w1 - w2) ^ 2 * Real.tanh |k1 - k2|)⁻¹) atTop (𝓝 0) := by
      have h3 := tendsto_atBot_add_const_left atTop (1 : ℝ) (tendsto_neg_atTop_atBot.comp hgrow)
      refine tendsto_inv_atBot_zero.comp (h3.congr fun h => ?_)
      simp only [Function.comp_apply]
      ring
    have hlim := ((((hden.const_mul (2 * g * (k1 * k2) / (w1 * w2) - (w1 ^ 2 + w2 ^ 2 - w1 * w2) / g -
      g * (w1 * k2 ^ 2 - w2 * k1 ^ 2) / (w1 * w2 * (w1 - w2)))).add_const ((w1 ^ 2 + w2 ^ 2 - w1 * w2) / g)).sub_const
        (0.5 * (2 * g * (k1 * k2) / (w1 * w2))))).const_mul 0.25
    refine Tendsto.congr (fun h => ?_) (hlim.trans (le_of_eq ?_))
    · unfold qtfDifW
      simp only
      rw [div_eq_mul_inv (2 * g * (k1 * k2) / (w1 * w2) - (w1 ^ 2 + w2 ^ 2 - w1 * w2) / g -
        g * (w1 * k2 ^ 2 - w2 * k1 ^ 2) / (w1 * w2 * (w1 - w2)))]
    · congr 1
      rw [mul_zero, zero_add, e1, e2]
      field_simp
      ring
  · rw [(C317_infinite (by rw [e1]; positivity) (by rw [e2]; positivity)).2]
    linarith

theorem half_lt_tanh_two : 1 / 2 < Real.tanh 2 := by
  have h := one_sub_exp_le_tanh 2
  have h2 : Real.exp (-2) < 1 / 2 := by
    rw [Real.exp_neg, inv_lt_comm₀ (Real.exp_pos 2) (by norm_num)]
    have := Real.add_one_le_exp (2 : ℝ)
    linarith
  linarith

/-- **C318 (units).**  The factor of the simulation has the dimension of a wavenumber: changing the unit of length by
the factor `c` divides it by `c`. -/
theorem C318_units (g h w1 w2 k1 k2 : ℝ) {c : ℝ} (hc : c ≠ 0) :
    sumOff (c * g) (c * h) w1 w2 (k1 / c) (k2 / c) = sumOff g h w1 w2 k1 k2 / c := by
  unfold sumOff
  have e1 : c * g * (k1 / c / w1) * (k2 / c / w2) = g * (k1 / w1) * (k2 / w2) / c := by
    rw [div_div, div_div, mul_comm c w1, ← div_div]
    field_simp
  have e2 : 0.5 / (c * g) * (w1 * w1 + w2 * w2 + w1 * w2) = 0.5 / g * (w1 * w1 + w2 * w2 + w1 * w2) / c := by
    rw [mul_comm c g, ← div_div]; ring
  have e3 : 0.5 * (c * g) * (w1 * (k2 / c) * (k2 / c) + w2 * (k1 / c) * (k1 / c)) / (w1 * w2 * (w1 + w2)) =
      0.5 * g * (w1 * k2 * k2 + w2 * k1 * k1) / (w1 * w2 * (w1 + w2)) / c := by
    rw [div_right_comm]
    congr 1
    field_simp
  have e4 : c * g * (k1 / c + k2 / c) / (w1 + w2) / (w1 + w2) * Real.tanh ((k1 / c + k2 / c) * (c * h)) =
      g * (k1 + k2) / (w1 + w2) / (w1 + w2) * Real.tanh ((k1 + k2) * h) := by
    rw [← add_div, show (k1 + k2) / c * (c * h) = (k1 + k2) * h by field_simp,
      show c * g * ((k1 + k2) / c) = g * (k1 + k2) by field_simp]
  simp only [e1, e2, e3, e4]
  ring

/-- The table of `qtf` does not: in other units of length it describes another wave. -/
theorem C318_units_refuted : ∃ g h w1 w2 k1 k2 c : ℝ, 0 < c ∧ 0 < g ∧ 0 < h ∧ 0 < w1 ∧ 0 < w2 ∧ 0 < k1 ∧ 0 < k2 ∧
    qtfSumW (c * g) (c * h) w1 w2 (k1 / c) (k2 / c) ≠ qtfSumW g h w1 w2 k1 k2 / c := by
  refine ⟨1, 1, 1, 1, 2, 2, 2, by norm_num, by norm_num, by norm_num, by norm_num, by norm_num, by norm_num,
    by norm_num, ?_⟩
  have h4 := tanh_lt_one' 4
  have h2 := half_lt_tanh_two
  have e1 : qtfSumW 1 1 1 1 2 2 = 0.25 * (9 / (1 - Real.tanh 4) - 1) := by
    unfold qtfSumW
    norm_num
    ring
  have e2 : qtfSumW (2 * 1) (2 * 1) 1 1 (2 / 2) (2 / 2) = 0.25 * ((9 / 2) / (1 - 2 * Real.tanh 2) - 1 / 2) := by
    unfold qtfSumW
    norm_num
    ring
  rw [e1, e2]
  have p1 : 0 < 9 / (1 - Real.tanh 4) := div_pos (by norm_num) (by linarith)
  have p2 : (9 / 2) / (1 - 2 * Real.tanh 2) < 0 := div_neg_of_pos_of_neg (by norm_num) (by linarith)
  intro e
  linarith

/-- **C319.**  The sum frequencies of the method 'langley' contain `g * 2` for `g ** 2`: they differ from the factor of
the simulation by the term below, ... -/
theorem C319_langley_sum {g h w1 w2 k1 k2 : ℝ} (hg : g ≠ 0) (h1 : w1 ≠ 0) (h2 : w2 ≠ 0) (h12 : w1 + w2 ≠ 0)
    (hp : (w1 + w2) ^ 2 * Real.cosh ((k1 + k2) * h) - g * (k1 + k2) * Real.sinh ((k1 + k2) * h) ≠ 0) :
    qtfSumL g h w1 w2 k1 k2 = sumOff g h w1 w2 k1 k2 / 2 - k1 ^ 2 * (g - 2) / (4 * w1) * (w1 + w2) *
      Real.cosh ((k1 + k2) * h) /
      ((w1 + w2) ^ 2 * Real.cosh ((k1 + k2) * h) - g * (k1 + k2) * Real.sinh ((k1 + k2) * h)) := by
  have hC := (Real.cosh_pos ((k1 + k2) * h)).ne'
  have e4 : 1 - g * (k1 + k2) / (w1 + w2) / (w1 + w2) * Real.tanh ((k1 + k2) * h) =
      ((w1 + w2) ^ 2 * Real.cosh ((k1 + k2) * h) - g * (k1 + k2) * Real.sinh ((k1 + k2) * h)) /
        ((w1 + w2) ^ 2 * Real.cosh ((k1 + k2) * h)) := by
    rw [Real.tanh_eq_sinh_div_cosh]
    field_simp
  unfold qtfSumL sumOff
  simp only [e4]
  set P := (w1 + w2) ^ 2 * Real.cosh ((k1 + k2) * h) - g * (k1 + k2) * Real.sinh ((k1 + k2) * h)
  set C := Real.cosh ((k1 + k2) * h)
  field_simp
  ring

/-- ... so the table is wrong at every pair of components, unless gravity is 2, ... -/
theorem C319_langley_sum_refuted {g h w1 w2 k1 k2 : ℝ} (hg : g ≠ 0) (hg2 : g ≠ 2) (h1 : w1 ≠ 0) (h2 : w2 ≠ 0)
    (h12 : w1 + w2 ≠ 0) (hk : k1 ≠ 0)
    (hp : (w1 + w2) ^ 2 * Real.cosh ((k1 + k2) * h) - g * (k1 + k2) * Real.sinh ((k1 + k2) * h) ≠ 0) :
    qtfSumL g h w1 w2 k1 k2 ≠ sumOff g h w1 w2 k1 k2 / 2 := by
  rw [C319_langley_sum hg h1 h2 h12 hp]
  have hC := (Real.cosh_pos ((k1 + k2) * h)).ne'
  have : k1 ^ 2 * (g - 2) / (4 * w1) * (w1 + w2) * Real.cosh ((k1 + k2) * h) /
      ((w1 + w2) ^ 2 * Real.cosh ((k1 + k2) * h) - g * (k1 + k2) * Real.sinh ((k1 + k2) * h)) ≠ 0 := by
    apply div_ne_zero _ hp
    have := sub_ne_zero.2 hg2
    positivity
  intro e
  apply this
  linarith

/-- ... and it is not symmetric in the two components. -/
theorem C319_not_symmetric {g h w1 w2 k1 k2 : ℝ} (hg : g ≠ 0) (hg2 : g ≠ 2) (h1 : w1 ≠ 0) (h2 : w2 ≠ 0)
    (h12 : w1 + w2 ≠ 0) (hk : k1 ^ 2 / w1 ≠ k2 ^ 2 / w2)
    (hp : (w1 + w2) ^ 2 * Real.cosh ((k1 + k2) * h) - g * (k1 + k2) * Real.sinh ((k1 + k2) * h) ≠ 0) :
    qtfSumL g h w1 w2 k1 k2 ≠ qtfSumL g h w2 w1 k2 k1 := by
  have hp' : (w2 + w1) ^ 2 * Real.cosh ((k2 + k1) * h) - g * (k2 + k1) * Real.sinh ((k2 + k1) * h) ≠ 0 := by
    rwa [add_comm w2 w1, add_comm k2 k1]
  rw [C319_langley_sum hg h1 h2 h12 hp, C319_langley_sum hg h2 h1 (by rwa [add_comm]) hp', sumOff_symm,
    add_comm w2 w1, add_comm k2 k1]
  set P := (w1 + w2) ^ 2 * Real.cosh ((k1 + k2) * h) - g * (k1 + k2) * Real.sinh ((k1 + k2) * h)
  have hC := (Real.cosh_pos ((k1 + k2) * h)).ne'
  set C := Real.cosh ((k1 + k2) * h)
  have hf : (g - 2) / 4 * (w1 + w2) * C / P ≠ 0 := by
    apply div_ne_zero _ hp
    have := sub_ne_zero.2 hg2
    positivity
  intro e
  apply hk
  apply mul_right_cancel₀ hf
  have e1 : k1 ^ 2 * (g - 2) / (4 * w1) * (w1 + w2) * C / P = k1 ^ 2 / w1 * ((g - 2) / 4 * (w1 + w2) * C / P) := by
    rw [mul_comm 4 w1, ← div_div]; ring
  have e2 : k2 ^ 2 * (g - 2) / (4 * w2) * (w1 + w2) * C / P = k2 ^ 2 / w2 * ((g - 2) / 4 * (w1 + w2) * C / P) := by
    rw [mul_comm 4 w2, ← div_div]; ring
  rw [← e1, ← e2]
  linarith

/-- Non-vacuity of C316 to C319. -/
example : Tendsto (fun h => qtfDifW 1 h 1 2 1 4) atTop (𝓝 ((1 - 2) ^ 2 / (4 * 1))) :=
  (C318_limit_refuted (by norm_num) (by norm_num) (by norm_num) (by norm_num) (by norm_num) (by norm_num)).1

example : Tendsto (fun h => difOff 1 h 1 2 1 4) atTop (𝓝 (-|1 - 4| / 2)) :=
  C316_difference (by norm_num) (by norm_num) (by norm_num) (by norm_num) (by norm_num) (by norm_num)

/-- The denominators of C317 and C319 are not zero at depth 0 (and nearby). -/
example : qtfSumL 9.81 0 1 2 1 4 ≠ qtfSumL 9.81 0 2 1 4 1 :=
  C319_not_symmetric (by norm_num) (by norm_num) (by norm_num) (by norm_num) (by norm_num) (by norm_num)
    (by simp; norm_num)

end Wafo.Disufq
