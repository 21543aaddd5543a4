import Verif.WaveModels.Props

/-!
# `cav76pdf`: total mass
-/

set_option linter.unusedSectionVars false

namespace Wafo.WaveModels

open Real MeasureTheory Set Filter

/-- The quadratic form in the exponent of the density. -/
noncomputable def cavQuad (V p q t : ℝ) : ℝ := (t ^ 2 - p) ^ 2 / V + q

/-- Distribution function of the half period, with `V = m0 - m2^2/m4`, `p = pi^2 m2/m4` and `q = pi^4/m4`. -/
noncomputable def cavCdf (m0 m2 m4 t : ℝ) : ℝ :=
  ((t ^ 2 - π ^ 2 * m2 / m4) / (√(m0 - m2 ^ 2 / m4) * √(cavQuad (m0 - m2 ^ 2 / m4) (π ^ 2 * m2 / m4) (π ^ 4 / m4) t)) +
    m2 / √(m0 * m4)) / (1 + m2 / √(m0 * m4))

theorem cavQuad_pos {V q : ℝ} (hV : 0 < V) (hq : 0 < q) (p t : ℝ) : 0 < cavQuad V p q t := by
  unfold cavQuad
  positivity

theorem cavRatio_deriv {V q : ℝ} (hV : 0 < V) (hq : 0 < q) (p t : ℝ) :
    HasDerivAt (fun t => (t ^ 2 - p) / (√V * √(cavQuad V p q t)))
      (2 * t * q / (√V * (cavQuad V p q t * √(cavQuad V p q t)))) t := by
  have hQ := cavQuad_pos hV hq p t
  have hs := sqrt_pos.mpr hQ
  have hv := sqrt_pos.mpr hV
  have h1 : HasDerivAt (fun t : ℝ => t ^ 2 - p) (2 * t) t := by
    simpa using (hasDerivAt_pow 2 t).sub_const p
  have h2 : HasDerivAt (fun t => cavQuad V p q t) (2 * (t ^ 2 - p) * (2 * t) / V) t := by
    refine (((h1.pow 2).div_const V).add_const q).congr_deriv ?_
    norm_num
  have h3 := (h2.sqrt hQ.ne').const_mul √V
  refine (h1.div h3 (by positivity)).congr_deriv ?_
  have hsq : √(cavQuad V p q t) ^ 2 = cavQuad V p q t := sq_sqrt hQ.le
  have hQe : V * cavQuad V p q t = (t ^ 2 - p) ^ 2 + V * q := by
    unfold cavQuad
    field_simp
  set S := √(cavQuad V p q t)
  rw [← hsq] at hQe ⊢
  field_simp
  linear_combination t * hQe

theorem cavRatio_tendsto {V q : ℝ} (hV : 0 < V) (hq : 0 < q) (p : ℝ) :
    Tendsto (fun t => (t ^ 2 - p) / (√V * √(cavQuad V p q t))) atTop (nhds 1) := by
  have hv := sqrt_pos.mpr hV
  have hinv : Tendsto (fun t : ℝ => 1 - p * t⁻¹ ^ 2) atTop (nhds (1 - p * 0 ^ 2)) :=
    ((tendsto_inv_atTop_zero.pow 2).const_mul p).const_sub 1
  have hq4 : Tendsto (fun t : ℝ => q * t⁻¹ ^ 4) atTop (nhds (q * 0 ^ 4)) := (tendsto_inv_atTop_zero.pow 4).const_mul q
  have hden : Tendsto (fun t : ℝ => √V * √((1 - p * t⁻¹ ^ 2) ^ 2 / V + q * t⁻¹ ^ 4)) atTop
      (nhds (√V * √((1 - p * 0 ^ 2) ^ 2 / V + q * 0 ^ 4))) :=
    ((continuous_sqrt.tendsto _).comp (((hinv.pow 2).div_const V).add hq4)).const_mul √V
  have hval : √V * √((1 - p * 0 ^ 2) ^ 2 / V + q * 0 ^ 4) = 1 := by
    rw [← sqrt_mul hV.le]
    rw [show V * ((1 - p * 0 ^ 2) ^ 2 / V + q * 0 ^ 4) = 1 by field_simp; ring, sqrt_one]
  have h := hinv.div hden (by rw [hval]; exact one_ne_zero)
  rw [hval, show (1 - p * 0 ^ 2) / 1 = 1 by norm_num] at h
  refine h.congr' ?_
  filter_upwards [eventually_gt_atTop 0] with t ht
  simp only [Pi.div_apply]
  have e1 : cavQuad V p q t = (t ^ 2) ^ 2 * ((1 - p * t⁻¹ ^ 2) ^ 2 / V + q * t⁻¹ ^ 4) := by
    unfold cavQuad
    field_simp
  have hp : 0 < (1 - p * t⁻¹ ^ 2) ^ 2 / V + q * t⁻¹ ^ 4 := by positivity
  rw [e1, sqrt_mul (by positivity), sqrt_sq (by positivity)]
  have e2 : t ^ 2 - p = t ^ 2 * (1 - p * t⁻¹ ^ 2) := by
    field_simp
  rw [mul_left_comm √V, show ∀ x y : ℝ, (t ^ 2 - p) / (t ^ 2 * (x * y)) = t ^ 2 * (1 - p * t⁻¹ ^ 2) / (t ^ 2 * (x * y)) from
    fun x y => by rw [← e2], mul_div_mul_left _ _ (by positivity : t ^ 2 ≠ 0)]

theorem cavCdf_zero {m0 m2 m4 : ℝ} (h0 : 0 < m0) (h4 : 0 < m4) (hm : m2 ^ 2 < m0 * m4) :
    cavCdf m0 m2 m4 0 = 0 := by
  have hV : 0 < m0 - m2 ^ 2 / m4 := by
    rw [sub_pos, div_lt_iff₀ h4]
    exact hm
  have hpi := pi_pos
  have e : √(m0 - m2 ^ 2 / m4) * √(cavQuad (m0 - m2 ^ 2 / m4) (π ^ 2 * m2 / m4) (π ^ 4 / m4) 0) = π ^ 2 * √(m0 * m4) / m4 := by
    rw [← sqrt_mul hV.le]
    have : (m0 - m2 ^ 2 / m4) * cavQuad (m0 - m2 ^ 2 / m4) (π ^ 2 * m2 / m4) (π ^ 4 / m4) 0 = (π ^ 2 / m4) ^ 2 * (m0 * m4) := by
      have hW : m0 - m2 ^ 2 / m4 ≠ 0 := hV.ne'
      have hVe : (m0 - m2 ^ 2 / m4) * m4 = m0 * m4 - m2 ^ 2 := by field_simp
      unfold cavQuad
      rw [mul_add, mul_div_cancel₀ _ hW]
      field_simp
      ring
    rw [this, sqrt_mul (by positivity), sqrt_sq (by positivity)]
    ring
  have hs : 0 < √(m0 * m4) := sqrt_pos.mpr (by positivity)
  unfold cavCdf
  rw [e]
  have : ((0 : ℝ) ^ 2 - π ^ 2 * m2 / m4) / (π ^ 2 * √(m0 * m4) / m4) + m2 / √(m0 * m4) = 0 := by
    field_simp
    ring
  rw [this, zero_div]

/-- C357: summed over the amplitudes, the density of the half period `t` is the derivative of an explicit distribution function. -/
theorem C357_period_density {m0 m2 m4 t : ℝ} (h0 : 0 < m0) (h4 : 0 < m4) (h2 : 0 < m2) (hm : m2 ^ 2 < m0 * m4) (ht : 0 < t)
    (j : ℕ) :
    HasDerivAt (cavCdf m0 m2 m4)
      (∫ h in Ioi (0 : ℝ), cav76 m0 m2 m4 (j + 1) t (gaussOf m0 h).1 (gaussOf m0 h).2) t := by
  have hpi := pi_pos
  have hs0 : 0 < √m0 := sqrt_pos.mpr h0
  have hal : alfa m0 m2 m4 ^ 2 = m2 ^ 2 / (m0 * m4) := by
    rw [alfa, div_pow, sq_sqrt (by positivity)]
  have hv : m0 * (1 - m2 ^ 2 / (m0 * m4)) = m0 - m2 ^ 2 / m4 := by
    field_simp
  have hV : 0 < m0 - m2 ^ 2 / m4 := by
    rw [sub_pos, div_lt_iff₀ h4]
    exact hm
  have hroot : √(m0 - m2 ^ 2 / m4) = √m0 * √(1 - m2 ^ 2 / (m0 * m4)) := by
    rw [← hv, sqrt_mul h0.le]
  have hr : 0 < √(1 - m2 ^ 2 / (m0 * m4)) := by
    refine sqrt_pos.mpr ?_
    rw [sub_pos, div_lt_one (by positivity)]
    exact hm
  have hq : 0 < π ^ 4 / m4 := by positivity
  have hQ := cavQuad_pos hV hq (π ^ 2 * m2 / m4) t
  have hd := ((cavRatio_deriv hV hq (π ^ 2 * m2 / m4) t).add_const (m2 / √(m0 * m4))).div_const (1 + m2 / √(m0 * m4))
  refine hd.congr_deriv ?_
  set Q := cavQuad (m0 - m2 ^ 2 / m4) (π ^ 2 * m2 / m4) (π ^ 4 / m4) t with hQd
  have ha : 0 < 1 + alfa m0 m2 m4 := by
    rw [alfa]
    positivity
  have hf : ∀ h : ℝ, cav76 m0 m2 m4 (j + 1) t (gaussOf m0 h).1 (gaussOf m0 h).2 =
      2 * π ^ 4 * (2 / (1 + alfa m0 m2 m4)) / √(2 * π) / m4 / √(m0 - m2 ^ 2 / m4) / t ^ 5 *
        (h ^ 2 * exp (-(Q / (√2 * t ^ 2) ^ 2) * h ^ 2)) := by
    intro h
    simp only [cav76, gaussOf, if_neg (Nat.succ_ne_zero j), hal]
    rw [show √m0 * (h / √m0) = h by field_simp, abs_of_pos (by positivity : 0 < 1 / √m0), hv, hroot]
    have e : -(1 / 2) * (h / t ^ 2) ^ 2 * ((t ^ 2 - π ^ 2 * m2 / m4) ^ 2 / (m0 - m2 ^ 2 / m4) + π ^ 4 / m4) =
        -(Q / (√2 * t ^ 2) ^ 2) * h ^ 2 := by
      rw [show (t ^ 2 - π ^ 2 * m2 / m4) ^ 2 / (m0 - m2 ^ 2 / m4) + π ^ 4 / m4 = Q from rfl, mul_pow √2,
        sq_sqrt (by norm_num : (0 : ℝ) ≤ 2)]
      field_simp
    rw [e]
    have hp2 : 0 < √(2 * π) := sqrt_pos.mpr (by positivity)
    set R := √(1 - m2 ^ 2 / (m0 * m4))
    set E := exp (-(Q / (√2 * t ^ 2) ^ 2) * h ^ 2)
    set A := alfa m0 m2 m4
    set P := √(2 * π)
    field_simp
  simp only [hf]
  have h22 : √2 ^ 2 = (2 : ℝ) := sq_sqrt (by norm_num)
  have h2p : 0 < √(2 : ℝ) := sqrt_pos.mpr (by norm_num)
  rw [integral_const_mul, sq_exp_integral (by positivity), sqrt_div hQ.le, sqrt_sq (by positivity),
    sqrt_mul (by norm_num : (0 : ℝ) ≤ 2), show m2 / √(m0 * m4) = alfa m0 m2 m4 from rfl]
  have hS := sqrt_pos.mpr hQ
  have hW := sqrt_pos.mpr hV
  have hpp := sqrt_pos.mpr hpi
  set A := alfa m0 m2 m4
  set S := √Q
  set W := √(m0 - m2 ^ 2 / m4)
  clear_value A S W Q
  field_simp
  try rw [h22]
  try norm_num

/-- C357: the density of `cav76pdf` with the default transformation is not negative and has the integral one over all half periods
and amplitudes. -/
theorem C357_total_mass {m0 m2 m4 : ℝ} (h0 : 0 < m0) (h4 : 0 < m4) (h2 : 0 < m2) (hm : m2 ^ 2 < m0 * m4) (j : ℕ) :
    (∀ t h, 0 < t → 0 ≤ cav76 m0 m2 m4 (j + 1) t (gaussOf m0 h).1 (gaussOf m0 h).2) ∧
      ∫ t in Ioi (0 : ℝ), ∫ h in Ioi (0 : ℝ), cav76 m0 m2 m4 (j + 1) t (gaussOf m0 h).1 (gaussOf m0 h).2 = 1 := by
  have hpi := pi_pos
  have hV : 0 < m0 - m2 ^ 2 / m4 := by
    rw [sub_pos, div_lt_iff₀ h4]
    exact hm
  have hq : 0 < π ^ 4 / m4 := by positivity
  have hA : 0 < 1 + m2 / √(m0 * m4) := by positivity
  have hnn : ∀ t h, 0 < t → 0 ≤ cav76 m0 m2 m4 (j + 1) t (gaussOf m0 h).1 (gaussOf m0 h).2 := by
    intro t h ht
    simp only [cav76, alfa, if_neg (Nat.succ_ne_zero j)]
    positivity
  refine ⟨hnn, ?_⟩
  have hlim : Tendsto (cavCdf m0 m2 m4) atTop (nhds 1) := by
    have h := ((cavRatio_tendsto hV hq (π ^ 2 * m2 / m4)).add_const (m2 / √(m0 * m4))).div_const (1 + m2 / √(m0 * m4))
    rw [div_self hA.ne'] at h
    exact h
  have hcont : ContinuousWithinAt (cavCdf m0 m2 m4) (Ici 0) 0 :=
    (((cavRatio_deriv hV hq (π ^ 2 * m2 / m4) 0).add_const (m2 / √(m0 * m4))).div_const
      (1 + m2 / √(m0 * m4))).continuousAt.continuousWithinAt
  have := integral_Ioi_of_hasDerivAt_of_nonneg hcont (fun t ht => C357_period_density h0 h4 h2 hm ht j)
    (fun t ht => setIntegral_nonneg measurableSet_Ioi fun h _ => hnn t h ht) hlim
  rw [this, cavCdf_zero h0 h4 hm, sub_zero]

/-- Moments 1, 1, 2. -/
example : ∫ t in Ioi (0 : ℝ), ∫ h in Ioi (0 : ℝ), cav76 1 1 2 1 t (gaussOf 1 h).1 (gaussOf 1 h).2 = 1 :=
  (C357_total_mass one_pos two_pos one_pos (by norm_num) 0).2

end Wafo.WaveModels
