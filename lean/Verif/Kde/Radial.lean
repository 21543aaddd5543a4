import Mathlib.MeasureTheory.Measure.Lebesgue.VolumeOfBalls
import Mathlib.MeasureTheory.Constructions.HaarToSphere
import Mathlib.MeasureTheory.Integral.IntervalIntegral.IntegrationByParts
import Mathlib.MeasureTheory.Integral.Pi
import Mathlib.Analysis.SpecialFunctions.ImproperIntegrals
import Mathlib.MeasureTheory.Measure.Lebesgue.Integral
import Mathlib.Tactic.LinearCombination
import Verif.Kde.Kernel

/-! Integrals of the kernels over `d` dimensional space. -/

set_option linter.unusedSectionVars false

namespace Wafo.Kde

open Real MeasureTheory

/-- `∫ y^(d-1) (1 - y²)^p` over `[0, 1]`, times `d`. -/
theorem beta_rec (p : ℕ) : ∀ d : ℕ, d ≠ 0 →
    (∫ y in (0 : ℝ)..1, y ^ (d - 1) * (1 - y ^ 2) ^ p) * d
      = 2 ^ p * p.factorial / ∏ k ∈ Finset.range p, ((d : ℝ) + 2 + 2 * k) := by
  induction p with
  | zero =>
    intro d hd
    have hd' : (d : ℝ) ≠ 0 := by exact_mod_cast hd
    simp only [pow_zero, mul_one, Finset.range_zero, Finset.prod_empty, Nat.factorial_zero, Nat.cast_one, div_one]
    rw [integral_pow, Nat.sub_add_cancel (Nat.one_le_iff_ne_zero.2 hd)]
    rw [zero_pow hd]
    have : ((d - 1 : ℕ) : ℝ) + 1 = d := by
      rw [Nat.cast_sub (Nat.one_le_iff_ne_zero.2 hd)]; simp
    rw [this]; field_simp; simp
  | succ p ih =>
    intro d hd
    have hd' : (d : ℝ) ≠ 0 := by exact_mod_cast hd
    have h1 := ih (d + 2) (by omega)
    have hparts : (∫ y in (0 : ℝ)..1, y ^ (d - 1) * (1 - y ^ 2) ^ (p + 1))
        = 2 * ((p : ℝ) + 1) / (d : ℝ) * ∫ y in (0 : ℝ)..1, y ^ (d + 2 - 1) * (1 - y ^ 2) ^ p := by
      have hu : ∀ y : ℝ, HasDerivAt (fun y : ℝ => (1 - y ^ 2) ^ (p + 1)) (-(2 * (p + 1) * y) * (1 - y ^ 2) ^ p) y := by
        intro y
        have := ((hasDerivAt_const y (1 : ℝ)).sub (hasDerivAt_pow 2 y)).pow (p + 1)
        refine this.congr_deriv ?_
        simp
        ring
      have hv : ∀ y : ℝ, HasDerivAt (fun y : ℝ => y ^ d / d) (y ^ (d - 1)) y := by
        intro y
        have := (hasDerivAt_pow d y).div_const (d : ℝ)
        refine this.congr_deriv ?_
        field_simp
      have := intervalIntegral.integral_mul_deriv_eq_deriv_mul (a := (0 : ℝ)) (b := 1)
        (u := fun y : ℝ => (1 - y ^ 2) ^ (p + 1)) (v := fun y : ℝ => y ^ d / d)
        (fun y _ => hu y) (fun y _ => hv y)
        (by apply Continuous.intervalIntegrable; fun_prop) (by apply Continuous.intervalIntegrable; fun_prop)
      have e1 : (∫ y in (0 : ℝ)..1, y ^ (d - 1) * (1 - y ^ 2) ^ (p + 1))
          = ∫ y in (0 : ℝ)..1, (1 - y ^ 2) ^ (p + 1) * y ^ (d - 1) := by
        refine intervalIntegral.integral_congr fun y _ => ?_
        ring
      rw [e1, this, zero_pow hd]
      simp only [one_pow, sub_self, ne_eq, Nat.succ_ne_zero, not_false_eq_true, zero_pow, zero_mul, zero_div,
        mul_zero, zero_sub]
      rw [← intervalIntegral.integral_const_mul, ← intervalIntegral.integral_neg]
      refine intervalIntegral.integral_congr fun y _ => ?_
      have : y ^ (d + 2 - 1) = y * y ^ d := by rw [show d + 2 - 1 = d + 1 by omega, pow_succ]; ring
      simp only [this]
      field_simp
    rw [hparts, Finset.prod_range_succ']
    have hp0 : (∏ k ∈ Finset.range p, ((d : ℝ) + 2 + 2 * ((k + 1 : ℕ) : ℝ)))
        = ∏ k ∈ Finset.range p, (((d + 2 : ℕ) : ℝ) + 2 + 2 * k) := by
      refine Finset.prod_congr rfl fun k _ => ?_
      push_cast; ring
    rw [hp0]
    have hpos : 0 < ∏ k ∈ Finset.range p, (((d + 2 : ℕ) : ℝ) + 2 + 2 * k) :=
      Finset.prod_pos fun k _ => by positivity
    have hd2 : ((d + 2 : ℕ) : ℝ) ≠ 0 := by positivity
    rw [eq_div_iff hpos.ne'] at h1
    rw [Nat.factorial_succ, eq_div_iff (by positivity)]
    push_cast at h1 hd2 hpos ⊢
    field_simp
    rw [pow_succ]
    linear_combination 2 * h1

theorem sphereVolume_ball (d : ℕ) (hd : d ≠ 0) :
    volume.real (Metric.ball (0 : EuclideanSpace ℝ (Fin d)) 1) = sphereVolume d 1 := by
  have : Nonempty (Fin d) := ⟨⟨0, Nat.pos_of_ne_zero hd⟩⟩
  rw [Measure.real, EuclideanSpace.volume_ball]
  have hd' : (0 : ℝ) < d := by exact_mod_cast Nat.pos_of_ne_zero hd
  have hG : Gamma ((d : ℝ) / 2 + 1) = (d : ℝ) / 2 * Gamma ((d : ℝ) / 2) := Real.Gamma_add_one (by positivity)
  have hG0 : 0 < Gamma ((d : ℝ) / 2) := Real.Gamma_pos_of_pos (by positivity)
  have hsq : √π ^ d = π ^ ((d : ℝ) / 2) := by
    rw [Real.sqrt_eq_rpow, ← Real.rpow_natCast, ← Real.rpow_mul pi_pos.le]
    congr 1; ring
  simp only [Fintype.card_fin, ENNReal.ofReal_one, one_pow, one_mul]
  rw [ENNReal.toReal_ofReal (by rw [hG]; positivity), hsq, hG, sphereVolume]
  field_simp
  simp

/-- The multivariate kernels: the integral over the whole space is the norming constant. -/
theorem integral_multi (p d : ℕ) (hp : p ≠ 0) (hd : d ≠ 0) (r : ℝ) (hr : 0 < r) :
    ∫ x : Fin d → ℝ, kernelRaw r x (.multi p)
      = 2 ^ p * (p.factorial : ℝ) * sphereVolume d r / ∏ k ∈ Finset.range p, ((d : ℝ) + 2 + 2 * k) := by
  have : Nonempty (Fin d) := ⟨⟨0, Nat.pos_of_ne_zero hd⟩⟩
  have hd1 : 0 < d := Nat.pos_of_ne_zero hd
  have e0 : ∫ x : Fin d → ℝ, kernelRaw r x (.multi p)
      = ∫ x : EuclideanSpace ℝ (Fin d), max (1 - ‖x‖ ^ 2 / r ^ 2) 0 ^ p := by
    rw [← (EuclideanSpace.volume_preserving_symm_measurableEquiv_toLp (Fin d)).integral_comp
      (MeasurableEquiv.measurableEmbedding _)]
    refine integral_congr_ae (Filter.Eventually.of_forall fun x => ?_)
    simp only [kernelRaw]
    rw [EuclideanSpace.norm_sq_eq]
    simp
  have : Nontrivial (EuclideanSpace ℝ (Fin d)) := by infer_instance
  rw [e0, integral_fun_norm_addHaar volume (fun y => max (1 - y ^ 2 / r ^ 2) 0 ^ p), sphereVolume_ball d hd]
  simp only [finrank_euclideanSpace, Fintype.card_fin, nsmul_eq_mul, smul_eq_mul]
  have e1 : ∫ y in Set.Ioi (0 : ℝ), y ^ (d - 1) * max (1 - y ^ 2 / r ^ 2) 0 ^ p
      = r ^ d * ∫ y in (0 : ℝ)..1, y ^ (d - 1) * (1 - y ^ 2) ^ p := by
    have h1 : ∫ y in Set.Ioi (0 : ℝ), y ^ (d - 1) * max (1 - y ^ 2 / r ^ 2) 0 ^ p
        = ∫ y in Set.Ioc (0 : ℝ) r, y ^ (d - 1) * (1 - y ^ 2 / r ^ 2) ^ p := by
      rw [← integral_indicator measurableSet_Ioi, ← integral_indicator measurableSet_Ioc]
      congr 1
      ext y
      by_cases hy0 : 0 < y
      · by_cases hyr : y ≤ r
        · rw [Set.indicator_of_mem (show y ∈ Set.Ioi (0 : ℝ) from hy0),
            Set.indicator_of_mem (show y ∈ Set.Ioc (0 : ℝ) r from ⟨hy0, hyr⟩), max_eq_left]
          rw [sub_nonneg, div_le_one (by positivity)]
          exact pow_le_pow_left₀ hy0.le hyr 2
        · rw [Set.indicator_of_mem (show y ∈ Set.Ioi (0 : ℝ) from hy0), Set.indicator_of_notMem (by
            simp only [Set.mem_Ioc, not_and]; exact fun _ => hyr), max_eq_right, zero_pow hp, mul_zero]
          rw [sub_nonpos, one_le_div (by positivity)]
          exact pow_le_pow_left₀ hr.le (not_le.1 hyr).le 2
      · rw [Set.indicator_of_notMem (by simpa using hy0), Set.indicator_of_notMem (by
          simp only [Set.mem_Ioc, not_and]; exact fun h => absurd h hy0)]
    rw [h1, ← intervalIntegral.integral_of_le hr.le]
    have h2 := intervalIntegral.integral_comp_mul_left (a := (0 : ℝ)) (b := 1)
      (fun y : ℝ => y ^ (d - 1) * (1 - y ^ 2 / r ^ 2) ^ p) hr.ne'
    rw [mul_zero, mul_one, smul_eq_mul] at h2
    have h3 : (∫ y in (0 : ℝ)..r, y ^ (d - 1) * (1 - y ^ 2 / r ^ 2) ^ p)
        = r * ∫ x in (0 : ℝ)..1, (r * x) ^ (d - 1) * (1 - (r * x) ^ 2 / r ^ 2) ^ p := by
      rw [h2]; field_simp
    rw [h3, ← intervalIntegral.integral_const_mul, ← intervalIntegral.integral_const_mul]
    refine intervalIntegral.integral_congr fun y _ => ?_
    have hrd : r ^ d = r * r ^ (d - 1) := by
      conv_lhs => rw [show d = d - 1 + 1 by omega, pow_succ]
      ring
    have hq : (r * y) ^ 2 / r ^ 2 = y ^ 2 := by field_simp
    simp only [hq]
    rw [hrd, mul_pow]
    ring
  rw [e1]
  have hb := beta_rec p d hd
  have hS : sphereVolume d r = r ^ d * sphereVolume d 1 := by
    unfold sphereVolume; rw [one_pow]; ring
  rw [hS]
  calc (d : ℝ) * (sphereVolume d 1 * (r ^ d * ∫ y in (0 : ℝ)..1, y ^ (d - 1) * (1 - y ^ 2) ^ p))
      = (sphereVolume d 1 * r ^ d) * ((∫ y in (0 : ℝ)..1, y ^ (d - 1) * (1 - y ^ 2) ^ p) * d) := by ring
    _ = _ := by rw [hb]; ring

theorem sphereVolume_one (r : ℝ) : sphereVolume 1 r = 2 * r := by
  unfold sphereVolume
  rw [Nat.cast_one, Real.Gamma_one_half_eq, Real.sqrt_eq_rpow]
  have : (π : ℝ) ^ ((1 : ℝ) / 2) ≠ 0 := (Real.rpow_pos_of_pos pi_pos _).ne'
  field_simp

/-- A product of one function of each coordinate. -/
theorem integral_prod_fun (d : ℕ) (f : ℝ → ℝ) :
    ∫ x : Fin d → ℝ, ∏ i, f (x i) = (∫ t, f t) ^ d := by
  rw [integral_fintype_prod_volume_eq_pow (ι := Fin d) f, Fintype.card_fin]

theorem integral_clip (p : ℕ) (hp : p ≠ 0) (r : ℝ) (hr : 0 < r) :
    ∫ t : ℝ, max (1 - (t / r) ^ 2) 0 ^ p
      = 2 ^ p * (p.factorial : ℝ) * sphereVolume 1 r / ∏ k ∈ Finset.range p, ((1 : ℝ) + 2 + 2 * k) := by
  have h := integral_multi p 1 hp one_ne_zero r hr
  rw [Nat.cast_one] at h
  rw [← h]
  have h2 := integral_prod_fun 1 (fun t => max (1 - (t / r) ^ 2) 0 ^ p)
  rw [pow_one] at h2
  rw [← h2]
  refine integral_congr_ae (Filter.Eventually.of_forall fun x => ?_)
  simp [kernelRaw, div_pow]

theorem integral_prod (p d : ℕ) (hp : p ≠ 0) (r : ℝ) (hr : 0 < r) :
    ∫ x : Fin d → ℝ, kernelRaw r x (.prod p)
      = (2 ^ p * (p.factorial : ℝ) * sphereVolume 1 r / ∏ k ∈ Finset.range p, ((1 : ℝ) + 2 + 2 * k)) ^ d := by
  simp only [kernelRaw]
  rw [integral_prod_fun d (fun t => max (1 - (t / r) ^ 2) 0 ^ p), integral_clip p hp r hr]

theorem integral_rect (d : ℕ) (r : ℝ) (hr : 0 < r) :
    ∫ x : Fin d → ℝ, kernelRaw r x .rect = (2 * r) ^ d := by
  have h : ∀ x : Fin d → ℝ, kernelRaw r x .rect = ∏ i, (Set.Icc (-r) r).indicator (fun _ => (1 : ℝ)) (x i) := by
    intro x
    simp only [kernelRaw]
    by_cases hx : ∀ i, |x i| ≤ r
    · rw [if_pos hx, Finset.prod_eq_one]
      intro i _
      have h1 : x i ∈ Set.Icc (-r) r := abs_le.1 (hx i)
      exact Set.indicator_of_mem h1 _
    · rw [if_neg hx]
      push Not at hx
      obtain ⟨i, hi⟩ := hx
      refine (Finset.prod_eq_zero (Finset.mem_univ i) ?_).symm
      have h1 : x i ∉ Set.Icc (-r) r := fun h => absurd (abs_le.2 h) (not_le.2 hi)
      exact Set.indicator_of_notMem h1 _
  simp only [h]
  rw [integral_prod_fun d ((Set.Icc (-r) r).indicator (fun _ => (1 : ℝ))), integral_indicator measurableSet_Icc]
  simp [hr.le]
  ring

theorem integral_tria1 : ∫ t : ℝ, max (1 - |t|) 0 = 1 := by
  have h : ∀ t : ℝ, max (1 - |t|) 0 = (Set.Icc (-1 : ℝ) 1).indicator (fun t => 1 - |t|) t := by
    intro t
    by_cases ht : t ∈ Set.Icc (-1 : ℝ) 1
    · rw [Set.indicator_of_mem ht, max_eq_left]
      have := abs_le.2 ht
      linarith
    · rw [Set.indicator_of_notMem ht, max_eq_right]
      have : ¬ |t| ≤ 1 := fun h => ht (abs_le.1 h)
      linarith [not_le.1 this]
  simp only [h]
  rw [integral_indicator measurableSet_Icc, integral_Icc_eq_integral_Ioc,
    ← intervalIntegral.integral_of_le (by norm_num : (-1 : ℝ) ≤ 1)]
  rw [← intervalIntegral.integral_add_adjacent_intervals (b := (0 : ℝ))
    (by apply Continuous.intervalIntegrable; fun_prop) (by apply Continuous.intervalIntegrable; fun_prop)]
  have e1 : ∫ t in (-1 : ℝ)..0, 1 - |t| = ∫ t in (-1 : ℝ)..0, 1 + t := by
    refine intervalIntegral.integral_congr fun t ht => ?_
    rw [Set.uIcc_of_le (by norm_num)] at ht
    simp only [abs_of_nonpos ht.2]; ring
  have e2 : ∫ t in (0 : ℝ)..1, 1 - |t| = ∫ t in (0 : ℝ)..1, 1 - t := by
    refine intervalIntegral.integral_congr fun t ht => ?_
    rw [Set.uIcc_of_le (by norm_num)] at ht
    simp only [abs_of_nonneg ht.1]
  rw [e1, e2, intervalIntegral.integral_add (by simp) (by simp), intervalIntegral.integral_sub (by simp) (by simp)]
  simp
  norm_num

theorem integral_tria (d : ℕ) (r : ℝ) : ∫ x : Fin d → ℝ, kernelRaw r x .tria = 1 := by
  simp only [kernelRaw]
  rw [integral_prod_fun d (fun t => max (1 - |t|) 0), integral_tria1, one_pow]

theorem gaus_prod (d : ℕ) (r : ℝ) (x : Fin d → ℝ) :
    kernelRaw r x .gaus = ∏ i, exp (-(1 / (2 * (r / 4) ^ 2)) * x i ^ 2) := by
  simp only [kernelRaw]
  rw [← Real.exp_sum, Finset.mul_sum]
  congr 1
  refine Finset.sum_congr rfl fun i _ => ?_
  rw [div_pow, ← div_div]
  ring

theorem lapl_prod (d : ℕ) (r : ℝ) (x : Fin d → ℝ) : kernelRaw r x .lapl = ∏ i, exp (-|x i|) := by
  simp only [kernelRaw]
  rw [← Real.exp_sum, Finset.sum_neg_distrib]

theorem integral_gaus (d : ℕ) (r : ℝ) (hr : 0 < r) :
    ∫ x : Fin d → ℝ, kernelRaw r x .gaus = (2 * π * (r / 4) ^ 2) ^ ((d : ℝ) / 2) := by
  simp only [gaus_prod]
  rw [integral_prod_fun d (fun t => exp (-(1 / (2 * (r / 4) ^ 2)) * t ^ 2)), integral_gaussian, Real.sqrt_eq_rpow,
    ← Real.rpow_natCast, ← Real.rpow_mul (by positivity)]
  congr 1
  · field_simp
  · ring

theorem integral_lapl1 : ∫ t : ℝ, exp (-|t|) = 2 := by
  rw [integral_comp_abs (f := fun x => exp (-x)), integral_exp_neg_Ioi_zero, mul_one]

theorem integral_lapl (d : ℕ) (r : ℝ) : ∫ x : Fin d → ℝ, kernelRaw r x .lapl = 2 ^ d := by
  simp only [lapl_prod]
  rw [integral_prod_fun d (fun t => exp (-|t|)), integral_lapl1]

end Wafo.Kde
