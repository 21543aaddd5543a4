import Verif.Quad.Clenshaw
import Mathlib.Analysis.SpecialFunctions.Integrals.Basic
import Mathlib.MeasureTheory.Function.Jacobian

/-! Boole's rule, Richardson's extrapolation, `quadgr`. -/

set_option linter.unusedSectionVars false

namespace Wafo.Quad

open Polynomial Finset Real MeasureTheory

/-! ### Richardson -/

/-- A geometric sequence is extrapolated to its limit. -/
theorem richardson_geom (L A r : ℝ) (k : ℕ) (hk : 2 ≤ k) (hA : A ≠ 0) (h0 : r ≠ 0) (h1 : r ≠ 1)
    (hr : 7 / 100 ≤ 1 / r - 1) : richardson (fun j => L + A * r ^ j) k = L := by
  obtain ⟨j, rfl⟩ : ∃ j, k = j + 2 := ⟨k - 2, by omega⟩
  have hr1 : r - 1 ≠ 0 := sub_ne_zero.2 h1
  have hp := pow_ne_zero j h0
  have hc : (L + A * r ^ (j + 1) - (L + A * r ^ j)) / (L + A * r ^ (j + 2) - (L + A * r ^ (j + 1))) - 1
      = 1 / r - 1 := by
    have e1 : L + A * r ^ (j + 1) - (L + A * r ^ j) = A * r ^ j * (r - 1) := by ring
    have e2 : L + A * r ^ (j + 2) - (L + A * r ^ (j + 1)) = A * r ^ j * (r - 1) * r := by ring
    rw [e1, e2]
    field_simp
  simp only [richardson, show j + 2 - 1 = j + 1 by omega, show j + 2 - 2 = j by omega]
  rw [hc, max_eq_left hr]
  have : 1 / r - 1 ≠ 0 := by
    intro h; rw [h] at hr; norm_num at hr
  have h3 : 1 - r ≠ 0 := sub_ne_zero.2 (Ne.symm h1)
  have e3 : 1 / r - 1 = (1 - r) / r := by field_simp
  have e4 : L + A * r ^ (j + 2) - (L + A * r ^ (j + 1)) = -(A * r ^ (j + 1)) * (1 - r) := by ring
  rw [e3, e4]
  field_simp
  ring

/-! ### Boole -/

theorem sliceSum_eq (y : ℕ → ℝ) (start stop step : ℕ) :
    sliceSum y start stop step = ∑ i ∈ range stop, if start ≤ i ∧ (i - start) % step = 0 then y i else 0 := by
  unfold sliceSum
  induction stop with
  | zero => simp
  | succ s ih =>
    rw [List.range_succ, List.filter_append, List.map_append, List.sum_append, ih, Finset.sum_range_succ]
    congr 1
    by_cases h : start ≤ s ∧ (s - start) % step = 0
    · simp [h.1, h.2]
    · rw [if_neg h]
      have : (decide (start ≤ s) && decide ((s - start) % step = 0)) = false := by
        simpa using h
      simp [this]

theorem slice2 (y : ℕ → ℝ) (m : ℕ) : sliceSum y 2 (4 * m) 4 = ∑ i ∈ range m, y (4 * i + 2) := by
  rw [sliceSum_eq]
  induction m with
  | zero => simp
  | succ m ih =>
    rw [show 4 * (m + 1) = 4 * m + 1 + 1 + 1 + 1 by ring]
    simp only [Finset.sum_range_succ]
    rw [ih, if_neg (by omega), if_neg (by omega), if_pos (by omega), if_neg (by omega)]
    ring_nf

theorem slice1 (y : ℕ → ℝ) (m : ℕ) : sliceSum y 1 (4 * m) 2
    = ∑ i ∈ range m, (y (4 * i + 1) + y (4 * i + 3)) := by
  rw [sliceSum_eq]
  induction m with
  | zero => simp
  | succ m ih =>
    rw [show 4 * (m + 1) = 4 * m + 1 + 1 + 1 + 1 by ring]
    simp only [Finset.sum_range_succ]
    rw [ih, if_neg (by omega), if_pos (by omega), if_neg (by omega), if_pos (by omega)]
    ring_nf

theorem slice4 (y : ℕ → ℝ) (m : ℕ) : sliceSum y 4 (4 * m + 2) 4
    = ∑ i ∈ range m, y (4 * i + 4) := by
  rw [sliceSum_eq]
  induction m with
  | zero => simp [Finset.sum_range_succ]
  | succ m ih =>
    rw [show 4 * (m + 1) + 2 = 4 * m + 2 + 1 + 1 + 1 + 1 by ring]
    simp only [Finset.sum_range_succ] at ih ⊢
    rw [ih, if_neg (by omega), if_neg (by omega), if_pos (by omega), if_neg (by omega)]
    ring_nf

/-- Boole's rule on `4 m + 1` samples is the sum of the rules over the `m` panels. -/
theorem boole_panels (m : ℕ) (hm : m ≠ 0) (y x : ℕ → ℝ) :
    boole (4 * m + 1) y x = ∑ i ∈ range m, (2 * ((x (4 * m) - x 0) / ((4 * m : ℕ) : ℝ)) / 45)
      * (7 * y (4 * i) + 32 * y (4 * i + 1) + 12 * y (4 * i + 2) + 32 * y (4 * i + 3) + 7 * y (4 * i + 4)) := by
  obtain ⟨k, rfl⟩ : ∃ k, m = k + 1 := ⟨m - 1, by omega⟩
  simp only [boole, show 4 * (k + 1) + 1 - 1 = 4 * (k + 1) by omega,
    show 4 * (k + 1) + 1 - 3 = 4 * k + 2 by omega]
  rw [slice2, slice1, slice4, ← Finset.mul_sum]
  congr 1
  have h7 : ∑ i ∈ range (k + 1), (7 * y (4 * i) + 7 * y (4 * i + 4))
      = 7 * (y 0 + y (4 * (k + 1))) + 14 * ∑ i ∈ range k, y (4 * i + 4) := by
    clear hm
    induction k with
    | zero => simp; ring
    | succ k ih =>
      rw [Finset.sum_range_succ, ih, Finset.sum_range_succ _ k]
      rw [show 4 * (k + 1 + 1) = 4 * k + 4 + 4 by ring, show 4 * (k + 1) = 4 * k + 4 by ring]
      ring
  have e : ∀ i ∈ range (k + 1), 7 * y (4 * i) + 32 * y (4 * i + 1) + 12 * y (4 * i + 2)
      + 32 * y (4 * i + 3) + 7 * y (4 * i + 4)
      = (7 * y (4 * i) + 7 * y (4 * i + 4)) + 12 * y (4 * i + 2) + 32 * (y (4 * i + 1) + y (4 * i + 3)) := by
    intro i _; ring
  have e' : ∑ i ∈ range (k + 1), ((7 * y (4 * i) + 7 * y (4 * i + 4)) + 12 * y (4 * i + 2)
      + 32 * (y (4 * i + 1) + y (4 * i + 3)))
      = ∑ i ∈ range (k + 1), (7 * y (4 * i) + 7 * y (4 * i + 4))
        + 12 * ∑ i ∈ range (k + 1), y (4 * i + 2)
        + 32 * ∑ i ∈ range (k + 1), (y (4 * i + 1) + y (4 * i + 3)) := by
    rw [Finset.mul_sum, Finset.mul_sum, ← Finset.sum_add_distrib, ← Finset.sum_add_distrib]
  rw [Finset.sum_congr rfl e, e', h7]
  ring

/-- One panel of Boole's rule is exact for polynomials of degree at most five. -/
theorem boole_panel (P : ℝ[X]) (hP : P.degree < ((6 : ℕ) : WithBot ℕ)) (a h : ℝ) :
    2 * h / 45 * (7 * P.eval a + 32 * P.eval (a + h) + 12 * P.eval (a + 2 * h) + 32 * P.eval (a + 3 * h)
      + 7 * P.eval (a + 4 * h)) = ∫ x in a..(a + 4 * h), P.eval x := by
  have hd := affPoly_degree P (2 * h) (a + 2 * h) 6 hP
  set Q := affPoly P (2 * h) (a + 2 * h) with hQ
  have hev : ∀ t, Q.eval t = ∑ p ∈ range 6, Q.coeff p * t ^ p := fun t => by
    refine eval_eq_sum_range' ?_ t
    rcases eq_or_ne Q 0 with h0 | h0
    · rw [h0]; simp
    · exact (natDegree_lt_iff_degree_lt h0).2 hd
  have hI : (∫ x in a..(a + 4 * h), P.eval x) = 2 * h * ∫ t in (-1 : ℝ)..1, Q.eval t := by
    rw [integral_affine a (a + 4 * h)]
    simp only [hQ, affPoly_eval]
    congr 1
    · ring
    · refine intervalIntegral.integral_congr fun t _ => ?_
      congr 1; ring
  have hI2 : (∫ t in (-1 : ℝ)..1, Q.eval t) = ∑ p ∈ range 6, Q.coeff p * ((1 ^ (p + 1) - (-1) ^ (p + 1)) / (p + 1)) := by
    simp only [hev]
    rw [intervalIntegral.integral_finsetSum (fun i _ => (by fun_prop : Continuous _).intervalIntegrable _ _)]
    refine Finset.sum_congr rfl fun p _ => ?_
    rw [intervalIntegral.integral_const_mul, integral_pow]
  have ev : ∀ x t, x = 2 * h * t + (a + 2 * h) → P.eval x = Q.eval t := by
    intro x t hx; rw [hQ, affPoly_eval, hx]
  rw [hI, hI2, ev a (-1) (by ring), ev (a + h) (-1 / 2) (by ring), ev (a + 2 * h) 0 (by ring),
    ev (a + 3 * h) (1 / 2) (by ring), ev (a + 4 * h) 1 (by ring)]
  simp only [hev, Finset.sum_range_succ, Finset.sum_range_zero]
  norm_num
  ring

theorem boole_exact (m : ℕ) (hm : m ≠ 0) (a b : ℝ) (P : ℝ[X]) (hP : P.degree < ((6 : ℕ) : WithBot ℕ)) :
    boole (4 * m + 1) (fun i => P.eval (a + (i : ℝ) * ((b - a) / ((4 * m : ℕ) : ℝ))))
      (fun i => a + (i : ℝ) * ((b - a) / ((4 * m : ℕ) : ℝ))) = ∫ x in a..b, P.eval x := by
  rw [boole_panels m hm]
  set h := (b - a) / ((4 * m : ℕ) : ℝ) with hh
  have hmr : ((4 * m : ℕ) : ℝ) ≠ 0 := by
    have : 4 * m ≠ 0 := by omega
    exact_mod_cast this
  have e0 : (a + ((4 * m : ℕ) : ℝ) * h - (a + ((0 : ℕ) : ℝ) * h)) / ((4 * m : ℕ) : ℝ) = h := by
    simp only [Nat.cast_zero]; field_simp; ring
  rw [e0]
  have hb : b = a + ((m : ℕ) : ℝ) * (4 * h) := by
    rw [hh]; push_cast at hmr ⊢; field_simp; ring
  have hsum := intervalIntegral.sum_integral_adjacent_intervals (μ := volume) (n := m)
    (f := fun x => P.eval x) (a := fun i : ℕ => a + (i : ℝ) * (4 * h))
    (fun k _ => P.continuous.intervalIntegrable _ _)
  simp only [Nat.cast_zero, zero_mul, add_zero] at hsum
  rw [← hb] at hsum
  rw [← hsum]
  refine Finset.sum_congr rfl fun i _ => ?_
  have := boole_panel P hP (a + (i : ℝ) * (4 * h)) h
  have e4 : a + ((i + 1 : ℕ) : ℝ) * (4 * h) = a + (i : ℝ) * (4 * h) + 4 * h := by push_cast; ring
  rw [e4, ← this]
  push_cast
  ring_nf

/-! ### quadgr -/

/-- The nodes after `k` bisections, panel by panel. -/
theorem quadNodes_eq (n : ℕ) (xn : ℕ → ℝ) (a b : ℝ) (k i j : ℕ) (hi : i < 2 ^ k) (hj : j < n) :
    quadNodes n xn a b k (i * n + j) = a + (b - a) * ((i : ℝ) + (1 + xn j) / 2) / 2 ^ k := by
  induction k generalizing i with
  | zero =>
    have : i = 0 := by simpa using hi
    subst this
    simp only [quadNodes, zero_mul, zero_add]
    push_cast; ring
  | succ k ih =>
    rw [quadNodes]
    by_cases h : i < 2 ^ k
    · have h1 : i * n + j < n * 2 ^ k := by nlinarith [Nat.mul_le_mul_right n (Nat.succ_le_of_lt h)]
      rw [if_pos h1, ih i h, pow_succ]
      field_simp; ring
    · have hle : 2 ^ k ≤ i := by omega
      have h1 : ¬ i * n + j < n * 2 ^ k := by
        have := Nat.mul_le_mul_left n hle
        rw [mul_comm i n]; omega
      have h2 : i * n + j - n * 2 ^ k = (i - 2 ^ k) * n + j := by
        rw [Nat.sub_mul, mul_comm n]
        have := Nat.mul_le_mul_right n hle
        omega
      rw [if_neg h1, h2, ih (i - 2 ^ k) (by rw [pow_succ] at hi; omega), Nat.cast_sub hle, pow_succ]
      push_cast
      field_simp; ring

theorem quadDx_eq (a b : ℝ) (k : ℕ) : quadDx a b k = (b - a) / 2 / 2 ^ k := by
  induction k with
  | zero => simp [quadDx]
  | succ k ih => rw [quadDx, ih, pow_succ]; field_simp

/-- The values of `quadgr` before extrapolation are composite rules. -/
theorem quadVal0_eq (n : ℕ) (xn w : ℕ → ℝ) (f : ℝ → ℝ) (a b : ℝ) (k : ℕ) :
    quadVal0 n xn w f a b k = ∑ i ∈ range (2 ^ k), (b - a) / 2 / 2 ^ k *
      ∑ j ∈ range n, w j * f (a + (b - a) * ((i : ℝ) + (1 + xn j) / 2) / 2 ^ k) := by
  unfold quadVal0
  rw [quadDx_eq, ← Finset.mul_sum, Finset.sum_comm, mul_comm, list_sum_range]
  congr 1
  refine Finset.sum_congr rfl fun j hj => ?_
  rw [list_sum_range, ← Finset.mul_sum, mul_comm]
  congr 1
  refine Finset.sum_congr rfl fun i hi => ?_
  rw [quadNodes_eq n xn a b k i j (mem_range.1 hi) (mem_range.1 hj)]

/-- A composite rule whose base rule is exact for degree less than `D` is exact as well. -/
theorem quadVal0_exact (n D : ℕ) (xn w : ℕ → ℝ)
    (hr : ∀ Q : ℝ[X], Q.degree < (D : ℕ) → ∑ j ∈ range n, w j * Q.eval (xn j) = ∫ t in (-1 : ℝ)..1, Q.eval t)
    (a b : ℝ) (P : ℝ[X]) (hP : P.degree < (D : ℕ)) (k : ℕ) :
    quadVal0 n xn w (fun x => P.eval x) a b k = ∫ x in a..b, P.eval x := by
  rw [quadVal0_eq]
  have h2 : (2 : ℝ) ^ k ≠ 0 := by positivity
  have hsum := intervalIntegral.sum_integral_adjacent_intervals (μ := volume) (n := 2 ^ k)
    (f := fun x => P.eval x) (a := fun i : ℕ => a + (i : ℝ) * ((b - a) / 2 ^ k))
    (fun k _ => P.continuous.intervalIntegrable _ _)
  have hb : a + ((2 ^ k : ℕ) : ℝ) * ((b - a) / 2 ^ k) = b := by
    push_cast; field_simp; ring
  rw [hb] at hsum
  simp only [Nat.cast_zero, zero_mul, add_zero] at hsum
  rw [← hsum]
  refine Finset.sum_congr rfl fun i _ => ?_
  set c := (b - a) / 2 ^ k with hc
  have hq := hr (affPoly P (c / 2) (a + (i : ℝ) * c + c / 2)) (affPoly_degree P _ _ D hP)
  simp only [affPoly_eval] at hq
  rw [integral_affine]
  have e1 : (a + ((i + 1 : ℕ) : ℝ) * c - (a + (i : ℝ) * c)) / 2 = c / 2 := by push_cast; ring
  have e2 : (a + (i : ℝ) * c + (a + ((i + 1 : ℕ) : ℝ) * c)) / 2 = a + (i : ℝ) * c + c / 2 := by
    push_cast; ring
  rw [e1, e2, ← hq]
  congr 1
  · rw [hc]; ring
  · refine Finset.sum_congr rfl fun j _ => ?_
    congr 2
    rw [hc]; field_simp; ring

/-- When the first two composite values agree, `_integrate` stops with them. -/
theorem quadIntegrate_stop (fill eps : ℝ) (n : ℕ) (xn w : ℕ → ℝ) (f : ℝ → ℝ) (a b abseps : ℝ)
    (hpos : 0 < abseps) (I : ℝ) (h : ∀ k, quadVal0 n xn w f a b k = I) :
    quadIntegrate fill eps n xn w f a b abseps = (I, 2 * eps) := by
  have hp : argminPair (quadPairs (quadVal0 n xn w f a b) (quadVal1 fill (quadVal0 n xn w f a b))
      (quadVal2 fill (quadVal1 fill (quadVal0 n xn w f a b))) 1) = (I, I) := by
    simp [quadPairs, argminPair, h]
  simp only [quadIntegrate]
  rw [quadLoop]
  simp only [hp, sub_self, abs_zero, if_pos hpos, zero_add]

theorem quadVal0_congr (n : ℕ) (xn w : ℕ → ℝ) (hx : ∀ j < n, |xn j| < 1) (f g : ℝ → ℝ) (a b : ℝ)
    (hab : a < b) (h : ∀ x, a < x → x < b → f x = g x) (k : ℕ) :
    quadVal0 n xn w f a b k = quadVal0 n xn w g a b k := by
  rw [quadVal0_eq, quadVal0_eq]
  refine Finset.sum_congr rfl fun i hi => ?_
  congr 1
  refine Finset.sum_congr rfl fun j hj => ?_
  rw [mem_range] at hi hj
  have h2 : (0 : ℝ) < 2 ^ k := by positivity
  obtain ⟨h3, h4⟩ := abs_lt.1 (hx j hj)
  have hi' : (i : ℝ) + 1 ≤ 2 ^ k := by exact_mod_cast hi
  have hi0 : (0 : ℝ) ≤ i := Nat.cast_nonneg i
  have hba : 0 < b - a := by linarith
  congr 1
  apply h
  · have : 0 < (b - a) * ((i : ℝ) + (1 + xn j) / 2) / 2 ^ k := by
      apply div_pos (mul_pos hba _) h2; linarith
    linarith
  · have : (b - a) * ((i : ℝ) + (1 + xn j) / 2) / 2 ^ k < b - a := by
      rw [div_lt_iff₀ h2]
      apply mul_lt_mul_of_pos_left _ hba; linarith
    linarith

/-- The change of variable for an infinite upper limit. -/
theorem integral_toInf (f : ℝ → ℝ) (a : ℝ) :
    (∫ t in (0 : ℝ)..1, toInf f a t) = ∫ x in Set.Ioi a, f x := by
  have himg : (fun t : ℝ => a + t / (1 - t)) '' Set.Ioo 0 1 = Set.Ioi a := by
    ext x
    simp only [Set.mem_image, Set.mem_Ioo, Set.mem_Ioi]
    constructor
    · rintro ⟨t, ⟨h0, h1⟩, rfl⟩
      have : 0 < t / (1 - t) := div_pos h0 (by linarith)
      linarith
    · intro hx
      have hp : 0 < 1 + (x - a) := by linarith
      refine ⟨(x - a) / (1 + (x - a)), ⟨div_pos (by linarith) hp, ?_⟩, ?_⟩
      · rw [div_lt_one hp]; linarith
      · field_simp; ring_nf
  have hinj : Set.InjOn (fun t : ℝ => a + t / (1 - t)) (Set.Ioo 0 1) := by
    intro s hs t ht h
    have h1 : 1 - s ≠ 0 := by have := hs.2; linarith
    have h2 : 1 - t ≠ 0 := by have := ht.2; linarith
    simp only [add_right_inj] at h
    rw [div_eq_div_iff h1 h2] at h
    linarith
  have hder : ∀ t ∈ Set.Ioo (0 : ℝ) 1,
      HasDerivWithinAt (fun t : ℝ => a + t / (1 - t)) (1 / (1 - t) ^ 2) (Set.Ioo 0 1) t := by
    intro t ht
    have h1 : 1 - t ≠ 0 := by have := ht.2; linarith
    have := (((hasDerivAt_id t).div ((hasDerivAt_const t (1 : ℝ)).sub (hasDerivAt_id t)) h1).const_add a)
    refine (this.congr_deriv ?_).hasDerivWithinAt
    simp only [id]
    congr 1
    simp only [Pi.sub_apply, id]
    ring
  rw [intervalIntegral.integral_of_le (by norm_num), integral_Ioc_eq_integral_Ioo, ← himg,
    integral_image_eq_integral_abs_deriv_smul measurableSet_Ioo hder hinj]
  refine setIntegral_congr_fun measurableSet_Ioo fun t ht => ?_
  simp only [toInf, smul_eq_mul]
  rw [abs_of_nonneg (by positivity)]
  ring

/-- The change of variable for an infinite lower limit. -/
theorem integral_fromInf (f : ℝ → ℝ) (b : ℝ) :
    (∫ t in (-1 : ℝ)..0, fromInf f b t) = ∫ x in Set.Iio b, f x := by
  have h := integral_toInf (fun x => f (-x)) (-b)
  have h2 : (∫ x in Set.Ioi (-b), f (-x)) = ∫ x in Set.Iio b, f x := by
    rw [integral_comp_neg_Ioi, neg_neg, integral_Iic_eq_integral_Iio]
  have h3 := intervalIntegral.integral_comp_neg (a := 0) (b := 1) (fun t => fromInf f b t)
  rw [neg_zero] at h3
  rw [← h2, ← h, ← h3]
  refine intervalIntegral.integral_congr fun t _ => ?_
  simp only [toInf, fromInf]
  congr 2
  ring

end Wafo.Quad
