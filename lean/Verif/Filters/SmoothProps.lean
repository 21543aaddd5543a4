import Verif.Filters.SmoothLemmas
import Verif.Filters.HampelLemmas
import Mathlib.Topology.Algebra.Order.Field
import Mathlib.Topology.Algebra.Monoid
import Mathlib.Topology.Order.Real

/-!
# `smoothn`: properties
-/

set_option linter.unusedSectionVars false

namespace Wafo.Smooth

open Finset Dct

/-! ## C341: the limits of the smoothing parameter are the limits of the leverage -/

theorem par_root {h : ℝ} (h0 : 0 < h) (h1 : h ≤ 1) :
    ∃ q, 1 ≤ q ∧ 2 * h * q ^ 2 = 1 + q ∧ 1 + 16 * smoothnessPar h = q ^ 2 := by
  set r := Real.sqrt (1 + 8 * h) with hr
  have hr2 : r ^ 2 = 1 + 8 * h := Real.sq_sqrt (by linarith)
  have hr0 : 0 ≤ r := Real.sqrt_nonneg _
  have hr1 : 1 ≤ r := by nlinarith
  refine ⟨(1 + r) / 4 / h, ?_, ?_, ?_⟩
  · rw [le_div_iff₀ h0, le_div_iff₀ (by norm_num)]
    have hr3 : r ≤ 3 := by nlinarith
    nlinarith
  · field_simp
    linear_combination 2 * hr2
  · rw [smoothnessPar, ← hr]
    ring

theorem leverage_par {h : ℝ} (h0 : 0 < h) (h1 : h ≤ 1) (N : ℕ) :
    averageLeverage (smoothnessPar h) N = Real.sqrt h ^ N := by
  obtain ⟨q, hq1, hq2, hq3⟩ := par_root h0 h1
  have hq : 0 < q := by linarith
  simp only [averageLeverage]
  rw [hq3, Real.sqrt_sq hq.le, ← hq2, ← Real.sqrt_div (by positivity),
    show 2 * h * q ^ 2 / 2 = h * q ^ 2 by ring, Real.sqrt_mul h0.le, Real.sqrt_sq hq.le,
    mul_div_assoc, div_self hq.ne', mul_one]

theorem leverage_anti {N : ℕ} (hN : 1 ≤ N) {s t : ℝ} (hs : 0 ≤ s) (hst : s < t) :
    averageLeverage t N < averageLeverage s N := by
  have ha : 1 ≤ Real.sqrt (1 + 16 * s) := by
    rw [Real.one_le_sqrt]; linarith
  have hab : Real.sqrt (1 + 16 * s) < Real.sqrt (1 + 16 * t) := Real.sqrt_lt_sqrt (by linarith) (by linarith)
  simp only [averageLeverage]
  set a := Real.sqrt (1 + 16 * s)
  set b := Real.sqrt (1 + 16 * t)
  have ha0 : 0 < a := by linarith
  have hb0 : 0 < b := by linarith
  refine pow_lt_pow_left₀ ?_ (by positivity) (by omega)
  have key : ∀ c : ℝ, 0 < c → Real.sqrt (1 + c) / Real.sqrt 2 / c = Real.sqrt ((1 + c) / 2 / c ^ 2) := by
    intro c hc
    rw [Real.sqrt_div (by positivity), Real.sqrt_div (by positivity), Real.sqrt_sq hc.le]
  rw [key a ha0, key b hb0]
  refine Real.sqrt_lt_sqrt (by positivity) ?_
  rw [div_lt_div_iff₀ (by positivity) (by positivity)]
  have h1 : 0 < b - a := by linarith
  have : 0 < (b - a) * (a + b + a * b) := by positivity
  nlinarith

/-- C341: for every number of dimensions the bound computed for an average leverage `H` is the parameter with this leverage, and
a parameter lies between the bounds of two leverages exactly when its average leverage lies between them. -/
theorem C341_leverage_limits {N : ℕ} (hN : 1 ≤ N) {H : ℝ} (h0 : 0 < H) (h1 : H ≤ 1) :
    0 ≤ limitFor H N ∧ averageLeverage (limitFor H N) N = H ∧
      ∀ s, 0 ≤ s → ((limitFor H N ≤ s ↔ averageLeverage s N ≤ H) ∧ (s ≤ limitFor H N ↔ H ≤ averageLeverage s N)) := by
  have hN' : (0 : ℝ) < N := by exact_mod_cast hN
  have hp0 : 0 < H ^ ((2 : ℝ) / N) := Real.rpow_pos_of_pos h0 _
  have hp1 : H ^ ((2 : ℝ) / N) ≤ 1 := Real.rpow_le_one h0.le h1 (by positivity)
  have hnn : 0 ≤ limitFor H N := by
    obtain ⟨q, hq1, _, hq3⟩ := par_root hp0 hp1
    rw [limitFor]
    nlinarith
  have hlev : averageLeverage (limitFor H N) N = H := by
    rw [limitFor, leverage_par hp0 hp1]
    have : H ^ ((2 : ℝ) / N) = (H ^ ((1 : ℝ) / N)) ^ 2 := by
      rw [← Real.rpow_natCast, ← Real.rpow_mul h0.le]
      congr 1
      push_cast
      ring
    rw [this, Real.sqrt_sq (Real.rpow_nonneg h0.le _), ← Real.rpow_natCast, ← Real.rpow_mul h0.le,
      one_div_mul_cancel hN'.ne', Real.rpow_one]
  refine ⟨hnn, hlev, fun s hs => ⟨⟨fun h => ?_, fun h => ?_⟩, ⟨fun h => ?_, fun h => ?_⟩⟩⟩
  · rcases h.eq_or_lt with rfl | h
    · exact hlev.le
    · exact (leverage_anti hN hnn h).le.trans hlev.le
  · by_contra h'
    have := leverage_anti hN hs (not_le.mp h')
    linarith
  · rcases h.eq_or_lt with rfl | h
    · exact hlev.ge
    · have := leverage_anti hN hs h
      linarith
  · by_contra h'
    have := leverage_anti hN hnn (not_le.mp h')
    linarith

/-- The bounds of the code in one dimension: leverage from 0.000001 to 0.99. -/
example : averageLeverage (limitFor (1 / 1000000) 1) 1 = 1 / 1000000 ∧ averageLeverage (limitFor (99 / 100) 1) 1 = 99 / 100 :=
  ⟨(C341_leverage_limits le_rfl (by norm_num) (by norm_num)).2.1, (C341_leverage_limits le_rfl (by norm_num) (by norm_num)).2.1⟩

/-! ## C342: complete, equally weighted data -/

theorem weights_equal {n : ℕ} (hn : 0 < n) {c : ℝ} (hc : 0 < c) (y : ℕ → ℝ) :
    normalizedWeights n (fun _ => c) (fun i => some (y i)) = .ok fun _ => 1 := by
  have hf : finiteWeights (fun _ => c) (fun i => some (y i)) = fun _ => c := by
    funext i
    simp [finiteWeights]
  have hm : maxOver n (fun _ => c) = c := by
    obtain ⟨i, _, e⟩ := maxOver_attained hn (fun _ => c)
    exact e
  unfold normalizedWeights
  rw [hf]
  refine (if_pos fun _ _ => hc.le).trans ?_
  beta_reduce
  rw [hm, div_self hc.ne']

/-- What `smoothn` returns for complete, equally weighted data. -/
theorem smoothn_equal {n : ℕ} (hn : 2 ≤ n) {s tolz : ℝ} (m : ℕ) {c : ℝ} (hc : 0 < c) (guess y : ℕ → ℝ) :
    ∃ p : Prop, p ∧ smoothn n s tolz m (fun _ => c) guess (fun i => some (y i)) =
      .ok (fun i => some (shrink s n y i), p) := by
  have hw : ¬ isWeighted n fun _ => (1 : ℝ) := by
    rintro ⟨i, _, h⟩
    exact lt_irrefl _ h
  refine ⟨(loop n s (relax (isWeighted n fun _ => (1 : ℝ))) tolz (isWeighted n fun _ => (1 : ℝ)) (fun _ => 1) y (m + 1)
    (fun _ => 0)).2, (loop_unweighted (i := 0) (by omega) (fun _ _ => rfl) m _ hw).2, ?_⟩
  unfold smoothn
  rw [if_neg (by omega), weights_equal (by omega) hc]
  simp only
  rw [if_neg hw]
  refine congrArg Except.ok (Prod.ext (funext fun i => congrArg some ?_) rfl)
  exact (loop_unweighted (by omega) (fun _ _ => rfl) m _ hw).1

/-- C342: with `s >= 0` and at least two values, all finite and with equal weights, `smoothn` converges; its result does not depend
on `tolz`, `maxiter`, `z0` or the common weight, is the only series with the least value of squared distance plus `s` times
squared second differences (reflected at the ends), and has the sum of the data. -/
theorem C342_penalized_least_squares {n : ℕ} (hn : 2 ≤ n) {s : ℝ} (hs : 0 ≤ s) (y : ℕ → ℝ) :
    ∃ z : ℕ → ℝ, (∀ (tolz : ℝ) (m : ℕ) (c : ℝ) (guess : ℕ → ℝ), 0 < c →
        ∃ p : Prop, p ∧ smoothn n s tolz m (fun _ => c) guess (fun i => some (y i)) = .ok (fun i => some (z i), p)) ∧
      (∀ x, objective n s (fun _ => 1) y z ≤ objective n s (fun _ => 1) y x) ∧
      (∀ x, objective n s (fun _ => 1) y x ≤ objective n s (fun _ => 1) y z → ∀ i < n, x i = z i) ∧
      ∑ i ∈ range n, z i = ∑ i ∈ range n, y i := by
  have hsol : ∀ i < n, s * secondDiff n (secondDiff n (shrink s n y)) i = (fun _ => (1 : ℝ)) i * (y i - shrink s n y i) := by
    intro i hi
    have := shrink_solves hs n y hi
    show _ = 1 * (y i - shrink s n y i)
    linarith
  have hnn : ∀ x : ℕ → ℝ, 0 ≤ s * ∑ i ∈ range n, secondDiff n (fun j => x j - shrink s n y j) i ^ 2 := fun x =>
    mul_nonneg hs (sum_nonneg fun _ _ => sq_nonneg _)
  refine ⟨shrink s n y, fun tolz m c guess hc => smoothn_equal hn m hc guess y, fun x => ?_, fun x hx i hi => ?_, ?_⟩
  · rw [objective_excess hsol x]
    have : 0 ≤ ∑ i ∈ range n, (fun _ => (1 : ℝ)) i * (x i - shrink s n y i) ^ 2 :=
      sum_nonneg fun i _ => mul_nonneg zero_le_one (sq_nonneg _)
    linarith [hnn x]
  · rw [objective_excess hsol x] at hx
    have h0 : ∑ i ∈ range n, (fun _ => (1 : ℝ)) i * (x i - shrink s n y i) ^ 2 ≤ 0 := by linarith [hnn x]
    have h1 := (sum_eq_zero_iff_of_nonneg fun i _ => mul_nonneg zero_le_one (sq_nonneg (x i - shrink s n y i))).mp
      (le_antisymm h0 (sum_nonneg fun i _ => mul_nonneg zero_le_one (sq_nonneg _))) i (mem_range.mpr hi)
    have h2 : (x i - shrink s n y i) ^ 2 = 0 := by simpa using h1
    have := pow_eq_zero_iff (two_ne_zero) |>.mp h2
    linarith
  · have h1 : ∑ i ∈ range n, secondDiff n (secondDiff n (shrink s n y)) i * 1 = 0 := by
      rw [secondDiff_adj n (secondDiff n (shrink s n y)) (fun _ => 1)]
      exact sum_eq_zero fun i _ => by rw [secondDiff_const, mul_zero]
    have h2 : ∑ i ∈ range n, (shrink s n y i + s * secondDiff n (secondDiff n (shrink s n y)) i) = ∑ i ∈ range n, y i :=
      sum_congr rfl fun i hi => shrink_solves hs n y (mem_range.mp hi)
    rw [sum_add_distrib, ← mul_sum] at h2
    simp only [mul_one] at h1
    rw [h1, mul_zero, add_zero] at h2
    exact h2

/-- Two values 0 and 1 with `s = 1/8`: the result is 1/6 and 5/6. -/
example : ∃ p : Prop, p ∧ ∃ z : ℕ → Option ℝ, smoothn 2 (1 / 8) 0 0 (fun _ => 1) (fun _ => 0) (fun i => some (i : ℝ)) = .ok (z, p) ∧
    z 0 = some (1 / 6) ∧ z 1 = some (5 / 6) := by
  obtain ⟨p, hp, e⟩ := smoothn_equal (n := 2) le_rfl (s := 1 / 8) (tolz := 0) 0 (c := 1) one_pos (fun _ => 0) (fun i => (i : ℝ))
  refine ⟨p, hp, _, e, ?_⟩
  have h0 := shrink_solves (s := 1 / 8) (by norm_num) 2 (fun i => (i : ℝ)) (i := 0) (by norm_num)
  have h1 := shrink_solves (s := 1 / 8) (by norm_num) 2 (fun i => (i : ℝ)) (i := 1) (by norm_num)
  simp only [secondDiff] at h0 h1
  norm_num at h0 h1
  constructor <;> congr 1 <;> linarith

/-! ## C343: more smoothing -/

/-- C343: a larger parameter gives a result that is not rougher and not closer to the data. -/
theorem C343_monotone {n : ℕ} (hn : 2 ≤ n) {s t : ℝ} (hs : 0 ≤ s) (hst : s < t) (y zs zt : ℕ → ℝ)
    (tolz c : ℝ) (m : ℕ) (guess : ℕ → ℝ) (hc : 0 < c) (p q : Prop)
    (es : smoothn n s tolz m (fun _ => c) guess (fun i => some (y i)) = .ok (fun i => some (zs i), p))
    (et : smoothn n t tolz m (fun _ => c) guess (fun i => some (y i)) = .ok (fun i => some (zt i), q)) :
    ∑ i ∈ range n, secondDiff n zt i ^ 2 ≤ ∑ i ∈ range n, secondDiff n zs i ^ 2 ∧
      ∑ i ∈ range n, (y i - zs i) ^ 2 ≤ ∑ i ∈ range n, (y i - zt i) ^ 2 := by
  obtain ⟨z1, h1, hm1, -, -⟩ := C342_penalized_least_squares hn hs y
  obtain ⟨z2, h2, hm2, -, -⟩ := C342_penalized_least_squares hn (hs.trans hst.le) y
  obtain ⟨p1, -, e1⟩ := h1 tolz m c guess hc
  obtain ⟨p2, -, e2⟩ := h2 tolz m c guess hc
  rw [es] at e1
  rw [et] at e2
  have k1 : zs = z1 := by
    have := (Prod.ext_iff.mp (Except.ok.inj e1)).1
    funext i
    exact Option.some.inj (congrFun this i)
  have k2 : zt = z2 := by
    have := (Prod.ext_iff.mp (Except.ok.inj e2)).1
    funext i
    exact Option.some.inj (congrFun this i)
  subst k1 k2
  have a := hm1 zt
  have b := hm2 zs
  simp only [objective, one_mul] at a b
  set A := ∑ i ∈ range n, secondDiff n zt i ^ 2
  set B := ∑ i ∈ range n, secondDiff n zs i ^ 2
  have hAB : A ≤ B := by
    by_contra h
    have : 0 < (t - s) * (A - B) := mul_pos (by linarith) (by linarith)
    nlinarith
  exact ⟨hAB, by nlinarith⟩

theorem lam_zero (n : ℕ) : lam n 0 = 0 := by simp [lam]

theorem lam_ne {n k : ℕ} (hk : 0 < k) (hkn : k < n) : lam n k ≠ 0 := by
  have hn : (0 : ℝ) < n := by
    have : 0 < n := by omega
    exact_mod_cast this
  have hk' : (0 : ℝ) < k := by exact_mod_cast hk
  have hkn' : (k : ℝ) < n := by exact_mod_cast hkn
  have hx0 : 0 < Real.pi * k / n := by positivity
  have hx1 : Real.pi * k / n ≤ Real.pi := by
    rw [div_le_iff₀ hn]
    exact mul_le_mul_of_nonneg_left hkn'.le Real.pi_pos.le
  have : Real.cos (Real.pi * k / n) < Real.cos 0 :=
    Real.strictAntiOn_cos ⟨le_rfl, Real.pi_pos.le⟩ ⟨hx0.le, hx1⟩ hx0
  rw [Real.cos_zero] at this
  rw [lam]
  intro h
  linarith

theorem gamma_tendsto {n k : ℕ} (hk : 0 < k) (hkn : k < n) :
    Filter.Tendsto (fun s => gamma s n k) Filter.atTop (nhds 0) := by
  have hl : 0 < lam n k ^ 2 := by
    have := lam_ne hk hkn
    positivity
  have h1 : Filter.Tendsto (fun s : ℝ => 1 + s * lam n k ^ 2) Filter.atTop Filter.atTop :=
    Filter.tendsto_atTop_add_const_left _ _ (Filter.tendsto_id.atTop_mul_const hl)
  have := h1.inv_tendsto_atTop
  refine this.congr fun s => ?_
  simp [gamma]

/-- C343: for ever larger `s` the result tends to the mean of the data: not to a straight line. -/
theorem C343_limit_is_mean {n : ℕ} (hn : 2 ≤ n) (y : ℕ → ℝ) (z : ℝ → ℕ → ℝ)
    (tolz c : ℝ) (m : ℕ) (guess : ℕ → ℝ) (hc : 0 < c)
    (hz : ∀ s, 0 ≤ s → ∃ p, smoothn n s tolz m (fun _ => c) guess (fun i => some (y i)) = .ok (fun i => some (z s i), p))
    (i : ℕ) :
    Filter.Tendsto (fun s => z s i) Filter.atTop (nhds ((∑ j ∈ range n, y j) / n)) := by
  have hn' : (0 : ℝ) < n := by
    have : 0 < n := by omega
    exact_mod_cast this
  have hev : ∀ s, 0 ≤ s → z s i = shrink s n y i := by
    intro s hs
    obtain ⟨p, e⟩ := hz s hs
    obtain ⟨p', -, e'⟩ := smoothn_equal hn (s := s) (tolz := tolz) m hc guess y
    rw [e] at e'
    exact Option.some.inj (congrFun (Prod.ext_iff.mp (Except.ok.inj e')).1 i)
  have hlim : Filter.Tendsto (fun s => shrink s n y i) Filter.atTop
      (nhds (∑ k ∈ range n, ((if k = 0 then 1 else 0) * ∑ j ∈ range n, cosMat n k j * y j) * cosMat n k i)) := by
    have h0 : (fun s => shrink s n y i) =
        fun s => ∑ k ∈ range n, (gamma s n k * ∑ j ∈ range n, cosMat n k j * y j) * cosMat n k i :=
      funext fun s => shrink_sum s (by omega) y i
    rw [h0]
    refine tendsto_finsetSum _ fun k hk => ?_
    refine Filter.Tendsto.mul_const _ (Filter.Tendsto.mul_const _ ?_)
    by_cases hk0 : k = 0
    · subst hk0
      simp only [gamma, lam_zero, if_true]
      simp
    · rw [if_neg hk0]
      exact gamma_tendsto (by omega) (mem_range.mp hk)
  have hval : ∑ k ∈ range n, ((if k = 0 then 1 else 0) * ∑ j ∈ range n, cosMat n k j * y j) * cosMat n k i =
      (∑ j ∈ range n, y j) / n := by
    rw [sum_eq_single_of_mem 0 (mem_range.mpr (by omega)) fun k _ hk => by rw [if_neg hk]; ring]
    have hc0 : ∀ j, cosMat n 0 j = 1 / Real.sqrt n := by
      intro j
      rw [cosMat, ← orthoFactor_zero n (by omega)]
      simp
    simp only [hc0, if_true, one_mul]
    rw [← mul_sum, show 1 / Real.sqrt n * (∑ j ∈ range n, y j) * (1 / Real.sqrt n) =
      (∑ j ∈ range n, y j) / (Real.sqrt n * Real.sqrt n) by ring, Real.mul_self_sqrt hn'.le]
  rw [← hval]
  refine hlim.congr' ?_
  filter_upwards [Filter.eventually_ge_atTop 0] with s hs
  exact (hev s hs).symm

/-! ## C344: weighted data -/

/-- C344: the weights of a call lie between 0 and 1, the largest is 1, and weights that differ by a factor are the same. -/
theorem C344_weights {n : ℕ} {w : ℕ → ℝ} {y : ℕ → Option ℝ} {W : ℕ → ℝ} (h : normalizedWeights n w y = .ok W)
    (hpos : ∃ i < n, 0 < w i ∧ (y i).isSome) :
    (∀ i < n, 0 ≤ W i ∧ W i ≤ 1) ∧ (∃ i < n, W i = 1) ∧ (∀ i < n, y i = none → W i = 0) ∧
      ∀ c, 0 < c → ∃ W', normalizedWeights n (fun i => c * w i) y = .ok W' ∧ ∀ i < n, W' i = W i := by
  obtain ⟨i0, hi0, hw0, hy0⟩ := hpos
  have hnn : ∀ i < n, 0 ≤ finiteWeights w y i := by
    by_contra hc
    have : normalizedWeights n w y = .error .valueError := by
      unfold normalizedWeights
      exact if_neg hc
    rw [this] at h
    cases h
  have hW : W = fun i => finiteWeights w y i / maxOver n (finiteWeights w y) := by
    have : normalizedWeights n w y = .ok fun i => finiteWeights w y i / maxOver n (finiteWeights w y) := by
      unfold normalizedWeights
      exact if_pos hnn
    rw [this] at h
    exact (Except.ok.inj h).symm
  have hmax : 0 < maxOver n (finiteWeights w y) := by
    refine lt_of_lt_of_le ?_ (le_maxOver _ hi0)
    simp only [finiteWeights, hy0, if_true]
    exact hw0
  subst hW
  refine ⟨fun i hi => ⟨div_nonneg (hnn i hi) hmax.le, (div_le_one hmax).mpr (le_maxOver _ hi)⟩, ?_, ?_, ?_⟩
  · obtain ⟨i, hi, e⟩ := maxOver_attained (by omega : 0 < n) (finiteWeights w y)
    exact ⟨i, hi, by beta_reduce; rw [← e, div_self hmax.ne']⟩
  · intro i _ hy
    simp [finiteWeights, hy]
  · intro c hc
    have hf : finiteWeights (fun i => c * w i) y = fun i => c * finiteWeights w y i := by
      funext i
      simp only [finiteWeights]
      split_ifs <;> simp
    have hm : maxOver n (fun i => c * finiteWeights w y i) = c * maxOver n (finiteWeights w y) := by
      refine le_antisymm ?_ ?_
      · obtain ⟨i, hi, e⟩ := maxOver_attained (by omega : 0 < n) (fun i => c * finiteWeights w y i)
        rw [e]
        exact mul_le_mul_of_nonneg_left (le_maxOver _ hi) hc.le
      · obtain ⟨i, hi, e⟩ := maxOver_attained (by omega : 0 < n) (finiteWeights w y)
        rw [e]
        exact le_maxOver (fun i => c * finiteWeights w y i) hi
    refine ⟨fun i => c * finiteWeights w y i / (c * maxOver n (finiteWeights w y)), ?_, fun i _ => ?_⟩
    · unfold normalizedWeights
      rw [hf]
      refine (if_pos fun i hi => mul_nonneg hc.le (hnn i hi)).trans ?_
      beta_reduce
      rw [hm]
    · exact mul_div_mul_left _ _ hc.ne'

/-- C344: every pass of the loop, with the relaxation factor the code uses, lowers the objective by at least a seventh of the
squared change: the objective never increases, and the sum of all squared changes is bounded. -/
theorem C344_descent {n : ℕ} {s : ℝ} (hs : 0 ≤ s) {W : ℕ → ℝ} (hW : ∀ i < n, W i ≤ 1) (weighted : Prop) (y z : ℕ → ℝ) :
    objective n s W y (pass n s (relax weighted) W y z) +
      1 / 7 * ∑ i ∈ range n, (pass n s (relax weighted) W y z i - z i) ^ 2 ≤ objective n s W y z := by
  have hr : relax weighted = 1.75 ∨ relax weighted = 1 := by
    by_cases h : weighted
    · left; rw [relax]; exact if_pos h
    · right; rw [relax]; exact if_neg h
  have hpos : 0 < relax weighted := by rcases hr with h | h <;> rw [h] <;> norm_num
  have hc : 1 / 7 ≤ 2 / relax weighted - 1 := by rcases hr with h | h <;> rw [h] <;> norm_num
  have h1 := pass_descent hs hW y z hpos
  set Q := ∑ i ∈ range n, (pass n s (relax weighted) W y z i - z i) ^ 2
  set R := s * ∑ i ∈ range n, secondDiff n (fun j => pass n s (relax weighted) W y z j - z j) i ^ 2
  have hQ : 0 ≤ Q := sum_nonneg fun _ _ => sq_nonneg _
  have hR : 0 ≤ R := mul_nonneg hs (sum_nonneg fun _ _ => sq_nonneg _)
  have : 1 / 7 * Q ≤ (2 / relax weighted - 1) * (Q + R) := by
    have a : 1 / 7 * (Q + R) ≤ (2 / relax weighted - 1) * (Q + R) := mul_le_mul_of_nonneg_right hc (by linarith)
    linarith
  linarith

/-- C344: the series after the loop has no larger objective than the start, and after enough passes some pass changes the series by
as little as asked for: the sum of the squares of the changes of `m` passes is at most seven times the objective of the start. -/
theorem C344_total_change {n : ℕ} {s : ℝ} (hs : 0 ≤ s) {W : ℕ → ℝ} (hW0 : ∀ i < n, 0 ≤ W i) (hW : ∀ i < n, W i ≤ 1)
    (weighted : Prop) (y z : ℕ → ℝ) (m : ℕ) :
    ∑ k ∈ range m, ∑ i ∈ range n, ((pass n s (relax weighted) W y)^[k + 1] z i - (pass n s (relax weighted) W y)^[k] z i) ^ 2
      ≤ 7 * objective n s W y z := by
  have key : ∀ m, objective n s W y ((pass n s (relax weighted) W y)^[m] z) + 1 / 7 * ∑ k ∈ range m, ∑ i ∈ range n,
      ((pass n s (relax weighted) W y)^[k + 1] z i - (pass n s (relax weighted) W y)^[k] z i) ^ 2 ≤ objective n s W y z := by
    intro m
    induction m with
    | zero => simp
    | succ m ih =>
      rw [sum_range_succ]
      have := C344_descent hs hW weighted y ((pass n s (relax weighted) W y)^[m] z)
      rw [← Function.iterate_succ_apply' (pass n s (relax weighted) W y) m z] at this
      linarith
  have h1 := key m
  have h2 : 0 ≤ objective n s W y ((pass n s (relax weighted) W y)^[m] z) := by
    refine add_nonneg (sum_nonneg fun i hi => ?_) (mul_nonneg hs (sum_nonneg fun _ _ => sq_nonneg _))
    exact mul_nonneg (hW0 i (mem_range.mp hi)) (sq_nonneg _)
  linarith

theorem loop_iterate (n : ℕ) (s RF tolz : ℝ) (weighted : Prop) (W y : ℕ → ℝ) : ∀ (m : ℕ) (z : ℕ → ℝ),
    ∃ k ≤ m, (loop n s RF tolz weighted W y m z).1 = (pass n s RF W y)^[k] z := by
  intro m
  induction m with
  | zero => intro z; exact ⟨0, le_rfl, rfl⟩
  | succ m ih =>
    intro z
    rw [loop]
    by_cases h : (norm n (pass n s RF W y z) ≠ 0 ∧
        norm n (fun i => z i - pass n s RF W y z i) / norm n (pass n s RF W y z) ≤ tolz) ∨ ¬ weighted
    · exact ⟨1, by omega, by rw [if_pos h]; rfl⟩
    · obtain ⟨k, hk, e⟩ := ih (pass n s RF W y z)
      refine ⟨k + 1, by omega, ?_⟩
      rw [if_neg h, e, Function.iterate_succ_apply]

/-- C344: the result of a weighted call is never worse than the initial guess: its objective (normalised weights, missing
values with weight 0) is at most that of the start. -/
theorem C344_not_worse {n : ℕ} (hn : 2 ≤ n) {s : ℝ} (hs : 0 ≤ s) {tolz : ℝ} {m : ℕ} {w guess z : ℕ → ℝ} {y : ℕ → Option ℝ}
    {W : ℕ → ℝ} {p : Prop} (hW : normalizedWeights n w y = .ok W) (hpos : ∃ i < n, 0 < w i ∧ (y i).isSome)
    (hwt : ∃ i < n, W i < 1)
    (h : smoothn n s tolz m w guess y = .ok (fun i => some (z i), p)) :
    objective n s W (zeroFilled y) z ≤ objective n s W (zeroFilled y) guess := by
  have hb := (C344_weights hW hpos).1
  have hwt' : isWeighted n W := hwt
  unfold smoothn at h
  rw [if_neg (by omega), hW] at h
  simp only at h
  rw [if_pos hwt'] at h
  have e := (Prod.ext_iff.mp (Except.ok.inj h)).1
  obtain ⟨k, -, hk⟩ := loop_iterate n s (relax (isWeighted n W)) tolz (isWeighted n W) W (zeroFilled y) (m + 1) guess
  have hz : z = (pass n s (relax (isWeighted n W)) W (zeroFilled y))^[k] guess := by
    funext i
    have := Option.some.inj (congrFun e i)
    rw [← this, hk]
  rw [hz]
  clear hk hz e h
  induction k with
  | zero => exact le_rfl
  | succ k ih =>
    rw [Function.iterate_succ_apply']
    have h1 := C344_descent hs (fun i hi => (hb i hi).2) (isWeighted n W) (zeroFilled y)
      ((pass n s (relax (isWeighted n W)) W (zeroFilled y))^[k] guess)
    have h2 : 0 ≤ ∑ i ∈ range n, (pass n s (relax (isWeighted n W)) W (zeroFilled y)
      ((pass n s (relax (isWeighted n W)) W (zeroFilled y))^[k] guess) i -
      ((pass n s (relax (isWeighted n W)) W (zeroFilled y))^[k] guess) i) ^ 2 := sum_nonneg fun _ _ => sq_nonneg _
    linarith

/-- C344: where a pass changes nothing the loop has found the series with the least objective. -/
theorem C344_fixed_points {n : ℕ} {s : ℝ} (hs : 0 ≤ s) {W : ℕ → ℝ} (hW : ∀ i < n, 0 ≤ W i) (weighted : Prop) (y z : ℕ → ℝ)
    (h : ∀ i < n, pass n s (relax weighted) W y z i = z i) (x : ℕ → ℝ) :
    objective n s W y z ≤ objective n s W y x := by
  have hr : relax weighted ≠ 0 := by
    by_cases h : weighted
    · rw [show relax weighted = 1.75 by rw [relax]; exact if_pos h]; norm_num
    · rw [show relax weighted = 1 by rw [relax]; exact if_neg h]; norm_num
  rw [objective_excess (fun i hi => pass_fixed hs hr h hi) x]
  have h1 : 0 ≤ ∑ i ∈ range n, W i * (x i - z i) ^ 2 :=
    sum_nonneg fun i hi => mul_nonneg (hW i (mem_range.mp hi)) (sq_nonneg _)
  have h2 : 0 ≤ s * ∑ i ∈ range n, secondDiff n (fun j => x j - z j) i ^ 2 :=
    mul_nonneg hs (sum_nonneg fun _ _ => sq_nonneg _)
  linarith

/-- The second value of three is missing: weights 1, 0, 1. -/
example : normalizedWeights 3 (fun _ => 2) (fun i => if i = 1 then none else some (i : ℝ)) =
    .ok (fun i => (if (i = 1) then 0 else 2) / maxOver 3 (fun i => if (i = 1) then 0 else 2)) ∧
    ∃ i < 3, (0 : ℝ) < (fun _ => 2) i ∧ ((fun i : ℕ => if i = 1 then none else some (i : ℝ)) i).isSome := by
  have hf : finiteWeights (fun _ => 2) (fun i : ℕ => if i = 1 then none else some (i : ℝ)) =
      fun i => if (i = 1) then 0 else 2 := by
    funext i
    simp only [finiteWeights]
    split_ifs <;> simp_all
  refine ⟨?_, 0, by norm_num, by norm_num, by simp⟩
  unfold normalizedWeights
  rw [hf]
  refine if_pos fun i _ => ?_
  beta_reduce
  split_ifs <;> norm_num

/-! ## C345: the array of the caller -/

/-- C345: a call with a missing value changes the array of the caller: the missing value is 0 afterwards. -/
theorem C345_caller_changed {y : ℕ → Option ℝ} {i : ℕ} (h : y i = none) : dataAfter y i = some 0 ∧ dataAfter y ≠ y := by
  refine ⟨by simp [dataAfter, zeroFilled, h], fun e => ?_⟩
  have := congrFun e i
  rw [h] at this
  simp [dataAfter] at this

/-- C345: the same call a second time is one with complete data: all weights are one and it returns something else than the first
could, the smoothing of the zeros. -/
theorem C345_second_call {n : ℕ} (hn : 2 ≤ n) {s tolz : ℝ} (m : ℕ) (guess : ℕ → ℝ) (y : ℕ → Option ℝ) :
    normalizedWeights n (fun _ => 1) (dataAfter y) = .ok (fun _ => 1) ∧
      ∃ p : Prop, p ∧ smoothn n s tolz m (fun _ => 1) guess (dataAfter y) = .ok (fun i => some (shrink s n (zeroFilled y) i), p) :=
  ⟨weights_equal (by omega) one_pos (zeroFilled y), smoothn_equal hn m one_pos guess (zeroFilled y)⟩

/-- C345: data without missing values are left as they are. -/
theorem C345_partial {y : ℕ → Option ℝ} (h : ∀ i, (y i).isSome) : dataAfter y = y := by
  funext i
  obtain ⟨v, hv⟩ := Option.isSome_iff_exists.mp (h i)
  simp [dataAfter, zeroFilled, hv]

example : dataAfter (fun i => if i = 1 then none else some (i : ℝ)) 1 = some 0 := (C345_caller_changed (by simp)).1

/-! ## C346: weights of the robust smoothing -/

/-- C346: with a positive denominator every weight lies between 0 and 1, a residual zero has weight 1, and a larger residual has no
larger weight. -/
theorem C346_weights_partial (kind : Kind) {den : ℝ} (hden : 0 < den) (r t : ℝ) :
    0 ≤ robustWeight kind (studentized den r) ∧ robustWeight kind (studentized den r) ≤ 1 ∧
      robustWeight kind (studentized den 0) = 1 ∧
      (|r| ≤ |t| → robustWeight kind (studentized den t) ≤ robustWeight kind (studentized den r)) := by
  have hs : ∀ x, studentized den x = .fin (abs x / den) := by
    intro x
    unfold studentized
    rw [if_neg hden.ne', abs_div, abs_of_pos hden]
  have hnn : ∀ x : ℝ, 0 ≤ abs x / den := fun x => div_nonneg (abs_nonneg x) hden.le
  have hmono : |r| ≤ |t| → abs r / den ≤ abs t / den := fun h => div_le_div_of_nonneg_right h hden.le
  rw [hs, hs, hs, abs_zero, zero_div]
  have hr := hnn r
  have ht := hnn t
  generalize abs r / den = a at *
  generalize abs t / den = b at *
  cases kind with
  | bisquare =>
    simp only [robustWeight]
    have ha : 0 ≤ a / 4.685 := by positivity
    have hb : 0 ≤ b / 4.685 := by positivity
    have hm : |r| ≤ |t| → a / 4.685 ≤ b / 4.685 := fun h => div_le_div_of_nonneg_right (hmono h) (by norm_num)
    generalize a / 4.685 = u at *
    generalize b / 4.685 = v at *
    refine ⟨?_, ?_, by norm_num, fun h => ?_⟩
    · split_ifs <;> positivity
    · split_ifs with h
      · have : u ^ 2 ≤ 1 := by nlinarith
        nlinarith [sq_nonneg u]
      · norm_num
    · have hm := hm h
      by_cases hv : v < 1
      · rw [if_pos hv, if_pos (by linarith)]
        have h1 : u ^ 2 ≤ v ^ 2 := by nlinarith
        have h2 : v ^ 2 ≤ 1 := by nlinarith
        nlinarith
      · rw [if_neg hv, mul_zero]
        split_ifs <;> positivity
  | talworth =>
    simp only [robustWeight]
    refine ⟨?_, ?_, by norm_num, fun h => ?_⟩
    · split_ifs <;> norm_num
    · split_ifs <;> norm_num
    · have hm := hmono h
      by_cases hv : b < 2.795
      · rw [if_pos hv, if_pos (by linarith)]
      · rw [if_neg hv]
        split_ifs <;> norm_num
  | cauchy =>
    simp only [robustWeight]
    refine ⟨by positivity, ?_, by norm_num, fun h => ?_⟩
    · rw [div_le_one (by positivity)]
      nlinarith [sq_nonneg (a / 2.385)]
    · have hm := hmono h
      have : (a / 2.385) ^ 2 ≤ (b / 2.385) ^ 2 := by
        have := div_le_div_of_nonneg_right hm (show (0 : ℝ) ≤ 2.385 by norm_num)
        have h0 : 0 ≤ a / 2.385 := by positivity
        exact pow_le_pow_left₀ h0 this 2
      exact one_div_le_one_div_of_le (by positivity) (by linarith)

/-- C346: when more than half of the residuals are equal every value gets the weight 0, also those with residual zero: the data
no longer count in the following steps. -/
theorem C346_majority_equal (kind : Kind) (rs : List ℝ) (h c : ℝ) 
    (hc : rs.length < 2 * rs.countP fun y => decide (y = c)) (r : ℝ) :
    robustWeights kind rs h r = some 0 := by
  have hne : rs ≠ [] := by
    rintro rfl
    simp at hc
  obtain ⟨m, hm, hm'⟩ := Hampel.npMedian_spec hne
  have hmc : m = c := hm'.majority (by convert hc)
  subst hmc
  have hne' : (rs.map fun r => |r - m|) ≠ [] := by simpa using hne
  obtain ⟨d, hd, hd'⟩ := Hampel.npMedian_spec hne'
  have hd0 : d = 0 := by
    refine hd'.majority ?_
    rw [List.length_map, List.countP_map]
    refine lt_of_lt_of_le hc (Nat.mul_le_mul_left 2 (List.countP_mono_left fun x _ hx => ?_))
    have : x = m := by simpa using hx
    simp [this]
  subst hd0
  have hden : denominator rs h = some 0 := by
    simp only [denominator, hm, Option.bind_some, hd, Option.map_some]
    simp
  rw [robustWeights, hden]
  simp only [Option.map_some, studentized, if_true]
  congr 1
  split_ifs <;> cases kind <;> rfl

/-- Three residuals, two of them zero: also the values that fit exactly lose their weight. -/
example : robustWeights .cauchy [0, 1, 0] (1 / 2) 0 = some 0 :=
  C346_majority_equal _ _ _ 0 (by simp) 0

/-- C346: with all weights zero the result of the following steps is a function of the start only. -/
theorem C346_data_ignored (n : ℕ) (s RF tolz : ℝ) (y y' : ℕ → ℝ) (m : ℕ) (z : ℕ → ℝ) :
    loop n s RF tolz True (fun _ => 0) y m z = loop n s RF tolz True (fun _ => 0) y' m z := by
  have hp : ∀ z, pass n s RF (fun _ => 0) y z = pass n s RF (fun _ => 0) y' z := by
    intro z
    funext i
    simp only [pass, zero_mul]
  induction m generalizing z with
  | zero => rfl
  | succ m ih =>
    rw [loop, loop, hp]
    simp only [ih]
    split_ifs <;> rfl

/-! ## C347: the initial guess -/

/-- C347: with a missing value the array from which the initial guess is made contains, where the data are finite, the distance to
the nearest finite value, that is 0, instead of the data; only the missing places are filled. -/
theorem C347_initial_fill {nearest : ℕ → ℕ} {dist : ℕ → ℝ} {y : ℕ → Option ℝ} (hd : ∀ i, (y i).isSome → dist i = 0) (i : ℕ) :
    ((y i).isSome → initialFill true nearest dist y i = 0) ∧
      (∀ v, y i = none → y (nearest i) = some v → initialFill true nearest dist y i = v) := by
  refine ⟨fun h => ?_, fun v h hv => ?_⟩
  · simp only [initialFill, if_true, h]
    exact hd i h
  · simp [initialFill, h, zeroFilled, hv]

/-- C347: without missing values the array is that of the data. -/
theorem C347_partial {nearest : ℕ → ℕ} {dist : ℕ → ℝ} {y : ℕ → Option ℝ} {i : ℕ} {v : ℝ} (h : y i = some v) :
    initialFill false nearest dist y i = v := by
  simp [initialFill, zeroFilled, h]

example : initialFill true (fun i => i - 1) (fun i => if i = 1 then 1 else 0) (fun i => if i = 1 then none else some (7 : ℝ)) 0 = 0 ∧
    initialFill true (fun i => i - 1) (fun i => if i = 1 then 1 else 0) (fun i => if i = 1 then none else some (7 : ℝ)) 1 = 7 := by
  simp [initialFill, zeroFilled]

end Wafo.Smooth
