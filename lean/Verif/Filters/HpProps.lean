import Verif.Filters.HpLemmas
import Mathlib.LinearAlgebra.FiniteDimensional.Lemmas
import Mathlib.LinearAlgebra.Matrix.ToLin
import Mathlib.Topology.Algebra.Order.Field
import Mathlib.Topology.Instances.Real.Lemmas
import Mathlib.Analysis.SpecialFunctions.Sqrt
import Mathlib.Tactic.Positivity

set_option linter.unusedSectionVars false

/-!
# `HodrickPrescott`: the result minimises the documented criterion
-/

namespace Wafo.Hp

open Finset Filter Topology

/-- Specification (Hodrick and Prescott): the squared distance to the data plus `w` times the
squared second differences. -/
def crit (w : ℝ) (n : ℕ) (x y : ℕ → ℝ) : ℝ :=
  ∑ i ∈ range n, (x i - y i) ^ 2 + w * ∑ k ∈ range (n - 2), (y k - 2 * y (k + 1) + y (k + 2)) ^ 2

section helpers

theorem sub_result {w : ℝ} {n : ℕ} {x y : ℕ → ℝ} (hn : 4 ≤ n) (h : HpResult w n x y) (u : ℕ → ℝ) :
    ∑ i ∈ range n, u i * x i
      = ∑ i ∈ range n, u i * y i + w * ∑ k ∈ range (n - 2), d2 u k * d2 y k := by
  obtain ⟨m, rfl⟩ : ∃ m, n = m + 2 := ⟨n - 2, by omega⟩
  have hb := bilinear w m (by omega) u y
  rw [HpResult, if_neg (by omega)] at h
  rw [sum_congr rfl fun i hi => by rw [h i (mem_range.1 hi)]] at hb
  exact hb

theorem crit_eq {w : ℝ} {n : ℕ} {x y : ℕ → ℝ} (hn : 4 ≤ n) (h : HpResult w n x y) (v : ℕ → ℝ) :
    crit w n x v = crit w n x y + (∑ i ∈ range n, (v i - y i) ^ 2
      + w * ∑ k ∈ range (n - 2), d2 (fun i => v i - y i) k ^ 2) := by
  have hb := sub_result hn h (fun i => v i - y i)
  have e1 : ∑ i ∈ range n, (x i - v i) ^ 2 = ∑ i ∈ range n, (x i - y i) ^ 2
      + ∑ i ∈ range n, (v i - y i) ^ 2
      - 2 * (∑ i ∈ range n, (v i - y i) * x i - ∑ i ∈ range n, (v i - y i) * y i) := by
    rw [← sum_sub_distrib, mul_sum, ← sum_add_distrib, ← sum_sub_distrib]
    exact sum_congr rfl fun i _ => by ring
  have e2 : ∑ k ∈ range (n - 2), (v k - 2 * v (k + 1) + v (k + 2)) ^ 2
      = ∑ k ∈ range (n - 2), (y k - 2 * y (k + 1) + y (k + 2)) ^ 2
      + ∑ k ∈ range (n - 2), d2 (fun i => v i - y i) k ^ 2
      + 2 * ∑ k ∈ range (n - 2), d2 (fun i => v i - y i) k * d2 y k := by
    rw [mul_sum, ← sum_add_distrib, ← sum_add_distrib]
    exact sum_congr rfl fun i _ => by simp only [d2]; ring
  rw [crit, crit, e1, e2, hb]
  ring

end helpers

/-- **C332.** For four or more values and `w ≥ 0` there is exactly one result, and it is the unique
minimiser of the criterion of Hodrick and Prescott among all series. -/
theorem C332_minimises {w : ℝ} {n : ℕ} {x y : ℕ → ℝ} (hn : 4 ≤ n) (hw : 0 ≤ w)
    (h : HpResult w n x y) (v : ℕ → ℝ) :
    crit w n x y ≤ crit w n x v ∧ (crit w n x v ≤ crit w n x y → ∀ i < n, v i = y i) := by
  have e := crit_eq hn h v
  have h1 : 0 ≤ ∑ i ∈ range n, (v i - y i) ^ 2 := sum_nonneg fun i _ => sq_nonneg _
  have h2 : 0 ≤ w * ∑ k ∈ range (n - 2), d2 (fun i => v i - y i) k ^ 2 :=
    mul_nonneg hw (sum_nonneg fun i _ => sq_nonneg _)
  refine ⟨by linarith, fun hle i hi => ?_⟩
  have h0 : ∑ i ∈ range n, (v i - y i) ^ 2 = 0 := by linarith
  have := (sum_eq_zero_iff_of_nonneg fun i _ => sq_nonneg (v i - y i)).1 h0 i (mem_range.2 hi)
  nlinarith [sq_nonneg (v i - y i), pow_eq_zero_iff (two_ne_zero) |>.1 this]

/-- **C332.** Two results agree. -/
theorem C332_unique {w : ℝ} {n : ℕ} {x y v : ℕ → ℝ} (hw : 0 ≤ w) (h : HpResult w n x y)
    (h' : HpResult w n x v) : ∀ i < n, v i = y i := by
  by_cases hn : n < 4
  · rw [HpResult, if_pos hn] at h h'
    intro i hi
    rw [h i hi, h' i hi]
  · push Not at hn
    exact (C332_minimises hn hw h v).2 (C332_minimises hn hw h' y).1

/-- **C332.** There is a result. -/
theorem C332_exists {w : ℝ} (n : ℕ) (x : ℕ → ℝ) (hw : 0 ≤ w) : ∃ y, HpResult w n x y := by
  by_cases hn : n < 4
  · exact ⟨x, by simp [HpResult, hn]⟩
  · push Not at hn
    let A : Matrix (Fin n) (Fin n) ℝ := fun i j => getMatrix w n i j
    let ext : (Fin n → ℝ) → ℕ → ℝ := fun v i => if h : i < n then v ⟨i, h⟩ else 0
    have hext : ∀ (v : Fin n → ℝ) (i : Fin n), ext v i = v i := fun v i => by simp [ext]
    have hA : ∀ (v : Fin n → ℝ) (i : Fin n),
        (A.mulVec v) i = ∑ j ∈ range n, getMatrix w n i j * ext v j := fun v i => by
      rw [Finset.sum_range]
      simp only [Matrix.mulVec, dotProduct, hext, A]
    have inj : Function.Injective A.mulVecLin := by
      rw [injective_iff_map_eq_zero]
      intro v hv
      have hz : HpResult w n (fun _ => 0) (ext v) := by
        rw [HpResult, if_neg (by omega)]
        intro i hi
        have := congrFun hv ⟨i, hi⟩
        rw [Matrix.mulVecLin_apply, hA] at this
        simpa using this
      have hz' : HpResult w n (fun _ => 0) (fun _ => 0) := by
        rw [HpResult, if_neg (by omega)]
        intro i _
        simp
      funext i
      have := C332_unique hw hz hz' i i.2
      rw [hext] at this
      exact this.symm
    obtain ⟨v, hv⟩ := (LinearMap.injective_iff_surjective.1 inj) (fun i => x i)
    refine ⟨ext v, ?_⟩
    rw [HpResult, if_neg (by omega)]
    intro i hi
    have := congrFun hv ⟨i, hi⟩
    rw [Matrix.mulVecLin_apply, hA] at this
    exact this

/-- Non-trivial case for C332: with `w = 1` the data `(1, -4, 7, -4)` is smoothed, by the
theorems to some `y`; the constant series `2` stays. -/
example : HpResult 1 4 (fun _ => 2) (fun _ => 2) := by
  rw [HpResult, if_neg (by omega)]
  intro i hi
  rw [apply_matrix 1 2 le_rfl _ i hi]
  norm_num [d2]

/-- **C333.** The sum and the first moment of the series are preserved. -/
theorem C333_moments {w : ℝ} {n : ℕ} {x y : ℕ → ℝ} (h : HpResult w n x y) :
    ∑ i ∈ range n, y i = ∑ i ∈ range n, x i ∧
      ∑ i ∈ range n, (i : ℝ) * y i = ∑ i ∈ range n, (i : ℝ) * x i := by
  by_cases hn : n < 4
  · rw [HpResult, if_pos hn] at h
    exact ⟨sum_congr rfl fun i hi => h i (mem_range.1 hi),
      sum_congr rfl fun i hi => by rw [h i (mem_range.1 hi)]⟩
  · push Not at hn
    have h0 := sub_result hn h (fun _ => 1)
    have h1 := sub_result hn h (fun i => (i : ℝ))
    have z0 : ∀ k, d2 (fun _ => (1 : ℝ)) k = 0 := fun k => by simp only [d2]; ring
    have z1 : ∀ k, d2 (fun i => (i : ℝ)) k = 0 := fun k => by simp only [d2]; push_cast; ring
    simp only [z0, z1, zero_mul, sum_const_zero, mul_zero, add_zero, one_mul] at h0 h1
    exact ⟨h0.symm, h1.symm⟩

/-- **C333.** A straight line is returned unchanged, for every `w ≥ 0`, and with `w = 0` every series
is. -/
theorem C333_lines_and_zero {w : ℝ} {n : ℕ} {x y : ℕ → ℝ} (h : HpResult w n x y) (hw : 0 ≤ w)
    (hx : (∃ a b : ℝ, ∀ i < n, x i = a + b * i) ∨ w = 0) : ∀ i < n, y i = x i := by
  by_cases hn : n < 4
  · rw [HpResult, if_pos hn] at h
    exact h
  · push Not at hn
    have hx' : HpResult w n x x := by
      obtain ⟨m, rfl⟩ : ∃ m, n = m + 2 := ⟨n - 2, by omega⟩
      rw [HpResult, if_neg (by omega)]
      intro i hi
      rw [apply_matrix w m (by omega) x i hi]
      rcases hx with ⟨a, b, hab⟩ | rfl
      · have : ∀ k ∈ range m, dc k i * d2 x k = 0 := fun k hk => by
          have hk := mem_range.1 hk
          rw [d2, hab k (by omega), hab (k + 1) (by omega), hab (k + 2) (by omega)]
          push_cast; ring
        rw [sum_eq_zero this]; ring
      · ring
    exact C332_unique hw hx' h

/-- **C333.** The filter is linear. -/
theorem C333_linear {w : ℝ} {n : ℕ} {x₁ x₂ y₁ y₂ : ℕ → ℝ} (h₁ : HpResult w n x₁ y₁)
    (h₂ : HpResult w n x₂ y₂) (a b : ℝ) :
    HpResult w n (fun i => a * x₁ i + b * x₂ i) (fun i => a * y₁ i + b * y₂ i) := by
  unfold HpResult at *
  split_ifs at * with hn
  · intro i hi
    beta_reduce
    rw [h₁ i hi, h₂ i hi]
  · intro i hi
    beta_reduce
    rw [← h₁ i hi, ← h₂ i hi, mul_sum, mul_sum, ← sum_add_distrib]
    exact sum_congr rfl fun j _ => by ring

section limit

/-- A series from its first two values and its second differences. -/
theorem expand (v : ℕ → ℝ) (i : ℕ) :
    v i = v 0 + i * (v 1 - v 0) + ∑ k ∈ range (i - 1), ((i : ℝ) - 1 - k) * d2 v k := by
  induction i using Nat.twoStepInduction with
  | zero => simp
  | one => simp
  | more i ih0 ih1 =>
    have e : v (i + 2) = 2 * v (i + 1) - v i + d2 v i := by simp only [d2]; ring
    have s : ∀ j : ℕ, j ≤ i → ∑ k ∈ range (j - 1), ((j : ℝ) - 1 - k) * d2 v k
        = ∑ k ∈ range j, ((j : ℝ) - 1 - k) * d2 v k := by
      intro j _
      rcases j with - | j
      · simp
      · rw [sum_range_succ]; simp
    rw [e, ih1, ih0, s i le_rfl]
    simp only [Nat.add_sub_cancel, show i + 2 - 1 = i + 1 from rfl]
    rw [sum_range_succ]
    push_cast
    have : ∑ k ∈ range i, ((i : ℝ) + 2 - 1 - k) * d2 v k
        = 2 * ∑ k ∈ range i, ((i : ℝ) + 1 - 1 - k) * d2 v k
          - ∑ k ∈ range i, ((i : ℝ) - 1 - k) * d2 v k := by
      rw [mul_sum, ← sum_sub_distrib]
      exact sum_congr rfl fun k _ => by ring
    rw [this]; ring

theorem moments_det {n : ℕ} (hn : 2 ≤ n) :
    0 < (n : ℝ) * ∑ i ∈ range n, (i : ℝ) * i - (∑ i ∈ range n, (i : ℝ)) ^ 2 := by
  have h1 : ∀ n : ℕ, ∑ i ∈ range n, (i : ℝ) = n * (n - 1) / 2 := fun n => by
    induction n with
    | zero => simp
    | succ n ih => rw [sum_range_succ, ih]; push_cast; ring
  have h2 : ∀ n : ℕ, ∑ i ∈ range n, (i : ℝ) * i = n * (n - 1) * (2 * n - 1) / 6 := fun n => by
    induction n with
    | zero => simp
    | succ n ih => rw [sum_range_succ, ih]; push_cast; ring
  rw [h1, h2]
  have hn' : (2 : ℝ) ≤ n := by exact_mod_cast hn
  have : (n : ℝ) * (n * (n - 1) * (2 * n - 1) / 6) - (n * (n - 1) / 2) ^ 2
      = n ^ 2 * (n - 1) * (n + 1) / 12 := by ring
  rw [this]
  have : (0 : ℝ) < n - 1 := by linarith
  positivity

end limit

/-- **C334.** "As w approach infinity H-P will approach a line": for four or more values, every
value of the result tends to that of the least squares line of the data, the line whose residuals have zero sum
and zero first moment. -/
theorem C334_tends_to_line {n : ℕ} (hn : 4 ≤ n) (x : ℕ → ℝ) (y : ℝ → ℕ → ℝ)
    (hy : ∀ w, 0 ≤ w → HpResult w n x (y w)) (a b : ℝ)
    (h0 : ∑ i ∈ range n, (x i - (a + b * i)) = 0)
    (h1 : ∑ i ∈ range n, (i : ℝ) * (x i - (a + b * i)) = 0) (i : ℕ) (hi : i < n) :
    Tendsto (fun w => y w i) atTop (𝓝 (a + b * i)) := by
  set ℓ : ℕ → ℝ := fun i => a + b * i with hℓ
  set E : ℝ := ∑ i ∈ range n, (x i - ℓ i) ^ 2 with hE
  have dl : ∀ k, d2 ℓ k = 0 := fun k => by simp only [d2, hℓ]; push_cast; ring
  -- the second differences tend to zero
  have hd : ∀ k < n - 2, Tendsto (fun w => d2 (y w) k) atTop (𝓝 0) := by
    intro k hk
    have hsq : Tendsto (fun w => d2 (y w) k ^ 2) atTop (𝓝 0) := by
      refine squeeze_zero' (g := fun w : ℝ => E / w) (Eventually.of_forall fun w => sq_nonneg _) ?_ ?_
      · filter_upwards [eventually_gt_atTop (0 : ℝ)] with w hw
        have hle := (C332_minimises hn hw.le (hy w hw.le) ℓ).1
        have hl : crit w n x ℓ = E := by
          have : ∀ k, ℓ k - 2 * ℓ (k + 1) + ℓ (k + 2) = 0 := dl
          simp [crit, this, hE]
        rw [hl, crit] at hle
        have hp : 0 ≤ ∑ i ∈ range n, (x i - y w i) ^ 2 := sum_nonneg fun i _ => sq_nonneg _
        have hs : d2 (y w) k ^ 2 ≤ ∑ k ∈ range (n - 2), d2 (y w) k ^ 2 :=
          single_le_sum (f := fun k => d2 (y w) k ^ 2) (fun i _ => sq_nonneg _) (mem_range.2 hk)
        rw [le_div_iff₀ hw]
        have : w * ∑ k ∈ range (n - 2), d2 (y w) k ^ 2 ≤ E := by
          simp only [d2]; linarith
        nlinarith
      · simpa [div_eq_mul_inv] using (tendsto_const_nhds (x := E)).mul tendsto_inv_atTop_zero
    have habs := (Real.continuous_sqrt.tendsto 0).comp hsq
    simp only [Real.sqrt_zero] at habs
    refine (tendsto_zero_iff_abs_tendsto_zero _).2 (habs.congr fun w => ?_)
    simp [Real.sqrt_sq_eq_abs]
  -- the remainder after the line through the first two values
  set r : ℝ → ℕ → ℝ := fun w i => ∑ k ∈ range (i - 1), ((i : ℝ) - 1 - k) * d2 (y w) k with hr
  have hrt : ∀ i < n, Tendsto (fun w => r w i) atTop (𝓝 0) := by
    intro i hi
    have : Tendsto (fun w => r w i) atTop
        (𝓝 (∑ k ∈ range (i - 1), ((i : ℝ) - 1 - k) * 0)) :=
      tendsto_finsetSum _ fun k hk =>
        (hd k (by have := mem_range.1 hk; omega)).const_mul _
    simpa using this
  have hsum0 : Tendsto (fun w => ∑ i ∈ range n, r w i) atTop (𝓝 0) := by
    have := tendsto_finsetSum (range n) fun i hi => hrt i (mem_range.1 hi)
    simpa using this
  have hsum1 : Tendsto (fun w => ∑ i ∈ range n, (i : ℝ) * r w i) atTop (𝓝 0) := by
    have := tendsto_finsetSum (range n) fun i hi => (hrt i (mem_range.1 hi)).const_mul (i : ℝ)
    simpa using this
  set p : ℝ → ℝ := fun w => y w 0 - ℓ 0 with hp
  set q : ℝ → ℝ := fun w => (y w 1 - ℓ 1) - (y w 0 - ℓ 0) with hq
  have hv : ∀ w i, y w i - ℓ i = p w + i * q w + r w i := fun w i => by
    have e := expand (fun i => y w i - ℓ i) i
    have : ∀ k, d2 (fun i => y w i - ℓ i) k = d2 (y w) k := fun k => by
      have := dl k
      simp only [d2] at this ⊢; linarith
    simp only [this] at e
    exact e
  set s0 : ℝ := ∑ i ∈ range n, (i : ℝ) with hs0
  set s1 : ℝ := ∑ i ∈ range n, (i : ℝ) * i with hs1
  have hdet : 0 < (n : ℝ) * s1 - s0 ^ 2 := moments_det (by omega)
  have eq0 : ∀ w, 0 ≤ w → n * p w + s0 * q w = -∑ i ∈ range n, r w i := fun w hw => by
    have hm := (C333_moments (hy w hw)).1
    have : ∑ i ∈ range n, (y w i - ℓ i) = 0 := by
      rw [sum_sub_distrib, hm, ← sum_sub_distrib]; exact h0
    simp only [hv, sum_add_distrib, sum_const, card_range, nsmul_eq_mul, ← sum_mul] at this
    linarith
  have eq1 : ∀ w, 0 ≤ w → s0 * p w + s1 * q w = -∑ i ∈ range n, (i : ℝ) * r w i := fun w hw => by
    have hm := (C333_moments (hy w hw)).2
    have : ∑ i ∈ range n, (i : ℝ) * (y w i - ℓ i) = 0 := by
      simp only [mul_sub, sum_sub_distrib] at h1 ⊢
      rw [hm]; exact h1
    simp only [hv, mul_add, ← mul_assoc, sum_add_distrib, ← sum_mul] at this
    linarith
  have hpt : Tendsto p atTop (𝓝 0) := by
    have : Tendsto (fun w => (s0 * (∑ i ∈ range n, (i : ℝ) * r w i) - s1 * ∑ i ∈ range n, r w i)
        / (n * s1 - s0 ^ 2)) atTop (𝓝 ((s0 * 0 - s1 * 0) / (n * s1 - s0 ^ 2))) :=
      ((hsum1.const_mul s0).sub (hsum0.const_mul s1)).div_const _
    simp only [mul_zero, sub_zero, zero_div] at this
    refine this.congr' ?_
    filter_upwards [eventually_ge_atTop (0 : ℝ)] with w hw
    rw [div_eq_iff hdet.ne']
    linear_combination s0 * eq1 w hw - s1 * eq0 w hw
  have hqt : Tendsto q atTop (𝓝 0) := by
    have : Tendsto (fun w => (s0 * (∑ i ∈ range n, r w i) - n * ∑ i ∈ range n, (i : ℝ) * r w i)
        / (n * s1 - s0 ^ 2)) atTop (𝓝 ((s0 * 0 - n * 0) / (n * s1 - s0 ^ 2))) :=
      ((hsum0.const_mul s0).sub (hsum1.const_mul (n : ℝ))).div_const _
    simp only [mul_zero, sub_zero, zero_div] at this
    refine this.congr' ?_
    filter_upwards [eventually_ge_atTop (0 : ℝ)] with w hw
    rw [div_eq_iff hdet.ne']
    linear_combination s0 * eq0 w hw - n * eq1 w hw
  have hfin := ((hpt.add (hqt.const_mul (i : ℝ))).add (hrt i hi)).add_const (ℓ i)
  simp only [mul_zero, add_zero, zero_add] at hfin
  exact hfin.congr fun w => by rw [← hv]; ring

/-- **C335.** One and two values are returned as the minimiser. -/
theorem C335_short_series_partial {w : ℝ} {n : ℕ} {x y : ℕ → ℝ} (hn : n ≤ 2)
    (h : HpResult w n x y) (v : ℕ → ℝ) : crit w n x y ≤ crit w n x v := by
  rw [HpResult, if_pos (by omega)] at h
  have e : n - 2 = 0 := by omega
  have : ∑ i ∈ range n, (x i - y i) ^ 2 = 0 :=
    sum_eq_zero fun i hi => by rw [h i (mem_range.1 hi)]; ring
  simp only [crit, e, range_zero, sum_empty, mul_zero, add_zero, this]
  exact sum_nonneg fun i _ => sq_nonneg _

/-- **C335.** Three values are not smoothed at all although the criterion has a smoother minimiser:
for `(0, 1, 0)` and every `w > 0` the result is not the minimiser. -/
theorem C335_three_values_refuted (w : ℝ) (hw : 0 < w) :
    ∃ x v : ℕ → ℝ, ∀ y, HpResult w 3 x y → crit w 3 x v < crit w 3 x y := by
  refine ⟨fun i => if i = 1 then 1 else 0, fun i => if i = 1 then 1 - 4 * w / (1 + 6 * w) else
    2 * w / (1 + 6 * w), fun y h => ?_⟩
  rw [HpResult, if_pos (by omega)] at h
  have y0 := h 0 (by omega)
  have y1 := h 1 (by omega)
  have y2 := h 2 (by omega)
  simp at y0 y1 y2
  have hden : 0 < 1 + 6 * w := by positivity
  simp [crit, sum_range_succ, y0, y1, y2]
  have e : 2 * w / (1 + 6 * w) - 2 * (1 - 4 * w / (1 + 6 * w)) + 2 * w / (1 + 6 * w)
      = -2 * (1 / (1 + 6 * w)) := by field_simp; ring
  rw [e]
  have e2 : (2 * w / (1 + 6 * w)) ^ 2 + (4 * w / (1 + 6 * w)) ^ 2 + (2 * w / (1 + 6 * w)) ^ 2
      + w * (-2 * (1 / (1 + 6 * w))) ^ 2 = 4 * w / (1 + 6 * w) := by
    field_simp; ring
  rw [e2, div_lt_iff₀ hden]
  nlinarith [mul_pos hw hw]

end Wafo.Hp
