import Verif.Spline.Spec
import Mathlib.Analysis.Calculus.Deriv.Pow
import Mathlib.Analysis.Calculus.Deriv.Mul
import Mathlib.Analysis.Calculus.Deriv.Add
import Mathlib.Analysis.Calculus.MeanValue
import Mathlib.MeasureTheory.Integral.IntervalIntegral.FundThmCalculus
import Mathlib.Tactic.LinearCombination
import Mathlib.Tactic.FieldSimp

/-! Natural cubic splines as sums of truncated powers. -/

set_option linter.unusedSectionVars false

namespace Wafo.Spline

open Finset MeasureTheory

theorem hasDerivAt_trunc (n : ℕ) (t : ℝ) :
    HasDerivAt (fun s : ℝ => max s 0 ^ (n + 2)) ((n + 2 : ℕ) * max t 0 ^ (n + 1)) t := by
  rcases lt_trichotomy t 0 with h | h | h
  · rw [max_eq_right h.le]
    have : HasDerivAt (fun _ : ℝ => (0 : ℝ)) ((n + 2 : ℕ) * (0 : ℝ) ^ (n + 1)) t := by
      simpa using hasDerivAt_const t (0 : ℝ)
    refine this.congr_of_eventuallyEq ?_
    filter_upwards [gt_mem_nhds h] with s hs
    rw [max_eq_right hs.le]; simp
  · subst h
    have h1 : HasDerivWithinAt (fun s : ℝ => max s 0 ^ (n + 2)) ((n + 2 : ℕ) * max (0 : ℝ) 0 ^ (n + 1)) (Set.Ici 0) 0 := by
      have := (hasDerivAt_pow (n + 2) (0 : ℝ)).hasDerivWithinAt (s := Set.Ici 0)
      refine HasDerivWithinAt.congr_of_mem (f := fun s : ℝ => s ^ (n + 2)) ?_ ?_ (by simp)
      · simpa using this
      · intro s hs; simp only [max_eq_left (Set.mem_Ici.1 hs)]
    have h2 : HasDerivWithinAt (fun s : ℝ => max s 0 ^ (n + 2)) ((n + 2 : ℕ) * max (0 : ℝ) 0 ^ (n + 1)) (Set.Iic 0) 0 := by
      have := (hasDerivAt_const (0 : ℝ) (0 : ℝ)).hasDerivWithinAt (s := Set.Iic 0)
      refine HasDerivWithinAt.congr_of_mem (f := fun _ : ℝ => 0) ?_ ?_ (by simp)
      · simpa using this
      · intro s hs; simp [max_eq_right (Set.mem_Iic.1 hs)]
    have := h2.union h1
    rw [Set.Iic_union_Ici] at this
    exact this.hasDerivAt Filter.univ_mem
  · rw [max_eq_left h.le]
    refine (hasDerivAt_pow (n + 2) t).congr_of_eventuallyEq ?_
    filter_upwards [lt_mem_nhds h] with s hs
    rw [max_eq_left hs.le]

/-- The spline with value `a0` and slope `b0` at the first point and jumps `6 * p * q i` of its third derivative. -/
noncomputable def nat0 (N : ℕ) (x q : ℕ → ℝ) (p a0 b0 t : ℝ) : ℝ :=
  a0 + b0 * (t - x 0) + p * ∑ i ∈ range N, q i * max (t - x i) 0 ^ 3
/-- Its derivative. -/
noncomputable def nat1 (N : ℕ) (x q : ℕ → ℝ) (p b0 t : ℝ) : ℝ :=
  b0 + p * ∑ i ∈ range N, q i * (3 * max (t - x i) 0 ^ 2)
/-- Its second derivative. -/
noncomputable def nat2 (N : ℕ) (x q : ℕ → ℝ) (p t : ℝ) : ℝ :=
  p * ∑ i ∈ range N, q i * (6 * max (t - x i) 0)

section
variable (N : ℕ) (x q : ℕ → ℝ) (p a0 b0 : ℝ)

theorem nat0_deriv (t : ℝ) : HasDerivAt (nat0 N x q p a0 b0) (nat1 N x q p b0 t) t := by
  have h : ∀ i ∈ range N, HasDerivAt (fun t => q i * max (t - x i) 0 ^ 3) (q i * (3 * max (t - x i) 0 ^ 2)) t :=
    fun i _ => by
      have := ((hasDerivAt_trunc 1 (t - x i)).comp t ((hasDerivAt_id t).sub_const (x i))).const_mul (q i)
      refine HasDerivAt.congr_deriv this ?_
      push_cast; ring
  have h2 := (HasDerivAt.fun_sum h).const_mul p
  have h3 := ((((hasDerivAt_id t).sub_const (x 0)).const_mul b0).const_add a0).add h2
  refine HasDerivAt.congr_deriv h3 ?_
  rw [nat1]; ring

theorem nat1_deriv (t : ℝ) : HasDerivAt (nat1 N x q p b0) (nat2 N x q p t) t := by
  have h : ∀ i ∈ range N, HasDerivAt (fun t => q i * (3 * max (t - x i) 0 ^ 2)) (q i * (6 * max (t - x i) 0)) t :=
    fun i _ => by
      have := (((hasDerivAt_trunc 0 (t - x i)).comp t ((hasDerivAt_id t).sub_const (x i))).const_mul 3).const_mul (q i)
      refine HasDerivAt.congr_deriv this ?_
      push_cast; ring
  exact ((HasDerivAt.fun_sum h).const_mul p).const_add b0

theorem nat2_cont : Continuous (nat2 N x q p) := by
  unfold nat2; fun_prop

theorem nat_smooth (a b : ℝ) : Smooth a b (nat0 N x q p a0 b0) (nat1 N x q p b0) (nat2 N x q p) :=
  ⟨fun t _ => (nat0_deriv N x q p a0 b0 t).hasDerivWithinAt, fun t _ => (nat1_deriv N x q p b0 t).hasDerivWithinAt,
    (nat2_cont N x q p).continuousOn⟩
end

/-- Pieces with coefficients `a b c d` that fit together. -/
theorem pieces (m : ℕ) (x q a b c d : ℕ → ℝ) (p : ℝ) (c0 : c 0 = 0) (q0 : p * q 0 = d 0)
    (hq : ∀ j, j < m → p * q (j + 1) = d (j + 1) - d j)
    (ha : ∀ j, j < m → a (j + 1) = a j + b j * (x (j + 1) - x j) + c j * (x (j + 1) - x j) ^ 2 +
      d j * (x (j + 1) - x j) ^ 3)
    (hb : ∀ j, j < m → b (j + 1) = b j + 2 * c j * (x (j + 1) - x j) + 3 * d j * (x (j + 1) - x j) ^ 2)
    (hc : ∀ j, j < m → c (j + 1) = c j + 3 * d j * (x (j + 1) - x j)) (t : ℝ) :
    ∀ j, j ≤ m → a 0 + b 0 * (t - x 0) + p * ∑ i ∈ range (j + 1), q i * (t - x i) ^ 3 =
      a j + b j * (t - x j) + c j * (t - x j) ^ 2 + d j * (t - x j) ^ 3 := by
  intro j
  induction j with
  | zero =>
    intro _
    rw [Finset.sum_range_one, c0]; linear_combination (t - x 0) ^ 3 * q0
  | succ j ih =>
    intro hj
    rw [Finset.sum_range_succ, ha j (by omega), hb j (by omega), hc j (by omega)]
    linear_combination ih (by omega) + (t - x (j + 1)) ^ 3 * hq j (by omega)

theorem trunc_sum {N j : ℕ} (x q : ℕ → ℝ) (n : ℕ) (hn : n ≠ 0) (hj : j ≤ N) (t : ℝ) (h1 : ∀ i, i < j → x i ≤ t)
    (h2 : ∀ i, j ≤ i → i < N → t ≤ x i) :
    ∑ i ∈ range N, q i * max (t - x i) 0 ^ n = ∑ i ∈ range j, q i * (t - x i) ^ n := by
  rw [← Finset.sum_range_add_sum_Ico _ hj, Finset.sum_eq_zero (s := Ico j N), add_zero]
  · exact Finset.sum_congr rfl fun i hi => by
      rw [max_eq_left (sub_nonneg.2 (h1 i (mem_range.1 hi)))]
  · intro i hi
    rw [max_eq_right (sub_nonpos.2 (h2 i (mem_Ico.1 hi).1 (mem_Ico.1 hi).2)), zero_pow hn, mul_zero]

theorem integral_trunc {a b c : ℝ} {k k1 k2 : ℝ → ℝ} (hk : Smooth a b k k1 k2) (hac : a ≤ c) (hcb : c ≤ b) :
    ∫ t in a..b, max (t - c) 0 * k2 t = (b - c) * k1 b - k b + k c := by
  have hab := hac.trans hcb
  have hcont : ContinuousOn (fun t => max (t - c) 0 * k2 t) (Set.Icc a b) :=
    ContinuousOn.mul (by fun_prop) hk.cont
  have i1 : IntervalIntegrable (fun t => max (t - c) 0 * k2 t) volume a c :=
    (hcont.mono (Set.Icc_subset_Icc le_rfl hcb)).intervalIntegrable_of_Icc hac
  have i2 : IntervalIntegrable (fun t => max (t - c) 0 * k2 t) volume c b :=
    (hcont.mono (Set.Icc_subset_Icc hac le_rfl)).intervalIntegrable_of_Icc hcb
  rw [← intervalIntegral.integral_add_adjacent_intervals i1 i2]
  have e1 : ∫ t in a..c, max (t - c) 0 * k2 t = 0 := by
    rw [show (0 : ℝ) = ∫ t in a..c, (0 : ℝ) by simp]
    refine intervalIntegral.integral_congr fun t ht => ?_
    rw [Set.uIcc_of_le hac] at ht
    simp [max_eq_right (sub_nonpos.2 ht.2)]
  have e2 : ∫ t in c..b, max (t - c) 0 * k2 t = ((b - c) * k1 b - k b) - ((c - c) * k1 c - k c) := by
    refine intervalIntegral.integral_eq_sub_of_hasDerivAt_of_le hcb (f := fun t => (t - c) * k1 t - k t) ?_ ?_ i2
    · have c0 : ContinuousOn k (Set.Icc c b) := fun t ht =>
        ((hk.d1 t ⟨hac.trans ht.1, ht.2⟩).continuousWithinAt).mono (Set.Icc_subset_Icc hac le_rfl)
      have c1 : ContinuousOn k1 (Set.Icc c b) := fun t ht =>
        ((hk.d2 t ⟨hac.trans ht.1, ht.2⟩).continuousWithinAt).mono (Set.Icc_subset_Icc hac le_rfl)
      exact (ContinuousOn.mul (by fun_prop) c1).sub c0
    · intro t ht
      have hm : t ∈ Set.Icc a b := ⟨hac.trans ht.1.le, ht.2.le⟩
      have hn : Set.Icc a b ∈ nhds t := Icc_mem_nhds (hac.trans_lt ht.1) ht.2
      have d1 := (hk.d1 t hm).hasDerivAt hn
      have d2 := (hk.d2 t hm).hasDerivAt hn
      have := (((hasDerivAt_id t).sub_const c).mul d2).sub d1
      refine HasDerivAt.congr_deriv this ?_
      rw [max_eq_left (sub_nonneg.2 ht.1.le)]
      simp
  rw [e1, e2]; ring

/-- The second derivative of the natural spline against any other second derivative. -/
theorem integral_nat2 {n : ℕ} {x q : ℕ → ℝ} {p : ℝ} (hx : ∀ i, i < n + 1 → x 0 ≤ x i ∧ x i ≤ x n)
    (s0 : ∑ i ∈ range (n + 1), q i = 0) (s1 : ∑ i ∈ range (n + 1), q i * (x n - x i) = 0)
    {k k1 k2 : ℝ → ℝ} (hk : Smooth (x 0) (x n) k k1 k2) :
    ∫ t in (x 0)..(x n), nat2 (n + 1) x q p t * k2 t = 6 * p * ∑ i ∈ range (n + 1), q i * k (x i) := by
  have h0n := (hx 0 (by omega)).2
  have ii : ∀ i ∈ range (n + 1), IntervalIntegrable (fun t => 6 * p * (q i * (max (t - x i) 0 * k2 t))) volume (x 0) (x n) :=
    fun i _ => by
      refine ContinuousOn.intervalIntegrable_of_Icc h0n ?_
      exact ContinuousOn.mul (by fun_prop) (ContinuousOn.mul (by fun_prop) (ContinuousOn.mul (by fun_prop) hk.cont))
  have e : ∀ t, nat2 (n + 1) x q p t * k2 t = ∑ i ∈ range (n + 1), 6 * p * (q i * (max (t - x i) 0 * k2 t)) := by
    intro t
    rw [nat2, Finset.mul_sum, Finset.sum_mul]
    exact Finset.sum_congr rfl fun i _ => by ring
  simp only [e]
  rw [intervalIntegral.integral_finsetSum ii]
  have e2 : ∀ i ∈ range (n + 1), ∫ t in (x 0)..(x n), 6 * p * (q i * (max (t - x i) 0 * k2 t)) =
      6 * p * (q i * (x n - x i) * k1 (x n) - q i * k (x n) + q i * k (x i)) := fun i hi => by
    obtain ⟨b1, b2⟩ := hx i (mem_range.1 hi)
    rw [intervalIntegral.integral_const_mul, intervalIntegral.integral_const_mul, integral_trunc hk b1 b2]; ring
  rw [Finset.sum_congr rfl e2, ← Finset.mul_sum, Finset.sum_add_distrib, Finset.sum_sub_distrib, ← Finset.sum_mul,
    ← Finset.sum_mul, s0, s1]
  ring

theorem Smooth.sub {a b : ℝ} {f f1 f2 g g1 g2 : ℝ → ℝ} (hf : Smooth a b f f1 f2) (hg : Smooth a b g g1 g2) :
    Smooth a b (fun t => f t - g t) (fun t => f1 t - g1 t) (fun t => f2 t - g2 t) :=
  ⟨fun t ht => (hf.d1 t ht).sub (hg.d1 t ht), fun t ht => (hf.d2 t ht).sub (hg.d2 t ht), hf.cont.sub hg.cont⟩

/-- Roughness of `s + k`. -/
theorem rough_add {a b : ℝ} (hab : a ≤ b) {s2 g2 : ℝ → ℝ} (hs : ContinuousOn s2 (Set.Icc a b))
    (hg : ContinuousOn g2 (Set.Icc a b)) :
    rough a b g2 = rough a b s2 + 2 * (∫ t in a..b, s2 t * (g2 t - s2 t)) + rough a b (fun t => g2 t - s2 t) := by
  have i1 : IntervalIntegrable (fun t => s2 t ^ 2) volume a b :=
    (hs.pow 2).intervalIntegrable_of_Icc hab
  have i2 : IntervalIntegrable (fun t => 2 * (s2 t * (g2 t - s2 t))) volume a b :=
    ((hs.mul (hg.sub hs)).intervalIntegrable_of_Icc hab).const_mul 2
  have i3 : IntervalIntegrable (fun t => (g2 t - s2 t) ^ 2) volume a b :=
    ((hg.sub hs).pow 2).intervalIntegrable_of_Icc hab
  rw [rough, rough, rough, ← intervalIntegral.integral_const_mul, ← intervalIntegral.integral_add i1 i2,
    ← intervalIntegral.integral_add (i1.add i2) i3]
  refine intervalIntegral.integral_congr fun t _ => ?_
  ring

theorem rough_nonneg {a b : ℝ} (hab : a ≤ b) (f : ℝ → ℝ) : 0 ≤ rough a b f :=
  intervalIntegral.integral_nonneg hab fun _ _ => sq_nonneg _

/-- A function without roughness that vanishes at two points is zero. -/
theorem eq_zero_of_rough {a b : ℝ} (hab : a < b) {k k1 k2 : ℝ → ℝ} (hk : Smooth a b k k1 k2) (h : rough a b k2 = 0)
    {c : ℝ} (hc : c ∈ Set.Icc a b) (hac : a < c) (ka : k a = 0) (kc : k c = 0) : ∀ t ∈ Set.Icc a b, k t = 0 := by
  have z2 : ∀ t ∈ Set.Icc a b, k2 t = 0 := by
    by_contra hne
    push Not at hne
    obtain ⟨t0, ht0, hne⟩ := hne
    have : 0 < ∫ t in a..b, k2 t ^ 2 :=
      intervalIntegral.integral_pos hab (hk.cont.pow 2) (fun t _ => sq_nonneg _) ⟨t0, ht0, by positivity⟩
    rw [rough] at h
    exact this.ne' h
  have z1 : ∀ t ∈ Set.Icc a b, k1 t = k1 a := by
    refine constant_of_has_deriv_right_zero (fun t ht => (hk.d2 t ht).continuousWithinAt) fun t ht => ?_
    have := hk.d2 t ⟨ht.1, ht.2.le⟩
    rw [z2 t ⟨ht.1, ht.2.le⟩] at this
    exact (this.mono_of_mem_nhdsWithin (Icc_mem_nhdsGE_of_mem ht))
  have z0 : ∀ t ∈ Set.Icc a b, k t - k1 a * t = k a - k1 a * a := by
    refine constant_of_has_deriv_right_zero (f := fun t => k t - k1 a * t)
      (fun t ht => ((hk.d1 t ht).continuousWithinAt).sub (by fun_prop)) fun t ht => ?_
    have := hk.d1 t ⟨ht.1, ht.2.le⟩
    rw [z1 t ⟨ht.1, ht.2.le⟩] at this
    have h2 := (this.mono_of_mem_nhdsWithin (Icc_mem_nhdsGE_of_mem ht)).sub
      (((hasDerivAt_id t).const_mul (k1 a)).hasDerivWithinAt (s := Set.Ici t))
    refine HasDerivWithinAt.congr_deriv h2 ?_
    simp
  have hs : k1 a = 0 := by
    have := z0 c hc
    rw [ka, kc] at this
    have h3 : k1 a * (c - a) = 0 := by linarith
    rcases mul_eq_zero.1 h3 with h | h
    · exact h
    · linarith
  intro t ht
  have := z0 t ht
  rw [hs, ka] at this
  linarith

/-- Misfit of `s + k`. -/
theorem misfit_add (n : ℕ) (x y v : ℕ → ℝ) (s g : ℝ → ℝ) : misfit n x y v g = misfit n x y v s -
    2 * (∑ i ∈ range n, (y i - s (x i)) / v i * (g (x i) - s (x i))) +
      ∑ i ∈ range n, (g (x i) - s (x i)) ^ 2 / v i := by
  rw [misfit, misfit, Finset.mul_sum, ← Finset.sum_sub_distrib, ← Finset.sum_add_distrib]
  exact Finset.sum_congr rfl fun i _ => by ring

end Wafo.Spline
