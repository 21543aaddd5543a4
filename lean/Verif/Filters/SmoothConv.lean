import Verif.Filters.SmoothProps
import Mathlib.Topology.Algebra.Module.FiniteDimension
import Mathlib.Topology.Algebra.InfiniteSum.Real
import Mathlib.LinearAlgebra.FiniteDimensional.Basic

/-!
# `smoothn`: the weighted iteration converges to the minimiser
-/

set_option linter.unusedSectionVars false

namespace Wafo.Smooth

open Finset Dct Filter

/-- A vector as a series. -/
noncomputable def series {n : ℕ} (x : Fin n → ℝ) : ℕ → ℝ := fun j => if h : j < n then x ⟨j, h⟩ else 0

theorem series_apply {n : ℕ} (x : Fin n → ℝ) {j : ℕ} (h : j < n) : series x j = x ⟨j, h⟩ := dif_pos h

theorem series_add {n : ℕ} (x x' : Fin n → ℝ) (i : ℕ) :
    series (x + x') i = series x i + series x' i := by
  simp only [series]
  split_ifs <;> simp

/-- Half the Hessian of the objective. -/
noncomputable def hess (n : ℕ) (s : ℝ) (W : ℕ → ℝ) : (Fin n → ℝ) →ₗ[ℝ] (Fin n → ℝ) where
  toFun x i := W i * series x i + s * secondDiff n (secondDiff n (series x)) i
  map_add' x x' := by
    funext i
    simp only [secondDiff, series_add, Pi.add_apply]
    ring
  map_smul' c x := by
    funext i
    have : ∀ j, series (c • x) j = c * series x j := by
      intro j
      simp only [series]
      split_ifs <;> simp
    simp only [secondDiff, this, Pi.smul_apply, smul_eq_mul, RingHom.id_apply]
    ring

/-- A series with second differences zero is constant. -/
theorem secondDiff_zero {n : ℕ} {x : ℕ → ℝ} (h : ∀ i < n, secondDiff n x i = 0) : ∀ i < n, x i = x 0 := by
  have key : ∀ i, i + 1 < n → x (i + 1) = x i := by
    intro i
    induction i with
    | zero =>
      intro hi
      have := h 0 (by omega)
      simp only [secondDiff] at this
      rw [show min (0 + 1) (n - 1) = 1 by omega] at this
      norm_num at this ⊢
      linarith
    | succ i ih =>
      intro hi
      have h1 := h (i + 1) (by omega)
      have h2 := ih (by omega)
      simp only [secondDiff] at h1
      rw [show min (i + 1 + 1) (n - 1) = i + 1 + 1 by omega, Nat.add_sub_cancel] at h1
      linarith
  intro i
  induction i with
  | zero => intro _; rfl
  | succ i ih => intro hi; rw [key i hi, ih (by omega)]

theorem hess_injective {n : ℕ} {s : ℝ} (hs : 0 < s) {W : ℕ → ℝ} (hW : ∀ i < n, 0 ≤ W i) (hpos : ∃ i < n, 0 < W i) :
    Function.Injective (hess n s W) := by
  rw [injective_iff_map_eq_zero]
  intro x hx
  have h0 : ∀ i < n, W i * series x i + s * secondDiff n (secondDiff n (series x)) i = 0 := by
    intro i hi
    exact congrFun hx ⟨i, hi⟩
  have h1 : ∑ i ∈ range n, W i * series x i ^ 2 + s * ∑ i ∈ range n, secondDiff n (series x) i ^ 2 = 0 := by
    have hadj := secondDiff_adj n (secondDiff n (series x)) (series x)
    have e : ∑ i ∈ range n, secondDiff n (series x) i ^ 2 = ∑ i ∈ range n, secondDiff n (secondDiff n (series x)) i * series x i := by
      rw [hadj]
      exact sum_congr rfl fun i _ => by ring
    rw [e, mul_sum, ← sum_add_distrib]
    refine sum_eq_zero fun i hi => ?_
    linear_combination series x i * h0 i (mem_range.mp hi)
  have ha : 0 ≤ ∑ i ∈ range n, W i * series x i ^ 2 :=
    sum_nonneg fun i hi => mul_nonneg (hW i (mem_range.mp hi)) (sq_nonneg _)
  have hb : 0 ≤ ∑ i ∈ range n, secondDiff n (series x) i ^ 2 := sum_nonneg fun _ _ => sq_nonneg _
  have hb' := mul_nonneg hs.le hb
  have hb0 : ∑ i ∈ range n, secondDiff n (series x) i ^ 2 = 0 :=
    (mul_eq_zero.mp (by linarith : s * ∑ i ∈ range n, secondDiff n (series x) i ^ 2 = 0)).resolve_left hs.ne'
  have ha0 : ∑ i ∈ range n, W i * series x i ^ 2 = 0 := by linarith
  have hd : ∀ i < n, secondDiff n (series x) i = 0 := by
    intro i hi
    have := (sum_eq_zero_iff_of_nonneg fun i _ => sq_nonneg (secondDiff n (series x) i)).mp hb0 i (mem_range.mpr hi)
    exact pow_eq_zero_iff two_ne_zero |>.mp this
  have hconst := secondDiff_zero hd
  obtain ⟨i0, hi0, hw0⟩ := hpos
  have hx0 : series x 0 = 0 := by
    have := (sum_eq_zero_iff_of_nonneg fun i hi => mul_nonneg (hW i (mem_range.mp hi)) (sq_nonneg (series x i))).mp ha0 i0
      (mem_range.mpr hi0)
    have := (mul_eq_zero.mp this).resolve_left hw0.ne'
    rw [← hconst i0 hi0]
    exact pow_eq_zero_iff two_ne_zero |>.mp this
  funext i
  rw [← series_apply x i.2, hconst i i.2, hx0]
  rfl

/-- The step of a pass in terms of the gradient. -/
theorem pass_residual {n : ℕ} {s RF : ℝ} (hs : 0 ≤ s) (W y z : ℕ → ℝ) {i : ℕ} (hi : i < n) :
    (pass n s RF W y z i - z i) + s * secondDiff n (secondDiff n (fun j => pass n s RF W y z j - z j)) i =
      -RF * (s * secondDiff n (secondDiff n z) i - W i * (y i - z i)) := by
  set q : ℕ → ℝ := fun j => W j * (y j - z j) + z j with hq
  have hd : (fun j => pass n s RF W y z j - z j) = fun j => RF * (shrink s n q j - z j) := funext fun j => by
    rw [pass]
    ring
  have h1 := shrink_solves hs n q hi
  have h2 : secondDiff n (secondDiff n (fun j => RF * (shrink s n q j - z j))) i =
      RF * (secondDiff n (secondDiff n (shrink s n q)) i - secondDiff n (secondDiff n z) i) := by
    simp only [secondDiff]
    ring
  rw [congrFun hd i, hd, h2]
  have h3 : q i = W i * (y i - z i) + z i := rfl
  linear_combination RF * h1 + RF * h3

theorem step_tendsto {n : ℕ} {s : ℝ} (hs : 0 ≤ s) {W : ℕ → ℝ} (hW0 : ∀ i < n, 0 ≤ W i) (hW : ∀ i < n, W i ≤ 1)
    (weighted : Prop) (y z : ℕ → ℝ) {i : ℕ} (hi : i < n) :
    Tendsto (fun k => (pass n s (relax weighted) W y)^[k + 1] z i - (pass n s (relax weighted) W y)^[k] z i) atTop
      (nhds 0) := by
  set F := pass n s (relax weighted) W y with hF
  have hsum : Summable fun k => ∑ i ∈ range n, (F^[k + 1] z i - F^[k] z i) ^ 2 :=
    summable_of_sum_range_le (fun k => sum_nonneg fun _ _ => sq_nonneg _)
      (fun m => C344_total_change hs hW0 hW weighted y z m)
  have h0 := hsum.tendsto_atTop_zero
  have h1 : Tendsto (fun k => (F^[k + 1] z i - F^[k] z i) ^ 2) atTop (nhds 0) :=
    squeeze_zero (fun _ => sq_nonneg _) (fun k => single_le_sum (f := fun i => (F^[k + 1] z i - F^[k] z i) ^ 2)
      (fun _ _ => sq_nonneg _) (mem_range.mpr hi)) h0
  have h2 := (Real.continuous_sqrt.tendsto 0).comp h1
  rw [Real.sqrt_zero] at h2
  rw [tendsto_zero_iff_abs_tendsto_zero]
  refine h2.congr fun k => ?_
  simp only [Function.comp_apply, Real.sqrt_sq_eq_abs]

/-- C348: with `s > 0` and a positive weight there is one series with the least objective, and the passes of the loop, with the
relaxation factor of the code and from any start, tend to it at every place. -/
theorem C348_converges_to_minimiser {n : ℕ} {s : ℝ} (hs : 0 < s) {W : ℕ → ℝ} (hW0 : ∀ i < n, 0 ≤ W i)
    (hW : ∀ i < n, W i ≤ 1) (hpos : ∃ i < n, 0 < W i) (weighted : Prop) (y : ℕ → ℝ) :
    ∃ zopt : ℕ → ℝ, (∀ x, objective n s W y zopt ≤ objective n s W y x) ∧
      (∀ x, objective n s W y x ≤ objective n s W y zopt → ∀ i < n, x i = zopt i) ∧
      ∀ (z : ℕ → ℝ) (i : ℕ), i < n →
        Tendsto (fun k => (pass n s (relax weighted) W y)^[k] z i) atTop (nhds (zopt i)) := by
  have hinj := hess_injective hs hW0 hpos
  let L := LinearEquiv.ofInjectiveEndo (hess n s W) hinj
  have hL : ∀ x, L x = hess n s W x := fun x => rfl
  let b : Fin n → ℝ := fun i => W i * y i
  have hx0 : hess n s W (L.symm b) = b := by rw [← hL, LinearEquiv.apply_symm_apply]
  have hopt : ∀ i < n, s * secondDiff n (secondDiff n (series (L.symm b))) i = W i * (y i - series (L.symm b) i) := by
    intro i hi
    have : W i * series (L.symm b) i + s * secondDiff n (secondDiff n (series (L.symm b))) i = W i * y i :=
      congrFun hx0 ⟨i, hi⟩
    linarith
  have hr : relax weighted ≠ 0 := by
    by_cases h : weighted
    · rw [show relax weighted = 1.75 by rw [relax]; exact if_pos h]; norm_num
    · rw [show relax weighted = 1 by rw [relax]; exact if_neg h]; norm_num
  have hconv : ∀ (z : ℕ → ℝ) (i : ℕ), i < n →
      Tendsto (fun k => (pass n s (relax weighted) W y)^[k] z i) atTop (nhds (series (L.symm b) i)) := by
    intro z i hi
    set F := pass n s (relax weighted) W y with hF
    let v : ℕ → Fin n → ℝ := fun k i => F^[k] z (i : ℕ) - L.symm b i
    have hd : ∀ j < n, Tendsto (fun k => F^[k + 1] z j - F^[k] z j) atTop (nhds 0) := fun j hj =>
      step_tendsto hs.le hW0 hW weighted y z hj
    have hLv : ∀ k (i : Fin n), L (v k) i = -(1 / relax weighted) * ((F^[k + 1] z i - F^[k] z i)
        + s * secondDiff n (secondDiff n (fun j => F^[k + 1] z j - F^[k] z j)) i) := by
      intro k i
      have hres := pass_residual (RF := relax weighted) hs.le W y (F^[k] z) i.2
      rw [← hF, ← Function.iterate_succ_apply' F k z] at hres
      rw [hres, hL]
      have hv : ∀ j < n, series (v k) j = F^[k] z j - series (L.symm b) j := by
        intro j hj
        rw [series_apply _ hj, series_apply _ hj]
      have h1 : secondDiff n (secondDiff n (series (v k))) i =
          secondDiff n (secondDiff n (F^[k] z)) i - secondDiff n (secondDiff n (series (L.symm b))) i := by
        rw [secondDiff_congr (fun j hj => secondDiff_congr hv hj) i.2]
        simp only [secondDiff]
        ring
      show W i * series (v k) i + s * secondDiff n (secondDiff n (series (v k))) i = _
      rw [h1, hv i i.2]
      have := hopt i i.2
      field_simp
      linear_combination -this
    have hLt : Tendsto (fun k => L (v k)) atTop (nhds 0) := by
      rw [tendsto_pi_nhds]
      intro i
      have e : (fun k => L (v k) i) = fun k => -(1 / relax weighted) * ((F^[k + 1] z i - F^[k] z i)
        + s * secondDiff n (secondDiff n (fun j => F^[k + 1] z j - F^[k] z j)) i) := funext fun k => hLv k i
      rw [e]
      have hdd : ∀ j < n, Tendsto (fun k => secondDiff n (fun j => F^[k + 1] z j - F^[k] z j) j) atTop (nhds 0) := by
        intro j hj
        have := ((hd (j - 1) (by omega)).sub ((hd j hj).const_mul 2)).add (hd (min (j + 1) (n - 1)) (by omega))
        simp only [mul_zero, sub_zero, add_zero] at this
        exact this
      have hdd2 : Tendsto (fun k => secondDiff n (secondDiff n (fun j => F^[k + 1] z j - F^[k] z j)) i) atTop (nhds 0) := by
        have hi := i.2
        have := ((hdd (i - 1) (by omega)).sub ((hdd i hi).const_mul 2)).add (hdd (min (i + 1) (n - 1)) (by omega))
        simp only [mul_zero, sub_zero, add_zero] at this
        exact this
      have := ((hd i i.2).add (hdd2.const_mul s)).const_mul (-(1 / relax weighted))
      simp only [mul_zero, add_zero] at this
      exact this
    have hc : Continuous L.symm := LinearMap.continuous_of_finiteDimensional L.symm.toLinearMap
    have hv : Tendsto v atTop (nhds 0) := by
      have h1 := (hc.tendsto 0).comp hLt
      rw [map_zero] at h1
      refine h1.congr fun k => ?_
      exact L.symm_apply_apply (v k)
    have hvi := (tendsto_pi_nhds.mp hv ⟨i, hi⟩).add_const (series (L.symm b) i)
    simp only [Pi.zero_apply, zero_add] at hvi
    refine hvi.congr fun k => ?_
    rw [series_apply _ hi]
    simp [v]
  refine ⟨series (L.symm b), fun x => ?_, fun x hx i hi => ?_, hconv⟩
  · rw [objective_excess hopt x]
    have h1 : 0 ≤ ∑ i ∈ range n, W i * (x i - series (L.symm b) i) ^ 2 :=
      sum_nonneg fun i hi => mul_nonneg (hW0 i (mem_range.mp hi)) (sq_nonneg _)
    have h2 : 0 ≤ s * ∑ i ∈ range n, secondDiff n (fun j => x j - series (L.symm b) j) i ^ 2 :=
      mul_nonneg hs.le (sum_nonneg fun _ _ => sq_nonneg _)
    linarith
  · -- the passes from `x` cannot change `x`, so the limit is `x`
    rw [objective_excess hopt x] at hx
    have h1 : 0 ≤ ∑ i ∈ range n, W i * (x i - series (L.symm b) i) ^ 2 :=
      sum_nonneg fun i hi => mul_nonneg (hW0 i (mem_range.mp hi)) (sq_nonneg _)
    have h2 : 0 ≤ ∑ i ∈ range n, secondDiff n (fun j => x j - series (L.symm b) j) i ^ 2 := sum_nonneg fun _ _ => sq_nonneg _
    have h3 := mul_nonneg hs.le h2
    have h4 : ∑ i ∈ range n, secondDiff n (fun j => x j - series (L.symm b) j) i ^ 2 = 0 :=
      (mul_eq_zero.mp (by linarith : s * ∑ i ∈ range n, secondDiff n (fun j => x j - series (L.symm b) j) i ^ 2 = 0)).resolve_left
        hs.ne'
    have h5 : ∑ i ∈ range n, W i * (x i - series (L.symm b) i) ^ 2 = 0 := by linarith
    have hd : ∀ i < n, secondDiff n (fun j => x j - series (L.symm b) j) i = 0 := by
      intro i hi
      have := (sum_eq_zero_iff_of_nonneg fun i _ => sq_nonneg (secondDiff n (fun j => x j - series (L.symm b) j) i)).mp h4 i
        (mem_range.mpr hi)
      exact pow_eq_zero_iff two_ne_zero |>.mp this
    have hconst := secondDiff_zero hd
    obtain ⟨i0, hi0, hw0⟩ := hpos
    have h6 := (sum_eq_zero_iff_of_nonneg fun i hi => mul_nonneg (hW0 i (mem_range.mp hi))
      (sq_nonneg (x i - series (L.symm b) i))).mp h5 i0 (mem_range.mpr hi0)
    have h7 := pow_eq_zero_iff two_ne_zero |>.mp ((mul_eq_zero.mp h6).resolve_left hw0.ne')
    have h8 := hconst i hi
    have h9 := hconst i0 hi0
    linarith

/-- The loop reports convergence when one of its passes changes the series little enough. -/
theorem loop_converged {n : ℕ} {s RF tolz : ℝ} {weighted : Prop} {W y : ℕ → ℝ} : ∀ (k m : ℕ) (z : ℕ → ℝ), k < m →
    norm n ((pass n s RF W y)^[k + 1] z) ≠ 0 →
    norm n (fun i => (pass n s RF W y)^[k] z i - (pass n s RF W y)^[k + 1] z i) / norm n ((pass n s RF W y)^[k + 1] z) ≤ tolz →
    (loop n s RF tolz weighted W y m z).2 := by
  intro k
  induction k with
  | zero =>
    intro m z hm h0 h1
    obtain ⟨m, rfl⟩ : ∃ m', m = m' + 1 := ⟨m - 1, by omega⟩
    rw [loop]
    rw [if_pos (Or.inl ⟨h0, h1⟩)]
    trivial
  | succ k ih =>
    intro m z hm h0 h1
    obtain ⟨m, rfl⟩ : ∃ m', m = m' + 1 := ⟨m - 1, by omega⟩
    rw [loop]
    split_ifs with hc
    · trivial
    · exact ih m (pass n s RF W y z) (by omega) h0 h1

/-- C348: for every `tolz > 0` the loop reports convergence when `maxiter` is large enough, whatever the start, unless the minimiser
is the series of zeros. -/
theorem C348_loop_converges {n : ℕ} {s : ℝ} (hs : 0 < s) {W : ℕ → ℝ} (hW0 : ∀ i < n, 0 ≤ W i)
    (hW : ∀ i < n, W i ≤ 1) (hpos : ∃ i < n, 0 < W i) (weighted : Prop) (y z : ℕ → ℝ) {tolz : ℝ} (ht : 0 < tolz)
    (hne : ∃ x, objective n s W y x < objective n s W y fun _ => 0) :
    ∃ k, ∀ m, k < m → (loop n s (relax weighted) tolz weighted W y m z).2 := by
  obtain ⟨zo, hmin, -, hconv⟩ := C348_converges_to_minimiser hs hW0 hW hpos weighted y
  set F := pass n s (relax weighted) W y with hF
  have hnorm : Tendsto (fun k => norm n (F^[k + 1] z)) atTop (nhds (norm n zo)) := by
    refine (Real.continuous_sqrt.tendsto _).comp (tendsto_finsetSum _ fun i hi => ?_)
    exact ((hconv z i (mem_range.mp hi)).comp (tendsto_add_atTop_nat 1)).pow 2
  have hdiff : Tendsto (fun k => norm n (fun i => F^[k] z i - F^[k + 1] z i)) atTop (nhds 0) := by
    have h0 : Tendsto (fun k => ∑ i ∈ range n, (F^[k] z i - F^[k + 1] z i) ^ 2) atTop
        (nhds (∑ i ∈ range n, (zo i - zo i) ^ 2)) := tendsto_finsetSum _ fun i hi =>
      ((hconv z i (mem_range.mp hi)).sub ((hconv z i (mem_range.mp hi)).comp (tendsto_add_atTop_nat 1))).pow 2
    have h1 := (Real.continuous_sqrt.tendsto _).comp h0
    simp only [sub_self, ne_eq, OfNat.ofNat_ne_zero, not_false_eq_true, zero_pow, sum_const_zero, Real.sqrt_zero] at h1
    exact h1
  have hzo : norm n zo ≠ 0 := by
    intro h
    rw [norm, Real.sqrt_eq_zero (sum_nonneg fun _ _ => sq_nonneg _)] at h
    have hz : ∀ i < n, zo i = (fun _ => (0 : ℝ)) i := by
      intro i hi
      have := (sum_eq_zero_iff_of_nonneg fun i _ => sq_nonneg (zo i)).mp h i (mem_range.mpr hi)
      exact pow_eq_zero_iff two_ne_zero |>.mp this
    obtain ⟨x, hx⟩ := hne
    rw [← objective_congr hz] at hx
    exact absurd (hmin x) (not_le.mpr hx)
  have hquot := hdiff.div hnorm hzo
  rw [zero_div] at hquot
  have h1 := (hquot.eventually_lt_const ht).and (hnorm.eventually_ne hzo)
  obtain ⟨k, hk⟩ := h1.exists
  exact ⟨k, fun m hm => loop_converged k m z hm hk.2 hk.1.le⟩

/-- Two values with weights 1 and 1/2. -/
example : ∃ zopt : ℕ → ℝ, ∀ z : ℕ → ℝ, Tendsto (fun k => (pass 2 1 (relax True) (fun i => 1 / ((i : ℝ) + 1)) (fun i => (i : ℝ)))^[k] z 1)
    atTop (nhds (zopt 1)) := by
  obtain ⟨zo, -, -, h⟩ := C348_converges_to_minimiser (n := 2) (s := 1) one_pos (W := fun i => 1 / ((i : ℝ) + 1))
    (fun i _ => by positivity) (fun i _ => by
      rw [div_le_one (by positivity)]
      have : (0 : ℝ) ≤ i := by positivity
      linarith) ⟨0, by norm_num, by norm_num⟩ True (fun i => (i : ℝ))
  exact ⟨zo, fun z => h z 1 (by norm_num)⟩

end Wafo.Smooth
