import Verif.Cov.SpecLemmas
import Mathlib.Analysis.Calculus.Deriv.Add

/-! Properties C176-C177: covariance function of a spectrum and its derivatives. -/

set_option linter.unusedSectionVars false

namespace Wafo.Cov
open Finset

noncomputable section

/-! ### Specification -/

/-- The trapezoidal rule with `n` values at distance `h`. -/
def trapz (h : ℝ) (n : ℕ) (g : ℕ → ℝ) : ℝ := ∑ j ∈ range (n - 1), (g j + g (j + 1)) / 2 * h

/-- A spectrum on the `n` frequencies `0, h, 2 h, ...`. -/
structure OnGrid (s : Spec) (n : ℕ) (h : ℝ) : Prop where
  two : 2 ≤ n
  pos : 0 < h
  args : s.args = (List.range n).map fun j : ℕ => (j : ℝ) * h
  data : s.data.length = n

/-- The factor that makes an angular frequency. -/
def toAngular : FreqType → ℝ
  | .f => 2 * Real.pi
  | .w => 1
  | .k => 1

/-- The covariance function of the spectrum at time `t`, the integral by the trapezoidal rule. -/
def covAt (s : Spec) (n : ℕ) (h t : ℝ) : ℝ :=
  trapz h n fun j => s.data.getD j 0 * Real.cos (toAngular s.ftype * (j * h) * t)

/-! ### Lemmas -/

theorem trapz_eq (h : ℝ) (n : ℕ) (hn : 2 ≤ n) (g : ℕ → ℝ) :
    trapz h n g = (∑ j ∈ range n, g j + ∑ j ∈ range (n - 2), g (j + 1)) / 2 * h := by
  obtain ⟨m, rfl⟩ : ∃ m, n = m + 2 := ⟨n - 2, by omega⟩
  unfold trapz
  rw [show m + 2 - 1 = m + 1 by omega, show m + 2 - 2 = m by omega, ← sum_mul, ← sum_div, sum_add_distrib,
    sum_range_succ (fun j => g (j + 1)) m, sum_range_succ g (m + 1)]
  ring

theorem OnGrid.length {s : Spec} {n : ℕ} {h : ℝ} (g : OnGrid s n h) : s.args.length = n := by rw [g.args]; simp

theorem OnGrid.last {s : Spec} {n : ℕ} {h : ℝ} (g : OnGrid s n h) : lastOf s.args = ((n - 1 : ℕ) : ℝ) * h := by
  have := g.two
  obtain ⟨m, rfl⟩ : ∃ m, n = m + 1 := ⟨n - 1, by omega⟩
  unfold lastOf
  rw [g.args, List.range_succ, List.map_append]
  simp

theorem OnGrid.angular_getD {s : Spec} {n : ℕ} {h : ℝ} (g : OnGrid s n h) (j : ℕ) (hj : j < n) :
    (angular s).getD j 0 = toAngular s.ftype * (j * h) := by
  have h1 : s.args[j]? = some ((j : ℝ) * h) := by rw [g.args, List.getElem?_map, List.getElem?_range hj]; rfl
  unfold angular toAngular
  cases s.ftype <;> simp [List.getD_eq_getElem?_getD, h1]
  ring

theorem OnGrid.diffs_zero {s : Spec} {n : ℕ} {h : ℝ} (g : OnGrid s n h) :
    (diffs (diffs s.args)).any (fun d => decide (1 / 10 ^ 8 < |d|)) = false := by
  rw [List.any_eq_false]
  intro d hd
  obtain ⟨i, hi, rfl⟩ := List.mem_iff_getElem.1 hd
  have e : (diffs (diffs s.args))[i] = 0 := by
    simp only [diffs, g.args, List.getElem_zipWith, List.getElem_tail, List.getElem_map, List.getElem_range]
    push_cast
    ring
  rw [e]
  norm_num

theorem rateOf_pos (r : Option ℕ) : 1 ≤ rateOf r := by
  unfold rateOf
  cases r with
  | none => exact le_rfl
  | some r =>
    simp only []
    split
    · norm_num
    · exact pow2_pos r

theorem nfft_le {n : ℕ} (hn : 2 ≤ n) (r : Option ℕ) : 2 * n - 2 ≤ rateOf r * pow2 (2 * n - 2) :=
  (le_pow2 (2 * n - 2) (by omega)).trans (Nat.le_mul_of_pos_left _ (rateOf_pos r))

theorem OnGrid.ok {s : Spec} {n : ℕ} {h : ℝ} (g : OnGrid s n h) (nr : ℕ) (nt rate : Option ℕ) :
    specToCov s nr nt rate = .ok
      { args := (List.range (ntOf nt (rateOf rate) n + 1)).map fun k : ℕ =>
          (k : ℝ) * samplingPeriod s * (2 * n - 2 : ℕ) / (rateOf rate * pow2 (2 * n - 2) : ℕ)
        data := covValues s (rateOf rate * pow2 (2 * n - 2)) (ntOf nt (rateOf rate) n) 0
        derivs := (List.range nr).map fun i => covValues s (rateOf rate * pow2 (2 * n - 2)) (ntOf nt (rateOf rate) n) (i + 1)
        lagtype := lagtypeOf s.ftype } := by
  have hd := g.diffs_zero
  have hl := g.length
  have h2 := g.two
  have hargs : s.args = 0 :: ((List.range (n - 1)).map fun j : ℕ => ((j + 1 : ℕ) : ℝ) * h) := by
    obtain ⟨m, rfl⟩ : ∃ m, n = m + 1 := ⟨n - 1, by omega⟩
    rw [g.args, List.range_succ_eq_map]
    simp
  unfold specToCov
  split
  · next h0 => rw [h0] at hargs; exact absurd hargs (by simp)
  · next f0 t h0 =>
    have : f0 = 0 := by rw [h0] at hargs; exact (List.cons.inj hargs).1
    rw [this, if_neg (lt_irrefl _), if_neg (by rw [hd]; exact Bool.false_ne_true)]
    simp only [hl]

/-- The value at lag number `k`. -/
theorem OnGrid.value {s : Spec} {n : ℕ} {h : ℝ} (g : OnGrid s n h) (N k i : ℕ) (hN : 2 * n - 2 ≤ N) (t : ℝ)
    (ht : t = (k : ℝ) * samplingPeriod s * (2 * n - 2 : ℕ) / N) :
    (fft N (rper s N i) k).re / (2 * s.args.length - 2 : ℕ) =
      trapz h n fun j => s.data.getD j 0 * term (toAngular s.ftype * (j * h)) t i := by
  have h2 := g.two
  have hp := g.pos
  have hN0 : (N : ℝ) ≠ 0 := by exact_mod_cast (by omega : N ≠ 0)
  have hn1 : ((n - 1 : ℕ) : ℝ) ≠ 0 := by exact_mod_cast (by omega : n - 1 ≠ 0)
  have hc : ((2 * n - 2 : ℕ) : ℝ) = 2 * ((n - 1 : ℕ) : ℝ) := by
    rw [show 2 * n - 2 = 2 * (n - 1) by omega]; push_cast; ring
  have htj : ∀ j < n, 2 * Real.pi * (j : ℝ) * k / N = (angular s).getD j 0 * t := by
    intro j hj
    rw [g.angular_getD j hj, ht, samplingPeriod, g.last, hc]
    unfold toAngular wmdt
    cases s.ftype <;> field_simp
  rw [fft_rper s N n h2 hN g.length g.data i k t htj, g.last, g.length, trapz_eq _ _ h2, hc]
  have e1 : ∑ j ∈ range n, s.data.getD j 0 * term ((angular s).getD j 0) t i =
      ∑ j ∈ range n, s.data.getD j 0 * term (toAngular s.ftype * (j * h)) t i :=
    sum_congr rfl fun j hj => by rw [g.angular_getD j (mem_range.1 hj)]
  have e2 : ∑ j ∈ range (n - 2), s.data.getD (j + 1) 0 * term ((angular s).getD (j + 1) 0) t i =
      ∑ j ∈ range (n - 2), s.data.getD (j + 1) 0 * term (toAngular s.ftype * ((j + 1 : ℕ) * h)) t i :=
    sum_congr rfl fun j hj => by
      have := mem_range.1 hj
      rw [g.angular_getD (j + 1) (by omega)]
  rw [e1, e2]
  generalize ∑ j ∈ range n, s.data.getD j 0 * term (toAngular s.ftype * (j * h)) t i = A
  generalize ∑ j ∈ range (n - 2), s.data.getD (j + 1) 0 * term (toAngular s.ftype * ((j + 1 : ℕ) * h)) t i = B
  field_simp

theorem covValues_get (s : Spec) (N nt i k : ℕ) (hk : k ≤ nt) :
    (covValues s N nt i)[k]? = some ((fft N (rper s N i) k).re / (2 * s.args.length - 2 : ℕ)) := by
  unfold covValues
  rw [List.getElem?_map, List.getElem?_range (by omega)]
  rfl

/-! ### Properties -/

/-- The covariance function of a spectrum: at each returned lag it is the integral of the spectrum times the cosine, by the trapezoidal
rule, for every number of lags and every interpolation rate. -/
theorem C176_covariance (s : Spec) (n : ℕ) (h : ℝ) (g : OnGrid s n h) (nr : ℕ) (nt rate : Option ℕ) :
    ∃ R, specToCov s nr nt rate = .ok R ∧ R.data.length = R.args.length ∧
      R.args.length = ntOf nt (rateOf rate) n + 1 ∧
      ∀ (k : ℕ) (t : ℝ), R.args[k]? = some t → R.data[k]? = some (covAt s n h t) := by
  refine ⟨_, g.ok nr nt rate, by simp [covValues], by simp, fun k t hk => ?_⟩
  have hkl : k < ntOf nt (rateOf rate) n + 1 := by
    by_contra hc
    rw [List.getElem?_eq_none (by simp; omega)] at hk
    exact absurd hk (by simp)
  simp only [List.getElem?_map, List.getElem?_range hkl, Option.map_some, Option.some.injEq] at hk
  simp only []
  rw [covValues_get _ _ _ _ _ (by omega), g.value _ k 0 (nfft_le g.two rate) t hk.symm]
  unfold covAt
  simp only [term_zero]

/-- The number of lags and the interpolation rate: by default one lag for each step of the frequency grid and no interpolation; a given
number of lags is limited, a rate is at most 16 and a power of two below is kept. -/
theorem C176_sizes (s : Spec) (n : ℕ) (h : ℝ) (g : OnGrid s n h) (nr : ℕ) :
    (∃ R, specToCov s nr none none = .ok R ∧ R.args.length = n) ∧
    (∀ r m : ℕ, (r = 2 ^ m ∧ m ≤ 4) → ∃ R, specToCov s nr none (some r) = .ok R ∧ R.args.length = r * (n - 1) + 1) ∧
    (∀ r : ℕ, 16 < r → ∃ R, specToCov s nr none (some r) = .ok R ∧ R.args.length = 16 * (n - 1) + 1) ∧
    (∀ r m : ℕ, 2 ^ m < r → r ≤ 2 ^ (m + 1) → m < 4 →
      ∃ R, specToCov s nr none (some r) = .ok R ∧ R.args.length = 2 ^ (m + 1) * (n - 1) + 1) ∧
    (∀ nt : ℕ, ∃ R, specToCov s nr (some nt) none = .ok R ∧ R.args.length = min nt (n - 1) + 1) := by
  have h2 := g.two
  refine ⟨⟨_, g.ok nr none none, ?_⟩, fun r m hr => ⟨_, g.ok nr none (some r), ?_⟩, fun r hr => ⟨_, g.ok nr none (some r), ?_⟩,
    fun r m h1 h2 hm => ⟨_, g.ok nr none (some r), ?_⟩, fun nt => ⟨_, g.ok nr (some nt) none, ?_⟩⟩
  · simp [ntOf, rateOf]; omega
  · have : r ≤ 16 := by
      rw [hr.1]
      calc 2 ^ m ≤ 2 ^ 4 := Nat.pow_le_pow_right (by norm_num) hr.2
        _ = 16 := by norm_num
    have e : rateOf (some r) = r := by
      unfold rateOf
      simp only [if_neg (by omega : ¬ 16 < r)]
      rw [hr.1, pow2_pow]
    simp [ntOf, e]
  · have e : rateOf (some r) = 16 := by unfold rateOf; simp only [if_pos hr]
    simp [ntOf, e]
  · have : r ≤ 16 := h2.trans (by
      calc 2 ^ (m + 1) ≤ 2 ^ 4 := Nat.pow_le_pow_right (by norm_num) (by omega)
        _ = 16 := by norm_num)
    have e : rateOf (some r) = 2 ^ (m + 1) := by
      unfold rateOf
      simp only [if_neg (by omega : ¬ 16 < r)]
      exact pow2_eq r m h1 h2
    simp [ntOf, e]
  · simp [ntOf, rateOf]

/-- The value at lag zero is the integral of the spectrum, and no value exceeds it if the spectrum is not negative. -/
theorem C176_energy (s : Spec) (n : ℕ) (h : ℝ) (g : OnGrid s n h) (nr : ℕ) (nt rate : Option ℕ) :
    ∃ R, specToCov s nr nt rate = .ok R ∧ R.data[0]? = some (trapz h n fun j => s.data.getD j 0) ∧
      ((∀ j < n, 0 ≤ s.data.getD j 0) → ∀ v ∈ R.data, |v| ≤ trapz h n fun j => s.data.getD j 0) := by
  obtain ⟨R, hR, hl, hlen, hv⟩ := C176_covariance s n h g nr nt rate
  have hargs : R.args = (List.range (ntOf nt (rateOf rate) n + 1)).map fun k : ℕ =>
      (k : ℝ) * samplingPeriod s * (2 * n - 2 : ℕ) / (rateOf rate * pow2 (2 * n - 2) : ℕ) := by
    have := Except.ok.inj (hR.symm.trans (g.ok nr nt rate))
    rw [this]
  refine ⟨R, hR, ?_, fun hs v hvm => ?_⟩
  · rw [hv 0 0 (by rw [hargs, List.getElem?_map, List.getElem?_range (by omega)]; simp)]
    unfold covAt
    simp
  · obtain ⟨k, hk, rfl⟩ := List.mem_iff_getElem.1 hvm
    have h1 := hv k (R.args[k]'(by omega)) (List.getElem?_eq_getElem _)
    rw [List.getElem?_eq_getElem hk] at h1
    rw [Option.some.inj h1]
    unfold covAt trapz
    refine (abs_sum_le_sum_abs _ _).trans (sum_le_sum fun j hj => ?_)
    have hj' := mem_range.1 hj
    have h2 := g.two
    rw [abs_mul, abs_of_pos g.pos, abs_div, abs_of_pos (by norm_num : (0 : ℝ) < 2)]
    refine mul_le_mul_of_nonneg_right (div_le_div_of_nonneg_right ?_ (by norm_num)) g.pos.le
    refine (abs_add_le _ _).trans (add_le_add ?_ ?_)
    · rw [abs_mul, abs_of_nonneg (hs j (by omega))]
      exact mul_le_of_le_one_right (hs j (by omega)) (Real.abs_cos_le_one _)
    · rw [abs_mul, abs_of_nonneg (hs (j + 1) (by omega))]
      exact mul_le_of_le_one_right (hs (j + 1) (by omega)) (Real.abs_cos_le_one _)

example : OnGrid { args := [0, 1, 2], data := [0, 3, 1], ftype := .w } 3 1 :=
  ⟨by norm_num, by norm_num, by simp [List.range_succ], rfl⟩

/-- The lags are multiples of the documented step `pi / (w[-1] * rate)` if the spectrum has `2^m + 1` frequencies. -/
theorem C176_step_partial (s : Spec) (n m : ℕ) (h : ℝ) (g : OnGrid s n h) (hn : n = 2 ^ m + 1) (hf : s.ftype ≠ .f) (nr : ℕ)
    (nt rate : Option ℕ) :
    ∃ R, specToCov s nr nt rate = .ok R ∧
      R.args = (List.range (ntOf nt (rateOf rate) n + 1)).map fun k : ℕ => (k : ℝ) * (Real.pi / (lastOf s.args * rateOf rate)) := by
  refine ⟨_, g.ok nr nt rate, ?_⟩
  simp only []
  refine List.map_congr_left fun k _ => ?_
  have e : 2 * n - 2 = 2 ^ (m + 1) := by rw [hn, pow_succ]; omega
  have hl : lastOf s.args ≠ 0 := by
    rw [g.last]
    have := g.two
    have h1 : ((n - 1 : ℕ) : ℝ) ≠ 0 := by exact_mod_cast (by omega : n - 1 ≠ 0)
    exact mul_ne_zero h1 g.pos.ne'
  have hr : (rateOf rate : ℝ) ≠ 0 := by have := rateOf_pos rate; exact_mod_cast (by omega : rateOf rate ≠ 0)
  rw [e, pow2_pow, samplingPeriod]
  have hw : wmdt s.ftype = Real.pi := by
    cases hft : s.ftype with
    | f => exact absurd hft hf
    | w => rfl
    | k => rfl
  rw [hw]
  push_cast
  field_simp

/-- The step is not the documented one for other numbers of frequencies: with four frequencies it is three quarters of it. -/
theorem C176_step_refuted (s : Spec) (h : ℝ) (g : OnGrid s 4 h) (hf : s.ftype = .w) :
    ∃ R, specToCov s 0 none none = .ok R ∧ R.args[1]? = some (3 / 4 * (Real.pi / lastOf s.args)) ∧
      3 / 4 * (Real.pi / lastOf s.args) ≠ Real.pi / lastOf s.args := by
  have hl : 0 < lastOf s.args := by
    rw [g.last]
    have := g.pos
    positivity
  refine ⟨_, g.ok 0 none none, ?_, ?_⟩
  · have e : pow2 6 = 2 ^ (2 + 1) := pow2_eq 6 2 (by norm_num) (by norm_num)
    simp only [rateOf, ntOf]
    rw [List.getElem?_map, List.getElem?_range (by norm_num), Option.map_some]
    rw [show 2 * 4 - 2 = 6 by norm_num, e, samplingPeriod, hf]
    simp only [wmdt]
    congr 1
    norm_num
    ring
  · have := Real.pi_pos
    have h3 : 0 < Real.pi / lastOf s.args := by positivity
    intro hc
    linarith

example : OnGrid { args := [0, 1, 2, 3], data := [0, 3, 1, 0], ftype := .w } 4 1 :=
  ⟨by norm_num, by norm_num, by simp [List.range_succ], rfl⟩

/-- Spectra that are rejected: the first frequency is positive, or a step differs from the next one by more than 1e-8. -/
theorem C176_rejected (s : Spec) (nr : ℕ) (nt rate : Option ℕ) (f0 : ℝ) (h0 : s.args[0]? = some f0) :
    (0 < f0 → specToCov s nr nt rate = .error .valueError) ∧
    (∀ (i : ℕ) (a b c : ℝ), s.args[i]? = some a → s.args[i + 1]? = some b → s.args[i + 2]? = some c →
      1 / 10 ^ 8 < |(c - b) - (b - a)| → specToCov s nr nt rate = .error .valueError) := by
  have hne : ∃ l, s.args = f0 :: l := by
    cases hs : s.args with
    | nil => rw [hs] at h0; exact absurd h0 (by simp)
    | cons a l =>
      rw [hs] at h0
      exact ⟨l, by simp at h0; rw [h0]⟩
  obtain ⟨l, hl⟩ := hne
  constructor
  · intro hp
    unfold specToCov
    split
    · next h1 => rw [h1] at hl; exact absurd hl (by simp)
    · next f1 t h1 =>
      have : f1 = f0 := by rw [hl] at h1; exact (List.cons.inj h1).1.symm
      rw [this, if_pos hp]
  · intro i a b c ha hb hc hd
    have hany : (diffs (diffs s.args)).any (fun d => decide (1 / 10 ^ 8 < |d|)) = true := by
      refine List.any_eq_true.2 ⟨(c - b) - (b - a), ?_, by simpa using hd⟩
      apply List.mem_iff_getElem?.2
      refine ⟨i, ?_⟩
      have hd1 : ∀ (j : ℕ) (x y : ℝ), s.args[j]? = some x → s.args[j + 1]? = some y → (diffs s.args)[j]? = some (y - x) := by
        intro j x y hx hy
        unfold diffs
        rw [List.getElem?_zipWith, List.getElem?_tail, hx, hy]
      unfold diffs
      rw [List.getElem?_zipWith, List.getElem?_tail]
      have e1 := hd1 i a b ha hb
      have e2 := hd1 (i + 1) b c hb hc
      unfold diffs at e1 e2
      rw [e1, e2]
    unfold specToCov
    split
    · next h1 => rw [h1] at hl; exact absurd hl (by simp)
    · next f1 t h1 =>
      split
      · rfl
      · rfl

example : ([1, 2, 4] : List ℝ)[0]? = some 1 ∧ (1 : ℝ) / 10 ^ 8 < |(4 - 2) - (2 - 1)| := by
  constructor
  · rfl
  · norm_num [abs_of_pos]

/-- A negative first frequency is accepted, although the grid must start at zero: for the frequencies -1, 0, 1 and the values 1, 0, 0
the value at lag zero is a quarter, the integral over the three frequencies is one half. -/
theorem C176_negative_refuted : ∃ R, specToCov { args := [-1, 0, 1], data := [1, 0, 0], ftype := .w } 0 none none = .ok R ∧
    R.data[0]? = some (1 / 4) ∧ trapz 1 3 (fun j => ([1, 0, 0] : List ℝ).getD j 0) = 1 / 2 := by
  have hc : (diffs (diffs [-1, 0, 1])).any (fun d => decide (1 / 10 ^ 8 < |d|)) = false := by
    simp [diffs]
  unfold specToCov
  simp only []
  rw [if_neg (by norm_num), if_neg (by rw [hc]; exact Bool.false_ne_true)]
  refine ⟨_, rfl, ?_, ?_⟩
  · simp only [rateOf, ntOf]
    rw [covValues_get _ _ _ _ _ (by norm_num), one_mul]
    have e : pow2 (2 * [(-1 : ℝ), 0, 1].length - 2) = 2 ^ 2 := by
      show pow2 4 = 2 ^ 2
      exact pow2_pow 2
    rw [e]
    unfold fft rper embed lastOf toC
    simp [sum_range_succ]
  · simp [trapz, sum_range_succ]

/-- The attributes `Rt`, `Rtt`, ... are the derivatives with respect to time of the covariance function, at the returned lags. -/
theorem C177_derivatives (s : Spec) (n : ℕ) (h : ℝ) (g : OnGrid s n h) (nr : ℕ) (nt rate : Option ℕ) :
    ∃ R, specToCov s nr nt rate = .ok R ∧ R.derivs.length = nr ∧
      ∀ i < nr, ∃ d, R.derivs[i]? = some d ∧ d.length = R.args.length ∧
        ∀ (k : ℕ) (t : ℝ), R.args[k]? = some t → d[k]? = some (iteratedDeriv (i + 1) (covAt s n h) t) := by
  have hder : ∀ i t, HasDerivAt (fun t => trapz h n fun j => s.data.getD j 0 * term (toAngular s.ftype * (j * h)) t i)
      (trapz h n fun j => s.data.getD j 0 * term (toAngular s.ftype * (j * h)) t (i + 1)) t := by
    intro i t
    unfold trapz
    refine HasDerivAt.fun_sum fun j _ => ?_
    exact ((((term_deriv _ t i).const_mul _).add ((term_deriv _ t i).const_mul _)).div_const 2).mul_const h
  have hit : ∀ i, iteratedDeriv i (covAt s n h) =
      fun t => trapz h n fun j => s.data.getD j 0 * term (toAngular s.ftype * (j * h)) t i := by
    intro i
    induction i with
    | zero =>
      rw [iteratedDeriv_zero]
      funext t
      unfold covAt
      simp only [term_zero]
    | succ i ih =>
      rw [iteratedDeriv_succ, ih]
      funext t
      exact (hder i t).deriv
  refine ⟨_, g.ok nr nt rate, by simp, fun i hi => ?_⟩
  refine ⟨_, by simp only []; rw [List.getElem?_map, List.getElem?_range hi]; rfl, by simp [covValues], fun k t hk => ?_⟩
  have hkl : k < ntOf nt (rateOf rate) n + 1 := by
    by_contra hc
    rw [List.getElem?_eq_none (by simp; omega)] at hk
    exact absurd hk (by simp)
  simp only [List.getElem?_map, List.getElem?_range hkl, Option.map_some, Option.some.injEq] at hk
  rw [covValues_get _ _ _ _ _ (by omega), g.value _ k (i + 1) (nfft_le g.two rate) t hk.symm, hit]

end

end Wafo.Cov
