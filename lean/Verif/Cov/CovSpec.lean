import Verif.Cov.SpecProps

/-! Properties C178-C179: spectrum of a covariance function, and the way from a spectrum to its covariance function and back. -/

set_option linter.unusedSectionVars false

namespace Wafo.Cov
open Finset

noncomputable section

/-! ### Specification -/

/-- A covariance function at the `n` lags `0, d, 2 d, ...`. -/
structure OnLags (a : Acf) (n : ℕ) (d : ℝ) : Prop where
  two : 2 ≤ n
  pos : 0 < d
  args : a.args = (List.range n).map fun j : ℕ => (j : ℝ) * d
  data : a.data.length = n

/-- The spectral density at the frequency `w` of a covariance function: `2 / pi` times the integral of the covariance times the cosine,
by the trapezoidal rule. -/
def densityAt (data : List ℝ) (n : ℕ) (d w : ℝ) : ℝ :=
  2 / Real.pi * trapz d n fun j => data.getD j 0 * Real.cos (w * (j * d))

/-! ### Lemmas -/

/-- The sum of the transform of the embedded covariance function. -/
def circ (a : ℕ → ℝ) (n N k : ℕ) : ℝ :=
  ∑ j ∈ range n, a j * Real.cos (2 * Real.pi * j * k / N) +
    ∑ j ∈ range (n - 2), a (j + 1) * Real.cos (2 * Real.pi * ((j + 1 : ℕ) : ℝ) * k / N)

theorem fft_embed (acf : List ℝ) (n N k : ℕ) (hl : acf.length = n) (hn : 2 ≤ n) (hN : 2 * n - 2 ≤ N) :
    (fft N (embed (N + 2 - 2 * n) (toC acf) (toC acf)) k).re = circ (fun j => acf.getD j 0) n N k := by
  have hN0 : 0 < N := by omega
  unfold fft
  rw [sum_embed n N hn hN _ _ (by simp [toC, hl]) (by simp [toC, hl]), Complex.add_re, Complex.re_sum, Complex.re_sum]
  unfold circ
  congr 1
  · refine sum_congr rfl fun j _ => ?_
    rw [toC_getD, Complex.re_ofReal_mul, exp_re]
  · refine sum_congr rfl fun j hj => ?_
    have := mem_range.1 hj
    rw [toC_getD, Complex.re_ofReal_mul, exp_re, cos_reflect N hN0 (j + 1) k (by omega)]

theorem circ_mirror (a : ℕ → ℝ) (n N k : ℕ) (hN : 0 < N) (hk : k ≤ N) : circ a n N (N - k) = circ a n N k := by
  have h : ∀ j : ℕ, Real.cos (2 * Real.pi * j * ((N - k : ℕ) : ℝ) / N) = Real.cos (2 * Real.pi * j * k / N) := by
    intro j
    have := cos_reflect N hN k j hk
    rw [show 2 * Real.pi * (j : ℝ) * ((N - k : ℕ) : ℝ) / N = 2 * Real.pi * ((N - k : ℕ) : ℝ) * j / N by ring, this]
    congr 1
    ring
  unfold circ
  simp only [h]

/-- The sum over the whole circle of a function that is its own mirror image. -/
theorem sum_mirror (f : ℕ → ℝ) (n N : ℕ) (hn : 1 ≤ n) (hN : N = 2 * n) (hf : ∀ k, 1 ≤ k → k < N → f (N - k) = f k) :
    ∑ k ∈ range N, f k = ∑ k ∈ range (n + 1), f k + ∑ k ∈ range (n - 1), f (k + 1) := by
  have e : N = (n + 1) + (n - 1) := by omega
  conv_lhs => rw [e]
  rw [sum_range_add]
  congr 1
  rw [← sum_range_reflect]
  refine sum_congr rfl fun j hj => ?_
  have := mem_range.1 hj
  rw [← hf (j + 1) (by omega) (by omega)]
  congr 1
  omega

theorem sum_circ (a : ℕ → ℝ) (n N : ℕ) (hn : 2 ≤ n) (hN : 2 * n - 2 ≤ N) : ∑ k ∈ range N, circ a n N k = N * a 0 := by
  have hN0 : 0 < N := by omega
  have h : ∀ j : ℕ, j < N → ∑ k ∈ range N, a j * Real.cos (2 * Real.pi * j * k / N) = if j = 0 then N * a 0 else 0 := by
    intro j hj
    rw [← mul_sum]
    have := sum_cos N hN0 (j : ℤ)
    simp only [Int.cast_natCast] at this
    rw [this]
    split
    · next hd =>
      have : j = 0 := by
        have := Nat.eq_zero_of_dvd_of_lt (Int.natCast_dvd_natCast.1 hd) hj
        exact this
      rw [if_pos this, this]; ring
    · next hd =>
      rw [if_neg (by rintro rfl; exact hd (by simp)), mul_zero]
  unfold circ
  rw [sum_add_distrib, sum_comm, sum_comm (s := range N) (t := range (n - 2))]
  rw [sum_congr rfl fun j hj => h j (by have := mem_range.1 hj; omega)]
  rw [sum_congr (s₁ := range (n - 2)) rfl fun j hj => h (j + 1) (by have := mem_range.1 hj; omega)]
  simp
  omega

theorem circ_density (data : List ℝ) (n N k : ℕ) (d : ℝ) (hn : 2 ≤ n) (hN : 0 < N) (hd : 0 < d) :
    circ (fun j => data.getD j 0) n N k * d / Real.pi = densityAt data n d (2 * Real.pi * k / (N * d)) := by
  have hN' : (N : ℝ) ≠ 0 := by exact_mod_cast hN.ne'
  have h : ∀ j : ℕ, Real.cos (2 * Real.pi * k / (N * d) * (j * d)) = Real.cos (2 * Real.pi * j * k / N) := by
    intro j
    congr 1
    field_simp
  unfold densityAt circ
  rw [trapz_eq _ _ hn]
  simp only [h]
  generalize ∑ j ∈ range n, data.getD j 0 * Real.cos (2 * Real.pi * j * k / N) = A
  generalize ∑ j ∈ range (n - 2), data.getD (j + 1) 0 * Real.cos (2 * Real.pi * ((j + 1 : ℕ) : ℝ) * k / N) = B
  field_simp

theorem OnLags.length {a : Acf} {n : ℕ} {d : ℝ} (g : OnLags a n d) : a.args.length = n := by rw [g.args]; simp

theorem OnLags.period {a : Acf} {n : ℕ} {d : ℝ} (g : OnLags a n d) : covPeriod a = d := by
  have h2 := g.two
  have h3 := g.args
  have hl := g.length
  obtain ⟨m, rfl⟩ : ∃ m, n = m + 2 := ⟨n - 2, by omega⟩
  have e1 : lastOf a.args = ((m + 1 : ℕ) : ℝ) * d := by
    unfold lastOf
    rw [h3, List.range_succ, List.map_append]
    simp
  have e2 : a.args.headD 0 = 0 := by
    rw [h3, List.range_succ_eq_map]
    simp
  unfold covPeriod
  rw [e1, e2, hl, show m + 2 - 1 = m + 1 by omega, sub_zero]
  have : ((m + 1 : ℕ) : ℝ) ≠ 0 := by exact_mod_cast (by omega : m + 1 ≠ 0)
  field_simp

theorem addNugget_length (x : ℝ) (l : List ℝ) : (addNugget x l).length = l.length := by cases l <;> rfl

theorem addNugget_zero (l : List ℝ) : addNugget 0 l = l := by cases l <;> simp [addNugget]

theorem OnLags.ok {a : Acf} {n : ℕ} {d : ℝ} (g : OnLags a n d) (rate : Option ℕ) (nugget trunc : ℝ) (fast : Bool) :
    covToSpec a rate nugget trunc fast = .ok (addNugget nugget a.data,
      { args := (List.range (covNfft n (covRate rate) fast / 2 + 1)).map fun k : ℕ =>
          (k : ℝ) * (Real.pi / d / (covNfft n (covRate rate) fast / 2 : ℕ))
        data := (List.range (covNfft n (covRate rate) fast / 2 + 1)).map fun k =>
          |covTrunc (addNugget nugget a.data) (covNfft n (covRate rate) fast) trunc k| * d / Real.pi
        ftype := if a.lagtype = 't' then .w else .k }) := by
  have h2 := g.two
  have hl := g.length
  have hd : ¬ (a.args.length < 2 ∨ a.data = []) := by
    rintro (h | h)
    · omega
    · have := g.data; rw [h] at this; simp at this; omega
  unfold covToSpec
  rw [if_neg hd]
  simp only [g.period, addNugget_length, g.data]

theorem covRate_pos (r : Option ℕ) : 1 ≤ covRate r := by
  cases r with
  | none => exact le_rfl
  | some r => exact pow2_pos r

theorem covNfft_spec (n : ℕ) (hn : 2 ≤ n) (r : Option ℕ) (fast : Bool) :
    2 * n - 2 ≤ covNfft n (covRate r) fast ∧ ∃ m, 1 ≤ m ∧ covNfft n (covRate r) fast = 2 * m := by
  have hr := covRate_pos r
  have h1 : 2 * n - 2 ≤ (if fast then pow2 (2 * n - 2) else 2 * n - 2) := by
    split
    · exact le_pow2 _ (by omega)
    · exact le_rfl
  have h2 : 2 ∣ (if fast then pow2 (2 * n - 2) else 2 * n - 2) := by
    split
    · exact pow2_even _ (by omega)
    · exact ⟨n - 1, by omega⟩
  unfold covNfft
  constructor
  · exact h1.trans (Nat.le_mul_of_pos_right _ hr)
  · obtain ⟨q, hq⟩ := h2
    refine ⟨q * covRate r, ?_, by rw [hq, mul_assoc]⟩
    have : 1 ≤ q := by omega
    exact Nat.mul_pos this hr

theorem foldr_max (l : List ℝ) : 0 ≤ l.foldr max 0 ∧ (l.foldr max 0 ∈ l ∨ l.foldr max 0 = 0) := by
  induction l with
  | nil => simp
  | cons a l ih =>
    constructor
    · exact le_max_of_le_right ih.1
    · rcases max_choice a (l.foldr max 0) with h | h
      · left; show max a (l.foldr max 0) ∈ _; rw [h]; simp
      · show max a (l.foldr max 0) ∈ _ ∨ max a (l.foldr max 0) = 0
        rw [h]
        rcases ih.2 with h2 | h2
        · left; simp [h2]
        · right; exact h2

theorem covPer_eq (acf : List ℝ) (n N k : ℕ) (hl : acf.length = n) (hn : 2 ≤ n) (hN : 2 * n - 2 ≤ N) :
    covPer acf N k = max 0 (circ (fun j => acf.getD j 0) n N k) := by
  unfold covPer
  rw [hl, fft_embed acf n N k hl hn hN]

theorem covTrunc_nonneg (acf : List ℝ) (N : ℕ) (t : ℝ) (k : ℕ) : 0 ≤ covTrunc acf N t k := by
  unfold covTrunc
  split
  · exact le_rfl
  · exact le_max_left _ _

theorem covTrunc_zero (acf : List ℝ) (N : ℕ) (k : ℕ) : covTrunc acf N 0 k = covPer acf N k := by
  unfold covTrunc
  have h : (0 : ℝ) ≤ covPer acf N k := le_max_left _ _
  rw [zero_mul, if_neg (not_lt.2 h)]

theorem covTrunc_le (acf : List ℝ) (N : ℕ) (t : ℝ) (k : ℕ) : covTrunc acf N t k ≤ covPer acf N k := by
  unfold covTrunc
  split
  · exact le_max_left _ _
  · exact le_rfl

/-- The integral of the returned spectrum is the mean of the periodogram. -/
theorem energy_eq (acf : List ℝ) (n N m : ℕ) (hl : acf.length = n) (hn : 2 ≤ n) (hN : 2 * n - 2 ≤ N) (hm : 1 ≤ m) (hNm : N = 2 * m)
    (d : ℝ) (hd : 0 < d) (t : ℝ) :
    trapz (Real.pi / d / m) (m + 1) (fun k => |covTrunc acf N t k| * d / Real.pi) = (∑ k ∈ range N, covTrunc acf N t k) / N := by
  have hmir : ∀ k, 1 ≤ k → k < N → covTrunc acf N t (N - k) = covTrunc acf N t k := by
    intro k _ h2
    have : covPer acf N (N - k) = covPer acf N k := by
      rw [covPer_eq acf n N _ hl hn hN, covPer_eq acf n N _ hl hn hN, circ_mirror _ _ _ _ (by omega) h2.le]
    unfold covTrunc
    rw [this]
  rw [sum_mirror _ m N hm hNm hmir, trapz_eq _ _ (by omega)]
  have hm' : (m : ℝ) ≠ 0 := by exact_mod_cast (by omega : m ≠ 0)
  have := Real.pi_pos
  simp only [abs_of_nonneg (covTrunc_nonneg _ _ _ _)]
  rw [show m + 1 - 2 = m - 1 by omega, hNm, ← sum_div, ← sum_mul, ← sum_div, ← sum_mul]
  push_cast
  field_simp

/-! ### Properties -/

/-- The spectrum at each returned frequency is the spectral density of the covariance function, negative values being replaced by zero,
if nothing is truncated. -/
theorem C178_density (a : Acf) (n : ℕ) (d : ℝ) (g : OnLags a n d) (rate : Option ℕ) (fast : Bool) :
    ∃ S, covToSpec a rate 0 0 fast = .ok (a.data, S) ∧ S.data.length = S.args.length ∧
      ∀ (k : ℕ) (w : ℝ), S.args[k]? = some w → S.data[k]? = some (max 0 (densityAt a.data n d w)) := by
  obtain ⟨h1, m, hm, hNm⟩ := covNfft_spec n g.two rate fast
  have hok := g.ok rate 0 0 fast
  rw [addNugget_zero] at hok
  set N := covNfft n (covRate rate) fast with hN
  refine ⟨_, hok, by simp, fun k w hk => ?_⟩
  have hkl : k < N / 2 + 1 := by
    by_contra hc
    rw [List.getElem?_eq_none (by simp; omega)] at hk
    exact absurd hk (by simp)
  simp only [List.getElem?_map, List.getElem?_range hkl, Option.map_some, Option.some.injEq] at hk ⊢
  have hpi := Real.pi_pos
  have hd := g.pos
  have hm2 : N / 2 = m := by omega
  have hm' : (m : ℝ) ≠ 0 := by exact_mod_cast (by omega : m ≠ 0)
  rw [covTrunc_zero, covPer_eq a.data n N k g.data g.two h1, abs_of_nonneg (le_max_left _ _)]
  have e : w = 2 * Real.pi * k / (N * d) := by
    rw [← hk, hm2, hNm]
    push_cast
    field_simp
  rw [e, ← circ_density a.data n N k d g.two (by omega) hd]
  have hdp : 0 < d / Real.pi := by positivity
  rw [mul_div_assoc, mul_div_assoc, max_mul_of_nonneg _ _ hdp.le, zero_mul]

/-- The frequencies go in equal steps from zero to `pi / d`. -/
theorem C178_frequencies (a : Acf) (n : ℕ) (d : ℝ) (g : OnLags a n d) (rate : Option ℕ) (nugget trunc : ℝ) (fast : Bool) :
    ∃ b S m, covToSpec a rate nugget trunc fast = .ok (b, S) ∧ n - 1 ≤ m ∧
      S.args = (List.range (m + 1)).map (fun k : ℕ => (k : ℝ) * (Real.pi / d / m)) := by
  obtain ⟨h1, m, hm, hNm⟩ := covNfft_spec n g.two rate fast
  refine ⟨_, _, m, g.ok rate nugget trunc fast, by omega, ?_⟩
  simp only [hNm]
  rw [show 2 * m / 2 = m by omega]

/-- The integral of the spectrum, if the spectral density of the covariance function is not negative at the returned frequencies: it is
the covariance at lag zero, or less if small values are truncated. -/
theorem C178_energy (a : Acf) (n : ℕ) (d : ℝ) (g : OnLags a n d) (rate : Option ℕ) (trunc : ℝ) (fast : Bool)
    (hpos : ∀ w, 0 ≤ densityAt a.data n d w) :
    ∃ S m, covToSpec a rate 0 trunc fast = .ok (a.data, S) ∧ S.data.length = m + 1 ∧
      trapz (Real.pi / d / m) (m + 1) (fun k => S.data.getD k 0) ≤ a.data.getD 0 0 ∧
      (trunc = 0 → trapz (Real.pi / d / m) (m + 1) (fun k => S.data.getD k 0) = a.data.getD 0 0) := by
  obtain ⟨h1, m, hm, hNm⟩ := covNfft_spec n g.two rate fast
  have hok := g.ok rate 0 trunc fast
  rw [addNugget_zero] at hok
  set N := covNfft n (covRate rate) fast with hN
  have hm2 : N / 2 = m := by omega
  have hpi := Real.pi_pos
  have hN0 : 0 < N := by omega
  have hN' : (0 : ℝ) < N := by exact_mod_cast hN0
  have hc : ∀ k, 0 ≤ circ (fun j => a.data.getD j 0) n N k := by
    intro k
    have h := hpos (2 * Real.pi * k / (N * d))
    rw [← circ_density a.data n N k d g.two hN0 g.pos] at h
    by_contra hc
    have hd := g.pos
    have : circ (fun j => a.data.getD j 0) n N k * d / Real.pi < 0 :=
      div_neg_of_neg_of_pos (mul_neg_of_neg_of_pos (not_le.1 hc) hd) hpi
    linarith
  have hper : ∀ k, covPer a.data N k = circ (fun j => a.data.getD j 0) n N k := fun k => by
    rw [covPer_eq a.data n N k g.data g.two h1, max_eq_right (hc k)]
  have hget : ∀ t, trapz (Real.pi / d / m) (m + 1) (fun k => ((List.range (N / 2 + 1)).map fun k =>
      |covTrunc a.data N t k| * d / Real.pi).getD k 0) = trapz (Real.pi / d / m) (m + 1) (fun k => |covTrunc a.data N t k| * d / Real.pi) := by
    intro t
    unfold trapz
    refine sum_congr rfl fun j hj => ?_
    have := mem_range.1 hj
    have e : ∀ i, i < N / 2 + 1 → ((List.range (N / 2 + 1)).map fun k => |covTrunc a.data N t k| * d / Real.pi).getD i 0 =
        |covTrunc a.data N t i| * d / Real.pi := by
      intro i hi
      rw [List.getD_eq_getElem?_getD, List.getElem?_map, List.getElem?_range hi]; rfl
    simp only [e j (by omega), e (j + 1) (by omega)]
  refine ⟨_, m, hok, by simp [hm2], ?_, ?_⟩
  · simp only []
    rw [hget, energy_eq a.data n N m g.data g.two h1 hm hNm d g.pos, div_le_iff₀ hN']
    calc ∑ k ∈ range N, covTrunc a.data N trunc k ≤ ∑ k ∈ range N, circ (fun j => a.data.getD j 0) n N k :=
          sum_le_sum fun k _ => (covTrunc_le _ _ _ _).trans (hper k).le
      _ = a.data.getD 0 0 * N := by rw [sum_circ _ n N g.two h1]; ring
  · rintro rfl
    simp only []
    rw [hget, energy_eq a.data n N m g.data g.two h1 hm hNm d g.pos]
    rw [sum_congr rfl fun k _ => (covTrunc_zero a.data N k).trans (hper k), sum_circ _ n N g.two h1]
    field_simp

example : OnLags { args := [0, 1], data := [2, 1], derivs := [], lagtype := 't' } 2 1 ∧
    ∀ w, 0 ≤ densityAt [2, 1] 2 1 w := by
  refine ⟨⟨by norm_num, by norm_num, by simp [List.range_succ], rfl⟩, fun w => ?_⟩
  have h := Real.neg_one_le_cos w
  have := Real.pi_pos
  unfold densityAt trapz
  have h2 : 0 ≤ (2 + Real.cos w) / 2 := by linarith
  simpa using mul_nonneg (by positivity : 0 ≤ 2 / Real.pi) h2

/-- The energy is not that of the covariance function when the density is negative somewhere: clipping adds energy.  The covariances 1
and -2 give a spectrum of energy 3/2. -/
theorem C178_energy_refuted : ∃ (a : Acf) (S : Spec), OnLags a 2 1 ∧ covToSpec a none 0 0 true = .ok (a.data, S) ∧
    a.data.getD 0 0 = 1 ∧ S.data.length = 2 ∧ trapz Real.pi 2 (fun k => S.data.getD k 0) = 3 / 2 := by
  have g : OnLags { args := [0, 1], data := [1, -2], derivs := [], lagtype := 't' } 2 1 :=
    ⟨by norm_num, by norm_num, by simp [List.range_succ], rfl⟩
  have hN : covNfft 2 (covRate none) true = 2 := by
    unfold covNfft covRate
    rw [if_pos rfl, mul_one]
    exact pow2_pow 1
  have hok := g.ok none 0 0 true
  rw [addNugget_zero, hN] at hok
  have hper : ∀ k, covTrunc [1, -2] 2 0 k = max 0 (circ (fun j => ([1, -2] : List ℝ).getD j 0) 2 2 k) := fun k => by
    rw [covTrunc_zero, covPer_eq [1, -2] 2 2 k rfl le_rfl (by norm_num)]
  have h0 : covTrunc [1, -2] 2 0 0 = 0 := by
    rw [hper]; simp [circ, sum_range_succ]
  have h1 : covTrunc [1, -2] 2 0 1 = 3 := by
    rw [hper]; simp [circ, sum_range_succ]; norm_num
  have hpi := Real.pi_pos
  refine ⟨_, _, g, hok, rfl, by simp, ?_⟩
  simp [trapz, List.range_succ, h0, h1]
  field_simp

/-- The nugget is added to the covariance function itself, so that it changes with every call. -/
theorem C178_nugget_refuted (a : Acf) (n : ℕ) (d : ℝ) (g : OnLags a n d) (rate : Option ℕ) (nugget trunc : ℝ) (fast : Bool)
    (hne : nugget ≠ 0) :
    ∃ b S, covToSpec a rate nugget trunc fast = .ok (b, S) ∧ b.getD 0 0 = a.data.getD 0 0 + nugget ∧ b ≠ a.data := by
  have h2 := g.two
  have hlen := g.data
  refine ⟨_, _, g.ok rate nugget trunc fast, ?_, ?_⟩
  · cases hd : a.data with
    | nil => rw [hd] at hlen; simp at hlen; omega
    | cons x l => rfl
  · cases hd : a.data with
    | nil => rw [hd] at hlen; simp at hlen; omega
    | cons x l =>
      intro hc
      have := (List.cons.inj hc).1
      exact hne (by linarith)

/-! ### There and back -/

theorem dvd_sub_iff (n i k : ℕ) (hn : 2 ≤ n) (hi : i < n) (hk : k < n) :
    (((2 * n - 2 : ℕ) : ℤ) ∣ (i : ℤ) - k) ↔ i = k := by
  constructor
  · intro h
    have := Int.eq_zero_of_abs_lt_dvd h (by rw [abs_lt]; omega)
    omega
  · rintro rfl; simp

theorem dvd_add_iff (n i k : ℕ) (hn : 2 ≤ n) (hi : i < n) (hk : k < n) :
    (((2 * n - 2 : ℕ) : ℤ) ∣ (i : ℤ) + k) ↔ (i = k ∧ (k = 0 ∨ k = n - 1)) := by
  constructor
  · intro h
    have h' : (2 * n - 2) ∣ (i + k) := by exact_mod_cast h
    obtain ⟨q, hq⟩ := h'
    rcases q with _ | _ | q
    · omega
    · omega
    · exfalso
      have : 2 * n - 2 + (2 * n - 2) ≤ (2 * n - 2) * (q + 1 + 1) := by
        rw [show (2 * n - 2) * (q + 1 + 1) = (2 * n - 2) * q + ((2 * n - 2) + (2 * n - 2)) by ring]
        exact Nat.le_add_left _ _
      omega
  · rintro ⟨rfl, rfl | h⟩
    · simp
    · subst h
      refine ⟨1, ?_⟩
      omega

/-- The transform is its own inverse, up to the length. -/
theorem circ_circ (a : ℕ → ℝ) (n k : ℕ) (hn : 2 ≤ n) (hk : k < n) :
    circ (fun j => circ a n (2 * n - 2) j) n (2 * n - 2) k = (2 * n - 2 : ℕ) * a k := by
  obtain ⟨N, hN⟩ : ∃ N, N = 2 * n - 2 := ⟨_, rfl⟩
  rw [← hN]
  have hN0 : 0 < N := by omega
  have hmir : ∀ j, 1 ≤ j → j < N → circ a n N (N - j) * Real.cos (2 * Real.pi * ((N - j : ℕ) : ℝ) * k / N) =
      circ a n N j * Real.cos (2 * Real.pi * j * k / N) := by
    intro j _ h2
    rw [circ_mirror _ _ _ _ hN0 h2.le, cos_reflect N hN0 j k h2.le]
  have hsum := sum_mirror (fun j => circ a n N j * Real.cos (2 * Real.pi * j * k / N)) (n - 1) N (by omega) (by omega) hmir
  rw [show n - 1 + 1 = n by omega, show n - 1 - 1 = n - 2 by omega] at hsum
  have hL : circ (fun j => circ a n N j) n N k = ∑ j ∈ range N, circ a n N j * Real.cos (2 * Real.pi * j * k / N) := by
    rw [hsum]
    rfl
  rw [hL]
  have hpair : ∀ i : ℕ, i < n → ∑ j ∈ range N, a i * Real.cos (2 * Real.pi * i * j / N) * Real.cos (2 * Real.pi * j * k / N) =
      if i = k then (if k = 0 ∨ k = n - 1 then (N : ℝ) * a k else N / 2 * a k) else 0 := by
    intro i hi
    have h := sum_cos_cos N hN0 (i : ℤ) (k : ℤ)
    simp only [Int.cast_natCast] at h
    have e : ∑ j ∈ range N, a i * Real.cos (2 * Real.pi * i * j / N) * Real.cos (2 * Real.pi * j * k / N) =
        a i * ∑ j ∈ range N, Real.cos (2 * Real.pi * i * j / N) * Real.cos (2 * Real.pi * k * j / N) := by
      rw [mul_sum]
      refine sum_congr rfl fun j _ => ?_
      rw [show 2 * Real.pi * (j : ℝ) * k / N = 2 * Real.pi * k * j / N by ring]
      ring
    rw [e, h, hN]
    simp only [dvd_sub_iff n i k hn hi hk, dvd_add_iff n i k hn hi hk]
    by_cases hik : i = k
    · subst hik
      by_cases hkk : i = 0 ∨ i = n - 1
      · simp [hkk]; ring
      · simp [hkk]; ring
    · simp [hik]
  have hexp : ∑ j ∈ range N, circ a n N j * Real.cos (2 * Real.pi * j * k / N) =
      ∑ i ∈ range n, ∑ j ∈ range N, a i * Real.cos (2 * Real.pi * i * j / N) * Real.cos (2 * Real.pi * j * k / N) +
      ∑ i ∈ range (n - 2), ∑ j ∈ range N, a (i + 1) * Real.cos (2 * Real.pi * ((i + 1 : ℕ) : ℝ) * j / N) *
        Real.cos (2 * Real.pi * j * k / N) := by
    rw [sum_comm, sum_comm (s := range (n - 2)), ← sum_add_distrib]
    refine sum_congr rfl fun j _ => ?_
    unfold circ
    rw [add_mul, sum_mul, sum_mul]
  rw [hexp, sum_congr rfl fun i hi => hpair i (mem_range.1 hi),
    sum_congr (s₁ := range (n - 2)) rfl fun i hi => hpair (i + 1) (by have := mem_range.1 hi; omega)]
  rw [sum_ite_eq' (range n) k, if_pos (mem_range.2 hk)]
  by_cases hkk : k = 0 ∨ k = n - 1
  · rw [if_pos hkk]
    have : ∑ i ∈ range (n - 2), (if i + 1 = k then (N : ℝ) * a k else 0) = 0 := by
      refine sum_eq_zero fun i hi => ?_
      have := mem_range.1 hi
      rw [if_neg (by omega)]
    rw [this, add_zero]
  · rw [if_neg hkk]
    have : ∑ i ∈ range (n - 2), (if i + 1 = k then (N : ℝ) / 2 * a k else 0) = N / 2 * a k := by
      rw [sum_eq_single (k - 1)]
      · rw [if_pos (by omega)]
      · intro i _ hne
        rw [if_neg (by omega)]
      · intro h
        exact absurd (mem_range.2 (by omega)) h
    rw [this]
    ring

/-- From a spectrum to its covariance function and back: the frequencies, the values and the type of the spectrum are those that it had,
if it has `2^m + 1` frequencies and every value is zero or at least `trunc` times every other value. -/
theorem C179_roundtrip_partial (s : Spec) (n m : ℕ) (h : ℝ) (g : OnGrid s n h) (hn : n = 2 ^ m + 1) (hf : s.ftype ≠ .f)
    (hs : ∀ j < n, 0 ≤ s.data.getD j 0) (trunc : ℝ) (ht0 : 0 ≤ trunc)
    (ht : ∀ i < n, ∀ j < n, s.data.getD j 0 = 0 ∨ trunc * s.data.getD i 0 ≤ s.data.getD j 0) (nr : ℕ) :
    ∃ R S, specToCov s nr none none = .ok R ∧ covToSpec R none 0 trunc true = .ok (R.data, S) ∧
      S.args = s.args ∧ S.data = s.data ∧ S.ftype = s.ftype := by
  have h2 := g.two
  have hpi := Real.pi_pos
  have hh := g.pos
  have hpow : pow2 (2 * n - 2) = 2 * n - 2 := by
    rw [show 2 * n - 2 = 2 ^ (m + 1) by rw [hn, pow_succ]; omega, pow2_pow]
  have hn1 : ((n - 1 : ℕ) : ℝ) ≠ 0 := by exact_mod_cast (by omega : n - 1 ≠ 0)
  have hn1p : (0 : ℝ) < ((n - 1 : ℕ) : ℝ) := by exact_mod_cast (by omega : 0 < n - 1)
  have hc : ((2 * n - 2 : ℕ) : ℝ) = 2 * ((n - 1 : ℕ) : ℝ) := by
    rw [show 2 * n - 2 = 2 * (n - 1) by omega]; push_cast; ring
  have hw : wmdt s.ftype = Real.pi := by
    cases hft : s.ftype with
    | f => exact absurd hft hf
    | w => rfl
    | k => rfl
  have hper : samplingPeriod s = Real.pi / (((n - 1 : ℕ) : ℝ) * h) := by rw [samplingPeriod, hw, g.last]
  set d : ℝ := Real.pi / (((n - 1 : ℕ) : ℝ) * h) with hdd
  have hd : 0 < d := by rw [hdd]; positivity
  have hok := g.ok nr none none
  simp only [rateOf, ntOf, one_mul, hpow] at hok
  set R : Acf := { args := (List.range (n - 1 + 1)).map fun k : ℕ => (k : ℝ) * samplingPeriod s * (2 * n - 2 : ℕ) / (2 * n - 2 : ℕ)
                   data := covValues s (2 * n - 2) (n - 1) 0
                   derivs := (List.range nr).map fun i => covValues s (2 * n - 2) (n - 1) (i + 1)
                   lagtype := lagtypeOf s.ftype } with hR
  have gR : OnLags R n d := by
    refine ⟨h2, hd, ?_, ?_⟩
    · rw [hR]
      simp only []
      rw [show n - 1 + 1 = n by omega]
      refine List.map_congr_left fun k _ => ?_
      rw [hper, hc]
      field_simp
    · rw [hR]
      simp [covValues]
      omega
  have hval : ∀ k < n, R.data.getD k 0 = circ (fun j => s.data.getD j 0 * (((n - 1 : ℕ) : ℝ) * h)) n (2 * n - 2) k / (2 * n - 2 : ℕ) := by
    intro k hk
    have e1 : R.data.getD k 0 = (fft (2 * n - 2) (rper s (2 * n - 2) 0) k).re / (2 * s.args.length - 2 : ℕ) := by
      rw [List.getD_eq_getElem?_getD]
      show ((covValues s (2 * n - 2) (n - 1) 0)[k]?).getD 0 = _
      rw [covValues_get _ _ _ _ _ (by omega)]; rfl
    rw [e1, g.length]
    congr 1
    have e2 : rper s (2 * n - 2) 0 = embed (2 * n - 2 + 2 - 2 * n) (toC (s.data.map (· * lastOf s.args)))
        (toC (s.data.map (· * lastOf s.args))) := by
      unfold rper; rw [g.length]
    rw [e2, fft_embed _ n _ k (by simp [g.data]) h2 le_rfl]
    have e3 : ∀ j, (s.data.map (· * lastOf s.args)).getD j 0 = s.data.getD j 0 * (((n - 1 : ℕ) : ℝ) * h) := by
      intro j
      rw [List.getD_eq_getElem?_getD, List.getD_eq_getElem?_getD, List.getElem?_map, g.last]
      cases s.data[j]? <;> simp
    simp only [e3]
  have hN0 : ((2 * n - 2 : ℕ) : ℝ) ≠ 0 := by exact_mod_cast (by omega : 2 * n - 2 ≠ 0)
  have hcirc : ∀ k < n, circ (fun j => R.data.getD j 0) n (2 * n - 2) k = s.data.getD k 0 * (((n - 1 : ℕ) : ℝ) * h) := by
    intro k hk
    have h1 := circ_circ (fun j => s.data.getD j 0 * (((n - 1 : ℕ) : ℝ) * h)) n k h2 hk
    have h3 : circ (fun j => R.data.getD j 0) n (2 * n - 2) k =
        circ (fun j => circ (fun j => s.data.getD j 0 * (((n - 1 : ℕ) : ℝ) * h)) n (2 * n - 2) j) n (2 * n - 2) k / (2 * n - 2 : ℕ) := by
      generalize hG : circ (fun j => s.data.getD j 0 * (((n - 1 : ℕ) : ℝ) * h)) n (2 * n - 2) = G at hval
      unfold circ
      rw [add_div, sum_div, sum_div]
      congr 1
      · refine sum_congr rfl fun j hj => ?_
        simp only [hval j (mem_range.1 hj)]
        ring
      · refine sum_congr rfl fun j hj => ?_
        have := mem_range.1 hj
        simp only [hval (j + 1) (by omega)]
        ring
    rw [h3, h1]
    field_simp
  have hpos : 0 < ((n - 1 : ℕ) : ℝ) * h := by positivity
  have hP : ∀ k < n, covPer R.data (2 * n - 2) k = s.data.getD k 0 * (((n - 1 : ℕ) : ℝ) * h) := by
    intro k hk
    rw [covPer_eq R.data n _ k gR.data h2 le_rfl, hcirc k hk, max_eq_right (mul_nonneg (hs k hk) hpos.le)]
  have hmax : ∃ i < n, covPerMax R.data (2 * n - 2) ≤ s.data.getD i 0 * (((n - 1 : ℕ) : ℝ) * h) := by
    rcases (foldr_max ((List.range (2 * n - 2)).map (covPer R.data (2 * n - 2)))).2 with hm | hm
    · obtain ⟨i, hi, hi'⟩ := List.mem_map.1 hm
      have hi2 := List.mem_range.1 hi
      by_cases hin : i < n
      · exact ⟨i, hin, by unfold covPerMax; rw [← hi', hP i hin]⟩
      · refine ⟨2 * n - 2 - i, by omega, ?_⟩
        unfold covPerMax
        rw [← hi', ← hP _ (by omega)]
        rw [covPer_eq R.data n _ i gR.data h2 le_rfl, covPer_eq R.data n _ (2 * n - 2 - i) gR.data h2 le_rfl,
          circ_mirror _ _ _ _ (by omega) (by omega)]
    · exact ⟨0, by omega, by unfold covPerMax; rw [hm]; exact mul_nonneg (hs 0 (by omega)) hpos.le⟩
  have hT : ∀ k < n, covTrunc R.data (2 * n - 2) trunc k = s.data.getD k 0 * (((n - 1 : ℕ) : ℝ) * h) := by
    intro k hk
    obtain ⟨i, hi, him⟩ := hmax
    unfold covTrunc
    rw [hP k hk]
    rcases ht i hi k hk with h0 | h0
    · rw [h0, zero_mul]; simp
    · rw [if_neg]
      rw [not_lt]
      calc trunc * covPerMax R.data (2 * n - 2) ≤ trunc * (s.data.getD i 0 * (((n - 1 : ℕ) : ℝ) * h)) :=
            mul_le_mul_of_nonneg_left him ht0
        _ = trunc * s.data.getD i 0 * (((n - 1 : ℕ) : ℝ) * h) := by ring
        _ ≤ _ := mul_le_mul_of_nonneg_right h0 hpos.le
  have hfft : covNfft n (covRate none) true = 2 * n - 2 := by
    unfold covNfft covRate
    rw [if_pos rfl, hpow, mul_one]
  have hok2 := gR.ok none 0 trunc true
  rw [addNugget_zero, hfft, show (2 * n - 2) / 2 = n - 1 by omega, show n - 1 + 1 = n by omega] at hok2
  refine ⟨R, _, hok, hok2, ?_, ?_, ?_⟩
  · simp only []
    rw [g.args]
    refine List.map_congr_left fun k _ => ?_
    rw [hdd]
    field_simp
  · simp only []
    apply List.ext_getElem?
    intro k
    rw [List.getElem?_map]
    by_cases hk : k < n
    · rw [List.getElem?_range hk, List.getElem?_eq_getElem (by rw [g.data]; exact hk), Option.map_some]
      have e : s.data.getD k 0 = s.data[k]'(by rw [g.data]; exact hk) := by
        rw [List.getD_eq_getElem?_getD, List.getElem?_eq_getElem (by rw [g.data]; exact hk)]; rfl
      rw [hT k hk, abs_of_nonneg (mul_nonneg (hs k hk) hpos.le), ← e, hdd]
      congr 1
      field_simp
    · rw [List.getElem?_eq_none (by simp; omega), List.getElem?_eq_none (by rw [g.data]; omega)]
      rfl
  · simp only [hR]
    cases hft : s.ftype with
    | f => exact absurd hft hf
    | w => rfl
    | k => rfl

example : OnGrid { args := [0, 1, 2], data := [0, 3, 1], ftype := .w } 3 1 ∧ 3 = 2 ^ 1 + 1 ∧
    ∀ i < 3, ∀ j < 3, ([0, 3, 1] : List ℝ).getD j 0 = 0 ∨ 1 / 100000 * ([0, 3, 1] : List ℝ).getD i 0 ≤ ([0, 3, 1] : List ℝ).getD j 0 := by
  refine ⟨⟨by norm_num, by norm_num, by simp [List.range_succ], rfl⟩, by norm_num, fun i hi j hj => ?_⟩
  match i, j, hi, hj with
  | _, 0, _, _ => left; rfl
  | 0, 1, _, _ | 1, 1, _, _ | 2, 1, _, _ | 0, 2, _, _ | 1, 2, _, _ | 2, 2, _, _ => right; norm_num

/-- With another number of frequencies the spectrum does not come back: four frequencies become five, the last one a third higher. -/
theorem C179_roundtrip_refuted (s : Spec) (h : ℝ) (g : OnGrid s 4 h) (hf : s.ftype = .w) :
    ∃ R S, specToCov s 0 none none = .ok R ∧ covToSpec R none 0 0 true = .ok (R.data, S) ∧
      S.args.length = 5 ∧ lastOf S.args = 4 / 3 * lastOf s.args := by
  have hpi := Real.pi_pos
  have hh := g.pos
  have e : pow2 6 = 8 := pow2_eq 6 2 (by norm_num) (by norm_num)
  have hok := g.ok 0 none none
  simp only [rateOf, ntOf, one_mul] at hok
  rw [show 2 * 4 - 2 = 6 by norm_num, e, show 4 - 1 = 3 by norm_num] at hok
  set R : Acf := { args := (List.range (3 + 1)).map fun k : ℕ => (k : ℝ) * samplingPeriod s * (6 : ℕ) / (8 : ℕ)
                   data := covValues s 8 3 0
                   derivs := (List.range 0).map fun i => covValues s 8 3 (i + 1)
                   lagtype := lagtypeOf s.ftype } with hR
  have hl : lastOf s.args = 3 * h := by rw [g.last]; norm_num
  have hper : samplingPeriod s = Real.pi / (3 * h) := by rw [samplingPeriod, hf, hl]; rfl
  have gR : OnLags R 4 (samplingPeriod s * 6 / 8) := by
    refine ⟨by norm_num, by rw [hper]; positivity, ?_, ?_⟩
    · rw [hR]
      simp only []
      refine List.map_congr_left fun k _ => ?_
      push_cast
      ring
    · rw [hR]
      simp [covValues]
  have hfft : covNfft 4 (covRate none) true = 8 := by
    unfold covNfft covRate
    rw [if_pos rfl, mul_one]
    exact e
  have hok2 := gR.ok none 0 0 true
  rw [addNugget_zero, hfft] at hok2
  refine ⟨R, _, hok, hok2, by simp, ?_⟩
  rw [hl, hper]
  simp [lastOf, List.range_succ]
  field_simp
  norm_num

end

end Wafo.Cov
