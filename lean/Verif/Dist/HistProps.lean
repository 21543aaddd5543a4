import Verif.Dist.HistModel
import Verif.Dist.MomSpec
import Mathlib.Data.List.GetD
import Mathlib.Analysis.SpecialFunctions.Integrals.Basic

/-!
# Distributions from histograms
-/

set_option linter.unusedSectionVars false

namespace Wafo.Dist

open MeasureTheory Set Real
open scoped Classical

namespace Hist

theorem search_eq {n : ℕ} {xs : ℕ → ℝ} {x : ℝ} {j : ℕ} (hj : j ≤ n + 1) (h1 : ∀ i < j, xs i ≤ x)
    (h2 : ∀ i, j ≤ i → i ≤ n → x < xs i) : searchRight n xs x = j := by
  unfold searchRight
  rw [Nat.count_eq_card_filter_range]
  have : (Finset.range (n + 1)).filter (fun i => xs i ≤ x) = Finset.range j := by
    ext i
    simp only [Finset.mem_filter, Finset.mem_range]
    constructor
    · rintro ⟨a, b⟩
      by_contra h
      exact absurd b (not_le.2 (h2 i (by omega) (by omega)))
    · intro h
      exact ⟨by omega, h1 i h⟩
  rw [this, Finset.card_range]

/-- Values that do not decrease, as an upward inequality. -/
theorem mono_le {n : ℕ} {xs : ℕ → ℝ} (h : ∀ i < n, xs i ≤ xs (i + 1)) {i j : ℕ} (hij : i ≤ j) (hj : j ≤ n) : xs i ≤ xs j := by
  induction j, hij using Nat.le_induction with
  | base => exact le_rfl
  | succ k hk ih => exact (ih (by omega)).trans (h k (by omega))

/-- Where a point lies among values that do not decrease. -/
theorem locate {n : ℕ} {xs : ℕ → ℝ} {x : ℝ} (h0 : xs 0 ≤ x) (h1 : x < xs n) :
    ∃ j < n, xs j ≤ x ∧ x < xs (j + 1) := by
  have hex : ∃ k, x < xs k := ⟨n, h1⟩
  have hs := Nat.find_spec hex
  have hmin := fun m => Nat.find_min hex (m := m)
  have hle : Nat.find hex ≤ n := Nat.find_min' hex h1
  obtain ⟨k, hk⟩ := Nat.exists_eq_succ_of_ne_zero (n := Nat.find hex) (fun h => by rw [h] at hs; linarith)
  exact ⟨k, by omega, not_lt.1 (hmin k (by omega)), by rw [hk] at hs; exact hs⟩

theorem search_in {n : ℕ} {xs : ℕ → ℝ} (hm : ∀ i < n, xs i ≤ xs (i + 1)) {x : ℝ} {j : ℕ} (hj : j < n) (h1 : xs j ≤ x)
    (h2 : x < xs (j + 1)) : searchRight n xs x = j + 1 :=
  search_eq (by omega) (fun i hi => (mono_le hm (by omega) (by omega)).trans h1)
    fun i hi hn => h2.trans_le (mono_le hm hi hn)

/-- `np.interp` on a segment. -/
theorem interp_in {n : ℕ} {xp fp : ℕ → ℝ} (hm : ∀ i < n, xp i ≤ xp (i + 1)) {x : ℝ} {j : ℕ} (hj : j < n) (h1 : xp j ≤ x)
    (h2 : x < xp (j + 1)) :
    interp n xp fp x = (fp (j + 1) - fp j) / (xp (j + 1) - xp j) * (x - xp j) + fp j := by
  unfold interp
  simp only [search_in hm hj h1 h2]
  rw [if_neg (by omega), if_neg (by omega), Nat.add_sub_cancel]
  split_ifs with h
  · rw [h, sub_self, mul_zero, zero_add]
  · rfl

/-- `np.interp` in the last point. -/
theorem interp_last {n : ℕ} {xp fp : ℕ → ℝ} (hm : ∀ i < n, xp i ≤ xp (i + 1)) : interp n xp fp (xp n) = fp n := by
  unfold interp
  have : searchRight n xp (xp n) = n + 1 := search_eq le_rfl (fun i hi => mono_le hm (by omega) le_rfl) (by omega)
  simp [this]

end Hist

open Hist

/-- What `np.histogram` returns: boundaries that increase and contents that are not negative, not all of them zero. -/
structure GoodHist (content bins : List ℝ) : Prop where
  len : content.length + 1 = bins.length
  bins : ∀ i (h : i + 1 < bins.length), bins[i] < bins[i + 1]
  nonneg : ∀ v ∈ content, 0 ≤ v
  pos : ∃ v ∈ content, 0 < v

/-- The attributes fit together. -/
structure Hist.Good (d : Hist) : Prop where
  bins : ∀ i < d.n, d.b i < d.b (i + 1)
  nonneg : ∀ i < d.n, 0 ≤ d.p i
  total : d.c d.n = 1

theorem getD_nonneg {content : List ℝ} (h : ∀ v ∈ content, 0 ≤ v) (i : ℕ) : 0 ≤ content.getD i 0 := by
  rw [List.getD_eq_getElem?_getD]
  cases e : content[i]? with
  | none => simp
  | some v => simpa using h v (List.mem_of_getElem? e)

theorem sum_pos_of_good {content bins : List ℝ} (g : GoodHist content bins) :
    0 < ∑ j ∈ Finset.range content.length, content.getD j 0 * (bins.getD (j + 1) 0 - bins.getD j 0) := by
  have hw : ∀ j < content.length, 0 < bins.getD (j + 1) 0 - bins.getD j 0 := fun j hj => by
    have h2 : j + 1 < bins.length := by have := g.len; omega
    have := g.bins j h2
    rw [List.getD_eq_getElem _ _ h2, List.getD_eq_getElem _ _ (by omega)]
    linarith
  obtain ⟨v, hv, h0⟩ := g.pos
  obtain ⟨i, hi, rfl⟩ := List.getElem_of_mem hv
  refine Finset.sum_pos' (fun j hj => mul_nonneg (getD_nonneg g.nonneg j) (hw j (Finset.mem_range.1 hj)).le)
    ⟨i, Finset.mem_range.2 hi, mul_pos ?_ (hw i hi)⟩
  rwa [List.getD_eq_getElem _ _ hi]

theorem good_of_make {content bins : List ℝ} (g : GoodHist content bins) {d : Hist} (h : make content bins = .ok d) :
    d.Good ∧ d.n = content.length ∧ (∀ i, d.b i = bins.getD i 0) ∧
    ∀ i, d.p i = content.getD i 0 /
      ∑ j ∈ Finset.range content.length, content.getD j 0 * (bins.getD (j + 1) 0 - bins.getD j 0) := by
  have hp := sum_pos_of_good g
  unfold make at h
  rw [if_neg (not_not.2 g.len)] at h
  obtain rfl := Except.ok.inj h
  refine ⟨⟨fun i hi => ?_, fun i _ => div_nonneg (getD_nonneg g.nonneg i) hp.le, ?_⟩, rfl, fun i => rfl, fun i => rfl⟩
  · have h2 : i + 1 < bins.length := by have := g.len; simp only at hi; omega
    have := g.bins i h2
    simp only
    rwa [List.getD_eq_getElem _ _ h2, List.getD_eq_getElem _ _ (by omega)]
  · unfold Hist.c Hist.w
    simp only [div_mul_eq_mul_div]
    rw [← Finset.sum_div, div_self hp.ne']

namespace Hist

variable {d : Hist} (g : d.Good)
include g

theorem Good.le {i j : ℕ} (hij : i ≤ j) (hj : j ≤ d.n) : d.b i ≤ d.b j := mono_le (fun i hi => (g.bins i hi).le) hij hj

theorem Good.npos : 0 < d.n := by
  rcases Nat.eq_zero_or_pos d.n with h | h
  · have := g.total
    rw [h] at this
    simp [c] at this
  · exact h

theorem Good.w_pos {i : ℕ} (hi : i < d.n) : 0 < d.w i := sub_pos.2 (g.bins i hi)

theorem Good.c_step {i : ℕ} (hi : i < d.n) : d.c i ≤ d.c (i + 1) := by
  rw [c, c, Finset.sum_range_succ]
  have := mul_nonneg (g.nonneg i hi) (g.w_pos hi).le
  linarith

theorem pdf_in {x : ℝ} {j : ℕ} (hj : j < d.n) (h1 : d.b j ≤ x) (h2 : x < d.b (j + 1)) : d.pdf x = d.p j := by
  rw [pdf, search_in (fun i hi => (g.bins i hi).le) hj h1 h2, padded, if_neg (by omega), if_pos (by omega), Nat.add_sub_cancel]

theorem cdf_in {x : ℝ} {j : ℕ} (hj : j < d.n) (h1 : d.b j ≤ x) (h2 : x < d.b (j + 1)) :
    d.cdf x = d.c j + d.p j * (x - d.b j) := by
  have hw := g.w_pos hj
  have e : d.c (j + 1) - d.c j = d.p j * d.w j := by rw [c, c, Finset.sum_range_succ]; ring
  rw [cdf, interp_in (fun i hi => (g.bins i hi).le) hj h1 h2, e]
  have : d.b (j + 1) - d.b j = d.w j := rfl
  rw [this, mul_div_assoc, div_self hw.ne']
  ring

theorem cdf_top : d.cdf (d.b d.n) = 1 := by
  rw [cdf, interp_last (fun i hi => (g.bins i hi).le), g.total]

/-- The integral of a function of the point and the density, over a part of one bin. -/
theorem piece {k : ℝ → ℝ → ℝ} (hk : ∀ v, Continuous fun t => k t v) {j : ℕ} (hj : j < d.n) {x : ℝ} (h1 : d.b j ≤ x)
    (h2 : x ≤ d.b (j + 1)) :
    IntervalIntegrable (fun t => k t (d.pdf t)) volume (d.b j) x ∧
    ∫ t in (d.b j)..x, k t (d.pdf t) = ∫ t in (d.b j)..x, k t (d.p j) := by
  have he : EqOn (fun t => k t (d.p j)) (fun t => k t (d.pdf t)) (Ioo (d.b j) x) := fun t ht => by
    simp only
    rw [pdf_in g hj ht.1.le (ht.2.trans_le h2)]
  refine ⟨?_, (intervalIntegral.integral_congr_Ioo_of_le h1 he).symm⟩
  rw [intervalIntegrable_iff_integrableOn_Ioo_of_le h1]
  exact (integrableOn_congr_fun he measurableSet_Ioo).1
    ((hk _).integrableOn_Icc.mono_set Ioo_subset_Icc_self)

theorem upto {k : ℝ → ℝ → ℝ} (hk : ∀ v, Continuous fun t => k t v) {j : ℕ} (hj : j ≤ d.n) :
    IntervalIntegrable (fun t => k t (d.pdf t)) volume (d.b 0) (d.b j) ∧
    ∫ t in (d.b 0)..(d.b j), k t (d.pdf t) = ∑ i ∈ Finset.range j, ∫ t in (d.b i)..(d.b (i + 1)), k t (d.p i) := by
  have hi : ∀ i < j, IntervalIntegrable (fun t => k t (d.pdf t)) volume (d.b i) (d.b (i + 1)) := fun i hi =>
    (piece g hk (by omega) (g.bins i (by omega)).le le_rfl).1
  refine ⟨IntervalIntegrable.trans_iterate hi, ?_⟩
  rw [← intervalIntegral.sum_integral_adjacent_intervals hi]
  exact Finset.sum_congr rfl fun i h =>
    (piece g hk (by have := Finset.mem_range.1 h; omega) (g.bins i (by have := Finset.mem_range.1 h; omega)).le le_rfl).2

theorem area {x : ℝ} (h0 : d.b 0 ≤ x) (h1 : x ≤ d.b d.n) :
    IntervalIntegrable d.pdf volume (d.b 0) x ∧ ∫ t in (d.b 0)..x, d.pdf t = d.cdf x := by
  have hk : ∀ v : ℝ, Continuous fun _ : ℝ => v := fun v => continuous_const
  have hc : ∀ j, ∑ i ∈ Finset.range j, ∫ _ in (d.b i)..(d.b (i + 1)), d.p i = d.c j := fun j => by
    simp only [intervalIntegral.integral_const, smul_eq_mul]
    exact Finset.sum_congr rfl fun i _ => mul_comm _ _
  rcases h1.lt_or_eq with h1 | rfl
  · obtain ⟨j, hj, a, b⟩ := locate h0 h1
    obtain ⟨u1, u2⟩ := upto g (k := fun _ v => v) hk hj.le
    obtain ⟨p1, p2⟩ := piece g (k := fun _ v => v) hk hj a b.le
    refine ⟨u1.trans p1, ?_⟩
    rw [← intervalIntegral.integral_add_adjacent_intervals u1 p1, u2, p2, hc, cdf_in g hj a b,
      intervalIntegral.integral_const, smul_eq_mul, mul_comm]
  · obtain ⟨u1, u2⟩ := upto g (k := fun _ v => v) hk le_rfl
    exact ⟨u1, by rw [u2, hc, cdf_top g, g.total]⟩

end Hist

/-- C273 `rv_histogram`: the distribution function is the area under the density, which has total area one. -/
theorem C273_cdf {content bins : List ℝ} (hg : GoodHist content bins) {d : Hist} (h : make content bins = .ok d) :
    IsCdf (Ioo (d.b 0) (d.b d.n)) d.pdf d.cdf := by
  obtain ⟨g, -⟩ := good_of_make hg h
  have hle := g.le (Nat.zero_le d.n) le_rfl
  have htot := area g hle le_rfl
  have hint : IntegrableOn d.pdf (Ioo (d.b 0) (d.b d.n)) :=
    (intervalIntegrable_iff_integrableOn_Ioo_of_le hle).1 htot.1
  have e1 : ∫ t in Ioo (d.b 0) (d.b d.n), d.pdf t = 1 := by
    rw [← integral_Ioc_eq_integral_Ioo, ← intervalIntegral.integral_of_le hle, htot.2, cdf_top g]
  have hbelow : ∀ x ∈ Ioo (d.b 0) (d.b d.n), ∫ t in Ioo (d.b 0) (d.b d.n) ∩ Iic x, d.pdf t = d.cdf x := fun x hx => by
    rw [← (area g hx.1.le hx.2.le).2, intervalIntegral.integral_of_le hx.1.le]
    congr 2
    ext t
    exact ⟨fun ht => ⟨ht.1.1, ht.2⟩, fun ht => ⟨⟨ht.1, ht.2.trans_lt hx.2⟩, ht.2⟩⟩
  refine ⟨fun x hx => ?_, hint, e1, hbelow, fun x hx => ?_⟩
  · obtain ⟨j, hj, a, b⟩ := locate hx.1.le hx.2
    rw [pdf_in g hj a b]
    exact g.nonneg j hj
  · have := integral_inter_add_sdiff (μ := volume) (measurableSet_Iic (a := x)) hint
    rw [e1, hbelow x hx] at this
    have e : Ioo (d.b 0) (d.b d.n) \ Iic x = Ioo (d.b 0) (d.b d.n) ∩ Ioi x := by
      rw [sdiff_eq, compl_Iic]
    rw [e] at this
    linarith

/-- C273 `rv_histogram`: the quantiles have the probability asked for, also when bins are empty; without empty bins `ppf`
is the inverse of `cdf`. -/
theorem C273_ppf {content bins : List ℝ} (hg : GoodHist content bins) {d : Hist} (h : make content bins = .ok d) :
    (∀ q, 0 < q → q < 1 → d.ppf q ∈ Ioo (d.b 0) (d.b d.n) ∧ d.cdf (d.ppf q) = q) ∧
    ((∀ v ∈ content, 0 < v) → IsPpf (Ioo (d.b 0) (d.b d.n)) d.cdf d.ppf) := by
  obtain ⟨g, hn, -, hpe⟩ := good_of_make hg h
  have key : ∀ q, 0 < q → q < 1 → ∃ j < d.n, d.c j ≤ q ∧ q < d.c (j + 1) ∧ 0 < d.p j ∧
      d.ppf q = d.b j + (q - d.c j) / d.p j ∧ d.b j ≤ d.ppf q ∧ d.ppf q < d.b (j + 1) := by
    intro q h0 h1
    obtain ⟨j, hj, a, b⟩ := locate (xs := d.c) (n := d.n) (x := q) (by simpa [Hist.c] using h0.le) (by rwa [g.total])
    have hw := g.w_pos hj
    have e : d.c (j + 1) - d.c j = d.p j * d.w j := by rw [Hist.c, Hist.c, Finset.sum_range_succ]; ring
    have hp : 0 < d.p j := by
      rcases (g.nonneg j hj).eq_or_lt with h | h
      · rw [← h, zero_mul] at e; linarith
      · exact h
    have e2 : d.ppf q = d.b j + (q - d.c j) / d.p j := by
      rw [Hist.ppf, interp_in (xp := d.c) (fun i hi => g.c_step hi) hj a b, e]
      have : d.b (j + 1) - d.b j = d.w j := rfl
      rw [this]
      field_simp
      ring
    refine ⟨j, hj, a, b, hp, e2, ?_, ?_⟩
    · rw [e2]
      have := div_nonneg (sub_nonneg.2 a) hp.le
      linarith
    · rw [e2]
      have : (q - d.c j) / d.p j < d.w j := by rw [div_lt_iff₀ hp]; linarith
      have e : d.b (j + 1) - d.b j = d.w j := rfl
      linarith
  have hmain : ∀ q, 0 < q → q < 1 → d.ppf q ∈ Ioo (d.b 0) (d.b d.n) ∧ d.cdf (d.ppf q) = q := by
    intro q h0 h1
    obtain ⟨j, hj, a, b, hp, e, l1, l2⟩ := key q h0 h1
    refine ⟨⟨?_, l2.trans_le (g.le (by omega) le_rfl)⟩, ?_⟩
    · rcases Nat.eq_zero_or_pos j with rfl | hj0
      · rw [e]
        have : d.c 0 = 0 := by simp [Hist.c]
        rw [this, sub_zero]
        have := div_pos h0 hp
        linarith
      · exact ((g.bins 0 g.npos).trans_le (g.le hj0 hj.le)).trans_le l1
    · rw [cdf_in g hj l1 l2, e, add_sub_cancel_left, mul_div_cancel₀ _ hp.ne']
      ring
  refine ⟨hmain, fun hpos => ?_⟩
  have hpp : ∀ i < d.n, 0 < d.p i := fun i hi => by
    rw [hpe]
    refine div_pos ?_ (sum_pos_of_good hg)
    rw [List.getD_eq_getElem _ _ (by omega)]
    exact hpos _ (List.getElem_mem _)
  have hmono : ∀ i < d.n, d.c i < d.c (i + 1) := fun i hi => by
    rw [Hist.c, Hist.c, Finset.sum_range_succ]
    have := mul_pos (hpp i hi) (g.w_pos hi)
    linarith
  have hcl : ∀ {i j}, i ≤ j → j ≤ d.n → d.c i ≤ d.c j := fun {i j} => mono_le fun i hi => (hmono i hi).le
  have hcdf : ∀ x ∈ Ioo (d.b 0) (d.b d.n), ∃ j < d.n, d.b j ≤ x ∧ x < d.b (j + 1) ∧
      d.cdf x = d.c j + d.p j * (x - d.b j) ∧ d.c j ≤ d.cdf x ∧ d.cdf x < d.c (j + 1) := fun x hx => by
    obtain ⟨j, hj, a, b⟩ := locate hx.1.le hx.2
    have e := cdf_in g hj a b
    have e2 : d.c (j + 1) = d.c j + d.p j * (d.b (j + 1) - d.b j) := by
      rw [Hist.c, Hist.c, Finset.sum_range_succ]; rfl
    refine ⟨j, hj, a, b, e, ?_, ?_⟩
    · rw [e]
      have := mul_nonneg (hpp j hj).le (sub_nonneg.2 a)
      linarith
    · rw [e, e2]
      have := mul_lt_mul_of_pos_left (sub_lt_sub_right b (d.b j)) (hpp j hj)
      linarith
  have hm : ∀ x ∈ Ioo (d.b 0) (d.b d.n), 0 < d.cdf x ∧ d.cdf x < 1 := fun x hx => by
    obtain ⟨j, hj, a, b, e, c1, c2⟩ := hcdf x hx
    refine ⟨?_, c2.trans_le ((hcl (by omega) le_rfl).trans g.total.le)⟩
    rcases Nat.eq_zero_or_pos j with rfl | hj0
    · rw [e]
      have : d.c 0 = 0 := by simp [Hist.c]
      rw [this, zero_add]
      exact mul_pos (hpp 0 hj) (by linarith [hx.1])
    · have h1 : d.c 0 < d.c 1 := hmono 0 g.npos
      have : d.c 0 = 0 := by simp [Hist.c]
      exact lt_of_lt_of_le (by linarith [hcl hj0 hj.le]) c1
  refine ⟨fun q h0 h1 => (hmain q h0 h1).1, fun q h0 h1 => (hmain q h0 h1).2, hm, fun x hx => ?_⟩
  obtain ⟨j, hj, a, b, e, c1, c2⟩ := hcdf x hx
  rw [Hist.ppf, interp_in (xp := d.c) (fun i hi => g.c_step hi) hj c1 c2, e]
  have e2 : d.c (j + 1) - d.c j = d.p j * (d.b (j + 1) - d.b j) := by
    rw [Hist.c, Hist.c, Finset.sum_range_succ]; simp [Hist.w]
  have h1 := hpp j hj
  have h2 := sub_pos.2 (g.bins j hj)
  rw [e2]
  field_simp
  ring

/-- C273 `rv_histogram`: every raw moment. -/
theorem C273_munp {content bins : List ℝ} (hg : GoodHist content bins) {d : Hist} (h : make content bins = .ok d) (n : ℕ) :
    HasMoment (Ioo (d.b 0) (d.b d.n)) d.pdf n (d.munp n) := by
  obtain ⟨g, -⟩ := good_of_make hg h
  have hle := g.le (Nat.zero_le d.n) le_rfl
  obtain ⟨u1, u2⟩ := upto g (k := fun t v => t ^ n * v) (fun v => by fun_prop) (le_refl d.n)
  refine ⟨(intervalIntegrable_iff_integrableOn_Ioo_of_le hle).1 u1, ?_⟩
  rw [← integral_Ioc_eq_integral_Ioo, ← intervalIntegral.integral_of_le hle, u2, Hist.munp]
  refine Finset.sum_congr rfl fun i _ => ?_
  rw [intervalIntegral.integral_mul_const, integral_pow, mul_comm]

/-- C273 `rv_histogram`: the entropy. -/
theorem C273_entropy {content bins : List ℝ} (hg : GoodHist content bins) {d : Hist} (h : make content bins = .ok d) :
    HasEntropy (Ioo (d.b 0) (d.b d.n)) d.pdf d.entropy := by
  obtain ⟨g, -⟩ := good_of_make hg h
  have hle := g.le (Nat.zero_le d.n) le_rfl
  obtain ⟨u1, u2⟩ := upto g (k := fun _ v => v * log v) (fun v => continuous_const) (le_refl d.n)
  refine ⟨(intervalIntegrable_iff_integrableOn_Ioo_of_le hle).1 u1, ?_⟩
  rw [← integral_Ioc_eq_integral_Ioo, ← intervalIntegral.integral_of_le hle, u2, Hist.entropy]
  congr 1
  refine Finset.sum_congr rfl fun i hi => ?_
  rw [intervalIntegral.integral_const, smul_eq_mul, Hist.w]
  split_ifs with hp
  · ring
  · have : d.p i = 0 := le_antisymm (not_lt.1 hp) (g.nonneg i (Finset.mem_range.1 hi))
    rw [this]
    ring

/-- C273 `rv_histogram`: the probability of a bin is its content times its width, relative to the sum of these.  The property of
a histogram, that the probability is the relative content, holds when all bins have the same width. -/
theorem C273_bins_partial {content bins : List ℝ} (hg : GoodHist content bins) {d : Hist} (h : make content bins = .ok d) (i : ℕ)
    (hi : i < content.length) :
    d.cdf (d.b (i + 1)) - d.cdf (d.b i) = content.getD i 0 * (bins.getD (i + 1) 0 - bins.getD i 0) /
        ∑ j ∈ Finset.range content.length, content.getD j 0 * (bins.getD (j + 1) 0 - bins.getD j 0) ∧
    ∀ w, (∀ j < content.length, bins.getD (j + 1) 0 - bins.getD j 0 = w) →
      d.cdf (d.b (i + 1)) - d.cdf (d.b i) = content.getD i 0 / content.sum := by
  obtain ⟨g, hn, hb, hp⟩ := good_of_make hg h
  have hcb : ∀ j ≤ d.n, d.cdf (d.b j) = d.c j := fun j hj => by
    rcases hj.lt_or_eq with hj | rfl
    · rw [cdf_in g hj le_rfl (g.bins j hj), sub_self, mul_zero, add_zero]
    · rw [cdf_top g, g.total]
  have e : d.cdf (d.b (i + 1)) - d.cdf (d.b i) = content.getD i 0 * (bins.getD (i + 1) 0 - bins.getD i 0) /
        ∑ j ∈ Finset.range content.length, content.getD j 0 * (bins.getD (j + 1) 0 - bins.getD j 0) := by
    rw [hcb _ (by omega), hcb _ (by omega), Hist.c, Hist.c, Finset.sum_range_succ, add_sub_cancel_left, hp, Hist.w, hb, hb]
    ring
  refine ⟨e, fun w hw => ?_⟩
  have hs : ∑ j ∈ Finset.range content.length, content.getD j 0 * (bins.getD (j + 1) 0 - bins.getD j 0) = content.sum * w := by
    rw [Finset.sum_congr rfl fun j hj => by rw [hw j (Finset.mem_range.1 hj)], ← Finset.sum_mul]
    congr 1
    rw [← Fin.sum_univ_getElem, Finset.sum_range]
    exact Finset.sum_congr rfl fun j _ => List.getD_eq_getElem _ _ j.2
  have hpos := sum_pos_of_good hg
  rw [hs] at hpos
  have hw0 : w ≠ 0 := by rintro rfl; simp at hpos
  rw [e, hs, hw i hi, mul_div_mul_right _ _ hw0]

/-- C273 `rv_histogram`: with bins of different width the probability is not the relative content.  One observation in `[0, 1]` and
one in `[1, 3]`, as `np.histogram` counts them: the first bin gets the probability one third. -/
theorem C273_bins_refuted : GoodHist [1, 1] [0, 1, 3] ∧ ∃ d, make [1, 1] [0, 1, 3] = .ok d ∧
    d.cdf 1 - d.cdf 0 = 1 / 3 ∧ ([1, 1] : List ℝ).getD 0 0 / ([1, 1] : List ℝ).sum = 1 / 2 := by
  have hg : GoodHist [1, 1] [0, 1, 3] := by
    refine ⟨rfl, fun i h => ?_, by simp, by simp⟩
    have : i = 0 ∨ i = 1 := by simp at h; omega
    rcases this with rfl | rfl <;> norm_num
  have hok : ∃ d, make [1, 1] [0, 1, 3] = .ok d := ⟨_, by rw [make, if_neg (by simp)]⟩
  obtain ⟨d, hd⟩ := hok
  refine ⟨hg, d, hd, ?_, by norm_num⟩
  have := (C273_bins_partial hg hd 0 (by simp)).1
  obtain ⟨-, -, hb, -⟩ := good_of_make hg hd
  rw [hb, hb] at this
  simp only [zero_add, List.getD_cons_succ, List.getD_cons_zero, List.length_cons, List.length_nil, Finset.sum_range_succ,
    Finset.sum_range_zero] at this
  rw [this]
  norm_num

/-- C273: boundaries and contents must fit together. -/
theorem C273_error (content bins : List ℝ) :
    (make content bins = .error .valueError ↔ content.length + 1 ≠ bins.length) ∧
    ((∃ d, make content bins = .ok d) ↔ content.length + 1 = bins.length) := by
  unfold make
  split_ifs with h
  · simp [h]
  · simp [not_not.1 h]

end Wafo.Dist
