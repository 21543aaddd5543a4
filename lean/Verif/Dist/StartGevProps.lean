import Verif.Dist.StartLemmas
import Mathlib.MeasureTheory.Integral.Gamma

/-!
# C280: start values of the generalized extreme value distribution
-/

set_option linter.unusedSectionVars false

namespace Wafo.Dist

open MeasureTheory Set Filter Topology Real Start

/-- The sum over all pairs of data of the larger value. -/
noncomputable def pairMax : List ℝ → ℝ
  | [] => 0
  | a :: l => (l.map fun b => max a b).sum + pairMax l

/-- The mean over all pairs of data of the larger value. -/
noncomputable def meanMax (l : List ℝ) : ℝ := pairMax l / ((l.length : ℝ) * ((l.length : ℝ) - 1) / 2)

/-- The sum over all pairs of data of the distance. -/
noncomputable def pairDist : List ℝ → ℝ
  | [] => 0
  | a :: l => (l.map fun b => |a - b|).sum + pairDist l

theorem pairMax_perm {l l' : List ℝ} (h : l.Perm l') : pairMax l = pairMax l' := by
  induction h with
  | nil => rfl
  | cons a h ih => rw [pairMax, pairMax, ih, (h.map _).sum_eq]
  | swap a b l =>
    simp only [pairMax, List.map_cons, List.sum_cons]
    rw [max_comm a b]
    ring
  | trans _ _ ih1 ih2 => exact ih1.trans ih2

theorem pairMax_dist (l : List ℝ) : 2 * pairMax l = ((l.length : ℝ) - 1) * l.sum + pairDist l := by
  induction l with
  | nil => simp [pairMax, pairDist]
  | cons a l ih =>
    have e : 2 * (l.map fun b => max a b).sum = l.length * a + l.sum + (l.map fun b => |a - b|).sum := by
      clear ih
      induction l with
      | nil => simp
      | cons b l ih =>
        simp only [List.map_cons, List.sum_cons, List.length_cons]
        have h1 : 2 * max a b = a + b + |a - b| := by
          rcases le_total a b with h | h
          · rw [max_eq_right h, abs_of_nonpos (sub_nonpos.2 h)]; ring
          · rw [max_eq_left h, abs_of_nonneg (sub_nonneg.2 h)]; ring
        push_cast
        linarith
    simp only [pairMax, pairDist, List.length_cons, List.sum_cons]
    push_cast
    linarith

theorem pairDist_nonneg (l : List ℝ) : 0 ≤ pairDist l := by
  induction l with
  | nil => exact le_rfl
  | cons a l ih =>
    refine add_nonneg (List.sum_nonneg ?_) ih
    intro x hx
    obtain ⟨y, _, rfl⟩ := List.mem_map.1 hx
    exact abs_nonneg _

theorem pairDist_pos {l : List ℝ} (h : ∃ x ∈ l, ∃ y ∈ l, x ≠ y) : 0 < pairDist l := by
  induction l with
  | nil => obtain ⟨x, hx, _⟩ := h; simp at hx
  | cons a l ih =>
    have hn : ∀ x ∈ l.map fun b => |a - b|, (0 : ℝ) ≤ x := by
      intro x hx
      obtain ⟨y, _, rfl⟩ := List.mem_map.1 hx
      exact abs_nonneg _
    rw [pairDist]
    by_cases hl : ∃ b ∈ l, b ≠ a
    · obtain ⟨b, hb, hba⟩ := hl
      have h1 : |a - b| ≤ (l.map fun b => |a - b|).sum :=
        List.single_le_sum hn _ (List.mem_map_of_mem (f := fun b => |a - b|) hb)
      have h2 : 0 < |a - b| := abs_pos.2 (sub_ne_zero.2 hba.symm)
      have := pairDist_nonneg l
      linarith
    · push Not at hl
      exfalso
      obtain ⟨x, hx, y, hy, hxy⟩ := h
      have : ∀ z ∈ a :: l, z = a := by
        intro z hz
        rcases List.mem_cons.1 hz with rfl | hz
        · rfl
        · exact hl z hz
      exact hxy ((this x hx).trans (this y hy).symm)

theorem pairMax_sorted {l : List ℝ} (h : l.Pairwise (· ≤ ·)) :
    ∑ i : Fin l.length, (i : ℝ) * l.get i = pairMax l := by
  induction l with
  | nil => simp [pairMax]
  | cons a l ih =>
    obtain ⟨h1, h2⟩ := List.pairwise_cons.1 h
    have e : (l.map fun b => max a b) = l := by
      conv_rhs => rw [← List.map_id l]
      exact List.map_congr_left fun b hb => max_eq_right (h1 b hb)
    rw [pairMax, e, ← ih h2]
    have hs : l.sum = ∑ i : Fin l.length, l.get i := by
      rw [← List.sum_ofFn, List.ofFn_get]
    refine (Fin.sum_univ_succ (n := l.length) _).trans ?_
    rw [hs, ← Finset.sum_add_distrib]
    simp only [Fin.val_zero, Nat.cast_zero, zero_mul, zero_add]
    refine Finset.sum_congr rfl fun i _ => ?_
    have h3 : (a :: l).get i.succ = l.get i := rfl
    rw [h3, Fin.val_succ]
    push_cast
    ring

theorem mean_perm {l l' : List ℝ} (h : l.Perm l') : mean l = mean l' := by
  rw [mean, mean, h.sum_eq, h.length_eq]

namespace GenExtreme

/-- The expectation of `X F(X)`, half of that of the larger of two draws. -/
theorem gev_pwm {c : ℝ} (hc : c ≠ 0) (h : -1 < c) :
    HasInt (supp c) (fun x => (x * cdf c x) * pdf c x)
      (1 / c * (1 / 2 - Gamma (c + 1) * 2 ^ (-(c + 1)))) := by
  have hC := C252_genextreme c
  have hk : Measurable fun x => x * cdf c x := by
    simp only [cdf, logcdf, loglogcdf, ne_eq, hc, not_false_eq_true, if_true, log1p]
    fun_prop
  rw [hasInt_ppf (gev_open c).1.measurableSet (gev_open c).2 hC.1 hC.2.1 hk]
  have hm : Measurable fun y => ofExp c y * exp (-y) := by unfold ofExp; fun_prop
  have h2 := hasInt_isf measurableSet_Ioi ordConnected_Ioi C251_expon.1 C251_expon.2.1
    C251_expon.2.2.2.1 hm (v := 1 / c * (1 / 2 - Gamma (c + 1) * 2 ^ (-(c + 1))))
  simp only [Expon.pdf] at h2
  have h3 : HasInt (Ioi 0) (fun y => ofExp c y * exp (-y) * exp (-y))
      (1 / c * (1 / 2 - Gamma (c + 1) * 2 ^ (-(c + 1)))) := by
    have hpow : ∀ {r : ℝ}, -1 < r → HasInt (Ioi 0) (fun y => y ^ r * exp (-2 * y))
        (Gamma (r + 1) * 2 ^ (-(r + 1))) := by
      intro r hr
      have hi := integrableOn_rpow_mul_exp_neg_mul_rpow hr one_pos (two_pos (α := ℝ))
      have hv := Real.integral_rpow_mul_exp_neg_mul_Ioi (a := r + 1) (r := 2) (by linarith) two_pos
      refine ⟨?_, ?_⟩
      · refine (integrableOn_congr_fun (fun y _ => ?_) measurableSet_Ioi).1 hi
        simp
      · rw [add_sub_cancel_right] at hv
        have e : ∀ y ∈ Ioi (0 : ℝ), y ^ r * exp (-2 * y) = y ^ r * exp (-(2 * y)) := fun y _ => by
          rw [neg_mul]
        rw [setIntegral_congr_fun measurableSet_Ioi e, hv, one_div, inv_rpow two_pos.le, ← rpow_neg two_pos.le]
        ring
    have a0 := hpow (r := 0) (by norm_num)
    have a1 := hpow h
    refine ((a0.add (a1.const_mul (-1))).const_mul (1 / c)).congr measurableSet_Ioi (fun y _ => ?_) ?_
    · rw [show -2 * y = -y + -y by ring, exp_add, rpow_zero, ofExp]
      ring
    · rw [zero_add, Gamma_one, one_mul, rpow_neg_one]
      ring
  refine (h2.1 h3).congr measurableSet_Ioo (fun q hq => ?_) rfl
  have hl : 0 < -log q := neg_pos.2 (log_neg hq.1 hq.2)
  rw [hC.2.1.cdf_ppf q hq.1 hq.2]
  have e1 : ppf c q = ofExp c (Expon.isf q) := by
    simp only [ppf, ne_eq, hc, not_false_eq_true, if_true, expm1, ofExp, Expon.isf]
    rw [rpow_def_of_pos hl, show -c * -log (-log q) = log (-log q) * c by ring]
    ring
  rw [e1, Expon.isf, neg_neg, exp_log hq.1]

end GenExtreme

/-- The start values of the generalized extreme value distribution fit the data: whenever the estimated
shape `c` is above `-1`, the scale is positive and the distribution with the values returned has the mean of
the data, and the expectation of the larger of two draws, `2 E(X F(X))`, is the mean of the larger
value over all pairs of data. -/
theorem C280_genextreme (data d : List ℝ) (c loc scale : ℝ)
    (h : Start.genextreme data = (d, some (c, loc, scale))) (hne : ∃ x ∈ data, ∃ y ∈ data, x ≠ y)
    (hc1 : -1 < c) :
    0 < scale ∧
    HasMoment (lsSet (GenExtreme.supp c) loc scale) (lsPdf (GenExtreme.pdf c) loc scale) 1 (mean data) ∧
    HasInt (lsSet (GenExtreme.supp c) loc scale)
      (fun x => 2 * x * GenExtreme.cdf c ((x - loc) / scale) * lsPdf (GenExtreme.pdf c) loc scale x)
      (meanMax data) := by
  have hperm : (data.mergeSort (· ≤ ·)).Perm data := List.mergeSort_perm data _
  have hsort : (data.mergeSort (· ≤ ·)).Pairwise (· ≤ ·) := List.pairwise_mergeSort' (· ≤ ·) data
  unfold Start.genextreme at h
  set e := data.mergeSort (· ≤ ·) with he
  simp only at h
  split_ifs at h with hcond
  · simp at h
  simp only [not_or, not_le] at hcond
  obtain ⟨hlen, hb, hsh⟩ := hcond
  simp only [Prod.mk.injEq, Option.some.injEq] at h
  obtain ⟨_, rfl', hloc, hscale⟩ := h
  rw [rfl'] at hloc hscale hsh
  have hlen' : e.length = data.length := hperm.length_eq
  set n : ℝ := (e.length : ℝ) with hn
  have hn2 : (2 : ℝ) < n := by rw [hn]; exact_mod_cast hlen
  have hdot : Start.dot (fun i => (i : ℝ) / (n - 1)) e = pairMax data / (n - 1) := by
    rw [Start.dot, ← pairMax_perm hperm, ← pairMax_sorted hsort, Finset.sum_div]
    exact Finset.sum_congr rfl fun i _ => by ring
  rw [hdot, mean_perm hperm] at hscale hloc
  have hG : exp (gammaln (1 + c)) = Gamma (1 + c) := gammaln_eq (by linarith)
  have hGp : 0 < Gamma (1 + c) := Gamma_pos_of_pos (by linarith)
  rw [hG] at hscale
  have hmm : meanMax data = 2 * (pairMax data / (n - 1) / n) := by
    have h1 : n - 1 ≠ 0 := by linarith
    have h2 : n ≠ 0 := by linarith
    rw [meanMax, ← hlen', ← hn]
    field_simp
  rw [← hmm] at hscale
  have hl2 : 0 < meanMax data - mean data := by
    have hd := pairDist_pos hne
    have hx := pairMax_dist data
    have h1 : 0 < n - 1 := by linarith
    have h2 : 0 < n := by linarith
    have : meanMax data - mean data = pairDist data / (n * (n - 1)) := by
      rw [hmm, mean, ← hlen', ← hn]
      rw [← hlen', ← hn] at hx
      field_simp
      linarith
    rw [this]
    positivity
  have h2c : 0 < c / (1 - 2 ^ (-c)) := by
    rcases lt_or_gt_of_ne hsh with h0 | h0
    · have : (1 : ℝ) < 2 ^ (-c) := one_lt_rpow one_lt_two (by linarith)
      exact div_pos_of_neg_of_neg h0 (by linarith)
    · have : (2 : ℝ) ^ (-c) < 1 := rpow_lt_one_of_one_lt_of_neg one_lt_two (by linarith)
      exact div_pos h0 (by linarith)
  have h2ne : (1 : ℝ) - 2 ^ (-c) ≠ 0 := fun h0 => by rw [h0, div_zero] at h2c; exact lt_irrefl _ h2c
  have hsc : 0 < scale := by
    rw [← hscale, show (meanMax data - mean data) * c / (Gamma (1 + c) * (1 - 2 ^ (-c))) =
      (meanMax data - mean data) / Gamma (1 + c) * (c / (1 - 2 ^ (-c))) by field_simp]
    positivity
  have hI := (gev_open c).1.measurableSet
  have hm0 := GenExtreme.gev_moment hsh (n := 0) (by simp)
  have hm1 := GenExtreme.gev_moment hsh (n := 1) (by simpa using hc1)
  have v0 : (1 / c ^ 0 * ∑ k ∈ Finset.range (0 + 1), (Nat.choose 0 k : ℝ) * (-1) ^ k * Gamma (c * k + 1)) = 1 := by
    simp
  have v1 : (1 / c ^ 1 * ∑ k ∈ Finset.range (1 + 1), (Nat.choose 1 k : ℝ) * (-1) ^ k * Gamma (c * k + 1)) =
      (1 - Gamma (1 + c)) / c := by
    rw [Finset.sum_range_succ, Finset.sum_range_one]
    simp
    rw [add_comm c 1]
    ring
  rw [v0] at hm0
  rw [v1] at hm1
  have hlv : mean data = loc + scale * ((1 - Gamma (1 + c)) / c) := by
    rw [← hloc, expm1, hG, ← hmm, hscale]
    ring
  refine ⟨hsc, ?_, ?_⟩
  · rw [hlv]
    exact ls_mean hI hsc hm0 hm1
  · -- the probability weighted moment of the distribution function alone
    have hpw := GenExtreme.gev_pwm hsh hc1
    have hF : HasInt (GenExtreme.supp c) (fun x => GenExtreme.cdf c x * GenExtreme.pdf c x) (1 / 2) := by
      have hk : Measurable fun x => GenExtreme.cdf c x := by
        simp only [GenExtreme.cdf, GenExtreme.logcdf, GenExtreme.loglogcdf, ne_eq, hsh, not_false_eq_true,
          if_true, log1p]
        fun_prop
      rw [hasInt_ppf hI (gev_open c).2 (C252_genextreme c).1 (C252_genextreme c).2.1 hk]
      have hq : HasInt (Ioo 0 1) (fun q : ℝ => q) (1 / 2) := by
        refine ⟨(continuous_id.integrableOn_Icc (a := 0) (b := 1)).mono_set Ioo_subset_Icc_self, ?_⟩
        rw [← integral_Ioc_eq_integral_Ioo, ← intervalIntegral.integral_of_le zero_le_one, integral_id]
        norm_num
      exact hq.congr measurableSet_Ioo (fun q hq => ((C252_genextreme c).2.1.cdf_ppf q hq.1 hq.2)) rfl
    refine (hasInt_ls hI hsc (k := fun x => 2 * x * GenExtreme.cdf c ((x - loc) / scale))).2 ?_
    refine ((hF.const_mul (2 * loc)).add (hpw.const_mul (2 * scale))).congr hI (fun y _ => ?_) ?_
    · rw [add_sub_cancel_left, mul_div_cancel_left₀ _ hsc.ne']
      ring
    · have hdiff : meanMax data - mean data = scale * (Gamma (1 + c) * (1 - 2 ^ (-c)) / c) := by
        rw [← hscale]
        field_simp
      have h2p : (2 : ℝ) ^ (-(c + 1)) = 2 ^ (-c) / 2 := by
        rw [neg_add, rpow_add two_pos, rpow_neg_one]
        ring
      rw [h2p, add_comm c 1]
      have : meanMax data = mean data + scale * (Gamma (1 + c) * (1 - 2 ^ (-c)) / c) := by linarith
      rw [this, hlv]
      field_simp
      ring

/-- The function sorts the array of its caller. -/
theorem C280_sorts_refuted :
    (∀ data, (Start.genextreme data).1.Perm data ∧ (Start.genextreme data).1.Pairwise (· ≤ ·)) ∧
    ∃ data, (Start.genextreme data).1 ≠ data := by
  have h1 : ∀ data, (Start.genextreme data).1 = data.mergeSort (· ≤ ·) := by
    intro data
    unfold Start.genextreme
    simp only
    split_ifs <;> rfl
  refine ⟨fun data => ?_, [2, 1], ?_⟩
  · rw [h1]
    exact ⟨List.mergeSort_perm data _, List.pairwise_mergeSort' (· ≤ ·) data⟩
  · intro h
    have h2 : (Start.genextreme [2, 1]).1.Pairwise (· ≤ ·) := by
      rw [h1]
      exact List.pairwise_mergeSort' (· ≤ ·) _
    rw [h] at h2
    norm_num at h2

/-- The data `1, 2, 3` lead to a positive shape. -/
example : ∃ d c loc scale, Start.genextreme [1, 2, 3] = (d, some (c, loc, scale)) ∧
    (∃ x ∈ ([1, 2, 3] : List ℝ), ∃ y ∈ ([1, 2, 3] : List ℝ), x ≠ y) ∧ -1 < c := by
  have hs : ([1, 2, 3] : List ℝ).mergeSort (· ≤ ·) = [1, 2, 3] := by
    refine List.mergeSort_of_pairwise ?_
    norm_num
  have h3 : 0 < log 3 := log_pos (by norm_num)
  have hl : log 2 / log 3 < 2 / 3 := by
    rw [div_lt_div_iff₀ h3 (by norm_num)]
    have h1 : log ((2 : ℝ) ^ 3) < log ((3 : ℝ) ^ 2) := log_lt_log (by norm_num) (by norm_num)
    rw [log_pow, log_pow] at h1
    push_cast at h1
    linarith
  have hd : Start.dot (fun i => (i : ℝ) / (3 - 1)) [1, 2, 3] = 4 := by
    simp [Start.dot, Fin.sum_univ_succ]
    norm_num
  have hd2 : Start.dot (fun i => (i : ℝ) / (3 - 1) * ((i : ℝ) - 1) / (3 - 2)) [1, 2, 3] = 3 := by
    simp [Start.dot, Fin.sum_univ_succ]
    norm_num
  have hm : mean [1, 2, 3] = 2 := by
    simp [mean]
    norm_num
  have hz : 0 < 7.8590 * (((2 : ℝ) * (4 / 3) - 2) / (3 * (3 / 3) - 2) - log 2 / log 3) +
      2.9554 * (((2 : ℝ) * (4 / 3) - 2) / (3 * (3 / 3) - 2) - log 2 / log 3) ^ 2 := by
    have : 0 < ((2 : ℝ) * (4 / 3) - 2) / (3 * (3 / 3) - 2) - log 2 / log 3 := by
      norm_num
      linarith
    positivity
  unfold Start.genextreme
  simp only [hs, List.length_cons, List.length_nil, zero_add, Nat.reduceAdd, Nat.cast_ofNat, hd, hd2, hm]
  rw [if_neg (by simp only [not_or]; exact ⟨by norm_num, by norm_num, hz.ne'⟩)]
  exact ⟨_, _, _, _, rfl, ⟨1, by simp, 2, by simp, by norm_num⟩, by linarith⟩

end Wafo.Dist
