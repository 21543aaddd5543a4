import Verif.Dist.GevModel
import Verif.Dist.LogProps
import Verif.Dist.MomPowProps
import Mathlib.Analysis.Real.Pi.Bounds

/-!
# C275: moments of the generalized extreme value distribution
-/

set_option linter.unusedSectionVars false

namespace Wafo.Dist

open MeasureTheory Set Filter Topology Real

namespace GenExtreme

/-- The variable as a function of an exponential one. -/
noncomputable def ofExp (c y : ℝ) : ℝ := (1 - y ^ c) / c

/-- Expected values are integrals over an exponential variable. -/
theorem hasInt_gev {c : ℝ} (hc : c ≠ 0) {k : ℝ → ℝ} (hk : Measurable k) {v : ℝ} :
    HasInt (supp c) (fun x => k x * pdf c x) v ↔
      HasInt (Ioi 0) (fun y => k (ofExp c y) * exp (-y)) v := by
  have hC := C252_genextreme c
  have hm : Measurable fun y => k (ofExp c y) := by unfold ofExp; fun_prop
  rw [hasInt_ppf (gev_open c).1.measurableSet (gev_open c).2 hC.1 hC.2.1 hk]
  have h2 := hasInt_isf measurableSet_Ioi ordConnected_Ioi C251_expon.1 C251_expon.2.1
    C251_expon.2.2.2.1 hm (v := v)
  simp only [Expon.pdf] at h2
  rw [h2]
  have e : ∀ q ∈ Ioo (0 : ℝ) 1, k (ppf c q) = k (ofExp c (Expon.isf q)) := by
    intro q hq
    have hl : 0 < -log q := neg_pos.2 (log_neg hq.1 hq.2)
    congr 1
    simp only [ppf, ne_eq, hc, not_false_eq_true, if_true, expm1, ofExp, Expon.isf]
    rw [rpow_def_of_pos hl, show -c * -log (-log q) = log (-log q) * c by ring]
    ring
  exact ⟨fun h => h.congr measurableSet_Ioo (fun q hq => (e q hq).symm) rfl,
    fun h => h.congr measurableSet_Ioo e rfl⟩

theorem hasInt_pow {r : ℝ} (h : -1 < r) : HasInt (Ioi 0) (fun y => y ^ r * exp (-y)) (Gamma (r + 1)) := by
  have hb : 0 < r + 1 := by linarith
  have e : ∀ y ∈ Ioi (0 : ℝ), y ^ r * exp (-y) = exp (-y) * y ^ (r + 1 - 1) := by
    intro y _
    rw [add_sub_cancel_right, mul_comm]
  exact ⟨(integrableOn_congr_fun e measurableSet_Ioi).2 (GammaIntegral_convergent hb), by
    rw [Gamma_eq_integral hb, setIntegral_congr_fun measurableSet_Ioi e]⟩

theorem hasInt_sum {I : Set ℝ} {n : ℕ} {f : ℕ → ℝ → ℝ} {v : ℕ → ℝ}
    (h : ∀ k < n, HasInt I (f k) (v k)) :
    HasInt I (fun x => ∑ k ∈ Finset.range n, f k x) (∑ k ∈ Finset.range n, v k) := by
  refine ⟨integrable_finsetSum _ fun k hk => (h k (Finset.mem_range.1 hk)).1, ?_⟩
  rw [integral_finsetSum _ fun k hk => (h k (Finset.mem_range.1 hk)).1]
  exact Finset.sum_congr rfl fun k hk => (h k (Finset.mem_range.1 hk)).2

theorem gev_moment {c : ℝ} (hc : c ≠ 0) {n : ℕ} (h : -1 < c * n) :
    HasMoment (supp c) (pdf c) n
      (1 / c ^ n * ∑ k ∈ Finset.range (n + 1), (n.choose k : ℝ) * (-1) ^ k * Gamma (c * k + 1)) := by
  refine (hasInt_gev hc (k := fun x => x ^ n) (by fun_prop)).2 ?_
  have hk : ∀ k < n + 1, -1 < c * k := by
    intro k hk
    have hkn : (k : ℝ) ≤ n := by exact_mod_cast Nat.lt_succ_iff.1 hk
    have h0 : (0 : ℝ) ≤ k := Nat.cast_nonneg k
    rcases le_or_gt 0 c with hp | hp
    · have := mul_nonneg hp h0
      linarith
    · nlinarith
  have hs := hasInt_sum (n := n + 1)
    (f := fun k y => ((n.choose k : ℝ) * (-1) ^ k) * (y ^ (c * k) * exp (-y)))
    fun k hk' => (hasInt_pow (hk k hk')).const_mul ((n.choose k : ℝ) * (-1) ^ k)
  refine (hs.const_mul (1 / c ^ n)).congr measurableSet_Ioi ?_ rfl
  intro y hy
  have hy : 0 < y := hy
  have e : (1 - y ^ c) ^ n = ∑ k ∈ Finset.range (n + 1), (n.choose k : ℝ) * (-1) ^ k * y ^ (c * k) := by
    rw [show 1 - y ^ c = -y ^ c + 1 by ring, add_pow]
    refine Finset.sum_congr rfl fun k _ => ?_
    rw [one_pow, mul_one, neg_pow, rpow_mul hy.le, rpow_natCast]
    ring
  show ofExp c y ^ n * exp (-y) = _
  rw [ofExp, div_pow, e, div_eq_mul_one_div, mul_comm (∑ k ∈ _, _) (1 / c ^ n), mul_assoc,
    Finset.sum_mul]
  congr 1
  exact Finset.sum_congr rfl fun k _ => by ring

theorem gev_noMoment {c : ℝ} (hc : c < 0) {n : ℕ} (h : c * n ≤ -1) : NoMoment (supp c) (pdf c) n := by
  intro hi
  have h1 := ((hasInt_gev hc.ne (k := fun x => x ^ n) (by fun_prop)).1 ⟨hi, rfl⟩).1
  set d : ℝ := (2 : ℝ) ^ (1 / c) with hd
  have d0 : 0 < d := rpow_pos_of_pos two_pos _
  have d1 : d < 1 := rpow_lt_one_of_one_lt_of_neg one_lt_two (one_div_neg.2 hc)
  have h2 : IntegrableOn (fun y : ℝ => ofExp c y ^ n * exp (-y)) (Ioo 0 d) :=
    h1.mono_set Ioo_subset_Ioi_self
  have h3 : IntegrableOn (fun y : ℝ => y ^ (c * n)) (Ioo 0 d) := by
    refine Integrable.mono' (h2.const_mul ((2 * -c) ^ n * exp 1)) ?_ ?_
    · refine ContinuousOn.aestronglyMeasurable (fun x hx => ?_) measurableSet_Ioo
      exact (continuousAt_rpow_const x _ (Or.inl hx.1.ne')).continuousWithinAt
    · refine (ae_restrict_iff' measurableSet_Ioo).2 (Eventually.of_forall fun y hy => ?_)
      have hy0 := hy.1
      have hyc : 2 ≤ y ^ c := by
        have := rpow_le_rpow_of_nonpos hy0 hy.2.le hc.le
        rw [hd, ← rpow_mul two_pos.le, one_div, inv_mul_cancel₀ hc.ne, rpow_one] at this
        exact this
      rw [norm_of_nonneg (rpow_nonneg hy0.le _), rpow_mul hy0.le, rpow_natCast]
      have hb : y ^ c ≤ 2 * -c * ofExp c y := by
        have : 2 * -c * ofExp c y = 2 * (y ^ c - 1) := by
          have hc' := hc.ne
          rw [ofExp, mul_assoc, neg_mul, mul_div_cancel₀ _ hc']
          ring
        rw [this]
        linarith
      have hex : 1 ≤ exp 1 * exp (-y) := by
        rw [← exp_add]
        exact one_le_exp (by linarith [hy.2])
      calc (y ^ c) ^ n ≤ (2 * -c * ofExp c y) ^ n := pow_le_pow_left₀ (by linarith) hb n
        _ ≤ (2 * -c * ofExp c y) ^ n * (exp 1 * exp (-y)) :=
          le_mul_of_one_le_right (pow_nonneg (by linarith) n) hex
        _ = (2 * -c) ^ n * exp 1 * (ofExp c y ^ n * exp (-y)) := by rw [mul_pow]; ring
  rw [intervalIntegral.integrableOn_Ioo_rpow_iff d0] at h3
  linarith

theorem supp_zero : supp 0 = univ := by ext x; simp [supp]

theorem pdf_zero : pdf 0 = GumbelR.pdf := by
  funext x
  simp only [pdf, logpdf, loglogcdf, GumbelR.pdf, GumbelR.logpdf, log1p, ne_eq, not_true_eq_false,
    if_false, neg_zero, add_zero, log_one, sub_zero]
  congr 1
  ring

theorem gumbel_stats : HasStats (supp 0) (pdf 0) GumbelR.stats := by
  rw [supp_zero, pdf_zero]
  exact C267_gumbel_r_stats

theorem moment0 (c : ℝ) : HasMoment (supp c) (pdf c) 0 1 := by
  have h := (C252_genextreme c).1
  exact ⟨by simpa using h.integrable, by simpa using h.total⟩

section raw
variable {c : ℝ}

theorem m1 (hc : c ≠ 0) (h : -1 < c) : HasMoment (supp c) (pdf c) 1 ((1 - g c 1) / c) := by
  have := gev_moment hc (n := 1) (by simpa using h)
  refine HasInt.congr (gev_open c).1.measurableSet this (fun _ _ => rfl) ?_
  simp [Finset.sum_range_succ, g]
  ring

theorem m2 (hc : c ≠ 0) (h : -1 / 2 < c) :
    HasMoment (supp c) (pdf c) 2 ((1 - 2 * g c 1 + g c 2) / c ^ 2) := by
  have := gev_moment hc (n := 2) (by push_cast; linarith)
  refine HasInt.congr (gev_open c).1.measurableSet this (fun _ _ => rfl) ?_
  simp [Finset.sum_range_succ, g, mul_comm c]
  ring

theorem m3 (hc : c ≠ 0) (h : -1 / 3 < c) :
    HasMoment (supp c) (pdf c) 3 ((1 - 3 * g c 1 + 3 * g c 2 - g c 3) / c ^ 3) := by
  have := gev_moment hc (n := 3) (by push_cast; linarith)
  refine HasInt.congr (gev_open c).1.measurableSet this (fun _ _ => rfl) ?_
  simp [Finset.sum_range_succ, g, mul_comm c, Nat.choose]
  ring

theorem m4 (hc : c ≠ 0) (h : -1 / 4 < c) :
    HasMoment (supp c) (pdf c) 4 ((1 - 4 * g c 1 + 6 * g c 2 - 4 * g c 3 + g c 4) / c ^ 4) := by
  have := gev_moment hc (n := 4) (by push_cast; linarith)
  refine HasInt.congr (gev_open c).1.measurableSet this (fun _ _ => rfl) ?_
  simp [Finset.sum_range_succ, g, mul_comm c, Nat.choose]
  ring

theorem pdf_nn (x : ℝ) (_ : x ∈ supp c) : 0 ≤ pdf c x := (exp_pos _).le

theorem g_pos {n : ℕ} (h : -1 < n * c) : 0 < g c n := Gamma_pos_of_pos (by linarith)

theorem var_raw (hc : c ≠ 0) (h : -1 / 2 < c) :
    HasVar (supp c) (pdf c) ((g c 2 - g c 1 ^ 2) / c ^ 2) :=
  hasVar_of_raw (gev_open c).1.measurableSet pdf_nn (moment0 c) (m1 hc (by linarith)) (m2 hc h)
    (by field_simp; ring)

end raw

end GenExtreme

open GenExtreme

/-- C275 genextreme: raw moments, for a shape parameter which is not zero. -/
theorem C275_genextreme_munp_partial (n : ℕ) (c : ℝ) (hc : c ≠ 0) :
    Reports (HasMoment (supp c) (GenExtreme.pdf c) n) (NoMoment (supp c) (GenExtreme.pdf c) n)
      (GenExtreme.munp n c) := by
  rw [GenExtreme.munp, if_neg (fun h => hc h.1)]
  split_ifs with h
  · have := gev_moment hc (n := n) h
    norm_num [Reports]
    simpa using this
  · have h' : c * n ≤ -1 := not_lt.1 h
    refine gev_noMoment ?_ h'
    have hn : (0 : ℝ) ≤ n := Nat.cast_nonneg n
    by_contra hneg
    have := mul_nonneg (not_lt.1 hneg) hn
    linarith

/-- C275: for the shape parameter zero nan is reported for moments which exist. -/
theorem C275_genextreme_munp_refuted : GenExtreme.munp 1 0 = .nan ∧
    HasMoment (supp 0) (GenExtreme.pdf 0) 1 eulerMascheroniConstant :=
  ⟨by rw [GenExtreme.munp, if_pos ⟨rfl, one_ne_zero⟩], gumbel_stats.mean⟩

/-- C275 genextreme: mean, variance, skewness and excess kurtosis are exact, infinite or undefined
when they do not exist, for the shape parameter zero and beyond the distance from zero at which the
code stops to use the values at zero. -/
theorem C275_genextreme_stats_partial (c : ℝ) :
    (c = 0 ∨ 1e-14 ≤ |c| →
      Reports (HasMoment (supp c) (GenExtreme.pdf c) 1) (NoMoment (supp c) (GenExtreme.pdf c) 1)
        (GenExtreme.stats c).1) ∧
    (c = 0 ∨ 1e-7 ≤ |c| →
      Reports (HasVar (supp c) (GenExtreme.pdf c)) (NoMoment (supp c) (GenExtreme.pdf c) 2)
        (GenExtreme.stats c).2.1) ∧
    (c = 0 ∨ (1e-14 : ℝ) ^ (0.29 : ℝ) < |c| →
      Reports (HasSkew (supp c) (GenExtreme.pdf c)) (NoMoment (supp c) (GenExtreme.pdf c) 3)
        (GenExtreme.stats c).2.2.1) ∧
    (c = 0 ∨ (1e-14 : ℝ) ^ (0.23 : ℝ) < |c| →
      Reports (HasKurt (supp c) (GenExtreme.pdf c)) (NoMoment (supp c) (GenExtreme.pdf c) 4)
        (GenExtreme.stats c).2.2.2) := by
  have hge : ∀ r : ℝ, 0 ≤ r → r ≤ 1 / 2 → (1e-7 : ℝ) ≤ (1e-14 : ℝ) ^ r := by
    intro r h0 hr
    have e : (1e-14 : ℝ) ^ (1 / 2 : ℝ) = 1e-7 := by
      rw [← sqrt_eq_rpow, show (1e-14 : ℝ) = (1e-7) ^ 2 by norm_num, sqrt_sq (by norm_num)]
    rw [← e]
    exact rpow_le_rpow_of_exponent_ge (by norm_num) (by norm_num) hr
  have hzero : ∀ r : ℝ, |(0 : ℝ)| ≤ (1e-14 : ℝ) ^ r := fun r => by
    rw [abs_zero]
    exact rpow_nonneg (by norm_num) r
  have hne : ∀ {e : ℝ}, 0 < e → e ≤ |c| → c ≠ 0 := fun he h h0 => by
    rw [h0, abs_zero] at h
    linarith
  have hG := gumbel_stats
  refine ⟨?_, ?_, ?_, ?_⟩
  · rintro (rfl | h)
    · have : (GenExtreme.stats 0).1 = .fin euler := by
        show GenExtreme.mean 0 = _
        rw [GenExtreme.mean, if_neg (by norm_num), mgamk, if_pos (by norm_num)]
      rw [this]
      exact hG.mean
    · have hc := hne (by norm_num) h
      show Reports _ _ (GenExtreme.mean c)
      rw [GenExtreme.mean, mgamk, if_neg (not_lt.2 h)]
      split_ifs with h1 h2
      · exact gev_noMoment (by linarith) (by norm_num at h1 ⊢; linarith)
      · exact gev_noMoment (by linarith) (by norm_num; linarith)
      · have hlt : -1 < c := lt_of_le_of_ne (by norm_num at h1; linarith) fun e => h2 (by linarith)
        have := GenExtreme.m1 hc hlt
        show HasMoment _ _ _ _
        rw [expm1, gammaln_eq (by linarith)]
        refine HasInt.congr (gev_open c).1.measurableSet this (fun _ _ => rfl) ?_
        simp only [g, Nat.cast_one, one_mul]
        ring
  · rintro (rfl | h)
    · have : (GenExtreme.stats 0).2.1 = .fin (π * π / 6) := by
        show GenExtreme.var 0 = _
        rw [GenExtreme.var, if_neg (by norm_num), gam2k, if_pos (by norm_num)]
        simp only [g, mul_zero, zero_add, Gamma_one, one_rpow, one_mul]
        norm_num
        ring
      rw [this]
      exact hG.var
    · have hc := hne (by norm_num) h
      show Reports _ _ (GenExtreme.var c)
      rw [GenExtreme.var, gam2k, if_neg (not_lt.2 h)]
      split_ifs with h1 h2
      · exact gev_noMoment (by norm_num at h1; linarith) (by norm_num at h1 ⊢; linarith)
      · exact gev_noMoment (by norm_num at h2; linarith) (by norm_num at h2 ⊢; linarith)
      · norm_num at h1 h2
        have hlt : -1 / 2 < c := lt_of_le_of_ne (by linarith) fun e => h2 (by linarith)
        have hv := var_raw hc hlt
        have g1 : 0 < g c 1 := g_pos (by push_cast; linarith)
        show HasVar _ _ _
        have e1 : exp (gammaln (2.0 * c + 1.0)) = g c 2 := by
          rw [gammaln_eq (by norm_num; linarith), g]; norm_num
        have e2 : exp (gammaln (c + 1.0)) = g c 1 := by
          rw [gammaln_eq (by norm_num; linarith), g]; norm_num
        rw [expm1, exp_sub, e1, two_mul, exp_add, e2]
        convert hv using 1
        rw [rpow_two, rpow_two]
        field_simp
  · rintro (rfl | h)
    · have : (GenExtreme.stats 0).2.2.1 = .fin (12 * √6 / π ^ 3 * hzeta 3 1) := by
        show GenExtreme.skew 0 = _
        rw [GenExtreme.skew, if_pos (hzero _), skZero]
        congr 1
        ring
      rw [this]
      exact hG.skew
    · have h7 : 1e-7 ≤ |c| := (hge _ (by norm_num) (by norm_num)).trans h.le
      have hc := hne (by norm_num) h7
      show Reports _ _ (GenExtreme.skew c)
      rw [GenExtreme.skew, if_neg (not_le.2 h), sk1, g2mg12, if_neg (not_lt.2 h7)]
      split_ifs with h1 h2
      · exact gev_noMoment (by linarith) (by push_cast; linarith)
      · have hlt : -1 / 3 < c := lt_of_le_of_ne h1 fun e => h2 (by linarith)
        refine hasSkew_of_raw (gev_open c).1.measurableSet pdf_nn (moment0 c)
          (GenExtreme.m1 hc (by linarith)) (GenExtreme.m2 hc (by linarith)) (GenExtreme.m3 hc hlt)
          (v := (g c 2 - g c 1 ^ 2) / c ^ 2) (by field_simp; ring) ?_
        intro hv
        have hd : 0 < g c 2 - g c 1 ^ 2 := by
          have := mul_pos hv (by positivity : 0 < c ^ 2)
          rwa [div_mul_cancel₀ _ (by positivity)] at this
        rw [onehalf_eq, rpow_two]
        have hcp : 0 < |c| := abs_pos.2 hc
        have e3 : (c ^ 2) ^ (3 / 2 : ℝ) = |c| ^ 3 := by
          rw [← sq_abs, ← rpow_natCast, ← rpow_mul hcp.le, ← rpow_natCast]
          norm_num
        have hsg : (SignType.sign c : ℝ) = c / |c| := by
          rcases hc.lt_or_gt with h | h
          · rw [sign_neg h, abs_of_neg h]; field_simp; simp
          · rw [sign_pos h, abs_of_pos h, div_self h.ne']; simp
        rw [div_rpow hd.le (by positivity), e3, hsg]
        have hdp : 0 < (g c 2 - g c 1 ^ 2) ^ (3 / 2 : ℝ) := rpow_pos_of_pos hd _
        have e4 : |c| ^ 4 = c ^ 4 := by
          rw [show |c| ^ 4 = (|c| ^ 2) ^ 2 by ring, sq_abs]; ring
        generalize (g c 2 - g c 1 ^ 2) ^ (3 / 2 : ℝ) = D at hdp
        have : c / |c| * (-g c 3 + (g c 2 + 2 * (g c 2 - g c 1 ^ 2)) * g c 1) / D * (D / |c| ^ 3) =
            c * (-g c 3 + (g c 2 + 2 * (g c 2 - g c 1 ^ 2)) * g c 1) / |c| ^ 4 := by
          field_simp
        rw [this, e4]
        field_simp
        ring
      · exact gev_noMoment (by linarith) (by push_cast; linarith)
  · rintro (rfl | h)
    · have : (GenExtreme.stats 0).2.2.2 = .fin (12 / 5) := by
        show GenExtreme.kurt 0 = _
        rw [GenExtreme.kurt, if_pos (hzero _)]
        norm_num
      rw [this]
      exact hG.kurt
    · have h7 : 1e-7 ≤ |c| := (hge _ (by norm_num) (by norm_num)).trans h.le
      have hc := hne (by norm_num) h7
      show Reports _ _ (GenExtreme.kurt c)
      rw [GenExtreme.kurt, if_neg (not_le.2 h), g2mg12, if_neg (not_lt.2 h7)]
      split_ifs with h1 h2
      · exact gev_noMoment (by linarith) (by push_cast; linarith)
      · have hlt : -1 / 4 < c := lt_of_le_of_ne h1 fun e => h2 (by linarith)
        refine hasKurt_of_raw (gev_open c).1.measurableSet pdf_nn (moment0 c)
          (GenExtreme.m1 hc (by linarith)) (GenExtreme.m2 hc (by linarith))
          (GenExtreme.m3 hc (by linarith)) (GenExtreme.m4 hc hlt)
          (v := (g c 2 - g c 1 ^ 2) / c ^ 2) (by field_simp; ring) ?_
        intro hv
        have hd : 0 < g c 2 - g c 1 ^ 2 := by
          have := mul_pos hv (by positivity : 0 < c ^ 2)
          rwa [div_mul_cancel₀ _ (by positivity)] at this
        rw [rpow_two, show (3.0 : ℝ) = 3 by norm_num, sub_add_cancel, div_pow]
        have : ∀ A D : ℝ, D ≠ 0 → A / D ^ 2 * (D ^ 2 / (c ^ 2) ^ 2) = A / c ^ 4 := by
          intro A D hD
          field_simp
        rw [this _ _ hd.ne']
        field_simp
        ring
      · exact gev_noMoment (by linarith) (by push_cast; linarith)

namespace GenExtreme

theorem exp_taylor (z : ℝ) : |exp z - 1 - z| ≤ z ^ 2 * exp |z| := by
  have h1 := add_one_le_exp z
  have h2 := add_one_le_exp (-z)
  have h3 := exp_pos z
  have e : exp (-z) * exp z = 1 := by rw [← exp_add]; simp
  have h4 : exp z - 1 ≤ z * exp z := by nlinarith
  rw [abs_of_nonneg (by linarith)]
  rcases le_total 0 z with hz | hz
  · rw [abs_of_nonneg hz]
    nlinarith
  · rw [abs_of_nonpos hz]
    have h5 : 1 ≤ exp (-z) := one_le_exp (by linarith)
    have h6 : exp z ≤ 1 := exp_le_one_iff.2 hz
    nlinarith [sq_nonneg z]

theorem sq_le_exp (u : ℝ) : u ^ 2 ≤ 32 * exp (|u| / 4) := by
  have h := quadratic_le_exp_of_nonneg (x := |u| / 4) (by positivity)
  have := sq_abs u
  have := abs_nonneg u
  nlinarith

theorem ofExp_close {c y : ℝ} (hc : c ≠ 0) (h : |c| ≤ 1 / 4) (hy : 0 < y) :
    |ofExp c y + log y| ≤ 32 * |c| * (y ^ (1 / 2 : ℝ) + y ^ (-1 / 2 : ℝ)) := by
  set u := log y with hu
  have e : ofExp c y + u = -(exp (c * u) - 1 - c * u) / c := by
    rw [ofExp, rpow_def_of_pos hy, ← hu, mul_comm u c]
    field_simp
    ring
  have hcp : 0 < |c| := abs_pos.2 hc
  have h1 := exp_taylor (c * u)
  have h2 := sq_le_exp u
  have h3 : exp |c * u| ≤ exp (|u| / 4) := by
    rw [exp_le_exp, abs_mul]
    have := abs_nonneg u
    nlinarith
  have h4 : exp (|u| / 4) * exp (|u| / 4) ≤ y ^ (1 / 2 : ℝ) + y ^ (-1 / 2 : ℝ) := by
    rw [← exp_add, rpow_def_of_pos hy, rpow_def_of_pos hy, ← hu]
    rcases le_total 0 u with hz | hz
    · rw [abs_of_nonneg hz, show u / 4 + u / 4 = u * (1 / 2) by ring]
      linarith [exp_pos (u * (-1 / 2))]
    · rw [abs_of_nonpos hz, show -u / 4 + -u / 4 = u * (-1 / 2) by ring]
      linarith [exp_pos (u * (1 / 2))]
  rw [e, abs_div, abs_neg, div_le_iff₀ hcp]
  calc |exp (c * u) - 1 - c * u| ≤ (c * u) ^ 2 * exp |c * u| := h1
    _ ≤ (c * u) ^ 2 * exp (|u| / 4) := mul_le_mul_of_nonneg_left h3 (sq_nonneg _)
    _ = |c| ^ 2 * (u ^ 2 * exp (|u| / 4)) := by rw [sq_abs]; ring
    _ ≤ |c| ^ 2 * (32 * exp (|u| / 4) * exp (|u| / 4)) := by gcongr
    _ ≤ |c| ^ 2 * (32 * (y ^ (1 / 2 : ℝ) + y ^ (-1 / 2 : ℝ))) := by
        refine mul_le_mul_of_nonneg_left ?_ (sq_nonneg _)
        linarith
    _ = _ := by ring

theorem hasInt_log : HasInt (Ioi 0) (fun y => log y * exp (-y)) (-euler) := by
  have h := gamma_expect one_pos 0 1 0
  refine HasInt.congr measurableSet_Ioi h ?_ (by rw [psi_one]; ring)
  intro x _
  rw [sub_self, rpow_zero, Gamma_one]
  ring

/-- The mean as a function of the shape parameter is Lipschitz at zero. -/
theorem mean_lipschitz {c : ℝ} (hc : c ≠ 0) (h : |c| ≤ 1 / 4) {m : ℝ}
    (hm : HasMoment (supp c) (pdf c) 1 m) : |m - euler| ≤ 96 * |c| := by
  have h1 := (hasInt_gev hc (k := fun x => x ^ 1) (by fun_prop)).1 hm
  have h2 := h1.add hasInt_log
  have h3 := ((hasInt_pow (r := 1 / 2) (by norm_num)).add
    (hasInt_pow (r := -1 / 2) (by norm_num))).const_mul (32 * |c|)
  have h4 : ‖∫ y in Ioi (0 : ℝ), (ofExp c y ^ 1 * exp (-y) + log y * exp (-y))‖ ≤
      32 * |c| * (Gamma (1 / 2 + 1) + Gamma (-1 / 2 + 1)) := by
    rw [← h3.2]
    refine norm_integral_le_of_norm_le h3.1 ?_
    refine (ae_restrict_iff' measurableSet_Ioi).2 (Eventually.of_forall fun y hy => ?_)
    have := ofExp_close hc h (mem_Ioi.1 hy)
    rw [pow_one, ← add_mul, norm_mul, norm_of_nonneg (exp_pos _).le, norm_eq_abs]
    calc _ ≤ 32 * |c| * (y ^ (1 / 2 : ℝ) + y ^ (-1 / 2 : ℝ)) * exp (-y) :=
          mul_le_mul_of_nonneg_right this (exp_pos _).le
      _ = _ := by ring
  rw [h2.2, norm_eq_abs, Gamma_add_one (by norm_num), show (-1 / 2 + 1 : ℝ) = 1 / 2 by norm_num,
    Gamma_one_half_eq, ← sub_eq_add_neg] at h4
  have hpi : √π < 2 := by
    rw [sqrt_lt' two_pos]
    linarith [pi_lt_d2]
  have := abs_nonneg c
  nlinarith

end GenExtreme

/-- C275: for shape parameters so near to zero that the code uses the mean at zero, the error is at most
`1e-12`. -/
theorem C275_genextreme_mean_close (c : ℝ) (hc : |c| < 1e-14) :
    ∃ m x, HasMoment (supp c) (GenExtreme.pdf c) 1 m ∧ (GenExtreme.stats c).1 = .fin x ∧
      |x - m| ≤ 1e-12 := by
  have hx : (GenExtreme.stats c).1 = .fin euler := by
    show GenExtreme.mean c = _
    rw [GenExtreme.mean, if_neg (by have := neg_abs_le c; norm_num at hc ⊢; linarith), mgamk, if_pos hc]
  by_cases h0 : c = 0
  · subst h0
    exact ⟨_, _, gumbel_stats.mean, hx, by simp [GumbelR.stats, euler]; norm_num⟩
  · have hm := GenExtreme.m1 h0 (by have := neg_abs_le c; norm_num at hc; linarith)
    refine ⟨_, _, hm, hx, ?_⟩
    rw [abs_sub_comm]
    have := mean_lipschitz h0 (by norm_num at hc; linarith) hm
    norm_num at hc ⊢
    linarith

namespace GenExtreme

theorem place_all (cs : List ℝ) (vs : List Val) (h : ∀ c ∈ cs, -1 / 3 ≤ c) (hl : vs.length = cs.length) :
    place cs vs = vs := by
  induction cs generalizing vs with
  | nil => rw [place, List.length_eq_zero_iff.1 hl]
  | cons c cs ih =>
    cases vs with
    | nil => simp at hl
    | cons v vs =>
      rw [place, if_pos (h c (by simp)), List.headD_cons, List.tail_cons,
        ih vs (fun x hx => h x (by simp [hx])) (by simpa using hl)]

theorem gamma_le_one {x : ℝ} (h1 : 1 ≤ x) (h2 : x ≤ 2) : Gamma x ≤ 1 := by
  have hc := convexOn_Gamma
  have := hc.2 (mem_Ioi.2 one_pos) (mem_Ioi.2 two_pos) (sub_nonneg.2 h2) (sub_nonneg.2 h1) (by ring)
  rw [Gamma_one, Gamma_two] at this
  simp only [smul_eq_mul, mul_one] at this
  rw [show 2 - x + (x - 1) * 2 = x by ring] at this
  linarith

theorem g2mg12_big : 1 < g2mg12 (-9 / 20) := by
  rw [g2mg12, if_neg (by rw [abs_of_neg (by norm_num)]; norm_num), rpow_two, g, g]
  have e1 : Gamma ((2 : ℕ) * (-9 / 20) + 1) = 10 * Gamma (11 / 10) := by
    rw [show ((2 : ℕ) * (-9 / 20) + 1 : ℝ) = 1 / 10 by norm_num,
      show (11 / 10 : ℝ) = 1 / 10 + 1 by norm_num, Gamma_add_one (by norm_num)]
    ring
  have e2 : Gamma ((1 : ℕ) * (-9 / 20) + 1) = 20 / 11 * Gamma (31 / 20) := by
    rw [show ((1 : ℕ) * (-9 / 20) + 1 : ℝ) = 11 / 20 by norm_num,
      show (31 / 20 : ℝ) = 11 / 20 + 1 by norm_num, Gamma_add_one (by norm_num)]
    ring
  rw [e1, e2]
  have b1 := gamma_le_one (x := 31 / 20) (by norm_num) (by norm_num)
  have b0 : 0 < Gamma (31 / 20) := Gamma_pos_of_pos (by norm_num)
  have hpi : √π < 2 := by
    rw [sqrt_lt' two_pos]
    linarith [pi_lt_d2]
  have b2 : 4 / 5 < Gamma (11 / 10) := by
    have hc := convexOn_Gamma
    have := hc.2 (mem_Ioi.2 (by norm_num : (0 : ℝ) < 1 / 2)) (mem_Ioi.2 (by norm_num : (0 : ℝ) < 11 / 10))
      (by norm_num : (0 : ℝ) ≤ 1 / 6) (by norm_num : (0 : ℝ) ≤ 5 / 6) (by norm_num)
    simp only [smul_eq_mul] at this
    rw [show (1 / 6 * (1 / 2) + 5 / 6 * (11 / 10) : ℝ) = 1 by norm_num, Gamma_one,
      Gamma_one_half_eq] at this
    linarith
  nlinarith

end GenExtreme

/-- C275: the skewness of an array is that of its elements when none is below `-1/3`. -/
theorem C275_genextreme_skew_array_partial (cs : List ℝ) (h : ∀ c ∈ cs, -1 / 3 ≤ c) :
    skewArr cs = .ok (cs.map GenExtreme.skew) := by
  have hf : (cs.filter fun c => decide (-1 / 3 ≤ c)) = cs :=
    List.filter_eq_self.2 fun c hc => by simpa using h c hc
  unfold skewArr
  simp only [hf, List.length_map, if_true]
  rw [place_all cs _ h (by simp)]
  congr 1
  clear hf
  induction cs with
  | nil => rfl
  | cons c cs ih =>
    simp only [List.map_cons, List.zipWith_cons_cons]
    rw [ih fun x hx => h x (by simp [hx]), GenExtreme.skew, if_pos (h c (by simp))]

/-- C275: an element below `-1/3` spoils the skewness of the others: it is computed with a variance
of that element.  For `c = 1` the skewness is `-2`; in the array `[-9/20, 1]` a larger one is reported, and
the array `[-9/20, 1, 1]` raises an error. -/
theorem C275_genextreme_skew_array_refuted :
    GenExtreme.skew 1 = .fin (-2) ∧
    (∃ s, skewArr [-9 / 20, 1] = .ok [.nan, .fin s] ∧ -2 < s) ∧
    skewArr [-9 / 20, 1, 1] = .error .valueError := by
  have hb := g2mg12_big
  have hlt : ∀ c : ℝ, 1e-1 < |c| → ¬ |c| ≤ (1e-14 : ℝ) ^ (0.29 : ℝ) := by
    intro c hc
    have h1 : (1e-14 : ℝ) ^ (0.29 : ℝ) ≤ (1e-14 : ℝ) ^ (1 / 14 : ℝ) :=
      rpow_le_rpow_of_exponent_ge (by norm_num) (by norm_num) (by norm_num)
    have h2 : (1e-14 : ℝ) ^ (1 / 14 : ℝ) = 1e-1 := by
      rw [show (1e-14 : ℝ) = (1e-1 : ℝ) ^ (14 : ℝ) by norm_num, ← rpow_mul (by norm_num)]
      norm_num
    linarith
  have n1 := hlt 1 (by norm_num)
  have n2 := hlt (-9 / 20) (by rw [abs_of_neg (by norm_num)]; norm_num)
  have g1 : g 1 1 = 1 := by simp [g, show (1 : ℝ) + 1 = 2 by norm_num]
  have g2 : g 1 2 = 2 := by
    rw [g, show ((2 : ℕ) * 1 + 1 : ℝ) = (2 : ℕ) + 1 by norm_num, Gamma_nat_eq_factorial]; norm_num [Nat.factorial]
  have g3 : g 1 3 = 6 := by
    rw [g, show ((3 : ℕ) * 1 + 1 : ℝ) = (3 : ℕ) + 1 by norm_num, Gamma_nat_eq_factorial]; norm_num [Nat.factorial]
  have hs : ∀ d : ℝ, sk1 1 d = .fin ((-6 + (2 + 2 * d)) / d ^ (1.5 : ℝ)) := by
    intro d
    rw [sk1, if_neg (by norm_num), g1, g2, g3, sign_pos one_pos]
    simp
  have c1 : ¬ (-1 / 3 ≤ (-9 / 20 : ℝ)) := by norm_num
  have c2 : (-1 / 3 ≤ (1 : ℝ)) := by norm_num
  refine ⟨?_, ⟨(-6 + (2 + 2 * g2mg12 (-9 / 20))) / g2mg12 (-9 / 20) ^ (1.5 : ℝ), ?_, ?_⟩, ?_⟩
  · rw [GenExtreme.skew, if_neg n1, if_pos c2, hs, g2mg12, if_neg (by norm_num), g1, g2]
    norm_num
  · have n1' : ¬ (1 : ℝ) ≤ (1e-14 : ℝ) ^ (0.29 : ℝ) := by rwa [abs_one] at n1
    simp [skewArr, c1, c2, place, n1', n2, hs]
  · rw [lt_div_iff₀ (rpow_pos_of_pos (by linarith) _)]
    have : 1 < g2mg12 (-9 / 20) ^ (1.5 : ℝ) := one_lt_rpow hb (by norm_num)
    linarith
  · simp [skewArr, c1, c2]

example : GenExtreme.mean 1 = .fin 0 ∧ GenExtreme.mean (-1) = .inf ∧ GenExtreme.var (-1) = .nan ∧
    GenExtreme.munp 2 (-1) = .inf := by
  refine ⟨?_, ?_, ?_, ?_⟩
  · rw [GenExtreme.mean, if_neg (by norm_num), mgamk, if_neg (by norm_num), if_neg (by norm_num),
      expm1, gammaln_eq (by norm_num), show (1 : ℝ) + 1 = 2 by norm_num, Gamma_two]
    norm_num
  · rw [GenExtreme.mean, if_neg (by norm_num), mgamk, if_neg (by norm_num), if_pos (by norm_num)]
  · rw [GenExtreme.var, if_pos (by norm_num)]
  · rw [GenExtreme.munp, if_neg (by norm_num), if_neg (by norm_num)]

end Wafo.Dist
