import Verif.Dist.StartLemmas
import Verif.Dist.LogProps
import Verif.Dist.BetaMomProps
import Verif.Dist.MomBddProps
import Verif.Dist.NormMomLemmas
import Verif.Dist.NormProps
import Mathlib.Analysis.SpecialFunctions.Log.Deriv

/-!
# C281: start values of further distributions
-/

set_option linter.unusedSectionVars false

namespace Wafo.Dist

open MeasureTheory Set Filter Topology Real Start

theorem weibull_ppf {c q : ℝ} (hq : q ∈ Ioo (0 : ℝ) 1) :
    WeibullMin.ppf c q = exp (GumbelL.ppf q / c) := by
  have hl : 0 < -log (1 + -q) := neg_pos.2 (log_neg (by linarith [hq.2]) (by linarith [hq.1]))
  simp only [WeibullMin.ppf, GumbelL.ppf, log1p]
  rw [rpow_def_of_pos hl]
  congr 1
  ring

theorem weibull_gumbel {c v : ℝ} (hc : 0 < c) {k : ℝ → ℝ} (hk : Measurable k) :
    HasInt (Ioi 0) (fun x => k x * WeibullMin.pdf c x) v ↔
      HasInt univ (fun g => k (exp (g / c)) * GumbelL.pdf g) v := by
  have hm : Measurable fun g => k (exp (g / c)) := hk.comp (by fun_prop)
  rw [hasInt_ppf measurableSet_Ioi ordConnected_Ioi (C251_weibull_min c hc).1 (C251_weibull_min c hc).2.1 hk,
    hasInt_ppf MeasurableSet.univ ordConnected_univ C252_gumbel_l.1 C252_gumbel_l.2.1 hm]
  exact ⟨fun h => h.congr measurableSet_Ioo (fun q hq => by rw [weibull_ppf hq]) rfl,
    fun h => h.congr measurableSet_Ioo (fun q hq => by rw [weibull_ppf hq]) rfl⟩

theorem gumbel_exp : HasInt univ (fun g => exp g * GumbelL.pdf g) 1 := by
  rw [hasInt_ppf MeasurableSet.univ ordConnected_univ C252_gumbel_l.1 C252_gumbel_l.2.1 (by fun_prop)]
  have h := hasInt_ppf measurableSet_Ioi ordConnected_Ioi C251_expon.1 C251_expon.2.1 (k := fun x => x)
    (by fun_prop) (v := 1)
  have h1 : HasInt (Ioi 0) (fun x => x * Expon.pdf x) 1 := by
    have hg := Gamma_eq_integral two_pos
    have hi := GammaIntegral_convergent two_pos
    rw [Gamma_two] at hg
    have e : ∀ x ∈ Ioi (0 : ℝ), x * Expon.pdf x = exp (-x) * x ^ ((2 : ℝ) - 1) := fun x _ => by
      rw [show (2 : ℝ) - 1 = 1 by norm_num, rpow_one, Expon.pdf, mul_comm]
    exact HasInt.congr measurableSet_Ioi ⟨hi, rfl⟩ e hg
  refine (h.1 h1).congr measurableSet_Ioo (fun q hq => ?_) rfl
  have hl : 0 < -log (1 + -q) := neg_pos.2 (log_neg (by linarith [hq.2]) (by linarith [hq.1]))
  simp only [GumbelL.ppf, log1p]
  rw [exp_log hl]
  simp only [Expon.ppf, log1p]

namespace Start

theorem std_pos {l : List ℝ} (h : var l ≠ 0) : 0 < std l :=
  sqrt_pos.2 (lt_of_le_of_ne (var_nonneg l) h.symm)

theorem var_eq {l : List ℝ} (hn : (l.length : ℝ) ≠ 0) :
    var l = mean (l.map fun x => x ^ 2) - mean l ^ 2 := by
  have hsum : ∀ (m : ℝ) (l : List ℝ), (l.map fun x => (x - m) ^ 2).sum =
      (l.map fun x => x ^ 2).sum - 2 * m * l.sum + l.length * m ^ 2 := by
    intro m l
    induction l with
    | nil => simp
    | cons a l ih =>
      simp only [List.map_cons, List.sum_cons, ih, List.length_cons]
      push_cast
      ring
  simp only [var, mean, hsum, List.length_map]
  field_simp
  ring

end Start

/-- The start values of the Weibull distribution: the data lie above the location; with the values returned, the
logarithm of the excess over the location has the variance it has in the data, and the mean of the
excess to the power of the shape is that of the data. -/
theorem C281_weibull_min (d : List ℝ) (c loc scale : ℝ) (h : Start.weibullMin d = .ok (c, loc, scale))
    (hv : var (d.map fun x => log (x - loc)) ≠ 0) :
    0 < c ∧ 0 < scale ∧ (∀ x ∈ d, loc < x) ∧
    (∃ m, HasInt (lsSet (Ioi 0) loc scale)
        (fun x => log (x - loc) * lsPdf (WeibullMin.pdf c) loc scale x) m ∧
      HasInt (lsSet (Ioi 0) loc scale)
        (fun x => (log (x - loc) - m) ^ 2 * lsPdf (WeibullMin.pdf c) loc scale x)
        (var (d.map fun x => log (x - loc)))) ∧
    HasInt (lsSet (Ioi 0) loc scale) (fun x => (x - loc) ^ c * lsPdf (WeibullMin.pdf c) loc scale x)
      (mean (d.map fun x => (x - loc) ^ c)) := by
  unfold Start.weibullMin at h
  rcases hmn : npMin d with e | mn
  · rw [hmn] at h; cases h
  rw [hmn] at h
  simp only [Bind.bind, Except.bind, Pure.pure, Except.pure, Except.ok.injEq, Prod.mk.injEq] at h
  obtain ⟨hc', hloc, hsc⟩ := h
  obtain ⟨hmem, hmin⟩ := npMin_ok hmn
  have hd : d ≠ [] := List.ne_nil_of_mem hmem
  have hlt : ∀ x ∈ d, loc < x := fun x hx => by
    have := hmin x hx
    rw [← hloc]
    norm_num
    linarith
  rw [hc', hloc] at hsc
  rw [hloc] at hc'
  have hsd := std_pos hv
  set s := std (d.map fun x => log (x - loc)) with hs
  have h6 : (6 : ℝ) ^ (1 / 2 : ℝ) = √6 := (sqrt_eq_rpow 6).symm
  have h6p : 0 < √6 := sqrt_pos.2 (by norm_num)
  have h6s : √6 ^ 2 = (6 : ℝ) := sq_sqrt (by norm_num)
  have hp := pi_pos
  have hc : 0 < c := by rw [← hc', h6]; positivity
  have hmp : 0 < mean (d.map fun x => (x - loc) ^ c) := by
    refine mean_pos ?_ (by simpa using hd)
    intro y hy
    obtain ⟨x, hx, rfl⟩ := List.mem_map.1 hy
    exact rpow_pos_of_pos (sub_pos.2 (hlt x hx)) _
  have hscale : 0 < scale := by rw [← hsc]; exact rpow_pos_of_pos hmp _
  have hscp : scale ^ c = mean (d.map fun x => (x - loc) ^ c) := by
    rw [← hsc, ← rpow_mul hmp.le, one_div_mul_cancel hc.ne', rpow_one]
  have hvv : var (d.map fun x => log (x - loc)) = π * π / 6 / c ^ 2 := by
    rw [← std_sq, ← hs, ← hc', h6]
    field_simp
    rw [h6s]
  have hI : MeasurableSet (Ioi (0 : ℝ)) := measurableSet_Ioi
  have hG := C267_gumbel_l_stats
  obtain ⟨m, hm1, hi2, hv2, _⟩ := hG.var
  have a1 : HasInt univ (fun g => g ^ 1 * GumbelL.pdf g) m := hm1
  have a2 : HasInt univ (fun g => (g - m) ^ 2 * GumbelL.pdf g) (π * π / 6) := ⟨hi2, hv2⟩
  have a0 : HasInt univ (fun g => 1 * GumbelL.pdf g) 1 := by
    rw [hasInt_ppf MeasurableSet.univ ordConnected_univ C252_gumbel_l.1 C252_gumbel_l.2.1 (by fun_prop)]
    exact ⟨by simp, by simp⟩
  refine ⟨hc, hscale, hlt, ⟨log scale + m / c, ?_, ?_⟩, ?_⟩
  · refine (hasInt_ls hI hscale (k := fun x => log (x - loc))).2 ?_
    refine ((weibull_gumbel hc (k := fun y => log (loc + scale * y - loc)) (by fun_prop)).2
      (((a0.const_mul (log scale)).add (a1.const_mul (1 / c))).congr MeasurableSet.univ (fun g _ => ?_) ?_))
    · rw [add_sub_cancel_left, log_mul hscale.ne' (exp_pos _).ne', log_exp]
      ring
    · ring
  · refine (hasInt_ls hI hscale (k := fun x => (log (x - loc) - (log scale + m / c)) ^ 2)).2 ?_
    refine ((weibull_gumbel hc (k := fun y => (log (loc + scale * y - loc) - (log scale + m / c)) ^ 2)
      (by fun_prop)).2 ((a2.const_mul (1 / c ^ 2)).congr MeasurableSet.univ (fun g _ => ?_) ?_))
    · rw [add_sub_cancel_left, log_mul hscale.ne' (exp_pos _).ne', log_exp]
      ring
    · rw [hvv]
      ring
  · refine (hasInt_ls hI hscale (k := fun x => (x - loc) ^ c)).2 ?_
    refine ((weibull_gumbel hc (k := fun y => (loc + scale * y - loc) ^ c)
      (by fun_prop)).2 ((gumbel_exp.const_mul (scale ^ c)).congr MeasurableSet.univ (fun g _ => ?_) ?_))
    · rw [add_sub_cancel_left, mul_rpow hscale.le (exp_pos _).le, ← exp_mul, div_mul_cancel₀ _ hc.ne']
      ring
    · rw [hscp, mul_one]

/-- The data `0, 1` have start values. -/
example : ∃ c loc scale, Start.weibullMin [0, 1] = .ok (c, loc, scale) ∧
    var ([0, 1].map fun x : ℝ => log (x - loc)) ≠ 0 := by
  refine ⟨_, _, _, rfl, ?_⟩
  have h1 : log 0.01 < log 1.01 := log_lt_log (by norm_num) (by norm_num)
  have : var ([0, 1].map fun x : ℝ => log (x - (List.foldl min 0 [1] - 0.01))) =
      ((log 1.01 - log 0.01) / 2) ^ 2 := by
    norm_num [var, mean]
    ring
  rw [this]
  have : 0 < log 1.01 - log 0.01 := sub_pos.2 h1
  positivity

/-- The start values of the log-normal distribution: the data lie above the location; with the values
returned, the logarithm of the excess over the location has the variance it has in the data, but its mean is the
logarithm of the standard deviation of the data. -/
theorem C281_lognorm_partial (d : List ℝ) (s loc scale : ℝ) (h : Start.lognorm d = .ok (s, loc, scale))
    (hs : 0 < s) (hsc : 0 < scale) :
    (∀ x ∈ d, loc < x) ∧
    HasInt (lsSet (Ioi 0) loc scale) (fun x => log (x - loc) * lsPdf (LogNorm.pdf s) loc scale x)
      (log (std d)) ∧
    HasInt (lsSet (Ioi 0) loc scale)
      (fun x => (log (x - loc) - log (std d)) ^ 2 * lsPdf (LogNorm.pdf s) loc scale x)
      (var (d.map fun x => log (x - loc))) := by
  unfold Start.lognorm at h
  rcases hmn : npMin d with e | mn
  · rw [hmn] at h; cases h
  rw [hmn] at h
  simp only [Bind.bind, Except.bind, Pure.pure, Except.pure, Except.ok.injEq, Prod.mk.injEq] at h
  obtain ⟨hs', hloc, hscale⟩ := h
  obtain ⟨hmem, hmin⟩ := npMin_ok hmn
  have hd : d ≠ [] := List.ne_nil_of_mem hmem
  rw [hloc] at hs'
  rw [hscale]
  set l := d.map fun x => log (x - loc) with hl
  have hn : (l.length : ℝ) ≠ 0 := by
    have : l ≠ [] := by simpa [hl] using hd
    have := List.length_pos_iff.2 this
    exact_mod_cast this.ne'
  have hvar : var l = s ^ 2 := by
    have hvv := var_eq hn
    rw [hvv, ← hs', sq_sqrt]
    rw [← hvv]
    exact var_nonneg l
  have hI : MeasurableSet (Ioi (0 : ℝ)) := measurableSet_Ioi
  have t := lognorm_tr hs
  have a0 := hasInt_nmom 0
  have a1 := hasInt_nmom 1
  have a2 := hasInt_nmom 2
  have e0 : nmom 0 = 1 := by simp [nmom]
  have e1 : nmom 1 = 0 := by simp [nmom]
  have e2 : nmom 2 = 1 := by simp [nmom]
  rw [e0] at a0
  rw [e1] at a1
  rw [e2] at a2
  refine ⟨fun x hx => ?_, ?_, ?_⟩
  · have := hmin x hx
    rw [← hloc]
    norm_num
    linarith
  · refine (hasInt_ls hI hsc (k := fun x => log (x - loc))).2 ?_
    refine NormTr.expect hI t (k := fun y => log (loc + scale * y - loc))
      (((a0.const_mul (log scale)).add (a1.const_mul s)).congr MeasurableSet.univ (fun g _ => ?_) ?_)
    · rw [add_sub_cancel_left, log_mul hsc.ne' (exp_pos _).ne', log_exp]
      ring
    · ring
  · refine (hasInt_ls hI hsc (k := fun x => (log (x - loc) - log scale) ^ 2)).2 ?_
    refine NormTr.expect hI t (k := fun y => (log (loc + scale * y - loc) - log scale) ^ 2)
      ((a2.const_mul (s ^ 2)).congr MeasurableSet.univ (fun g _ => ?_) ?_)
    · rw [add_sub_cancel_left, log_mul hsc.ne' (exp_pos _).ne', log_exp]
      ring
    · rw [hvar, mul_one]

/-- So the mean of the logarithm is not that of the data `0, 1`. -/
theorem C281_lognorm_refuted : ∃ (d : List ℝ) (s loc scale : ℝ),
    Start.lognorm d = .ok (s, loc, scale) ∧ 0 < s ∧ 0 < scale ∧
    ¬ HasInt (lsSet (Ioi 0) loc scale) (fun x => log (x - loc) * lsPdf (LogNorm.pdf s) loc scale x)
      (mean (d.map fun x => log (x - loc))) := by
  have hstd : std [0, 1] = 1 / 2 := by
    rw [std, var, show mean [0, 1] = 1 / 2 by simp [mean]]
    rw [show mean ([0, 1].map fun x : ℝ => (x - 1 / 2) ^ 2) = (1 / 2) ^ 2 by norm_num [mean]]
    exact sqrt_sq (by norm_num)
  have e : Start.lognorm [0, 1] = .ok (√((log 0.001 ^ 2 + log 1.001 ^ 2) / 2 -
      ((log 0.001 + log 1.001) / 2) ^ 2), -0.001, 1 / 2) := by
    unfold Start.lognorm
    simp only [npMin, Bind.bind, Except.bind, Pure.pure, Except.pure, List.foldl, hstd]
    norm_num [mean]
  have h1 : log 0.001 < log 1.001 := log_lt_log (by norm_num) (by norm_num)
  have hpos : 0 < √((log 0.001 ^ 2 + log 1.001 ^ 2) / 2 - ((log 0.001 + log 1.001) / 2) ^ 2) := by
    refine sqrt_pos.2 ?_
    have : (log 0.001 ^ 2 + log 1.001 ^ 2) / 2 - ((log 0.001 + log 1.001) / 2) ^ 2 =
      ((log 1.001 - log 0.001) / 2) ^ 2 := by ring
    rw [this]
    have : 0 < log 1.001 - log 0.001 := sub_pos.2 h1
    positivity
  refine ⟨[0, 1], _, _, _, e, hpos, by norm_num, fun hh => ?_⟩
  have h2 := (C281_lognorm_partial _ _ _ _ e hpos (by norm_num)).2.1
  have h3 := hh.2.symm.trans h2.2
  rw [hstd] at h3
  have h4 : mean ([0, 1].map fun x : ℝ => log (x - -0.001)) = (log 0.001 + log 1.001) / 2 := by
    norm_num [mean]
  rw [h4, ← log_mul (by norm_num) (by norm_num)] at h3
  have h5 : log (0.001 * 1.001) = log ((1 / 2) ^ 2) := by
    rw [log_pow]
    push_cast
    linarith
  have h6 : log (0.001 * 1.001) < log ((1 / 2) ^ 2) := log_lt_log (by norm_num) (by norm_num)
  exact h6.ne h5

/-- The start values of the Bradford distribution: the data lie above the location and not above location plus
scale, and if the solver finds a positive root, the distribution has the mean of the data. -/
theorem C281_bradford (root : (ℝ → ℝ) → ℝ → ℝ) (d : List ℝ) (c loc scale : ℝ)
    (h : Start.bradford root d = .ok (c, loc, scale)) (hc : 0 < c)
    (hroot : ∀ f x, 0 < root f x → f (root f x) = 0) :
    0 < scale ∧ (∀ x ∈ d, loc < x ∧ x ≤ loc + scale) ∧ (∃ x ∈ d, x = loc + scale) ∧
    HasMoment (lsSet (Ioo 0 1) loc scale) (lsPdf (Bradford.pdf c) loc scale) 1 (mean d) := by
  unfold Start.bradford at h
  rcases hmn : npMin d with e | mn
  · rw [hmn] at h; cases h
  rw [hmn] at h
  simp only [Bind.bind, Except.bind, Pure.pure, Except.pure] at h
  rcases hmx : npMax (d.map fun x => x - (mn - 1e-4)) with e | mx
  · rw [hmx] at h; cases h
  rw [hmx] at h
  simp only [Except.ok.injEq, Prod.mk.injEq] at h
  obtain ⟨hc', hloc, hscale⟩ := h
  obtain ⟨hmem, hmin⟩ := npMin_ok hmn
  obtain ⟨hmem', hmax⟩ := npMax_ok hmx
  have hd : d ≠ [] := List.ne_nil_of_mem hmem
  rw [hloc] at hmax hmem' hc'
  rw [hscale] at hmax hmem' hc'
  have hlt : ∀ x ∈ d, loc < x := fun x hx => by
    have := hmin x hx
    rw [← hloc]
    norm_num
    linarith
  obtain ⟨x0, hx0, hx0e⟩ := List.mem_map.1 hmem'
  have hsc : 0 < scale := by rw [← hx0e]; exact sub_pos.2 (hlt x0 hx0)
  refine ⟨hsc, fun x hx => ⟨hlt x hx, ?_⟩, ⟨x0, hx0, by linarith⟩, ?_⟩
  · have := hmax (x - loc) (List.mem_map_of_mem (f := fun x => x - loc) hx)
    linarith
  · have hr := hroot (fun c => (c - log1p c) / (c * log1p c) - mean (d.map fun x => (x - loc) / scale)) 0.3
      (by rw [hc']; exact hc)
    simp only [hc'] at hr
    have hst := (C261_bradford c hc).mean
    have h0 : HasMoment (Ioo 0 1) (Bradford.pdf c) 0 1 := by
      have := bradford_moments c hc 0 1 0 0 0 0 (fun y => by simp only [quart]; ring)
      have hL : log (1 + c) ≠ 0 := (log_pos (by linarith)).ne'
      refine HasInt.congr measurableSet_Ioo this (fun x _ => rfl) ?_
      field_simp
      try ring
    have hmean : mean (d.map fun x => (x - loc) / scale) = (mean d - loc) / scale := by
      rw [← mean_sub hd]
      simp only [mean, List.length_map]
      have : ∀ l : List ℝ, (l.map fun x => (x - loc) / scale).sum = (l.map fun x => x - loc).sum / scale := by
        intro l
        induction l with
        | nil => simp
        | cons a l ih => simp only [List.map_cons, List.sum_cons, ih]; ring
      rw [this]
      ring
    have e : mean d = loc + scale * (Bradford.stats c).1 := by
      simp only [Bradford.stats]
      rw [hmean] at hr
      have hr' := sub_eq_zero.1 hr
      simp only [log1p] at hr'
      rw [hr', mul_div_cancel₀ _ hsc.ne']
      ring
    rw [e]
    exact ls_mean measurableSet_Ioo hsc h0 hst

/-- A solver which finds the root 1 for data with the mean of the distribution of shape 1. -/
example : ∃ (root : (ℝ → ℝ) → ℝ → ℝ) (d : List ℝ) (c loc scale : ℝ),
    Start.bradford root d = .ok (c, loc, scale) ∧ 0 < c ∧ ∀ f x, 0 < root f x → f (root f x) = 0 := by
  classical
  have g1 := Real.log_two_gt_d9
  have g2 := Real.log_two_lt_d9
  have hL : 0 < log 2 := by linarith
  set m := (1 - log 2) / log 2 with hm
  have hm0 : 0.4 < m := by rw [hm, lt_div_iff₀ hL]; norm_num; linarith
  have hm1 : m < 0.5 := by rw [hm, div_lt_iff₀ hL]; norm_num; linarith
  set y := 3 * m * 1.0001 - 1.0003 with hy
  have hy0 : 0 < y := by rw [hy]; norm_num at hm0 ⊢; linarith
  have hy1 : y < 1 := by rw [hy]; norm_num at hm1 ⊢; linarith
  refine ⟨fun f _ => if f 1 = 0 then 1 else 0, [0, y, 1], 1, -1e-4, 1.0001, ?_, one_pos, ?_⟩
  · have h1 : npMin [0, y, 1] = .ok 0 := by
      simp [npMin, min_eq_left hy0.le]
    have h2 : npMax ([0, y, 1].map fun x => x - (0 - 1e-4)) = .ok 1.0001 := by
      have e : [0, y, 1].map (fun x => x - (0 - 1e-4)) = [1e-4, y + 1e-4, 1.0001] := by norm_num
      rw [e, npMax]
      have a : max (1e-4) (y + 1e-4) = y + 1e-4 := max_eq_right (by linarith)
      have b : max (y + 1e-4) 1.0001 = 1.0001 := max_eq_right (by norm_num at hy1 ⊢; linarith)
      simp only [List.foldl, a, b]
    have h3 : mean ([0, y, 1].map fun x => (x - (0 - 1e-4)) / 1.0001) = m := by
      norm_num [mean, hy]
      ring
    unfold Start.bradford
    simp only [Bind.bind, Except.bind, Pure.pure, Except.pure, h1, h2, h3]
    rw [if_pos]
    · norm_num
    · norm_num [log1p, hm]
  · intro f x h
    by_cases h1 : f 1 = 0
    · simpa [h1] using h1
    · simp [h1] at h

theorem Start.npRound_int (k : ℤ) : npRound k = k := by
  simp [npRound]

/-- The start shapes of the F distribution: where the formulas of the method of moments give numbers of degrees of freedom
not less than 5 and 1, the distribution has the mean and the variance of the data.  Otherwise they are
rounded, and this is not covered. -/
theorem C281_f_partial (d : List ℝ) (j k : ℤ) (hj : 1 ≤ j) (hk : 5 ≤ k)
    (hk' : 2 * mean d / (mean d - 1) = k)
    (hj' : 2 * (k : ℝ) * k * (k - 2) / (var d * (k - 4) * (k - 2) ^ 2 - 2 * k * k) = j) :
    Start.fShapes d = ((j : ℝ), (k : ℝ)) ∧
    HasMoment (Ioi 0) (FD.pdf (Start.fShapes d).1 (Start.fShapes d).2) 1 (mean d) ∧
    HasVar (Ioi 0) (FD.pdf (Start.fShapes d).1 (Start.fShapes d).2) (var d) := by
  have hkR : (5 : ℝ) ≤ k := by exact_mod_cast hk
  have hjR : (1 : ℝ) ≤ j := by exact_mod_cast hj
  have e : Start.fShapes d = ((j : ℝ), (k : ℝ)) := by
    simp only [fShapes, hk', npRound_int]
    rw [max_eq_left hkR, hj', npRound_int, max_eq_left hjR]
  refine ⟨e, ?_⟩
  rw [e]
  have hs := C269_f_stats j k (by linarith) (by linarith)
  have h1 := hs.mean
  have h2 := hs.var
  simp only [FD.stats] at h1 h2
  rw [if_pos (by linarith)] at h1
  rw [if_pos (by linarith)] at h2
  have hm1 : mean d - 1 ≠ 0 := fun h0 => by rw [h0, div_zero] at hk'; linarith
  have hden : var d * (k - 4) * (k - 2) ^ 2 - 2 * k * k ≠ 0 := fun h0 => by
    rw [h0, div_zero] at hj'; linarith
  have e1 : (k : ℝ) / (k - 2) = mean d := by
    rw [div_eq_iff hm1] at hk'
    rw [div_eq_iff (by linarith)]
    linarith
  have e2 : 2 * (k : ℝ) * k * (j + (k - 2)) / (j * (k - 2) ^ 2 * (k - 4)) = var d := by
    rw [div_eq_iff hden] at hj'
    have a : (j : ℝ) ≠ 0 := by linarith
    have b : (k : ℝ) - 2 ≠ 0 := by linarith
    have c : (k : ℝ) - 4 ≠ 0 := by linarith
    rw [div_eq_iff (by positivity)]
    linarith
  rw [e1] at h1
  rw [e2] at h2
  exact ⟨h1, h2⟩

/-- The data `5, -5 / 3` give 3 and 5 degrees of freedom. -/
example : Start.fShapes [5, -5 / 3] = (3, 5) := by
  have hm : mean [5, -5 / 3] = 5 / 3 := by norm_num [mean]
  have hv : var [5, -5 / 3] = 100 / 9 := by
    rw [var, hm]
    norm_num [mean]
  have := (C281_f_partial [5, -5 / 3] 3 5 (by norm_num) (by norm_num) (by rw [hm]; norm_num)
    (by rw [hv]; norm_num)).1
  simpa using this

/-- The start shape of the chi distribution: the second moment is that of the data, rounded down. -/
theorem C281_chi (d : List ℝ) (h1 : 1 ≤ var d + mean d ^ 2) :
    ∃ q, HasMoment (Ioi 0) (Chi.pdf (Start.chiShape d)) 2 q ∧ q ≤ var d + mean d ^ 2 ∧
      var d + mean d ^ 2 < q + 1 := by
  have h2 : (1 : ℤ) ≤ ⌊var d + mean d ^ 2⌋ := Int.le_floor.2 (by exact_mod_cast h1)
  have e : Start.chiShape d = ⌊var d + mean d ^ 2⌋ := max_eq_left h2
  refine ⟨_, (chi_moments _ ?_).2.2.1, ?_, ?_⟩
  · rw [e]
    exact_mod_cast h2
  · rw [e]
    exact Int.floor_le _
  · rw [e]
    exact Int.lt_floor_add_one _

/-- The data `1, 2`. -/
example : 1 ≤ var [1, 2] + mean [1, 2] ^ 2 := by
  have hm : mean [1, 2] = 3 / 2 := by norm_num [mean]
  have := var_nonneg [1, 2]
  rw [hm]
  linarith

/-- The start shapes of the non-central chi-square distribution: its mean is that of the data, its variance is
`mean + var / 2`. -/
theorem C281_ncx2_partial (d : List ℝ) :
    (Start.ncx2Stats (Start.ncx2Shapes d).1 (Start.ncx2Shapes d).2).1 = mean d ∧
    (Start.ncx2Stats (Start.ncx2Shapes d).1 (Start.ncx2Shapes d).2).2 = mean d + var d / 2 := by
  simp only [ncx2Shapes, ncx2Stats]
  constructor <;> ring

/-- It is the variance of the data only when that is twice the mean. -/
theorem C281_ncx2_refuted (d : List ℝ) (h : var d ≠ 2 * mean d) :
    (Start.ncx2Stats (Start.ncx2Shapes d).1 (Start.ncx2Shapes d).2).2 ≠ var d := by
  rw [(C281_ncx2_partial d).2]
  intro h0
  apply h
  linarith

end Wafo.Dist
