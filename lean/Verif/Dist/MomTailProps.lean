import Verif.Dist.MomBddProps
import Verif.Dist.LogisticProps
import Mathlib.Analysis.SpecialFunctions.ImproperIntegrals

/-!
# C261: the reported moments of the distributions with tails of power type

Lomax, log-Laplace, Cauchy and half Cauchy, and the truncated Rayleigh distribution, whose reported
moments ignore the truncation.
-/

namespace Wafo.Dist

open MeasureTheory Set Filter Topology Real

set_option linter.unusedSectionVars false

/-! ### Lomax -/

theorem lomax_ppf (c q : ℝ) (hq : q ∈ Ioo (0 : ℝ) 1) :
    Lomax.ppf c (1 - q) = q ^ (-(1 / c)) - 1 := by
  rw [Lomax.ppf, expm1, log1p, show 1 + -(1 - q) = q by ring, rpow_def_of_pos hq.1]
  congr 2
  ring

theorem lomax_raw (n : ℕ) (c : ℝ) (hc : 0 < c) (h : n < c) :
    HasMoment (Ioi 0) (Lomax.pdf c) n ((-1) ^ n *
      ((List.range (n + 1)).map fun k => (n.choose k : ℝ) * (-1) ^ k / (1 - 1 / c * k)).sum) := by
  refine moment_ppf measurableSet_Ioi ordConnected_Ioi
    ⟨(C253_lomax c hc).1, (C253_lomax c hc).2.1⟩ (hasInt_flip.1 ?_)
  refine (boxcox_int (1 / c) n ?_).congr measurableSet_Ioo (fun q hq => ?_) rfl
  · rw [one_div_mul_eq_div]
    exact (div_lt_one hc).2 h
  · rw [lomax_ppf c q hq]

theorem lomax_none (n : ℕ) (c : ℝ) (hc : 0 < c) (h : c ≤ n) :
    NoMoment (Ioi 0) (Lomax.pdf c) n := by
  refine noMoment_ppf measurableSet_Ioi ordConnected_Ioi
    ⟨(C253_lomax c hc).1, (C253_lomax c hc).2.1⟩ fun hi => ?_
  have h2 : HasInt (Ioo 0 1) (fun q => Lomax.ppf c q ^ n) _ := ⟨hi, rfl⟩
  refine boxcox_not_int (1 / c) n ?_ ((hasInt_flip.2 h2).congr measurableSet_Ioo
    (fun q hq => ?_) rfl).1
  · rw [one_div_mul_eq_div]
    exact (one_le_div hc).2 h
  · rw [lomax_ppf c q hq]

theorem C261_lomax (c : ℝ) (hc : 0 < c) :
    HasStats? (Ioi 0) (Lomax.pdf c) (Lomax.stats c) := by
  have hn : ∀ x ∈ Ioi (0 : ℝ), 0 ≤ Lomax.pdf c x := by
    intro x hx
    have := mem_Ioi.1 hx
    unfold Lomax.pdf
    positivity
  have hm : MeasurableSet (Ioi (0 : ℝ)) := measurableSet_Ioi
  have k0 : HasMoment (Ioi 0) (Lomax.pdf c) 0 1 := by
    have := lomax_raw 0 c hc (by simpa using hc)
    simpa using this
  have k1 : 1 < c → HasMoment (Ioi 0) (Lomax.pdf c) 1 (1 / (c - 1)) := by
    intro h
    have h1 : c - 1 ≠ 0 := by linarith
    convert lomax_raw 1 c hc (by push_cast; linarith) using 1
    simp [List.range_succ]
    field_simp
    ring
  have k2 : 2 < c → HasMoment (Ioi 0) (Lomax.pdf c) 2 (2 / ((c - 1) * (c - 2))) := by
    intro h
    have h1 : c - 1 ≠ 0 := by linarith
    have h2 : c - 2 ≠ 0 := by linarith
    convert lomax_raw 2 c hc (by push_cast; linarith) using 1
    simp [List.range_succ]
    field_simp
    ring
  have k3 : 3 < c → HasMoment (Ioi 0) (Lomax.pdf c) 3 (6 / ((c - 1) * (c - 2) * (c - 3))) := by
    intro h
    have h1 : c - 1 ≠ 0 := by linarith
    have h2 : c - 2 ≠ 0 := by linarith
    have h3 : c - 3 ≠ 0 := by linarith
    convert lomax_raw 3 c hc (by push_cast; linarith) using 1
    simp [List.range_succ, Nat.choose]
    field_simp
    ring
  have k4 : 4 < c → HasMoment (Ioi 0) (Lomax.pdf c) 4
      (24 / ((c - 1) * (c - 2) * (c - 3) * (c - 4))) := by
    intro h
    have h1 : c - 1 ≠ 0 := by linarith
    have h2 : c - 2 ≠ 0 := by linarith
    have h3 : c - 3 ≠ 0 := by linarith
    have h4 : c - 4 ≠ 0 := by linarith
    convert lomax_raw 4 c hc (by push_cast; linarith) using 1
    simp [List.range_succ, Nat.choose]
    field_simp
    ring
  constructor
  · simp only [Lomax.stats, Pareto.stats]
    split_ifs with h
    · have h1 : c - 1 ≠ 0 := by linarith
      have e : c / (c - 1) + -1 = 1 / (c - 1) := by
        field_simp
        ring
      simp only [Val.shift, Reports, e]
      exact k1 h
    · exact lomax_none 1 c hc (by push_cast; linarith)
  · simp only [Lomax.stats, Pareto.stats]
    split_ifs with h
    · have h1 : c - 1 ≠ 0 := by linarith
      have h2 : c - 2 ≠ 0 := by linarith
      refine hasVar_of_raw hm hn k0 (k1 (by linarith)) (k2 h) ?_
      field_simp
      ring
    · exact lomax_none 2 c hc (by push_cast; linarith)
  · simp only [Lomax.stats, Pareto.stats]
    split_ifs with h
    · have h1 : 0 < c - 1 := by linarith
      have h2 : 0 < c - 2 := by linarith
      have h3 : 0 < c - 3 := by linarith
      refine hasSkew_of_raw (v := c / (c - 2) / (c - 1) ^ 2) hm hn k0 (k1 (by linarith))
        (k2 (by linarith)) (k3 h) ?_ (fun hv => ?_)
      · field_simp
        ring
      · have e : √(c / (c - 2) / (c - 1) ^ 2) = √c / √(c - 2) / (c - 1) := by
          rw [sqrt_div (by positivity), sqrt_div hc.le, sqrt_sq h1.le]
        rw [rpow_threehalf hv.le, e]
        have a1 := sqrt_pos.2 hc
        have a2 := sqrt_pos.2 h2
        generalize √(c - 2) = w at *
        generalize √c = w' at *
        field_simp
        ring
    · exact lomax_none 3 c hc (by push_cast; linarith)
  · simp only [Lomax.stats, Pareto.stats]
    split_ifs with h
    · have h1 : c - 1 ≠ 0 := by linarith
      have h2 : c - 2 ≠ 0 := by linarith
      have h3 : c - 3 ≠ 0 := by linarith
      have h4 : c - 4 ≠ 0 := by linarith
      refine hasKurt_of_raw (v := c / (c - 2) / (c - 1) ^ 2) hm hn k0 (k1 (by linarith))
        (k2 (by linarith)) (k3 (by linarith)) (k4 h) ?_ (fun hv => ?_)
      · field_simp
        ring
      · have e : ((1 * c + -7) * c + 12) * c + 0 = c * (c - 3) * (c - 4) := by ring
        rw [e]
        field_simp
        ring
    · exact lomax_none 4 c hc (by push_cast; linarith)

example : (0 : ℝ) < 3 ∧ (Lomax.stats 3).1 = .fin (1 / 2) ∧ (Lomax.stats 3).2.2.1 = .nan := by
  refine ⟨by norm_num, ?_, ?_⟩
  · simp only [Lomax.stats, Pareto.stats]
    rw [if_pos (by norm_num)]
    simp only [Val.shift]
    norm_num
  · simp only [Lomax.stats, Pareto.stats]
    rw [if_neg (by norm_num)]

/-! ### Log-Laplace -/

theorem loglaplace_tail (c x : ℝ) (n : ℕ) (hx : x ∈ Ioi (1 : ℝ)) :
    x ^ n * LogLaplace.pdf c x = c / 2 * x ^ (n - c - 1) := by
  have h1 := mem_Ioi.1 hx
  have h0 : 0 < x := by linarith
  simp only [LogLaplace.pdf]
  rw [if_neg (by linarith), ← rpow_natCast x n, show (n : ℝ) - c - 1 = n + (-c - 1) by ring,
    rpow_add h0]
  ring

/-- `_munp` of the log-Laplace distribution for the moments which exist. -/
theorem C261_loglaplace_partial (n : ℕ) (c : ℝ) (hc : 0 < c) (h : n < c) :
    HasMoment (Ioi 0) (LogLaplace.pdf c) n (LogLaplace.munp n c) := by
  have h1 : HasInt (Ioo 0 1) (fun x => x ^ n * LogLaplace.pdf c x) (c / 2 * (1 / (n + c))) := by
    refine ((hasInt_rpow (s := n + (c - 1)) ?_).const_mul (c / 2)).congr measurableSet_Ioo
      (fun x hx => ?_) ?_
    · have := n.cast_nonneg (α := ℝ)
      linarith
    · simp only [LogLaplace.pdf]
      rw [if_pos hx.2, ← rpow_natCast x n, rpow_add hx.1]
      ring
    · rw [show (n : ℝ) + (c - 1) + 1 = n + c by ring]
  have h2 : HasInt (Ioi 1) (fun x => x ^ n * LogLaplace.pdf c x) (c / 2 * (1 / (c - n))) := by
    have hlt : (n : ℝ) - c - 1 < -1 := by linarith
    have : HasInt (Ioi 1) (fun x : ℝ => x ^ ((n : ℝ) - c - 1)) _ :=
      ⟨integrableOn_Ioi_rpow_of_lt hlt one_pos, integral_Ioi_rpow_of_lt hlt one_pos⟩
    refine (this.const_mul (c / 2)).congr measurableSet_Ioi
      (fun x hx => loglaplace_tail c x n hx) ?_
    rw [one_rpow, show (n : ℝ) - c - 1 + 1 = -(c - n) by ring, neg_div_neg_eq]
  have i1 : IntegrableOn (fun x => x ^ n * LogLaplace.pdf c x) (Ioc 0 1) :=
    (integrableOn_Ioc_iff_integrableOn_Ioo).2 h1.1
  have e1 : ∫ x in Ioc 0 1, x ^ n * LogLaplace.pdf c x = c / 2 * (1 / (n + c)) := by
    rw [integral_Ioc_eq_integral_Ioo]
    exact h1.2
  have hu : Ioc (0 : ℝ) 1 ∪ Ioi 1 = Ioi 0 := Ioc_union_Ioi_eq_Ioi zero_le_one
  have hd : Disjoint (Ioc (0 : ℝ) 1) (Ioi 1) := by
    rw [Set.disjoint_left]
    intro x h h'
    exact absurd h.2 (not_le.2 h')
  refine ⟨hu ▸ i1.union h2.1, ?_⟩
  rw [← hu, setIntegral_union hd measurableSet_Ioi i1 h2.1, e1, h2.2, LogLaplace.munp]
  have a1 : c - n ≠ 0 := by linarith
  have a2 : (n : ℝ) + c ≠ 0 := by positivity
  have a3 : c ^ 2 - (n : ℝ) ^ 2 = (c - n) * (n + c) := by ring
  rw [a3]
  field_simp
  ring

example : ((1 : ℕ) : ℝ) < 2 ∧ LogLaplace.munp 1 2 = 4 / 3 := by
  refine ⟨by norm_num, ?_⟩
  simp only [LogLaplace.munp]
  norm_num

theorem loglaplace_none (n : ℕ) (c : ℝ) (hc : 0 < c) (h : c ≤ n) :
    NoMoment (Ioi 0) (LogLaplace.pdf c) n := by
  intro hi
  have h1 := hi.mono_set (show Ioi (1 : ℝ) ⊆ Ioi 0 from Ioi_subset_Ioi zero_le_one)
  have h2 : IntegrableOn (fun x : ℝ => x ^ ((n : ℝ) - c - 1)) (Ioi 1) := by
    refine IntegrableOn.congr_fun (h1.const_mul (2 / c)) (fun x hx => ?_) measurableSet_Ioi
    rw [loglaplace_tail c x n hx]
    field_simp
  rw [integrableOn_Ioi_rpow_iff one_pos] at h2
  linarith

/-- The full claim fails: a moment which does not exist is reported as a finite, even negative,
number.  Here the second moment for `c = 1`. -/
theorem C261_loglaplace_no_moment :
    NoMoment (Ioi 0) (LogLaplace.pdf 1) 2 ∧ LogLaplace.munp 2 1 = -1 / 3 :=
  ⟨loglaplace_none 2 1 one_pos (by norm_num), by simp only [LogLaplace.munp]; norm_num⟩

/-! ### Cauchy -/

theorem cauchy_tail (n : ℕ) (hn : 1 ≤ n) (k : ℝ) (hk : 0 < k) :
    ¬ IntegrableOn (fun x : ℝ => x ^ n * (k / (1 + x * x))) (Ioi 1) := by
  intro hi
  have h2 : IntegrableOn (fun x : ℝ => x ^ (-1 : ℝ)) (Ioi 1) := by
    refine Integrable.mono (hi.const_mul (2 / k)) ?_ ?_
    · refine ContinuousOn.aestronglyMeasurable (fun x hx => ?_) measurableSet_Ioi
      exact (continuousAt_rpow_const x _
        (Or.inl (by linarith [mem_Ioi.1 hx] : x ≠ 0))).continuousWithinAt
    · refine (ae_restrict_iff' measurableSet_Ioi).2 (Eventually.of_forall fun x hx => ?_)
      have hx1 := mem_Ioi.1 hx
      have hx0 : 0 < x := by linarith
      have hp : x ≤ x ^ n := by
        calc x = x ^ 1 := (pow_one x).symm
          _ ≤ x ^ n := pow_le_pow_right₀ hx1.le hn
      rw [norm_of_nonneg (rpow_nonneg hx0.le _), norm_of_nonneg (by positivity), rpow_neg_one]
      rw [show 2 / k * (x ^ n * (k / (1 + x * x))) = 2 * x ^ n / (1 + x * x) by field_simp,
        inv_eq_one_div, div_le_div_iff₀ hx0 (by positivity)]
      nlinarith
  rw [integrableOn_Ioi_rpow_iff one_pos] at h2
  linarith

theorem C261_cauchy : HasStats? univ Cauchy.pdf Cauchy.stats := by
  have h : ∀ n : ℕ, 1 ≤ n → NoMoment univ Cauchy.pdf n := fun n hn hi =>
    cauchy_tail n hn (1 / π) (by positivity) (hi.mono_set (subset_univ _))
  exact ⟨h 1 (by norm_num), h 2 (by norm_num), h 3 (by norm_num), h 4 (by norm_num)⟩

theorem C261_halfcauchy : HasStats? (Ioi 0) HalfCauchy.pdf HalfCauchy.stats := by
  have h : ∀ n : ℕ, 1 ≤ n → NoMoment (Ioi 0) HalfCauchy.pdf n := fun n hn hi =>
    cauchy_tail n hn (2 / π) (by positivity) (hi.mono_set (Ioi_subset_Ioi zero_le_one))
  exact ⟨h 1 (by norm_num), h 2 (by norm_num), h 3 (by norm_num), h 4 (by norm_num)⟩

example : Cauchy.stats.1 = .nan ∧ HalfCauchy.stats.1 = .inf := ⟨rfl, rfl⟩

/-! ### Truncated Rayleigh -/

theorem HasStats.congr {I : Set ℝ} (hI : MeasurableSet I) {f g : ℝ → ℝ} {s : ℝ × ℝ × ℝ × ℝ}
    (h : HasStats I f s) (e : ∀ x ∈ I, g x = f x) : HasStats I g s := by
  have hi : ∀ (k : ℝ → ℝ), IntegrableOn (fun x => k x * f x) I → IntegrableOn (fun x => k x * g x) I :=
    fun k hk => hk.congr_fun (fun x hx => by simp only [e x hx]) hI
  have he : ∀ (k : ℝ → ℝ), ∫ x in I, k x * g x = ∫ x in I, k x * f x :=
    fun k => setIntegral_congr_fun hI fun x hx => by simp only [e x hx]
  have hm : ∀ n m, HasMoment I f n m → HasMoment I g n m := fun n m hm =>
    ⟨hi _ hm.1, (he fun x => x ^ n).trans hm.2⟩
  have hv : ∀ v, HasVar I f v → HasVar I g v := fun v hv => by
    obtain ⟨m, h1, h2, h3, h4⟩ := hv
    exact ⟨m, hm _ _ h1, hi (fun x => (x - m) ^ 2) h2, (he fun x => (x - m) ^ 2).trans h3, h4⟩
  refine ⟨hm _ _ h.mean, hv _ h.var, ?_, ?_⟩
  · obtain ⟨m, v, h1, h2, h3, h4⟩ := h.skew
    refine ⟨m, v, hm _ _ h1, hv _ h2, hi (fun x => (x - m) ^ 3) h3, ?_⟩
    rw [he fun x => (x - m) ^ 3]
    exact h4
  · obtain ⟨m, v, h1, h2, h3, h4⟩ := h.kurt
    refine ⟨m, v, hm _ _ h1, hv _ h2, hi (fun x => (x - m) ^ 4) h3, ?_⟩
    rw [he fun x => (x - m) ^ 4]
    exact h4

/-- Without truncation the reported statistics are right. -/
theorem C261_truncrayleigh_partial : HasStats (Ioi 0) (TruncRayleigh.pdf 0) (TruncRayleigh.stats 0) := by
  refine C260_rayleigh.congr measurableSet_Ioi fun x hx => ?_
  have hx := mem_Ioi.1 hx
  rw [TruncRayleigh.pdf, Rayleigh.pdf, Rayleigh.logpdf, add_zero, exp_sub, exp_log hx,
    show -(x * x - 0 * 0) / 2 = -(0.5 * x * x) by ring_nf, exp_neg, div_eq_mul_inv]

theorem hasInt_pos {f : ℝ → ℝ} {v : ℝ} (h : ∀ x ∈ Ioo (0 : ℝ) 1, 0 < f x)
    (hv : HasInt (Ioo 0 1) f v) : 0 < v := by
  rw [← hv.2]
  refine (setIntegral_pos_iff_support_of_nonneg_ae ?_ hv.1).2 ?_
  · exact (ae_restrict_iff' measurableSet_Ioo).2 (Eventually.of_forall fun x hx => (h x hx).le)
  · have : Function.support f ∩ Ioo 0 1 = Ioo 0 1 :=
      inter_eq_right.2 fun x hx => (h x hx).ne'
    rw [this]
    simp

/-- The full claim fails: with any truncation the reported mean is wrong. -/
theorem C261_truncrayleigh_no_mean (c : ℝ) (hc : 0 < c) :
    ¬ HasMoment (Ioi 0) (TruncRayleigh.pdf c) 1 (TruncRayleigh.stats c).1 := by
  intro hm
  have h0 : HasMoment (Ioi 0) (TruncRayleigh.pdf 0) 1 (TruncRayleigh.stats c).1 :=
    C261_truncrayleigh_partial.mean
  have key : ∀ c : ℝ, 0 ≤ c → ∀ v, HasMoment (Ioi 0) (TruncRayleigh.pdf c) 1 v →
      HasInt (Ioo 0 1) (TruncRayleigh.ppf c) v := fun c hc v h => by
    have := (hasInt_ppf measurableSet_Ioi ordConnected_Ioi (C251_truncrayleigh c hc).1
      (C251_truncrayleigh c hc).2.1 (k := fun x => x ^ 1) (measurable_id.pow_const 1)).1 h
    simpa using this
  have h1 := key c hc.le _ hm
  have h2 := key 0 le_rfl _ h0
  have h3 := hasInt_pos (fun q hq => ?_) (h2.add (h1.const_mul (-1)))
  · linarith
  · have hl : 0 < -log1p (-q) := by
      have := log_neg (x := 1 + -q) (by linarith [hq.2]) (by linarith [hq.1])
      simp only [log1p]
      linarith
    simp only [TruncRayleigh.ppf]
    have h5 : √(c * c - 2 * log1p (-q)) < √(0 * 0 - 2 * log1p (-q)) + c := by
      rw [sqrt_lt' (by positivity)]
      have := sqrt_pos.2 (show 0 < 0 * 0 - 2 * log1p (-q) by linarith)
      have := sq_sqrt (show 0 ≤ 0 * 0 - 2 * log1p (-q) by linarith)
      nlinarith
    linarith

end Wafo.Dist
