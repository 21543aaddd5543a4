import Verif.Dist.SampleLemmas
import Verif.Dist.MomModel
import Verif.Dist.ParetoProps
import Verif.Dist.ExtremeProps
import Verif.Dist.MomWeibullProps

/-!
# C261: the reported moments of the distributions of power type are those of the densities
-/

namespace Wafo.Dist

open MeasureTheory Set Filter Topology Real

set_option linter.unusedSectionVars false

theorem hasInt_rpow {s : ℝ} (hs : -1 < s) : HasInt (Ioo 0 1) (fun q => q ^ s) (1 / (s + 1)) := by
  refine ⟨(intervalIntegral.integrableOn_Ioo_rpow_iff one_pos).2 hs, ?_⟩
  rw [← integral_Ioc_eq_integral_Ioo, ← intervalIntegral.integral_of_le zero_le_one,
    integral_rpow (Or.inl hs), one_rpow, zero_rpow (by linarith), sub_zero]

/-- Moments through the quantiles. -/
theorem moment_ppf {I : Set ℝ} {pdf cdf ppf : ℝ → ℝ} (hm : MeasurableSet I) (hI : OrdConnected I)
    (h : IsCdf I pdf cdf ∧ IsPpf I cdf ppf) {n : ℕ} {v : ℝ}
    (hv : HasInt (Ioo 0 1) (fun q => ppf q ^ n) v) : HasMoment I pdf n v :=
  (hasInt_ppf hm hI h.1 h.2 (k := fun x => x ^ n) (measurable_id.pow_const n)).2 hv

theorem noMoment_ppf {I : Set ℝ} {pdf cdf ppf : ℝ → ℝ} (hm : MeasurableSet I) (hI : OrdConnected I)
    (h : IsCdf I pdf cdf ∧ IsPpf I cdf ppf) {n : ℕ}
    (hv : ¬ IntegrableOn (fun q => ppf q ^ n) (Ioo 0 1)) : NoMoment I pdf n := by
  intro hi
  refine hv ((hasInt_ppf hm hI h.1 h.2 (k := fun x => x ^ n) (measurable_id.pow_const n)).1
    ⟨hi, rfl⟩).1

/-! ### Uniform and power law -/

theorem C261_uniform : HasStats (Ioo 0 1) Uniform.pdf Uniform.stats := by
  have hm : ∀ n : ℕ, HasMoment (Ioo 0 1) Uniform.pdf n (1 / (n + 1)) := fun n =>
    moment_ppf measurableSet_Ioo ordConnected_Ioo C253_uniform
      ((hasInt_rpow (s := n) (by linarith [n.cast_nonneg (α := ℝ)])).congr measurableSet_Ioo
        (fun q _ => (rpow_natCast q n).symm) rfl)
  have h0 := hm 0
  have h1 := hm 1
  have h2 := hm 2
  have h3 := hm 3
  have h4 := hm 4
  push_cast at h0 h1 h2 h3 h4
  rw [zero_add, div_one] at h0
  rw [show Uniform.stats = (1 / (1 + 1), 1 / 12, 0, -1.2) by
    rw [Uniform.stats]
    norm_num]
  exact hasStats_of_raw measurableSet_Ioo (fun x _ => zero_le_one) h0 h1 h2 h3 h4 (by norm_num)
    (fun _ => by norm_num) (fun _ => by norm_num)

example : Uniform.stats.2.1 = 1 / 12 := rfl

theorem powerlaw_moment (a : ℝ) (ha : 0 < a) (n : ℕ) :
    HasMoment (Ioo 0 1) (PowerLaw.pdf a) n (a / (a + n)) := by
  refine moment_ppf measurableSet_Ioo ordConnected_Ioo
    ⟨(C253_powerlaw a ha).1, (C253_powerlaw a ha).2.1⟩ ?_
  refine (hasInt_rpow (s := n / a) ?_).congr measurableSet_Ioo (fun q hq => ?_) ?_
  · have : 0 ≤ (n : ℝ) / a := by positivity
    linarith
  · rw [PowerLaw.ppf, ← rpow_natCast, ← rpow_mul hq.1.le, one_div_mul_eq_div]
  · field_simp
    ring

theorem C261_powerlaw (a : ℝ) (ha : 0 < a) :
    HasStats (Ioo 0 1) (PowerLaw.pdf a) (PowerLaw.stats a) := by
  have h0 := powerlaw_moment a ha 0
  have h1 := powerlaw_moment a ha 1
  have h2 := powerlaw_moment a ha 2
  have h3 := powerlaw_moment a ha 3
  have h4 := powerlaw_moment a ha 4
  push_cast at h0 h1 h2 h3 h4
  rw [add_zero, div_self ha.ne'] at h0
  refine hasStats_of_raw measurableSet_Ioo
    (fun x hx => mul_nonneg ha.le (rpow_nonneg hx.1.le _)) h0 h1 h2 h3 h4 ?_ (fun _ => ?_)
    (fun _ => ?_)
  · field_simp
    ring
  · have e : √((a + 2) / a) * √(a / (a + 2) / (a + 1) ^ 2) = 1 / (a + 1) := by
      rw [← sqrt_mul (by positivity), show (a + 2) / a * (a / (a + 2) / (a + 1) ^ 2) =
        (1 / (a + 1)) ^ 2 by field_simp, sqrt_sq (by positivity)]
    rw [rpow_threehalf (by positivity), show -2 * ((a - 1) / (a + 3)) * √((a + 2) / a) *
      (a / (a + 2) / (a + 1) ^ 2 * √(a / (a + 2) / (a + 1) ^ 2)) = -2 * ((a - 1) / (a + 3)) *
      (a / (a + 2) / (a + 1) ^ 2) * (√((a + 2) / a) * √(a / (a + 2) / (a + 1) ^ 2)) by ring, e]
    field_simp
    ring
  · field_simp
    ring

example : (0 : ℝ) < 2 ∧ (PowerLaw.stats 2).1 = 2 / 3 ∧ (PowerLaw.stats 2).2.1 = 1 / 18 := by
  refine ⟨by norm_num, ?_, ?_⟩ <;> simp only [PowerLaw.stats] <;> norm_num

/-! ### Pareto -/

theorem pareto_moment (b : ℝ) (hb : 0 < b) (n : ℕ) :
    (n < b → HasMoment (Ioi 1) (Pareto.pdf b) n (b / (b - n))) ∧
    (b ≤ n → NoMoment (Ioi 1) (Pareto.pdf b) n) := by
  have hc : IsCdf (Ioi 1) (Pareto.pdf b) (Pareto.cdf b) ∧
    IsPpf (Ioi 1) (Pareto.cdf b) (Pareto.ppf b) := ⟨(C253_pareto b hb).1, (C253_pareto b hb).2.1⟩
  have e : ∀ q ∈ Ioo (0 : ℝ) 1, q ^ (-n / b) = Pareto.ppf b (1 - q) ^ n := by
    intro q hq
    rw [Pareto.ppf, sub_sub_cancel, ← rpow_natCast, ← rpow_mul hq.1.le]
    congr 1
    ring
  constructor
  · intro h
    refine moment_ppf measurableSet_Ioi ordConnected_Ioi hc (hasInt_flip.1 ?_)
    have h1 : (n : ℝ) / b < 1 := (div_lt_one hb).2 h
    refine (hasInt_rpow (s := -n / b) (by rw [neg_div]; linarith)).congr measurableSet_Ioo
      (fun q hq => (e q hq).symm) ?_
    have : b - n ≠ 0 := by linarith
    have : -(n : ℝ) + b ≠ 0 := by linarith
    field_simp
    ring
  · intro h
    refine noMoment_ppf measurableSet_Ioi ordConnected_Ioi hc fun hi => ?_
    have h2 : HasInt (Ioo 0 1) (fun q => Pareto.ppf b q ^ n) _ := ⟨hi, rfl⟩
    have h3 := ((hasInt_flip (k := fun q => Pareto.ppf b q ^ n)).2 h2).1
    rw [integrableOn_congr_fun (fun q hq => (e q hq).symm) measurableSet_Ioo,
      intervalIntegral.integrableOn_Ioo_rpow_iff one_pos, neg_div] at h3
    have h1 : 1 ≤ (n : ℝ) / b := (one_le_div hb).2 h
    linarith

theorem C261_pareto (b : ℝ) (hb : 0 < b) :
    HasStats? (Ioi 1) (Pareto.pdf b) (Pareto.stats b) := by
  have hn : ∀ x ∈ Ioi (1 : ℝ), 0 ≤ Pareto.pdf b x := (C253_pareto b hb).1.nonneg
  have k0 : HasMoment (Ioi 1) (Pareto.pdf b) 0 1 := by
    have := (pareto_moment b hb 0).1 (by exact_mod_cast hb)
    push_cast at this
    rwa [sub_zero, div_self hb.ne'] at this
  have k1 : 1 < b → HasMoment (Ioi 1) (Pareto.pdf b) 1 (b / (b - 1)) := fun h => by
    have := (pareto_moment b hb 1).1 (by exact_mod_cast h)
    push_cast at this
    exact this
  have k2 : 2 < b → HasMoment (Ioi 1) (Pareto.pdf b) 2 (b / (b - 2)) := fun h => by
    have := (pareto_moment b hb 2).1 (by exact_mod_cast h)
    push_cast at this
    exact this
  have k3 : 3 < b → HasMoment (Ioi 1) (Pareto.pdf b) 3 (b / (b - 3)) := fun h => by
    have := (pareto_moment b hb 3).1 (by exact_mod_cast h)
    push_cast at this
    exact this
  have k4 : 4 < b → HasMoment (Ioi 1) (Pareto.pdf b) 4 (b / (b - 4)) := fun h => by
    have := (pareto_moment b hb 4).1 (by exact_mod_cast h)
    push_cast at this
    exact this
  constructor
  · simp only [Pareto.stats]
    split_ifs with h
    · exact k1 h
    · exact (pareto_moment b hb 1).2 (by exact_mod_cast not_lt.1 h)
  · simp only [Pareto.stats]
    split_ifs with h
    · have h1 : b - 1 ≠ 0 := by linarith
      have h2 : b - 2 ≠ 0 := by linarith
      refine hasVar_of_raw measurableSet_Ioi hn k0 (k1 (by linarith)) (k2 h) ?_
      field_simp
      ring
    · exact (pareto_moment b hb 2).2 (by exact_mod_cast not_lt.1 h)
  · simp only [Pareto.stats]
    split_ifs with h
    · have h1 : 0 < b - 1 := by linarith
      have h2 : 0 < b - 2 := by linarith
      have h3 : b - 3 ≠ 0 := by linarith
      have h1' := h1.ne'
      have h2' := h2.ne'
      refine hasSkew_of_raw (v := b / (b - 2) / (b - 1) ^ 2) measurableSet_Ioi hn k0
        (k1 (by linarith)) (k2 (by linarith)) (k3 h) ?_ (fun hv => ?_)
      · field_simp
        ring
      · have hs := sqrt_pos.2 h2
        have hb' := sqrt_pos.2 hb
        have e : √(b / (b - 2) / (b - 1) ^ 2) = √b / √(b - 2) / (b - 1) := by
          rw [sqrt_div (by positivity), sqrt_div hb.le, sqrt_sq h1.le]
        rw [rpow_threehalf hv.le, e]
        generalize √(b - 2) = w at *
        generalize √b = u at *
        field_simp
        ring
    · exact (pareto_moment b hb 3).2 (by exact_mod_cast not_lt.1 h)
  · simp only [Pareto.stats]
    split_ifs with h
    · have h1 : b - 1 ≠ 0 := by linarith
      have h2 : b - 2 ≠ 0 := by linarith
      have h3 : b - 3 ≠ 0 := by linarith
      have h4 : b - 4 ≠ 0 := by linarith
      refine hasKurt_of_raw (v := b / (b - 2) / (b - 1) ^ 2) measurableSet_Ioi hn k0
        (k1 (by linarith)) (k2 (by linarith)) (k3 (by linarith)) (k4 h) ?_ (fun hv => ?_)
      · field_simp
        ring
      · rw [show ((1 * b + -7) * b + 12) * b + 0 = b * (b - 3) * (b - 4) by ring]
        field_simp
        ring
    · exact (pareto_moment b hb 4).2 (by exact_mod_cast not_lt.1 h)

example : (0 : ℝ) < 3 / 2 ∧ (Pareto.stats (3 / 2)).1 = .fin 3 ∧
    (Pareto.stats (3 / 2)).2.1 = .inf := by
  refine ⟨by norm_num, ?_, ?_⟩
  · simp only [Pareto.stats]
    rw [if_pos (by norm_num)]
    norm_num
  · simp only [Pareto.stats]
    rw [if_neg (by norm_num)]

/-! ### Generalised Pareto and Lomax -/

theorem sum_range_hasInt {I : Set ℝ} (F : ℕ → ℝ → ℝ) (V : ℕ → ℝ) (N : ℕ)
    (h : ∀ k, k < N → HasInt I (F k) (V k)) :
    HasInt I (fun x => ∑ k ∈ Finset.range N, F k x) (∑ k ∈ Finset.range N, V k) := by
  induction N with
  | zero => exact ⟨by simp, by simp⟩
  | succ m ih =>
    simp only [Finset.sum_range_succ]
    exact (ih fun k hk => h k (by omega)).add (h m (by omega))

theorem list_sum_range (f : ℕ → ℝ) (n : ℕ) :
    ((List.range n).map f).sum = ∑ k ∈ Finset.range n, f k := by
  induction n with
  | zero => simp
  | succ m ih => simp [List.range_succ, Finset.sum_range_succ, ih]

/-- Powers of `(u ^ (-γ) - 1)` over the unit interval. -/
theorem boxcox_int (γ : ℝ) (n : ℕ) (h : γ * n < 1) :
    HasInt (Ioo 0 1) (fun u => (u ^ (-γ) - 1) ^ n)
      ((-1) ^ n * ((List.range (n + 1)).map fun k => (n.choose k : ℝ) * (-1) ^ k / (1 - γ * k)).sum) := by
  have hk : ∀ k : ℕ, k < n + 1 → γ * k < 1 := by
    intro k hk
    rcases le_or_gt γ 0 with h0 | h0
    · have : γ * k ≤ 0 := mul_nonpos_of_nonpos_of_nonneg h0 (Nat.cast_nonneg k)
      linarith
    · have : (k : ℝ) ≤ n := by exact_mod_cast (by omega : k ≤ n)
      nlinarith
  have := sum_range_hasInt (I := Ioo 0 1)
    (fun k u => ((n.choose k : ℝ) * (-1) ^ (n - k)) * u ^ (-γ * k)) _ (n + 1)
    (fun k hk' => (hasInt_rpow (s := -γ * k) (by linarith [hk k hk'])).const_mul _)
  refine this.congr measurableSet_Ioo (fun u hu => ?_) ?_
  · rw [sub_eq_add_neg, add_pow]
    refine Finset.sum_congr rfl fun k _ => ?_
    rw [← rpow_natCast (u ^ (-γ)), ← rpow_mul hu.1.le]
    ring
  · rw [list_sum_range, Finset.mul_sum]
    refine Finset.sum_congr rfl fun k hk' => ?_
    have hkn : k ≤ n := by
      have := Finset.mem_range.1 hk'
      omega
    have e : ((-1 : ℝ)) ^ n * (-1) ^ k = (-1) ^ (n - k) := by
      rw [← pow_add]
      rcases Nat.even_or_odd k with hev | hod
      · rw [pow_add, hev.neg_one_pow, mul_one]
        conv_lhs => rw [← Nat.sub_add_cancel hkn, pow_add, hev.neg_one_pow, mul_one]
      · rw [pow_add, hod.neg_one_pow]
        conv_lhs => rw [← Nat.sub_add_cancel hkn, pow_add, hod.neg_one_pow]
        ring
    have h3 := hk k (by omega)
    have h4 : 1 - γ * k ≠ 0 := by linarith
    rw [show -γ * (k : ℝ) + 1 = 1 - γ * k by ring, ← e]
    field_simp

theorem boxcox_not_int (γ : ℝ) (n : ℕ) (h : 1 ≤ γ * n) :
    ¬ IntegrableOn (fun u : ℝ => (u ^ (-γ) - 1) ^ n) (Ioo 0 1) := by
  intro hi
  have h2 : IntegrableOn (fun u : ℝ => u ^ (-γ * n)) (Ioo 0 1) := by
    have hc : IntegrableOn (fun _ : ℝ => (1 : ℝ)) (Ioo 0 1) := by simp
    refine Integrable.mono ((hi.add hc).const_mul (2 ^ n)) ?_ ?_
    · refine ContinuousOn.aestronglyMeasurable (fun x hx => ?_) measurableSet_Ioo
      exact (continuousAt_rpow_const x _ (Or.inl hx.1.ne')).continuousWithinAt
    · refine (ae_restrict_iff' measurableSet_Ioo).2 (Eventually.of_forall fun x hx => ?_)
      have hγ : 0 < γ := by
        by_contra hc
        have : γ * n ≤ 0 := mul_nonpos_of_nonpos_of_nonneg (not_lt.1 hc) (Nat.cast_nonneg n)
        linarith
      have hp := rpow_pos_of_pos hx.1 (-γ)
      have h1 : 1 ≤ x ^ (-γ) := by
        rw [rpow_neg hx.1.le]
        exact (one_le_inv₀ (rpow_pos_of_pos hx.1 γ)).2 (rpow_le_one hx.1.le hx.2.le hγ.le)
      have h0 : 0 ≤ (x ^ (-γ) - 1) ^ n := pow_nonneg (by linarith) n
      simp only [Pi.add_apply]
      rw [norm_of_nonneg (rpow_nonneg hx.1.le _), norm_of_nonneg (by positivity),
        rpow_mul hx.1.le, rpow_natCast]
      generalize x ^ (-γ) = y at *
      rcases le_total y 2 with hy | hy
      · have := pow_le_pow_left₀ hp.le hy n
        have h5 : (0 : ℝ) < 2 ^ n := by positivity
        nlinarith
      · have : y ≤ 2 * (y - 1) := by linarith
        have h6 := pow_le_pow_left₀ hp.le this n
        rw [mul_pow] at h6
        have h5 : (0 : ℝ) < 2 ^ n := by positivity
        nlinarith
  rw [intervalIntegral.integrableOn_Ioo_rpow_iff one_pos] at h2
  linarith

theorem genpareto_measurable (c : ℝ) : MeasurableSet (GenPareto.supp c) := by
  rcases lt_or_ge c 0 with h | h
  · have : GenPareto.supp c = Ioo 0 (-1 / c) := by
      ext x
      simp [GenPareto.supp, h]
    rw [this]
    exact measurableSet_Ioo
  · have : GenPareto.supp c = Ioi 0 := by
      ext x
      simp [GenPareto.supp, not_lt.2 h]
    rw [this]
    exact measurableSet_Ioi

theorem genpareto_ordConnected (c : ℝ) : OrdConnected (GenPareto.supp c) := by
  rcases lt_or_ge c 0 with h | h
  · have : GenPareto.supp c = Ioo 0 (-1 / c) := by
      ext x
      simp [GenPareto.supp, h]
    rw [this]
    exact ordConnected_Ioo
  · have : GenPareto.supp c = Ioi 0 := by
      ext x
      simp [GenPareto.supp, not_lt.2 h]
    rw [this]
    exact ordConnected_Ioi

theorem genpareto_zero_supp : GenPareto.supp 0 = Ioi 0 := by
  ext x
  simp [GenPareto.supp]

theorem genpareto_zero_pdf : GenPareto.pdf 0 = Expon.pdf := by
  funext x
  simp [GenPareto.pdf, GenPareto.logpdf, Expon.pdf]

/-- The raw moments of the generalised Pareto distribution, and where they do not exist. -/
theorem C261_genpareto_munp (n : ℕ) (c : ℝ) :
    Reports (HasMoment (GenPareto.supp c) (GenPareto.pdf c) n)
      (NoMoment (GenPareto.supp c) (GenPareto.pdf c) n) (GenPareto.munp n c) := by
  by_cases hc : c = 0
  · subst hc
    rw [GenPareto.munp, if_neg (by simp), genpareto_zero_supp, genpareto_zero_pdf]
    simp only [Reports]
    have := (gammaD_moment 1 one_pos n).congr measurableSet_Ioi expon_eq rfl
    rwa [Gamma_one, div_one, add_comm] at this
  · have hh := C252_genpareto c
    have hc' : IsCdf (GenPareto.supp c) (GenPareto.pdf c) (GenPareto.cdf c) ∧
      IsPpf (GenPareto.supp c) (GenPareto.cdf c) (GenPareto.ppf c) := ⟨hh.1, hh.2.1⟩
    have e : ∀ q ∈ Ioo (0 : ℝ) 1, GenPareto.ppf c (1 - q) ^ n = (1 / c) ^ n * (q ^ (-c) - 1) ^ n := by
      intro q hq
      rw [GenPareto.ppf, boxcox1p, if_neg (neg_ne_zero.2 hc), ← mul_pow]
      congr 1
      rw [show 1 + -(1 - q) = q by ring]
      field_simp
    rw [GenPareto.munp, if_pos hc]
    simp only []
    split_ifs with h
    · simp only [Reports]
      refine moment_ppf (genpareto_measurable c) (genpareto_ordConnected c) hc' (hasInt_flip.1 ?_)
      refine ((boxcox_int c n h).const_mul ((1 / c) ^ n)).congr measurableSet_Ioo e ?_
      rw [← mul_assoc, ← mul_pow, show 1 / c * -1 = -1 / c by ring]
      ring
    · simp only [Reports]
      refine noMoment_ppf (genpareto_measurable c) (genpareto_ordConnected c) hc' fun hi => ?_
      have h2 : HasInt (Ioo 0 1) (fun q => GenPareto.ppf c q ^ n) _ := ⟨hi, rfl⟩
      have h3 := ((hasInt_flip (k := fun q => GenPareto.ppf c q ^ n)).2 h2).1
      rw [integrableOn_congr_fun e measurableSet_Ioo] at h3
      refine boxcox_not_int c n (not_lt.1 h) ?_
      refine (integrableOn_congr_fun (fun q _ => ?_) measurableSet_Ioo).1
        (h3.const_mul (((1 / c) ^ n)⁻¹))
      field_simp

example : GenPareto.munp 1 (1 / 2) = .fin 2 ∧ GenPareto.munp 2 (1 / 2) = .inf := by
  constructor
  · rw [GenPareto.munp, if_pos (by norm_num)]
    simp only []
    rw [if_pos (by norm_num)]
    simp [List.range_succ]
    norm_num
  · rw [GenPareto.munp, if_pos (by norm_num)]
    simp only []
    rw [if_neg (by norm_num)]

theorem genpareto_raw (n : ℕ) (c : ℝ) (hc : c ≠ 0) (h : c * n < 1) :
    HasMoment (GenPareto.supp c) (GenPareto.pdf c) n
      (((List.range (n + 1)).map fun k => (n.choose k : ℝ) * (-1) ^ k / (1 - c * k)).sum *
        (-1 / c) ^ n) := by
  have := C261_genpareto_munp n c
  rw [GenPareto.munp, if_pos hc] at this
  simp only [] at this
  rw [if_pos h] at this
  exact this

theorem genpareto_none (n : ℕ) (c : ℝ) (hc : c ≠ 0) (h : 1 ≤ c * n) :
    NoMoment (GenPareto.supp c) (GenPareto.pdf c) n := by
  have := C261_genpareto_munp n c
  rw [GenPareto.munp, if_pos hc] at this
  simp only [] at this
  rw [if_neg (not_lt.2 h)] at this
  exact this

theorem C261_genpareto (c : ℝ) :
    HasStats? (GenPareto.supp c) (GenPareto.pdf c) (GenPareto.stats c) := by
  by_cases hc : c = 0
  · subst hc
    rw [genpareto_zero_supp, genpareto_zero_pdf]
    have h := C260_expon
    have e : GenPareto.stats 0 = (.fin 1, .fin 1, .fin 2, .fin 6) := by
      simp [GenPareto.stats]
      norm_num
    rw [e]
    exact ⟨h.mean, h.var, h.skew, h.kurt⟩
  · have hn : ∀ x ∈ GenPareto.supp c, 0 ≤ GenPareto.pdf c x := fun x _ => (exp_pos _).le
    have hm := genpareto_measurable c
    have k0 : HasMoment (GenPareto.supp c) (GenPareto.pdf c) 0 1 := by
      have := genpareto_raw 0 c hc (by simp)
      simpa using this
    have k1 : c < 1 → HasMoment (GenPareto.supp c) (GenPareto.pdf c) 1 (1 / (1 - c)) := by
      intro h
      have h1 : 1 - c ≠ 0 := by linarith
      convert genpareto_raw 1 c hc (by simpa using h) using 1
      simp [List.range_succ]
      field_simp
      ring
    have k2 : c < 1 / 2 → HasMoment (GenPareto.supp c) (GenPareto.pdf c) 2
        (2 / ((1 - c) * (1 - 2 * c))) := by
      intro h
      have h1 : 1 - c ≠ 0 := by linarith
      have h2 : 1 - c * 2 ≠ 0 := by linarith
      have h2' : 1 - 2 * c ≠ 0 := by linarith
      convert genpareto_raw 2 c hc (by push_cast; linarith) using 1
      simp [List.range_succ]
      field_simp
      ring
    have k3 : c < 1 / 3 → HasMoment (GenPareto.supp c) (GenPareto.pdf c) 3
        (6 / ((1 - c) * (1 - 2 * c) * (1 - 3 * c))) := by
      intro h
      have h1 : 1 - c ≠ 0 := by linarith
      have h2 : 1 - c * 2 ≠ 0 := by linarith
      have h2' : 1 - 2 * c ≠ 0 := by linarith
      have h3 : 1 - c * 3 ≠ 0 := by linarith
      have h3' : 1 - 3 * c ≠ 0 := by linarith
      convert genpareto_raw 3 c hc (by push_cast; linarith) using 1
      simp [List.range_succ, Nat.choose]
      field_simp
      ring
    have k4 : c < 1 / 4 → HasMoment (GenPareto.supp c) (GenPareto.pdf c) 4
        (24 / ((1 - c) * (1 - 2 * c) * (1 - 3 * c) * (1 - 4 * c))) := by
      intro h
      have h1 : 1 - c ≠ 0 := by linarith
      have h2 : 1 - c * 2 ≠ 0 := by linarith
      have h2' : 1 - 2 * c ≠ 0 := by linarith
      have h3 : 1 - c * 3 ≠ 0 := by linarith
      have h3' : 1 - 3 * c ≠ 0 := by linarith
      have h4 : 1 - c * 4 ≠ 0 := by linarith
      have h4' : 1 - 4 * c ≠ 0 := by linarith
      convert genpareto_raw 4 c hc (by push_cast; linarith) using 1
      simp [List.range_succ, Nat.choose]
      field_simp
      ring
    constructor
    · simp only [GenPareto.stats]
      split_ifs with h
      · exact k1 h
      · exact genpareto_none 1 c hc (by push_cast; linarith)
    · simp only [GenPareto.stats]
      split_ifs with h
      · have h1 : 1 - c ≠ 0 := by linarith
        have h2' : 1 - 2 * c ≠ 0 := by linarith
        have q2 : 1 - c * 2 ≠ 0 := by linarith
        refine hasVar_of_raw hm hn k0 (k1 (by linarith)) (k2 h) ?_
        field_simp
        ring
      · exact genpareto_none 2 c hc (by push_cast; linarith)
    · simp only [GenPareto.stats]
      split_ifs with h
      · have h1 : 0 < 1 - c := by linarith
        have h2 : 0 < 1 - 2 * c := by linarith
        have q2 : 1 - c * 2 ≠ 0 := by linarith
        have h3' : 1 - 3 * c ≠ 0 := by linarith
        have q3 : 1 - c * 3 ≠ 0 := by linarith
        have h1' := h1.ne'
        have h2' := h2.ne'
        refine hasSkew_of_raw (v := 1 / (1 - c) ^ 2 / (1 - 2 * c)) hm hn k0
          (k1 (by linarith)) (k2 (by linarith)) (k3 h) ?_ (fun hv => ?_)
        · field_simp
          ring
        · have hs := sqrt_pos.2 h2
          have e : √(1 / (1 - c) ^ 2 / (1 - 2 * c)) = 1 / (1 - c) / √(1 - 2 * c) := by
            rw [sqrt_div (by positivity), sqrt_div zero_le_one, sqrt_one, sqrt_sq h1.le]
          rw [rpow_threehalf hv.le, e]
          generalize √(1 - 2 * c) = w at *
          field_simp
          ring
      · exact genpareto_none 3 c hc (by push_cast; linarith)
    · simp only [GenPareto.stats]
      split_ifs with h
      · have h1 : 1 - c ≠ 0 := by linarith
        have h2' : 1 - 2 * c ≠ 0 := by linarith
        have q2 : 1 - c * 2 ≠ 0 := by linarith
        have h3' : 1 - 3 * c ≠ 0 := by linarith
        have q3 : 1 - c * 3 ≠ 0 := by linarith
        have h4' : 1 - 4 * c ≠ 0 := by linarith
        have q4 : 1 - c * 4 ≠ 0 := by linarith
        refine hasKurt_of_raw (v := 1 / (1 - c) ^ 2 / (1 - 2 * c)) hm hn k0
          (k1 (by linarith)) (k2 (by linarith)) (k3 (by linarith)) (k4 h) ?_ (fun hv => ?_)
        · field_simp
          ring
        · field_simp
          ring
      · exact genpareto_none 4 c hc (by push_cast; linarith)

example : (GenPareto.stats (-1)).1 = .fin (1 / 2) ∧ (GenPareto.stats 1).1 = .inf := by
  constructor
  · simp only [GenPareto.stats]
    rw [if_pos (by norm_num)]
    norm_num
  · simp only [GenPareto.stats]
    rw [if_neg (by norm_num)]

end Wafo.Dist
