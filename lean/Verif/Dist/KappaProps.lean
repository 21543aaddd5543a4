import Verif.Dist.ExtremeProps

/-!
# C257: the functions of the kappa distribution with four parameters fit together
-/

namespace Wafo.Dist

open MeasureTheory Set Filter Topology Real

set_option linter.unusedSectionVars false

/-- The variable in which the distribution is a generalized Pareto distribution. -/
noncomputable def kappaVar (k x : ℝ) : ℝ := exp (GenExtreme.loglogcdf k x)

theorem kappaVar_zero {x : ℝ} : kappaVar 0 x = exp (-x) := by
  simp [kappaVar, GenExtreme.loglogcdf]

theorem kappaVar_ne {k x : ℝ} (hk : k ≠ 0) (hx : 0 < 1 + -k * x) :
    kappaVar k x = (1 - k * x) ^ (1 / k) := by
  have h : 1 + -k * x = 1 - k * x := by ring
  unfold kappaVar GenExtreme.loglogcdf log1p
  rw [if_pos hk, h, rpow_def_of_pos (h ▸ hx)]
  congr 1
  ring

theorem kappa_mem {h k x : ℝ} :
    x ∈ Kappa4.supp h k ↔ 0 < 1 + -k * x ∧ kappaVar k x ∈ GenPareto.supp (-h) := by
  have hgp : kappaVar k x ∈ GenPareto.supp (-h) ↔ (0 < h → GenExtreme.loglogcdf k x < -log h) := by
    unfold GenPareto.supp kappaVar
    constructor
    · rintro ⟨-, h2⟩ hh
      have h3 := h2 (by linarith)
      rw [neg_div_neg_eq, one_div, ← exp_log (inv_pos.2 hh), exp_lt_exp, log_inv] at h3
      exact h3
    · intro h2
      refine ⟨exp_pos _, fun hh => ?_⟩
      have hh : 0 < h := by linarith
      rw [neg_div_neg_eq, one_div, ← exp_log (inv_pos.2 hh), exp_lt_exp, log_inv]
      exact h2 hh
  rw [hgp]
  have hy : 1 + -k * x = 1 - k * x := by ring
  rw [hy]
  simp only [Kappa4.supp, mem_ofPred_eq]
  rcases lt_trichotomy k 0 with hk | hk | hk
  · rw [if_neg (by rintro ⟨-, h2⟩; linarith), if_neg (by rintro ⟨-, h2⟩; linarith),
      if_neg (not_lt.2 hk.le)]
    simp only [and_true]
    rcases lt_or_ge 0 h with hh | hh
    · rw [if_pos ⟨hh, hk⟩, div_lt_iff_of_neg hk]
      have hp := rpow_pos_of_pos hh (-k)
      constructor
      · intro h1
        have h2 : 0 < 1 - k * x := by linarith
        refine ⟨h2, fun _ => ?_⟩
        rw [GenExtreme.loglogcdf, if_pos hk.ne, log1p, hy, div_lt_iff_of_neg hk]
        have h3 : log (h ^ (-k)) < log (1 - k * x) := log_lt_log hp (by linarith)
        rw [log_rpow hh] at h3
        linarith
      · rintro ⟨h2, h3⟩
        have h3 := h3 hh
        rw [GenExtreme.loglogcdf, if_pos hk.ne, log1p, hy, div_lt_iff_of_neg hk] at h3
        have h4 : log (h ^ (-k)) < log (1 - k * x) := by
          rw [log_rpow hh]
          linarith
        have := (log_lt_log_iff hp h2).1 h4
        linarith
    · rw [if_neg (by rintro ⟨h2, -⟩; linarith), if_pos ⟨hh, hk⟩, div_lt_iff_of_neg hk]
      constructor
      · intro h1
        exact ⟨by linarith, fun h2 => absurd h2 (not_lt.2 hh)⟩
      · rintro ⟨h1, -⟩
        linarith
  · subst hk
    have h0 : GenExtreme.loglogcdf 0 x = -x := by simp [GenExtreme.loglogcdf]
    rw [h0]
    by_cases hh : 0 < h
    · simp [hh]
    · simp [hh]
  · rw [if_pos hk, lt_div_iff₀ hk]
    rcases lt_or_ge 0 h with hh | hh
    · rw [if_pos ⟨hh, hk⟩, div_lt_iff₀ hk]
      have hp := rpow_pos_of_pos hh (-k)
      constructor
      · rintro ⟨h1, h2⟩
        have h2 : 0 < 1 - k * x := by linarith
        refine ⟨h2, fun _ => ?_⟩
        rw [GenExtreme.loglogcdf, if_pos hk.ne', log1p, hy, div_lt_iff₀ hk]
        have h3 : log (1 - k * x) < log (h ^ (-k)) := log_lt_log h2 (by linarith)
        rw [log_rpow hh] at h3
        linarith
      · rintro ⟨h2, h3⟩
        have h3 := h3 hh
        rw [GenExtreme.loglogcdf, if_pos hk.ne', log1p, hy, div_lt_iff₀ hk] at h3
        have h4 : log (1 - k * x) < log (h ^ (-k)) := by
          rw [log_rpow hh]
          linarith
        have := (log_lt_log_iff h2 hp).1 h4
        constructor <;> linarith
    · rw [if_neg (by rintro ⟨h2, -⟩; linarith), if_neg (by rintro ⟨h2, -⟩; linarith),
        if_neg (by rintro ⟨h2, -⟩; linarith), if_neg (by rintro ⟨-, h2⟩; linarith)]
      constructor
      · rintro ⟨-, h1⟩
        exact ⟨by linarith, fun h2 => absurd h2 (not_lt.2 hh)⟩
      · rintro ⟨h1, -⟩
        exact ⟨trivial, by linarith⟩

theorem kappa_open (h k : ℝ) : IsOpen (Kappa4.supp h k) ∧ OrdConnected (Kappa4.supp h k) := by
  have hI : ∀ a : ℝ, {x : ℝ | a < x} = Ioi a := fun _ => rfl
  have hJ : ∀ a : ℝ, {x : ℝ | x < a} = Iio a := fun _ => rfl
  simp only [Kappa4.supp, ofPred_and]
  constructor
  · refine IsOpen.inter ?_ ?_
    · split_ifs
      · exact isOpen_Ioi
      · exact isOpen_Ioi
      · exact isOpen_Ioi
      · exact isOpen_Ioi
      · exact isOpen_univ
    · split_ifs
      · exact isOpen_Iio
      · exact isOpen_univ
  · refine OrdConnected.inter ?_ ?_
    · split_ifs
      · exact ordConnected_Ioi
      · exact ordConnected_Ioi
      · exact ordConnected_Ioi
      · exact ordConnected_Ioi
      · exact ordConnected_univ
    · split_ifs
      · exact ordConnected_Iio
      · exact ordConnected_univ

theorem kappa_logcdf {h k x : ℝ} (hx : 0 < 1 + -k * x) :
    Kappa4.logcdf h k x = GenPareto.logsf (-h) (kappaVar k x) := by
  unfold Kappa4.logcdf GenPareto.logsf
  by_cases hk : k = 0
  · subst hk
    rw [kappaVar_zero]
    by_cases hh : h = 0
    · simp [hh]
    · simp [hh]
      ring
  · rw [kappaVar_ne hk hx]
    by_cases hh : h = 0
    · simp [hh, hk]
    · simp [hh, hk]
      ring

theorem kappa_cdf {h k x : ℝ} (hx : x ∈ Kappa4.supp h k) :
    Kappa4.cdf h k x = 1 - GenPareto.cdf (-h) (kappaVar k x) := by
  obtain ⟨h1, h2⟩ := kappa_mem.1 hx
  rw [gp_cdf, gp_sf h2, Kappa4.cdf, kappa_logcdf h1]
  ring

theorem kappa_logpdf {h k x : ℝ} (hx : 0 < 1 + -k * x) :
    Kappa4.logpdf h k x =
      GenPareto.logpdf (-h) (kappaVar k x) + GenExtreme.loglogcdf k x - log (1 + -k * x) := by
  unfold Kappa4.logpdf GenPareto.logpdf GenExtreme.loglogcdf xlog1py
  by_cases hk : k = 0
  · subst hk
    rw [kappaVar_zero]
    by_cases hh : h = 0
    · simp [hh]
      ring
    · simp [hh]
      field_simp
      ring
  · rw [kappaVar_ne hk hx]
    by_cases hh : h = 0
    · simp [hh, hk, log1p]
      field_simp
      ring
    · simp [hh, hk, log1p]
      field_simp
      ring

theorem kappaVar_deriv {k x : ℝ} (hx : 0 < 1 + -k * x) :
    HasDerivAt (kappaVar k) (-(kappaVar k x / (1 + -k * x))) x := by
  by_cases hk : k = 0
  · subst hk
    have hf : kappaVar 0 = fun y => exp (-y) := funext fun y => kappaVar_zero
    rw [hf]
    refine HasDerivAt.congr_deriv ((hasDerivAt_id x).neg.exp) ?_
    simp
  · have hf : kappaVar k = fun y => exp (log (1 + -k * y) / k) := by
      funext y
      simp [kappaVar, GenExtreme.loglogcdf, hk, log1p]
    rw [hf]
    refine HasDerivAt.congr_deriv
      ((((((hasDerivAt_id x).const_mul (-k)).const_add 1).log hx.ne').div_const k).exp) ?_
    simp only [id_eq, mul_one]
    field_simp

/-- The value of `_ppf` wherever the logarithms it takes exist. -/
noncomputable def kappaQuant (h k q : ℝ) : ℝ :=
  let y := GenPareto.ppf (-h) (1 - q)
  if k ≠ 0 then 1 / k * (1 - y ^ k) else -log y

theorem kappa_quant (h k : ℝ) :
    IsPpf (Kappa4.supp h k) (Kappa4.cdf h k) (kappaQuant h k) := by
  have hp := (gp_ppf (-h)).rev.comp (J := Kappa4.supp h k) (g := kappaVar k)
    (gi := fun y => if k ≠ 0 then 1 / k * (1 - y ^ k) else -log y)
    (fun x hx => (kappa_mem.1 hx).2)
    (fun y hy => by
      have hy0 : 0 < y := hy.1
      by_cases hk : k = 0
      · subst hk
        simp only [ne_eq, not_true_eq_false, if_false]
        refine kappa_mem.2 ⟨by simp, ?_⟩
        rw [kappaVar_zero, neg_neg, exp_log hy0]
        exact hy
      · simp only [ne_eq, hk, not_false_eq_true, if_true]
        have h1 : 1 - k * (1 / k * (1 - y ^ k)) = y ^ k := by field_simp; ring
        have h2 : 0 < 1 + -k * (1 / k * (1 - y ^ k)) := by
          rw [show 1 + -k * (1 / k * (1 - y ^ k)) = 1 - k * (1 / k * (1 - y ^ k)) by ring, h1]
          exact rpow_pos_of_pos hy0 _
        refine kappa_mem.2 ⟨h2, ?_⟩
        rw [kappaVar_ne hk h2, h1, ← rpow_mul hy0.le, mul_one_div_cancel hk, rpow_one]
        exact hy)
    (fun x hx => by
      have h1 := (kappa_mem.1 hx).1
      by_cases hk : k = 0
      · subst hk
        simp only [ne_eq, not_true_eq_false, if_false]
        rw [kappaVar_zero, log_exp, neg_neg]
      · simp only [ne_eq, hk, not_false_eq_true, if_true]
        rw [kappaVar_ne hk h1, ← rpow_mul (by linarith), one_div_mul_cancel hk, rpow_one]
        field_simp
        ring)
    (fun y hy => by
      have hy0 : 0 < y := hy.1
      by_cases hk : k = 0
      · subst hk
        simp only [ne_eq, not_true_eq_false, if_false]
        rw [kappaVar_zero, neg_neg, exp_log hy0]
      · simp only [ne_eq, hk, not_false_eq_true, if_true]
        have h1 : 1 - k * (1 / k * (1 - y ^ k)) = y ^ k := by field_simp; ring
        have h2 : 0 < 1 + -k * (1 / k * (1 - y ^ k)) := by
          rw [show 1 + -k * (1 / k * (1 - y ^ k)) = 1 - k * (1 / k * (1 - y ^ k)) by ring, h1]
          exact rpow_pos_of_pos hy0 _
        rw [kappaVar_ne hk h2, h1, ← rpow_mul hy0.le, mul_one_div_cancel hk, rpow_one])
  refine hp.congr ?_ ?_
  · intro x hx
    exact kappa_cdf hx
  · intro q _ _
    rfl

/-- For all values of the two parameters `_cdf` is the distribution function of the density `_pdf`
on the interval of `_get_support`, and `_logpdf`, `_logcdf` are the logarithms. -/
theorem C257_kappa4 (h k : ℝ) :
    IsCdf (Kappa4.supp h k) (Kappa4.pdf h k) (Kappa4.cdf h k) ∧
    IsLog (Kappa4.supp h k) (Kappa4.pdf h k) (Kappa4.logpdf h k) ∧
    IsLog (Kappa4.supp h k) (Kappa4.cdf h k) (Kappa4.logcdf h k) := by
  refine ⟨isCdf_of_ppf (kappa_open h k).1 (kappa_open h k).2 ?_ (fun x _ => (exp_pos _).le)
    (kappa_quant h k), fun x _ => ⟨exp_pos _, (log_exp _).symm⟩,
    fun x _ => ⟨exp_pos _, (log_exp _).symm⟩⟩
  intro x hx
  obtain ⟨h1, h2⟩ := kappa_mem.1 hx
  have hev : ∀ᶠ y in 𝓝 x, Kappa4.cdf h k y = 1 - GenPareto.cdf (-h) (kappaVar k y) := by
    filter_upwards [(kappa_open h k).1.mem_nhds hx] with y hy using kappa_cdf hy
  refine HasDerivAt.congr_of_eventuallyEq ?_ hev
  refine HasDerivAt.congr_deriv (((gp_deriv h2).comp x (kappaVar_deriv h1)).const_sub 1) ?_
  unfold Kappa4.pdf GenPareto.pdf
  rw [kappa_logpdf h1, exp_sub, exp_add, exp_log h1]
  unfold kappaVar
  ring

example : (0 : ℝ) ∈ Kappa4.supp (-1) 0 ∧ Kappa4.cdf (-1) 0 0 = 1 / 2 := by
  constructor
  · simp [Kappa4.supp]
  · have : Kappa4.logcdf (-1) 0 0 = -log 2 := by
      simp [Kappa4.logcdf, log1p]
      norm_num
    rw [Kappa4.cdf, this, exp_neg, exp_log two_pos]
    norm_num

/-- `_ppf` is the inverse of `_cdf`, unless `k = 0` and `h < 0`. -/
theorem C257_ppf_partial (h k : ℝ) (hk : k ≠ 0 ∨ 0 ≤ h) :
    ∃ P : ℝ → ℝ, (∀ q, 0 < q → q < 1 → Kappa4.ppf h k q = some (P q)) ∧
      IsPpf (Kappa4.supp h k) (Kappa4.cdf h k) P := by
  refine ⟨kappaQuant h k, ?_, kappa_quant h k⟩
  intro q h0 h1
  have hy : h ≠ 0 → GenPareto.ppf (-h) (1 - q) = (1 - q ^ h) / h := by
    intro hh
    unfold GenPareto.ppf boxcox1p
    rw [neg_neg, if_neg hh, show 1 + -(1 - q) = q by ring]
    ring
  have hy' : h = 0 → GenPareto.ppf (-h) (1 - q) = -log q := by
    intro hh
    unfold GenPareto.ppf boxcox1p
    rw [neg_neg, if_pos hh, show 1 + -(1 - q) = q by ring]
  unfold Kappa4.ppf kappaQuant
  by_cases hk0 : k = 0
  · subst hk0
    by_cases hh : h = 0
    · simp only [hh, ne_eq, not_true_eq_false, false_and, if_false, and_false]
      rw [← hh, hy' hh]
    · have hh0 : 0 < h := by
        rcases hk with h2 | h2
        · exact absurd rfl h2
        · exact lt_of_le_of_ne h2 (Ne.symm hh)
      have h3 : 0 < 1 + -(q ^ h) := by
        have := rpow_lt_one h0.le h1 hh0
        linarith
      simp only [hh, ne_eq, not_true_eq_false, not_false_eq_true, if_false, and_false, true_and,
        if_true, hy hh, Kappa4.log?, if_pos h3, if_pos hh0, Option.bind_some, Option.map_some]
      congr 1
      rw [show (1 - q ^ h) / h = (1 + -(q ^ h)) / h by ring, log_div h3.ne' hh]
      ring
  · by_cases hh : h = 0
    · simp only [hh, hk0, ne_eq, not_true_eq_false, false_and, if_false, not_false_eq_true,
        true_and, if_true]
      rw [← hh, hy' hh]
    · simp only [hh, hk0, ne_eq, not_false_eq_true, and_self, if_true, hy hh]

example : Kappa4.ppf 1 0 (1 / 2) = some (log 2) := by
  have h1 : (0 : ℝ) < 1 + -((1 / 2 : ℝ) ^ (1 : ℝ)) := by norm_num
  simp only [Kappa4.ppf, Kappa4.log?, ne_eq, one_ne_zero, not_false_eq_true, not_true_eq_false,
    and_false, if_false, and_self, if_true, if_pos h1, zero_lt_one, Option.bind_some,
    Option.map_some, log_one, add_zero]
  rw [rpow_one, show (1 : ℝ) + -(1 / 2) = 2⁻¹ by norm_num, log_inv, neg_neg]

/-- For `k = 0` and `h < 0`, parameters which the class accepts, `_ppf` gives `nan` for every
probability, although the distribution has quantiles. -/
theorem C257_ppf_refuted (h : ℝ) (hh : h < 0) :
    (∀ q, 0 < q → q < 1 → Kappa4.ppf h 0 q = none) ∧
    ∃ P, IsPpf (Kappa4.supp h 0) (Kappa4.cdf h 0) P := by
  refine ⟨?_, kappaQuant h 0, kappa_quant h 0⟩
  intro q h0 h1
  have h3 : ¬ 0 < 1 + -(q ^ h) := by
    have := one_le_rpow_of_pos_of_le_one_of_nonpos h0 h1.le hh.le
    linarith
  simp [Kappa4.ppf, Kappa4.log?, hh.ne, h3]

example : Kappa4.ppf (-1) 0 (1 / 2) = none := (C257_ppf_refuted (-1) (by norm_num)).1 _ (by norm_num)
  (by norm_num)

end Wafo.Dist
