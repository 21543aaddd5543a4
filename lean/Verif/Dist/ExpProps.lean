import Verif.Dist.Model
import Verif.Dist.Lemmas
import Mathlib.Analysis.SpecialFunctions.ExpDeriv
import Mathlib.Analysis.SpecialFunctions.Pow.Deriv
import Mathlib.Analysis.SpecialFunctions.Sqrt

/-!
# C251: the functions of the exponential and Weibull distributions fit together
-/

namespace Wafo.Dist

open MeasureTheory Set Filter Topology Real

set_option linter.unusedSectionVars false

theorem one_lt_of_log {q : ℝ} (h0 : 0 < q) (h1 : q < 1) : 0 < -log q := by
  have := log_neg h0 h1
  linarith

theorem log1p_neg_pos {q : ℝ} (h0 : 0 < q) (h1 : q < 1) : 0 < -log (1 + -q) :=
  one_lt_of_log (by linarith) (by linarith)

theorem rpow_inv_cancel {x c : ℝ} (hx : 0 < x) (hc : c ≠ 0) : (x ^ c) ^ (1 / c) = x := by
  rw [← rpow_mul hx.le, mul_one_div_cancel hc, rpow_one]

theorem rpow_inv_cancel' {x c : ℝ} (hx : 0 < x) (hc : c ≠ 0) : (x ^ (1 / c)) ^ c = x := by
  rw [← rpow_mul hx.le, one_div_mul_cancel hc, rpow_one]

theorem xlogy_rpow {x c : ℝ} (hx : 0 < x) : exp (xlogy c x) = x ^ c := by
  rw [xlogy, rpow_def_of_pos hx, mul_comm]

/-- The exponential distribution. -/
theorem C251_expon :
    IsCdf (Ioi 0) Expon.pdf Expon.cdf ∧ IsPpf (Ioi 0) Expon.cdf Expon.ppf ∧
    IsSf (Ioi 0) Expon.cdf Expon.sf ∧ IsIsf Expon.ppf Expon.isf ∧
    IsLog (Ioi 0) Expon.pdf Expon.logpdf ∧ IsLog (Ioi 0) Expon.sf Expon.logsf := by
  have hp : IsPpf (Ioi 0) Expon.cdf Expon.ppf := by
    refine ⟨?_, ?_, ?_, ?_⟩
    · intro q h0 h1
      exact log1p_neg_pos h0 h1
    · intro q h0 h1
      simp only [Expon.cdf, Expon.ppf, expm1, log1p, neg_neg]
      rw [exp_log (by linarith)]
      ring
    · intro x hx
      have h1 : exp (-x) < 1 := by
        rw [exp_lt_one_iff]
        linarith [mem_Ioi.1 hx]
      have h2 := exp_pos (-x)
      simp only [Expon.cdf, expm1]
      constructor <;> linarith
    · intro x hx
      simp only [Expon.cdf, Expon.ppf, expm1, log1p, neg_neg]
      rw [show 1 + (exp (-x) - 1) = exp (-x) by ring, log_exp, neg_neg]
  refine ⟨isCdf_of_ppf isOpen_Ioi ordConnected_Ioi ?_ ?_ hp, hp, ?_, ?_, ?_, ?_⟩
  · intro x hx
    refine HasDerivAt.congr_deriv (((hasDerivAt_id x).neg.exp).sub_const 1).neg ?_
    simp [Expon.pdf]
  · intro x _
    exact (exp_pos _).le
  · intro x _
    simp only [Expon.cdf, Expon.sf, expm1]
    ring
  · intro q _ _
    simp only [Expon.isf, Expon.ppf, log1p]
    congr 2
    ring
  · intro x _
    exact ⟨exp_pos _, (log_exp _).symm⟩
  · intro x _
    exact ⟨exp_pos _, (log_exp _).symm⟩

example : (1 : ℝ) ∈ Ioi (0 : ℝ) ∧ Expon.cdf 1 = 1 - exp (-1) := by
  refine ⟨by simp, ?_⟩
  simp only [Expon.cdf, expm1]
  ring

/-- The powers of positive numbers as a change of variable. -/
theorem IsPpf.pow {F P : ℝ → ℝ} {c : ℝ} (hc : c ≠ 0) (h : IsPpf (Ioi 0) F P) :
    IsPpf (Ioi 0) (fun x => F (x ^ c)) (fun q => P q ^ (1 / c)) :=
  h.comp (g := fun x => x ^ c) (gi := fun y => y ^ (1 / c))
    (fun _ hx => rpow_pos_of_pos hx _) (fun _ hx => rpow_pos_of_pos hx _)
    (fun _ hx => rpow_inv_cancel hx hc) (fun _ hx => rpow_inv_cancel' hx hc)

/-- The Weibull distribution. -/
theorem C251_weibull_min (c : ℝ) (hc : 0 < c) :
    IsCdf (Ioi 0) (WeibullMin.pdf c) (WeibullMin.cdf c) ∧
    IsPpf (Ioi 0) (WeibullMin.cdf c) (WeibullMin.ppf c) ∧
    IsSf (Ioi 0) (WeibullMin.cdf c) (WeibullMin.sf c) ∧
    IsLog (Ioi 0) (WeibullMin.pdf c) (WeibullMin.logpdf c) ∧
    IsLog (Ioi 0) (WeibullMin.sf c) (WeibullMin.logsf c) := by
  have hp : IsPpf (Ioi 0) (WeibullMin.cdf c) (WeibullMin.ppf c) := C251_expon.2.1.pow hc.ne'
  refine ⟨isCdf_of_ppf isOpen_Ioi ordConnected_Ioi ?_ ?_ hp, hp, ?_, ?_, ?_⟩
  · intro x hx
    have hx' : x ≠ 0 := (mem_Ioi.1 hx).ne'
    refine HasDerivAt.congr_deriv
      (((hasDerivAt_rpow_const (p := c) (Or.inl hx')).neg.exp).sub_const 1).neg ?_
    simp only [WeibullMin.pdf, Pi.neg_apply]
    ring
  · intro x hx
    have := rpow_pos_of_pos (mem_Ioi.1 hx) (c - 1)
    unfold WeibullMin.pdf
    positivity
  · intro x _
    simp only [WeibullMin.cdf, WeibullMin.sf, expm1]
    ring
  · intro x hx
    have h1 := rpow_pos_of_pos (mem_Ioi.1 hx) (c - 1)
    have hpos : 0 < WeibullMin.pdf c x := by
      unfold WeibullMin.pdf
      positivity
    refine ⟨hpos, ?_⟩
    unfold WeibullMin.pdf WeibullMin.logpdf xlogy
    rw [log_mul (by positivity) (exp_pos _).ne', log_mul hc.ne' h1.ne', log_exp,
      log_rpow (mem_Ioi.1 hx)]
    ring
  · intro x _
    exact ⟨exp_pos _, (log_exp _).symm⟩

example : (0 : ℝ) < 2 ∧ WeibullMin.cdf 2 3 = 1 - exp (-9) := by
  refine ⟨by norm_num, ?_⟩
  simp only [WeibullMin.cdf, expm1]
  rw [show (3 : ℝ) ^ (2 : ℝ) = 9 by norm_num]
  ring

/-- The Weibull distribution of maxima. -/
theorem C251_weibull_max (c : ℝ) (hc : 0 < c) :
    IsCdf (Iio 0) (WeibullMax.pdf c) (WeibullMax.cdf c) ∧
    IsPpf (Iio 0) (WeibullMax.cdf c) (WeibullMax.ppf c) ∧
    IsSf (Iio 0) (WeibullMax.cdf c) (WeibullMax.sf c) ∧
    IsLog (Iio 0) (WeibullMax.pdf c) (WeibullMax.logpdf c) ∧
    IsLog (Iio 0) (WeibullMax.cdf c) (WeibullMax.logcdf c) := by
  have hp : IsPpf (Iio 0) (WeibullMax.cdf c) (WeibullMax.ppf c) := by
    have h := ((C251_weibull_min c hc).2.1.rev).comp (J := Iio 0) (g := fun x => -x)
      (gi := fun x => -x) (fun x hx => by simpa using hx) (fun x hx => by simpa using hx)
      (fun x _ => neg_neg x) (fun x _ => neg_neg x)
    refine h.congr ?_ ?_
    · intro x _
      simp only [WeibullMax.cdf, WeibullMin.cdf, expm1]
      ring
    · intro q _ _
      simp only [WeibullMax.ppf, WeibullMin.ppf, log1p]
      rw [show 1 + -(1 - q) = q by ring]
  have hder : ∀ x ∈ Iio (0 : ℝ), HasDerivAt (WeibullMax.cdf c) (WeibullMax.pdf c x) x := by
    intro x hx
    have hx' : -x ≠ 0 := (neg_pos.2 (mem_Iio.1 hx)).ne'
    refine HasDerivAt.congr_deriv
      (((hasDerivAt_id x).neg.rpow_const (p := c) (Or.inl hx')).neg.exp) ?_
    simp only [WeibullMax.pdf, Pi.neg_apply, id_eq]
    ring
  have hpos : ∀ x ∈ Iio (0 : ℝ), 0 < WeibullMax.pdf c x := by
    intro x hx
    have := rpow_pos_of_pos (neg_pos.2 (mem_Iio.1 hx)) (c - 1)
    unfold WeibullMax.pdf
    positivity
  refine ⟨isCdf_of_ppf isOpen_Iio ordConnected_Iio hder (fun x hx => (hpos x hx).le) hp, hp,
    ?_, ?_, ?_⟩
  · intro x _
    simp only [WeibullMax.cdf, WeibullMax.sf, expm1]
    ring
  · intro x hx
    have h0 := neg_pos.2 (mem_Iio.1 hx)
    have h1 := rpow_pos_of_pos h0 (c - 1)
    refine ⟨hpos x hx, ?_⟩
    unfold WeibullMax.pdf WeibullMax.logpdf xlogy
    rw [log_mul (by positivity) (exp_pos _).ne', log_mul hc.ne' h1.ne', log_exp, log_rpow h0]
    ring
  · intro x _
    exact ⟨exp_pos _, (log_exp _).symm⟩

example : (0 : ℝ) < 2 ∧ WeibullMax.cdf 2 (-3) = exp (-9) := by
  refine ⟨by norm_num, ?_⟩
  simp only [WeibullMax.cdf, neg_neg]
  rw [show (3 : ℝ) ^ (2 : ℝ) = 9 by norm_num]

/-- The exponentiated Weibull distribution. -/
theorem C251_exponweib (a c : ℝ) (ha : 0 < a) (hc : 0 < c) :
    IsCdf (Ioi 0) (ExponWeib.pdf a c) (ExponWeib.cdf a c) ∧
    IsPpf (Ioi 0) (ExponWeib.cdf a c) (ExponWeib.ppf a c) ∧
    IsLog (Ioi 0) (ExponWeib.pdf a c) (ExponWeib.logpdf a c) := by
  have hw := (C251_weibull_min c hc).2.1
  have hp : IsPpf (Ioi 0) (ExponWeib.cdf a c) (ExponWeib.ppf a c) := by
    refine ⟨?_, ?_, ?_, ?_⟩
    · intro q h0 h1
      exact hw.mem _ (rpow_pos_of_pos h0 _) (rpow_lt_one h0.le h1 (by positivity))
    · intro q h0 h1
      have h := hw.cdf_ppf _ (rpow_pos_of_pos h0 (1 / a)) (rpow_lt_one h0.le h1 (by positivity))
      have h' : ExponWeib.cdf a c (ExponWeib.ppf a c q) =
        (WeibullMin.cdf c (WeibullMin.ppf c (q ^ (1 / a)))) ^ a := rfl
      rw [h', h, rpow_inv_cancel' h0 ha.ne']
    · intro x hx
      have h := hw.cdf_mem x hx
      exact ⟨rpow_pos_of_pos h.1 a, rpow_lt_one h.1.le h.2 ha⟩
    · intro x hx
      have h := hw.ppf_cdf x hx
      have h2 := hw.cdf_mem x hx
      have h' : ExponWeib.ppf a c (ExponWeib.cdf a c x) =
        WeibullMin.ppf c (((WeibullMin.cdf c x) ^ a) ^ (1 / a)) := rfl
      rw [h', rpow_inv_cancel h2.1 ha.ne', h]
  refine ⟨isCdf_of_ppf isOpen_Ioi ordConnected_Ioi ?_ (fun x _ => (exp_pos _).le) hp, hp,
    fun x _ => ⟨exp_pos _, (log_exp _).symm⟩⟩
  intro x hx
  have hx0 := mem_Ioi.1 hx
  have hx' : x ≠ 0 := hx0.ne'
  have h1 : 0 < -expm1 (-(x ^ c)) := (hw.cdf_mem x hx).1
  refine HasDerivAt.congr_deriv
    ((((hasDerivAt_rpow_const (p := c) (Or.inl hx')).neg.exp).sub_const 1).neg.rpow_const
      (p := a) (Or.inl h1.ne')) ?_
  simp only [ExponWeib.pdf, ExponWeib.logpdf, exp_add, xlogy_rpow hx0, xlogy_rpow h1, exp_log ha,
    exp_log hc, Pi.neg_apply]
  simp only [expm1]
  ring

example : (0 : ℝ) < 3 ∧ (0 : ℝ) < 2 ∧ ExponWeib.cdf 3 2 1 = (1 - exp (-1)) ^ 3 := by
  refine ⟨by norm_num, by norm_num, ?_⟩
  simp only [ExponWeib.cdf, expm1, one_rpow]
  rw [show -(exp (-1) - 1) = 1 - exp (-1) by ring]
  exact_mod_cast rpow_natCast (1 - exp (-1)) 3

/-- The exponential power distribution. -/
theorem C251_exponpow (b : ℝ) (hb : 0 < b) :
    IsCdf (Ioi 0) (ExponPow.pdf b) (ExponPow.cdf b) ∧
    IsPpf (Ioi 0) (ExponPow.cdf b) (ExponPow.ppf b) ∧
    IsSf (Ioi 0) (ExponPow.cdf b) (ExponPow.sf b) ∧ IsIsf (ExponPow.ppf b) (ExponPow.isf b) ∧
    IsLog (Ioi 0) (ExponPow.pdf b) (ExponPow.logpdf b) := by
  have hp : IsPpf (Ioi 0) (ExponPow.cdf b) (ExponPow.ppf b) := by
    have h := C251_expon.2.1.comp (J := Ioi 0) (g := fun x => expm1 x) (gi := fun y => log1p y)
      (fun x hx => by
        have := one_lt_exp_iff.2 (mem_Ioi.1 hx)
        simp only [expm1, mem_Ioi]
        linarith)
      (fun y hy => log_pos (by linarith [mem_Ioi.1 hy]))
      (fun x _ => by
        simp only [expm1, log1p]
        rw [show 1 + (exp x - 1) = exp x by ring, log_exp])
      (fun y hy => by
        simp only [expm1, log1p]
        rw [exp_log (by linarith [mem_Ioi.1 hy])]
        ring)
    exact h.pow hb.ne'
  refine ⟨isCdf_of_ppf isOpen_Ioi ordConnected_Ioi ?_ (fun x _ => (exp_pos _).le) hp, hp, ?_, ?_,
    fun x _ => ⟨exp_pos _, (log_exp _).symm⟩⟩
  · intro x hx
    have hx0 := mem_Ioi.1 hx
    refine HasDerivAt.congr_deriv
      (((((hasDerivAt_rpow_const (p := b) (Or.inl hx0.ne')).exp).sub_const 1).neg.exp).sub_const
        1).neg ?_
    simp only [ExponPow.pdf, ExponPow.logpdf, exp_add, exp_sub, xlogy_rpow hx0, exp_log hb,
      Pi.neg_apply, neg_sub]
    ring
  · intro x _
    simp only [ExponPow.cdf, ExponPow.sf, expm1]
    ring
  · intro q _ _
    simp only [ExponPow.isf, ExponPow.ppf, log1p]
    rw [show 1 + -(1 - q) = q by ring]

example : (0 : ℝ) < 2 ∧ ExponPow.sf 2 1 = exp (-(exp 1 - 1)) := by
  refine ⟨by norm_num, ?_⟩
  simp only [ExponPow.sf, expm1, one_rpow]

/-- The squares as a change of variable. -/
theorem IsPpf.sq {F P : ℝ → ℝ} (h : IsPpf (Ioi 0) F P) :
    IsPpf (Ioi 0) (fun x => F (x ^ 2 / 2)) (fun q => √(2 * P q)) :=
  h.comp (g := fun x => x ^ 2 / 2) (gi := fun y => √(2 * y))
    (fun x hx => by have := mem_Ioi.1 hx; exact mem_Ioi.2 (by positivity))
    (fun y hy => by have := mem_Ioi.1 hy; exact mem_Ioi.2 (by positivity))
    (fun x hx => by
      rw [mul_div_cancel₀ _ (two_ne_zero), sqrt_sq (mem_Ioi.1 hx).le])
    (fun y hy => by
      have := mem_Ioi.1 hy
      rw [sq_sqrt (by positivity)]
      ring)

/-- The Rayleigh distribution. -/
theorem C251_rayleigh :
    IsCdf (Ioi 0) Rayleigh.pdf Rayleigh.cdf ∧ IsPpf (Ioi 0) Rayleigh.cdf Rayleigh.ppf ∧
    IsSf (Ioi 0) Rayleigh.cdf Rayleigh.sf ∧ IsIsf Rayleigh.ppf Rayleigh.isf ∧
    IsLog (Ioi 0) Rayleigh.pdf Rayleigh.logpdf ∧ IsLog (Ioi 0) Rayleigh.sf Rayleigh.logsf := by
  have hp : IsPpf (Ioi 0) Rayleigh.cdf Rayleigh.ppf := by
    refine C251_expon.2.1.sq.congr ?_ ?_
    · intro x _
      simp only [Rayleigh.cdf, Expon.cdf]
      congr 2
      ring
    · intro q _ _
      simp only [Rayleigh.ppf, Expon.ppf]
      congr 1
      ring
  refine ⟨isCdf_of_ppf isOpen_Ioi ordConnected_Ioi ?_ (fun x _ => (exp_pos _).le) hp, hp, ?_, ?_,
    fun x _ => ⟨exp_pos _, (log_exp _).symm⟩, fun x _ => ⟨exp_pos _, (log_exp _).symm⟩⟩
  · intro x hx
    have hx0 := mem_Ioi.1 hx
    refine HasDerivAt.congr_deriv
      ((((hasDerivAt_pow 2 x).const_mul (-0.5)).exp).sub_const 1).neg ?_
    simp only [Rayleigh.pdf, Rayleigh.logpdf, exp_sub, exp_log hx0]
    rw [show -0.5 * x ^ 2 = -(0.5 * x * x) by ring, exp_neg]
    push_cast
    ring
  · intro x _
    simp only [Rayleigh.cdf, Rayleigh.sf, Rayleigh.logsf, expm1]
    rw [show -0.5 * x * x = -0.5 * x ^ 2 by ring]
    ring
  · intro q _ _
    simp only [Rayleigh.isf, Rayleigh.ppf, log1p]
    rw [show 1 + -(1 - q) = q by ring]

example : Rayleigh.sf 2 = exp (-2) := by
  simp only [Rayleigh.sf, Rayleigh.logsf]
  norm_num

/-- The truncated Rayleigh distribution. -/
theorem C251_truncrayleigh (c : ℝ) (hc : 0 ≤ c) :
    IsCdf (Ioi 0) (TruncRayleigh.pdf c) (TruncRayleigh.cdf c) ∧
    IsPpf (Ioi 0) (TruncRayleigh.cdf c) (TruncRayleigh.ppf c) ∧
    IsSf (Ioi 0) (TruncRayleigh.cdf c) (TruncRayleigh.sf c) ∧
    IsLog (Ioi 0) (TruncRayleigh.pdf c) (TruncRayleigh.logpdf c) ∧
    IsLog (Ioi 0) (TruncRayleigh.sf c) (TruncRayleigh.logsf c) := by
  have hp : IsPpf (Ioi 0) (TruncRayleigh.cdf c) (TruncRayleigh.ppf c) := by
    have h := C251_expon.2.1.comp (J := Ioi 0) (g := fun x => ((x + c) * (x + c) - c * c) / 2)
      (gi := fun y => √(c * c + 2 * y) - c)
      (fun x hx => by
        have := mem_Ioi.1 hx
        have : 0 < x * x + 2 * x * c := by positivity
        simp only [mem_Ioi]
        nlinarith)
      (fun y hy => by
        have := mem_Ioi.1 hy
        have : c < √(c * c + 2 * y) := by
          rw [lt_sqrt hc]
          nlinarith
        simp only [mem_Ioi]
        linarith)
      (fun x hx => by
        have := mem_Ioi.1 hx
        rw [show c * c + 2 * (((x + c) * (x + c) - c * c) / 2) = (x + c) * (x + c) by ring,
          sqrt_mul_self (by linarith)]
        ring)
      (fun y hy => by
        have := mem_Ioi.1 hy
        simp only [sub_add_cancel]
        rw [mul_self_sqrt (by positivity)]
        ring)
    refine h.congr ?_ ?_
    · intro x _
      simp only [TruncRayleigh.cdf, Expon.cdf]
      congr 2
      ring
    · intro q _ _
      simp only [TruncRayleigh.ppf, Expon.ppf]
      congr 2
      ring
  have hpos : ∀ x ∈ Ioi (0 : ℝ), 0 < TruncRayleigh.pdf c x := by
    intro x hx
    have := mem_Ioi.1 hx
    unfold TruncRayleigh.pdf
    positivity
  refine ⟨isCdf_of_ppf isOpen_Ioi ordConnected_Ioi ?_ (fun x hx => (hpos x hx).le) hp, hp, ?_, ?_,
    fun x _ => ⟨exp_pos _, (log_exp _).symm⟩⟩
  · intro x hx
    have h := ((hasDerivAt_id x).add_const c)
    refine HasDerivAt.congr_deriv
      ((((((h.mul h).sub_const (c * c)).neg).div_const 2).exp).sub_const 1).neg ?_
    simp only [TruncRayleigh.pdf, id_eq, Pi.neg_apply, Pi.mul_apply]
    ring
  · intro x _
    simp only [TruncRayleigh.cdf, TruncRayleigh.sf, TruncRayleigh.logsf, expm1]
    ring
  · intro x hx
    have := mem_Ioi.1 hx
    refine ⟨hpos x hx, ?_⟩
    unfold TruncRayleigh.pdf TruncRayleigh.logpdf
    rw [log_mul (by positivity) (exp_pos _).ne', log_exp]
    ring

example : (0 : ℝ) ≤ 1 ∧ TruncRayleigh.sf 1 2 = exp (-4) := by
  refine ⟨by norm_num, ?_⟩
  simp only [TruncRayleigh.sf, TruncRayleigh.logsf]
  norm_num

/-- The Gompertz distribution. -/
theorem C251_gompertz (c : ℝ) (hc : 0 < c) :
    IsCdf (Ioi 0) (Gompertz.pdf c) (Gompertz.cdf c) ∧
    IsPpf (Ioi 0) (Gompertz.cdf c) (Gompertz.ppf c) ∧
    IsLog (Ioi 0) (Gompertz.pdf c) (Gompertz.logpdf c) := by
  have hp : IsPpf (Ioi 0) (Gompertz.cdf c) (Gompertz.ppf c) := by
    have h := C251_expon.2.1.comp (J := Ioi 0) (g := fun x => c * expm1 x)
      (gi := fun y => log1p (y / c))
      (fun x hx => by
        have := one_lt_exp_iff.2 (mem_Ioi.1 hx)
        simp only [expm1, mem_Ioi]
        exact mul_pos hc (by linarith))
      (fun y hy => log_pos (by linarith [div_pos (mem_Ioi.1 hy) hc]))
      (fun x _ => by
        simp only [expm1, log1p]
        rw [mul_div_cancel_left₀ _ hc.ne', show 1 + (exp x - 1) = exp x by ring, log_exp])
      (fun y hy => by
        simp only [expm1, log1p]
        rw [exp_log (by linarith [div_pos (mem_Ioi.1 hy) hc])]
        field_simp
        ring)
    refine h.congr ?_ ?_
    · intro x _
      simp only [Gompertz.cdf, Expon.cdf]
      congr 2
      ring
    · intro q _ _
      simp only [Gompertz.ppf, Expon.ppf]
      congr 1
      ring
  refine ⟨isCdf_of_ppf isOpen_Ioi ordConnected_Ioi ?_ (fun x _ => (exp_pos _).le) hp, hp,
    fun x _ => ⟨exp_pos _, (log_exp _).symm⟩⟩
  intro x hx
  refine HasDerivAt.congr_deriv
    (((((hasDerivAt_exp x).sub_const 1).const_mul (-c)).exp).sub_const 1).neg ?_
  simp only [Gompertz.pdf, Gompertz.logpdf, exp_add, exp_sub, exp_log hc, expm1]
  rw [show -c * (exp x - 1) = -(c * (exp x - 1)) by ring, exp_neg]
  ring

example : (0 : ℝ) < 2 ∧ Gompertz.cdf 2 1 = 1 - exp (-2 * (exp 1 - 1)) := by
  refine ⟨by norm_num, ?_⟩
  simp only [Gompertz.cdf, expm1]
  ring

/-- The inverted Weibull distribution. -/
theorem C251_invweibull (c : ℝ) (hc : 0 < c) :
    IsCdf (Ioi 0) (InvWeibull.pdf c) (InvWeibull.cdf c) ∧
    IsPpf (Ioi 0) (InvWeibull.cdf c) (InvWeibull.ppf c) := by
  have hp : IsPpf (Ioi 0) (InvWeibull.cdf c) (InvWeibull.ppf c) := by
    have h := (C251_expon.2.1.rev).pow (c := -c) (by linarith)
    refine h.congr ?_ ?_
    · intro x _
      simp only [InvWeibull.cdf, Expon.cdf, expm1]
      ring
    · intro q _ _
      simp only [InvWeibull.ppf, Expon.ppf, log1p]
      rw [show 1 + -(1 - q) = q by ring, show 1 / -c = -1 / c by rw [div_neg, neg_div]]
  refine ⟨isCdf_of_ppf isOpen_Ioi ordConnected_Ioi ?_ ?_ hp, hp⟩
  · intro x hx
    have hx' : x ≠ 0 := (mem_Ioi.1 hx).ne'
    refine HasDerivAt.congr_deriv
      ((hasDerivAt_rpow_const (p := -c) (Or.inl hx')).neg.exp) ?_
    simp only [InvWeibull.pdf, Pi.neg_apply]
    ring
  · intro x hx
    have := rpow_pos_of_pos (mem_Ioi.1 hx) (-c - 1)
    unfold InvWeibull.pdf
    positivity

example : (0 : ℝ) < 1 ∧ InvWeibull.cdf 1 2 = exp (-(1 / 2)) := by
  refine ⟨by norm_num, ?_⟩
  simp only [InvWeibull.cdf]
  rw [rpow_neg_one]
  norm_num

/-- The truncated exponential distribution. -/
theorem C251_truncexpon (b : ℝ) (hb : 0 < b) :
    IsCdf (Ioo 0 b) (TruncExpon.pdf b) (TruncExpon.cdf b) ∧
    IsPpf (Ioo 0 b) (TruncExpon.cdf b) (TruncExpon.ppf b) ∧
    IsLog (Ioo 0 b) (TruncExpon.pdf b) (TruncExpon.logpdf b) := by
  have hE : expm1 (-b) < 0 := by
    have : exp (-b) < 1 := exp_lt_one_iff.2 (by linarith)
    unfold expm1
    linarith
  have hE1 : -1 < expm1 (-b) := by
    have := exp_pos (-b)
    unfold expm1
    linarith
  have hp : IsPpf (Ioo 0 b) (TruncExpon.cdf b) (TruncExpon.ppf b) := by
    refine ⟨?_, ?_, ?_, ?_⟩
    · intro q h0 h1
      have h2 : q * expm1 (-b) < 0 := mul_neg_of_pos_of_neg h0 hE
      have h3 : expm1 (-b) < q * expm1 (-b) := by nlinarith
      have h4 : 0 < 1 + q * expm1 (-b) := by linarith
      refine ⟨?_, ?_⟩
      · have := log_neg h4 (by linarith)
        simp only [TruncExpon.ppf, log1p]
        linarith
      · have : log (exp (-b)) < log (1 + q * expm1 (-b)) := by
          apply log_lt_log (exp_pos _)
          unfold expm1 at h3 ⊢
          linarith
        rw [log_exp] at this
        simp only [TruncExpon.ppf, log1p]
        linarith
    · intro q h0 h1
      have h2 : q * expm1 (-b) < 0 := mul_neg_of_pos_of_neg h0 hE
      have h3 : expm1 (-b) < q * expm1 (-b) := by nlinarith
      simp only [TruncExpon.cdf, TruncExpon.ppf, log1p, neg_neg]
      rw [expm1, exp_log (by linarith), add_sub_cancel_left, mul_div_cancel_right₀ _ hE.ne]
    · intro x hx
      have h1 : exp (-x) < 1 := exp_lt_one_iff.2 (by linarith [hx.1])
      have h2 : exp (-b) < exp (-x) := exp_lt_exp.2 (by linarith [hx.2])
      simp only [TruncExpon.cdf]
      refine ⟨div_pos_of_neg_of_neg (by unfold expm1; linarith) hE, ?_⟩
      rw [div_lt_one_of_neg hE]
      unfold expm1
      linarith
    · intro x _
      simp only [TruncExpon.cdf, TruncExpon.ppf, log1p]
      rw [div_mul_cancel₀ _ hE.ne, expm1, add_sub_cancel, log_exp, neg_neg]
  have hpos : ∀ x ∈ Ioo 0 b, 0 < TruncExpon.pdf b x :=
    fun x _ => div_pos (exp_pos _) (by linarith)
  refine ⟨isCdf_of_ppf isOpen_Ioo ordConnected_Ioo ?_ (fun x hx => (hpos x hx).le) hp, hp, ?_⟩
  · intro x hx
    refine HasDerivAt.congr_deriv
      ((((hasDerivAt_id x).neg.exp).sub_const 1).div_const (expm1 (-b))) ?_
    simp only [TruncExpon.pdf, Pi.neg_apply, id_eq, mul_neg, mul_one, neg_div, div_neg]
  · intro x hx
    refine ⟨hpos x hx, ?_⟩
    unfold TruncExpon.pdf TruncExpon.logpdf
    rw [log_div (exp_pos _).ne' (by linarith), log_exp]

example : (0 : ℝ) < 2 ∧ TruncExpon.cdf 2 1 = (exp (-1) - 1) / (exp (-2) - 1) := by
  refine ⟨by norm_num, ?_⟩
  simp only [TruncExpon.cdf, expm1]

/-- The generalized exponential distribution. -/
theorem C251_genexpon (a b c : ℝ) (ha : 0 < a) (hb : 0 < b) (hc : 0 < c) :
    IsCdf (Ioi 0) (GenExpon.pdf a b c) (GenExpon.cdf a b c) ∧
    IsLog (Ioi 0) (GenExpon.pdf a b c) (GenExpon.logpdf a b c) := by
  have hfac : ∀ x ∈ Ioi (0 : ℝ), 0 < a + b * (-expm1 (-c * x)) := by
    intro x hx
    have hx0 := mem_Ioi.1 hx
    have : exp (-c * x) < 1 := exp_lt_one_iff.2 (by nlinarith)
    have h2 : 0 < -expm1 (-c * x) := by
      unfold expm1
      linarith
    positivity
  have hpos : ∀ x ∈ Ioi (0 : ℝ), 0 < GenExpon.pdf a b c x :=
    fun x hx => mul_pos (hfac x hx) (exp_pos _)
  have hder : ∀ x : ℝ, HasDerivAt (GenExpon.cdf a b c) (GenExpon.pdf a b c x) x := by
    intro x
    have h1 := (((((hasDerivAt_id x).const_mul (-c)).exp).sub_const 1).neg.const_mul b).div_const c
    have h2 := ((hasDerivAt_id x).const_mul (-a - b)).add h1
    refine HasDerivAt.congr_deriv ((h2.exp).sub_const 1).neg ?_
    simp only [GenExpon.pdf, expm1, id_eq, Pi.neg_apply, Pi.add_apply]
    field_simp
    ring
  refine ⟨isCdf_of_lim isOpen_Ioi ordConnected_Ioi (fun x _ => hder x) hpos
    (l := 𝓝[>] 0) (u := atTop) self_mem_nhdsWithin (eventually_gt_atTop 0) ?_ ?_ ?_ ?_, ?_⟩
  · have h := (hder 0).continuousAt.tendsto
    have h0 : GenExpon.cdf a b c 0 = 0 := by simp [GenExpon.cdf, expm1]
    rw [h0] at h
    exact h.mono_left nhdsWithin_le_nhds
  · have h1 : Tendsto (fun x : ℝ => (-a - b) * x + b * (-expm1 (-c * x)) / c) atTop atBot := by
      have hb1 : Tendsto (fun x : ℝ => (-a - b) * x + b / c) atTop atBot :=
        tendsto_atBot_add_const_right _ _
          ((tendsto_const_mul_atBot_of_neg (by linarith)).2 tendsto_id)
      refine tendsto_atBot_mono ?_ hb1
      intro x
      have : b * (-expm1 (-c * x)) / c ≤ b / c := by
        apply div_le_div_of_nonneg_right _ hc.le
        have := exp_pos (-c * x)
        unfold expm1
        nlinarith
      linarith
    have h2 := (tendsto_exp_atBot.comp h1)
    have h3 := (h2.sub_const 1).neg
    have h4 : Tendsto (GenExpon.cdf a b c) atTop (𝓝 (-(0 - 1))) := h3
    simpa using h4
  · intro x hx
    exact nhdsWithin_le_nhds (gt_mem_nhds hx)
  · intro x _
    exact eventually_gt_atTop x
  · intro x hx
    refine ⟨hpos x hx, ?_⟩
    unfold GenExpon.pdf GenExpon.logpdf
    rw [log_mul (hfac x hx).ne' (exp_pos _).ne', log_exp]
    ring

example : (0 : ℝ) < 1 ∧ GenExpon.cdf 1 1 1 1 = 1 - exp (-2 + (1 - exp (-1))) := by
  refine ⟨by norm_num, ?_⟩
  simp only [GenExpon.cdf, expm1]
  norm_num

end Wafo.Dist
