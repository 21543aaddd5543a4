import Verif.Dist.BetaLemmas
import Verif.Dist.MomGammaProps

/-!
# C268: density, distribution function and quantiles of the beta family
-/

namespace Wafo.Dist

open MeasureTheory Set Filter Topology Real

set_option linter.unusedSectionVars false

theorem beta_dens_exp {a b y : ℝ} (ha : 0 < a) (hb : 0 < b) (hy : y ∈ Ioo (0 : ℝ) 1) :
    y ^ (a - 1) * (1 - y) ^ (b - 1) / betaf a b
      = exp ((a - 1) * log y + (b - 1) * log (1 - y) - betaln a b) := by
  rw [exp_sub, exp_add, exp_betaln ha hb, rpow_def_of_pos hy.1, rpow_def_of_pos (sub_pos.2 hy.2),
    mul_comm (a - 1), mul_comm (b - 1)]

theorem beta_pdf_eq {a b x : ℝ} (ha : 0 < a) (hb : 0 < b) (hx : x ∈ Ioo (0 : ℝ) 1) :
    BetaD.pdf a b x = x ^ (a - 1) * (1 - x) ^ (b - 1) / betaf a b := by
  rw [beta_dens_exp ha hb hx, BetaD.pdf, BetaD.logpdf, xlog1py, xlogy]
  congr 1
  ring_nf

/-- `beta`. -/
theorem C268_beta {inv : ℝ → ℝ → ℝ → ℝ} (h : IsBetaInv inv) (a b : ℝ) (ha : 0 < a) (hb : 0 < b) :
    IsCdf (Ioo 0 1) (BetaD.pdf a b) (BetaD.cdf a b) ∧
    IsPpf (Ioo 0 1) (BetaD.cdf a b) (BetaD.ppf inv a b) ∧
    IsLog (Ioo 0 1) (BetaD.pdf a b) (BetaD.logpdf a b) := by
  have := beta_comp h ha hb isOpen_Ioo ordConnected_Ioo (g := id) (gi := id) (g' := fun _ => 1)
    (pdf := BetaD.pdf a b) (fun x hx => hx) (fun y hy => hy) (fun _ _ => rfl) (fun _ _ => rfl)
    (fun x _ => hasDerivAt_id x) (fun _ _ => zero_le_one)
    (fun x hx => by rw [beta_pdf_eq ha hb hx, mul_one]; rfl)
  exact ⟨this.1, this.2, fun x _ => ⟨exp_pos _, (log_exp _).symm⟩⟩

example : ∃ inv, IsBetaInv inv := exists_betaInv

theorem bp_pdf_eq {a b x : ℝ} (ha : 0 < a) (hb : 0 < b) (hx : 0 < x) :
    BetaPrime.pdf a b x = x ^ (a - 1) * (1 + x) ^ (-(a + b)) / betaf a b := by
  rw [BetaPrime.pdf, BetaPrime.logpdf, xlogy, xlog1py, exp_sub, exp_betaln ha hb,
    rpow_def_of_pos hx, rpow_def_of_pos (by linarith : 0 < 1 + x), ← exp_add]
  congr 2
  ring

/-- `betaprime`. -/
theorem C268_betaprime (a b : ℝ) (ha : 0 < a) (hb : 0 < b) :
    IsCdf (Ioi 0) (BetaPrime.pdf a b) (BetaPrime.cdf a b) ∧
    IsLog (Ioi 0) (BetaPrime.pdf a b) (BetaPrime.logpdf a b) := by
  obtain ⟨inv, h⟩ := exists_betaInv
  have := beta_comp h ha hb isOpen_Ioi ordConnected_Ioi (g := fun x => x / (1 + x))
    (gi := fun y => y / (1 - y)) (g' := fun x => 1 / (1 + x) ^ 2) (pdf := BetaPrime.pdf a b)
    (fun x hx => by
      have hx : 0 < x := hx
      exact ⟨by positivity, by rw [div_lt_one (by positivity)]; linarith⟩)
    (fun y hy => div_pos hy.1 (sub_pos.2 hy.2))
    (fun x hx => by
      have hx : 0 < x := hx
      field_simp
      ring)
    (fun y hy => by
      have := sub_pos.2 hy.2
      field_simp
      ring)
    (fun x hx => by
      have hx : 0 < x := hx
      refine HasDerivAt.congr_deriv ((hasDerivAt_id x).div ((hasDerivAt_id x).const_add 1)
        (show (1 : ℝ) + x ≠ 0 by positivity)) ?_
      simp only [id]
      field_simp
      ring)
    (fun x hx => by
      have hx : 0 < x := hx
      positivity)
    (fun x hx => by
      have hx : 0 < x := hx
      have hy : x / (1 + x) ∈ Ioo (0 : ℝ) 1 :=
        ⟨by positivity, by rw [div_lt_one (by positivity)]; linarith⟩
      have e : (1 : ℝ) / (1 + x) ^ 2 = exp (-(2 * log (1 + x))) := by
        rw [exp_neg, ← log_rpow (by positivity), exp_log (by positivity), rpow_two, one_div]
      rw [beta_dens_exp ha hb hy, e, ← exp_add, show 1 - x / (1 + x) = 1 / (1 + x) by
        field_simp
        ring, log_div hx.ne' (by positivity), log_div one_ne_zero (by positivity), log_one,
        BetaPrime.pdf, BetaPrime.logpdf, xlogy, xlog1py]
      congr 1
      ring)
  exact ⟨this.1, fun x _ => ⟨exp_pos _, (log_exp _).symm⟩⟩

example : (0 : ℝ) < 2 ∧ BetaPrime.cdf 2 3 0 = 0 := by
  refine ⟨two_pos, ?_⟩
  rw [BetaPrime.cdf, zero_div, betainc_zero]

theorem f_base {inv : ℝ → ℝ → ℝ → ℝ} (h : IsBetaInv inv) {n m : ℝ} (hn : 0 < n) (hm : 0 < m) :
    IsCdf (Ioi 0) (FD.pdf n m) (FD.cdf n m) ∧
    IsPpf (Ioi 0) (FD.cdf n m)
      (fun q => m * inv (n / 2) (m / 2) q / (n * (1 - inv (n / 2) (m / 2) q))) := by
  refine beta_comp h (half_pos hn) (half_pos hm) isOpen_Ioi ordConnected_Ioi
    (g := fun x => n * x / (m + n * x))
    (gi := fun y => m * y / (n * (1 - y))) (g' := fun x => n * m / (m + n * x) ^ 2)
    (pdf := FD.pdf n m)
    (fun x hx => ?_) (fun y hy => ?_) (fun x hx => ?_) (fun y hy => ?_) (fun x hx => ?_) (fun x hx => ?_)
    (fun x hx => ?_)
  · have hx : 0 < x := hx
    exact ⟨by positivity, by rw [div_lt_one (by positivity)]; linarith⟩
  · exact div_pos (mul_pos hm hy.1) (mul_pos hn (sub_pos.2 hy.2))
  · have hx : 0 < x := hx
    have : 0 < m + n * x := by positivity
    show m * (n * x / (m + n * x)) / (n * (1 - n * x / (m + n * x))) = x
    rw [show 1 - n * x / (m + n * x) = m / (m + n * x) by
      field_simp
      ring]
    field_simp
  · have := sub_pos.2 hy.2
    field_simp
    ring
  · have hx : 0 < x := hx
    have : 0 < m + n * x := by positivity
    refine HasDerivAt.congr_deriv (((hasDerivAt_id x).const_mul n).div
      (((hasDerivAt_id x).const_mul n).const_add m)
      (show m + n * x ≠ 0 by positivity)) ?_
    simp only [id]
    field_simp
    ring
  · have hx : 0 < x := hx
    positivity
  · have hx : 0 < x := hx
    have hs : 0 < m + n * x := by positivity
    have hy : n * x / (m + n * x) ∈ Ioo (0 : ℝ) 1 :=
      ⟨by positivity, by rw [div_lt_one hs]; linarith⟩
    have e : n * m / (m + n * x) ^ 2 = exp (log n + log m - 2 * log (m + n * x)) := by
      rw [exp_sub, exp_add, exp_log hn, exp_log hm, ← log_rpow hs, exp_log (by positivity), rpow_two]
    rw [beta_dens_exp (half_pos hn) (half_pos hm) hy, e, ← exp_add,
      show 1 - n * x / (m + n * x) = m / (m + n * x) by
        field_simp
        ring, log_div (by positivity) hs.ne', log_div hm.ne' hs.ne', log_mul hn.ne' hx.ne',
      FD.pdf, FD.logpdf, xlogy]
    congr 1
    ring

/-- What is assumed of `fdtri`: it is the inverse of `fdtr`. -/
def IsFInv (finv : ℝ → ℝ → ℝ → ℝ) : Prop :=
  ∀ n m, 0 < n → 0 < m → IsPpf (Ioi 0) (fdtr n m) (finv n m)

theorem exists_fInv : ∃ finv, IsFInv finv := by
  obtain ⟨inv, h⟩ := exists_betaInv
  exact ⟨_, fun n m hn hm => (f_base h hn hm).2⟩

/-- `f`. -/
theorem C268_f {finv : ℝ → ℝ → ℝ → ℝ} (h : IsFInv finv) (n m : ℝ) (hn : 0 < n) (hm : 0 < m) :
    IsCdf (Ioi 0) (FD.pdf n m) (FD.cdf n m) ∧ IsSf (Ioi 0) (FD.cdf n m) (FD.sf n m) ∧
    IsPpf (Ioi 0) (FD.cdf n m) (FD.ppf finv n m) ∧
    IsLog (Ioi 0) (FD.pdf n m) (FD.logpdf n m) := by
  obtain ⟨inv, hi⟩ := exists_betaInv
  refine ⟨(f_base hi hn hm).1, fun x hx => ?_, h n m hn hm,
    fun x _ => ⟨exp_pos _, (log_exp _).symm⟩⟩
  have hx : 0 < x := hx
  have hs : 0 < m + n * x := by positivity
  rw [FD.sf, FD.cdf, fdtrc, fdtr, betainc_symm (half_pos hm) (half_pos hn)
    ⟨by positivity, by rw [div_le_one hs]; nlinarith⟩]
  congr 2
  field_simp
  ring

example : ∃ finv, IsFInv finv := exists_fInv

/-- `rdist`. -/
theorem C268_rdist {inv : ℝ → ℝ → ℝ → ℝ} (h : IsBetaInv inv) (c : ℝ) (hc : 0 < c) :
    IsCdf (Ioo (-1) 1) (RDist.pdf c) (RDist.cdf c) ∧
    IsPpf (Ioo (-1) 1) (RDist.cdf c) (RDist.ppf inv c) ∧
    IsLog (Ioo (-1) 1) (RDist.pdf c) (RDist.logpdf c) := by
  have hI : ∀ x ∈ Ioo (-1 : ℝ) 1, (x + 1) / 2 ∈ Ioo (0 : ℝ) 1 := fun x hx =>
    ⟨by linarith [hx.1], by linarith [hx.2]⟩
  have := beta_comp h (half_pos hc) (half_pos hc) isOpen_Ioo ordConnected_Ioo
    (g := fun x => (x + 1) / 2) (gi := fun y => 2 * y - 1) (g' := fun _ => 1 / 2)
    (pdf := RDist.pdf c) hI
    (fun y hy => ⟨by linarith [hy.1], by linarith [hy.2]⟩) (fun x _ => by ring) (fun y _ => by ring)
    (fun x _ => ((hasDerivAt_id x).add_const 1).div_const 2) (fun _ _ => by norm_num)
    (fun x hx => by
      rw [RDist.pdf, beta_pdf_eq (half_pos hc) (half_pos hc) (hI x hx)]
      ring)
  refine ⟨this.1, this.2, fun x hx => ⟨mul_pos (by norm_num) (exp_pos _), ?_⟩⟩
  rw [RDist.pdf, RDist.logpdf, BetaD.pdf, log_mul (by norm_num) (exp_pos _).ne', log_exp,
    show (0.5 : ℝ) = 2⁻¹ by norm_num, log_inv]

/-! ### Student's distribution -/

theorem t_w_mem {r : ℝ} (hr : 0 < r) (x : ℝ) : r / (r + x ^ 2) ∈ Icc (0 : ℝ) 1 := by
  have : 0 < r + x ^ 2 := by positivity
  exact ⟨by positivity, by rw [div_le_one this]; nlinarith⟩

theorem t_w_mem' {r x : ℝ} (hr : 0 < r) (hx : x ≠ 0) : r / (r + x ^ 2) ∈ Ioo (0 : ℝ) 1 := by
  have : 0 < r + x ^ 2 := by positivity
  have : 0 < x ^ 2 := by positivity
  exact ⟨by positivity, by rw [div_lt_one (by positivity)]; linarith⟩

theorem stdtr_zero {r : ℝ} (hr : 0 < r) : stdtr r 0 = 1 / 2 := by
  rw [stdtr, if_pos le_rfl, zero_pow two_ne_zero, add_zero, div_self hr.ne',
    betainc_one (half_pos hr) one_half_pos]

theorem stdtr_of_nonneg {r x : ℝ} (hr : 0 < r) (hx : 0 ≤ x) :
    stdtr r x = 1 - betainc (r / 2) (1 / 2) (r / (r + x ^ 2)) / 2 := by
  rcases hx.lt_or_eq with h | rfl
  · rw [stdtr, if_neg (not_le.2 h)]
  · rw [stdtr_zero hr, zero_pow two_ne_zero, add_zero, div_self hr.ne',
      betainc_one (half_pos hr) one_half_pos]
    norm_num

theorem stdtr_neg {r : ℝ} (hr : 0 < r) (x : ℝ) : stdtr r (-x) = 1 - stdtr r x := by
  rcases le_total x 0 with h | h
  · rw [stdtr_of_nonneg hr (neg_nonneg.2 h), stdtr, if_pos h, neg_sq]
  · rw [stdtr_of_nonneg hr h, stdtr, if_pos (neg_nonpos.2 h), neg_sq]
    ring

theorem stdtr_mono {r : ℝ} (hr : 0 < r) : StrictMono (stdtr r) := by
  have h1 : StrictMonoOn (stdtr r) (Iic 0) := by
    intro x hx y hy hxy
    have hx : x ≤ 0 := hx
    have hy : y ≤ 0 := hy
    rw [stdtr, stdtr, if_pos hx, if_pos hy]
    have : r / (r + x ^ 2) < r / (r + y ^ 2) :=
      div_lt_div_of_pos_left hr (by positivity) (by nlinarith)
    have := betainc_mono (half_pos hr) one_half_pos (t_w_mem hr x) (t_w_mem hr y) this
    linarith
  have h2 : StrictMonoOn (stdtr r) (Ici 0) := by
    intro x hx y hy hxy
    have hx : 0 ≤ x := hx
    have hy : 0 ≤ y := hy
    have := h1 (show -y ∈ Iic (0 : ℝ) from by simpa using hy)
      (show -x ∈ Iic (0 : ℝ) from by simpa using hx)
      (neg_lt_neg hxy)
    rw [stdtr_neg hr, stdtr_neg hr] at this
    linarith
  exact StrictMonoOn.Iic_union_Ici h1 h2

theorem stdtr_mem {r : ℝ} (hr : 0 < r) (x : ℝ) : 0 < stdtr r x ∧ stdtr r x < 1 := by
  have h : ∀ x : ℝ, 0 < stdtr r x := by
    intro x
    have hm := stdtr_mono hr
    have : 0 < stdtr r (min x (-1)) := by
      have hx : min x (-1) ≠ 0 := by
        have := min_le_right x (-1)
        intro h
        linarith
      have hx2 : min x (-1) ≤ 0 := (min_le_right x (-1)).trans (by norm_num)
      rw [stdtr, if_pos hx2]
      have := (betainc_mem (half_pos hr) one_half_pos (t_w_mem' hr hx)).1
      linarith
    exact this.trans_le (hm.monotone (min_le_left _ _))
  refine ⟨h x, ?_⟩
  have := h (-x)
  rw [stdtr_neg hr] at this
  linarith

theorem stdtr_cont {r : ℝ} (hr : 0 < r) : Continuous (stdtr r) := by
  have hw : Continuous fun x : ℝ => betainc (r / 2) (1 / 2) (r / (r + x ^ 2)) := by
    refine (betainc_cont (half_pos hr) one_half_pos).comp_continuous ?_ (t_w_mem hr)
    exact continuous_const.div (by fun_prop) fun x => by positivity
  unfold stdtr
  refine Continuous.if_le (hw.div_const 2) (continuous_const.sub (hw.div_const 2)) continuous_id
    continuous_const fun x hx => ?_
  rw [hx, zero_pow two_ne_zero, add_zero, div_self hr.ne', betainc_one (half_pos hr) one_half_pos]
  norm_num

/-- What is assumed of `stdtrit`: it is the inverse of `stdtr`. -/
def IsTInv (tinv : ℝ → ℝ → ℝ) : Prop := ∀ r, 0 < r → IsPpf univ (stdtr r) (tinv r)

theorem exists_tInv : ∃ tinv, IsTInv tinv := by
  obtain ⟨inv, h⟩ := exists_betaInv
  have hq : ∀ r q : ℝ, ∃ x : ℝ, 0 < r → 0 < q → q < 1 → stdtr r x = q := by
    intro r q
    by_cases hr : 0 < r ∧ 0 < q ∧ q < 1
    swap
    · exact ⟨0, fun h1 h2 h3 => absurd ⟨h1, h2, h3⟩ hr⟩
    obtain ⟨hr, h0, h1⟩ := hr
    -- the value below the median
    have lo : ∀ q : ℝ, 0 < q → q < 1 / 2 → ∃ x, stdtr r x = q := by
      intro q h0 h1
      have hp := h (r / 2) (1 / 2) (half_pos hr) one_half_pos
      have hm := hp.mem (2 * q) (by linarith) (by linarith)
      have hc := hp.cdf_ppf (2 * q) (by linarith) (by linarith)
      set w := inv (r / 2) (1 / 2) (2 * q)
      have hw : 0 ≤ r / w - r := by
        rw [sub_nonneg, le_div_iff₀ hm.1]
        nlinarith [hm.2]
      refine ⟨-√(r / w - r), ?_⟩
      have hw0 := hm.1
      rw [stdtr, if_pos (neg_nonpos.2 (sqrt_nonneg _)), neg_sq, sq_sqrt hw,
        show r / (r + (r / w - r)) = w by
          field_simp
          ring_nf, hc]
      ring
    rcases lt_trichotomy q (1 / 2) with hq | hq | hq
    · obtain ⟨x, hx⟩ := lo q h0 hq
      exact ⟨x, fun _ _ _ => hx⟩
    · exact ⟨0, fun _ _ _ => by rw [stdtr_zero hr, hq]⟩
    · obtain ⟨x, hx⟩ := lo (1 - q) (by linarith) (by linarith)
      exact ⟨-x, fun _ _ _ => by rw [stdtr_neg hr, hx]; ring⟩
  choose P hP using hq
  refine ⟨P, fun r hr => ⟨fun _ _ _ => mem_univ _, fun q h0 h1 => hP r q hr h0 h1,
    fun x _ => stdtr_mem hr x, fun x _ => ?_⟩⟩
  exact (stdtr_mono hr).injective (hP r _ hr (stdtr_mem hr x).1 (stdtr_mem hr x).2)

theorem t_pdf_pos {r : ℝ} (hr : 0 < r) (x : ℝ) : 0 < TD.pdf r x := by
  have := pi_pos
  have h : 0 < 1 + x ^ 2 / r := by positivity
  have := rpow_pos_of_pos h ((r + 1) / 2)
  unfold TD.pdf
  positivity

/-- The density through the beta function. -/
theorem t_pdf_eq {r : ℝ} (hr : 0 < r) (x : ℝ) :
    TD.pdf r x = (r / (r + x ^ 2)) ^ ((r + 1) / 2) / (√r * betaf (r / 2) (1 / 2)) := by
  have h1 := Gamma_pos_of_pos (half_pos hr)
  have h2 := Gamma_pos_of_pos (by linarith : 0 < (r + 1) / 2)
  have hs : 0 < r + x ^ 2 := by positivity
  have hp : 0 < √π := sqrt_pos.2 pi_pos
  have hr' : 0 < √r := sqrt_pos.2 hr
  have e : 1 + x ^ 2 / r = (r / (r + x ^ 2))⁻¹ := by
    field_simp
  have hu : 0 < r / (r + x ^ 2) := by positivity
  rw [TD.pdf, e, inv_rpow hu.le, exp_sub, gammaln, gammaln, abs_of_pos h1, abs_of_pos h2, exp_log h1,
    exp_log h2, betaf, Gamma_one_half_eq, sqrt_mul hr.le, show r / 2 + 1 / 2 = (r + 1) / 2 by ring]
  have := rpow_pos_of_pos hu ((r + 1) / 2)
  field_simp

theorem stdtr_deriv {r x : ℝ} (hr : 0 < r) (hx : x ≠ 0) : HasDerivAt (stdtr r) (TD.pdf r x) x := by
  have hs : 0 < r + x ^ 2 := by positivity
  have hB := betaf_pos (half_pos hr) one_half_pos
  have hm := t_w_mem' hr hx
  have hax : 0 < |x| := abs_pos.2 hx
  have hwd : HasDerivAt (fun x : ℝ => r / (r + x ^ 2)) (-(2 * r * x) / (r + x ^ 2) ^ 2) x := by
    refine HasDerivAt.congr_deriv ((hasDerivAt_const x r).div ((hasDerivAt_pow 2 x).const_add r) hs.ne') ?_
    field_simp
    push_cast
    ring
  have hd := (betainc_deriv (half_pos hr) one_half_pos hm).comp x hwd
  -- the derivative up to sign
  have key : (r / (r + x ^ 2)) ^ (r / 2 - 1) * (1 - r / (r + x ^ 2)) ^ ((1 : ℝ) / 2 - 1)
      / betaf (r / 2) (1 / 2) * (2 * r * |x| / (r + x ^ 2) ^ 2) / 2 = TD.pdf r x := by
    have h1 : (1 - r / (r + x ^ 2)) ^ ((1 : ℝ) / 2 - 1) = √(r + x ^ 2) / |x| := by
      have : 1 - r / (r + x ^ 2) = x ^ 2 / (r + x ^ 2) := by
        field_simp
        ring
      rw [this, show (1 : ℝ) / 2 - 1 = -(1 / 2) by norm_num, rpow_neg (by positivity), ← sqrt_eq_rpow,
        sqrt_div (by positivity), sqrt_sq_eq_abs, inv_div]
    have h2 : (r / (r + x ^ 2)) ^ ((r + 1) / 2)
        = (r / (r + x ^ 2)) ^ (r / 2 - 1) * (r / (r + x ^ 2) * (√r / √(r + x ^ 2))) := by
      rw [← sqrt_div hr.le, ← rpow_threehalf hm.1.le, ← rpow_add hm.1]
      congr 1
      ring
    have hq : √(r + x ^ 2) ^ 2 = r + x ^ 2 := sq_sqrt hs.le
    have hq0 : 0 < √(r + x ^ 2) := sqrt_pos.2 hs
    have hr0 : 0 < √r := sqrt_pos.2 hr
    rw [t_pdf_eq hr, h1, h2]
    generalize (r / (r + x ^ 2)) ^ (r / 2 - 1) = p
    generalize √(r + x ^ 2) = q at *
    rw [← hq]
    field_simp
  rcases lt_or_gt_of_ne hx with h | h
  · refine HasDerivAt.congr_deriv ((hd.div_const 2).congr_of_eventuallyEq ?_) ?_
    · filter_upwards [gt_mem_nhds h] with y hy
      rw [stdtr, if_pos hy.le]
      rfl
    · rw [← key, abs_of_neg h]
      ring
  · refine HasDerivAt.congr_deriv (((hd.div_const 2).const_sub 1).congr_of_eventuallyEq ?_) ?_
    · filter_upwards [lt_mem_nhds h] with y hy
      rw [stdtr, if_neg (not_le.2 hy)]
      rfl
    · rw [← key, abs_of_pos h]
      ring

/-- `t`. -/
theorem C268_t {tinv : ℝ → ℝ → ℝ} (h : IsTInv tinv) (r : ℝ) (hr : 0 < r) :
    IsCdf univ (TD.pdf r) (TD.cdf r) ∧ IsSf univ (TD.cdf r) (TD.sf r) ∧
    IsPpf univ (TD.cdf r) (TD.ppf tinv r) ∧ IsIsf (TD.ppf tinv r) (TD.isf tinv r) ∧
    IsLog univ (TD.pdf r) (TD.logpdf r) := by
  refine ⟨isCdf_of_ppf' {0} isOpen_univ ordConnected_univ (stdtr_cont hr).continuousOn
    (fun x _ hx => stdtr_deriv hr (by simpa using hx)) (fun x _ => (t_pdf_pos hr x).le) (h r hr),
    fun x _ => stdtr_neg hr x, h r hr, fun q h0 h1 => ?_, fun x _ => ⟨t_pdf_pos hr x, ?_⟩⟩
  · refine (stdtr_mono hr).injective ?_
    show stdtr r (-tinv r q) = stdtr r (tinv r (1 - q))
    rw [stdtr_neg hr, (h r hr).cdf_ppf q h0 h1, (h r hr).cdf_ppf (1 - q) (by linarith) (by linarith)]
  · have hp := pi_pos
    have hu : 0 < 1 + x ^ 2 / r := by positivity
    rw [TD.pdf, TD.logpdf, log_div (exp_pos _).ne'
      (mul_pos (sqrt_pos.2 (by positivity)) (rpow_pos_of_pos hu _)).ne', log_exp,
      log_mul (sqrt_pos.2 (by positivity)).ne' (rpow_pos_of_pos hu _).ne', log_rpow hu,
      log_sqrt (by positivity)]
    ring

example : ∃ tinv, IsTInv tinv := exists_tInv

end Wafo.Dist
