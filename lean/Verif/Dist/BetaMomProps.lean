import Verif.Dist.BetaProps
import Mathlib.Analysis.SpecialFunctions.NonIntegrable

/-!
# C269: the moments which the beta family reports
-/

namespace Wafo.Dist

open MeasureTheory Set Filter Topology Real

set_option linter.unusedSectionVars false

/-! ### Tools -/

theorem hasInt_subst_rpow {p : ℝ} (hp : 0 < p) {g : ℝ → ℝ} {v : ℝ} (h : HasInt (Ioi 0) g v) :
    HasInt (Ioi 0) (fun x => p * x ^ (p - 1) * g (x ^ p)) v := by
  constructor
  · have := (integrableOn_Ioi_comp_rpow_iff g hp.ne').2 h.1
    rwa [abs_of_pos hp] at this
  · exact (integral_comp_rpow_Ioi_of_pos hp).trans h.2

theorem hasInt_scale {c : ℝ} (hc : 0 < c) {g : ℝ → ℝ} {v : ℝ} (h : HasInt (Ioi 0) g v) :
    HasInt (Ioi 0) (fun x => c * g (c * x)) v := by
  constructor
  · refine Integrable.const_mul ?_ c
    have := (integrableOn_Ioi_comp_mul_left_iff g 0 hc).2 (by rw [mul_zero]; exact h.1)
    exact this
  · rw [integral_const_mul]
    have := integral_comp_mul_left_Ioi' g 0 hc
    rw [mul_zero, smul_eq_mul, h.2] at this
    exact this

/-- A tail as heavy as that of `1 / x`. -/
theorem noMoment_tail {I : Set ℝ} {f : ℝ → ℝ} {n : ℕ} {k A : ℝ} (hk : 0 < k) (hI : Ioi A ⊆ I)
    (hA : 0 ≤ A) (h : ∀ x, A < x → k * x⁻¹ ≤ x ^ n * f x) : NoMoment I f n := by
  intro hi
  have h1 : IntegrableOn (fun x : ℝ => k * x⁻¹) (Ioi A) := by
    refine Integrable.mono' (hi.mono_set hI) (by fun_prop) ?_
    refine (ae_restrict_iff' measurableSet_Ioi).2 (Eventually.of_forall fun x hx => ?_)
    have hx : A < x := hx
    have : 0 < x := hA.trans_lt hx
    rw [norm_of_nonneg (by positivity)]
    exact h x hx
  have h2 := h1.const_mul (1 / k)
  refine not_integrableOn_Ioi_inv (a := A)
    ((integrableOn_congr_fun (fun x _ => ?_) measurableSet_Ioi).1 h2)
  show 1 / k * (k * x⁻¹) = x⁻¹
  field_simp

theorem betaf_add_one {a b : ℝ} (ha : 0 < a) (hb : 0 < b) :
    betaf (a + 1) b = betaf a b * (a / (a + b)) := by
  have h1 := Gamma_pos_of_pos ha
  have h2 := Gamma_pos_of_pos hb
  have h3 := Gamma_pos_of_pos (add_pos ha hb)
  rw [betaf, betaf, Gamma_add_one ha.ne', show a + 1 + b = a + b + 1 by ring,
    Gamma_add_one (add_pos ha hb).ne']
  field_simp

/-- One up and one down. -/
theorem betaf_shift {a b : ℝ} (ha : 0 < a) (hb : 1 < b) :
    betaf (a + 1) (b - 1) = betaf a b * (a / (b - 1)) := by
  have hb1 : 0 < b - 1 := by linarith
  have h1 := betaf_add_one ha hb1
  have h2 := betaf_add_one hb1 ha
  rw [sub_add_cancel, betaf_comm b a, betaf_comm (b - 1) a] at h2
  rw [h1, h2, add_comm (b - 1) a]
  field_simp

/-! ### The beta distribution -/

theorem beta_moment {a b : ℝ} (ha : 0 < a) (hb : 0 < b) (n : ℕ) :
    HasMoment (Ioo 0 1) (BetaD.pdf a b) n (betaf (a + n) b / betaf a b) := by
  have hB := betaf_pos ha hb
  have h := hasInt_beta (a := a + n) (b := b) (by positivity) hb
  refine (h.const_mul (1 / betaf a b)).congr measurableSet_Ioo (fun x hx => ?_) (by ring)
  rw [beta_pdf_eq ha hb hx, show a + n - 1 = (a - 1) + n by ring, rpow_add hx.1, rpow_natCast]
  field_simp

theorem C269_beta_stats (a b : ℝ) (ha : 0 < a) (hb : 0 < b) :
    HasStats (Ioo 0 1) (BetaD.pdf a b) (BetaD.stats a b) := by
  have hB := betaf_pos ha hb
  have e1 := betaf_add_one ha hb
  have e2 := betaf_add_one (by positivity : 0 < a + 1) hb
  have e3 := betaf_add_one (by positivity : 0 < a + 1 + 1) hb
  have e4 := betaf_add_one (by positivity : 0 < a + 1 + 1 + 1) hb
  have h0 := beta_moment ha hb 0
  have h1 := beta_moment ha hb 1
  have h2 := beta_moment ha hb 2
  have h3 := beta_moment ha hb 3
  have h4 := beta_moment ha hb 4
  rw [Nat.cast_zero, add_zero, div_self hB.ne'] at h0
  rw [Nat.cast_one, e1] at h1
  rw [show a + (2 : ℕ) = a + 1 + 1 by push_cast; ring, e2, e1] at h2
  rw [show a + (3 : ℕ) = a + 1 + 1 + 1 by push_cast; ring, e3, e2, e1] at h3
  rw [show a + (4 : ℕ) = a + 1 + 1 + 1 + 1 by push_cast; ring, e4, e3, e2, e1] at h4
  have hm : a * 1 / (a + b) = betaf a b * (a / (a + b)) / betaf a b := by
    field_simp
  rw [← hm] at h1
  refine hasStats_of_raw measurableSet_Ioo (fun x _ => (exp_pos _).le) h0 h1 h2 h3 h4 ?_
    (fun hv => ?_) (fun hv => ?_)
  · field_simp
    ring
  · have hs : a + b + 1 ≠ 0 := by positivity
    have es : a * b * 1 / (a + b + 1) / (a + b) ^ 2
        = a * b / (1 + a + b) / (a + b) ^ 2 := by
      rw [mul_one, show a + b + 1 = 1 + a + b by ring]
    rw [rpow_threehalf hv.le, es,
      show (1 + a + b) / (a * b) = (a * b / (1 + a + b))⁻¹ by rw [inv_div], sqrt_inv,
      sqrt_div (x := a * b / (1 + a + b)) (by positivity) ((a + b) ^ 2), sqrt_sq (by positivity)]
    have hq : 0 < √(a * b / (1 + a + b)) := sqrt_pos.2 (by positivity)
    generalize √(a * b / (1 + a + b)) = q at *
    field_simp
    ring
  · field_simp
    ring

example : BetaD.stats 2 2 = (2 / 4, 4 / 5 / 16, 0, -(6 / 7)) := by
  norm_num [BetaD.stats]

/-! ### The beta prime distribution -/

theorem hasInt_bp {a b s : ℝ} (ha : 0 < a) (hb : 0 < b) (h1 : 0 < a + s) (h2 : 0 < b - s) :
    HasInt (Ioi 0) (fun x => x ^ s * BetaPrime.pdf a b x) (betaf (a + s) (b - s) / betaf a b) := by
  have hB := betaf_pos ha hb
  have hB2 := betaf_pos h1 h2
  obtain ⟨h, -⟩ := C268_betaprime (a + s) (b - s) h1 h2
  have h : HasInt (Ioi 0) (BetaPrime.pdf (a + s) (b - s)) 1 := ⟨h.integrable, h.total⟩
  refine (h.const_mul (betaf (a + s) (b - s) / betaf a b)).congr measurableSet_Ioi (fun x hx => ?_)
    (by ring)
  have hx : 0 < x := hx
  rw [bp_pdf_eq ha hb hx, bp_pdf_eq h1 h2 hx, show a + s + (b - s) = a + b by ring,
    show a + s - 1 = s + (a - 1) by ring, rpow_add hx]
  field_simp

theorem bp_tail {a b x : ℝ} (ha : 0 < a) (hb : 0 < b) (hx : 1 < x) {n : ℕ} (hn : b ≤ n) :
    2 ^ (-(a + b)) / betaf a b * x⁻¹ ≤ x ^ n * BetaPrime.pdf a b x := by
  have hB := betaf_pos ha hb
  have hx0 : 0 < x := by linarith
  rw [bp_pdf_eq ha hb hx0]
  have e1 : (2 * x) ^ (-(a + b)) ≤ (1 + x) ^ (-(a + b)) :=
    rpow_le_rpow_of_nonpos (by linarith) (by linarith) (by linarith)
  rw [mul_rpow two_pos.le hx0.le] at e1
  have e2 : x⁻¹ ≤ x ^ n * x ^ (a - 1) * x ^ (-(a + b)) := by
    rw [← rpow_natCast, ← rpow_add hx0, ← rpow_add hx0, ← rpow_neg_one]
    exact rpow_le_rpow_of_exponent_le hx.le (by linarith)
  have e3 : (0 : ℝ) < 2 ^ (-(a + b)) := rpow_pos_of_pos two_pos _
  have e4 : 0 < x ^ n * x ^ (a - 1) := mul_pos (pow_pos hx0 _) (rpow_pos_of_pos hx0 _)
  calc 2 ^ (-(a + b)) / betaf a b * x⁻¹
      ≤ 2 ^ (-(a + b)) / betaf a b * (x ^ n * x ^ (a - 1) * x ^ (-(a + b))) := by gcongr
    _ = x ^ n * x ^ (a - 1) * (2 ^ (-(a + b)) * x ^ (-(a + b))) / betaf a b := by ring
    _ ≤ x ^ n * x ^ (a - 1) * (1 + x) ^ (-(a + b)) / betaf a b := by gcongr
    _ = x ^ n * (x ^ (a - 1) * (1 + x) ^ (-(a + b)) / betaf a b) := by ring

theorem bp_noMoment {a b : ℝ} (ha : 0 < a) (hb : 0 < b) {n : ℕ} (hn : b ≤ n) :
    NoMoment (Ioi 0) (BetaPrime.pdf a b) n :=
  noMoment_tail (k := 2 ^ (-(a + b)) / betaf a b) (A := 1)
    (div_pos (rpow_pos_of_pos two_pos _) (betaf_pos ha hb)) (Ioi_subset_Ioi zero_le_one) zero_le_one
    fun _ hx => bp_tail ha hb hx hn

theorem bp_moment {a b : ℝ} (ha : 0 < a) {n : ℕ} (hn : n < b) :
    HasMoment (Ioi 0) (BetaPrime.pdf a b) n (betaf (a + n) (b - n) / betaf a b) := by
  have hb : 0 < b := lt_of_le_of_lt n.cast_nonneg hn
  refine (hasInt_bp ha hb (s := n) (by positivity) (by linarith)).congr measurableSet_Ioi
    (fun x _ => ?_) rfl
  rw [rpow_natCast]

/-- The products which the raw moments are. -/
theorem bp_ratio {a b : ℝ} (ha : 0 < a) :
    (1 < b → betaf (a + 1) (b - 1) / betaf a b = a / (b - 1)) ∧
    (2 < b → betaf (a + 2) (b - 2) / betaf a b = a * (a + 1) / ((b - 2) * (b - 1))) ∧
    (3 < b → betaf (a + 3) (b - 3) / betaf a b
      = a * (a + 1) * (a + 2) / ((b - 3) * (b - 2) * (b - 1))) ∧
    (4 < b → betaf (a + 4) (b - 4) / betaf a b
      = a * (a + 1) * (a + 2) * (a + 3) / ((b - 4) * (b - 3) * (b - 2) * (b - 1))) := by
  have s1 : 1 < b → betaf (a + 1) (b - 1) = betaf a b * (a / (b - 1)) := fun h => betaf_shift ha h
  have s2 : 2 < b → betaf (a + 2) (b - 2) = betaf a b * (a / (b - 1)) * ((a + 1) / (b - 2)) := by
    intro h
    have := betaf_shift (a := a + 1) (b := b - 1) (by linarith) (by linarith)
    rw [s1 (by linarith), show a + 1 + 1 = a + 2 by ring, show b - 1 - 1 = b - 2 by ring] at this
    exact this
  have s3 : 3 < b → betaf (a + 3) (b - 3)
      = betaf a b * (a / (b - 1)) * ((a + 1) / (b - 2)) * ((a + 2) / (b - 3)) := by
    intro h
    have := betaf_shift (a := a + 2) (b := b - 2) (by linarith) (by linarith)
    rw [s2 (by linarith), show a + 2 + 1 = a + 3 by ring, show b - 2 - 1 = b - 3 by ring] at this
    exact this
  have s4 : 4 < b → betaf (a + 4) (b - 4)
      = betaf a b * (a / (b - 1)) * ((a + 1) / (b - 2)) * ((a + 2) / (b - 3)) * ((a + 3) / (b - 4)) := by
    intro h
    have := betaf_shift (a := a + 3) (b := b - 3) (by linarith) (by linarith)
    rw [s3 (by linarith), show a + 3 + 1 = a + 4 by ring, show b - 3 - 1 = b - 4 by ring] at this
    exact this
  refine ⟨fun h => ?_, fun h => ?_, fun h => ?_, fun h => ?_⟩
  · have hB := betaf_pos ha (by linarith : 0 < b)
    rw [s1 h]
    field_simp
  · have hB := betaf_pos ha (by linarith : 0 < b)
    have : b - 1 ≠ 0 := by linarith
    have : b - 2 ≠ 0 := by linarith
    rw [s2 h]
    field_simp
  · have hB := betaf_pos ha (by linarith : 0 < b)
    have : b - 1 ≠ 0 := by linarith
    have : b - 2 ≠ 0 := by linarith
    have : b - 3 ≠ 0 := by linarith
    rw [s3 h]
    field_simp
  · have hB := betaf_pos ha (by linarith : 0 < b)
    have : b - 1 ≠ 0 := by linarith
    have : b - 2 ≠ 0 := by linarith
    have : b - 3 ≠ 0 := by linarith
    have : b - 4 ≠ 0 := by linarith
    rw [s4 h]
    field_simp

/-- `betaprime`: the raw moments of order one to four, infinite exactly when they do not exist. -/
theorem C269_betaprime_munp (a b : ℝ) (ha : 0 < a) (hb : 0 < b) (n : ℕ) (v : Val)
    (hv : BetaPrime.munp n a b = some v) :
    Reports (HasMoment (Ioi 0) (BetaPrime.pdf a b) n) (NoMoment (Ioi 0) (BetaPrime.pdf a b) n) v := by
  obtain ⟨r1, r2, r3, r4⟩ := bp_ratio (b := b) ha
  unfold BetaPrime.munp at hv
  split_ifs at hv with h1 c1 h2 c2 h3 c3 h4 c4 <;> subst n <;>
    simp only [Option.some.injEq] at hv <;> subst v <;> simp only [Reports]
  · rw [← r1 c1]
    have := bp_moment ha (n := 1) (b := b) (by exact_mod_cast c1)
    exact_mod_cast this
  · exact bp_noMoment ha hb (by push_cast; linarith)
  · rw [← r2 c2]
    have := bp_moment ha (n := 2) (b := b) (by exact_mod_cast c2)
    exact_mod_cast this
  · exact bp_noMoment ha hb (by push_cast; linarith)
  · rw [← r3 c3]
    have := bp_moment ha (n := 3) (b := b) (by exact_mod_cast c3)
    exact_mod_cast this
  · exact bp_noMoment ha hb (by push_cast; linarith)
  · rw [← r4 c4]
    have := bp_moment ha (n := 4) (b := b) (by exact_mod_cast c4)
    exact_mod_cast this
  · exact bp_noMoment ha hb (by push_cast; linarith)

/-- The orders which are implemented. -/
theorem C269_betaprime_orders (a b : ℝ) (n : ℕ) :
    (∃ v, BetaPrime.munp n a b = some v) ↔ 1 ≤ n ∧ n ≤ 4 := by
  constructor
  · rintro ⟨v, hv⟩
    unfold BetaPrime.munp at hv
    split_ifs at hv <;> omega
  · rintro ⟨h1, h4⟩
    interval_cases n <;> simp [BetaPrime.munp]

/-! ### The F distribution -/

theorem f_pdf_eq {n m x : ℝ} (hn : 0 < n) (hm : 0 < m) (hx : 0 < x) :
    FD.pdf n m x = n / m * BetaPrime.pdf (n / 2) (m / 2) (n / m * x) := by
  have hs : 0 < m + n * x := by positivity
  have e : 1 + n / m * x = (m + n * x) / m := by
    field_simp
  have e2 : n / m = exp (log n - log m) := by rw [exp_sub, exp_log hn, exp_log hm]
  rw [BetaPrime.pdf, BetaPrime.logpdf, xlogy, xlog1py, e, log_div hs.ne' hm.ne',
    log_mul (by positivity) hx.ne', log_div hn.ne' hm.ne', FD.pdf, FD.logpdf, xlogy]
  rw [e2, ← exp_add]
  congr 1
  ring

theorem f_moment {n m : ℝ} (hn : 0 < n) {k : ℕ} (hk : (k : ℝ) < m / 2) :
    HasMoment (Ioi 0) (FD.pdf n m) k
      ((m / n) ^ k * (betaf (n / 2 + k) (m / 2 - k) / betaf (n / 2) (m / 2))) := by
  have hm : 0 < m := by
    have : (0 : ℝ) ≤ k := k.cast_nonneg
    linarith
  have h := bp_moment (half_pos hn) hk
  have h := (hasInt_scale (c := n / m) (by positivity) h).const_mul ((m / n) ^ k)
  refine h.congr measurableSet_Ioi (fun x hx => ?_) rfl
  rw [f_pdf_eq hn hm hx, mul_pow, div_pow, div_pow]
  field_simp

theorem f_noMoment {n m : ℝ} (hn : 0 < n) (hm : 0 < m) {k : ℕ} (hk : m / 2 ≤ k) :
    NoMoment (Ioi 0) (FD.pdf n m) k := by
  have hB := betaf_pos (half_pos hn) (half_pos hm)
  refine noMoment_tail (k := (m / n) ^ k * (2 ^ (-(n / 2 + m / 2)) / betaf (n / 2) (m / 2)))
    (A := m / n)
    (by
      have : (0 : ℝ) < 2 ^ (-(n / 2 + m / 2)) := rpow_pos_of_pos two_pos _
      positivity)
    (Ioi_subset_Ioi (by positivity)) (by positivity) fun x hx => ?_
  have hx0 : 0 < x := lt_trans (by positivity) hx
  have h1 : 1 < n / m * x := by
    rw [div_lt_iff₀ hn] at hx
    rw [div_mul_eq_mul_div, lt_div_iff₀ hm]
    linarith
  have h := bp_tail (half_pos hn) (half_pos hm) h1 hk
  have h2 : 0 < (m / n) ^ k * (n / m) := by positivity
  have h3 := mul_le_mul_of_nonneg_left h h2.le
  rw [f_pdf_eq hn hm hx0]
  refine le_trans (le_of_eq ?_) (h3.trans (le_of_eq ?_))
  · rw [mul_inv]
    field_simp
  · rw [mul_pow, div_pow, div_pow]
    field_simp

theorem C269_f_stats (n m : ℝ) (hn : 0 < n) (hm : 0 < m) :
    HasStats? (Ioi 0) (FD.pdf n m) (FD.stats n m) := by
  obtain ⟨r1, r2, r3, r4⟩ := bp_ratio (b := m / 2) (half_pos hn)
  have hB := betaf_pos (half_pos hn) (half_pos hm)
  have hnn : ∀ x ∈ Ioi (0 : ℝ), 0 ≤ FD.pdf n m x := fun x _ => (exp_pos _).le
  have h0 : HasMoment (Ioi 0) (FD.pdf n m) 0 1 := by
    have := f_moment hn (k := 0) (m := m) (by simpa using hm)
    simpa [div_self hB.ne'] using this
  have h1 : 2 < m → HasMoment (Ioi 0) (FD.pdf n m) 1 (m / (m - 2)) := fun h => by
    have h' : m - 2 ≠ 0 := by linarith
    have h'' : m / 2 - 1 ≠ 0 := by linarith
    have := f_moment hn (k := 1) (m := m) (by push_cast; linarith)
    rw [Nat.cast_one, r1 (by linarith)] at this
    convert this using 1
    field_simp
  have h2 : 4 < m → HasMoment (Ioi 0) (FD.pdf n m) 2
      (m ^ 2 * (n + 2) / (n * (m - 2) * (m - 4))) := fun h => by
    have h1 : m - 2 ≠ 0 := by linarith
    have h2 : m - 4 ≠ 0 := by linarith
    have h3 : m / 2 - 1 ≠ 0 := by linarith
    have h4 : m / 2 - 2 ≠ 0 := by linarith
    have := f_moment hn (k := 2) (m := m) (by push_cast; linarith)
    rw [Nat.cast_ofNat, r2 (by linarith), show m / 2 - 1 = (m - 2) / 2 by ring,
      show m / 2 - 2 = (m - 4) / 2 by ring] at this
    convert this using 1
    field_simp
    try ring
  have h3 : 6 < m → HasMoment (Ioi 0) (FD.pdf n m) 3
      (m ^ 3 * (n + 2) * (n + 4) / (n ^ 2 * (m - 2) * (m - 4) * (m - 6))) := fun h => by
    have h1 : m - 2 ≠ 0 := by linarith
    have h2 : m - 4 ≠ 0 := by linarith
    have h3 : m - 6 ≠ 0 := by linarith
    have := f_moment hn (k := 3) (m := m) (by push_cast; linarith)
    rw [Nat.cast_ofNat, r3 (by linarith), show m / 2 - 1 = (m - 2) / 2 by ring,
      show m / 2 - 2 = (m - 4) / 2 by ring, show m / 2 - 3 = (m - 6) / 2 by ring] at this
    convert this using 1
    field_simp
    try ring
  have h4 : 8 < m → HasMoment (Ioi 0) (FD.pdf n m) 4
      (m ^ 4 * (n + 2) * (n + 4) * (n + 6) / (n ^ 3 * (m - 2) * (m - 4) * (m - 6) * (m - 8))) := fun h => by
    have h1 : m - 2 ≠ 0 := by linarith
    have h2 : m - 4 ≠ 0 := by linarith
    have h3 : m - 6 ≠ 0 := by linarith
    have h4 : m - 8 ≠ 0 := by linarith
    have := f_moment hn (k := 4) (m := m) (by push_cast; linarith)
    rw [Nat.cast_ofNat, r4 (by linarith), show m / 2 - 1 = (m - 2) / 2 by ring,
      show m / 2 - 2 = (m - 4) / 2 by ring, show m / 2 - 3 = (m - 6) / 2 by ring,
      show m / 2 - 4 = (m - 8) / 2 by ring] at this
    convert this using 1
    field_simp
    try ring
  have hvar : 4 < m → 2 * m * m * (n + (m - 2)) / (n * (m - 2) ^ 2 * (m - 4))
      = m ^ 2 * (n + 2) / (n * (m - 2) * (m - 4)) - (m / (m - 2)) ^ 2 := fun h => by
    have h1 : m - 2 ≠ 0 := by linarith
    have h2 : m - 4 ≠ 0 := by linarith
    field_simp
    ring
  have h8 : √8 = 2 * √2 := by
    rw [show (8 : ℝ) = 2 ^ 2 * 2 by norm_num, sqrt_mul (by norm_num), sqrt_sq two_pos.le]
  -- the skewness times the power of the variance
  have hsk : 6 < m → (2 * n + (m - 2)) / (m - 6) * √((m - 4) / (n * (n + (m - 2)))) * √8
      = 2 * (2 * n + (m - 2)) / (m - 6) * √(2 * (m - 4) / (n * (n + (m - 2)))) := fun h => by
    rw [h8, show 2 * (m - 4) / (n * (n + (m - 2))) = 2 * ((m - 4) / (n * (n + (m - 2)))) by ring,
      sqrt_mul two_pos.le]
    ring
  have hsd : 4 < m → √(2 * m * m * (n + (m - 2)) / (n * (m - 2) ^ 2 * (m - 4)))
      * √(2 * (m - 4) / (n * (n + (m - 2)))) = 2 * m / (n * (m - 2)) := fun h => by
    have h1 : 0 < m - 2 := by linarith
    have h2 : 0 < m - 4 := by linarith
    rw [← sqrt_mul (by positivity), show 2 * m * m * (n + (m - 2)) / (n * (m - 2) ^ 2 * (m - 4))
      * (2 * (m - 4) / (n * (n + (m - 2)))) = (2 * m / (n * (m - 2))) ^ 2 by
        field_simp, sqrt_sq (by positivity)]
  refine ⟨?_, ?_, ?_, ?_⟩ <;> simp only [FD.stats] <;> split_ifs with h <;> simp only [Reports]
  · exact h1 h
  · exact f_noMoment hn hm (by push_cast; linarith)
  · exact hasVar_of_raw measurableSet_Ioi hnn h0 (h1 (by linarith)) (h2 h) (hvar h)
  · exact f_noMoment hn hm (by push_cast; linarith)
  · refine hasSkew_of_raw measurableSet_Ioi hnn h0 (h1 (by linarith)) (h2 (by linarith)) (h3 h)
      (hvar (by linarith)) fun hv => ?_
    have e1 : m - 2 ≠ 0 := by linarith
    have e2 : m - 4 ≠ 0 := by linarith
    have e3 : m - 6 ≠ 0 := by linarith
    have e4 : 0 < n + (m - 2) := by linarith
    rw [rpow_threehalf hv.le, hsk h]
    have := hsd (by linarith)
    generalize √(2 * m * m * (n + (m - 2)) / (n * (m - 2) ^ 2 * (m - 4))) = p at *
    generalize √(2 * (m - 4) / (n * (n + (m - 2)))) = q at *
    have e5 : 2 * (2 * n + (m - 2)) / (m - 6) * q *
        (2 * m * m * (n + (m - 2)) / (n * (m - 2) ^ 2 * (m - 4)) * p)
        = 2 * (2 * n + (m - 2)) / (m - 6) *
        (2 * m * m * (n + (m - 2)) / (n * (m - 2) ^ 2 * (m - 4)) * (p * q)) := by ring
    rw [e5, this]
    field_simp
    ring
  · exact f_noMoment hn hm (by push_cast; linarith)
  · refine hasKurt_of_raw measurableSet_Ioi hnn h0 (h1 (by linarith)) (h2 (by linarith))
      (h3 (by linarith)) (h4 h) (hvar (by linarith)) fun hv => ?_
    have e1 : m - 2 ≠ 0 := by linarith
    have e2 : m - 4 ≠ 0 := by linarith
    have e3 : m - 6 ≠ 0 := by linarith
    have e4 : 0 < n + (m - 2) := by linarith
    have e6 : m - 8 ≠ 0 := by linarith
    have hq : √(2 * (m - 4) / (n * (n + (m - 2)))) ^ 2 = 2 * (m - 4) / (n * (n + (m - 2))) :=
      sq_sqrt (div_nonneg (by linarith) (by positivity))
    rw [hsk (by linarith)]
    generalize √(2 * (m - 4) / (n * (n + (m - 2)))) = q at *
    rw [show 2 * (2 * n + (m - 2)) / (m - 6) * q * (2 * (2 * n + (m - 2)) / (m - 6) * q)
      = (2 * (2 * n + (m - 2)) / (m - 6)) ^ 2 * q ^ 2 by ring, hq]
    field_simp
    ring
  · exact f_noMoment hn hm (by push_cast; linarith)

/-! ### Student's distribution -/

theorem t_even (r x : ℝ) : TD.pdf r (-x) = TD.pdf r x := by
  rw [TD.pdf, TD.pdf, neg_sq]

/-- Twice the density is that of the root of a beta prime variable. -/
theorem t_pdf_bp {r x : ℝ} (hr : 0 < r) (hx : 0 < x) :
    2 * TD.pdf r x = 2 * x ^ ((2 : ℝ) - 1) * (1 / r * BetaPrime.pdf (1 / 2) (r / 2) (1 / r * x ^ (2 : ℝ))) := by
  have hB := betaf_pos (half_pos hr) one_half_pos
  have hs : 0 < r + x ^ 2 := by positivity
  have hu : 0 < 1 + 1 / r * x ^ 2 := by positivity
  rw [rpow_two, bp_pdf_eq one_half_pos (half_pos hr) (by positivity), t_pdf_eq hr,
    show (2 : ℝ) - 1 = 1 by norm_num, rpow_one, betaf_comm (1 / 2),
    show r / (r + x ^ 2) = (1 + 1 / r * x ^ 2)⁻¹ by field_simp, inv_rpow hu.le, ← rpow_neg hu.le,
    show -((1 : ℝ) / 2 + r / 2) = -((r + 1) / 2) by ring, show (1 : ℝ) / 2 - 1 = -(1 / 2) by norm_num,
    rpow_neg (x := 1 / r * x ^ 2) (by positivity), ← sqrt_eq_rpow, sqrt_mul (by positivity), sqrt_sq hx.le,
    sqrt_div zero_le_one, sqrt_one]
  have h1 : 0 < √r := sqrt_pos.2 hr
  have h2 : √r ^ 2 = r := sq_sqrt hr.le
  generalize (1 + 1 / r * x ^ 2) ^ (-((r + 1) / 2)) = p
  generalize √r = q at *
  rw [← h2] at *
  field_simp

theorem t_moment {r : ℝ} {n : ℕ} (hn : (n : ℝ) < r) :
    HasMoment univ (TD.pdf r) n (if n % 2 = 0 then
      r ^ ((n : ℝ) / 2) * (betaf (1 / 2 + n / 2) (r / 2 - n / 2) / betaf (1 / 2) (r / 2)) else 0) := by
  have hr : 0 < r := lt_of_le_of_lt n.cast_nonneg hn
  refine even_moment (t_even r) ?_
  have h := hasInt_bp one_half_pos (half_pos hr) (s := (n : ℝ) / 2) (by positivity) (by linarith)
  have h := (hasInt_subst_rpow two_pos (hasInt_scale (c := 1 / r) (by positivity) h)).const_mul (r ^ ((n : ℝ) / 2))
  refine h.congr measurableSet_Ioi (fun x hx => ?_) rfl
  have hx : 0 < x := hx
  show x ^ n * (2 * TD.pdf r x) = _
  rw [t_pdf_bp hr hx]
  have e : x ^ n = r ^ ((n : ℝ) / 2) * (1 / r * x ^ (2 : ℝ)) ^ ((n : ℝ) / 2) := by
    rw [← mul_rpow hr.le (by positivity), show r * (1 / r * x ^ (2 : ℝ)) = x ^ (2 : ℝ) by field_simp,
      ← rpow_mul hx.le, show (2 : ℝ) * ((n : ℝ) / 2) = n by ring, rpow_natCast]
  rw [e]
  ring

theorem t_noMoment {r : ℝ} (hr : 0 < r) {n : ℕ} (hn : r ≤ n) : NoMoment univ (TD.pdf r) n := by
  have hB := betaf_pos (half_pos hr) one_half_pos
  have hr' : 0 < √r := sqrt_pos.2 hr
  refine noMoment_tail (k := (r / (r + 1)) ^ ((r + 1) / 2) / (√r * betaf (r / 2) (1 / 2))) (A := 1)
    (div_pos (rpow_pos_of_pos (by positivity) _) (by positivity)) (subset_univ _) zero_le_one
    fun x hx => ?_
  have hx0 : 0 < x := by linarith
  rw [t_pdf_eq hr]
  have e1 : r / (r + 1) * x⁻¹ ^ 2 ≤ r / (r + x ^ 2) := by
    rw [inv_pow, ← div_eq_mul_inv, div_div]
    exact div_le_div_of_nonneg_left hr.le (by positivity) (by
      have : 1 ≤ x ^ 2 := one_le_pow₀ hx.le
      nlinarith)
  have e2 : (r / (r + 1)) ^ ((r + 1) / 2) * x ^ (-(r + 1)) ≤ (r / (r + x ^ 2)) ^ ((r + 1) / 2) := by
    have : x ^ (-(r + 1)) = (x⁻¹ ^ 2) ^ ((r + 1) / 2) := by
      rw [← rpow_natCast, ← rpow_mul (by positivity), inv_rpow hx0.le, rpow_neg hx0.le]
      congr 2
      push_cast
      ring
    rw [this, ← mul_rpow (by positivity) (by positivity)]
    exact rpow_le_rpow (by positivity) e1 (by positivity)
  have e3 : x⁻¹ ≤ x ^ n * x ^ (-(r + 1)) := by
    rw [← rpow_natCast, ← rpow_add hx0, ← rpow_neg_one]
    exact rpow_le_rpow_of_exponent_le hx.le (by linarith)
  have e4 : 0 < (r / (r + 1)) ^ ((r + 1) / 2) := rpow_pos_of_pos (by positivity) _
  calc (r / (r + 1)) ^ ((r + 1) / 2) / (√r * betaf (r / 2) (1 / 2)) * x⁻¹
      ≤ (r / (r + 1)) ^ ((r + 1) / 2) / (√r * betaf (r / 2) (1 / 2)) * (x ^ n * x ^ (-(r + 1))) := by
        gcongr
    _ = x ^ n * ((r / (r + 1)) ^ ((r + 1) / 2) * x ^ (-(r + 1)) / (√r * betaf (r / 2) (1 / 2))) := by ring
    _ ≤ _ := by gcongr

theorem C269_t_stats (r : ℝ) (hr : 0 < r) : HasStats? univ (TD.pdf r) (TD.stats r) := by
  obtain ⟨r1, r2, -, -⟩ := bp_ratio (a := 1 / 2) (b := r / 2) one_half_pos
  have hB := betaf_pos one_half_pos (half_pos hr)
  have hnn : ∀ x ∈ univ, 0 ≤ TD.pdf r x := fun x _ => (t_pdf_pos hr x).le
  have h0 : HasMoment univ (TD.pdf r) 0 1 := by
    have := t_moment (r := r) (n := 0) (by simpa using hr)
    rw [if_pos rfl, Nat.cast_zero, zero_div, rpow_zero, add_zero, sub_zero, div_self hB.ne', one_mul] at this
    exact this
  have h1 : 1 < r → HasMoment univ (TD.pdf r) 1 0 := fun h => by
    simpa using t_moment (r := r) (n := 1) (by simpa using h)
  have h2 : 2 < r → HasMoment univ (TD.pdf r) 2 (r / (r - 2)) := fun h => by
    have h' : r - 2 ≠ 0 := by linarith
    have := t_moment (r := r) (n := 2) (by exact_mod_cast h)
    rw [if_pos rfl, Nat.cast_ofNat, div_self two_ne_zero, rpow_one, r1 (by linarith)] at this
    convert this using 1
    rw [show r / 2 - 1 = (r - 2) / 2 by ring]
    field_simp
  have h3 : 3 < r → HasMoment univ (TD.pdf r) 3 0 := fun h => by
    simpa using t_moment (r := r) (n := 3) (by exact_mod_cast h)
  have h4 : 4 < r → HasMoment univ (TD.pdf r) 4 (3 * r ^ 2 / ((r - 2) * (r - 4))) := fun h => by
    have h1 : r - 2 ≠ 0 := by linarith
    have h2 : r - 4 ≠ 0 := by linarith
    have := t_moment (r := r) (n := 4) (by exact_mod_cast h)
    rw [if_pos rfl, Nat.cast_ofNat, show (4 : ℝ) / 2 = 2 by norm_num, rpow_two,
      r2 (by linarith)] at this
    convert this using 1
    rw [show r / 2 - 1 = (r - 2) / 2 by ring, show r / 2 - 2 = (r - 4) / 2 by ring]
    field_simp
    norm_num
  refine ⟨?_, ?_, ?_, ?_⟩ <;> simp only [TD.stats]
  · split_ifs with h
    · exact h1 h
    · exact t_noMoment hr (by push_cast; linarith)
  · split_ifs with h g
    · exact t_noMoment hr (by push_cast; linarith)
    · exact hasVar_of_raw MeasurableSet.univ hnn h0 (h1 (by linarith)) (h2 g) (by ring)
    · exact t_noMoment hr (by push_cast; linarith)
  · split_ifs with h
    · exact hasSkew_of_raw MeasurableSet.univ hnn h0 (h1 (by linarith)) (h2 (by linarith)) (h3 h)
        (v := r / (r - 2)) (by ring) fun _ => by ring
    · exact t_noMoment hr (by push_cast; linarith)
  · split_ifs with h g
    · exact t_noMoment hr (by push_cast; linarith)
    · refine hasKurt_of_raw MeasurableSet.univ hnn h0 (h1 (by linarith)) (h2 (by linarith)) (h3 (by linarith))
        (h4 g) (v := r / (r - 2)) (by ring) fun _ => ?_
      have e1 : r - 2 ≠ 0 := by linarith
      have e2 : r - 4 ≠ 0 := by linarith
      field_simp
      ring
    · exact t_noMoment hr (by push_cast; linarith)

/-- With one degree of freedom or less the mean is reported as infinite, though the density is
symmetric: the mean over every symmetric interval is zero. -/
theorem C269_t_mean_refuted (r : ℝ) (_hr : 0 < r) (h : r ≤ 1) :
    (TD.stats r).1 = .inf ∧ NoMoment univ (TD.pdf r) 1 ∧
    ∀ A, ∫ x in (-A)..A, x * TD.pdf r x = 0 := by
  refine ⟨if_neg (not_lt.2 h), t_noMoment _hr (by push_cast; linarith), fun A => ?_⟩
  have e := intervalIntegral.integral_comp_neg (a := -A) (b := A) (fun x => x * TD.pdf r x)
  rw [neg_neg] at e
  have e2 : ∫ x in (-A)..A, -x * TD.pdf r (-x) = -∫ x in (-A)..A, x * TD.pdf r x := by
    rw [← intervalIntegral.integral_neg]
    refine intervalIntegral.integral_congr fun x _ => ?_
    show -x * TD.pdf r (-x) = -(x * TD.pdf r x)
    rw [t_even]
    ring
  linarith [e, e2]

end Wafo.Dist
