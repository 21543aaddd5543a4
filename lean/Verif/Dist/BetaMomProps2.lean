import Verif.Dist.BetaMomProps
import Verif.Dist.LogProps

/-!
# C270: moments of the Burr family, of the symmetric beta distribution and of quotients of gamma variables
-/

namespace Wafo.Dist

open MeasureTheory Set Filter Topology Real

set_option linter.unusedSectionVars false

/-! ### Burr distributions -/

theorem bp_tail_rpow {a b x s : ℝ} (ha : 0 < a) (hb : 0 < b) (hx : 1 < x) (hs : b ≤ s) :
    2 ^ (-(a + b)) / betaf a b * x⁻¹ ≤ x ^ s * BetaPrime.pdf a b x := by
  have hB := betaf_pos ha hb
  have hx0 : 0 < x := by linarith
  rw [bp_pdf_eq ha hb hx0]
  have e1 : (2 * x) ^ (-(a + b)) ≤ (1 + x) ^ (-(a + b)) :=
    rpow_le_rpow_of_nonpos (by linarith) (by linarith) (by linarith)
  rw [mul_rpow two_pos.le hx0.le] at e1
  have e2 : x⁻¹ ≤ x ^ s * x ^ (a - 1) * x ^ (-(a + b)) := by
    rw [← rpow_add hx0, ← rpow_add hx0, ← rpow_neg_one]
    exact rpow_le_rpow_of_exponent_le hx.le (by linarith)
  have e3 : (0 : ℝ) < 2 ^ (-(a + b)) := rpow_pos_of_pos two_pos _
  have e4 : 0 < x ^ s * x ^ (a - 1) := mul_pos (rpow_pos_of_pos hx0 _) (rpow_pos_of_pos hx0 _)
  calc 2 ^ (-(a + b)) / betaf a b * x⁻¹
      ≤ 2 ^ (-(a + b)) / betaf a b * (x ^ s * x ^ (a - 1) * x ^ (-(a + b))) := by gcongr
    _ = x ^ s * x ^ (a - 1) * (2 ^ (-(a + b)) * x ^ (-(a + b))) / betaf a b := by ring
    _ ≤ x ^ s * x ^ (a - 1) * (1 + x) ^ (-(a + b)) / betaf a b := by gcongr
    _ = x ^ s * (x ^ (a - 1) * (1 + x) ^ (-(a + b)) / betaf a b) := by ring

/-- Moments of a power of a beta prime variable. -/
theorem pow_bp_moment {a b c : ℝ} (ha : 0 < a) (hc : 0 < c) {f : ℝ → ℝ}
    (hf : ∀ x, 0 < x → f x = c * x ^ (c - 1) * BetaPrime.pdf a b (x ^ c)) {n : ℕ} (hn : n / c < b) :
    HasMoment (Ioi 0) f n (betaf (a + n / c) (b - n / c) / betaf a b) := by
  have h0 : 0 ≤ n / c := by positivity
  have h := hasInt_subst_rpow hc (hasInt_bp ha (by linarith : 0 < b) (s := n / c) (by linarith) (by linarith))
  refine h.congr measurableSet_Ioi (fun x hx => ?_) rfl
  have hx : 0 < x := hx
  rw [hf x hx, ← rpow_mul hx.le, mul_div_cancel₀ _ hc.ne', rpow_natCast]
  ring

theorem pow_bp_noMoment {a b c : ℝ} (ha : 0 < a) (hb : 0 < b) (hc : 0 < c) {f : ℝ → ℝ}
    (hf : ∀ x, 0 < x → f x = c * x ^ (c - 1) * BetaPrime.pdf a b (x ^ c)) {n : ℕ} (hn : b ≤ n / c) :
    NoMoment (Ioi 0) f n := by
  have hB := betaf_pos ha hb
  have e3 : (0 : ℝ) < 2 ^ (-(a + b)) := rpow_pos_of_pos two_pos _
  refine noMoment_tail (k := c * (2 ^ (-(a + b)) / betaf a b)) (A := 1) (by positivity)
    (Ioi_subset_Ioi zero_le_one) zero_le_one fun x hx => ?_
  have hx0 : 0 < x := by linarith
  have h := bp_tail_rpow ha hb (one_lt_rpow hx hc) hn
  rw [← rpow_mul hx0.le, mul_div_cancel₀ _ hc.ne', rpow_natCast] at h
  have e : x⁻¹ = x ^ (c - 1) * (x ^ c)⁻¹ := by
    rw [rpow_sub_one hx0.ne']
    have := (rpow_pos_of_pos hx0 c).ne'
    field_simp
  have hp := rpow_pos_of_pos hx0 (c - 1)
  rw [hf x hx0]
  calc c * (2 ^ (-(a + b)) / betaf a b) * x⁻¹
      = c * x ^ (c - 1) * (2 ^ (-(a + b)) / betaf a b * (x ^ c)⁻¹) := by
        rw [e]
        ring
    _ ≤ c * x ^ (c - 1) * (x ^ n * BetaPrime.pdf a b (x ^ c)) := by gcongr
    _ = _ := by ring

theorem betaf_one {d : ℝ} (hd : 0 < d) : betaf d 1 = 1 / d := by
  have := Gamma_pos_of_pos hd
  rw [betaf, Gamma_one, Gamma_add_one hd.ne']
  field_simp

theorem burr_bp {c d x : ℝ} (_hc : 0 < c) (hd : 0 < d) (hx : 0 < x) :
    Burr.pdf c d x = c * x ^ (c - 1) * BetaPrime.pdf d 1 (x ^ c) := by
  have hp := rpow_pos_of_pos hx c
  have e : 1 + x ^ (-c) = (1 + x ^ c) / x ^ c := by
    rw [rpow_neg hx.le]
    field_simp
    ring
  rw [Burr.pdf, if_neg hx.ne', bp_pdf_eq hd one_pos hp, betaf_one hd, e,
    div_rpow (by positivity) hp.le, rpow_neg (by positivity : 0 ≤ 1 + x ^ c),
    show -c - 1 = c - 1 + (-2) * c by ring, rpow_add hx, show d + 1 = d - 1 + 2 by ring,
    rpow_add hp, mul_comm (-2) c, rpow_mul hx.le, rpow_neg hp.le]
  have h1 : 0 < (1 + x ^ c) ^ (d - 1 + 2) := rpow_pos_of_pos (by positivity) _
  have h2 := rpow_pos_of_pos hp (d - 1)
  have h3 := rpow_pos_of_pos hp 2
  field_simp

theorem burr12_bp {c d x : ℝ} (hc : 0 < c) (hd : 0 < d) (hx : 0 < x) :
    Burr12.pdf c d x = c * x ^ (c - 1) * BetaPrime.pdf 1 d (x ^ c) := by
  have hp := rpow_pos_of_pos hx c
  rw [bp_pdf_eq one_pos hd hp, betaf_comm, betaf_one hd, Burr12.pdf, Burr12.logpdf, xlogy, xlog1py,
    sub_self, rpow_zero, exp_add, exp_add, exp_add, exp_log hc, exp_log hd, rpow_def_of_pos hx (c - 1),
    rpow_def_of_pos (by positivity : 0 < 1 + x ^ c), mul_comm (c - 1), mul_comm (-d - 1),
    show -(1 + d) = -d - 1 by ring]
  field_simp

theorem burr_nonneg {c d : ℝ} (hc : 0 < c) (hd : 0 < d) : ∀ x ∈ Ioi (0 : ℝ), 0 ≤ Burr.pdf c d x := by
  intro x hx
  have hx : 0 < x := hx
  rw [burr_bp hc hd hx]
  have := rpow_pos_of_pos hx (c - 1)
  have : 0 < BetaPrime.pdf d 1 (x ^ c) := exp_pos _
  positivity

theorem burr_moment {c d : ℝ} (hc : 0 < c) (hd : 0 < d) {n : ℕ} (hn : (n : ℝ) < c) :
    HasMoment (Ioi 0) (Burr.pdf c d) n (betaf (d + n / c) (1 - n / c) * d) := by
  have := pow_bp_moment (b := 1) hd hc (fun x hx => burr_bp hc hd hx) (n := n) (by rwa [div_lt_one hc])
  rwa [betaf_one hd, div_div_eq_mul_div, div_one] at this

/-- `burr`: raw moments of every order, undefined exactly when they do not exist. -/
theorem C270_burr_munp (c d : ℝ) (hc : 0 < c) (hd : 0 < d) (n : ℕ) :
    Reports (HasMoment (Ioi 0) (Burr.pdf c d) n) (NoMoment (Ioi 0) (Burr.pdf c d) n) (Burr.munp n c d) := by
  unfold Burr.munp
  split_ifs with h <;> simp only [Reports]
  · have := burr_moment hc hd h
    rwa [betaf_comm, mul_comm] at this
  · refine pow_bp_noMoment hd one_pos hc (fun x hx => burr_bp hc hd hx) ?_
    rw [le_div_iff₀ hc, one_mul]
    exact not_lt.1 h

theorem C270_burr_stats (c d : ℝ) (hc : 0 < c) (hd : 0 < d) :
    HasStats? (Ioi 0) (Burr.pdf c d) (Burr.stats c d) := by
  have hnn := burr_nonneg hc hd
  have hno : ∀ n : ℕ, ¬ c > n → NoMoment (Ioi 0) (Burr.pdf c d) n := fun n h => by
    refine pow_bp_noMoment hd one_pos hc (fun x hx => burr_bp hc hd hx) ?_
    rw [le_div_iff₀ hc, one_mul]
    exact not_lt.1 h
  have h0 : HasMoment (Ioi 0) (Burr.pdf c d) 0 1 := by
    have := burr_moment hc hd (n := 0) (by simpa using hc)
    rwa [Nat.cast_zero, zero_div, add_zero, sub_zero, betaf_one hd, one_div_mul_cancel hd.ne'] at this
  have hm : ∀ n : ℕ, (n : ℝ) < c → HasMoment (Ioi 0) (Burr.pdf c d) n
      (betaf (d + n / c) (1 - n / c) * d) := fun n h => burr_moment hc hd h
  simp only [Burr.stats]
  generalize hE : (fun k : ℕ => betaf (d + k / c) (1 - k / c) * d) = E
  have hm' : ∀ n : ℕ, (n : ℝ) < c → HasMoment (Ioi 0) (Burr.pdf c d) n (E n) := fun n h => by
    rw [← hE]
    exact hm n h
  have e1 : betaf (d + (1 : ℕ) / c) (1 - (1 : ℕ) / c) * d = E 1 := by rw [← hE]
  have e2 : betaf (d + (2 : ℕ) / c) (1 - (2 : ℕ) / c) * d = E 2 := by rw [← hE]
  have e3 : betaf (d + (3 : ℕ) / c) (1 - (3 : ℕ) / c) * d = E 3 := by rw [← hE]
  have e4 : betaf (d + (4 : ℕ) / c) (1 - (4 : ℕ) / c) * d = E 4 := by rw [← hE]
  rw [e1, e2, e3, e4]
  have h1 : 1 < c → HasMoment (Ioi 0) (Burr.pdf c d) 1 (E 1) := fun h => hm' 1 (by exact_mod_cast h)
  have h2 : 2 < c → HasMoment (Ioi 0) (Burr.pdf c d) 2 (E 2) := fun h => hm' 2 (by exact_mod_cast h)
  have h3 : 3 < c → HasMoment (Ioi 0) (Burr.pdf c d) 3 (E 3) := fun h => hm' 3 (by exact_mod_cast h)
  have h4 : 4 < c → HasMoment (Ioi 0) (Burr.pdf c d) 4 (E 4) := fun h => hm' 4 (by exact_mod_cast h)
  refine ⟨?_, ?_, ?_, ?_⟩ <;> dsimp only <;> split_ifs with h <;> simp only [Reports]
  · exact h1 h
  · exact hno 1 (by exact_mod_cast h)
  · exact hasVar_of_raw measurableSet_Ioi hnn h0 (h1 (by linarith)) (h2 h) rfl
  · exact hno 2 (by exact_mod_cast h)
  · refine hasSkew_of_raw measurableSet_Ioi hnn h0 (h1 (by linarith)) (h2 (by linarith)) (h3 h) rfl
      fun hv => ?_
    rw [rpow_threehalf hv.le, show (E 2 - E 1 ^ 2) ^ 3 = (E 2 - E 1 ^ 2) ^ 2 * (E 2 - E 1 ^ 2) by ring,
      sqrt_mul (sq_nonneg _), sqrt_sq hv.le]
    have : 0 < √(E 2 - E 1 ^ 2) := sqrt_pos.2 hv
    rw [div_mul_cancel₀ _ (by positivity)]
    ring
  · exact hno 3 (by exact_mod_cast h)
  · refine hasKurt_of_raw measurableSet_Ioi hnn h0 (h1 (by linarith)) (h2 (by linarith)) (h3 (by linarith))
      (h4 h) rfl fun hv => ?_
    rw [sub_add_cancel, div_mul_cancel₀ _ (by positivity)]
    ring
  · exact hno 4 (by exact_mod_cast h)

/-- `fisk`: as `burr` with second shape parameter one. -/
theorem C270_fisk (c : ℝ) (hc : 0 < c) :
    HasStats? (Ioi 0) (Fisk.pdf c) (Fisk.stats c) ∧
    ∀ n, Reports (HasMoment (Ioi 0) (Fisk.pdf c) n) (NoMoment (Ioi 0) (Fisk.pdf c) n) (Fisk.munp n c) :=
  ⟨C270_burr_stats c 1 hc one_pos, C270_burr_munp c 1 hc one_pos⟩

/-- `burr12`: the raw moments of the orders that exist.  The full claim would have every order; the
missing orders are refuted below. -/
theorem C270_burr12_munp_partial (c d : ℝ) (hc : 0 < c) (hd : 0 < d) (n : ℕ) :
    ((n : ℝ) < c * d → HasMoment (Ioi 0) (Burr12.pdf c d) n (Burr12.munp n c d)) ∧
    (c * d ≤ n → NoMoment (Ioi 0) (Burr12.pdf c d) n) := by
  constructor
  · intro h
    have := pow_bp_moment (b := d) one_pos hc (fun x hx => burr12_bp hc hd hx) (n := n)
      (by rw [div_lt_iff₀ hc]; linarith)
    rwa [betaf_comm 1 d, betaf_one hd, div_div_eq_mul_div, div_one, mul_comm] at this
  · intro h
    refine pow_bp_noMoment one_pos hd hc (fun x hx => burr12_bp hc hd hx) ?_
    rw [le_div_iff₀ hc]
    linarith

/-- The moment of a positive variable is reported as minus two where it does not exist. -/
theorem C270_burr12_munp_refuted :
    Burr12.munp 1 1 (1 / 2) = -2 ∧ NoMoment (Ioi 0) (Burr12.pdf 1 (1 / 2)) 1 := by
  refine ⟨?_, (C270_burr12_munp_partial 1 (1 / 2) one_pos one_half_pos 1).2 (by norm_num)⟩
  have h1 : Gamma (1 / 2) = (-(1 / 2)) * Gamma (-(1 / 2)) := by
    rw [← Gamma_add_one (by norm_num)]
    norm_num
  have h2 : Gamma (1 / 2 + 1) = 1 / 2 * Gamma (1 / 2) := Gamma_add_one (by norm_num)
  have hp : 0 < √π := sqrt_pos.2 pi_pos
  have h3 : Gamma (-(1 / 2)) = -2 * √π := by
    rw [Gamma_one_half_eq] at h1
    linarith
  have h4 : Gamma (2 : ℝ) = 1 := Gamma_two
  rw [Gamma_one_half_eq] at h2
  simp only [Burr12.munp, betaf]
  norm_num
  rw [show (-(1 / 2) : ℝ) = -(1 / 2) from rfl, h3, show (3 / 2 : ℝ) = 1 / 2 + 1 by norm_num, h2]
  field_simp

/-! ### The symmetric beta distribution -/

theorem betaf_dup {c : ℝ} (hc : 0 < c) : betaf (c / 2) (c / 2) = 2 ^ (1 - c) * betaf (1 / 2) (c / 2) := by
  have h := Gamma_mul_Gamma_add_half (c / 2)
  have h1 := Gamma_pos_of_pos (half_pos hc)
  have h2 := Gamma_pos_of_pos hc
  have h3 := Gamma_pos_of_pos (by linarith : 0 < c / 2 + 1 / 2)
  have hp : 0 < √π := sqrt_pos.2 pi_pos
  rw [show 2 * (c / 2) = c by ring] at h
  rw [betaf, betaf, Gamma_one_half_eq, show c / 2 + c / 2 = c by ring, add_comm (1 / 2) (c / 2)]
  rw [div_eq_iff h2.ne']
  have : Gamma (c / 2) = Gamma c * 2 ^ (1 - c) * √π / Gamma (c / 2 + 1 / 2) := by
    rw [← h, mul_div_cancel_right₀ _ h3.ne']
  nth_rw 1 [this]
  ring

theorem rdist_pdf_eq {c x : ℝ} (hc : 0 < c) (hx : x ∈ Ioo (-1 : ℝ) 1) :
    RDist.pdf c x = (1 - x ^ 2) ^ (c / 2 - 1) / betaf (1 / 2) (c / 2) := by
  have hI : (x + 1) / 2 ∈ Ioo (0 : ℝ) 1 := ⟨by linarith [hx.1], by linarith [hx.2]⟩
  have hB := betaf_pos one_half_pos (half_pos hc)
  have h1 : 0 < 1 - x ^ 2 := by nlinarith [hx.1, hx.2]
  rw [RDist.pdf, beta_pdf_eq (half_pos hc) (half_pos hc) hI, betaf_dup hc,
    ← mul_rpow hI.1.le (by linarith [hI.2]),
    show (x + 1) / 2 * (1 - (x + 1) / 2) = (1 - x ^ 2) * (2 : ℝ) ^ (-2 : ℝ) by
      rw [rpow_neg two_pos.le, rpow_two]
      ring,
    mul_rpow h1.le (by positivity), ← rpow_mul two_pos.le,
    show -2 * (c / 2 - 1) = (1 - c) + 1 by ring, rpow_add two_pos, rpow_one]
  have := rpow_pos_of_pos two_pos (1 - c)
  field_simp
  norm_num

theorem hasInt_indicator {I J : Set ℝ} (hI : MeasurableSet I) (hIJ : I ⊆ J)
    {g : ℝ → ℝ} {v : ℝ} : HasInt J (I.indicator g) v ↔ HasInt I g v := by
  have e : I ∩ J = I := inter_eq_left.2 hIJ
  have e' : J ∩ I = I := inter_eq_right.2 hIJ
  unfold HasInt
  rw [IntegrableOn, integrable_indicator_iff hI, IntegrableOn, Measure.restrict_restrict hI, e,
    setIntegral_indicator hI, e', IntegrableOn]

/-- `rdist`: raw moments of every order. -/
theorem C270_rdist_munp (c : ℝ) (hc : 0 < c) (n : ℕ) :
    HasMoment (Ioo (-1) 1) (RDist.pdf c) n (RDist.munp n c) := by
  have hB := betaf_pos one_half_pos (half_pos hc)
  have h := hasInt_beta (a := 1 / 2 + n / 2) (b := c / 2) (by positivity) (half_pos hc)
  have h := hasInt_subst_rpow two_pos ((hasInt_indicator measurableSet_Ioo
    (fun x hx => hx.1)).2 h)
  have h := h.const_mul (1 / betaf (1 / 2) (c / 2))
  have key : HasMoment (Ioi 0) (fun x => 2 * (Ioo (-1 : ℝ) 1).indicator (RDist.pdf c) x) n
      (betaf ((n + 1) / 2) (c / 2) / betaf (1 / 2) (c / 2)) := by
    refine h.congr measurableSet_Ioi (fun x hx => ?_) (by
      rw [show (1 : ℝ) / 2 + n / 2 = (n + 1) / 2 by ring]
      ring)
    have hx : 0 < x := hx
    dsimp only
    rw [show (2 : ℝ) - 1 = 1 by norm_num, rpow_one, rpow_two]
    by_cases h1 : x < 1
    · rw [indicator_of_mem (show x ∈ Ioo (-1 : ℝ) 1 from ⟨by linarith, h1⟩),
        indicator_of_mem (show x ^ 2 ∈ Ioo (0 : ℝ) 1 from ⟨by positivity, by nlinarith⟩),
        rdist_pdf_eq hc ⟨by linarith, h1⟩]
      have e : x ^ n = x * (x ^ 2) ^ ((1 : ℝ) / 2 + n / 2 - 1) := by
        rw [← rpow_two, ← rpow_mul hx.le, show 2 * ((1 : ℝ) / 2 + n / 2 - 1) = n - 1 by ring,
          rpow_sub_one hx.ne', rpow_natCast]
        field_simp
      rw [e]
      ring
    · rw [indicator_of_notMem (fun hm => h1 hm.2), indicator_of_notMem (fun hm => by
        have := hm.2
        nlinarith [not_lt.1 h1])]
      ring
  have h2 := even_moment (f := (Ioo (-1 : ℝ) 1).indicator (RDist.pdf c)) (fun x => by
    by_cases hx : x ∈ Ioo (-1 : ℝ) 1
    · have hx' : -x ∈ Ioo (-1 : ℝ) 1 := ⟨by linarith [hx.2], by linarith [hx.1]⟩
      rw [indicator_of_mem hx, indicator_of_mem hx', rdist_pdf_eq hc hx, rdist_pdf_eq hc hx', neg_sq]
    · rw [indicator_of_notMem hx, indicator_of_notMem fun hm => hx
        ⟨by linarith [hm.2], by linarith [hm.1]⟩]) key
  have h3 : HasInt (Ioo (-1) 1) (fun x => x ^ n * RDist.pdf c x) (if n % 2 = 0 then
      betaf ((n + 1) / 2) (c / 2) / betaf (1 / 2) (c / 2) else 0) := by
    refine (hasInt_indicator measurableSet_Ioo (subset_univ _)).1 ?_
    refine HasInt.congr MeasurableSet.univ h2 (fun x _ => ?_) rfl
    by_cases hx : x ∈ Ioo (-1 : ℝ) 1
    · rw [indicator_of_mem hx, indicator_of_mem hx]
    · rw [indicator_of_notMem hx, indicator_of_notMem hx, mul_zero]
  refine HasInt.congr measurableSet_Ioo h3 (fun _ _ => rfl) ?_
  rcases Nat.mod_two_eq_zero_or_one n with e | e
  · rw [if_pos e, RDist.munp, e]
    push_cast
    ring
  · rw [if_neg (by omega), RDist.munp, e]
    push_cast
    ring

example : RDist.munp 1 3 = 0 ∧ RDist.munp 2 3 = betaf (3 / 2) (3 / 2) / betaf (1 / 2) (3 / 2) := by
  constructor
  · norm_num [RDist.munp]
  · norm_num [RDist.munp]

/-- `rdist`: sampling. -/
theorem C270_rdist_rvs (c : ℝ) (μ : Measure ℝ)
    (hμ : HasLaw μ (Ioo 0 1) (BetaD.pdf (c / 2) (c / 2))) :
    HasLaw (μ.map RDist.rvs) (Ioo (-1) 1) (RDist.pdf c) := by
  refine hμ.comp (g := RDist.rvs) (gi := fun x => (x + 1) / 2) (gi' := fun _ => 1 / 2)
    (by unfold RDist.rvs; fun_prop) measurableSet_Ioo
    (fun x hx => ⟨by linarith [hx.1], by linarith [hx.2]⟩)
    (fun y hy => by
      unfold RDist.rvs
      exact ⟨by linarith [hy.1], by linarith [hy.2]⟩)
    (fun x _ => by
      simp only [RDist.rvs]
      ring)
    (fun x _ => by
      simp only [RDist.rvs]
      ring)
    (fun x _ => ((hasDerivAt_id x).add_const 1).div_const 2) (fun x _ => ?_)
  rw [RDist.pdf, abs_of_pos one_half_pos]
  norm_num

/-! ### Quotients of gamma variables -/

theorem bp_inner {a b : ℝ} (ha : 0 < a) (hb : 0 < b) {x : ℝ} (hx : 0 < x) :
    ∫⁻ u in Ioi 0, ENNReal.ofReal (GammaD.pdf a u) * ENNReal.ofReal (u / x ^ 2 * GammaD.pdf b (u / x))
      = ENNReal.ofReal (BetaPrime.pdf a b x) := by
  have hGa := Gamma_pos_of_pos ha
  have hGb := Gamma_pos_of_pos hb
  have hr : 0 < 1 + 1 / x := by positivity
  have e1 : ∀ u ∈ Ioi (0 : ℝ),
      ENNReal.ofReal (GammaD.pdf a u) * ENNReal.ofReal (u / x ^ 2 * GammaD.pdf b (u / x))
      = ENNReal.ofReal (x ^ (-b - 1) / (Gamma a * Gamma b)
        * (u ^ (a + b - 1) * exp (-((1 + 1 / x) * u)))) := by
    intro u hu
    have hu : 0 < u := hu
    rw [← ENNReal.ofReal_mul (show 0 ≤ GammaD.pdf a u from (exp_pos _).le), gamma_pdf_eq ha hu,
      gamma_pdf_eq hb (by positivity), div_rpow hu.le hx.le,
      show -((1 + 1 / x) * u) = -u + -(u / x) by ring, exp_add,
      show a + b - 1 = (a - 1) + (b - 1) + 1 by ring, rpow_add hu, rpow_add hu, rpow_one,
      show -b - 1 = -(b - 1) + -2 by ring, rpow_add hx, rpow_neg hx.le, rpow_neg hx.le, rpow_two]
    congr 1
    have := rpow_pos_of_pos hx (b - 1)
    field_simp
  have hI : IntegrableOn (fun u : ℝ => x ^ (-b - 1) / (Gamma a * Gamma b)
      * (u ^ (a + b - 1) * exp (-((1 + 1 / x) * u)))) (Ioi 0) := by
    refine Integrable.const_mul ?_ _
    refine (integrableOn_congr_fun (fun u _ => ?_) measurableSet_Ioi).2
      (integrableOn_rpow_mul_exp_neg_mul_rpow (s := a + b - 1) (p := 1) (by linarith) one_pos hr)
    rw [rpow_one, neg_mul]
  rw [setLIntegral_congr_fun measurableSet_Ioi e1, ← ofReal_integral_eq_lintegral_ofReal hI
    ((ae_restrict_iff' measurableSet_Ioi).2 (Eventually.of_forall fun u hu => ?_)),
    integral_const_mul, integral_rpow_mul_exp_neg_mul_Ioi (by linarith) hr]
  · congr 1
    have e2 : 1 / (1 + 1 / x) = x * (1 + x)⁻¹ := by
      field_simp
      ring
    rw [bp_pdf_eq ha hb hx, e2, mul_rpow hx.le (by positivity), inv_rpow (by positivity),
      ← rpow_neg (by positivity : 0 ≤ 1 + x), betaf, show a - 1 = (-b - 1) + (a + b) by ring,
      rpow_add hx (-b - 1) (a + b)]
    have := Gamma_pos_of_pos (add_pos ha hb)
    generalize x ^ (a + b) = w
    field_simp
  · have hu : 0 < u := hu
    have := rpow_pos_of_pos hx (-b - 1)
    positivity

/-- `betaprime`: the quotient of two gamma draws. -/
theorem C270_betaprime_rvs (a b : ℝ) (ha : 0 < a) (hb : 0 < b) (μ ν : Measure ℝ) [SFinite μ] [SFinite ν]
    (hμ : HasLaw μ (Ioi 0) (GammaD.pdf a)) (hν : HasLaw ν (Ioi 0) (GammaD.pdf b)) :
    HasLaw ((μ.prod ν).map BetaPrime.rvs) (Ioi 0) (BetaPrime.pdf a b) := by
  have hz : ∀ᵐ t ∂μ, t ∈ Ioi (0 : ℝ) := by
    rw [HasLaw] at hμ
    rw [hμ]
    exact (withDensity_absolutelyContinuous _ _).ae_le (ae_restrict_mem measurableSet_Ioi)
  have hG : Measurable BetaPrime.rvs := by
    unfold BetaPrime.rvs
    fun_prop
  have hb0 : Measurable fun p : ℝ × ℝ => ENNReal.ofReal (p.1 / p.2 ^ 2 * GammaD.pdf b (p.1 / p.2)) := by
    have := gamma_pdf_meas b
    fun_prop
  have hh : Measurable (fun p : ℝ × ℝ => (Ioi (0 : ℝ)).indicator
      (fun r => ENNReal.ofReal (p.1 / r ^ 2 * GammaD.pdf b (p.1 / r))) p.2) := by
    have e : (fun p : ℝ × ℝ => (Ioi (0 : ℝ)).indicator
        (fun r => ENNReal.ofReal (p.1 / r ^ 2 * GammaD.pdf b (p.1 / r))) p.2)
        = (Prod.snd ⁻¹' Ioi (0 : ℝ)).indicator
          (fun p : ℝ × ℝ => ENNReal.ofReal (p.1 / p.2 ^ 2 * GammaD.pdf b (p.1 / p.2))) := by
      funext p
      by_cases hp : p.2 ∈ Ioi (0 : ℝ)
      · rw [indicator_of_mem hp, indicator_of_mem (show p ∈ Prod.snd ⁻¹' Ioi (0 : ℝ) from hp)]
      · rw [indicator_of_notMem hp, indicator_of_notMem (show p ∉ Prod.snd ⁻¹' Ioi (0 : ℝ) from hp)]
    rw [e]
    exact hb0.indicator (measurable_snd measurableSet_Ioi)
  have hu : ∀ u : ℝ, 0 < u → ∀ s, MeasurableSet s → ν ((fun v => BetaPrime.rvs (u, v)) ⁻¹' s)
      = ∫⁻ r in s, (Ioi (0 : ℝ)).indicator
        (fun r => ENNReal.ofReal (u / r ^ 2 * GammaD.pdf b (u / r))) r := by
    intro u hu s hs
    have hm : Measurable fun v => BetaPrime.rvs (u, v) := by
      unfold BetaPrime.rvs
      fun_prop
    have hl := hν.comp (g := fun v => BetaPrime.rvs (u, v)) (gi := fun x => u / x)
      (gi' := fun x => -(u / x ^ 2)) (pdf := fun x => u / x ^ 2 * GammaD.pdf b (u / x)) hm
      measurableSet_Ioi (fun x hx => div_pos hu hx) (fun x hx => div_pos hu hx)
      (fun v hv => by
        have hv : 0 < v := hv
        simp only [BetaPrime.rvs]
        field_simp)
      (fun x hx => by
        have hx : 0 < x := hx
        simp only [BetaPrime.rvs]
        field_simp)
      (fun x hx => by
        have hx : 0 < x := hx
        refine HasDerivAt.congr_deriv ((hasDerivAt_const x u).div (hasDerivAt_id' x) hx.ne') ?_
        field_simp
        ring)
      (fun x hx => by
        have hx : 0 < x := hx
        rw [abs_neg, abs_of_pos (by positivity)])
    rw [← Measure.map_apply hm hs, hl.apply hs, inter_comm, ← setLIntegral_indicator measurableSet_Ioi]
  rw [mix_law_ae hG hh (by filter_upwards [hz] with u hu0 using hu u hu0), HasLaw,
    ← withDensity_indicator measurableSet_Ioi]
  congr 1
  funext r
  by_cases hr : r ∈ Ioi (0 : ℝ)
  · simp only [indicator_of_mem hr]
    have hm1 : Measurable fun u : ℝ => ENNReal.ofReal (u / r ^ 2 * GammaD.pdf b (u / r)) := by
      have := gamma_pdf_meas b
      fun_prop
    rw [HasLaw] at hμ
    rw [← bp_inner ha hb hr, hμ,
      lintegral_withDensity_eq_lintegral_mul _ (gamma_pdf_meas a).ennreal_ofReal hm1]
    rfl
  · simp only [indicator_of_notMem hr, lintegral_zero]

/-- `hypsecant`: the reported moments, by way of the quotient of two gamma variables. -/
theorem C270_hypsecant_stats : HasStats univ HypSecant.pdf HypSecant.stats := by
  have hμ : HasLaw ((volume.restrict (Ioi 0)).withDensity fun t => ENNReal.ofReal (GammaD.pdf (1 / 2) t))
    (Ioi 0) (GammaD.pdf (1 / 2)) := rfl
  generalize (volume.restrict (Ioi (0 : ℝ))).withDensity
    (fun t => ENNReal.ofReal (GammaD.pdf (1 / 2) t)) = μ at hμ
  have : SFinite μ := by
    rw [HasLaw] at hμ
    rw [hμ]
    infer_instance
  have hz : ∀ᵐ t ∂μ, t ∈ Ioi (0 : ℝ) := by
    have h := hμ
    rw [HasLaw] at h
    rw [h]
    exact (withDensity_absolutelyContinuous _ _).ae_le (ae_restrict_mem measurableSet_Ioi)
  have hc := loggamma_cum one_half_pos hμ
  have hC := (hc.add (hc.affine (-1) 0)).affine (1 / 2) 0
  have hbp := C270_betaprime_rvs (1 / 2) (1 / 2) one_half_pos one_half_pos μ μ hμ hμ
  have hB : betaf (1 / 2) (1 / 2) = π := by
    rw [betaf, Gamma_one_half_eq, add_halves, Gamma_one, div_one, mul_self_sqrt pi_pos.le]
  have hp := pi_pos
  have hl := hbp.comp (g := fun y => 1 / 2 * log y) (gi := fun x => exp (2 * x))
    (gi' := fun x => 2 * exp (2 * x)) (pdf := HypSecant.pdf) (by fun_prop) MeasurableSet.univ
    (fun x _ => exp_pos _) (fun _ _ => mem_univ _)
    (fun y hy => by
      have hy : 0 < y := hy
      show exp (2 * (1 / 2 * log y)) = y
      rw [show 2 * (1 / 2 * log y) = log y by ring, exp_log hy])
    (fun x _ => by
      show 1 / 2 * log (exp (2 * x)) = x
      rw [log_exp]
      ring)
    (fun x _ => HasDerivAt.congr_deriv ((hasDerivAt_id x).const_mul 2).exp (by simp only [id]; ring))
    (fun x _ => by
      have e1 : exp (2 * x) = exp x * exp x := by rw [← exp_add]; ring_nf
      have e2 : (exp x * exp x) ^ ((1 : ℝ) / 2 - 1) = (exp x)⁻¹ := by
        rw [show (1 : ℝ) / 2 - 1 = -(1 / 2) by norm_num, rpow_neg (by positivity), ← sqrt_eq_rpow,
          sqrt_mul_self (exp_pos x).le]
      have hx := exp_pos x
      rw [abs_of_pos (by positivity), bp_pdf_eq one_half_pos one_half_pos (exp_pos _), hB, e1, e2,
        show -((1 : ℝ) / 2 + 1 / 2) = -1 by norm_num, rpow_neg_one, HypSecant.pdf, cosh_eq, exp_neg]
      field_simp
      ring)
  rw [Measure.map_map (by fun_prop) (by unfold BetaPrime.rvs; fun_prop)] at hl
  have hae : (fun p : ℝ × ℝ => 1 / 2 * (log p.1 + (-1 * log p.2 + 0)) + 0)
      =ᵐ[μ.prod μ] ((fun y => 1 / 2 * log y) ∘ BetaPrime.rvs) := by
    filter_upwards [Measure.quasiMeasurePreserving_fst.ae hz, Measure.quasiMeasurePreserving_snd.ae hz]
      with p h1 h2
    simp only [Function.comp_apply, BetaPrime.rvs]
    rw [log_div (ne_of_gt h1) (ne_of_gt h2)]
    ring
  rw [← Measure.map_congr hae] at hl
  obtain ⟨h1, h2, h3⟩ := polygamma_hzeta (a := 1 / 2) (by norm_num)
  refine hC.stats (by fun_prop) hl (by unfold HypSecant.pdf; fun_prop) (fun x _ => ?_) ?_ ?_
    (fun hv => ?_) (fun hv => ?_)
  · have := cosh_pos x
    rw [HypSecant.pdf]
    positivity
  · ring
  · rw [h1, hzeta_half le_rfl, hzeta_two_one]
    ring
  · rw [h2]
    ring
  · rw [h3, hzeta_half (by norm_num), hzeta_four_one]
    ring

end Wafo.Dist
