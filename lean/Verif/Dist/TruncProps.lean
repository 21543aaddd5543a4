import Verif.Dist.TruncModel
import Verif.Dist.NormProps

/-!
# The truncated normal distribution: density, distribution function and quantiles agree

`IsRoot root` says that the root finder returns a zero in the interior of the interval for a continuous, strictly monotone function
that has one, and `IsLogInv ilog` that `ilog` inverts the logarithm of the normal distribution function.
-/

set_option linter.unusedSectionVars false

namespace Wafo.Dist

open Real Set Wafo.Gauss MeasureTheory

/-- `ilog` inverts the logarithm of the normal distribution function. -/
def IsLogInv (ilog : ℝ → ℝ) : Prop := ∀ y < 0, log (Phi (ilog y)) = y

/-- `root f a b` is a zero between `a` and `b` of a continuous, strictly monotone function that has one. -/
def IsRoot (root : (ℝ → ℝ) → ℝ → ℝ → ℝ) : Prop :=
  ∀ f a b, ContinuousOn f (Ioo a b) → (StrictMonoOn f (Ioo a b) ∨ StrictAntiOn f (Ioo a b)) →
    (∃ z ∈ Ioo a b, f z = 0) → root f a b ∈ Ioo a b ∧ f (root f a b) = 0

theorem exists_logInv : ∃ ilog, IsLogInv ilog := by
  have : ∀ y : ℝ, ∃ x, y < 0 → log (Phi x) = y := fun y => by
    by_cases h : y < 0
    · obtain ⟨x, hx⟩ := Phi_surj (exp_pos y) (by rw [← exp_zero]; exact exp_lt_exp.2 h)
      exact ⟨x, fun _ => by rw [hx, log_exp]⟩
    · exact ⟨0, fun h' => absurd h' h⟩
  choose f hf using this
  exact ⟨f, hf⟩

theorem exists_root : ∃ root, IsRoot root := by
  classical
  refine ⟨fun f a b => if h : ∃ z ∈ Ioo a b, f z = 0 then h.choose else 0, fun f a b _ _ h => ?_⟩
  simp only [dif_pos h]
  exact h.choose_spec

/-- The interior of the support, stats/_continuous_distns.py:7459-7460. -/
def within (a b : EReal) : Set ℝ := {x : ℝ | a < x ∧ (x : EReal) < b}

theorem within_open (a b : EReal) : IsOpen (within a b) :=
  (isOpen_lt continuous_const continuous_coe_real_ereal).inter (isOpen_lt continuous_coe_real_ereal continuous_const)

theorem within_conn (a b : EReal) : OrdConnected (within a b) :=
  ⟨fun _ hx _ hy _ hz => ⟨hx.1.trans_le (EReal.coe_le_coe_iff.2 hz.1), (EReal.coe_le_coe_iff.2 hz.2).trans_lt hy.2⟩⟩

namespace TruncNorm

theorem ndtr_coe (x : ℝ) : ndtr x = Phi x := by simp [ndtr]
theorem ndtr_bot : ndtr ⊥ = 0 := by simp [ndtr]
theorem ndtr_top : ndtr ⊤ = 1 := by simp [ndtr]

theorem ndtr_neg (x : EReal) : ndtr (-x) = 1 - ndtr x := by
  induction x with
  | bot => simp [ndtr]
  | top => simp [ndtr]
  | coe x => rw [← EReal.coe_neg, ndtr_coe, ndtr_coe, Phi_neg]

theorem ndtr_lt {x y : EReal} (h : x < y) : ndtr x < ndtr y := by
  induction x with
  | bot =>
    induction y with
    | bot => exact absurd h (lt_irrefl _)
    | top => simp [ndtr]
    | coe y => rw [ndtr_bot, ndtr_coe]; exact Phi_pos y
  | top => exact absurd h not_top_lt
  | coe x =>
    induction y with
    | bot => exact absurd h not_lt_bot
    | top => rw [ndtr_top, ndtr_coe]; exact Phi_lt_one x
    | coe y => rw [ndtr_coe, ndtr_coe]; exact Phi_strictMono (EReal.coe_lt_coe_iff.1 h)

theorem ndtr_nonneg (x : EReal) : 0 ≤ ndtr x := by
  rcases eq_or_ne x ⊥ with rfl | h
  · rw [ndtr_bot]
  · rw [← ndtr_bot]; exact (ndtr_lt (bot_lt_iff_ne_bot.2 h)).le

theorem ndtr_pos {x : EReal} (h : x ≠ ⊥) : 0 < ndtr x := by
  rw [← ndtr_bot]; exact ndtr_lt (bot_lt_iff_ne_bot.2 h)

theorem ndtr_le_one (x : EReal) : ndtr x ≤ 1 := by
  have := ndtr_nonneg (-x)
  rw [ndtr_neg] at this
  linarith

variable {a b : EReal} (hab : a < b)

theorem mass_eq (hab : a < b) : mass a b = ndtr b - ndtr a := by
  have := ndtr_lt hab
  unfold mass nsf
  rw [ndtr_neg, ndtr_neg]
  split_ifs
  · exact max_eq_left (by linarith)
  · rw [max_eq_left (by linarith)]; ring

theorem mass_pos (hab : a < b) : 0 < ndtr b - ndtr a := sub_pos.2 (ndtr_lt hab)

/-- The logarithm of a difference as the code computes it. -/
theorem log_diff {u v : EReal} (h : u < v) :
    (logNdtr v).toReal = log (ndtr v) ∧
    log1p (-expE (logNdtr u - logNdtr v)) = log (ndtr v - ndtr u) - log (ndtr v) := by
  have hv : v ≠ ⊥ := (bot_le.trans_lt h).ne'
  have hp := ndtr_pos hv
  have e1 : logNdtr v = ((log (ndtr v) : ℝ) : EReal) := by rw [logNdtr, if_neg hv]
  refine ⟨by rw [e1, EReal.toReal_coe], ?_⟩
  have e2 : expE (logNdtr u - logNdtr v) = ndtr u / ndtr v := by
    rw [e1]
    by_cases hu : u = ⊥
    · subst hu
      rw [logNdtr, if_pos rfl, EReal.bot_sub, expE, if_pos rfl, ndtr_bot, zero_div]
    · rw [logNdtr, if_neg hu, ← EReal.coe_sub, expE, if_neg (EReal.coe_ne_bot _), EReal.toReal_coe, exp_sub,
        exp_log (ndtr_pos hu), exp_log hp]
  rw [e2, log1p, ← log_div (sub_pos.2 (ndtr_lt h)).ne' hp.ne']
  congr 1
  field_simp
  ring

theorem log_diff_sf {u v : EReal} (h : u < v) :
    (nlogsf u).toReal = log (1 - ndtr u) ∧
    log1p (-expE (nlogsf v - nlogsf u)) = log (ndtr v - ndtr u) - log (1 - ndtr u) := by
  have := log_diff (EReal.neg_lt_neg_iff.2 h)
  rw [ndtr_neg, ndtr_neg] at this
  refine ⟨this.1, this.2.trans ?_⟩
  congr 2
  ring

theorem delta_or (hab : a < b) : getDelta a b = ndtr b - ndtr a ∨
    (getDelta a b = 0 ∧ (a > tailX ∨ b < -tailX)) := by
  unfold getDelta
  split_ifs with h
  · exact .inr ⟨rfl, h⟩
  · exact .inl (mass_eq hab)

theorem logdelta_eq (hab : a < b) : getLogdelta a b = log (ndtr b - ndtr a) := by
  have := mass_pos hab
  unfold getLogdelta
  rw [mass_eq hab]
  split_ifs with h1 h2
  · rfl
  · rw [(log_diff hab).1, (log_diff hab).2]; ring
  · rw [(log_diff_sf hab).1, (log_diff_sf hab).2]; ring

theorem logpdf_eq (hab : a < b) (x : ℝ) : logpdf a b x = log (phi x / (ndtr b - ndtr a)) := by
  rw [logpdf, logdelta_eq hab, norm_logpdf_eq, norm_pdf_eq, log_div (phi_pos x).ne' (mass_pos hab).ne']

theorem pdf_eq (hab : a < b) (x : ℝ) : pdf a b x = phi x / (ndtr b - ndtr a) := by
  have hp := mass_pos hab
  unfold pdf
  rcases delta_or hab with h | ⟨h, -⟩
  · rw [h, if_pos hp, norm_pdf_eq]
  · rw [h, if_neg (lt_irrefl _), logpdf_eq hab, exp_log (div_pos (phi_pos x) hp)]

variable {x : ℝ}

theorem logcdf_eq (hab : a < b) (hx : x ∈ within a b) :
    logcdf a b x = log ((Phi x - ndtr a) / (ndtr b - ndtr a)) := by
  have hp := mass_pos hab
  have h1 := ndtr_lt hx.1
  unfold logcdf
  rcases delta_or hab with h | ⟨h, -⟩
  · rw [h, if_pos hp, ndtr_coe]
  · rw [h, if_neg (lt_irrefl _)]
    rw [← ndtr_coe, log_div (by linarith) hp.ne']
    split_ifs
    · rw [(log_diff hx.1).1, (log_diff hx.1).2, (log_diff hab).1, (log_diff hab).2]; ring
    · rw [(log_diff_sf hx.1).2, (log_diff_sf hab).2]; ring

theorem cdf_eq (hab : a < b) (hx : x ∈ within a b) : cdf a b x = (Phi x - ndtr a) / (ndtr b - ndtr a) := by
  have hp := mass_pos hab
  have h1 := ndtr_lt hx.1
  rw [ndtr_coe] at h1
  unfold cdf
  rcases delta_or hab with h | ⟨h, -⟩
  · rw [h, if_pos hp, ndtr_coe]
  · rw [h, if_neg (lt_irrefl _), logcdf_eq hab hx, exp_log (div_pos (by linarith) hp)]

theorem logsf_eq (hab : a < b) (hx : x ∈ within a b) :
    logsf a b x = log ((ndtr b - Phi x) / (ndtr b - ndtr a)) := by
  have hp := mass_pos hab
  have h1 := ndtr_lt hx.2
  unfold logsf
  rcases delta_or hab with h | ⟨h, -⟩
  · rw [h, if_pos hp, nsf, nsf, ndtr_neg, ndtr_neg, ndtr_coe]
    congr 2
    ring
  · rw [h, if_neg (lt_irrefl _)]
    rw [← ndtr_coe, log_div (by linarith) hp.ne']
    split_ifs
    · rw [(log_diff hx.2).2, (log_diff hab).2]; ring
    · rw [(log_diff_sf hx.2).1, (log_diff_sf hx.2).2, (log_diff_sf hab).1, (log_diff_sf hab).2]; ring

theorem sf_eq (hab : a < b) (hx : x ∈ within a b) : sf a b x = (ndtr b - Phi x) / (ndtr b - ndtr a) := by
  have hp := mass_pos hab
  have h1 := ndtr_lt hx.2
  rw [ndtr_coe] at h1
  unfold sf
  rcases delta_or hab with h | ⟨h, -⟩
  · rw [h, if_pos hp, nsf, nsf, ndtr_neg, ndtr_neg, ndtr_coe]
    congr 1
    ring
  · rw [h, if_neg (lt_irrefl _), logsf_eq hab hx, exp_log (div_pos (by linarith) hp)]

theorem q_mem (hab : a < b) {q : ℝ} (h0 : 0 < q) (h1 : q < 1) :
    ndtr a < ndtr a + q * (ndtr b - ndtr a) ∧ ndtr a + q * (ndtr b - ndtr a) < ndtr b ∧
    0 < ndtr a + q * (ndtr b - ndtr a) ∧ ndtr a + q * (ndtr b - ndtr a) < 1 := by
  have hp := mass_pos hab
  have h2 : 0 < q * (ndtr b - ndtr a) := mul_pos h0 hp
  have h3 : q * (ndtr b - ndtr a) < ndtr b - ndtr a := by nlinarith
  have := ndtr_nonneg a
  have := ndtr_le_one b
  exact ⟨by linarith, by linarith, by linarith, by linarith⟩

theorem mem_within {x : ℝ} (h1 : ndtr a < Phi x) (h2 : Phi x < ndtr b) : x ∈ within a b := by
  rw [← ndtr_coe] at h1 h2
  constructor
  · by_contra h
    rcases (not_lt.1 h).eq_or_lt with h | h
    · rw [h] at h1; exact lt_irrefl _ h1
    · exact lt_asymm h1 (ndtr_lt h)
  · by_contra h
    rcases (not_lt.1 h).eq_or_lt with h | h
    · rw [h] at h2; exact lt_irrefl _ h2
    · exact lt_asymm h2 (ndtr_lt h)

/-- Every branch of `ppf` solves `Phi x = Phi a + q (Phi b - Phi a)`. -/
theorem ppf_eq (hab : a < b) {ninv ilog : ℝ → ℝ} {root : (ℝ → ℝ) → ℝ → ℝ → ℝ} (hn : IsNormInv ninv) (hi : IsLogInv ilog)
    (hr : IsRoot root) {q : ℝ} (h0 : 0 < q) (h1 : q < 1) :
    Phi (ppf ninv ilog root a b q) = ndtr a + q * (ndtr b - ndtr a) := by
  have hp := mass_pos hab
  obtain ⟨q1, q2, q3, q4⟩ := q_mem hab h0 h1
  unfold ppf
  rcases delta_or hab with h | ⟨h, ht⟩
  · rw [h, if_pos hp]
    split_ifs
    · rw [Phi_neg, nsf, nsf, ndtr_neg, ndtr_neg, hn _ (by norm_num; nlinarith) (by norm_num; nlinarith)]
      norm_num
      ring
    · rw [hn _ (by norm_num; nlinarith) (by norm_num; nlinarith)]
      norm_num
      ring
  · rw [h, if_neg (lt_irrefl _)]
    have ha1 : ndtr a < 1 := (ndtr_lt hab).trans_le (ndtr_le_one b)
    have hb0 : 0 < ndtr b := (ndtr_nonneg a).trans_lt (ndtr_lt hab)
    split_ifs with c1 c2 c3
    · subst c1
      rw [ndtr_top] at *
      rw [Phi_neg, (log_diff_sf hab).1, log1p, ← sub_eq_add_neg, ← log_mul (by linarith) (by linarith)]
      have hl : log ((1 - q) * (1 - ndtr a)) < 0 := log_neg (by nlinarith) (by nlinarith)
      have := hi _ hl
      rw [log_injOn_pos (Phi_pos _) (show 0 < (1 - q) * (1 - ndtr a) by nlinarith) this]
      ring
    · subst c2
      rw [ndtr_bot, sub_zero] at *
      rw [(log_diff hab).1, ← log_mul h0.ne' hb0.ne']
      have hb1 : ndtr b < 1 := by rw [← ndtr_top]; exact ndtr_lt (lt_top_iff_ne_top.2 c1)
      have hl : log (q * ndtr b) < 0 := log_neg (by nlinarith) (by nlinarith)
      have := hi _ hl
      rw [log_injOn_pos (Phi_pos _) (show 0 < q * ndtr b by nlinarith) this]
      ring
    all_goals
      obtain ⟨z, hz⟩ := Phi_surj q3 q4
      have ea : a = ((a.toReal : ℝ) : EReal) := (EReal.coe_toReal (hab.trans_le le_top).ne c2).symm
      have eb : b = ((b.toReal : ℝ) : EReal) := (EReal.coe_toReal c1 (bot_le.trans_lt hab).ne').symm
      have hw : Ioo a.toReal b.toReal = within a b := by
        ext x
        rw [within, mem_ofPred_eq, ea, eb, EReal.coe_lt_coe_iff, EReal.coe_lt_coe_iff]
        simp
      have hz' : z ∈ within a b := mem_within (by rwa [hz]) (by rwa [hz])
    · have hf : ∀ x ∈ Ioo a.toReal b.toReal, logcdf a b x - log q =
          log ((Phi x - ndtr a) / (ndtr b - ndtr a)) - log q := fun x hx => by
        rw [logcdf_eq hab (hw ▸ hx)]
      have hpos : ∀ x ∈ Ioo a.toReal b.toReal, 0 < (Phi x - ndtr a) / (ndtr b - ndtr a) := fun x hx => by
        have h := ndtr_lt (show x ∈ within a b from hw ▸ hx).1
        rw [ndtr_coe] at h
        exact div_pos (by linarith) hp
      obtain ⟨hm, he⟩ := hr (fun x => logcdf a b x - log q) a.toReal b.toReal
        (ContinuousOn.congr (f := fun x => log ((Phi x - ndtr a) / (ndtr b - ndtr a)) - log q)
          (ContinuousOn.sub (ContinuousOn.log (((continuous_Phi.sub continuous_const).div_const _).continuousOn)
            fun x hx => (hpos x hx).ne') continuousOn_const) hf)
        (.inl fun x hx y hy hxy => by
          simp only [hf x hx, hf y hy]
          have := Phi_strictMono hxy
          exact sub_lt_sub_right (log_lt_log (hpos x hx) (div_lt_div_of_pos_right (by linarith) hp)) _)
        ⟨z, hw ▸ hz', by
          simp only [hf z (hw ▸ hz'), hz]
          rw [add_sub_cancel_left, mul_div_assoc, div_self hp.ne', mul_one, sub_self]⟩
      have he := (hf _ hm).symm.trans he
      have := log_injOn_pos (hpos _ hm) h0 (sub_eq_zero.1 he)
      rw [div_eq_iff hp.ne'] at this
      linarith
    · have hf : ∀ x ∈ Ioo a.toReal b.toReal, logsf a b x - log (1.0 - q) =
          log ((ndtr b - Phi x) / (ndtr b - ndtr a)) - log (1 - q) := fun x hx => by
        rw [logsf_eq hab (hw ▸ hx)]; norm_num
      have hpos : ∀ x ∈ Ioo a.toReal b.toReal, 0 < (ndtr b - Phi x) / (ndtr b - ndtr a) := fun x hx => by
        have h := ndtr_lt (show x ∈ within a b from hw ▸ hx).2
        rw [ndtr_coe] at h
        exact div_pos (by linarith) hp
      obtain ⟨hm, he⟩ := hr (fun x => logsf a b x - log (1.0 - q)) a.toReal b.toReal
        (ContinuousOn.congr (f := fun x => log ((ndtr b - Phi x) / (ndtr b - ndtr a)) - log (1 - q))
          (ContinuousOn.sub (ContinuousOn.log (((continuous_const.sub continuous_Phi).div_const _).continuousOn)
            fun x hx => (hpos x hx).ne') continuousOn_const) hf)
        (.inr fun x hx y hy hxy => by
          simp only [hf x hx, hf y hy]
          have := Phi_strictMono hxy
          exact sub_lt_sub_right (log_lt_log (hpos y hy) (div_lt_div_of_pos_right (by linarith) hp)) _)
        ⟨z, hw ▸ hz', by
          simp only [hf z (hw ▸ hz'), hz]
          rw [show ndtr b - (ndtr a + q * (ndtr b - ndtr a)) = (1 - q) * (ndtr b - ndtr a) by ring,
            mul_div_assoc, div_self hp.ne', mul_one, sub_self]⟩
      have he := (hf _ hm).symm.trans he
      have := log_injOn_pos (hpos _ hm) (show 0 < 1 - q by linarith) (sub_eq_zero.1 he)
      rw [div_eq_iff hp.ne'] at this
      linarith

end TruncNorm

open TruncNorm

/-- C271 truncnorm, for finite and infinite limits, near the centre and far in the tails. -/
theorem C271_truncnorm (a b : EReal) (hab : a < b) {ninv ilog : ℝ → ℝ} {root : (ℝ → ℝ) → ℝ → ℝ → ℝ} (hn : IsNormInv ninv)
    (hi : IsLogInv ilog) (hr : IsRoot root) :
    IsCdf (within a b) (TruncNorm.pdf a b) (TruncNorm.cdf a b) ∧
    IsPpf (within a b) (TruncNorm.cdf a b) (TruncNorm.ppf ninv ilog root a b) ∧
    IsSf (within a b) (TruncNorm.cdf a b) (TruncNorm.sf a b) ∧
    IsLog (within a b) (TruncNorm.pdf a b) (TruncNorm.logpdf a b) ∧
    IsLog (within a b) (TruncNorm.cdf a b) (TruncNorm.logcdf a b) ∧
    IsLog (within a b) (TruncNorm.sf a b) (TruncNorm.logsf a b) := by
  have hp := mass_pos hab
  have hx1 : ∀ x ∈ within a b, 0 < Phi x - ndtr a := fun x hx => by
    have := ndtr_lt hx.1
    rw [ndtr_coe] at this
    linarith
  have hx2 : ∀ x ∈ within a b, 0 < ndtr b - Phi x := fun x hx => by
    have := ndtr_lt hx.2
    rw [ndtr_coe] at this
    linarith
  have hppf : IsPpf (within a b) (TruncNorm.cdf a b) (TruncNorm.ppf ninv ilog root a b) := by
    have hm : ∀ q, 0 < q → q < 1 → TruncNorm.ppf ninv ilog root a b q ∈ within a b := fun q h0 h1 => by
      obtain ⟨q1, q2, -, -⟩ := q_mem hab h0 h1
      have e := ppf_eq hab hn hi hr h0 h1
      exact mem_within (by rwa [e]) (by rwa [e])
    have hc : ∀ x ∈ within a b, 0 < TruncNorm.cdf a b x ∧ TruncNorm.cdf a b x < 1 := fun x hx => by
      rw [cdf_eq hab hx]
      refine ⟨div_pos (hx1 x hx) hp, (div_lt_one hp).2 ?_⟩
      have := hx2 x hx
      linarith
    refine ⟨hm, fun q h0 h1 => ?_, hc, fun x hx => ?_⟩
    · rw [cdf_eq hab (hm q h0 h1), ppf_eq hab hn hi hr h0 h1, add_sub_cancel_left, mul_div_assoc, div_self hp.ne', mul_one]
    · refine Phi_inj ?_
      rw [ppf_eq hab hn hi hr (hc x hx).1 (hc x hx).2, cdf_eq hab hx, div_mul_cancel₀ _ hp.ne']
      ring
  refine ⟨isCdf_of_ppf (within_open a b) (within_conn a b) (fun x hx => ?_)
    (fun x _ => by rw [pdf_eq hab]; exact (div_pos (phi_pos x) hp).le) hppf, hppf, fun x hx => ?_, fun x _ => ?_, fun x hx => ?_, fun x hx => ?_⟩
  · rw [pdf_eq hab]
    refine HasDerivAt.congr_of_eventuallyEq (((hasDerivAt_Phi x).sub_const (ndtr a)).div_const (ndtr b - ndtr a)) ?_
    filter_upwards [(within_open a b).mem_nhds hx] with y hy
    exact cdf_eq hab hy
  · rw [sf_eq hab hx, cdf_eq hab hx]
    field_simp
    ring
  · rw [pdf_eq hab, logpdf_eq hab]
    exact ⟨div_pos (phi_pos x) hp, rfl⟩
  · rw [cdf_eq hab hx, logcdf_eq hab hx]
    exact ⟨div_pos (hx1 x hx) hp, rfl⟩
  · rw [sf_eq hab hx, logsf_eq hab hx]
    exact ⟨div_pos (hx2 x hx) hp, rfl⟩

/-- The hypotheses can be met; limits in the centre, in the tail, and infinite. -/
example : (∃ ninv, IsNormInv ninv) ∧ (∃ ilog, IsLogInv ilog) ∧ (∃ root, IsRoot root) ∧
    ((-1 : ℝ) : EReal) < ((2 : ℝ) : EReal) ∧ ((31 : ℝ) : EReal) < ⊤ ∧ ⊥ < ((-31 : ℝ) : EReal) :=
  ⟨exists_normInv, exists_logInv, exists_root, EReal.coe_lt_coe_iff.2 (by norm_num), EReal.coe_lt_top _, EReal.bot_lt_coe _⟩

end Wafo.Dist
