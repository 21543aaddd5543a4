import Verif.Dist.NormProps2

/-!
# C263, continued: inverse Gaussian, exponentially modified normal, crystal ball and skew normal
distributions
-/

namespace Wafo.Dist

open MeasureTheory Set Filter Topology Real Wafo.Gauss

set_option linter.unusedSectionVars false

theorem tendsto_inv_sqrt_zero : Tendsto (fun x : ℝ => 1 / √x) (𝓝[>] 0) atTop := by
  have h1 : Tendsto (fun x : ℝ => √x) (𝓝[>] 0) (𝓝[>] 0) := by
    refine tendsto_nhdsWithin_iff.2 ⟨?_, ?_⟩
    · have := continuous_sqrt.tendsto (0 : ℝ)
      rw [sqrt_zero] at this
      exact this.mono_left nhdsWithin_le_nhds
    · filter_upwards [self_mem_nhdsWithin] with x hx using sqrt_pos.2 hx
  simp only [one_div]
  exact tendsto_inv_nhdsGT_zero.comp h1

/-- `√x / b - c / √x` near zero and near infinity. -/
theorem tendsto_diff_zero {b c : ℝ} (hc : 0 < c) :
    Tendsto (fun x : ℝ => √x / b - c * (1 / √x)) (𝓝[>] 0) atBot := by
  have h1 : Tendsto (fun x : ℝ => √x / b) (𝓝[>] 0) (𝓝 0) := by
    have := (continuous_sqrt.div_const b).tendsto (0 : ℝ)
    rw [sqrt_zero, zero_div] at this
    exact this.mono_left nhdsWithin_le_nhds
  have h2 : Tendsto (fun x : ℝ => c * (1 / √x)) (𝓝[>] 0) atTop :=
    tendsto_inv_sqrt_zero.const_mul_atTop hc
  simp only [sub_eq_add_neg]
  exact h1.add_atBot (tendsto_neg_atTop_atBot.comp h2)

theorem tendsto_diff_top {b c : ℝ} (hb : 0 < b) :
    Tendsto (fun x : ℝ => √x / b - c * (1 / √x)) atTop atTop := by
  have h1 : Tendsto (fun x : ℝ => √x / b) atTop atTop := tendsto_sqrt_atTop.atTop_div_const hb
  have h2 : Tendsto (fun x : ℝ => c * (1 / √x)) atTop (𝓝 0) := by
    have := (tendsto_inv_atTop_zero.comp tendsto_sqrt_atTop).const_mul c
    rw [mul_zero] at this
    simpa only [one_div, Function.comp_def] using this
  simp only [sub_eq_add_neg]
  exact h1.atTop_add h2.neg

theorem diff_deriv {b c x : ℝ} (hx : 0 < x) : HasDerivAt (fun x : ℝ => √x / b - c * (1 / √x))
    (1 / (2 * √x) / b + c * (1 / (2 * √x * x))) x := by
  refine HasDerivAt.congr_deriv
    (((hasDerivAt_sqrt hx.ne').div_const b).sub ((levy_deriv hx).const_mul c)) ?_
  ring

theorem ig_arg1 {mu x : ℝ} (hmu : 0 < mu) (hx : 0 < x) :
    √(1 / x) * (x - mu) / mu = √x / mu - 1 * (1 / √x) := by
  have hw : 0 < √x := sqrt_pos.2 hx
  have h2 : x = √x ^ 2 := (sq_sqrt hx.le).symm
  rw [sqrt_div zero_le_one, sqrt_one]
  field_simp
  rw [← h2]

theorem ig_arg2 {mu x : ℝ} (hmu : 0 < mu) (hx : 0 < x) :
    -√(1 / x) * (x + mu) / mu = -(√x / mu - -1 * (1 / √x)) := by
  have hw : 0 < √x := sqrt_pos.2 hx
  have h2 : x = √x ^ 2 := (sq_sqrt hx.le).symm
  rw [sqrt_div zero_le_one, sqrt_one]
  field_simp
  rw [← h2]
  ring

theorem ig_cdf_eq {mu x : ℝ} (hmu : 0 < mu) (hx : 0 < x) : InvGauss.cdf mu x =
    Phi (√x / mu - 1 * (1 / √x)) + exp (2 / mu) * Phi (-(√x / mu - -1 * (1 / √x))) := by
  simp only [InvGauss.cdf, Norm.cdf]
  rw [ig_arg1 hmu hx, ig_arg2 hmu hx, show 2 / mu = 1 / mu + 1 / mu by ring, exp_add]
  ring

theorem ig_phi {mu x : ℝ} (hmu : 0 < mu) (hx : 0 < x) :
    exp (2 / mu) * phi (-(√x / mu - -1 * (1 / √x))) = phi (√x / mu - 1 * (1 / √x)) := by
  have hw : 0 < √x := sqrt_pos.2 hx
  rw [phi, phi, mul_left_comm, ← exp_add]
  congr 2
  field_simp
  ring

/-- The inverse Gaussian distribution. -/
theorem C263_invgauss (mu : ℝ) (hmu : 0 < mu) :
    IsCdf (Ioi 0) (InvGauss.pdf mu) (InvGauss.cdf mu) ∧
    IsLog (Ioi 0) (InvGauss.pdf mu) (InvGauss.logpdf mu) := by
  have hpos : ∀ x ∈ Ioi (0 : ℝ), 0 < InvGauss.pdf mu x := fun x hx => by
    have := rpow_pos_of_pos (mem_Ioi.1 hx) 3
    rw [InvGauss.pdf]
    positivity
  refine ⟨?_, fun x hx => ⟨hpos x hx, ?_⟩⟩
  · refine isCdf_of_lim isOpen_Ioi ordConnected_Ioi (fun x hx => ?_) hpos (l := 𝓝[>] 0) (u := atTop)
      self_mem_nhdsWithin (eventually_gt_atTop 0) ?_ ?_ ?_ ?_
    · have hx : 0 < x := hx
      have hev : ∀ᶠ y in 𝓝 x, InvGauss.cdf mu y = Phi (√y / mu - 1 * (1 / √y))
          + exp (2 / mu) * Phi (-(√y / mu - -1 * (1 / √y))) := by
        filter_upwards [lt_mem_nhds hx] with y hy using ig_cdf_eq hmu hy
      refine HasDerivAt.congr_of_eventuallyEq ?_ hev
      have h1 := (hasDerivAt_Phi _).comp x (diff_deriv (b := mu) (c := 1) hx)
      have h2 := ((hasDerivAt_Phi _).comp x (diff_deriv (b := mu) (c := -1) hx).neg).const_mul
        (exp (2 / mu))
      refine HasDerivAt.congr_deriv (h1.add h2) ?_
      simp only [Pi.neg_apply]
      rw [← mul_assoc, ig_phi hmu hx, InvGauss.pdf, phi,
        show (3 : ℝ) = ((3 : ℕ) : ℝ) by norm_num, rpow_natCast]
      have hw : 0 < √x := sqrt_pos.2 hx
      have e1 : -1 / (2 * x) * ((x - mu) / mu) ^ 2 = -(√x / mu - 1 * (1 / √x)) ^ 2 / 2 := by
        have h2 : √x ^ 2 = x := sq_sqrt hx.le
        field_simp
        rw [h2]
        ring
      have e2 : √(2 * π * x ^ 3) = √(2 * π) * (√x * x) := by
        rw [sqrt_mul (by positivity), show x ^ 3 = x * x ^ 2 by ring, sqrt_mul hx.le, sqrt_sq hx.le]
      rw [e1, e2]
      field_simp
      ring
    · have h1 := tendsto_Phi_atBot.comp (tendsto_diff_zero (b := mu) (c := 1) one_pos)
      have h2 : Tendsto (fun x : ℝ => -(√x / mu - -1 * (1 / √x))) (𝓝[>] 0) atBot := by
        have := tendsto_diff_zero (b := -mu) (c := 1) one_pos
        refine this.congr fun x => ?_
        rw [div_neg]
        ring
      have h3 := (tendsto_Phi_atBot.comp h2).const_mul (exp (2 / mu))
      have h4 := h1.add h3
      rw [mul_zero, add_zero] at h4
      refine h4.congr' ?_
      filter_upwards [self_mem_nhdsWithin] with x hx using (ig_cdf_eq hmu hx).symm
    · have h1 := tendsto_Phi_atTop.comp (tendsto_diff_top (b := mu) (c := 1) hmu)
      have h2 := tendsto_neg_atTop_atBot.comp (tendsto_diff_top (b := mu) (c := -1) hmu)
      have h3 := (tendsto_Phi_atBot.comp h2).const_mul (exp (2 / mu))
      have h4 := h1.add h3
      rw [mul_zero, add_zero] at h4
      refine h4.congr' ?_
      filter_upwards [eventually_gt_atTop 0] with x hx using (ig_cdf_eq hmu hx).symm
    · intro x hx
      exact mem_nhdsWithin_of_mem_nhds (gt_mem_nhds hx)
    · intro x _
      exact eventually_gt_atTop x
  · have hx : 0 < x := hx
    have := rpow_pos_of_pos hx 3
    rw [InvGauss.pdf, InvGauss.logpdf, log_mul (by positivity) (exp_ne_zero _), log_exp,
      log_div one_ne_zero (by positivity), log_one, log_sqrt (by positivity),
      log_mul (x := 2 * π) (by positivity) (by positivity), log_rpow hx]
    ring

example : (0 : ℝ) < 2 ∧ InvGauss.cdf 1 1 = 1 / 2 + exp 2 * Phi (-2) := by
  refine ⟨two_pos, ?_⟩
  rw [ig_cdf_eq one_pos one_pos]
  norm_num [Phi_zero]

theorem rig_cdf_eq {mu x : ℝ} (hmu : 0 < mu) (hx : 0 < x) :
    RecipInvGauss.cdf mu x = 1 - InvGauss.cdf mu (1 / x) := by
  have hw : 0 < √x := sqrt_pos.2 hx
  have h2 : √x ^ 2 = x := sq_sqrt hx.le
  rw [ig_cdf_eq hmu (by positivity)]
  simp only [RecipInvGauss.cdf, Norm.cdf]
  have e1 : √(1 / x) / mu - 1 * (1 / √(1 / x)) = 1 / √x * (1 / mu - x) := by
    rw [sqrt_div zero_le_one, sqrt_one]
    field_simp
    rw [h2]
    ring
  have e2 : -(√(1 / x) / mu - -1 * (1 / √(1 / x))) = -(1 / √x) * (1 / mu + x) := by
    rw [sqrt_div zero_le_one, sqrt_one]
    field_simp
    rw [h2]
    ring
  rw [e1, e2]
  ring

/-- The reciprocal inverse Gaussian distribution. -/
theorem C263_recipinvgauss (mu : ℝ) (hmu : 0 < mu) :
    IsCdf (Ioi 0) (RecipInvGauss.pdf mu) (RecipInvGauss.cdf mu) ∧
    IsLog (Ioi 0) (RecipInvGauss.pdf mu) (RecipInvGauss.logpdf mu) ∧
    ∀ x, 0 < x → RecipInvGauss.cdf mu x = 1 - InvGauss.cdf mu (1 / x) := by
  have hpos : ∀ x ∈ Ioi (0 : ℝ), 0 < RecipInvGauss.pdf mu x := fun x hx => by
    have := mem_Ioi.1 hx
    rw [RecipInvGauss.pdf]
    positivity
  refine ⟨?_, fun x hx => ⟨hpos x hx, ?_⟩, fun x hx => rig_cdf_eq hmu hx⟩
  · have e : ∀ x, RecipInvGauss.cdf mu x =
        1 - Phi (-(√x / 1 - 1 / mu * (1 / √x))) - exp (2 / mu) * Phi (-(√x / 1 - -(1 / mu) * (1 / √x))) := by
      intro x
      simp only [RecipInvGauss.cdf, Norm.cdf]
      have : √x = 1 / √x * x := by
        rcases le_or_gt x 0 with h | h
        · rw [sqrt_eq_zero'.2 h]
          simp
        · have hw : 0 < √x := sqrt_pos.2 h
          field_simp
          exact sq_sqrt h.le
      have e1 : -(√x / 1 - 1 / mu * (1 / √x)) = 1 / √x * (1 / mu - x) := by
        rw [div_one]
        nth_rw 1 [this]
        ring
      have e2 : -(√x / 1 - -(1 / mu) * (1 / √x)) = -(1 / √x) * (1 / mu + x) := by
        rw [div_one]
        nth_rw 1 [this]
        ring
      rw [e1, e2]
    refine isCdf_of_lim isOpen_Ioi ordConnected_Ioi (fun x hx => ?_) hpos (l := 𝓝[>] 0) (u := atTop)
      self_mem_nhdsWithin (eventually_gt_atTop 0) ?_ ?_ ?_ ?_
    · have hx : 0 < x := hx
      rw [show RecipInvGauss.cdf mu = _ from funext e]
      have h1 := (hasDerivAt_Phi _).comp x (diff_deriv (b := 1) (c := 1 / mu) hx).neg
      have h2 := ((hasDerivAt_Phi _).comp x (diff_deriv (b := 1) (c := -(1 / mu)) hx).neg).const_mul
        (exp (2 / mu))
      refine HasDerivAt.congr_deriv ((h1.const_sub 1).sub h2) ?_
      simp only [Pi.neg_apply]
      have hw : 0 < √x := sqrt_pos.2 hx
      have hx2 : √x ^ 2 = x := sq_sqrt hx.le
      have e3 : exp (2 / mu) * phi (-(√x / 1 - -(1 / mu) * (1 / √x)))
          = phi (-(√x / 1 - 1 / mu * (1 / √x))) := by
        rw [phi, phi, mul_left_comm, ← exp_add]
        congr 2
        field_simp
        ring
      rw [← mul_assoc, e3, RecipInvGauss.pdf, phi, sqrt_mul (by positivity) x,
        show -(1 - mu * x) ^ 2 / (2 * x * mu ^ 2) = -(-(√x / 1 - 1 / mu * (1 / √x))) ^ 2 / 2 by
          field_simp
          rw [hx2]
          ring]
      field_simp
      ring
    · have h1 := tendsto_neg_atBot_atTop.comp
        (tendsto_diff_zero (b := 1) (c := 1 / mu) (by positivity))
      have h2 : Tendsto (fun x : ℝ => -(√x / 1 - -(1 / mu) * (1 / √x))) (𝓝[>] 0) atBot := by
        have := tendsto_diff_zero (b := -1) (c := 1 / mu) (by positivity)
        refine this.congr fun x => ?_
        rw [div_neg]
        ring
      have h3 := (tendsto_Phi_atBot.comp h2).const_mul (exp (2 / mu))
      have h4 := ((tendsto_Phi_atTop.comp h1).const_sub 1).sub h3
      rw [mul_zero, sub_zero, sub_self] at h4
      exact h4.congr fun x => (e x).symm
    · have h1 := tendsto_neg_atTop_atBot.comp (tendsto_diff_top (b := 1) (c := 1 / mu) one_pos)
      have h2 := tendsto_neg_atTop_atBot.comp (tendsto_diff_top (b := 1) (c := -(1 / mu)) one_pos)
      have h3 := (tendsto_Phi_atBot.comp h2).const_mul (exp (2 / mu))
      have h4 := ((tendsto_Phi_atBot.comp h1).const_sub 1).sub h3
      rw [mul_zero, sub_zero, sub_zero] at h4
      exact h4.congr fun x => (e x).symm
    · intro x hx
      exact mem_nhdsWithin_of_mem_nhds (gt_mem_nhds hx)
    · intro x _
      exact eventually_gt_atTop x
  · have hx : 0 < x := hx
    rw [RecipInvGauss.pdf, RecipInvGauss.logpdf, log_mul (by positivity) (exp_ne_zero _), log_exp,
      log_div one_ne_zero (by positivity), log_one, log_sqrt (by positivity)]
    ring

example : (0 : ℝ) < 1 ∧ RecipInvGauss.cdf 1 1 = 1 / 2 - exp 2 * Phi (-2) := by
  refine ⟨one_pos, ?_⟩
  norm_num [RecipInvGauss.cdf, Norm.cdf, Phi_zero]

theorem en_phi (k x : ℝ) : exp (k * (0.5 * k - x)) * phi (x - k) = phi x := by
  rw [phi, phi, mul_left_comm, ← exp_add]
  congr 2
  ring

/-- The second term of the distribution function is at most the first. -/
theorem en_bound {k : ℝ} (hk : 0 < k) (x : ℝ) :
    exp (k * (0.5 * k - x)) * Phi (x - k) ≤ Phi x := by
  have h1 : Phi x = ∫ t in Iic (x - k), phi (t + k) := by
    rw [Phi_eq_integral]
    have := (measurePreserving_add_right volume k).setIntegral_preimage_emb
      (measurableEmbedding_addRight k) phi (Iic x)
    rw [← this]
    congr 2
    ext t
    simp only [mem_preimage, mem_Iic]
    constructor <;> intro h <;> linarith
  rw [h1, Phi_eq_integral, ← integral_const_mul]
  refine setIntegral_mono_on (integrable_phi.const_mul _).integrableOn
    (integrable_phi.comp_add_right k).integrableOn measurableSet_Iic ?_
  intro t ht
  have ht : t ≤ x - k := ht
  rw [← en_phi k (t + k), add_sub_cancel_right]
  refine mul_le_mul_of_nonneg_right (exp_le_exp.2 ?_) (phi_pos t).le
  nlinarith

theorem en_pdf_eq (K x : ℝ) : ExponNorm.pdf K x =
    1 / K * (exp (1 / K * (0.5 * (1 / K) - x)) * Phi (x - 1 / K)) := by
  simp only [ExponNorm.pdf]
  rw [← erfc_eq_Phi, show 1 / K * (0.5 * (1 / K) - x) = 0.5 * (1 / K) ^ 2 - 1 / K * x by ring]
  ring

/-- The exponentially modified normal distribution. -/
theorem C263_exponnorm (K : ℝ) (hK : 0 < K) :
    IsCdf univ (ExponNorm.pdf K) (ExponNorm.cdf K) ∧
    IsSf univ (ExponNorm.cdf K) (ExponNorm.sf K) ∧
    IsLog univ (ExponNorm.pdf K) (ExponNorm.logpdf K) := by
  have hk : 0 < 1 / K := by positivity
  have hpos : ∀ x, 0 < ExponNorm.pdf K x := fun x => by
    have := Phi_pos (x - 1 / K)
    rw [en_pdf_eq]
    positivity
  refine ⟨?_, fun x _ => ?_, fun x _ => ⟨hpos x, ?_⟩⟩
  · refine isCdf_of_lim isOpen_univ ordConnected_univ (fun x hx => ?_) (fun x _ => hpos x)
      (l := atBot) (u := atTop) (Eventually.of_forall fun _ => mem_univ _)
      (Eventually.of_forall fun _ => mem_univ _) ?_ ?_ ?_ ?_
    · have h1 : HasDerivAt (fun x : ℝ => 1 / K * (0.5 * (1 / K) - x)) (1 / K * -1) x :=
        ((hasDerivAt_id x).const_sub _).const_mul _
      have h2 := (hasDerivAt_Phi (x - 1 / K)).comp x ((hasDerivAt_id x).sub_const (1 / K))
      refine HasDerivAt.congr_deriv ((hasDerivAt_Phi x).sub (h1.exp.mul h2)) ?_
      rw [en_pdf_eq]
      simp only [mul_one]
      rw [en_phi]
      show phi x - (_ * Phi (x - 1 / K) + phi x) = _
      ring
    · refine tendsto_of_tendsto_of_tendsto_of_le_of_le tendsto_const_nhds tendsto_Phi_atBot
        (fun x => ?_) (fun x => ?_)
      · have := en_bound hk x
        simp only [ExponNorm.cdf, Norm.cdf]
        linarith
      · have h1 := Phi_pos (x - 1 / K)
        have h2 := exp_pos (1 / K * (0.5 * (1 / K) - x))
        simp only [ExponNorm.cdf, Norm.cdf]
        nlinarith
    · have h1 : Tendsto (fun x : ℝ => 1 / K * (0.5 * (1 / K) - x)) atTop atBot := by
        refine Tendsto.const_mul_atBot hk ?_
        exact tendsto_atBot_add_const_left atTop _ tendsto_neg_atTop_atBot
      have h2 : Tendsto (fun x : ℝ => x - 1 / K) atTop atTop :=
        tendsto_atTop_add_const_right atTop (-(1 / K)) tendsto_id
      have h3 := tendsto_Phi_atTop.sub
        ((tendsto_exp_atBot.comp h1).mul (tendsto_Phi_atTop.comp h2))
      rw [zero_mul, sub_zero] at h3
      exact h3
    · intro x _
      exact eventually_lt_atBot x
    · intro x _
      exact eventually_gt_atTop x
  · simp only [ExponNorm.cdf, ExponNorm.sf, Norm.cdf, Phi_neg]
    ring
  · have h1 : erfc (-(x - 1 / K) / √2) = 2 * Phi (x - 1 / K) := by
      rw [← erfc_eq_Phi]
      ring
    have h2 := Phi_pos (x - 1 / K)
    simp only [ExponNorm.pdf, ExponNorm.logpdf]
    rw [h1, show 0.5 * (1 / K) * (exp (0.5 * (1 / K) ^ 2 - 1 / K * x) * (2 * Phi (x - 1 / K)))
      = exp (0.5 * (1 / K) ^ 2 - 1 / K * x) * (0.5 * (1 / K) * (2 * Phi (x - 1 / K))) by ring,
      log_mul (exp_ne_zero _) (by positivity), log_exp]

example : (0 : ℝ) < 1 ∧ ExponNorm.cdf 1 1 = Phi 1 - exp (-(1 / 2)) / 2 := by
  refine ⟨one_pos, ?_⟩
  norm_num [ExponNorm.cdf, Norm.cdf, Phi_zero]
  ring

end Wafo.Dist
