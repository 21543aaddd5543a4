import Mathlib.Analysis.Real.Pi.Bounds
import Mathlib.Analysis.SpecialFunctions.Gamma.BohrMollerup
import Verif.Spec.Lemmas

/-!
Properties of the model spectra: Bretschneider and Jonswap.

`mom S k` is the spectral moment of order `k`; `mom S 0` is the variance (energy) of the sea surface.
-/

set_option linter.unusedSectionVars false

namespace Wafo.Spec

open Real MeasureTheory Set

/-- Spectral moment `integral of w^k S(w)` over the positive frequencies. -/
noncomputable def mom (S : ℝ → ℝ) (k : ℝ) : ℝ := ∫ w in Ioi (0 : ℝ), w ^ k * S w

theorem mom_zero (S : ℝ → ℝ) : mom S 0 = ∫ w in Ioi (0 : ℝ), S w := by simp [mom]

theorem mom_scale (f : ℝ → ℝ) (a wp k : ℝ) (hwp : 0 < wp) :
    mom (fun w => a / wp * f (w / wp)) k = a * wp ^ k * ∫ u in Ioi (0 : ℝ), u ^ k * f u := by
  have e := scale_integral (fun u => wp ^ k * (u ^ k * f u)) a wp hwp
  conv at e => rhs; rw [integral_const_mul]
  rw [mom, mul_assoc, ← e]
  refine setIntegral_congr_fun measurableSet_Ioi fun w hw => ?_
  have hw' : 0 < w := hw
  rw [div_rpow hw'.le hwp.le]
  have := (rpow_pos_of_pos hwp k).ne'
  field_simp

/-- The constructor accepts exactly the valid sea states. -/
theorem chk_ok {Hm0 Tp : ℝ} (h : 0 ≤ Hm0) (hT : 0 < Tp) : chkSeastate Hm0 Tp = .ok () := by
  unfold chkSeastate
  rw [if_neg (not_lt.2 h), if_neg (not_le.2 hT)]

theorem chk_err {Hm0 Tp : ℝ} (h : Hm0 < 0 ∨ Tp ≤ 0) : chkSeastate Hm0 Tp = .error .valueError := by
  unfold chkSeastate
  rcases h with h | h
  · rw [if_pos h]
  · split_ifs <;> rfl

/-- Angular peak frequency. -/
noncomputable def wp (Tp : ℝ) : ℝ := 2 * π / Tp

theorem wp_pos {Tp : ℝ} (h : 0 < Tp) : 0 < wp Tp := div_pos (by positivity) h

/-- C144.  Moments of the Bretschneider spectrum, of every order `k < N - 1`. -/
theorem C144_moments (Hm0 Tp N M : ℝ) (hH : 0 ≤ Hm0) (hT : 0 < Tp) (h : Shape N M) (chk : Bool) (k : ℝ) (hk : k < N - 1) :
    ∃ s, Bret.mk' Hm0 Tp N M chk = .ok s ∧
      mom s.call k = (Hm0 / 4) ^ 2 * (2 * π / Tp) ^ k * ((N / M) ^ (k / M) * Gamma ((N - 1 - k) / M) / Gamma ((N - 1) / M)) := by
  refine ⟨⟨Hm0, Tp, N, M⟩, ?_, ?_⟩
  · unfold Bret.mk'
    rw [chk_ok hH hT]
    cases chk <;> rfl
  · rcases hH.eq_or_lt with h0 | h0
    · subst h0
      simp [mom, Bret.call]
    · have := mom_scale (gengam N M) ((Hm0 / 4) ^ 2) (wp Tp) k (wp_pos hT)
      rw [(gengam_moment h k hk).2] at this
      simp only [wp] at this
      refine Eq.trans ?_ this
      congr 1
      funext w
      unfold Bret.call
      exact if_pos h0

/-- C144.  The energy of the Bretschneider spectrum is `Hm0^2/16`: the significant wave height is the one asked for. -/
theorem C144_energy (Hm0 Tp N M : ℝ) (hH : 0 ≤ Hm0) (hT : 0 < Tp) (h : Shape N M) (chk : Bool) :
    ∃ s, Bret.mk' Hm0 Tp N M chk = .ok s ∧ ∫ w in Ioi (0 : ℝ), s.call w = Hm0 ^ 2 / 16 ∧ 4 * sqrt (∫ w in Ioi (0 : ℝ), s.call w) = Hm0 := by
  obtain ⟨s, h1, h2⟩ := C144_moments Hm0 Tp N M hH hT h chk 0 (by linarith [h.hN])
  have hG := Gamma_pos_of_pos (div_pos (by linarith [h.hN]) h.hM : 0 < (N - 1) / M)
  rw [mom_zero] at h2
  simp only [rpow_zero, zero_div, sub_zero, one_mul, mul_one, div_self hG.ne'] at h2
  refine ⟨s, h1, by rw [h2]; ring, ?_⟩
  rw [h2, sqrt_sq (by positivity)]
  ring

/-- C144.  The spectrum is non-negative, zero for non-positive frequencies, and has its only maximum at `2*pi/Tp`. -/
theorem C144_peak (Hm0 Tp N M : ℝ) (hH : 0 < Hm0) (hT : 0 < Tp) (hN : 0 < N) (hM : 0 < M) (chk : Bool) :
    ∃ s, Bret.mk' Hm0 Tp N M chk = .ok s ∧ (∀ w, 0 ≤ s.call w) ∧ (∀ w, w ≤ 0 → s.call w = 0) ∧ (∀ w, 0 < w → 0 < s.call w) ∧
      ∀ w, w ≠ 2 * π / Tp → s.call w < s.call (2 * π / Tp) := by
  have hw := wp_pos hT
  refine ⟨⟨Hm0, Tp, N, M⟩, ?_, ?_⟩
  · unfold Bret.mk'
    rw [chk_ok hH.le hT]
    cases chk <;> rfl
  · have e : ∀ w, Bret.call ⟨Hm0, Tp, N, M⟩ w = (Hm0 / 4) ^ 2 / wp Tp * gengam N M (w / wp Tp) := by
      intro w; unfold Bret.call; exact if_pos hH
    have ha : 0 < (Hm0 / 4) ^ 2 / wp Tp := by positivity
    refine ⟨fun w => ?_, fun w h => ?_, fun w h => ?_, fun w h => ?_⟩
    · rw [e]; exact mul_nonneg ha.le (gengam_nonneg _ _ _)
    · rw [e, gengam_nonpos _ _ _ (div_nonpos_of_nonpos_of_nonneg h hw.le), mul_zero]
    · rw [e]; exact mul_pos ha (gengam_pos _ _ _ (div_pos h hw))
    · rw [e, e, show 2 * π / Tp = wp Tp from rfl, div_self hw.ne']
      refine mul_lt_mul_of_pos_left (gengam_lt hN hM _ ?_) ha
      intro hc
      exact h ((div_eq_one_iff_eq hw.ne').1 hc)

/-- C144.  Formula of the documentation. -/
theorem C144_formula (Hm0 Tp N M w : ℝ) (hH : 0 < Hm0) (hT : 0 < Tp) (h : Shape N M) (hw : 0 < w) (chk : Bool) :
    ∃ s, Bret.mk' Hm0 Tp N M chk = .ok s ∧
      s.call w = (Hm0 / 4) ^ 2 / (2 * π / Tp) * ((N / M) ^ ((N - 1) / M) * M / Gamma ((N - 1) / M)) * (w / (2 * π / Tp)) ^ (-N)
        * exp (-N / (M * (w / (2 * π / Tp)) ^ M)) := by
  have hwp := wp_pos hT
  refine ⟨⟨Hm0, Tp, N, M⟩, ?_, ?_⟩
  · unfold Bret.mk'
    rw [chk_ok hH.le hT]
    cases chk <;> rfl
  · have e : Bret.call ⟨Hm0, Tp, N, M⟩ w = (Hm0 / 4) ^ 2 / wp Tp * gengam N M (w / wp Tp) := by
      unfold Bret.call; exact if_pos hH
    have hp : 0 < w / wp Tp := div_pos hw hwp
    rw [e, gengam_eq h _ hp]
    have : -N / (M * (w / (2 * π / Tp)) ^ M) = -(N / M) * (w / wp Tp) ^ (-M) := by
      rw [rpow_neg hp.le]
      show -N / (M * (w / wp Tp) ^ M) = _
      have := (rpow_pos_of_pos hp M).ne'
      have := h.hM.ne'
      field_simp
    rw [this]
    show _ = (Hm0 / 4) ^ 2 / wp Tp * _ * (w / wp Tp) ^ (-N) * _
    ring

/-- C144.  The default spectrum (N = 5, M = 4) has `Tp = 1.408*Tz`, with `Tz = 2*pi*sqrt(m0/m2)`, as documented. -/
theorem C144_periods (Hm0 Tp : ℝ) (hH : 0 < Hm0) (hT : 0 < Tp) (chk : Bool) :
    ∃ s, Bret.mk' Hm0 Tp 5 4 chk = .ok s ∧ |Tp / (2 * π * sqrt (mom s.call 0 / mom s.call 2)) - 1.408| < 0.0005 := by
  have hS : Shape 5 4 := ⟨by norm_num, by norm_num⟩
  obtain ⟨s, h1, h2⟩ := C144_moments Hm0 Tp 5 4 hH.le hT hS chk 0 (by norm_num)
  obtain ⟨s', h1', h2'⟩ := C144_moments Hm0 Tp 5 4 hH.le hT hS chk 2 (by norm_num)
  rw [h1, Except.ok.injEq] at h1'
  subst h1'
  refine ⟨s, h1, ?_⟩
  rw [h2, h2']
  have hwp := wp_pos hT
  have hG : Gamma ((5 - 1 - 2) / 4) = sqrt π := by
    rw [show ((5 : ℝ) - 1 - 2) / 4 = 1 / 2 by norm_num]
    exact Gamma_one_half_eq
  have e1 : (2 : ℝ) / 4 = 1 / 2 := by norm_num
  rw [hG, e1, ← sqrt_eq_rpow]
  rw [show ((5 : ℝ) - 1) / 4 = 1 by norm_num, show ((5 : ℝ) - 1 - 0) / 4 = 1 by norm_num]
  simp only [rpow_zero, zero_div, Gamma_one, div_one, mul_one]
  have hq : 0 < sqrt (5 / 4) * sqrt π := by positivity
  have e2 : (Hm0 / 4) ^ 2 / ((Hm0 / 4) ^ 2 * (2 * π / Tp) ^ (2 : ℝ) * (sqrt (5 / 4) * sqrt π))
      = (Tp / (2 * π)) ^ 2 / (sqrt (5 / 4) * sqrt π) := by
    rw [rpow_two]
    field_simp
  rw [e2, sqrt_div (by positivity), sqrt_sq (by positivity)]
  have e3 : Tp / (2 * π * (Tp / (2 * π) / sqrt (sqrt (5 / 4) * sqrt π))) = sqrt (sqrt (5 / 4) * sqrt π) := by
    have : sqrt (sqrt (5 / 4) * sqrt π) ≠ 0 := (sqrt_pos.2 hq).ne'
    field_simp
  rw [e3, ← sqrt_mul (by norm_num)]
  have l1 : (1.4076 : ℝ) < sqrt (sqrt (5 / 4 * π)) := by
    apply lt_sqrt_of_sq_lt
    apply lt_sqrt_of_sq_lt
    have := pi_gt_d4
    norm_num
    linarith
  have l2 : sqrt (sqrt (5 / 4 * π)) < (1.4078 : ℝ) := by
    rw [sqrt_lt' (by norm_num), sqrt_lt' (by norm_num)]
    have := pi_lt_d4
    norm_num
    linarith
  rw [abs_lt]
  constructor <;> linarith

/-- C144.  Invalid sea states are rejected, unless the check is switched off; a sea state without waves has no energy. -/
theorem C144_rejected (Hm0 Tp N M : ℝ) (h : Hm0 < 0 ∨ Tp ≤ 0) : Bret.mk' Hm0 Tp N M true = .error .valueError := by
  unfold Bret.mk'
  rw [chk_err h]
  rfl

example : Shape 5 4 := ⟨by norm_num, by norm_num⟩

/-! ### Jonswap -/

theorem quartic_mono {x y : ℝ} (hx : 0 ≤ x) (hxy : x ≤ y) (hy : y ≤ 36 / 7) :
    (0.036 - 0.0056 * x) * x ^ 4 ≤ (0.036 - 0.0056 * y) * y ^ 4 := by
  have hy0 : 0 ≤ y := hx.trans hxy
  have e : (0.036 - 0.0056 * y) * y ^ 4 - (0.036 - 0.0056 * x) * x ^ 4
      = (y - x) * ((0.036 - 0.0056 * y) * (y ^ 3 + y ^ 2 * x + y * x ^ 2 + x ^ 3) - 0.0056 * x * x ^ 3) := by ring
  have h1 : 0.0072 ≤ 0.036 - 0.0056 * y := by linarith
  have h2 : x ^ 3 ≤ y ^ 2 * x := by nlinarith [pow_le_pow_left₀ hx hxy 2]
  have h3 : x ^ 3 ≤ y * x ^ 2 := by nlinarith [sq_nonneg x]
  have h4 : x ^ 3 ≤ y ^ 3 := pow_le_pow_left₀ hx hxy 3
  have h5 : 0 ≤ x ^ 3 := by positivity
  have h6 : 0.0072 * (4 * x ^ 3) ≤ (0.036 - 0.0056 * y) * (y ^ 3 + y ^ 2 * x + y * x ^ 2 + x ^ 3) :=
    mul_le_mul h1 (by linarith) (by positivity) (by linarith)
  have h7 : 0.0056 * x * x ^ 3 ≤ 0.0288 * x ^ 3 := mul_le_mul_of_nonneg_right (by linarith) h5
  have h8 := mul_nonneg (sub_nonneg.2 hxy) (by linarith :
    0 ≤ (0.036 - 0.0056 * y) * (y ^ 3 + y ^ 2 * x + y * x ^ 2 + x ^ 3) - 0.0056 * x * x ^ 3)
  linarith

/-- The peakedness as a function of `x = Tp/sqrt(Hm0)`. -/
noncomputable def peakOf (x : ℝ) : ℝ :=
  if x ≤ 5.14285714285714 then min (exp (3.484 * (1 - 0.1975 * (0.036 - 0.0056 * x) * x ^ 4))) 7 else 1

theorem peakfact_eq {Hm0 : ℝ} (h : 0 < Hm0) (Tp : ℝ) : peakfact Hm0 Tp = peakOf (Tp / sqrt Hm0) := by
  simp only [peakfact, if_pos h, peakOf]

theorem peakOf_range {x : ℝ} (hx : 0 ≤ x) : 1 ≤ peakOf x ∧ peakOf x ≤ 7 := by
  unfold peakOf
  split_ifs with h
  · refine ⟨le_min (one_le_exp ?_) (by norm_num), min_le_right _ _⟩
    have h3 := quartic_mono hx (le_trans h (by norm_num) : x ≤ 36 / 7) le_rfl
    have h4 : (0.036 - 0.0056 * (36 / 7)) * (36 / 7 : ℝ) ^ 4 ≤ 1 / 0.1975 := by norm_num
    have h5 : 0.1975 * ((0.036 - 0.0056 * x) * x ^ 4) ≤ 1 := by
      have := mul_le_mul_of_nonneg_left (h3.trans h4) (by norm_num : (0 : ℝ) ≤ 0.1975)
      norm_num at this ⊢
      linarith
    rw [mul_assoc 0.1975]
    have : 0 ≤ 1 - 0.1975 * ((0.036 - 0.0056 * x) * x ^ 4) := by linarith
    positivity
  · norm_num

/-- C145.  The default peakedness lies between 1 and 7. -/
theorem C145_peakfact_range (Hm0 Tp : ℝ) (hT : 0 ≤ Tp) : 1 ≤ peakfact Hm0 Tp ∧ peakfact Hm0 Tp ≤ 7 := by
  by_cases h0 : 0 < Hm0
  · rw [peakfact_eq h0]
    exact peakOf_range (by positivity)
  · simp only [peakfact, if_neg h0]
    norm_num

/-- C145.  Steeper waves (shorter or higher) are never less peaked. -/
theorem C145_peakfact_monotone (Hm0 Tp Hm0' Tp' : ℝ) (hT : 0 ≤ Tp) (hTT : Tp ≤ Tp') (hH : 0 < Hm0') (hHH : Hm0' ≤ Hm0) :
    peakfact Hm0' Tp' ≤ peakfact Hm0 Tp := by
  have hH0 : 0 < Hm0 := hH.trans_le hHH
  rw [peakfact_eq hH, peakfact_eq hH0]
  have hx : 0 ≤ Tp / sqrt Hm0 := by positivity
  have hxy : Tp / sqrt Hm0 ≤ Tp' / sqrt Hm0' := by
    have h1 : 0 < sqrt Hm0' := sqrt_pos.2 hH
    exact div_le_div₀ (hT.trans hTT) hTT h1 (sqrt_le_sqrt hHH)
  generalize Tp / sqrt Hm0 = x at *
  generalize Tp' / sqrt Hm0' = y at *
  by_cases hy : y ≤ 5.14285714285714
  · unfold peakOf
    rw [if_pos hy, if_pos (hxy.trans hy)]
    refine min_le_min_right _ (exp_le_exp.2 ?_)
    have := quartic_mono hx hxy (le_trans hy (by norm_num))
    rw [mul_assoc 0.1975, mul_assoc 0.1975]
    linarith
  · have : peakOf y = 1 := by unfold peakOf; exact if_neg hy
    rw [this]
    exact (peakOf_range hx).1

/-- C145, refuted for continuity: the formula is cut off above one, so the peakedness jumps at the limit of its range. -/
theorem C145_peakfact_jump_refuted : 1.018 < peakOf 5.14285714285714 ∧ ∀ x, 5.14285714285714 < x → peakOf x = 1 := by
  refine ⟨?_, fun x hx => by unfold peakOf; exact if_neg (not_le.2 hx)⟩
  unfold peakOf
  rw [if_pos le_rfl]
  refine lt_min ?_ (by norm_num)
  refine lt_of_lt_of_le ?_ (add_one_le_exp _)
  norm_num

theorem jonsGamma_ge (a : JonsArgs) (hT : 0 ≤ a.Tp) : 1 ≤ jonsGamma a := by
  unfold jonsGamma
  rcases a.gamma with _ | g
  · exact (C145_peakfact_range _ _ hT).1
  · simp only
    split_ifs with h
    · exact (C145_peakfact_range _ _ hT).1
    · exact not_lt.1 h

theorem mk'_fields {a : JonsArgs} {s : Jons} (h : Jons.mk' a = .ok s) :
    s.Hm0 = a.Hm0 ∧ s.Tp = a.Tp ∧ s.gamma = jonsGamma a ∧ s.sigmaA = a.sigmaA ∧ s.sigmaB = a.sigmaB ∧ s.N = a.N ∧ s.M = a.M ∧
      s.wnc = a.wnc ∧ preAg (jonsGamma a) a = .ok (s.Ag, s.method) := by
  unfold Jons.mk' at h
  rcases hp : preAg (jonsGamma a) a with e | ⟨ag, m⟩
  · rw [hp] at h; cases h
  · rw [hp] at h
    simp only at h
    split_ifs at h with hc
    · rcases hk : chkSeastate a.Hm0 a.Tp with e | u
      · rw [hk] at h; cases h
      · rw [hk] at h
        simp only [Except.ok.injEq] at h
        subst h
        exact ⟨rfl, rfl, rfl, rfl, rfl, rfl, rfl, rfl, rfl⟩
    · simp only [Except.ok.injEq] at h
      subst h
      exact ⟨rfl, rfl, rfl, rfl, rfl, rfl, rfl, rfl, rfl⟩

theorem jons_call {s : Jons} (h : 0 < s.Hm0) (w : ℝ) :
    s.call w = (s.Hm0 / 4) ^ 2 * s.Ag / wp s.Tp * localspec s.gamma s.sigmaA s.sigmaB s.N s.M (w / wp s.Tp) := by
  unfold Jons.call localspec
  rw [if_pos h]
  show (s.Hm0 / 4) ^ 2 / wp s.Tp * s.Ag * _ * _ = _
  simp only [wp]
  ring

/-- C145.  With peakedness one the spectrum is the Bretschneider spectrum, whatever the other arguments. -/
theorem C145_gamma_one (a : JonsArgs) (ha : a.gamma = some 1) (s : Jons) (h : Jons.mk' a = .ok s) (w : ℝ) :
    s.call w = Bret.call ⟨a.Hm0, a.Tp, a.N, a.M⟩ w := by
  obtain ⟨h1, h2, h3, h4, h5, h6, h7, h8, h9⟩ := mk'_fields h
  have hg : jonsGamma a = 1 := by simp [jonsGamma, ha]
  rw [hg] at h9 h3
  unfold preAg at h9
  rw [if_pos rfl] at h9
  simp only [Except.ok.injEq, Prod.mk.injEq] at h9
  unfold Jons.call Bret.call
  rw [h1, h2, h3, h6, h7, ← h9.1]
  simp only [peakE_gamma_one, mul_one]

/-- C145.  Peakedness one is accepted for every valid sea state, whatever the normalisation asked for. -/
theorem C145_gamma_one_ok (a : JonsArgs) (ha : a.gamma = some 1) (hH : 0 ≤ a.Hm0) (hT : 0 < a.Tp) : ∃ s, Jons.mk' a = .ok s := by
  have hg : jonsGamma a = 1 := by simp [jonsGamma, ha]
  unfold Jons.mk' preAg
  rw [hg, if_pos rfl, chk_ok hH hT]
  simp only
  split_ifs <;> exact ⟨_, rfl⟩

theorem integral_add {g sa sb N M c : ℝ} (hg : 1 ≤ g) (h : Shape N M) (hc : 1 ≤ c) :
    (∫ u in (0 : ℝ)..1, localspec g sa sb N M u) + ∫ u in (1 : ℝ)..c, localspec g sa sb N M u = ∫ u in (0 : ℝ)..c, localspec g sa sb N M u := by
  have hi := localspec_integrable (sa := sa) (sb := sb) hg h
  apply intervalIntegral.integral_add_adjacent_intervals
  · rw [intervalIntegrable_iff_integrableOn_Ioc_of_le zero_le_one]
    exact hi.mono_set Ioc_subset_Ioi_self
  · rw [intervalIntegrable_iff_integrableOn_Ioc_of_le hc]
    exact hi.mono_set fun x hx => lt_trans one_pos hx.1

/-- The normalisation by integration. -/
theorem ag_integration {a : JonsArgs} {s : Jons} (h : Jons.mk' a = .ok s) (hm : s.method = .integration) (hT : 0 ≤ a.Tp) (hS : Shape a.N a.M) :
    1 < s.gamma ∧ 1 ≤ s.wnc ∧ s.Ag * (∫ u in (0 : ℝ)..s.wnc, localspec s.gamma s.sigmaA s.sigmaB s.N s.M u) = 1 := by
  obtain ⟨h1, h2, h3, h4, h5, h6, h7, h8, h9⟩ := mk'_fields h
  have hg := jonsGamma_ge a hT
  unfold preAg at h9
  by_cases hg1 : jonsGamma a = 1
  · rw [if_pos hg1] at h9
    simp only [Except.ok.injEq, Prod.mk.injEq] at h9
    rw [hm] at h9; exact absurd h9.2 (by decide)
  · rw [if_neg hg1] at h9
    have hlt : 1 < jonsGamma a := lt_of_le_of_ne hg (Ne.symm hg1)
    rw [h3]
    refine ⟨hlt, ?_⟩
    rcases hA : a.Ag with _ | v
    · rw [hA] at h9
      simp only at h9
      rcases hmm : methodOf a.method with e | m
      · rw [hmm] at h9; cases h9
      · rw [hmm] at h9
        cases m with
        | integration =>
          simp only [integrateAg] at h9
          by_cases hw : a.wnc < 1
          · rw [if_pos hw] at h9; cases h9
          · rw [if_neg hw] at h9
            simp only [Except.map, Except.ok.injEq, Prod.mk.injEq] at h9
            rw [integral_add hg hS (not_lt.1 hw)] at h9
            rw [h8, h4, h5, h6, h7, ← h9.1]
            refine ⟨not_lt.1 hw, ?_⟩
            have := (localspec_cut (sa := a.sigmaA) (sb := a.sigmaB) hg hS (by linarith [not_lt.1 hw] : 0 < a.wnc)).1
            field_simp
        | parametric =>
          rcases hpa : parametricAg (jonsGamma a) a.N a.M with e | v
          · rw [hpa] at h9; cases h9
          · rw [hpa] at h9
            simp only [Except.map, Except.ok.injEq, Prod.mk.injEq] at h9
            rw [hm] at h9; exact absurd h9.2 (by decide)
        | custom => simp only [customAg, Except.map] at h9; cases h9
    · rw [hA] at h9
      simp only [customAg] at h9
      split_ifs at h9
      · cases h9
      · simp only [Except.map, Except.ok.injEq, Prod.mk.injEq] at h9
        rw [hm] at h9; exact absurd h9.2 (by decide)

/-- C146.  Normalisation by integration: the energy up to the cut-off frequency `wnc*wp` is `Hm0^2/16`. -/
theorem C146_energy_to_cutoff (a : JonsArgs) (s : Jons) (h : Jons.mk' a = .ok s) (hm : s.method = .integration) (hH : 0 ≤ a.Hm0)
    (hT : 0 < a.Tp) (hS : Shape a.N a.M) : ∫ w in (0 : ℝ)..(s.wnc * (2 * π / a.Tp)), s.call w = a.Hm0 ^ 2 / 16 := by
  obtain ⟨hg, hw, hag⟩ := ag_integration h hm hT.le hS
  obtain ⟨h1, h2, -⟩ := mk'_fields h
  rcases hH.eq_or_lt with h0 | h0
  · have : s.call = fun _ => 0 := by
      funext w
      unfold Jons.call
      exact if_neg (by rw [h1, ← h0]; exact lt_irrefl _)
    rw [this, ← h0]
    simp
  · have e : s.call = fun w => (s.Hm0 / 4) ^ 2 * s.Ag / wp s.Tp * localspec s.gamma s.sigmaA s.sigmaB s.N s.M (w / wp s.Tp) := by
      funext w
      exact jons_call (by rw [h1]; exact h0) w
    rw [e, intervalIntegral.integral_const_mul]
    have hp : 0 < wp s.Tp := wp_pos (by rw [h2]; exact hT)
    have := intervalIntegral.integral_comp_div (a := 0) (b := s.wnc * (2 * π / a.Tp)) (fun u => localspec s.gamma s.sigmaA s.sigmaB s.N s.M u) hp.ne'
    rw [this]
    have e2 : s.wnc * (2 * π / a.Tp) / wp s.Tp = s.wnc := by
      rw [← h2]
      show s.wnc * wp s.Tp / wp s.Tp = _
      field_simp
    rw [e2, zero_div, smul_eq_mul, h1]
    have : (a.Hm0 / 4) ^ 2 * s.Ag / wp s.Tp * (wp s.Tp * ∫ u in (0 : ℝ)..s.wnc, localspec s.gamma s.sigmaA s.sigmaB s.N s.M u)
        = (a.Hm0 / 4) ^ 2 * (s.Ag * ∫ u in (0 : ℝ)..s.wnc, localspec s.gamma s.sigmaA s.sigmaB s.N s.M u) := by
      field_simp
    rw [this, hag]
    ring

/-- The energy of a Jonswap spectrum. -/
theorem jons_energy {s : Jons} (hH : 0 < s.Hm0) (hT : 0 < s.Tp) :
    ∫ w in Ioi (0 : ℝ), s.call w = (s.Hm0 / 4) ^ 2 * s.Ag * ∫ u in Ioi (0 : ℝ), localspec s.gamma s.sigmaA s.sigmaB s.N s.M u := by
  rw [← scale_integral _ _ _ (wp_pos hT)]
  exact setIntegral_congr_fun measurableSet_Ioi fun w _ => jons_call hH w

/-- C146, refuted for the whole frequency axis: normalised by integration, the spectrum has more energy than `Hm0^2/16`, for every
sea state and every cut-off. -/
theorem C146_energy_refuted (a : JonsArgs) (s : Jons) (h : Jons.mk' a = .ok s) (hm : s.method = .integration) (hH : 0 < a.Hm0)
    (hT : 0 < a.Tp) (hS : Shape a.N a.M) : a.Hm0 ^ 2 / 16 < ∫ w in Ioi (0 : ℝ), s.call w := by
  obtain ⟨hg, hw, hag⟩ := ag_integration h hm hT.le hS
  obtain ⟨h1, h2, h3, h4, h5, h6, h7, h8, h9⟩ := mk'_fields h
  rw [jons_energy (by rw [h1]; exact hH) (by rw [h2]; exact hT)]
  have hS' : Shape s.N s.M := by rw [h6, h7]; exact hS
  obtain ⟨c1, c2⟩ := localspec_cut (sa := s.sigmaA) (sb := s.sigmaB) hg.le hS' (by linarith : 0 < s.wnc)
  have hpos : 0 < s.Ag := by
    by_contra hc
    have := mul_nonpos_of_nonpos_of_nonneg (not_lt.1 hc) c1.le
    linarith
  have h3 : s.Ag * (∫ u in (0 : ℝ)..s.wnc, localspec s.gamma s.sigmaA s.sigmaB s.N s.M u) < s.Ag * ∫ u in Ioi (0 : ℝ), localspec s.gamma s.sigmaA s.sigmaB s.N s.M u :=
    mul_lt_mul_of_pos_left c2 hpos
  rw [hag] at h3
  rw [h1, mul_assoc]
  have : 0 < (a.Hm0 / 4) ^ 2 := by positivity
  nlinarith

/-- C146.  In general the energy is `Hm0^2/16` times the normalisation `Ag` times a factor that is one for peakedness one and lies
between one and the peakedness otherwise. -/
theorem C146_energy (a : JonsArgs) (s : Jons) (h : Jons.mk' a = .ok s) (hH : 0 ≤ a.Hm0) (hT : 0 < a.Tp) (hS : Shape a.N a.M) :
    ∃ I, ∫ w in Ioi (0 : ℝ), s.call w = a.Hm0 ^ 2 / 16 * s.Ag * I ∧ 1 ≤ I ∧ I ≤ s.gamma ∧ (1 < s.gamma → 1 < I) := by
  obtain ⟨h1, h2, h3, h4, h5, h6, h7, h8, h9⟩ := mk'_fields h
  have hg : 1 ≤ s.gamma := by rw [h3]; exact jonsGamma_ge a hT.le
  have hS' : Shape s.N s.M := by rw [h6, h7]; exact hS
  refine ⟨∫ u in Ioi (0 : ℝ), localspec s.gamma s.sigmaA s.sigmaB s.N s.M u, ?_, ?_, localspec_le hg hS', fun hlt => one_lt_localspec hlt hS'⟩
  · rcases hH.eq_or_lt with h0 | h0
    · have : s.call = fun _ => 0 := by
        funext w
        unfold Jons.call
        exact if_neg (by rw [h1, ← h0]; exact lt_irrefl _)
      rw [this, ← h0]
      simp
    · rw [jons_energy (by rw [h1]; exact h0) (by rw [h2]; exact hT), h1]
      ring
  · rcases hg.eq_or_lt with h0 | h0
    · have : localspec s.gamma s.sigmaA s.sigmaB s.N s.M = gengam s.N s.M := by
        funext w
        rw [localspec, ← h0, peakE_gamma_one, one_mul]
      rw [this, gengam_integral hS']
    · exact (one_lt_localspec h0 hS').le

/-- C146.  The only maximum is at `2*pi/Tp`, provided the normalisation is positive. -/
theorem C146_peak (a : JonsArgs) (s : Jons) (h : Jons.mk' a = .ok s) (hH : 0 < a.Hm0) (hT : 0 < a.Tp) (hN : 0 < a.N) (hM : 0 < a.M)
    (hA : 0 < s.Ag) : (∀ w, 0 ≤ s.call w) ∧ (∀ w, w ≤ 0 → s.call w = 0) ∧ ∀ w, w ≠ 2 * π / a.Tp → s.call w < s.call (2 * π / a.Tp) := by
  obtain ⟨h1, h2, h3, h4, h5, h6, h7, h8, h9⟩ := mk'_fields h
  have hg : 1 ≤ s.gamma := by rw [h3]; exact jonsGamma_ge a hT.le
  have hH' : 0 < s.Hm0 := by rw [h1]; exact hH
  have hp : 0 < wp s.Tp := wp_pos (by rw [h2]; exact hT)
  have ha : 0 < (s.Hm0 / 4) ^ 2 * s.Ag / wp s.Tp := by positivity
  refine ⟨fun w => ?_, fun w hw => ?_, fun w hw => ?_⟩
  · rw [jons_call hH']; exact mul_nonneg ha.le (localspec_nonneg hg _)
  · rw [jons_call hH', localspec, gengam_nonpos _ _ _ (div_nonpos_of_nonpos_of_nonneg hw hp.le)]; ring
  · rw [← h2] at hw ⊢
    rw [jons_call hH', jons_call hH', show 2 * π / s.Tp = wp s.Tp from rfl, div_self hp.ne']
    refine mul_lt_mul_of_pos_left (localspec_lt_peak hg (by rw [h6]; exact hN) (by rw [h7]; exact hM) _ ?_) ha
    intro hc
    exact hw ((div_eq_one_iff_eq hp.ne').1 hc)

/-- C146.  The normalisation is positive, whichever way it is computed (for the parametric formula: in its range, where the base of
its power is positive). -/
theorem C146_normalisation_positive (a : JonsArgs) (s : Jons) (h : Jons.mk' a = .ok s) (hT : 0 < a.Tp) (hS : Shape a.N a.M)
    (hb : s.method = .parametric → 0 < a.N - 2 * a.M ^ (0.28 : ℝ) + 5.3) : 0 < s.Ag := by
  obtain ⟨h1, h2, h3, h4, h5, h6, h7, h8, h9⟩ := mk'_fields h
  have hg := jonsGamma_ge a hT.le
  unfold preAg at h9
  by_cases hg1 : jonsGamma a = 1
  · rw [if_pos hg1] at h9
    simp only [Except.ok.injEq, Prod.mk.injEq] at h9
    rw [← h9.1]; exact one_pos
  · rw [if_neg hg1] at h9
    rcases hA : a.Ag with _ | v
    · rw [hA] at h9
      simp only at h9
      rcases hmm : methodOf a.method with e | m
      · rw [hmm] at h9; cases h9
      · rw [hmm] at h9
        cases m with
        | integration =>
          simp only [integrateAg] at h9
          by_cases hw : a.wnc < 1
          · rw [if_pos hw] at h9; cases h9
          · rw [if_neg hw] at h9
            simp only [Except.map, Except.ok.injEq, Prod.mk.injEq] at h9
            rw [integral_add hg hS (not_lt.1 hw)] at h9
            rw [← h9.1]
            have := (localspec_cut (sa := a.sigmaA) (sb := a.sigmaB) hg hS (by linarith [not_lt.1 hw] : 0 < a.wnc)).1
            positivity
        | parametric =>
          simp only [parametricAg] at h9
          split_ifs at h9
          · simp only [Except.map, Except.ok.injEq, Prod.mk.injEq] at h9
            have hb' := hb h9.2.symm
            rw [← h9.1]
            have hl : 0 ≤ log (jonsGamma a) := log_nonneg hg
            refine div_pos ?_ (by linarith)
            have := rpow_pos_of_pos hb' (-1.45 * a.M ^ (0.1 : ℝ) + 0.96)
            have h2 := rpow_nonneg hl ((2.2 * a.M ^ (-3.3 : ℝ) + 0.57) * a.N ^ (-0.58 * a.M ^ (0.37 : ℝ) + 0.53) - 1.04 * a.M ^ (-1.9 : ℝ) + 0.94)
            positivity
          · cases h9
        | custom => simp only [customAg, Except.map] at h9; cases h9
    · rw [hA] at h9
      simp only [customAg] at h9
      split_ifs at h9 with hv
      · cases h9
      · simp only [Except.map, Except.ok.injEq, Prod.mk.injEq] at h9
        rw [← h9.1]; exact not_le.1 hv

/-- The defaults give a spectrum normalised by integration. -/
theorem C146_default (Hm0 Tp : ℝ) (g : ℝ) (hg : 1 < g) (hH : 0 ≤ Hm0) (hT : 0 < Tp) :
    ∃ s, Jons.mk' { Hm0 := Hm0, Tp := Tp, gamma := some g } = .ok s ∧ s.method = .integration ∧ s.gamma = g ∧ s.wnc = 6 := by
  have e : jonsGamma { Hm0 := Hm0, Tp := Tp, gamma := some g } = g := by simp [jonsGamma, not_lt.2 hg.le]
  have hm : methodOf "integration" = .ok .integration := by rfl
  have hw : ¬ (6 : ℝ) < 1 := by norm_num
  unfold Jons.mk' preAg
  rw [e, if_neg hg.ne', chk_ok hH hT]
  simp only [hm, integrateAg, if_neg hw, Except.map]
  exact ⟨_, rfl, rfl, rfl, rfl⟩

/-- C147.  Arguments that are rejected, for a peakedness above one. -/
theorem C147_rejected (a : JonsArgs) (hg : jonsGamma a ≠ 1) :
    (∀ v, a.Ag = some v → v ≤ 0 → Jons.mk' a = .error .valueError) ∧
    (a.Ag = none → methodOf a.method = .ok .integration → a.wnc < 1 → Jons.mk' a = .error .valueError) ∧
    (a.Ag = none → methodOf a.method = .ok .custom → Jons.mk' a = .error .typeError) ∧
    (a.Ag = none → ∀ e, methodOf a.method = .error e → Jons.mk' a = .error e) := by
  refine ⟨fun v h1 h2 => ?_, fun h1 h2 h3 => ?_, fun h1 h2 => ?_, fun h1 e h2 => ?_⟩
  · unfold Jons.mk' preAg
    rw [if_neg hg, h1]
    simp only [customAg, if_pos h2, Except.map]
  · unfold Jons.mk' preAg
    rw [if_neg hg, h1]
    simp only [h2, integrateAg, if_pos h3, Except.map]
  · unfold Jons.mk' preAg
    rw [if_neg hg, h1]
    simp only [h2, customAg, Except.map]
  · unfold Jons.mk' preAg
    rw [if_neg hg, h1]
    simp only [h2]

example : methodOf "custom" = .ok .custom ∧ methodOf "xyz" = .error .keyError ∧ methodOf "" = .error .indexError := ⟨rfl, rfl, rfl⟩

/-- C147.  The first letter of the method decides; other letters and the empty name are rejected. -/
theorem C147_method (s : String) :
    (methodOf s = .ok .integration ↔ s.toList.head? = some 'i') ∧ (methodOf s = .ok .parametric ↔ s.toList.head? = some 'p') ∧
    (methodOf s = .ok .custom ↔ s.toList.head? = some 'c') ∧ (methodOf s = .error .indexError ↔ s.toList = []) := by
  unfold methodOf
  rcases s.toList with _ | ⟨c, l⟩
  · simp
  · by_cases h1 : c = 'i'
    · simp [h1]
    · by_cases h2 : c = 'p'
      · simp [h2]
      · by_cases h3 : c = 'c' <;> simp [h1, h2, h3]

/-- C147, refuted: the parametric normalisation is only known for 3 <= N <= 50, 2 <= M <= 9.5 and 1 <= gamma <= 20, but any `M` and
any `gamma` are accepted as long as `N` is in its range. -/
theorem C147_parametric_refuted (g N M : ℝ) (hN : 3 ≤ N ∧ N ≤ 50) : ∃ v, parametricAg g N M = .ok v := by
  unfold parametricAg
  exact ⟨_, if_pos (Or.inl hN)⟩

/-- C147.  Outside the range of `N`, the limits for `M` and `gamma` are respected. -/
theorem C147_parametric_partial (g N M : ℝ) (hN : ¬ (3 ≤ N ∧ N ≤ 50)) (h : ¬ (2 ≤ M ∧ M ≤ 9.5) ∨ ¬ (1 ≤ g ∧ g ≤ 20)) :
    parametricAg g N M = .error .valueError := by
  unfold parametricAg
  refine if_neg ?_
  rintro (h' | h')
  · exact hN h'
  · rcases h with h | h
    · exact h h'.1
    · exact h h'.2

example : ∃ v, parametricAg 1000 5 100 = .ok v := C147_parametric_refuted 1000 5 100 (by norm_num)

end Wafo.Spec
