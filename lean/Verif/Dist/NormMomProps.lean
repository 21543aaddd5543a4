import Verif.Dist.NormProps4
import Verif.Dist.NormMomLemmas
import Verif.Dist.MomGammaProps

/-!
# C265: the reported moments of the normal family

Mean, variance, skewness and excess kurtosis returned by `_stats` are those of the density.
-/

namespace Wafo.Dist

open MeasureTheory Set Filter Topology Real Wafo.Gauss

set_option linter.unusedSectionVars false

theorem hasMoment_zero {I : Set ℝ} {pdf cdf : ℝ → ℝ} (h : IsCdf I pdf cdf) : HasMoment I pdf 0 1 := by
  refine ⟨?_, ?_⟩
  · simpa using h.integrable
  · simpa using h.total

/-! ### Normal -/

theorem C265_norm : HasStats univ Norm.pdf Norm.stats := by
  have hm : ∀ n, HasMoment univ Norm.pdf n (nmom n) := fun n =>
    (hasInt_nmom n).congr MeasurableSet.univ (fun x _ => by rw [norm_pdf_eq]) rfl
  have h2 : nmom 2 = 1 := by norm_num [nmom]
  have h4 : nmom 4 = 3 := by norm_num [nmom]
  refine hasStats_of_raw MeasurableSet.univ (fun x _ => by rw [norm_pdf_eq]; exact (phi_pos x).le)
    (hm 0) (hm 1) (hm 2) (hm 3) (hm 4) ?_ ?_ ?_
  · norm_num [nmom]
  · intro _
    norm_num [nmom]
  · intro _
    norm_num [nmom]

/-! ### Log-normal -/

theorem lognorm_moment {s : ℝ} (hs : 0 < s) (n : ℕ) :
    HasMoment (Ioi 0) (LogNorm.pdf s) n (exp (s * s) ^ ((n : ℝ) ^ 2 / 2)) := by
  refine NormTr.expect measurableSet_Ioi (lognorm_tr hs) (k := fun x => x ^ n)
    ((hasInt_exp_phi (n * s)).congr MeasurableSet.univ (fun y _ => ?_) ?_)
  · rw [← exp_nat_mul, mul_assoc]
  · rw [← exp_mul]
    congr 1
    ring

/-- `lognorm`: the raw moments, all orders. -/
theorem C265_lognorm_raw (s : ℝ) (hs : 0 < s) (n : ℕ) :
    HasMoment (Ioi 0) (LogNorm.pdf s) n (exp ((n * s) ^ 2 / 2)) := by
  have h := lognorm_moment hs n
  rwa [← exp_mul, show s * s * ((n : ℝ) ^ 2 / 2) = (n * s) ^ 2 / 2 by ring] at h

theorem C265_lognorm (s : ℝ) (hs : 0 < s) : HasStats (Ioi 0) (LogNorm.pdf s) (LogNorm.stats s) := by
  have hp : 0 < exp (s * s) := exp_pos _
  have hr := lognorm_moment hs
  have h1 := hr 1
  have h2 := hr 2
  have h3 := hr 3
  have h4 := hr 4
  have hn : ∀ x ∈ Ioi (0 : ℝ), 0 ≤ LogNorm.pdf s x := fun x _ => (exp_pos _).le
  have h0 : HasMoment (Ioi 0) (LogNorm.pdf s) 0 1 := by
    have := hr 0
    simpa using this
  have hpe : exp (s * s) = √(exp (s * s)) ^ 2 := (sq_sqrt hp.le).symm
  rw [Nat.cast_one, one_pow, ← sqrt_eq_rpow] at h1
  rw [show ((2 : ℕ) : ℝ) ^ 2 / 2 = (2 : ℕ) by norm_num, rpow_natCast] at h2
  rw [show ((3 : ℕ) : ℝ) ^ 2 / 2 = (4 : ℕ) + 1 / 2 by norm_num, rpow_add hp, rpow_natCast,
    ← sqrt_eq_rpow] at h3
  rw [show ((4 : ℕ) : ℝ) ^ 2 / 2 = (8 : ℕ) by norm_num, rpow_natCast] at h4
  refine hasStats_of_raw measurableSet_Ioi hn h0 h1 h2 h3 h4 ?_ ?_ ?_
  · generalize √(exp (s * s)) = w at *
    rw [hpe]
    ring
  · intro hv
    have hp1 : 0 < exp (s * s) - 1 := by
      rcases pos_and_pos_or_neg_and_neg_of_mul_pos hv with h | h
      · exact h.2
      · linarith [h.1]
    have hu : √(exp (s * s) - 1) ^ 2 = exp (s * s) - 1 := sq_sqrt hp1.le
    rw [rpow_threehalf hv.le, sqrt_mul hp.le]
    generalize √(exp (s * s) - 1) = u at *
    generalize √(exp (s * s)) = w at *
    rw [hpe] at hu ⊢
    linear_combination ((2 + w ^ 2) * w ^ 2 * (w ^ 2 - 1) * w) * hu
  · intro _
    generalize √(exp (s * s)) = w at *
    rw [hpe]
    ring

example : (0 : ℝ) < 1 / 2 ∧ (LogNorm.stats (1 / 2)).1 = exp (1 / 8) := by
  refine ⟨by norm_num, ?_⟩
  simp only [LogNorm.stats]
  rw [sqrt_eq_rpow, ← exp_mul]
  norm_num

theorem C265_gilbrat : HasStats (Ioi 0) Gilbrat.pdf Gilbrat.stats := by
  have h := C265_lognorm 1 one_pos
  have e : LogNorm.stats 1 = Gilbrat.stats := by
    simp only [LogNorm.stats, Gilbrat.stats, mul_one]
  rw [e] at h
  exact h

/-! ### Folded normal -/

theorem hasInt_shift {b : ℝ} {F : ℝ → ℝ} {v : ℝ} (h : HasInt (Ioi b) F v) :
    HasInt (Ioi 0) (fun x => F (x + b)) v := by
  have hp : (fun x : ℝ => x + b) ⁻¹' Ioi b = Ioi 0 := by
    ext x
    simp
  have h1 := (measurePreserving_add_right volume b).setIntegral_preimage_emb
    (measurableEmbedding_addRight b) F (Ioi b)
  have h2 := (measurePreserving_add_right volume b).integrableOn_comp_preimage
    (measurableEmbedding_addRight b) (f := F) (s := Ioi b)
  rw [hp] at h1 h2
  exact ⟨h2.2 h.1, h1.trans h.2⟩

/-- The moments of the density of the normal distribution with mean `-b` on the positive axis. -/
theorem half_moments (b : ℝ) :
    HasInt (Ioi 0) (fun x => x ^ 1 * phi (x + b)) (phi b - b * (1 - Phi b)) ∧
    HasInt (Ioi 0) (fun x => x ^ 2 * phi (x + b)) ((1 + b ^ 2) * (1 - Phi b) - b * phi b) ∧
    HasInt (Ioi 0) (fun x => x ^ 3 * phi (x + b))
      ((b ^ 2 + 2) * phi b - (b ^ 3 + 3 * b) * (1 - Phi b)) ∧
    HasInt (Ioi 0) (fun x => x ^ 4 * phi (x + b))
      ((b ^ 4 + 6 * b ^ 2 + 3) * (1 - Phi b) - (b ^ 3 + 5 * b) * phi b) := by
  have t0 := tail_zero b
  have t1 := tail_one b
  have t2 := tail_succ t0
  have t3 := tail_succ t1
  have t4 := tail_succ t2
  refine ⟨?_, ?_, ?_, ?_⟩
  · exact (hasInt_shift ((t1.add (t0.const_mul (-b))).congr measurableSet_Ioi
      (g := fun y => (y - b) ^ 1 * phi y) (fun y _ => by ring) rfl)).congr measurableSet_Ioi
      (fun x _ => by rw [add_sub_cancel_right]) (by ring)
  · exact (hasInt_shift (((t2.add (t1.const_mul (-2 * b))).add (t0.const_mul (b ^ 2))).congr
      measurableSet_Ioi (g := fun y => (y - b) ^ 2 * phi y) (fun y _ => by ring) rfl)).congr
      measurableSet_Ioi (fun x _ => by rw [add_sub_cancel_right]) (by push_cast; ring)
  · exact (hasInt_shift ((((t3.add (t2.const_mul (-3 * b))).add (t1.const_mul (3 * b ^ 2))).add
      (t0.const_mul (-b ^ 3))).congr
      measurableSet_Ioi (g := fun y => (y - b) ^ 3 * phi y) (fun y _ => by ring) rfl)).congr
      measurableSet_Ioi (fun x _ => by rw [add_sub_cancel_right]) (by push_cast; ring)
  · exact (hasInt_shift (((((t4.add (t3.const_mul (-4 * b))).add (t2.const_mul (6 * b ^ 2))).add
      (t1.const_mul (-4 * b ^ 3))).add (t0.const_mul (b ^ 4))).congr
      measurableSet_Ioi (g := fun y => (y - b) ^ 4 * phi y) (fun y _ => by ring) rfl)).congr
      measurableSet_Ioi (fun x _ => by rw [add_sub_cancel_right]) (by push_cast; ring)

theorem erf_eq (x : ℝ) : erf (x / √2) = 2 * Phi x - 1 := by
  rw [erf, erfc_eq, mul_div_cancel₀ _ (by positivity : √2 ≠ 0), Phi_neg]
  ring

theorem fold_moments (c : ℝ) :
    HasMoment (Ioi 0) (FoldNorm.pdf c) 1 (2 * phi c + c * (2 * Phi c - 1)) ∧
    HasMoment (Ioi 0) (FoldNorm.pdf c) 2 (1 + c ^ 2) ∧
    HasMoment (Ioi 0) (FoldNorm.pdf c) 3 ((3 + c ^ 2) * (2 * phi c + c * (2 * Phi c - 1)) - 2 * phi c) ∧
    HasMoment (Ioi 0) (FoldNorm.pdf c) 4 (c ^ 4 + 6 * c ^ 2 + 3) := by
  obtain ⟨a1, a2, a3, a4⟩ := half_moments c
  obtain ⟨b1, b2, b3, b4⟩ := half_moments (-c)
  have hf : ∀ n : ℕ, ∀ x ∈ Ioi (0 : ℝ), x ^ n * FoldNorm.pdf c x
      = x ^ n * phi (x + c) + x ^ n * phi (x + -c) := fun n x _ => by
    rw [FoldNorm.pdf, norm_pdf_eq, norm_pdf_eq, sub_eq_add_neg]
    ring
  refine ⟨(a1.add b1).congr measurableSet_Ioi (hf 1) ?_, (a2.add b2).congr measurableSet_Ioi (hf 2) ?_,
    (a3.add b3).congr measurableSet_Ioi (hf 3) ?_, (a4.add b4).congr measurableSet_Ioi (hf 4) ?_⟩ <;>
  · rw [phi_neg, Phi_neg]
    ring

theorem C265_foldnorm (c : ℝ) : HasStats (Ioi 0) (FoldNorm.pdf c) (FoldNorm.stats c) := by
  have hC := C263_foldnorm c
  obtain ⟨h1, h2, h3, h4⟩ := fold_moments c
  have he : exp (-0.5 * (c * c)) / √(2 * π) = phi c := by
    rw [phi, show -0.5 * (c * c) = -c ^ 2 / 2 by ring]
    ring
  have hst : FoldNorm.stats c = FoldNorm.stats c := rfl
  simp only [FoldNorm.stats] at hst ⊢
  rw [he, erf_eq]
  refine hasStats_of_raw measurableSet_Ioi hC.nonneg (hasMoment_zero hC) h1 h2 h3 h4 ?_ ?_ ?_
  · ring
  · intro hv
    rw [onehalf_eq, div_mul_cancel₀ _ (rpow_pos_of_pos hv _).ne']
    ring
  · intro hv
    rw [sub_add_cancel, div_mul_cancel₀ _ (pow_pos hv 2).ne']
    ring

example : (FoldNorm.stats 0).1 = 2 / √(2 * π) := by
  norm_num [FoldNorm.stats]
  ring

/-! ### Half normal -/

theorem C265_halfnorm : HasStats (Ioi 0) HalfNorm.pdf HalfNorm.stats := by
  obtain ⟨h1, h2, h3, h4⟩ := fold_moments 0
  have hp : ∀ x, FoldNorm.pdf 0 x = HalfNorm.pdf x := by
    intro x
    rw [FoldNorm.pdf, add_zero, sub_zero, norm_pdf_eq, HalfNorm.pdf, phi, sqrt_div zero_le_two,
      sqrt_mul zero_le_two, show -x * x / 2 = -x ^ 2 / 2 by ring]
    have h2 : √2 * √2 = 2 := mul_self_sqrt zero_le_two
    have h3 : 0 < √π := sqrt_pos.2 pi_pos
    field_simp
    linarith
  have hpe : FoldNorm.pdf 0 = HalfNorm.pdf := funext hp
  have hC := C263_foldnorm 0
  rw [hpe] at h1 h2 h3 h4 hC
  have hpi := pi_pos
  have hphi : 2 * phi 0 = √(2 / π) := by
    have := hp 0
    rw [FoldNorm.pdf, add_zero, sub_zero, norm_pdf_eq, HalfNorm.pdf] at this
    rw [two_mul, this]
    norm_num
  have hq : √(2 / π) ^ 2 = 2 / π := sq_sqrt (by positivity)
  have e1 : 2 * phi 0 + 0 * (2 * Phi 0 - 1) = √(2 / π) := by rw [hphi]; ring
  rw [e1] at h1 h3
  refine hasStats_of_raw measurableSet_Ioi hC.nonneg (hasMoment_zero hC) h1 h2 h3 h4 ?_ ?_ ?_
  · rw [hq]
    ring
  · intro hv
    rw [hphi, onehalf_eq]
    have hw : 1 - 2 / π = (π - 2) / π := by field_simp
    have hv2 : 0 < π - 2 := by
      rw [hw] at hv
      exact (div_pos_iff_of_pos_right hpi).1 hv
    rw [hw, div_rpow hv2.le hpi.le, rpow_threehalf hpi.le, sqrt_div zero_le_two]
    have hs : √π ^ 2 = π := sq_sqrt hpi.le
    have h2 : √2 ^ 2 = 2 := sq_sqrt zero_le_two
    have hsp : 0 < √π := sqrt_pos.2 hpi
    have hx := rpow_pos_of_pos hv2 (3 / 2)
    generalize √2 = a at *
    generalize √π = b at *
    generalize (π - 2) ^ (3 / 2 : ℝ) = y at *
    rw [← hs] at *
    field_simp
    linear_combination (-2 * a) * h2
  · intro hv
    rw [hphi]
    have hw : 1 - 2 / π = (π - 2) / π := by field_simp
    have hv2 : 0 < π - 2 := by
      rw [hw] at hv
      exact (div_pos_iff_of_pos_right hpi).1 hv
    have hq4 : √(2 / π) ^ 4 = 4 / π ^ 2 := by
      rw [show √(2 / π) ^ 4 = (√(2 / π) ^ 2) ^ 2 by ring, hq]
      ring
    rw [hw]
    have e : (0 : ℝ) ^ 4 + 6 * 0 ^ 2 + 3 - 4 * √(2 / π) * ((3 + 0 ^ 2) * √(2 / π) - √(2 / π))
        + 6 * √(2 / π) ^ 2 * (1 + 0 ^ 2) - 3 * √(2 / π) ^ 4
        = 3 - 2 * √(2 / π) ^ 2 - 3 * √(2 / π) ^ 4 := by ring
    rw [e, hq, hq4]
    field_simp
    ring

/-! ### Fatigue life -/

theorem hasInt_odd {f : ℝ → ℝ} (hf : ∀ x, f (-x) = -f x) (hi : Integrable f) : HasInt univ f 0 := by
  refine ⟨hi.integrableOn, ?_⟩
  rw [setIntegral_univ]
  have h := integral_neg_eq_self f volume
  simp only [hf, integral_neg] at h
  linarith

/-- Moments of the even part. -/
theorem fat_even (c : ℝ) :
    HasInt univ (fun y => (1 + 2 * (0.5 * c * y) ^ 2) ^ 1 * phi y) (1 + c ^ 2 / 2) ∧
    HasInt univ (fun y => (1 + 2 * (0.5 * c * y) ^ 2) ^ 2 * phi y) (1 + c ^ 2 + 3 * c ^ 4 / 4) ∧
    HasInt univ (fun y => (1 + 2 * (0.5 * c * y) ^ 2) ^ 3 * phi y)
      (1 + 3 * c ^ 2 / 2 + 9 * c ^ 4 / 4 + 15 * c ^ 6 / 8) ∧
    HasInt univ (fun y => (1 + 2 * (0.5 * c * y) ^ 2) ^ 4 * phi y)
      (1 + 2 * c ^ 2 + 9 * c ^ 4 / 2 + 15 * c ^ 6 / 2 + 105 * c ^ 8 / 16) := by
  have h0 := hasInt_nmom 0
  have h2 := hasInt_nmom 2
  have h4 := hasInt_nmom 4
  have h6 := hasInt_nmom 6
  have h8 := hasInt_nmom 8
  refine ⟨?_, ?_, ?_, ?_⟩
  · exact (h0.add (h2.const_mul (c ^ 2 / 2))).congr MeasurableSet.univ (fun y _ => by ring)
      (by norm_num [nmom]; try ring)
  · exact ((h0.add (h2.const_mul (c ^ 2))).add (h4.const_mul (c ^ 4 / 4))).congr MeasurableSet.univ
      (fun y _ => by ring) (by norm_num [nmom]; try ring)
  · exact (((h0.add (h2.const_mul (3 * c ^ 2 / 2))).add (h4.const_mul (3 * c ^ 4 / 4))).add
      (h6.const_mul (c ^ 6 / 8))).congr MeasurableSet.univ
      (fun y _ => by ring) (by norm_num [nmom]; try ring)
  · exact ((((h0.add (h2.const_mul (2 * c ^ 2))).add (h4.const_mul (3 * c ^ 4 / 2))).add
      (h6.const_mul (c ^ 6 / 2))).add (h8.const_mul (c ^ 8 / 16))).congr MeasurableSet.univ
      (fun y _ => by ring) (by norm_num [nmom]; try ring)

theorem fat_odd (c : ℝ) {q : ℝ → ℝ} (hq : Continuous q) (hb : ∀ a, 1 ≤ a → |q a| ≤ 8 * a ^ 3) :
    HasInt univ (fun y => 2 * (0.5 * c * y) * √(1 + (0.5 * c * y) ^ 2)
      * q (1 + 2 * (0.5 * c * y) ^ 2) * phi y) 0 := by
  obtain ⟨_, _, e3, e4⟩ := fat_even c
  refine hasInt_odd (fun y => ?_) ?_
  · rw [phi_neg, show (0.5 * c * -y) ^ 2 = (0.5 * c * y) ^ 2 by ring]
    ring
  · have hd : Integrable (fun y => 8 * ((1 + 2 * (0.5 * c * y) ^ 2) ^ 4 * phi y
        + (1 + 2 * (0.5 * c * y) ^ 2) ^ 3 * phi y)) := by
      have := ((e4.add e3).const_mul 8).1
      rwa [integrableOn_univ] at this
    have hc := continuous_phi
    refine hd.mono' (by fun_prop) (Eventually.of_forall fun y => ?_)
    have hφ := phi_pos y
    rw [norm_mul, norm_mul, norm_eq_abs, norm_eq_abs, norm_eq_abs, abs_of_pos hφ, abs_mul,
      abs_of_nonneg (sqrt_nonneg _)]
    generalize 0.5 * c * y = x
    have h1 : |2 * x| * √(1 + x ^ 2) ≤ 1 + (1 + 2 * x ^ 2) := by
      have hs : √(1 + x ^ 2) ^ 2 = 1 + x ^ 2 := sq_sqrt (by positivity)
      have hx : |x| ^ 2 = x ^ 2 := sq_abs x
      rw [abs_mul, abs_of_pos (two_pos : (0 : ℝ) < 2)]
      nlinarith [sq_nonneg (|x| - √(1 + x ^ 2))]
    have h2 := hb (1 + 2 * x ^ 2) (by nlinarith [sq_nonneg x])
    have h3 : (0 : ℝ) < 1 + 2 * x ^ 2 := by positivity
    calc |2 * x| * √(1 + x ^ 2) * |q (1 + 2 * x ^ 2)| * phi y
        ≤ (1 + (1 + 2 * x ^ 2)) * (8 * (1 + 2 * x ^ 2) ^ 3) * phi y := by gcongr
      _ = _ := by ring

theorem fat_moments {c : ℝ} (hc : 0 < c) :
    HasMoment (Ioi 0) (FatigueLife.pdf c) 1 (1 + c ^ 2 / 2) ∧
    HasMoment (Ioi 0) (FatigueLife.pdf c) 2 (2 * (1 + c ^ 2 + 3 * c ^ 4 / 4) - 1) ∧
    HasMoment (Ioi 0) (FatigueLife.pdf c) 3
      (4 * (1 + 3 * c ^ 2 / 2 + 9 * c ^ 4 / 4 + 15 * c ^ 6 / 8) - 3 * (1 + c ^ 2 / 2)) ∧
    HasMoment (Ioi 0) (FatigueLife.pdf c) 4
      (8 * (1 + 2 * c ^ 2 + 9 * c ^ 4 / 2 + 15 * c ^ 6 / 2 + 105 * c ^ 8 / 16)
        - 8 * (1 + c ^ 2 + 3 * c ^ 4 / 4) + 1) := by
  obtain ⟨e1, e2, e3, e4⟩ := fat_even c
  have e0 := hasInt_nmom 0
  have hgi : ∀ y, 0.25 * (c * y + √((c * y) ^ 2 + 4)) ^ 2 = (1 + 2 * (0.5 * c * y) ^ 2)
      + 2 * (0.5 * c * y) * √(1 + (0.5 * c * y) ^ 2) := by
    intro y
    have h1 : √((c * y) ^ 2 + 4) = 2 * √(1 + (0.5 * c * y) ^ 2) := by
      rw [show (c * y) ^ 2 + 4 = 2 ^ 2 * (1 + (0.5 * c * y) ^ 2) by ring,
        sqrt_mul (by norm_num), sqrt_sq zero_le_two]
    have h2 : √(1 + (0.5 * c * y) ^ 2) ^ 2 = 1 + (0.5 * c * y) ^ 2 := sq_sqrt (by positivity)
    rw [h1]
    generalize √(1 + (0.5 * c * y) ^ 2) = w at *
    linear_combination h2
  have hb : ∀ y, (2 * (0.5 * c * y) * √(1 + (0.5 * c * y) ^ 2)) ^ 2
      = (1 + 2 * (0.5 * c * y) ^ 2) ^ 2 - 1 := by
    intro y
    rw [mul_pow, sq_sqrt (by positivity)]
    ring
  have hp : ∀ a b : ℝ, b ^ 2 = a ^ 2 - 1 → (a + b) ^ 2 = 2 * a ^ 2 - 1 + b * (2 * a) ∧
      (a + b) ^ 3 = 4 * a ^ 3 - 3 * a + b * (4 * a ^ 2 - 1) ∧
      (a + b) ^ 4 = 8 * a ^ 4 - 8 * a ^ 2 + 1 + b * (8 * a ^ 3 - 4 * a) := by
    intro a b h
    refine ⟨by linear_combination h, by linear_combination (3 * a + b) * h, ?_⟩
    linear_combination (7 * a ^ 2 + 4 * a * b + b ^ 2 - 1) * h
  have o1 := fat_odd c (q := fun _ => 1) continuous_const (fun a ha => by
    rw [abs_one]
    nlinarith [one_le_pow₀ ha (n := 3)])
  have o2 := fat_odd c (q := fun a => 2 * a) (by fun_prop) (fun a ha => by
    rw [abs_of_nonneg (by linarith)]
    nlinarith [mul_le_mul_of_nonneg_left (one_le_pow₀ ha (n := 2)) (by linarith : (0 : ℝ) ≤ a)])
  have o3 := fat_odd c (q := fun a => 4 * a ^ 2 - 1) (by fun_prop) (fun a ha => by
    rw [abs_of_nonneg (by nlinarith)]
    nlinarith [mul_le_mul_of_nonneg_left ha (by positivity : (0 : ℝ) ≤ a ^ 2)])
  have o4 := fat_odd c (q := fun a => 8 * a ^ 3 - 4 * a) (by fun_prop) (fun a ha => by
    rw [abs_of_nonneg (by
      nlinarith [mul_le_mul_of_nonneg_left (one_le_pow₀ ha (n := 2)) (by linarith : (0 : ℝ) ≤ a)])]
    linarith)
  refine ⟨NormTr.expect measurableSet_Ioi (fatigue_tr hc) (k := fun x => x ^ 1) ?_,
    NormTr.expect measurableSet_Ioi (fatigue_tr hc) (k := fun x => x ^ 2) ?_,
    NormTr.expect measurableSet_Ioi (fatigue_tr hc) (k := fun x => x ^ 3) ?_,
    NormTr.expect measurableSet_Ioi (fatigue_tr hc) (k := fun x => x ^ 4) ?_⟩
  · refine (e1.add o1).congr MeasurableSet.univ (fun y _ => ?_) (by ring)
    rw [hgi]
    ring
  · refine (((e2.const_mul 2).add (e0.const_mul (-1))).add o2).congr MeasurableSet.univ
      (fun y _ => ?_) (by norm_num [nmom]; try ring)
    rw [hgi, (hp _ _ (hb y)).1]
    ring
  · refine (((e3.const_mul 4).add (e1.const_mul (-3))).add o3).congr MeasurableSet.univ
      (fun y _ => ?_) (by ring)
    rw [hgi, (hp _ _ (hb y)).2.1]
    ring
  · refine ((((e4.const_mul 8).add (e2.const_mul (-8))).add e0).add o4).congr MeasurableSet.univ
      (fun y _ => ?_) (by norm_num [nmom]; try ring)
    rw [hgi, (hp _ _ (hb y)).2.2]
    ring

theorem C265_fatiguelife (c : ℝ) (hc : 0 < c) :
    HasStats (Ioi 0) (FatigueLife.pdf c) (FatigueLife.stats c) := by
  obtain ⟨h1, h2, h3, h4⟩ := fat_moments hc
  have h0 : HasMoment (Ioi 0) (FatigueLife.pdf c) 0 1 :=
    NormTr.expect measurableSet_Ioi (fatigue_tr hc) (k := fun x => x ^ 0)
      ((hasInt_nmom 0).congr MeasurableSet.univ (fun y _ => by rw [pow_zero, pow_zero]) rfl)
  have hmu : c * c / 2 + 1 = 1 + c ^ 2 / 2 := by ring
  have hst : FatigueLife.stats c = FatigueLife.stats c := rfl
  simp only [FatigueLife.stats] at hst ⊢
  rw [hmu]
  have hd : 0 < 5 * (c * c) + 4 := by positivity
  refine hasStats_of_raw measurableSet_Ioi (fun x _ => (exp_pos _).le) h0 h1 h2 h3 h4 ?_ ?_ ?_
  · ring
  · intro hv
    have hs : √(c * c * (5 * (c * c) + 4) / 4) = c * √(5 * (c * c) + 4) / 2 := by
      rw [show c * c * (5 * (c * c) + 4) / 4 = (c / 2) ^ 2 * (5 * (c * c) + 4) by ring,
        sqrt_mul (by positivity), sqrt_sq (by positivity)]
      ring
    rw [rpow_threehalf hv.le, onehalf_eq, rpow_threehalf hd.le, hs]
    have hw : 0 < √(5 * (c * c) + 4) := sqrt_pos.2 hd
    field_simp
    ring
  · intro _
    field_simp
    ring

example : (0 : ℝ) < 2 ∧ (FatigueLife.stats 2).1 = 3 := ⟨two_pos, by norm_num [FatigueLife.stats]⟩

end Wafo.Dist
