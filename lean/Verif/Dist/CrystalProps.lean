import Verif.Dist.CrystalModel
import Verif.Dist.NormProps4
import Verif.Dist.GevProps
import Mathlib.Analysis.SpecialFunctions.ImproperIntegrals

/-!
# C276: moments of the crystal ball distribution
-/

set_option linter.unusedSectionVars false

namespace Wafo.Dist

open MeasureTheory Set Filter Topology Real Wafo.Gauss

namespace CrystalBall

/-- Integrals over a lower tail, reflected. -/
theorem hasInt_reflect {B c : ℝ} {f : ℝ → ℝ} {v : ℝ} :
    HasInt (Iic (B - c)) f v ↔ HasInt (Ici c) (fun y => f (B - y)) v := by
  have hp : (fun y : ℝ => B - y) ⁻¹' (Iic (B - c)) = Ici c := by
    ext y
    simp
  have hm := Measure.measurePreserving_sub_left (volume : Measure ℝ) B
  have he : MeasurableEmbedding fun y : ℝ => B - y := (Homeomorph.subLeft B).measurableEmbedding
  have h1 := hm.integrableOn_comp_preimage he (f := f) (s := Iic (B - c))
  have h2 := hm.setIntegral_preimage_emb he f (Iic (B - c))
  rw [hp] at h1 h2
  unfold HasInt
  rw [← h1, ← h2]
  rfl

theorem hasInt_Ici {c : ℝ} {f : ℝ → ℝ} {v : ℝ} : HasInt (Ici c) f v ↔ HasInt (Ioi c) f v := by
  unfold HasInt
  rw [integrableOn_Ici_iff_integrableOn_Ioi, integral_Ici_eq_integral_Ioi]

/-- The integral of a power of the variable over the power law tail. -/
theorem hasInt_lower {beta m : ℝ} (hb : 0 < beta) (hm : 1 < m) {n : ℕ} (h : (n : ℝ) + 1 < m) :
    HasInt (Iic (-beta)) (fun x => x ^ n * (m / beta - beta - x) ^ (-m))
      (∑ k ∈ Finset.range (n + 1), (n.choose k : ℝ) * (m / beta - beta) ^ (n - k) * (-1) ^ k /
        (m - k - 1) * (m / beta) ^ (-m + k + 1)) := by
  have hc : 0 < m / beta := div_pos (by linarith) hb
  rw [show -beta = (m / beta - beta) - m / beta by ring, hasInt_reflect, hasInt_Ici]
  have hk : ∀ k < n + 1, HasInt (Ioi (m / beta))
      (fun y => (n.choose k : ℝ) * (m / beta - beta) ^ (n - k) * (-1) ^ k * y ^ (-m + k))
      ((n.choose k : ℝ) * (m / beta - beta) ^ (n - k) * (-1) ^ k /
        (m - k - 1) * (m / beta) ^ (-m + k + 1)) := by
    intro k hk
    have hk' : (k : ℝ) ≤ n := by exact_mod_cast Nat.lt_succ_iff.1 hk
    have h1 : -m + k < -1 := by linarith
    have hi : HasInt (Ioi (m / beta)) (fun y => y ^ (-m + k))
        (-(m / beta) ^ (-m + k + 1) / (-m + k + 1)) :=
      ⟨integrableOn_Ioi_rpow_of_lt h1 hc, integral_Ioi_rpow_of_lt h1 hc⟩
    refine (hi.const_mul ((n.choose k : ℝ) * (m / beta - beta) ^ (n - k) * (-1) ^ k)).congr
      measurableSet_Ioi (fun y _ => rfl) ?_
    have hz : m - k - 1 ≠ 0 := by linarith
    rw [show -m + (k : ℝ) + 1 = -(m - k - 1) by ring]
    rw [neg_div_neg_eq]
    ring
  refine (GenExtreme.hasInt_sum hk).congr measurableSet_Ioi (fun y hy => ?_) rfl
  have hy0 : 0 < y := hc.trans hy
  rw [show m / beta - beta - (m / beta - beta - y) = y by ring,
    show m / beta - beta - y = (-1) * y + (m / beta - beta) by ring, add_pow, Finset.sum_mul]
  refine Finset.sum_congr rfl fun k _ => ?_
  rw [rpow_add hy0, rpow_natCast, mul_pow]
  ring

/-- The antiderivative in terms of the incomplete gamma function. -/
noncomputable def prim (n : ℕ) (x : ℝ) : ℝ :=
  2 ^ (((n : ℝ) - 1) / 2) * Gamma (((n : ℝ) + 1) / 2) * gammainc (((n : ℝ) + 1) / 2) (x ^ 2 / 2)

theorem prim_deriv (n : ℕ) {x : ℝ} (hx : 0 < x) :
    HasDerivAt (prim n) (x ^ n * exp (-x ^ 2 / 2)) x := by
  have ha : (0 : ℝ) < ((n : ℝ) + 1) / 2 := by positivity
  have hG := Gamma_pos_of_pos ha
  have h2 : (0 : ℝ) < x ^ 2 / 2 := by positivity
  have hd := gammainc_deriv ha h2
  have hq : HasDerivAt (fun x : ℝ => x ^ 2 / 2) x x := by
    refine HasDerivAt.congr_deriv ((hasDerivAt_pow 2 x).div_const 2) ?_
    norm_num
  refine HasDerivAt.congr_deriv ((hd.comp x hq).const_mul
    (2 ^ (((n : ℝ) - 1) / 2) * Gamma (((n : ℝ) + 1) / 2))) ?_
  rw [show ((n : ℝ) + 1) / 2 - 1 = ((n : ℝ) - 1) / 2 by ring, div_rpow (by positivity) (by positivity),
    ← rpow_natCast x 2, ← rpow_mul hx.le, show ((2 : ℕ) : ℝ) * (((n : ℝ) - 1) / 2) = (n : ℝ) - 1 by
      push_cast; ring, rpow_sub hx, rpow_natCast, rpow_one]
  have h3 : (0 : ℝ) < 2 ^ (((n : ℝ) - 1) / 2) := by positivity
  rw [show -x ^ ((2 : ℕ) : ℝ) / 2 = -(x ^ ((2 : ℕ) : ℝ) / 2) by ring]
  field_simp

theorem prim_cont (n : ℕ) : Continuous (prim n) := by
  have ha : (0 : ℝ) < ((n : ℝ) + 1) / 2 := by positivity
  have := gammainc_continuous ha
  unfold prim
  fun_prop

theorem prim_zero (n : ℕ) : prim n 0 = 0 := by
  simp [prim, gammainc_zero]

theorem prim_lim (n : ℕ) : Tendsto (prim n) atTop
    (𝓝 (2 ^ (((n : ℝ) - 1) / 2) * Gamma (((n : ℝ) + 1) / 2))) := by
  have ha : (0 : ℝ) < ((n : ℝ) + 1) / 2 := by positivity
  have h1 : Tendsto (fun x : ℝ => x ^ 2 / 2) atTop atTop :=
    (tendsto_pow_atTop two_ne_zero).atTop_div_const two_pos
  have := ((gammainc_lim ha).comp h1).const_mul (2 ^ (((n : ℝ) - 1) / 2) * Gamma (((n : ℝ) + 1) / 2))
  rw [mul_one] at this
  exact this

theorem hasInt_half (n : ℕ) : HasInt (Ioi 0) (fun x => x ^ n * exp (-x ^ 2 / 2))
    (2 ^ (((n : ℝ) - 1) / 2) * Gamma (((n : ℝ) + 1) / 2)) := by
  have hi := integrableOn_Ioi_deriv_of_nonneg (prim_cont n).continuousWithinAt
    (fun x (hx : x ∈ Ioi (0 : ℝ)) => prim_deriv n hx)
    (fun x (hx : x ∈ Ioi (0 : ℝ)) => by have : 0 < x := hx; positivity) (prim_lim n)
  refine ⟨hi, ?_⟩
  rw [integral_Ioi_of_hasDerivAt_of_tendsto (prim_cont n).continuousWithinAt
    (fun x (hx : x ∈ Ioi (0 : ℝ)) => prim_deriv n hx) hi (prim_lim n), prim_zero, sub_zero]

/-- The integral of a power of the variable over the Gaussian part. -/
theorem hasInt_upper {beta : ℝ} (hb : 0 < beta) (n : ℕ) :
    HasInt (Ioi (-beta)) (fun x => x ^ n * exp (-x ^ 2 / 2))
      (2 ^ (((n : ℝ) - 1) / 2) * Gamma (((n : ℝ) + 1) / 2) *
        (1 + (-1) ^ n * gammainc (((n : ℝ) + 1) / 2) (beta ^ 2 / 2))) := by
  have h0 := hasInt_half n
  have hc : Continuous fun x : ℝ => x ^ n * exp (-x ^ 2 / 2) := by fun_prop
  have hi : IntervalIntegrable (fun x : ℝ => x ^ n * exp (-x ^ 2 / 2)) volume 0 beta :=
    hc.intervalIntegrable _ _
  have hpos : ∫ x in (0 : ℝ)..beta, x ^ n * exp (-x ^ 2 / 2) = prim n beta := by
    rw [intervalIntegral.integral_eq_sub_of_hasDerivAt_of_le hb.le (prim_cont n).continuousOn
      (fun x hx => prim_deriv n hx.1) hi, prim_zero, sub_zero]
  have hneg : ∫ x in (-beta)..0, x ^ n * exp (-x ^ 2 / 2) = (-1) ^ n * prim n beta := by
    rw [← hpos, ← intervalIntegral.integral_const_mul]
    have := intervalIntegral.integral_comp_neg (a := 0) (b := beta)
      (fun x : ℝ => x ^ n * exp (-x ^ 2 / 2))
    rw [neg_zero] at this
    rw [← this]
    refine intervalIntegral.integral_congr fun x _ => ?_
    simp only [neg_sq]
    rw [neg_pow]
    ring
  have hs : Ioc (-beta) 0 ∪ Ioi 0 = Ioi (-beta) := Ioc_union_Ioi_eq_Ioi (by linarith)
  have hI1 : IntegrableOn (fun x : ℝ => x ^ n * exp (-x ^ 2 / 2)) (Ioc (-beta) 0) :=
    (hc.integrableOn_Icc).mono_set Ioc_subset_Icc_self
  rw [← hs]
  refine ⟨hI1.union h0.1, ?_⟩
  rw [setIntegral_union (Ioc_disjoint_Ioi le_rfl) measurableSet_Ioi hI1 h0.1, h0.2,
    ← intervalIntegral.integral_of_le (by linarith), hneg, prim]
  ring

/-- On the lower tail the weighted density is the power law. -/
theorem pdf_lower {beta m x : ℝ} (n : ℕ) (hx : x ∈ Iic (-beta)) : x ^ n * pdf beta m x =
    N beta m * ((m / beta) ^ m * exp (-beta ^ 2 / 2)) *
      (x ^ n * (m / beta - beta - x) ^ (-m)) := by
  rw [pdf, if_neg (not_lt.2 hx)]
  ring

theorem pdf_upper {beta m x : ℝ} (n : ℕ) (hx : x ∈ Ioi (-beta)) : x ^ n * pdf beta m x =
    N beta m * (x ^ n * exp (-x ^ 2 / 2)) := by
  rw [pdf, if_pos (mem_Ioi.1 hx)]
  ring

theorem upper_integrable {beta m : ℝ} (hb : 0 < beta) (n : ℕ) :
    IntegrableOn (fun x => x ^ n * pdf beta m x) (Ioi (-beta)) :=
  (((hasInt_upper hb n).const_mul (N beta m)).congr measurableSet_Ioi
    (fun _ hx => pdf_upper n hx) rfl).1

/-- The moment does not exist from the order `m - 1` on. -/
theorem noLower {beta m : ℝ} (hb : 0 < beta) (hm : 1 < m) {n : ℕ} (h : m ≤ (n : ℝ) + 1) :
    ¬ IntegrableOn (fun x => x ^ n * pdf beta m x) (Iic (-beta)) := by
  intro hI
  have hc : 0 < m / beta := div_pos (by linarith) hb
  have hK : 0 < N beta m * ((m / beta) ^ m * exp (-beta ^ 2 / 2)) :=
    mul_pos (cb_N_pos hb hm) (mul_pos (rpow_pos_of_pos hc m) (exp_pos _))
  have h1 : HasInt (Iic (-beta)) (fun x => x ^ n * pdf beta m x) _ := ⟨hI, rfl⟩
  have h2 := (h1.const_mul (N beta m * ((m / beta) ^ m * exp (-beta ^ 2 / 2)))⁻¹).congr
    measurableSet_Iic (g := fun x => x ^ n * (m / beta - beta - x) ^ (-m)) (fun x hx => by
      rw [pdf_lower n hx, inv_mul_cancel_left₀ hK.ne']) rfl
  rw [show -beta = (m / beta - beta) - m / beta by ring, hasInt_reflect, hasInt_Ici] at h2
  have h3 := h2.1
  set B := m / beta - beta with hB
  set c := max (m / beta) (2 * |B|) with hcd
  have hc0 : 0 < c := lt_of_lt_of_le hc (le_max_left _ _)
  have h4 : IntegrableOn (fun y => 2 ^ n * ((B - y) ^ n * (B - (B - y)) ^ (-m))) (Ioi c) :=
    (h3.mono_set (Ioi_subset_Ioi (le_max_left _ _))).const_mul _
  have h5 : IntegrableOn (fun y : ℝ => y ^ ((n : ℝ) - m)) (Ioi c) := by
    refine Integrable.mono' h4.norm (by fun_prop) ?_
    refine (ae_restrict_iff' measurableSet_Ioi).2 (Eventually.of_forall fun y hy => ?_)
    have hy : c < y := hy
    have hy0 : 0 < y := hc0.trans hy
    have hyB : 2 * |B| < y := lt_of_le_of_lt (le_max_right _ _) hy
    have ha : y / 2 ≤ |B - y| := by
      have := abs_sub_abs_le_abs_sub y B
      rw [abs_of_pos hy0, abs_sub_comm y B] at this
      linarith
    rw [norm_mul, norm_mul, norm_pow, norm_pow, Real.norm_eq_abs, Real.norm_eq_abs, Real.norm_eq_abs,
      Real.norm_eq_abs, sub_sub_cancel, abs_of_pos (rpow_pos_of_pos hy0 _),
      abs_of_pos (rpow_pos_of_pos hy0 _), abs_of_pos (two_pos (α := ℝ)), rpow_sub hy0, rpow_natCast,
      rpow_neg hy0.le, ← mul_assoc, ← mul_pow, div_eq_mul_inv]
    refine mul_le_mul_of_nonneg_right (pow_le_pow_left₀ hy0.le (by linarith) n) ?_
    exact inv_nonneg.2 (rpow_nonneg hy0.le _)
  rw [integrableOn_Ioi_rpow_iff hc0] at h5
  linarith

end CrystalBall

open CrystalBall

/-- `_munp` is the raw moment of the crystal ball density where it exists, that is below the order
`m - 1`, and it is reported as infinite from there on, where the moment does not exist. -/
theorem C276_crystalball (n : ℕ) (beta m : ℝ) (hb : 0 < beta) (hm : 1 < m) :
    Reports (HasMoment univ (CrystalBall.pdf beta m) n) (NoMoment univ (CrystalBall.pdf beta m) n)
      (CrystalBall.munp n beta m) := by
  rw [munp]
  split_ifs with h
  · have h1 := ((hasInt_lower hb hm h).const_mul (N beta m * ((m / beta) ^ m * exp (-beta ^ 2 / 2)))).congr
      measurableSet_Iic (g := fun x => x ^ n * pdf beta m x) (fun x hx => pdf_lower n hx) rfl
    have h2 := ((hasInt_upper hb n).const_mul (N beta m)).congr measurableSet_Ioi
      (g := fun x => x ^ n * pdf beta m x) (fun x hx => pdf_upper n hx) rfl
    show HasMoment _ _ _ _
    have hI := h1.1.union h2.1
    refine ⟨by rwa [Iic_union_Ioi] at hI, ?_⟩
    rw [← Iic_union_Ioi (a := -beta), setIntegral_union (Iic_disjoint_Ioi le_rfl) measurableSet_Ioi h1.1 h2.1,
      h1.2, h2.2, nthMoment]
    ring
  · intro hI
    exact noLower hb hm (not_lt.1 h) (hI.mono_set (subset_univ _))

/-- For odd orders the reported infinity has the wrong sign: the integral over `x > -t` decreases
without bound as `t` grows, while `_munp` returns `+inf`. -/
theorem C276_crystalball_sign_refuted (n : ℕ) (hn : Odd n) (beta m : ℝ) (hb : 0 < beta) (hm : 1 < m)
    (h : m ≤ (n : ℝ) + 1) :
    CrystalBall.munp n beta m = .inf ∧
    Tendsto (fun t => ∫ x in Ioi (-t), x ^ n * CrystalBall.pdf beta m x) atTop atBot := by
  refine ⟨by rw [munp, if_neg (not_lt.2 h)], ?_⟩
  set f : ℝ → ℝ := fun x => x ^ n * pdf beta m x with hf
  have hcp : ContinuousOn f (Iic (-beta)) := by
    have hc : 0 < m / beta := div_pos (by linarith) hb
    have : ContinuousOn (fun x => N beta m * ((m / beta) ^ m * exp (-beta ^ 2 / 2)) *
        (x ^ n * (m / beta - beta - x) ^ (-m))) (Iic (-beta)) := by
      refine continuousOn_const.mul ((continuous_pow n).continuousOn.mul ?_)
      refine (continuousOn_const.sub continuousOn_id).rpow_const fun x hx => Or.inl ?_
      have : x ≤ -beta := hx
      change m / beta - beta - x ≠ 0
      linarith
    exact this.congr fun x hx => pdf_lower n hx
  have hloc : ∀ t, IntegrableOn f (Ioc (-t) (-beta)) := fun t =>
    ((hcp.mono Icc_subset_Iic_self).integrableOn_Icc).mono_set Ioc_subset_Icc_self
  have hneg : ∀ x ∈ Iic (-beta), f x ≤ 0 := by
    intro x hx
    have hx0 : x < 0 := by have : x ≤ -beta := hx; linarith
    exact mul_nonpos_of_nonpos_of_nonneg (hn.pow_neg hx0).le (cb_pdf_pos hb hm x).le
  have hsplit : ∀ t, beta ≤ t → ∫ x in Ioi (-t), f x =
      (∫ x in Ioc (-t) (-beta), f x) + ∫ x in Ioi (-beta), f x := by
    intro t ht
    rw [← Ioc_union_Ioi_eq_Ioi (neg_le_neg ht), setIntegral_union (Ioc_disjoint_Ioi le_rfl)
      measurableSet_Ioi (hloc t) (upper_integrable hb n)]
  rw [tendsto_atBot]
  intro b
  by_contra hcon
  apply noLower hb hm h
  set U := ∫ x in Ioi (-beta), f x with hU
  have hbd : ∀ t, beta ≤ t → -∫ x in Ioc (-t) (-beta), f x ≤ U - b := by
    intro t ht
    by_contra h2
    apply hcon
    filter_upwards [eventually_ge_atTop t] with s hs
    have hst : beta ≤ s := ht.trans hs
    rw [hsplit s hst]
    have hmono : ∫ x in Ioc (-t) (-beta), -f x ≤ ∫ x in Ioc (-s) (-beta), -f x := by
      refine setIntegral_mono_set (hloc s).neg ?_ ?_
      · refine (ae_restrict_iff' measurableSet_Ioc).2 (Eventually.of_forall fun x hx => ?_)
        exact neg_nonneg.2 (hneg x hx.2)
      · exact (Ioc_subset_Ioc_left (neg_le_neg hs)).eventuallyLE
    rw [integral_neg, integral_neg] at hmono
    linarith [not_le.1 h2]
  refine integrableOn_Iic_of_intervalIntegral_norm_bounded (U - b) (-beta) (a := fun t : ℝ => -t)
    (l := atTop) (fun t => hloc t) tendsto_neg_atTop_atBot ?_
  filter_upwards [eventually_ge_atTop beta] with t ht
  rw [intervalIntegral.integral_of_le (neg_le_neg ht)]
  refine le_trans (le_of_eq ?_) (hbd t ht)
  rw [← integral_neg]
  refine setIntegral_congr_fun measurableSet_Ioc fun x hx => ?_
  exact abs_of_nonpos (hneg x hx.2)

/-- With `m = 3/2` even the mean is reported as `+inf`, although it is `-∞`. -/
example : CrystalBall.munp 1 1 (3 / 2) = .inf ∧
    Tendsto (fun t => ∫ x in Ioi (-t), x ^ 1 * CrystalBall.pdf 1 (3 / 2) x) atTop atBot :=
  C276_crystalball_sign_refuted 1 odd_one 1 (3 / 2) one_pos (by norm_num) (by norm_num)

/-- The mean exists for `m = 3`. -/
example : ∃ v, CrystalBall.munp 1 2 3 = .fin v ∧ HasMoment univ (CrystalBall.pdf 2 3) 1 v := by
  have h := C276_crystalball 1 2 3 two_pos (by norm_num)
  rw [munp, if_pos (by norm_num)] at h ⊢
  exact ⟨_, rfl, h⟩

end Wafo.Dist
