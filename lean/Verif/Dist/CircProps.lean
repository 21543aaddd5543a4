import Verif.Dist.LogisticProps
import Mathlib.Analysis.SpecialFunctions.Trigonometric.InverseDeriv

/-!
# C255: the functions of the distributions with circular functions fit together
-/

namespace Wafo.Dist

open MeasureTheory Set Filter Topology Real

set_option linter.unusedSectionVars false

/-- The anglit distribution. -/
theorem C255_anglit :
    IsCdf (Ioo (-(π / 4)) (π / 4)) Anglit.pdf Anglit.cdf ∧
    IsPpf (Ioo (-(π / 4)) (π / 4)) Anglit.cdf Anglit.ppf := by
  have hpi := pi_pos
  have hs : ∀ x ∈ Ioo (-(π / 4)) (π / 4), 0 < sin (x + π / 4) ∧ sin (x + π / 4) < 1 := by
    intro x hx
    refine ⟨sin_pos_of_pos_of_lt_pi (by linarith [hx.1]) (by linarith [hx.2]), ?_⟩
    have := strictMonoOn_sin (a := x + π / 4) (b := π / 2)
      ⟨by linarith [hx.1], by linarith [hx.2]⟩ ⟨by linarith, le_rfl⟩ (by linarith [hx.2])
    rwa [sin_pi_div_two] at this
  have hp : IsPpf (Ioo (-(π / 4)) (π / 4)) Anglit.cdf Anglit.ppf := by
    refine ⟨?_, ?_, ?_, ?_⟩
    · intro q h0 h1
      have h2 : 0 < √q := sqrt_pos.2 h0
      have h3 : √q < 1 := by
        rw [sqrt_lt' one_pos]
        simpa using h1
      have h4 := arcsin_pos.2 h2
      have h5 := arcsin_lt_pi_div_two.2 h3
      simp only [Anglit.ppf]
      constructor <;> linarith
    · intro q h0 h1
      have h3 : √q ≤ 1 := by
        rw [sqrt_le_one]
        exact h1.le
      simp only [Anglit.ppf, Anglit.cdf]
      rw [sub_add_cancel, sin_arcsin (by linarith [sqrt_nonneg q]) h3, rpow_two, sq_sqrt h0.le]
    · intro x hx
      obtain ⟨h1, h2⟩ := hs x hx
      simp only [Anglit.cdf, rpow_two]
      exact ⟨by positivity, by nlinarith⟩
    · intro x hx
      simp only [Anglit.cdf, Anglit.ppf, rpow_two]
      rw [sqrt_sq (hs x hx).1.le, arcsin_sin (by linarith [hx.1]) (by linarith [hx.2])]
      ring
  refine ⟨isCdf_of_ppf isOpen_Ioo ordConnected_Ioo ?_ ?_ hp, hp⟩
  · intro x _
    have hf : Anglit.cdf = fun y => sin (y + π / 4) ^ 2 := by
      funext y
      simp [Anglit.cdf]
    rw [hf]
    refine HasDerivAt.congr_deriv (((hasDerivAt_id x).add_const (π / 4)).sin.pow 2) ?_
    simp only [Anglit.pdf, id_eq, Nat.cast_ofNat, Nat.add_one_sub_one, pow_one, mul_one]
    rw [← sin_two_mul, show 2 * (x + π / 4) = 2 * x + π / 2 by ring, sin_add_pi_div_two]
  · intro x hx
    exact cos_nonneg_of_mem_Icc ⟨by linarith [hx.1], by linarith [hx.2]⟩

example : Anglit.cdf 0 = 1 / 2 := by
  simp only [Anglit.cdf, zero_add, rpow_two, sin_pi_div_four]
  rw [div_pow, sq_sqrt (by norm_num)]
  norm_num

/-- The arcsine distribution. -/
theorem C255_arcsine :
    IsCdf (Ioo 0 1) Arcsine.pdf Arcsine.cdf ∧ IsPpf (Ioo 0 1) Arcsine.cdf Arcsine.ppf := by
  have hpi := pi_pos
  have hsq : ∀ x ∈ Ioo (0 : ℝ) 1, 0 < √x ∧ √x < 1 := by
    intro x hx
    refine ⟨sqrt_pos.2 hx.1, ?_⟩
    rw [sqrt_lt' one_pos]
    simpa using hx.2
  have hp : IsPpf (Ioo 0 1) Arcsine.cdf Arcsine.ppf := by
    have hs : ∀ q, 0 < q → q < 1 → 0 < sin (π / 2 * q) ∧ sin (π / 2 * q) < 1 := by
      intro q h0 h1
      have h2 : π / 2 * q < π / 2 := by nlinarith
      have h3 : 0 < π / 2 * q := by positivity
      refine ⟨sin_pos_of_pos_of_lt_pi h3 (by linarith), ?_⟩
      have := strictMonoOn_sin (a := π / 2 * q) (b := π / 2)
        ⟨by linarith, h2.le⟩ ⟨by linarith, le_rfl⟩ h2
      rwa [sin_pi_div_two] at this
    refine ⟨?_, ?_, ?_, ?_⟩
    · intro q h0 h1
      obtain ⟨h2, h3⟩ := hs q h0 h1
      simp only [Arcsine.ppf, rpow_two]
      exact ⟨by positivity, by nlinarith⟩
    · intro q h0 h1
      have h2 : π / 2 * q < π / 2 := by nlinarith
      have h3 : 0 < π / 2 * q := by positivity
      simp only [Arcsine.ppf, Arcsine.cdf, rpow_two]
      rw [sqrt_sq (hs q h0 h1).1.le, arcsin_sin (by linarith) h2.le]
      field_simp
    · intro x hx
      obtain ⟨h2, h3⟩ := hsq x hx
      have h4 := arcsin_pos.2 h2
      have h5 := arcsin_lt_pi_div_two.2 h3
      simp only [Arcsine.cdf]
      refine ⟨by positivity, ?_⟩
      calc 2 / π * arcsin (√x) < 2 / π * (π / 2) := by gcongr
        _ = 1 := by field_simp
    · intro x hx
      obtain ⟨h2, h3⟩ := hsq x hx
      simp only [Arcsine.ppf, Arcsine.cdf, rpow_two]
      rw [show π / 2 * (2 / π * arcsin (√x)) = arcsin (√x) by field_simp,
        sin_arcsin (by linarith) h3.le, sq_sqrt hx.1.le]
  refine ⟨isCdf_of_ppf isOpen_Ioo ordConnected_Ioo ?_ ?_ hp, hp⟩
  · intro x hx
    obtain ⟨h2, h3⟩ := hsq x hx
    have hd := (hasDerivAt_arcsin (x := √x) (by linarith) (by linarith)).comp x
      (hasDerivAt_sqrt hx.1.ne')
    refine HasDerivAt.congr_deriv (hd.const_mul (2 / π)) ?_
    simp only [Arcsine.pdf]
    rw [sq_sqrt hx.1.le, sqrt_mul hx.1.le]
    have h4 : 0 < √(1 - x) := sqrt_pos.2 (by linarith [hx.2])
    field_simp
  · intro x hx
    have h4 : 0 < x * (1 - x) := mul_pos hx.1 (by linarith [hx.2])
    unfold Arcsine.pdf
    positivity

example : Arcsine.cdf (1 / 2) = 1 / 2 := by
  have h := C255_arcsine.2.cdf_ppf (1 / 2) (by norm_num) (by norm_num)
  have h2 : Arcsine.ppf (1 / 2) = 1 / 2 := by
    simp only [Arcsine.ppf, rpow_two]
    rw [show π / 2 * (1 / 2) = π / 4 by ring, sin_pi_div_four, div_pow, sq_sqrt (by norm_num)]
    norm_num
  rwa [h2] at h

/-- The cosine distribution. -/
theorem C255_cosine : IsCdf (Ioo (-π) π) Cosine.pdf Cosine.cdf := by
  have hpi := pi_pos
  have hder : ∀ x : ℝ, HasDerivAt Cosine.cdf (Cosine.pdf x) x := by
    intro x
    refine HasDerivAt.congr_deriv
      ((((hasDerivAt_id x).const_add π).add (hasDerivAt_sin x)).const_mul (1 / 2 / π)) ?_
    simp only [Cosine.pdf]
  refine isCdf_of_lim isOpen_Ioo ordConnected_Ioo (fun x _ => hder x) ?_
    (l := 𝓝[>] (-π)) (u := 𝓝[<] π) (Ioo_mem_nhdsGT (by linarith)) (Ioo_mem_nhdsLT (by linarith))
    ?_ ?_ ?_ ?_
  · intro x hx
    have h1 : -1 < cos x := by
      have : cos x ≠ -1 := by
        intro h
        rw [cos_eq_neg_one_iff] at h
        obtain ⟨k, hk⟩ := h
        have h1 := hx.1
        have h2 := hx.2
        rw [← hk] at h1 h2
        have h3 : (k : ℝ) < 0 := by nlinarith
        have h4 : (-1 : ℝ) < k := by nlinarith
        have h3' : k < 0 := by exact_mod_cast h3
        have h4' : -1 < k := by exact_mod_cast h4
        omega
      exact lt_of_le_of_ne (neg_one_le_cos x) this.symm
    have : 0 < 1 + cos x := by linarith
    unfold Cosine.pdf
    positivity
  · have h := (hder (-π)).continuousAt.tendsto
    have h0 : Cosine.cdf (-π) = 0 := by simp [Cosine.cdf]
    rw [h0] at h
    exact h.mono_left nhdsWithin_le_nhds
  · have h := (hder π).continuousAt.tendsto
    have h0 : Cosine.cdf π = 1 := by
      simp only [Cosine.cdf, sin_pi]
      field_simp
      ring
    rw [h0] at h
    exact h.mono_left nhdsWithin_le_nhds
  · intro x hx
    exact nhdsWithin_le_nhds (gt_mem_nhds hx.1)
  · intro x hx
    exact nhdsWithin_le_nhds (lt_mem_nhds hx.2)

example : Cosine.cdf 0 = 1 / 2 := by
  have := pi_pos
  simp only [Cosine.cdf, sin_zero]
  field_simp
  ring

/-- The Cauchy distribution. -/
theorem C255_cauchy :
    IsCdf univ Cauchy.pdf Cauchy.cdf ∧ IsPpf univ Cauchy.cdf Cauchy.ppf ∧
    IsSf univ Cauchy.cdf Cauchy.sf ∧ IsIsf Cauchy.ppf Cauchy.isf := by
  have hpi := pi_pos
  have hp : IsPpf univ Cauchy.cdf Cauchy.ppf := by
    refine ⟨fun _ _ _ => mem_univ _, ?_, ?_, ?_⟩
    · intro q h0 h1
      simp only [Cauchy.cdf, Cauchy.ppf]
      rw [arctan_tan (by nlinarith) (by nlinarith)]
      field_simp
      ring
    · intro x _
      have h1 := arctan_lt_pi_div_two x
      have h2 := neg_pi_div_two_lt_arctan x
      have h3 : 1 / π * arctan x < 1 / π * (π / 2) := by gcongr
      have h4 : 1 / π * (-(π / 2)) < 1 / π * arctan x := by gcongr
      have h5 : 1 / π * (π / 2) = 1 / 2 := by field_simp
      simp only [Cauchy.cdf]
      norm_num
      constructor
      · have h6 : 1 / π * (-(π / 2)) = -(1 / 2) := by rw [mul_neg, h5]
        rw [h6] at h4
        norm_num at h4
        linarith
      · rw [h5] at h3
        norm_num at h3
        linarith
    · intro x _
      simp only [Cauchy.cdf, Cauchy.ppf]
      rw [show π * (0.5 + 1 / π * arctan x) - π / 2 = arctan x by field_simp; ring, tan_arctan]
  refine ⟨isCdf_of_ppf isOpen_univ ordConnected_univ ?_ ?_ hp, hp, ?_, ?_⟩
  · intro x _
    refine HasDerivAt.congr_deriv (((hasDerivAt_arctan x).const_mul (1 / π)).const_add 0.5) ?_
    simp only [Cauchy.pdf]
    field_simp
  · intro x _
    unfold Cauchy.pdf
    have := mul_self_nonneg x
    positivity
  · intro x _
    simp only [Cauchy.cdf, Cauchy.sf]
    ring
  · intro q _ _
    simp only [Cauchy.isf, Cauchy.ppf]
    congr 1
    ring

example : Cauchy.cdf 1 = 3 / 4 := by
  have := pi_pos
  simp only [Cauchy.cdf, arctan_one]
  field_simp
  norm_num

/-- The half Cauchy distribution. -/
theorem C255_halfcauchy :
    IsCdf (Ioi 0) HalfCauchy.pdf HalfCauchy.cdf ∧ IsPpf (Ioi 0) HalfCauchy.cdf HalfCauchy.ppf ∧
    IsLog (Ioi 0) HalfCauchy.pdf HalfCauchy.logpdf := by
  have hpi := pi_pos
  have hp : IsPpf (Ioi 0) HalfCauchy.cdf HalfCauchy.ppf := by
    refine ⟨?_, ?_, ?_, ?_⟩
    · intro q h0 h1
      exact tan_pos_of_pos_of_lt_pi_div_two (by positivity) (by nlinarith)
    · intro q h0 h1
      have h2 : 0 < π / 2 * q := by positivity
      simp only [HalfCauchy.cdf, HalfCauchy.ppf]
      rw [arctan_tan (by linarith) (by nlinarith)]
      field_simp
    · intro x hx
      have h1 := arctan_lt_pi_div_two x
      have h2 := arctan_pos.2 (mem_Ioi.1 hx)
      simp only [HalfCauchy.cdf]
      refine ⟨by positivity, ?_⟩
      calc 2 / π * arctan x < 2 / π * (π / 2) := by gcongr
        _ = 1 := by field_simp
    · intro x _
      simp only [HalfCauchy.cdf, HalfCauchy.ppf]
      rw [show π / 2 * (2 / π * arctan x) = arctan x by field_simp, tan_arctan]
  have hpos : ∀ x ∈ Ioi (0 : ℝ), 0 < HalfCauchy.pdf x := by
    intro x _
    unfold HalfCauchy.pdf
    have := mul_self_nonneg x
    positivity
  refine ⟨isCdf_of_ppf isOpen_Ioi ordConnected_Ioi ?_ (fun x hx => (hpos x hx).le) hp, hp, ?_⟩
  · intro x _
    refine HasDerivAt.congr_deriv ((hasDerivAt_arctan x).const_mul (2 / π)) ?_
    simp only [HalfCauchy.pdf]
    field_simp
  · intro x hx
    refine ⟨hpos x hx, ?_⟩
    have := mul_self_nonneg x
    unfold HalfCauchy.pdf HalfCauchy.logpdf log1p
    have h1 : 2 / π ≠ 0 := by positivity
    have h2 : 1 + x * x ≠ 0 := by positivity
    rw [log_div h1 h2]

example : HalfCauchy.cdf 1 = 1 / 2 := by
  have := pi_pos
  simp only [HalfCauchy.cdf, arctan_one]
  field_simp
  norm_num

/-- The folded Cauchy distribution. -/
theorem C255_foldcauchy (c : ℝ) : IsCdf (Ioi 0) (FoldCauchy.pdf c) (FoldCauchy.cdf c) := by
  have hpi := pi_pos
  have hder : ∀ x : ℝ, HasDerivAt (FoldCauchy.cdf c) (FoldCauchy.pdf c x) x := by
    intro x
    refine HasDerivAt.congr_deriv
      ((((hasDerivAt_id x).sub_const c).arctan.add
        ((hasDerivAt_id x).add_const c).arctan).const_mul (1 / π)) ?_
    simp only [FoldCauchy.pdf, id_eq, mul_one]
  refine isCdf_of_lim isOpen_Ioi ordConnected_Ioi (fun x _ => hder x) ?_
    (l := 𝓝[>] 0) (u := atTop) self_mem_nhdsWithin (eventually_gt_atTop 0) ?_ ?_ ?_ ?_
  · intro x _
    unfold FoldCauchy.pdf
    positivity
  · have h := (hder 0).continuousAt.tendsto
    have h0 : FoldCauchy.cdf c 0 = 0 := by simp [FoldCauchy.cdf, arctan_neg]
    rw [h0] at h
    exact h.mono_left nhdsWithin_le_nhds
  · have ha : Tendsto arctan atTop (𝓝 (π / 2)) :=
      tendsto_nhds_of_tendsto_nhdsWithin tendsto_arctan_atTop
    have h1 : Tendsto (fun x : ℝ => arctan (x - c)) atTop (𝓝 (π / 2)) :=
      ha.comp (tendsto_atTop_add_const_right atTop (-c) tendsto_id)
    have h2 : Tendsto (fun x : ℝ => arctan (x + c)) atTop (𝓝 (π / 2)) :=
      ha.comp (tendsto_atTop_add_const_right atTop c tendsto_id)
    have h3 := (h1.add h2).const_mul (1 / π)
    rw [show 1 / π * (π / 2 + π / 2) = 1 by field_simp; ring] at h3
    exact h3
  · intro x hx
    exact nhdsWithin_le_nhds (gt_mem_nhds hx)
  · intro x _
    exact eventually_gt_atTop x

example : FoldCauchy.cdf 1 1 = 1 / π * arctan 2 := by
  simp only [FoldCauchy.cdf]
  norm_num

/-- The semicircular distribution. -/
theorem C255_semicircular :
    IsCdf (Ioo (-1) 1) Semicircular.pdf Semicircular.cdf ∧
    IsLog (Ioo (-1) 1) Semicircular.pdf Semicircular.logpdf := by
  have hpi := pi_pos
  have hin : ∀ x ∈ Ioo (-1 : ℝ) 1, 0 < 1 - x * x := by
    intro x hx
    nlinarith [hx.1, hx.2]
  have hpos : ∀ x ∈ Ioo (-1 : ℝ) 1, 0 < Semicircular.pdf x := by
    intro x hx
    have := sqrt_pos.2 (hin x hx)
    unfold Semicircular.pdf
    positivity
  have hcont : Continuous Semicircular.cdf := by
    unfold Semicircular.cdf
    fun_prop
  refine ⟨isCdf_of_lim isOpen_Ioo ordConnected_Ioo ?_ hpos
    (l := 𝓝[>] (-1)) (u := 𝓝[<] 1) (Ioo_mem_nhdsGT (by norm_num)) (Ioo_mem_nhdsLT (by norm_num))
    ?_ ?_ ?_ ?_, ?_⟩
  · intro x hx
    have h0 := hin x hx
    have hs := sqrt_pos.2 h0
    have h1 := (((hasDerivAt_id x).mul (hasDerivAt_id x)).const_sub 1).sqrt h0.ne'
    have h2 := hasDerivAt_arcsin (x := x) (by linarith [hx.1]) (by linarith [hx.2])
    refine HasDerivAt.congr_deriv
      ((((hasDerivAt_id x).mul h1).add h2).const_mul (1 / π) |>.const_add 0.5) ?_
    simp only [Semicircular.pdf, id_eq, Pi.mul_apply]
    rw [show 1 - x ^ 2 = 1 - x * x by ring]
    have h3 : √(1 - x * x) * √(1 - x * x) = 1 - x * x := mul_self_sqrt h0.le
    generalize √(1 - x * x) = s at h3 hs ⊢
    field_simp
    linear_combination -2 * h3
  · have h := hcont.tendsto (-1)
    have h0 : Semicircular.cdf (-1) = 0 := by
      simp only [Semicircular.cdf, arcsin_neg, arcsin_one]
      norm_num
      field_simp
      norm_num
    rw [h0] at h
    exact h.mono_left nhdsWithin_le_nhds
  · have h := hcont.tendsto 1
    have h0 : Semicircular.cdf 1 = 1 := by
      simp only [Semicircular.cdf, arcsin_one]
      norm_num
      field_simp
      norm_num
    rw [h0] at h
    exact h.mono_left nhdsWithin_le_nhds
  · intro x hx
    exact nhdsWithin_le_nhds (gt_mem_nhds hx.1)
  · intro x hx
    exact nhdsWithin_le_nhds (lt_mem_nhds hx.2)
  · intro x hx
    refine ⟨hpos x hx, ?_⟩
    have h0 := hin x hx
    have hs := sqrt_pos.2 h0
    unfold Semicircular.pdf Semicircular.logpdf log1p
    rw [log_mul (by positivity) hs.ne', log_sqrt h0.le, show 1 + -x * x = 1 - x * x by ring]
    ring

example : Semicircular.cdf 0 = 1 / 2 := by
  simp only [Semicircular.cdf, arcsin_zero]
  norm_num

end Wafo.Dist
