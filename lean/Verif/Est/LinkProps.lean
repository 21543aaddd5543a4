import Verif.Est.LinkModel
import Mathlib.Tactic.IntervalCases

/-!
# Link functions return the parameter (properties C235-C238)
-/

set_option linter.unusedSectionVars false

namespace Wafo.Est

/-! ### Specification: logarithms of survival functions -/

/-- `z = (x - loc)/scale`. -/
noncomputable def norm (x loc scale : ℝ) : ℝ := (x - loc) / scale

/-- Weibull: `P(X > x) = exp(-zᶜ)`. -/
noncomputable def weibullLogsf (c loc scale x : ℝ) : ℝ := -(norm x loc scale) ^ c

/-- Exponentiated Weibull: `P(X ≤ x) = (1 - exp(-zᶜ))ᵃ`. -/
noncomputable def exponweibLogsf (a c loc scale x : ℝ) : ℝ :=
  Real.log (1 - (1 - Real.exp (-(norm x loc scale) ^ c)) ^ a)

/-- Burr, type III: `P(X ≤ x) = (1 + z⁻ᶜ)⁻ᵈ`. -/
noncomputable def burrLogsf (c d loc scale x : ℝ) : ℝ :=
  Real.log (1 - (1 + (norm x loc scale) ^ (-c)) ^ (-d))

/-- Generalised Pareto: `P(X > x) = (1 + c z)^(-1/c)`, `exp(-z)` for `c = 0`. -/
noncomputable def genparetoLogsf (c loc scale x : ℝ) : ℝ :=
  if c = 0 then -norm x loc scale else -Real.log (1 + c * norm x loc scale) / c

/-- Generalised extreme value: `P(X ≤ x) = exp(-(1 - c z)^(1/c))`, `exp(-exp(-z))` for `c = 0`. -/
noncomputable def genextremeLogsf (c loc scale x : ℝ) : ℝ :=
  if c = 0 then Real.log (1 - Real.exp (-Real.exp (-norm x loc scale)))
  else Real.log (1 - Real.exp (-(1 - c * norm x loc scale) ^ (1 / c)))

/-- Generalised exponential: `P(X > x) = exp(-(a + b) z + b (1 - exp(-c z))/c)`. -/
noncomputable def genexponLogsf (a b c loc scale x : ℝ) : ℝ :=
  -(a + b) * norm x loc scale + b * (1 - Real.exp (-c * norm x loc scale)) / c

/-- Truncated Rayleigh: `P(X > x) = exp(-((z + c)² - c²)/2)`; Rayleigh is `c = 0`. -/
noncomputable def truncrayleighLogsf (c loc scale x : ℝ) : ℝ :=
  -((norm x loc scale + c) ^ 2 - c ^ 2) / 2

/-- A link function *recovers* parameter `i`: given the other parameters, the quantile and its log
survival probability it returns the parameter, whatever stands in its place. -/
def Recovers (link : Link) (logsf : ℝ) (x : ℝ) (phat : List ℝ) (i : ℕ) : Prop :=
  ∃ v, phat[i]? = some v ∧ ∀ junk, link x logsf (phat.set i junk) i = .ok (some v)

theorem norm_pos {x loc scale : ℝ} (hx : loc < x) (hs : 0 < scale) : 0 < norm x loc scale :=
  div_pos (sub_pos.2 hx) hs

theorem dv_of_ne {a b : ℝ} (h : b ≠ 0) : dv a b = some (a / b) := if_neg h

theorem dv_norm {x loc scale : ℝ} (hs : 0 < scale) : dv (x - loc) scale = some (norm x loc scale) :=
  if_neg hs.ne'

theorem lg_of_pos {x : ℝ} (h : 0 < x) : lg x = some (Real.log x) := if_pos h

theorem pw_of_pos {x y : ℝ} (h : 0 < x) : pw x y = some (x ^ y) := if_pos h

theorem sq_of_nonneg {x : ℝ} (h : 0 ≤ x) : sq x = some (√x) := if_pos h

theorem scale_eq {x loc scale : ℝ} (hx : loc < x) (hs : 0 < scale) :
    (x - loc) / norm x loc scale = scale := by
  unfold norm
  have : x - loc ≠ 0 := (sub_pos.2 hx).ne'
  field_simp

theorem loc_eq {x loc scale : ℝ} (hs : 0 < scale) : x - scale * norm x loc scale = loc := by
  unfold norm
  field_simp
  ring

/-! ### C235: exponential and Weibull -/

/-- **C235.** Exponential distribution: both parameters are recovered. -/
theorem C235_expon (x loc scale : ℝ) (hx : loc < x) (hs : 0 < scale) (i : ℕ) (hi : i < 2) :
    Recovers exponLink (-norm x loc scale) x [loc, scale] i := by
  have hz := norm_pos hx hs
  interval_cases i
  · refine ⟨loc, rfl, fun junk => ?_⟩
    have : x + scale * -norm x loc scale = loc := by
      rw [mul_neg, ← sub_eq_add_neg, loc_eq hs]
    simp [exponLink, this, -mul_neg]
  · refine ⟨scale, rfl, fun junk => ?_⟩
    have : -(x - loc) / -norm x loc scale = scale := by
      rw [neg_div_neg_eq, scale_eq hx hs]
    have h2 : dv (-(x - loc)) (-norm x loc scale) = some scale := by
      rw [dv_of_ne (neg_ne_zero.2 hz.ne'), this]
    simp only [exponLink]
    norm_num
    rw [← h2]
    norm_num

theorem weibull_root {c loc scale x : ℝ} (hx : loc < x) (hs : 0 < scale) (hc : c ≠ 0) :
    (-weibullLogsf c loc scale x) ^ (1 / c) = norm x loc scale := by
  have hz := norm_pos hx hs
  rw [weibullLogsf, neg_neg, ← Real.rpow_mul hz.le, mul_one_div_cancel hc, Real.rpow_one]

/-- **C235.** Weibull distribution: the location and the scale are recovered, and the shape unless
the quantile is one scale above the location (where the probability does not depend on it). -/
theorem C235_weibull_min (c loc scale x : ℝ) (hc : 0 < c) (hx : loc < x) (hs : 0 < scale) (i : ℕ)
    (hi : i < 3) (h1 : i = 0 → norm x loc scale ≠ 1) :
    Recovers weibullMinLink (weibullLogsf c loc scale x) x [c, loc, scale] i := by
  have hz := norm_pos hx hs
  have hp : 0 < -weibullLogsf c loc scale x := by
    rw [weibullLogsf, neg_neg]; exact Real.rpow_pos_of_pos hz c
  interval_cases i
  · refine ⟨c, rfl, fun junk => ?_⟩
    have hl : Real.log (norm x loc scale) ≠ 0 := by
      rw [Real.log_ne_zero]
      exact ⟨hz.ne', h1 rfl, by linarith⟩
    have hv : Real.log (-weibullLogsf c loc scale x) / Real.log (norm x loc scale) = c := by
      rw [weibullLogsf, neg_neg, Real.log_rpow hz]
      field_simp
    simp [weibullMinLink, lg_of_pos hp, dv_norm hs, lg_of_pos hz, dv_of_ne hl, hv,
      -Real.log_neg_eq_log]
  · refine ⟨loc, rfl, fun junk => ?_⟩
    have := weibull_root hx hs hc.ne'
    simp only [one_div] at this
    simp [weibullMinLink, dv_of_ne hc.ne', pw_of_pos hp, this, loc_eq hs]
  · refine ⟨scale, rfl, fun junk => ?_⟩
    have := weibull_root hx hs hc.ne'
    simp only [one_div] at this
    simp [weibullMinLink, dv_of_ne hc.ne', pw_of_pos hp, this, dv_of_ne hz.ne', scale_eq hx hs]

/-- Indices that are not parameters are refused. -/
theorem C235_index (x logsf c loc scale : ℝ) (i : ℤ) (hi : i < 0 ∨ 2 < i) :
    exponLink x logsf [loc, scale] i = .error .indexError ∧
      weibullMinLink x logsf [c, loc, scale] i = .error .indexError := by
  have h0 : i ≠ 0 := by omega
  have h1 : i ≠ 1 := by omega
  have h2 : i ≠ 2 := by omega
  simp [exponLink, weibullMinLink, h0, h1, h2]

example : Recovers weibullMinLink (weibullLogsf 2 0 1 3) 3 [2, 0, 1] 0 :=
  C235_weibull_min 2 0 1 3 (by norm_num) (by norm_num) (by norm_num) 0 (by norm_num)
    (fun _ => by norm_num [norm])

/-! ### C236: generalised Pareto, Gumbel and generalised extreme value -/

theorem genpareto_expm1 {c loc scale x : ℝ} (hc : c ≠ 0) (hsup : 0 < 1 + c * norm x loc scale) :
    expm1 (-c * genparetoLogsf c loc scale x) = c * norm x loc scale := by
  rw [genparetoLogsf, if_neg hc, expm1]
  have : -c * (-Real.log (1 + c * norm x loc scale) / c) = Real.log (1 + c * norm x loc scale) := by
    field_simp
  rw [this, Real.exp_log hsup]
  ring

/-- **C236** (partial). Generalised Pareto distribution: the scale is recovered for every shape, the
location only for shape zero.  Missing: the location for other shapes, which is wrong
(`C236_genpareto_loc_refuted`), and the shape (not implemented). -/
theorem C236_genpareto_partial (c loc scale x : ℝ) (hx : loc < x) (hs : 0 < scale)
    (hsup : 0 < 1 + c * norm x loc scale) :
    Recovers genparetoLink (genparetoLogsf c loc scale x) x [c, loc, scale] 2 ∧
      (c = 0 → Recovers genparetoLink (genparetoLogsf c loc scale x) x [c, loc, scale] 1) ∧
      genparetoLink x (genparetoLogsf c loc scale x) [c, loc, scale] 0 =
        .error .notImplemented := by
  have hz := norm_pos hx hs
  refine ⟨⟨scale, rfl, fun junk => ?_⟩, ?_, by simp [genparetoLink]⟩
  · by_cases hc : c = 0
    · obtain ⟨v, hv, h⟩ := C235_expon x loc scale hx hs 1 (by norm_num)
      have := h junk
      simp at hv
      subst hv
      simp only [genparetoLogsf, hc, if_true]
      simpa [genparetoLink, hc] using this
    · have e := genpareto_expm1 hc hsup
      have hne : c * norm x loc scale ≠ 0 := mul_ne_zero hc hz.ne'
      have hv : (x - loc) * c / (c * norm x loc scale) = scale := by
        rw [mul_comm (x - loc), mul_div_mul_left _ _ hc, scale_eq hx hs]
      simp [genparetoLink, hc]
      simp only [neg_mul] at e
      rw [e, dv_of_ne hne, hv]
  · intro hc
    refine ⟨loc, rfl, fun junk => ?_⟩
    obtain ⟨v, hv, h⟩ := C235_expon x loc scale hx hs 0 (by norm_num)
    have := h junk
    simp at hv
    subst hv
    simp only [genparetoLogsf, hc, if_true]
    simpa [genparetoLink, hc] using this

/-- Shape one, location 0, scale 1, quantile 1: the link returns `1/2` for the location. -/
theorem C236_genpareto_loc_refuted :
    genparetoLink 1 (genparetoLogsf 1 0 1 1) [1, 0, 1] 1 = .ok (some (1 / 2)) := by
  have h : genparetoLogsf 1 0 1 1 = -Real.log 2 := by norm_num [genparetoLogsf, norm]
  rw [h]
  have e : expm1 (1 * -Real.log 2) = -(1 / 2) := by
    rw [expm1, one_mul, Real.exp_neg, Real.exp_log (by norm_num)]; norm_num
  simp only [genparetoLink, e]
  norm_num

theorem expm1_log_one_sub {y : ℝ} (h : y < 1) : -expm1 (Real.log (1 - y)) = y := by
  rw [expm1, Real.exp_log (by linarith)]; ring

/-- The double logarithm of the distribution function that the link functions compute. -/
theorem loglog_cdf {u : ℝ} (hu : 0 < u) :
    (do lg (-(← lg (-expm1 (Real.log (1 - Real.exp (-u)))))) : Option ℝ) = some (Real.log u) := by
  have h1 : Real.exp (-u) < 1 := by rw [Real.exp_lt_one_iff]; linarith
  rw [expm1_log_one_sub h1]
  simp [lg_of_pos (Real.exp_pos (-u)), Real.log_exp, lg_of_pos hu]

/-- **C236** (partial). Gumbel and generalised extreme value distributions: the scale is recovered
for every shape (except at `z = 0`, where the probability does not depend on it).  Missing: the
location, refused for Gumbel (`C236_gumbel_loc_refuted`) and wrong otherwise
(`C236_genextreme_loc_refuted`). -/
theorem C236_genextreme_partial (c loc scale x : ℝ) (hx : x ≠ loc) (hs : 0 < scale)
    (hsup : c ≠ 0 → 0 < 1 - c * norm x loc scale) :
    Recovers genextremeLink (genextremeLogsf c loc scale x) x [c, loc, scale] 2 := by
  have hz : norm x loc scale ≠ 0 := div_ne_zero (sub_ne_zero.2 hx) hs.ne'
  have hsc : (x - loc) / norm x loc scale = scale := by
    unfold norm
    have : x - loc ≠ 0 := sub_ne_zero.2 hx
    field_simp
  refine ⟨scale, rfl, fun junk => ?_⟩
  by_cases hc : c = 0
  · have hl := loglog_cdf (Real.exp_pos (-norm x loc scale))
    have hv : -(x - loc) / -norm x loc scale = scale := by rw [neg_div_neg_eq, hsc]
    simp only [genextremeLogsf, hc, if_true]
    simp only [Real.log_exp] at hl
    simp [genextremeLink, gumbelRLink] at hl ⊢
    rw [hl]
    simp [dv_of_ne (neg_ne_zero.2 hz)]
    rwa [neg_sub] at hv
  · have hsup := hsup hc
    have hl := loglog_cdf (Real.rpow_pos_of_pos hsup (1 / c))
    rw [Real.log_rpow hsup] at hl
    have e : expm1 (- -c * (1 / c * Real.log (1 - c * norm x loc scale))) = -c * norm x loc scale := by
      have : - -c * (1 / c * Real.log (1 - c * norm x loc scale)) =
          Real.log (1 - c * norm x loc scale) := by field_simp
      rw [this, expm1, Real.exp_log hsup]; ring
    have hv : (x - loc) * -c / (-c * norm x loc scale) = scale := by
      rw [mul_comm (x - loc), mul_div_mul_left _ _ (neg_ne_zero.2 hc), hsc]
    have hfin : genparetoLink x (1 / c * Real.log (1 - c * norm x loc scale)) [-c, loc, junk] 2 =
        .ok (some scale) := by
      have : genparetoLink x (1 / c * Real.log (1 - c * norm x loc scale)) [-c, loc, junk] 2 =
          .ok (dv ((x - loc) * -c) (expm1 (- -c * (1 / c * Real.log (1 - c * norm x loc scale))))) := by
        simp [genparetoLink, hc]
      rw [this, e, dv_of_ne (mul_ne_zero (neg_ne_zero.2 hc) hz), hv]
    show genextremeLink x _ [c, loc, junk] 2 = _
    rw [← hfin]
    simp only [genextremeLink, genextremeLogsf, hc, if_false]
    rw [hl]
    norm_num

/-- **C236** Gumbel distribution: the scale. -/
theorem C236_gumbel_partial (loc scale x : ℝ) (hx : x ≠ loc) (hs : 0 < scale) :
    Recovers gumbelRLink (genextremeLogsf 0 loc scale x) x [loc, scale] 1 := by
  obtain ⟨v, hv, h⟩ := C236_genextreme_partial 0 loc scale x hx hs (fun h => absurd rfl h)
  refine ⟨v, by simpa using hv, fun junk => ?_⟩
  have := h junk
  simpa [genextremeLink] using this

/-- The location of the Gumbel distribution is refused with an index error. -/
theorem C236_gumbel_loc_refuted (loc scale x logsf : ℝ) :
    gumbelRLink x logsf [loc, scale] 0 = .error .indexError := by
  simp [gumbelRLink]

/-- Shape one, location 0, scale 1, quantile 1/2: the link returns `-1/2` for the location. -/
theorem C236_genextreme_loc_refuted :
    genextremeLink (1 / 2) (genextremeLogsf 1 0 1 (1 / 2)) [1, 0, 1] 1 = .ok (some (-1 / 2)) := by
  have h : genextremeLogsf 1 0 1 (1 / 2) = Real.log (1 - Real.exp (-(1 / 2))) := by
    norm_num [genextremeLogsf, norm]
  have hl := loglog_cdf (show (0 : ℝ) < 1 / 2 by norm_num)
  rw [h]
  have e : expm1 (-1 * Real.log (1 / 2)) = 1 := by
    rw [expm1, neg_one_mul, Real.exp_neg, Real.exp_log (by norm_num)]; norm_num
  have hg : genparetoLink (1 / 2) (Real.log (1 / 2)) [-1, 0, 1] 1 = .ok (some (-1 / 2)) := by
    simp only [genparetoLink, e]
    norm_num
  rw [← hg]
  simp only [genextremeLink]
  rw [hl]
  norm_num

example : Recovers genparetoLink (genparetoLogsf (1 / 4) 0 2 3) 3 [1 / 4, 0, 2] 2 :=
  (C236_genpareto_partial (1 / 4) 0 2 3 (by norm_num) (by norm_num) (by norm_num [norm])).1

example : Recovers genextremeLink (genextremeLogsf (1 / 4) 0 2 3) 3 [1 / 4, 0, 2] 2 :=
  C236_genextreme_partial (1 / 4) 0 2 3 (by norm_num) (by norm_num) (fun _ => by norm_num [norm])

/-! ### C237: Rayleigh and truncated Rayleigh -/

theorem truncray_sqrt {c loc scale x : ℝ} (hc : 0 ≤ c) (hx : loc < x) (hs : 0 < scale) :
    0 ≤ c * c - 2 * truncrayleighLogsf c loc scale x ∧
      √(c * c - 2 * truncrayleighLogsf c loc scale x) = norm x loc scale + c := by
  have hz := norm_pos hx hs
  have e : c * c - 2 * truncrayleighLogsf c loc scale x = (norm x loc scale + c) ^ 2 := by
    rw [truncrayleighLogsf]; ring
  rw [e]
  exact ⟨sq_nonneg _, Real.sqrt_sq (by linarith)⟩

/-- **C237** (partial). Rayleigh and truncated Rayleigh distributions: the location is recovered.
Missing: scale and truncation, which are wrong (`C237_scale_refuted`), and the lookup by name of
the truncated distribution, which fails (`C237_lookup_refuted`). -/
theorem C237_loc_partial (c loc scale x : ℝ) (hc : 0 ≤ c) (hx : loc < x) (hs : 0 < scale) :
    Recovers rayleighLink (truncrayleighLogsf 0 loc scale x) x [loc, scale] 0 ∧
      Recovers truncrayleighLink (truncrayleighLogsf c loc scale x) x [c, loc, scale] 1 := by
  constructor
  · refine ⟨loc, rfl, fun junk => ?_⟩
    obtain ⟨h1, h2⟩ := truncray_sqrt (c := 0) le_rfl hx hs
    rw [mul_zero, zero_sub, ← neg_mul] at h1 h2
    simp only [add_zero] at h2
    have : x - scale * norm x loc scale = loc := loc_eq hs
    simp [rayleighLink]
    simp only [neg_mul] at h1 h2
    rw [sq_of_nonneg h1, h2]
    simp [this]
  · refine ⟨loc, rfl, fun junk => ?_⟩
    obtain ⟨h1, h2⟩ := truncray_sqrt hc hx hs
    have : x - scale * norm x loc scale = loc := loc_eq hs
    simp [truncrayleighLink, sq_of_nonneg h1, h2, this]

/-- Location 0, scale 1, quantile 2: the link of the Rayleigh distribution returns 2 for the scale;
truncation 1: the link of the truncated one returns 2 for the scale and 3 for the truncation. -/
theorem C237_scale_refuted :
    rayleighLink 2 (truncrayleighLogsf 0 0 1 2) [0, 1] 1 = .ok (some 2) ∧
      truncrayleighLink 2 (truncrayleighLogsf 1 0 1 2) [1, 0, 1] 2 = .ok (some 2) ∧
      truncrayleighLink 2 (truncrayleighLogsf 1 0 1 2) [1, 0, 1] 0 = .ok (some 3) := by
  obtain ⟨h1, h2⟩ := truncray_sqrt (c := 0) (loc := 0) (scale := 1) (x := 2) le_rfl (by norm_num)
    (by norm_num)
  obtain ⟨h3, h4⟩ := truncray_sqrt (c := 1) (loc := 0) (scale := 1) (x := 2) (by norm_num)
    (by norm_num) (by norm_num)
  refine ⟨?_, ?_, ?_⟩
  · rw [mul_zero, zero_sub, ← neg_mul] at h1 h2
    simp only [rayleighLink, sq_of_nonneg h1, h2]
    norm_num [dv, norm]
  · simp only [truncrayleighLink, sq_of_nonneg h3, h4]
    norm_num [dv, norm]
  · norm_num [truncrayleighLink, dv, truncrayleighLogsf, norm]

/-- The table of link functions has no entry under the name of the truncated Rayleigh distribution
(`/repo/src/wafo/stats/_continuous_distns.py` L6712); the entry is misspelt. -/
theorem C237_lookup_refuted : (links "truncrayleigh").isNone ∧ (links "trunclayleigh").isSome := by
  constructor <;> simp [links]

example : Recovers truncrayleighLink (truncrayleighLogsf 1 0 1 2) 2 [1, 0, 1] 1 :=
  (C237_loc_partial 1 0 1 2 (by norm_num) (by norm_num) (by norm_num)).2

/-! ### C238: exponentiated Weibull, Burr and generalised exponential -/

theorem exponweib_base {c loc scale x : ℝ} (hx : loc < x) (hs : 0 < scale) :
    0 < 1 - Real.exp (-(norm x loc scale) ^ c) ∧ 1 - Real.exp (-(norm x loc scale) ^ c) < 1 := by
  have hp := Real.rpow_pos_of_pos (norm_pos hx hs) c
  have h1 : Real.exp (-(norm x loc scale) ^ c) < 1 := by rw [Real.exp_lt_one_iff]; linarith
  have h2 := Real.exp_pos (-(norm x loc scale) ^ c)
  constructor <;> linarith

/-- **C238** (partial). Exponentiated Weibull distribution: the exponent is recovered; Burr
distribution: the second shape is.  Missing: the other parameters of these and those of the
generalised exponential distribution (`C238_exponweib_refuted`, `C238_burr_refuted`,
`C238_genexpon_refuted`). -/
theorem C238_shape_partial (a c loc scale x : ℝ) (ha : 0 < a) (hx : loc < x) (hs : 0 < scale) :
    Recovers exponweibLink (exponweibLogsf a c loc scale x) x [a, c, loc, scale] 0 ∧
      Recovers burrLink (burrLogsf c a loc scale x) x [c, a, loc, scale] 1 := by
  have hz := norm_pos hx hs
  constructor
  · refine ⟨a, rfl, fun junk => ?_⟩
    obtain ⟨b1, b2⟩ := exponweib_base (c := c) hx hs
    have hlt : (1 - Real.exp (-(norm x loc scale) ^ c)) ^ a < 1 :=
      Real.rpow_lt_one b1.le b2 ha
    have hpos : 0 < (1 - Real.exp (-(norm x loc scale) ^ c)) ^ a := Real.rpow_pos_of_pos b1 a
    have e1 : -expm1 (exponweibLogsf a c loc scale x) =
        (1 - Real.exp (-(norm x loc scale) ^ c)) ^ a := expm1_log_one_sub hlt
    have e2 : -expm1 (-(norm x loc scale) ^ c) = 1 - Real.exp (-(norm x loc scale) ^ c) := by
      rw [expm1]; ring
    have hl : Real.log (1 - Real.exp (-(norm x loc scale) ^ c)) ≠ 0 := by
      have := Real.log_neg b1 b2
      exact this.ne
    have hv : Real.log ((1 - Real.exp (-(norm x loc scale) ^ c)) ^ a) /
        Real.log (1 - Real.exp (-(norm x loc scale) ^ c)) = a := by
      rw [Real.log_rpow b1]; field_simp
    simp [exponweibLink, e1, lg_of_pos hpos, dv_norm hs, pw_of_pos hz, e2, lg_of_pos b1, dv_of_ne hl,
      hv]
  · refine ⟨a, rfl, fun junk => ?_⟩
    have hp := Real.rpow_pos_of_pos hz (-c)
    have b1 : 1 < 1 + (norm x loc scale) ^ (-c) := by linarith
    have b0 : 0 < 1 + (norm x loc scale) ^ (-c) := by linarith
    have hlt : (1 + (norm x loc scale) ^ (-c)) ^ (-a) < 1 :=
      Real.rpow_lt_one_of_one_lt_of_neg b1 (by linarith)
    have hpos : 0 < (1 + (norm x loc scale) ^ (-c)) ^ (-a) := Real.rpow_pos_of_pos b0 _
    have e1 : -expm1 (burrLogsf c a loc scale x) = (1 + (norm x loc scale) ^ (-c)) ^ (-a) :=
      expm1_log_one_sub hlt
    have hl : Real.log (1 + (norm x loc scale) ^ (-c)) ≠ 0 := (Real.log_pos b1).ne'
    have hv : -Real.log ((1 + (norm x loc scale) ^ (-c)) ^ (-a)) /
        Real.log (1 + (norm x loc scale) ^ (-c)) = a := by
      rw [Real.log_rpow b0]; field_simp
    simp [burrLink, e1, lg_of_pos hpos, dv_norm hs, pw_of_pos hz, lg1p, lg_of_pos b0, dv_of_ne hl, hv]

/-- The Burr link gives no finite value for the first shape, the location and the scale, for any
probability and any parameters with positive second shape. -/
theorem C238_burr_refuted (c d loc scale x logsf : ℝ) (hd : 0 < d) (hl : logsf < 0) :
    burrLink x logsf [c, d, loc, scale] 0 = .ok none ∧
      burrLink x logsf [c, d, loc, scale] 2 = .ok none ∧
      burrLink x logsf [c, d, loc, scale] 3 = .ok none := by
  have he : Real.exp logsf < 1 := by rwa [Real.exp_lt_one_iff]
  have he0 := Real.exp_pos logsf
  have hpos : 0 < -expm1 logsf := by rw [expm1]; linarith
  have hlog : Real.log (-expm1 logsf) < 0 := Real.log_neg hpos (by rw [expm1]; linarith)
  have hy : lg1p (-Real.exp (-Real.log (-expm1 logsf) / d)) = none := by
    refine if_neg ?_
    have : 0 < -Real.log (-expm1 logsf) / d := div_pos (by linarith) hd
    have := Real.one_lt_exp_iff.2 this
    linarith
  simp [burrLink, lg_of_pos hpos, dv_of_ne hd.ne', hy, -Real.log_neg_eq_log]

/-- Exponentiated Weibull, exponent 1, shape 1, location 0, scale 1, quantile `log 2`: the link
returns `log 2 + log(1 - log 2)` for the location, which is not 0. -/
theorem C238_exponweib_refuted :
    ∃ v, exponweibLink (Real.log 2) (exponweibLogsf 1 1 0 1 (Real.log 2)) [1, 1, 0, 1] 2 =
      .ok (some v) ∧ v ≠ 0 := by
  have h2 : 0 < Real.log 2 := Real.log_pos (by norm_num)
  have hlt : Real.log 2 < 1 := by
    have := Real.log_lt_sub_one_of_pos (show (0 : ℝ) < 2 by norm_num) (by norm_num)
    linarith
  have hl : exponweibLogsf 1 1 0 1 (Real.log 2) = Real.log (1 / 2) := by
    have : Real.exp (-Real.log 2) = 1 / 2 := by
      rw [Real.exp_neg, Real.exp_log (by norm_num)]; norm_num
    simp [exponweibLogsf, norm, this]
  have e1 : -expm1 (Real.log (1 / 2)) = 1 / 2 := by
    rw [expm1, Real.exp_log (by norm_num)]; norm_num
  have e2 : Real.log (1 / 2) = -Real.log 2 := by rw [one_div, Real.log_inv]
  have h1p : lg1p (-(Real.log 2)) = some (Real.log (1 - Real.log 2)) := by
    rw [lg1p, ← sub_eq_add_neg, lg_of_pos (by linarith)]
  have hneg : Real.log (1 - Real.log 2) < 0 := Real.log_neg (by linarith) (by linarith)
  refine ⟨Real.log 2 - -Real.log (1 - Real.log 2), ?_, ?_⟩
  · rw [hl]
    have hA : lg (-expm1 (Real.log (1 / 2))) = some (-Real.log 2) := by
      rw [e1, lg_of_pos (by norm_num), e2]
    have hP : pw (-Real.log (1 - Real.log 2)) (1 / 1) = some (-Real.log (1 - Real.log 2)) := by
      rw [pw_of_pos (by linarith), div_one, Real.rpow_one]
    have hP2 : pw (Real.log 2) (1 / 1) = some (Real.log 2) := by
      rw [pw_of_pos h2, div_one, Real.rpow_one]
    have hD : dv 1 1 = some (1 / 1) := dv_of_ne one_ne_zero
    simp only [exponweibLink, hA, hD, Option.bind_eq_bind, Option.bind_some, Option.pure_def, neg_neg,
      hP2, h1p, hP, mul_one]
    norm_num
  · have : Real.log (1 - Real.log 2) ≤ -Real.log 2 := by
      have := Real.log_le_sub_one_of_pos (show 0 < 1 - Real.log 2 by linarith)
      linarith
    have h3 : Real.log (1 - Real.log 2) ≠ -Real.log 2 := by
      intro h
      have h4 := congrArg Real.exp h
      rw [Real.exp_log (by linarith), Real.exp_neg, Real.exp_log (by norm_num)] at h4
      have h5 : Real.log 2 = 1 / 2 := by linarith
      have h6 : Real.exp (1 / 2) = 2 := by rw [← h5, Real.exp_log (by norm_num)]
      have h7 := Real.add_one_lt_exp (show (-(1 / 2) : ℝ) ≠ 0 by norm_num)
      rw [Real.exp_neg, h6] at h7
      norm_num at h7
    intro h
    apply h3
    linarith

/-- Generalised exponential distribution with `a = b = c = scale = 1`, location 0, quantile 1: both
implemented parameters come out wrong. -/
theorem C238_genexpon_refuted :
    ∃ v w, genexponLink 1 (genexponLogsf 1 1 1 0 1 1) [1, 1, 1, 0, 1] 0 = .ok (some v) ∧ v ≠ 1 ∧
      genexponLink 1 (genexponLogsf 1 1 1 0 1 1) [1, 1, 1, 0, 1] 1 = .ok (some w) ∧ w ≠ 1 := by
  have hE := Real.exp_pos (-1)
  have hl : genexponLogsf 1 1 1 0 1 1 = -1 - Real.exp (-1) := by
    norm_num [genexponLogsf, norm]; ring
  have hf : 1 + expm1 (-1) = Real.exp (-1) := by rw [expm1]; ring
  refine ⟨-1, (2 + Real.exp (-1)) / Real.exp (-1), ?_, by norm_num, ?_, ?_⟩
  · rw [hl]
    norm_num [genexponLink, dv, hf]
  · rw [hl]
    norm_num [genexponLink, dv, hf]
    ring
  · intro h
    rw [div_eq_one_iff_eq hE.ne'] at h
    linarith

example : Recovers exponweibLink (exponweibLogsf 2 3 0 1 2) 2 [2, 3, 0, 1] 0 :=
  (C238_shape_partial 2 3 0 1 2 (by norm_num) (by norm_num) (by norm_num)).1

end Wafo.Est
