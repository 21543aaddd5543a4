import Verif.Trf.Model
import Mathlib.Topology.Order.IntermediateValue
import Mathlib.Topology.ContinuousOn
import Mathlib.Tactic.Linarith
import Mathlib.Tactic.NormNum
import Mathlib.Tactic.FieldSimp
import Mathlib.Tactic.LinearCombination
import Mathlib.Tactic.Positivity
import Mathlib.Tactic.Continuity

/-!
Properties of the linear and the exponential (Ochi) transformation and of the distance to the Gaussian model: C78, C79, C80, C107
and C110.
-/

namespace Wafo.Trf

/-! ### `TrLinear` -/

/-- **C78 (round trip).**  Transforming a value together with any number of derivatives to the Gaussian world and back returns
them. -/
theorem C78_dat_gauss_dat (s : Stats) (hs : s.sigma ≠ 0) (hy : s.ysigma ≠ 0) (x : ℝ) (xi : List ℝ) :
    ∃ y yi, linDat2gauss s x xi = y :: yi ∧ yi.length = xi.length ∧ linGauss2dat s y yi = x :: xi := by
  refine ⟨_, _, rfl, by simp, ?_⟩
  simp only [linGauss2dat, linTransform, List.map_map]
  congr 1
  · field_simp; ring
  · rw [List.map_congr_left (g := id) (fun v _ => by simp only [Function.comp_apply, id]; field_simp)]
    simp

/-- **C78 (round trip, other direction).** -/
theorem C78_gauss_dat_gauss (s : Stats) (hs : s.sigma ≠ 0) (hy : s.ysigma ≠ 0) (y : ℝ) (yi : List ℝ) :
    ∃ x xi, linGauss2dat s y yi = x :: xi ∧ linDat2gauss s x xi = y :: yi := by
  refine ⟨_, _, rfl, ?_⟩
  simp only [linDat2gauss, linTransform, List.map_map]
  congr 1
  · field_simp; ring
  · rw [List.map_congr_left (g := id) (fun v _ => by simp only [Function.comp_apply, id]; field_simp)]
    simp

/-- **C78 (meaning).**  The standardized values agree, and derivatives are scaled by the ratio of the standard deviations. -/
theorem C78_standardized (s : Stats) (hy : s.ysigma ≠ 0) (x : ℝ) (xi : List ℝ) :
    ∃ y yi, linDat2gauss s x xi = y :: yi ∧ (y - s.ymean) / s.ysigma = (x - s.mean) / s.sigma ∧
      yi = xi.map (fun v => v * (s.ysigma / s.sigma)) := by
  refine ⟨_, _, rfl, ?_, rfl⟩
  field_simp
  ring

example : linDat2gauss ⟨1, 5, 0, 3, 0, 2⟩ 6 [10, -5] = [2, 4, -2] := by
  simp only [linDat2gauss, linTransform, List.map_cons, List.map_nil]
  norm_num

/-! ### `TrOchi` -/

/-- A root finder like `brentq`: given a continuous function with a sign change it returns a root in the interval. -/
def RootFinder (brentq : (ℝ → ℝ) → ℝ → ℝ → ℝ) : Prop :=
  ∀ f a b, a ≤ b → ContinuousOn f (Set.Icc a b) → 0 ≤ f a → f b ≤ 0 → brentq f a b ∈ Set.Icc a b ∧ f (brentq f a b) = 0

/-- Root finders exist. -/
theorem rootFinder_exists : ∃ brentq, RootFinder brentq := by
  classical
  refine ⟨fun f a b => if h : ∃ x ∈ Set.Icc a b, f x = 0 then h.choose else a, ?_⟩
  intro f a b hab hf h1 h2
  have h : ∃ x ∈ Set.Icc a b, f x = 0 := by
    obtain ⟨x, hx, h⟩ := intermediate_value_Icc' hab hf (show (0 : ℝ) ∈ Set.Icc (f b) (f a) from ⟨h2, h1⟩)
    exact ⟨x, hx, h⟩
  simp only [h, dif_pos]
  exact h.choose_spec

theorem g2_continuous (k : ℝ) : Continuous (g2 k) := by
  unfold g2
  fun_prop

/-- **C80 (bracket).**  For every admissible skewness the interval `[1, 2]` handed to the root finder contains a sign change. -/
theorem C80_bracket (k : ℝ) (hk : |k| ≤ 2.82842712474619) : 0 ≤ g2 k 1 ∧ g2 k 2 ≤ 0 := by
  constructor
  · unfold g2
    simp
  · unfold g2
    have h1 : |(2 : ℝ) - 1| = 1 := by norm_num
    rw [h1]
    have h2 : (1.414213562373095 : ℝ) ≤ Real.sqrt (1 * 2) := by
      apply Real.le_sqrt_of_sq_le
      norm_num
    norm_num at hk h2 ⊢
    linarith

/-- What the root finder returns. -/
theorem root_facts (brentq : (ℝ → ℝ) → ℝ → ℝ → ℝ) (hb : RootFinder brentq) (k : ℝ) (hk : |k| ≤ 2.82842712474619) (h0 : k ≠ 0) :
    1 < brentq (g2 k) 1 2 ∧ brentq (g2 k) 1 2 ≤ 2 ∧
      Real.sqrt ((brentq (g2 k) 1 2 - 1) * 2) * (4 - brentq (g2 k) 1 2) = |k| := by
  obtain ⟨h1, h2⟩ := C80_bracket k hk
  obtain ⟨⟨h3, h4⟩, h5⟩ := hb (g2 k) 1 2 (by norm_num) (g2_continuous k).continuousOn h1 h2
  set s := brentq (g2 k) 1 2 with hs
  have hne : s ≠ 1 := by
    intro h
    rw [h] at h5
    unfold g2 at h5
    simp at h5
    exact h0 h5
  have h1s : 1 < s := lt_of_le_of_ne h3 (Ne.symm hne)
  refine ⟨h1s, h4, ?_⟩
  unfold g2 at h5
  rw [abs_of_pos (by linarith : 0 < s - 1)] at h5
  linarith

/-- **C80 (equations).**  The parameters `a` and `sigma2` found for a non-zero admissible skewness satisfy
`sigma2² - 2a²·sigma2⁴ = 1` and `2a·sigma2⁴·(3 - 8a²·sigma2²) = skew`; the exponents are `1.28·a` and `3·a`. -/
theorem C80_equations_partial (brentq : (ℝ → ℝ) → ℝ → ℝ → ℝ) (hb : RootFinder brentq) (s : Stats)
    (hk : |s.skew| ≤ 2.82842712474619) (h0 : s.skew ≠ 0) :
    ∃ p a, parFromStats brentq s = .ok p ∧ p.sigma1 = s.sigma ∧ p.mean1 = s.mean ∧ p.ga = 1.28 * a ∧ p.gb = 3 * a ∧ 1 < p.sigma2 ∧
      p.sigma2 ^ 2 - 2 * a ^ 2 * p.sigma2 ^ 4 = 1 ∧ 2 * a * p.sigma2 ^ 4 * (3 - 8 * a ^ 2 * p.sigma2 ^ 2) = s.skew := by
  obtain ⟨h1, h2, h3⟩ := root_facts brentq hb s.skew hk h0
  unfold parFromStats
  rw [if_neg (not_lt.2 hk), if_neg h0]
  set q := brentq (g2 s.skew) 1 2 with hq
  refine ⟨_, ochiA s.skew q, rfl, rfl, rfl, rfl, rfl, ?_, ?_, ?_⟩
  · exact Real.lt_sqrt_of_sq_lt (by linarith)
  all_goals
    have hsq : Real.sqrt q ^ 2 = q := Real.sq_sqrt (by linarith)
    have hsq4 : Real.sqrt q ^ 4 = q ^ 2 := by rw [show (4 : ℕ) = 2 * 2 by norm_num, pow_mul, hsq]
    have hr : Real.sqrt ((q - 1) / 2) ^ 2 = (q - 1) / 2 := Real.sq_sqrt (by linarith)
    have hq0 : q ≠ 0 := by linarith
    have hs2 : ((SignType.sign s.skew : SignType) : ℝ) ^ 2 = 1 := by
      rcases lt_or_gt_of_ne h0 with h | h
      · rw [sign_neg h]; norm_num
      · rw [sign_pos h]; norm_num
    have ha2 : ochiA s.skew q ^ 2 = (q - 1) / 2 / q ^ 2 := by
      unfold ochiA
      rw [abs_of_pos (by linarith : 0 < q - 1), div_pow, mul_pow, hs2, hr, one_mul]
  · simp only
    rw [hsq, hsq4, ha2]
    field_simp
    ring
  · simp only
    rw [hsq, hsq4, ha2]
    have hroot : Real.sqrt ((q - 1) * 2) = 2 * Real.sqrt ((q - 1) / 2) := by
      rw [show (q - 1) * 2 = 2 ^ 2 * ((q - 1) / 2) by ring, Real.sqrt_mul (by norm_num), Real.sqrt_sq (by norm_num)]
    rw [hroot] at h3
    have hsk : ((SignType.sign s.skew : SignType) : ℝ) * |s.skew| = s.skew := sign_mul_abs s.skew
    have : 2 * ochiA s.skew q * q ^ 2 * (3 - 8 * ((q - 1) / 2 / q ^ 2) * q)
        = SignType.sign s.skew * (2 * Real.sqrt ((q - 1) / 2) * (4 - q)) := by
      unfold ochiA
      rw [abs_of_pos (by linarith : 0 < q - 1)]
      field_simp
      ring
    rw [this, h3, hsk]

/-- **C80 (refuted).**  The first documented equation `a·(sigma2² + mean2²) + mean2 = 0` fails for every non-zero admissible
skewness: the formula for `mean2` lacks a factor `2/a`. -/
theorem C80_mean_refuted (brentq : (ℝ → ℝ) → ℝ → ℝ → ℝ) (hb : RootFinder brentq) (s : Stats)
    (hk : |s.skew| ≤ 2.82842712474619) (h0 : s.skew ≠ 0) :
    ∃ p a, parFromStats brentq s = .ok p ∧ p.gb = 3 * a ∧ a * (p.sigma2 ^ 2 + p.mean2 ^ 2) + p.mean2 ≠ 0 ∧
      a * (p.sigma2 ^ 2 + (2 / a * p.mean2) ^ 2) + 2 / a * p.mean2 = 0 := by
  obtain ⟨h1, h2, h3⟩ := root_facts brentq hb s.skew hk h0
  unfold parFromStats
  rw [if_neg (not_lt.2 hk), if_neg h0]
  set q := brentq (g2 s.skew) 1 2 with hq
  have hsq : Real.sqrt q ^ 2 = q := Real.sq_sqrt (by linarith)
  have hr : Real.sqrt ((q - 1) / 2) ^ 2 = (q - 1) / 2 := Real.sq_sqrt (by linarith)
  have hq0 : 0 < q := by linarith
  have hs2 : ((SignType.sign s.skew : SignType) : ℝ) ^ 2 = 1 := by
    rcases lt_or_gt_of_ne h0 with h | h
    · rw [sign_neg h]; norm_num
    · rw [sign_pos h]; norm_num
  have ha2 : ochiA s.skew q ^ 2 = (q - 1) / 2 / q ^ 2 := by
    unfold ochiA
    rw [abs_of_pos (by linarith : 0 < q - 1), div_pow, mul_pow, hs2, hr, one_mul]
  set a := ochiA s.skew q with ha
  have haq : a ^ 2 * q = (q - 1) / (2 * q) := by rw [ha2]; field_simp
  have ha0 : a ≠ 0 := by
    intro h
    rw [h] at ha2
    have : 0 < (q - 1) / 2 / q ^ 2 := by
      have : 0 < q - 1 := by linarith
      positivity
    rw [← ha2] at this
    norm_num at this
  have halt : a < 1 := by
    by_contra h
    rw [not_lt] at h
    have h5 : 1 ≤ a ^ 2 := by nlinarith
    have h6 : a ^ 2 * q < 1 := by rw [haq, div_lt_one (by positivity)]; linarith
    nlinarith
  have hD : 0 ≤ 1 - 4 * a ^ 2 * q := by
    have : 1 - 4 * a ^ 2 * q = (2 - q) / q := by
      rw [mul_assoc, haq]; field_simp; ring
    rw [this]
    exact div_nonneg (by linarith) hq0.le
  set D := Real.sqrt (1 - 4 * a ^ 2 * q) with hDd
  have hDsq : D ^ 2 = 1 - 4 * a ^ 2 * q := Real.sq_sqrt hD
  have hD0 : 0 ≤ D := Real.sqrt_nonneg _
  have hm : ochiMean2 a q = -(a ^ 2 * q) / (1 + D) := by
    unfold ochiMean2
    simp only
    rw [← hDd]
    have h7 : -1 - D ≠ 0 := by linarith
    have h8 : 1 + D ≠ 0 := by linarith
    rw [div_div_eq_mul_div, div_eq_div_iff h7 h8]
    ring
  refine ⟨_, a, rfl, rfl, ?_, ?_⟩
  · simp only
    rw [hsq]
    have hm' : (1 + D) * ochiMean2 a q = -(a ^ 2 * q) := by rw [hm]; field_simp
    set m := ochiMean2 a q
    have hmneg : m < 0 := by
      rw [hm]
      apply div_neg_of_neg_of_pos _ (by linarith)
      have : 0 < a ^ 2 := by positivity
      nlinarith
    rcases lt_or_gt_of_ne ha0 with h | h
    · have : a * (q + m ^ 2) < 0 := mul_neg_of_neg_of_pos h (by positivity)
      linarith
    · have h9 : -m ≤ a ^ 2 * q := by nlinarith
      have h10 : a ^ 2 * q < a * q := by nlinarith
      have : 0 < a * m ^ 2 := mul_pos h (by have := sq_pos_of_neg hmneg; linarith)
      intro h11
      nlinarith
  · simp only
    rw [hsq, hm]
    have h8 : 1 + D ≠ 0 := by linarith
    field_simp
    have h12 : 4 * a ^ 2 * q = 1 - D ^ 2 := by linarith
    have h13 : 4 * (a ^ 2 * q) ^ 2 = (a ^ 2 * q) * (1 - D ^ 2) := by rw [← h12]; ring
    linear_combination (a * q) * h12

/-- **C80 (errors).**  Exactly the skewness values beyond the literal bound are rejected. -/
theorem C80_rejected (brentq : (ℝ → ℝ) → ℝ → ℝ → ℝ) (s : Stats) :
    Ochi.init brentq s = .error .valueError ↔ 2.82842712474619 < |s.skew| := by
  unfold Ochi.init parFromStats
  constructor
  · intro h
    by_contra hk
    rw [if_neg (by simpa using hk)] at h
    split at h <;> simp [Except.map] at h
  · intro h
    rw [if_pos (by simpa using h)]
    rfl

/-- The exponential piece. -/
noncomputable def phi (g x : ℝ) : ℝ := if g ≠ 0 then -expm1 (-g * x) / g else x

theorem phi_zero (g : ℝ) : phi g 0 = 0 := by
  unfold phi expm1; simp

theorem phi_strictMono (g : ℝ) : StrictMono (phi g) := by
  intro x y hxy
  unfold phi expm1
  by_cases hg : g = 0
  · simp [hg, hxy]
  · simp only [ne_eq, hg, not_false_eq_true, if_true]
    rcases lt_or_gt_of_ne hg with h | h
    · rw [div_lt_div_right_of_neg h]
      have : Real.exp (-g * x) < Real.exp (-g * y) := Real.exp_lt_exp.2 (by nlinarith)
      linarith
    · rw [div_lt_div_iff_of_pos_right h]
      have : Real.exp (-g * y) < Real.exp (-g * x) := Real.exp_lt_exp.2 (by nlinarith)
      linarith

/-- The two pieces joined. -/
noncomputable def psi (p : Phat) (x : ℝ) : ℝ := phi (if 0 ≤ x then p.ga else p.gb) x

theorem psi_sign (p : Phat) (x : ℝ) : 0 ≤ psi p x ↔ 0 ≤ x := by
  unfold psi
  have h := (phi_strictMono (if 0 ≤ x then p.ga else p.gb)).le_iff_le (a := 0) (b := x)
  rw [phi_zero] at h
  exact h

theorem psi_strictMono (p : Phat) : StrictMono (psi p) := by
  intro x y hxy
  by_cases hx : 0 ≤ x
  · unfold psi
    rw [if_pos hx, if_pos (hx.trans hxy.le)]
    exact phi_strictMono _ hxy
  · by_cases hy : 0 ≤ y
    · have h1 : psi p x < 0 := by
        by_contra h
        exact hx ((psi_sign p x).1 (not_lt.1 h))
      exact lt_of_lt_of_le h1 ((psi_sign p y).2 hy)
    · unfold psi
      rw [if_neg hx, if_neg hy]
      exact phi_strictMono _ hxy

theorem forward_eq (p : Phat) (x : ℝ) : ochiForward p x = (psi p x - p.mean2) / p.sigma2 := rfl

theorem backward_forward (p : Phat) (hs : p.sigma2 ≠ 0) (x : ℝ) : ochiBackward p (ochiForward p x) = some x := by
  have h1 : p.sigma2 * ochiForward p x + p.mean2 = psi p x := by
    rw [forward_eq]; field_simp; ring
  unfold ochiBackward
  simp only
  rw [h1]
  have h2 : (if 0 ≤ psi p x then p.ga else p.gb) = (if 0 ≤ x then p.ga else p.gb) := by
    simp only [psi_sign]
  rw [h2]
  unfold psi
  set g := (if 0 ≤ x then p.ga else p.gb)
  unfold phi expm1 log1p
  by_cases hg : g = 0
  · simp [hg]
  · simp only [ne_eq, hg, not_false_eq_true, if_true]
    have h3 : -g * (-(Real.exp (-g * x) - 1) / g) = Real.exp (-g * x) - 1 := by field_simp
    rw [h3, if_pos (by linarith [Real.exp_pos (-g * x)])]
    simp only [Option.map_some, add_sub_cancel, Real.log_exp]
    congr 1
    field_simp

theorem forward_backward (p : Phat) (hs : p.sigma2 ≠ 0) (y x : ℝ) (h : ochiBackward p y = some x) : ochiForward p x = y := by
  unfold ochiBackward at h
  simp only at h
  set y2 := p.sigma2 * y + p.mean2 with hy2
  have hpsi : psi p x = y2 := by
    by_cases hg : (if 0 ≤ y2 then p.ga else p.gb) = 0
    · rw [if_neg (by simpa using hg)] at h
      simp only [Option.some.injEq] at h
      subst h
      unfold psi phi
      rw [hg]
      simp
    · rw [if_pos hg] at h
      set g := (if 0 ≤ y2 then p.ga else p.gb) with hgd
      unfold log1p at h
      split at h
      · rename_i hlt
        simp only [Option.map_some, Option.some.injEq] at h
        have hx : phi g x = y2 := by
          unfold phi expm1
          rw [if_pos hg, ← h]
          have : -g * (-Real.log (1 + -g * y2) / g) = Real.log (1 + -g * y2) := by field_simp
          rw [this, Real.exp_log (by linarith)]
          field_simp
          ring
        have hsgn : 0 ≤ x ↔ 0 ≤ y2 := by
          have h5 := (phi_strictMono g).le_iff_le (a := 0) (b := x)
          rw [phi_zero, hx] at h5
          exact h5.symm
        unfold psi
        simp only [hsgn]
        exact hx
      · simp at h
  rw [forward_eq, hpsi, hy2]
  field_simp
  ring

/-- The parameters in use have a positive `sigma2`. -/
theorem par_sigma2 (brentq : (ℝ → ℝ) → ℝ → ℝ → ℝ) (hb : RootFinder brentq) (s : Stats) (p : Phat)
    (h : parFromStats brentq s = .ok p) : 0 < p.sigma2 ∧ p.sigma1 = s.sigma ∧ p.mean1 = s.mean := by
  by_cases hk : |s.skew| ≤ 2.82842712474619
  · by_cases h0 : s.skew = 0
    · unfold parFromStats at h
      rw [if_neg (not_lt.2 hk), if_pos h0] at h
      simp only [Except.ok.injEq] at h
      subst h
      simp
    · obtain ⟨p', a, h1, h2, h3, -, -, h4, -⟩ := C80_equations_partial brentq hb s hk h0
      rw [h] at h1
      simp only [Except.ok.injEq] at h1
      subst h1
      exact ⟨by linarith, h2, h3⟩
  · unfold parFromStats at h
    rw [if_pos (by simpa using hk)] at h
    simp at h

theorem init_getPar (brentq : (ℝ → ℝ) → ℝ → ℝ → ℝ) (hb : RootFinder brentq) (s : Stats) (o : Ochi)
    (h : Ochi.init brentq s = .ok o) : ∃ p, parFromStats brentq s = .ok p ∧ o = ⟨s, some p⟩ ∧ 0 < p.sigma2 ∧
      getPar brentq o = .ok (p, o) := by
  unfold Ochi.init at h
  cases hp : parFromStats brentq s with
  | error e => rw [hp] at h; simp [Except.map] at h
  | ok p =>
    rw [hp] at h
    simp only [Except.map, Except.ok.injEq] at h
    obtain ⟨h1, h2, h3⟩ := par_sigma2 brentq hb s p hp
    refine ⟨p, rfl, h.symm, h1, ?_⟩
    subst h
    unfold getPar
    simp only
    rw [if_neg (by rw [h2, h3]; simp)]

/-- **C79 (round trip).**  For every constructed model, transforming any value to the Gaussian world and back returns it; the
object is unchanged. -/
theorem C79_dat_gauss_dat (brentq : (ℝ → ℝ) → ℝ → ℝ → ℝ) (hb : RootFinder brentq) (s : Stats) (o : Ochi)
    (ho : Ochi.init brentq s = .ok o) (hs : s.sigma ≠ 0) (hy : s.ysigma ≠ 0) (x : ℝ) :
    ∃ y, ochiDat2gauss brentq o x = .ok (y, o) ∧ ochiGauss2dat brentq o y = .ok (some x, o) := by
  obtain ⟨p, -, rfl, hp, hg⟩ := init_getPar brentq hb s o ho
  refine ⟨ochiForward p ((x - s.mean) / s.sigma) * s.ysigma + s.ymean, by unfold ochiDat2gauss; rw [hg]; rfl, ?_⟩
  unfold ochiGauss2dat
  rw [hg]
  simp only [Except.map]
  rw [show (ochiForward p ((x - s.mean) / s.sigma) * s.ysigma + s.ymean - s.ymean) / s.ysigma =
    ochiForward p ((x - s.mean) / s.sigma) by field_simp; ring, backward_forward p hp.ne']
  simp only [Option.map_some]
  rw [div_mul_cancel₀ _ hs]
  simp

/-- **C79 (round trip, other direction).**  A Gaussian value is either transformed to a value that is transformed back to it, or
to nan, and then no value is transformed to it. -/
theorem C79_gauss_dat_gauss (brentq : (ℝ → ℝ) → ℝ → ℝ → ℝ) (hb : RootFinder brentq) (s : Stats) (o : Ochi)
    (ho : Ochi.init brentq s = .ok o) (hs : s.sigma ≠ 0) (hy : s.ysigma ≠ 0) (y : ℝ) :
    (∃ x, ochiGauss2dat brentq o y = .ok (some x, o) ∧ ochiDat2gauss brentq o x = .ok (y, o)) ∨
    (ochiGauss2dat brentq o y = .ok (none, o) ∧ ∀ x, ochiDat2gauss brentq o x ≠ .ok (y, o)) := by
  obtain ⟨p, -, ho', hp, hg⟩ := init_getPar brentq hb s o ho
  have hst : o.st = s := by rw [ho']
  cases hbk : ochiBackward p ((y - s.ymean) / s.ysigma) with
  | some xn =>
    left
    refine ⟨xn * s.sigma + s.mean, ?_, ?_⟩
    · unfold ochiGauss2dat
      rw [hg, hst]
      simp [Except.map, hbk]
    · have := forward_backward p hp.ne' _ _ hbk
      unfold ochiDat2gauss
      rw [hg, hst]
      simp only [Except.map, Except.ok.injEq, Prod.mk.injEq, and_true]
      rw [show (xn * s.sigma + s.mean - s.mean) / s.sigma = xn by field_simp; ring, this]
      field_simp
      ring
  | none =>
    right
    have h1 : ochiGauss2dat brentq o y = .ok (none, o) := by
      unfold ochiGauss2dat
      rw [hg, hst]
      simp [Except.map, hbk]
    refine ⟨h1, fun x hx => ?_⟩
    obtain ⟨y', h2, h3⟩ := C79_dat_gauss_dat brentq hb s o ho hs hy x
    rw [hx] at h2
    simp only [Except.ok.injEq, Prod.mk.injEq, and_true] at h2
    subst h2
    rw [h1] at h3
    simp at h3

/-- **C79 (monotone).**  The model is strictly increasing. -/
theorem C79_increasing (brentq : (ℝ → ℝ) → ℝ → ℝ → ℝ) (hb : RootFinder brentq) (s : Stats) (o : Ochi)
    (ho : Ochi.init brentq s = .ok o) (hs : 0 < s.sigma) (hy : 0 < s.ysigma) (x x' : ℝ) (hx : x < x') :
    ∃ y y', ochiDat2gauss brentq o x = .ok (y, o) ∧ ochiDat2gauss brentq o x' = .ok (y', o) ∧ y < y' := by
  obtain ⟨p, -, rfl, hp, hg⟩ := init_getPar brentq hb s o ho
  refine ⟨_, _, by unfold ochiDat2gauss; rw [hg]; rfl, by unfold ochiDat2gauss; rw [hg]; rfl, ?_⟩
  simp only
  rw [forward_eq, forward_eq]
  have h1 : (x - s.mean) / s.sigma < (x' - s.mean) / s.sigma := div_lt_div_of_pos_right (by linarith) hs
  have h2 := psi_strictMono p h1
  have h3 : (psi p ((x - s.mean) / s.sigma) - p.mean2) / p.sigma2 < (psi p ((x' - s.mean) / s.sigma) - p.mean2) / p.sigma2 :=
    div_lt_div_of_pos_right (by linarith) hp
  nlinarith

/-- **C79 (without skewness)** the model is the linear one. -/
theorem C79_no_skew (brentq : (ℝ → ℝ) → ℝ → ℝ → ℝ) (s : Stats) (h0 : s.skew = 0) :
    ∃ o, Ochi.init brentq s = .ok o ∧ ∀ x, ∃ y, ochiDat2gauss brentq o x = .ok (y, o) ∧ linDat2gauss s x [] = [y] := by
  refine ⟨⟨s, some ⟨s.sigma, s.mean, 0, 0, 1, 0⟩⟩, ?_, fun x => ?_⟩
  · unfold Ochi.init parFromStats
    rw [if_neg (by rw [h0]; norm_num), if_pos h0]
    rfl
  · refine ⟨(x - s.mean) / s.sigma * s.ysigma + s.ymean, ?_, ?_⟩
    · unfold ochiDat2gauss getPar
      simp [Except.map, ochiForward]
    · simp only [linDat2gauss, linTransform, List.map_nil]
      congr 1
      ring

/-- Assigning an attribute: `g.skew = k` etc. change the attributes and leave the cached parameters. -/
def Ochi.assign (o : Ochi) (s : Stats) : Ochi := ⟨s, o.phat⟩

/-- **C107 (mean and standard deviation).**  After assigning attributes such that `mean` or `sigma` changes, the object transforms
like a newly constructed one. -/
theorem C107_refreshed_partial (brentq : (ℝ → ℝ) → ℝ → ℝ → ℝ) (hb : RootFinder brentq) (s s' : Stats) (o o' : Ochi)
    (ho : Ochi.init brentq s = .ok o) (ho' : Ochi.init brentq s' = .ok o') (hne : s.sigma ≠ s'.sigma ∨ s.mean ≠ s'.mean) (x : ℝ) :
    ochiDat2gauss brentq (o.assign s') x = ochiDat2gauss brentq o' x ∧
    ochiGauss2dat brentq (o.assign s') x = ochiGauss2dat brentq o' x := by
  obtain ⟨p, hp, rfl, -, -⟩ := init_getPar brentq hb s o ho
  obtain ⟨p', hp', rfl, -, hg'⟩ := init_getPar brentq hb s' o' ho'
  obtain ⟨-, h1, h2⟩ := par_sigma2 brentq hb s p hp
  have hg : getPar brentq (Ochi.assign ⟨s, some p⟩ s') = .ok (p', ⟨s', some p'⟩) := by
    unfold getPar Ochi.assign
    simp only
    rw [if_pos (by rw [h1, h2]; exact hne.imp Ne.symm Ne.symm), hp']
    rfl
  constructor
  · unfold ochiDat2gauss
    rw [hg, hg']
    rfl
  · unfold ochiGauss2dat
    rw [hg, hg']
    rfl

/-- **C107 (refuted).**  A new skewness is ignored: after `g.skew = k` the object still transforms with the old parameters, which
differs from a newly constructed object. -/
theorem C107_skew_refuted (brentq : (ℝ → ℝ) → ℝ → ℝ → ℝ) (hb : RootFinder brentq) (k : ℝ) (hk : |k| ≤ 2.82842712474619) (h0 : k ≠ 0) :
    ∃ s o o', Ochi.init brentq s = .ok o ∧ Ochi.init brentq { s with skew := k } = .ok o' ∧
      (∀ x, (ochiDat2gauss brentq (o.assign { s with skew := k }) x).map Prod.fst = (ochiDat2gauss brentq o x).map Prod.fst) ∧
      ∃ x, (ochiDat2gauss brentq (o.assign { s with skew := k }) x).map Prod.fst ≠ (ochiDat2gauss brentq o' x).map Prod.fst := by
  obtain ⟨p, a, h1, -, h2, -⟩ := C80_mean_refuted brentq hb ⟨0, 1, k, 3, 0, 1⟩ hk h0
  obtain ⟨hp, -, -⟩ := par_sigma2 brentq hb _ p h1
  have hm : p.mean2 ≠ 0 := by
    obtain ⟨h3, h4, h5⟩ := root_facts brentq hb k hk h0
    unfold parFromStats at h1
    rw [if_neg (not_lt.2 hk), if_neg h0] at h1
    simp only [Except.ok.injEq] at h1
    rw [← h1]
    simp only
    have ha : ochiA k (brentq (g2 k) 1 2) ≠ 0 := by
      unfold ochiA
      have h6 : 0 < Real.sqrt (|brentq (g2 k) 1 2 - 1| / 2) := by
        apply Real.sqrt_pos.2
        have : 0 < |brentq (g2 k) 1 2 - 1| := abs_pos.2 (by linarith)
        linarith
      have h7 : ((SignType.sign k : SignType) : ℝ) ≠ 0 := by
        rcases lt_or_gt_of_ne h0 with h | h
        · rw [sign_neg h]; norm_num
        · rw [sign_pos h]; norm_num
      exact div_ne_zero (mul_ne_zero h7 h6.ne') (by linarith)
    unfold ochiMean2
    simp only
    refine div_ne_zero (mul_ne_zero ha (by linarith)) (div_ne_zero ?_ ha)
    have := Real.sqrt_nonneg (1 - 4 * ochiA k (brentq (g2 k) 1 2) ^ 2 * brentq (g2 k) 1 2)
    linarith
  refine ⟨⟨0, 1, 0, 3, 0, 1⟩, ⟨⟨0, 1, 0, 3, 0, 1⟩, some ⟨1, 0, 0, 0, 1, 0⟩⟩, ⟨⟨0, 1, k, 3, 0, 1⟩, some p⟩, ?_, ?_, ?_, 0, ?_⟩
  · unfold Ochi.init parFromStats
    simp [Except.map]
    norm_num
  · unfold Ochi.init
    simp only
    rw [h1]
    rfl
  · intro x
    unfold ochiDat2gauss getPar Ochi.assign
    simp [Except.map]
  · obtain ⟨p', hp', ho', -, hg⟩ := init_getPar brentq hb ⟨0, 1, k, 3, 0, 1⟩ ⟨⟨0, 1, k, 3, 0, 1⟩, some p⟩ (by
      unfold Ochi.init; rw [h1]; rfl)
    have hpp : p' = p := by simpa using ho'.symm
    subst hpp
    have e1 : (ochiDat2gauss brentq (Ochi.assign ⟨⟨0, 1, 0, 3, 0, 1⟩, some ⟨1, 0, 0, 0, 1, 0⟩⟩ ⟨0, 1, k, 3, 0, 1⟩) 0).map Prod.fst = .ok 0 := by
      unfold ochiDat2gauss getPar Ochi.assign
      simp [Except.map, ochiForward]
    have e2 : (ochiDat2gauss brentq ⟨⟨0, 1, k, 3, 0, 1⟩, some p'⟩ 0).map Prod.fst = .ok (-p'.mean2 / p'.sigma2) := by
      unfold ochiDat2gauss
      rw [hg]
      simp [Except.map, ochiForward, expm1]
    simp only at e1 e2 ⊢
    rw [e1, e2]
    intro h
    simp only [Except.ok.injEq] at h
    exact div_ne_zero (neg_ne_zero.2 hm) hp.ne' h.symm

/-- Root finders and non-trivial models exist. -/
example : ∃ brentq o, RootFinder brentq ∧ Ochi.init brentq ⟨1, 2, 1 / 2, 3, 0, 2⟩ = .ok o := by
  obtain ⟨brentq, hb⟩ := rootFinder_exists
  obtain ⟨p, a, h1, -⟩ := C80_equations_partial brentq hb ⟨1, 2, 1 / 2, 3, 0, 2⟩ (by norm_num [abs_of_pos]) (by norm_num)
  refine ⟨brentq, ⟨⟨1, 2, 1 / 2, 3, 0, 2⟩, some p⟩, hb, ?_⟩
  unfold Ochi.init
  rw [h1]
  rfl

/-! ### `dist2gauss` -/

theorem trapz_nonneg (f : ℝ → ℝ) (hf : ∀ u, 0 ≤ f u) : ∀ x : List ℝ, x.Pairwise (· < ·) → 0 ≤ trapz (x.map f) x
  | [], _ => le_refl _
  | [a], _ => le_refl _
  | a :: b :: l, h => by
    simp only [List.map_cons, trapz]
    have hab : a < b := (List.pairwise_cons.1 h).1 b (by simp)
    have := trapz_nonneg f hf (b :: l) (List.pairwise_cons.1 h).2
    simp only [List.map_cons] at this
    have h2 := hf a
    have h3 := hf b
    have : 0 ≤ (b - a) * (f a + f b) / 2 := by
      have : 0 ≤ (b - a) * (f a + f b) := mul_nonneg (by linarith) (by linarith)
      linarith
    linarith

theorem trapz_zero_iff (f : ℝ → ℝ) (hf : ∀ u, 0 ≤ f u) : ∀ x : List ℝ, 2 ≤ x.length → x.Pairwise (· < ·) →
    (trapz (x.map f) x = 0 ↔ ∀ u ∈ x, f u = 0)
  | [], h, _ => by simp at h
  | [a], h, _ => by simp at h
  | a :: b :: l, _, h => by
    have hab : a < b := (List.pairwise_cons.1 h).1 b (by simp)
    have htl := (List.pairwise_cons.1 h).2
    have hnn := trapz_nonneg f hf (b :: l) htl
    have h2 := hf a
    have h3 := hf b
    have h4 : 0 ≤ (b - a) * (f a + f b) := mul_nonneg (by linarith) (by linarith)
    simp only [List.map_cons, trapz] at hnn ⊢
    constructor
    · intro h0
      have h5 : (b - a) * (f a + f b) = 0 := by linarith
      have h6 : f a + f b = 0 := by
        rcases mul_eq_zero.1 h5 with h | h
        · linarith
        · exact h
      have h7 : trapz (f b :: l.map f) (b :: l) = 0 := by linarith
      intro u hu
      rcases List.mem_cons.1 hu with rfl | hu
      · linarith
      · rcases l with _ | ⟨c, l⟩
        · simp only [List.mem_singleton] at hu; subst hu; linarith
        · exact (trapz_zero_iff f hf (b :: c :: l) (by simp) htl).1 (by simpa using h7) u hu
    · intro h0
      have e1 := h0 a (by simp)
      have e2 := h0 b (by simp)
      rw [e1, e2]
      rcases l with _ | ⟨c, l⟩
      · simp [trapz]
      · have := (trapz_zero_iff f hf (b :: c :: l) (by simp) htl).2 (fun u hu => h0 u (List.mem_cons_of_mem _ hu))
        simp only [List.map_cons] at this
        rw [e2] at this
        simp only [List.map_cons]
        rw [this]
        ring

theorem linspace_sorted (lo hi : ℝ) (n : ℕ) (hn : 2 ≤ n) (h : lo < hi) : (linspace lo hi n).Pairwise (· < ·) := by
  unfold linspace
  rw [List.pairwise_map]
  refine List.pairwise_lt_range.imp ?_
  intro i j hij
  have h1 : (i : ℝ) < (j : ℝ) := by exact_mod_cast hij
  have h2 : (2 : ℝ) ≤ (n : ℝ) := by exact_mod_cast hn
  have h3 : 0 < (hi - lo) / ((n : ℝ) - 1) := div_pos (by linarith) (by linarith)
  nlinarith

/-- **C110 (distance to the Gaussian model).**  For every transformation the distance on a grid of at least two points is
non-negative, and it is zero exactly when the transformation is the linear one at all grid points. -/
theorem C110_distance (s : Stats) (hs : s.sigma ≠ 0) (hy : s.ysigma ≠ 0) (d2g : ℝ → ℝ) (lo hi : ℝ) (n : ℕ) (hn : 2 ≤ n) (h : lo < hi) :
    0 ≤ dist2gauss s d2g lo hi n ∧
    (dist2gauss s d2g lo hi n = 0 ↔ ∀ u ∈ linspace lo hi n, linDat2gauss s (s.sigma * u + s.mean) [] = [d2g (s.sigma * u + s.mean)]) := by
  have hsort := linspace_sorted lo hi n hn h
  constructor
  · exact trapz_nonneg _ (fun u => by positivity) _ hsort
  · unfold dist2gauss
    simp only
    rw [trapz_zero_iff _ (fun u => by positivity) _ (by simpa [linspace] using hn) hsort]
    refine forall₂_congr (fun u _ => ?_)
    rw [pow_eq_zero_iff (by norm_num)]
    simp only [linDat2gauss, linTransform, List.map_nil, List.cons.injEq, and_true]
    rw [sub_eq_zero, eq_div_iff hy]
    rw [show (s.sigma * u + s.mean - s.mean) * (s.ysigma / s.sigma) + s.ymean = u * s.ysigma + s.ymean by field_simp; ring]
    constructor <;> intro h <;> linarith

/-- **C110 (given points).**  The same for increasing points. -/
theorem C110_distance_at (s : Stats) (hs : 0 < s.sigma) (hy : s.ysigma ≠ 0) (d2g : ℝ → ℝ) (x : List ℝ) (hl : 2 ≤ x.length)
    (hx : x.Pairwise (· < ·)) :
    0 ≤ dist2gaussAt s d2g x ∧ (dist2gaussAt s d2g x = 0 ↔ ∀ v ∈ x, linDat2gauss s v [] = [d2g v]) := by
  unfold dist2gaussAt
  simp only
  have e : x.map (fun v => ((v - s.mean) / s.sigma - (d2g v - s.ymean) / s.ysigma) ^ 2) =
      (x.map (fun v => (v - s.mean) / s.sigma)).map (fun u => (u - (d2g (s.sigma * u + s.mean) - s.ymean) / s.ysigma) ^ 2) := by
    rw [List.map_map]
    apply List.map_congr_left
    intro v _
    simp only [Function.comp_apply]
    rw [show s.sigma * ((v - s.mean) / s.sigma) + s.mean = v by field_simp; ring]
  have hsort : (x.map (fun v => (v - s.mean) / s.sigma)).Pairwise (· < ·) := by
    rw [List.pairwise_map]
    exact hx.imp (fun {a b} hab => div_lt_div_of_pos_right (by linarith) hs)
  rw [e]
  refine ⟨trapz_nonneg _ (fun u => by positivity) _ hsort, ?_⟩
  rw [trapz_zero_iff _ (fun u => by positivity) _ (by simpa using hl) hsort]
  simp only [List.mem_map, forall_exists_index, and_imp, forall_apply_eq_imp_iff₂]
  refine forall₂_congr (fun v _ => ?_)
  rw [pow_eq_zero_iff (by norm_num)]
  rw [show s.sigma * ((v - s.mean) / s.sigma) + s.mean = v by field_simp; ring]
  simp only [linDat2gauss, linTransform, List.map_nil, List.cons.injEq, and_true]
  rw [sub_eq_zero, div_eq_div_iff hs.ne' hy]
  constructor
  · intro h; field_simp; linarith
  · intro h
    rw [← h]; field_simp; ring

/-- A concrete case: the linear model itself has distance 0. -/
example : dist2gauss ⟨1, 5, 0, 3, 0, 2⟩ (fun x => (x - 1) * (2 / 5)) (-5) 5 513 = 0 := by
  refine ((C110_distance ⟨1, 5, 0, 3, 0, 2⟩ (by norm_num) (by norm_num) _ (-5) 5 513 (by norm_num) (by norm_num)).2).2 ?_
  intro u _
  simp [linDat2gauss, linTransform]

theorem trapz_const (c : ℝ) : ∀ (a : ℝ) (x : List ℝ), trapz ((a :: x).map fun _ => c) (a :: x) = c * ((a :: x).getLast (by simp) - a)
  | a, [] => by simp [trapz]
  | a, b :: l => by
    have := trapz_const c b l
    simp only [List.map_cons, trapz] at this ⊢
    rw [this, List.getLast_cons_cons]
    ring

/-- **C110 (size of the distance).**  A transformation that is off by `δ` standard deviations everywhere has distance `δ²` times the length of the
range, whatever the number of points. -/
theorem C110_offset (s : Stats) (hs : s.sigma ≠ 0) (hy : s.ysigma ≠ 0) (δ lo hi : ℝ) (n : ℕ) (hn : 2 ≤ n) :
    dist2gauss s (fun v => ((v - s.mean) / s.sigma + δ) * s.ysigma + s.ymean) lo hi n = δ ^ 2 * (hi - lo) := by
  unfold dist2gauss
  simp only
  have e : (fun u => (u - ((((s.sigma * u + s.mean) - s.mean) / s.sigma + δ) * s.ysigma + s.ymean - s.ymean) / s.ysigma) ^ 2) = fun _ => δ ^ 2 := by
    funext u
    field_simp
    ring
  rw [e]
  obtain ⟨m, rfl⟩ : ∃ m, n = m + 2 := ⟨n - 2, by omega⟩
  have hl : linspace lo hi (m + 2) = lo :: (List.range (m + 1)).map (fun k : ℕ => lo + ((k + 1 : ℕ) : ℝ) * ((hi - lo) / (((m + 2 : ℕ) : ℝ) - 1))) := by
    unfold linspace
    rw [List.range_succ_eq_map, List.map_cons, List.map_map]
    simp [Function.comp_def]
  rw [hl, trapz_const]
  congr 1
  rw [List.getLast_cons (by simp)]
  simp only [List.range_succ, List.map_append, List.map_cons, List.map_nil, List.getLast_append_singleton]
  have : (m : ℝ) + 1 ≠ 0 := by positivity
  have h2 : ((m + 2 : ℕ) : ℝ) - 1 = m + 1 := by push_cast; ring
  rw [h2]
  push_cast
  field_simp
  ring

example : ∃ s : Stats, s.sigma ≠ 0 ∧ s.ysigma ≠ 0 := ⟨{ mean := 1, sigma := 2, ymean := 0, ysigma := 3, skew := 0, kurt := 3 }, by norm_num, by norm_num⟩

end Wafo.Trf
