import Mathlib.MeasureTheory.Constructions.BorelSpace.Order
import Verif.Disp.Props
import Verif.Spec.Props

/-!
Properties of the fetch limited sea state and of spectra for finite water depth.
-/

set_option linter.unusedSectionVars false

namespace Wafo.Spec

open Real MeasureTheory Set

/-- C146 for the default spectrum with peakedness 3.3. -/
example : ∃ s, Jons.mk' { gamma := some 3.3 } = .ok s ∧ ∫ w in (0 : ℝ)..(6 * (2 * π / 11)), s.call w = 49 / 16 := by
  obtain ⟨s, h1, h2, h3, h4⟩ := C146_default 7 11 3.3 (by norm_num) (by norm_num) (by norm_num)
  refine ⟨s, h1, ?_⟩
  have := C146_energy_to_cutoff _ s h1 h2 (by norm_num) (by norm_num) ⟨by norm_num, by norm_num⟩
  rw [h4] at this
  simpa [show ((7 : ℝ) ^ 2 / 16) = 49 / 16 by norm_num] using this

/-! ### Sea state from wind speed and fetch -/

/-- C148.  Froude scaling: with wind speed and square root of the fetch multiplied by `c`, periods are multiplied by `c`, heights
by `c^2`, and the shape is unchanged. -/
theorem C148_scaling (u10 fetch g c : ℝ) (hc : c ≠ 0) (m : SeaMethod) :
    seastate (c * u10) (c ^ 2 * fetch) m g =
      { seastate u10 fetch m g with Hm0 := c ^ 2 * (seastate u10 fetch m g).Hm0, Tp := c * (seastate u10 fetch m g).Tp } := by
  have hz : g * (c ^ 2 * fetch) / (c * u10) ^ 2 = g * fetch / u10 ^ 2 := by
    rw [mul_pow]
    rw [show g * (c ^ 2 * fetch) = c ^ 2 * (g * fetch) by ring]
    exact mul_div_mul_left _ _ (pow_ne_zero 2 hc)
  simp only [seastate, hz, Sea.mk.injEq]
  refine ⟨by ring, by ring, ?_⟩
  simp

/-- The dimensionless quantities. -/
theorem lewis_eps {z : ℝ} (hz : 0 < z) :
    3.512e-4 * (0.074 * z ^ (-0.22 : ℝ)) * (3.57 * z ^ (-0.33 : ℝ)) ^ (-4 : ℝ) * z ^ (-0.1 : ℝ) = 3.512e-4 * 0.074 * (3.57 : ℝ) ^ (-4 : ℝ) * z := by
  rw [mul_rpow (by norm_num) (rpow_nonneg hz.le _), ← rpow_mul hz.le]
  have : z ^ (-0.22 : ℝ) * z ^ (-0.33 * -4 : ℝ) * z ^ (-0.1 : ℝ) = z := by
    rw [← rpow_add hz, ← rpow_add hz]
    norm_num
  linear_combination (3.512e-4 * 0.074 * (3.57 : ℝ) ^ (-4 : ℝ)) * this

/-- C148.  All quantities are positive, and the peakedness is at least one. -/
theorem C148_positive (u10 fetch g : ℝ) (hu : 0 < u10) (hf : 0 < fetch) (hg : 0 < g) (m : SeaMethod) :
    0 < (seastate u10 fetch m g).Hm0 ∧ 0 < (seastate u10 fetch m g).Tp ∧ 1 ≤ (seastate u10 fetch m g).gamma ∧ 0 < (seastate u10 fetch m g).Ag := by
  have hz : 0 < g * fetch / u10 ^ 2 := by positivity
  cases m
  · simp only [seastate]; refine ⟨by positivity, by positivity, by norm_num, by positivity⟩
  · simp only [seastate]; refine ⟨by positivity, by positivity, by norm_num, by positivity⟩
  · simp only [seastate]; refine ⟨by positivity, by positivity, le_max_right _ _, by positivity⟩

/-- C148.  With a longer fetch, waves are higher and longer and the spectrum is not more peaked. -/
theorem C148_fetch (u10 f1 f2 g : ℝ) (hu : 0 < u10) (hf : 0 < f1) (hlt : f1 < f2) (hg : 0 < g) (m : SeaMethod) :
    (seastate u10 f1 m g).Hm0 < (seastate u10 f2 m g).Hm0 ∧ (seastate u10 f1 m g).Tp < (seastate u10 f2 m g).Tp ∧
    (seastate u10 f2 m g).gamma ≤ (seastate u10 f1 m g).gamma := by
  have hz : 0 < g * f1 / u10 ^ 2 := by positivity
  have hz2 : g * f1 / u10 ^ 2 < g * f2 / u10 ^ 2 := by
    apply div_lt_div_of_pos_right _ (by positivity)
    exact mul_lt_mul_of_pos_left hlt hg
  generalize hA : g * f1 / u10 ^ 2 = z at hz hz2
  generalize hB : g * f2 / u10 ^ 2 = z2 at hz2
  have hz2' : 0 < z2 := hz.trans hz2
  have pw : ∀ p : ℝ, p < 0 → z2 ^ p < z ^ p := fun p hp => rpow_lt_rpow_of_neg hz hz2 hp
  have H : ∀ a b : ℝ, 0 < a → a < b → 4 * √a * u10 ^ 2 / g < 4 * √b * u10 ^ 2 / g := by
    intro a b ha hab
    have := sqrt_lt_sqrt ha.le hab
    gcongr
  have T : ∀ a b : ℝ, 0 < a → a < b → u10 / (b * g) < u10 / (a * g) := by
    intro a b ha hab
    gcongr
  cases m
  · simp only [seastate, hA, hB]
    refine ⟨H _ _ (by positivity) ?_, T _ _ (by positivity) ?_, le_refl _⟩
    · have := rpow_lt_rpow hz.le hz2 (by norm_num : (0 : ℝ) < 1.1)
      gcongr
    · have := pw (-0.33) (by norm_num)
      gcongr
  · simp only [seastate, hA, hB]
    refine ⟨H _ _ (by positivity) (by gcongr), T _ _ (by positivity) ?_, le_refl _⟩
    have := pw (-0.3) (by norm_num)
    gcongr
  · simp only [seastate, hA, hB, lewis_eps hz, lewis_eps hz2']
    refine ⟨H _ _ (by positivity) (by gcongr), T _ _ (by positivity) ?_, ?_⟩
    · have := pw (-0.33) (by norm_num)
      gcongr
    · have := pw (-0.28384) (by norm_num)
      apply max_le_max_right
      gcongr

/-- The normalisation returned by `jonswap_seastate` times the peakedness is less than one. -/
theorem ag_gamma_lt (u10 fetch g : ℝ) (m : SeaMethod) (hz : 2 ≤ g * fetch / u10 ^ 2)
    (hg : 1 < (seastate u10 fetch m g).gamma) : (seastate u10 fetch m g).Ag * (seastate u10 fetch m g).gamma < 1 := by
  cases m
  · simp only [seastate]
    have := rpow_le_one_of_one_le_of_nonpos (by linarith : (1 : ℝ) ≤ g * fetch / u10 ^ 2) (by norm_num : (-0.22 : ℝ) ≤ 0)
    linarith
  · simp only [seastate]
    have := rpow_le_one_of_one_le_of_nonpos (by linarith : (1 : ℝ) ≤ g * fetch / u10 ^ 2) (by norm_num : (-0.2 : ℝ) ≤ 0)
    linarith
  · simp only [seastate] at hg ⊢
    generalize g * fetch / u10 ^ 2 = z at hz hg ⊢
    have hz0 : 0 < z := by linarith
    rcases lt_max_iff.1 hg with h | h
    · rw [max_eq_left h.le]
      have e : 0.074 * z ^ (-0.22 : ℝ) * (17.54 * z ^ (-0.28384 : ℝ)) = 0.074 * 17.54 * z ^ (-0.50384 : ℝ) := by
        have : z ^ (-0.22 : ℝ) * z ^ (-0.28384 : ℝ) = z ^ (-0.50384 : ℝ) := by
          rw [← rpow_add hz0]; norm_num
        linear_combination (0.074 * 17.54) * this
      rw [e]
      have h1 : z ^ (-0.50384 : ℝ) ≤ z ^ (-(1 / 2) : ℝ) := rpow_le_rpow_of_exponent_le (by linarith) (by norm_num)
      have h2 : z ^ (-(1 / 2) : ℝ) ≤ 0.71 := by
        rw [rpow_neg hz0.le, ← sqrt_eq_rpow]
        rw [inv_le_comm₀ (sqrt_pos.2 hz0) (by norm_num)]
        apply le_sqrt_of_sq_le
        norm_num
        linarith
      linarith
    · exact absurd h (lt_irrefl _)

/-- The keyword arguments `**ss`. -/
noncomputable def Sea.args (ss : Sea) : JonsArgs :=
  { Hm0 := ss.Hm0, Tp := ss.Tp, gamma := some ss.gamma, sigmaA := ss.sigmaA, sigmaB := ss.sigmaB, Ag := some ss.Ag }

/-- C148, refuted: `Jonswap(**jonswap_seastate(..))`, the use shown in the documentation, takes Phillips' constant `Ag` for the
normalisation, so that the spectrum has less energy than its `Hm0` says: for every wind speed and (dimensionless) fetch of at least
2, whenever the peakedness is above one. -/
theorem C148_energy_refuted (u10 fetch g : ℝ) (hu : 0 < u10) (hf : 0 < fetch) (hgr : 0 < g) (m : SeaMethod)
    (hz : 2 ≤ g * fetch / u10 ^ 2) (hg : 1 < (seastate u10 fetch m g).gamma) :
    ∃ s, Jons.mk' (seastate u10 fetch m g).args = .ok s ∧
      ∫ w in Ioi (0 : ℝ), s.call w < (seastate u10 fetch m g).Hm0 ^ 2 / 16 := by
  obtain ⟨p1, p2, p3, p4⟩ := C148_positive u10 fetch g hu hf hgr m
  have hag := ag_gamma_lt u10 fetch g m hz hg
  generalize seastate u10 fetch m g = ss at *
  have hex : ∃ s, Jons.mk' ss.args = .ok s ∧ s.Ag = ss.Ag ∧ s.gamma = ss.gamma := by
    have e : jonsGamma ss.args = ss.gamma := by
      simp [jonsGamma, Sea.args, not_lt.2 hg.le]
    unfold Jons.mk' preAg
    rw [e, if_neg hg.ne']
    simp only [Sea.args, chk_ok p1.le p2, customAg, if_neg (not_le.2 p4), Except.map]
    exact ⟨_, rfl, rfl, rfl⟩
  obtain ⟨s, hs, h1, h2⟩ := hex
  refine ⟨s, hs, ?_⟩
  obtain ⟨I, hI, hI1, hI2, -⟩ := C146_energy _ s hs p1.le p2 ⟨by simp only [Sea.args]; norm_num, by simp only [Sea.args]; norm_num⟩
  rw [hI, h1]
  simp only [Sea.args]
  rw [h2] at hI2
  have h16 : 0 < ss.Hm0 ^ 2 / 16 := by positivity
  have : ss.Ag * I < 1 := lt_of_le_of_lt (mul_le_mul_of_nonneg_left hI2 p4.le) hag
  calc ss.Hm0 ^ 2 / 16 * ss.Ag * I = ss.Hm0 ^ 2 / 16 * (ss.Ag * I) := by ring
    _ < ss.Hm0 ^ 2 / 16 * 1 := mul_lt_mul_of_pos_left this h16
    _ = _ := mul_one _

/-- The case of the documentation: wind of 10 m/s, fetch 10 km. -/
example : (2 : ℝ) ≤ 9.81 * 10000 / 10 ^ 2 ∧ 1 < (seastate 10 10000 .hasselman73 9.81).gamma := by
  constructor
  · norm_num
  · simp only [seastate]; norm_num

/-! ### The depth factor -/

/-- `phi1` as a function of `x = kh`. -/
noncomputable def depthF (x : ℝ) : ℝ := tanh x ^ 2 / (1 + x / (sinh x * cosh x))

theorem sinhc_mono {a b : ℝ} (ha : 0 < a) (hab : a < b) : b / (sinh b * cosh b) < a / (sinh a * cosh a) := by
  have hb : 0 < b := ha.trans hab
  have sa : 0 < sinh a := sinh_pos_iff.2 ha
  have sb : 0 < sinh b := sinh_pos_iff.2 hb
  have ca := cosh_pos a
  have cb := cosh_pos b
  have h2 : ∀ x : ℝ, sinh x * cosh x = sinh (2 * x) / 2 := fun x => by rw [sinh_two_mul]; ring
  rw [h2, h2]
  have key : sinh (2 * a) / (2 * a) < sinh (2 * b) / (2 * b) := by
    have hconv : StrictConvexOn ℝ (Ici 0) sinh := by
      refine strictConvexOn_of_deriv2_pos (convex_Ici 0) continuous_sinh.continuousOn fun x hx => ?_
      rw [interior_Ici] at hx
      simpa using hx
    have hc := hconv.secant_strict_mono (a := 0) (x := 2 * a) (y := 2 * b) (by simp) (by simp; linarith) (by simp; linarith)
      (by linarith) (by linarith) (by linarith)
    simpa using hc
  have s2a : 0 < sinh (2 * a) := sinh_pos_iff.2 (by linarith)
  have s2b : 0 < sinh (2 * b) := sinh_pos_iff.2 (by linarith)
  rw [div_lt_div_iff₀ (by positivity) (by positivity)] at key ⊢
  nlinarith

theorem tanh_lt {a b : ℝ} (hab : a < b) : tanh a < tanh b := by
  rw [tanh_eq_sinh_div_cosh, tanh_eq_sinh_div_cosh, div_lt_div_iff₀ (cosh_pos _) (cosh_pos _)]
  have h2 : 0 < sinh (b - a) := sinh_pos_iff.2 (by linarith)
  rw [sinh_sub] at h2
  linarith

theorem depthF_pos {x : ℝ} (hx : 0 < x) : 0 < depthF x := by
  have := Disp.tanh_pos hx
  have sx : 0 < sinh x := sinh_pos_iff.2 hx
  have cx := cosh_pos x
  unfold depthF
  positivity

theorem depthF_lt {x : ℝ} (hx : 0 < x) : depthF x < tanh x ^ 2 := by
  have := Disp.tanh_pos hx
  have sx : 0 < sinh x := sinh_pos_iff.2 hx
  have cx := cosh_pos x
  unfold depthF
  rw [div_lt_iff₀ (by positivity)]
  have : 0 < x / (sinh x * cosh x) := by positivity
  nlinarith [pow_pos ‹0 < tanh x› 2]

theorem depthF_mono {a b : ℝ} (ha : 0 < a) (hab : a < b) : depthF a < depthF b := by
  have hb : 0 < b := ha.trans hab
  have h1 := sinhc_mono ha hab
  have h2 := tanh_lt hab
  have ta := Disp.tanh_pos ha
  have sb : 0 < sinh b := sinh_pos_iff.2 hb
  have cb := cosh_pos b
  have h3 : 0 < b / (sinh b * cosh b) := by positivity
  unfold depthF
  have h4 : tanh a ^ 2 < tanh b ^ 2 := by nlinarith
  exact div_lt_div₀ h4 (by linarith) (by positivity) (by linarith)

/-- A wave number solver: exact for infinite depth, and for finite depth the positive solution of the dispersion relation. -/
structure IsSolver (w2k : Solver) : Prop where
  deep : ∀ w g, w2k w none g = Disp.deepK g w
  finite : ∀ w d g, 0 < w → 0 < d → 0 < g → 0 < w2k w (some d) g ∧ Disp.Solves g d w (w2k w (some d) g)

/-- There is such a solver. -/
theorem exists_solver : ∃ w2k, IsSolver w2k := by
  classical
  refine ⟨fun w h g => match h with
    | none => Disp.deepK g w
    | some d => if hh : 0 < w ∧ 0 < d ∧ 0 < g then (Disp.C83_unique g d w hh.2.2 hh.2.1 hh.1.ne').choose else 0, ⟨fun _ _ => rfl, ?_⟩⟩
  intro w d g hw hd hg
  have := (Disp.C83_unique g d w hg hd hw.ne').choose_spec
  simp only [dif_pos (show 0 < w ∧ 0 < d ∧ 0 < g from ⟨hw, hd, hg⟩)]
  exact ⟨this.1, this.2.1⟩

theorem phi1_eq {w2k : Solver} (hs : IsSolver w2k) {w d g : ℝ} (hw : 0 < w) (hd : 0 < d) (hg : 0 < g) :
    phi1 w2k w (some d) g = depthF (w2k w (some d) g * d) ∧ w2k w (some d) g * d * tanh (w2k w (some d) g * d) = w ^ 2 * d / g := by
  obtain ⟨hk, hsol⟩ := hs.finite w d g hw hd hg
  unfold Disp.Solves at hsol
  unfold phi1
  simp only [hs.deep, Disp.deepK_pos hw]
  generalize w2k w (some d) g = k at hk hsol ⊢
  have hx : 0 < k * d := mul_pos hk hd
  have t := Disp.tanh_pos hx
  have sx : 0 < sinh (k * d) := sinh_pos_iff.2 hx
  have cx := cosh_pos (k * d)
  have h0 : w ^ 2 / g ≠ 0 := by positivity
  have hq : w ^ 2 / g = k * tanh (k * d) := by rw [hsol]; field_simp
  refine ⟨?_, ?_⟩
  · rw [if_neg h0, if_neg h0, if_neg h0, hq]
    have h1 : k * tanh (k * d) / k = tanh (k * d) := by field_simp
    rw [h1, depthF]
    have hden : tanh (k * d) + k * d / cosh (k * d) ^ 2 = tanh (k * d) * (1 + k * d / (sinh (k * d) * cosh (k * d))) := by
      rw [tanh_eq_sinh_div_cosh]
      field_simp
    rw [hden]
    have h2 : 0 < 1 + k * d / (sinh (k * d) * cosh (k * d)) := by positivity
    generalize 1 + k * d / (sinh (k * d) * cosh (k * d)) = e at h2 ⊢
    field_simp
  · rw [hsol]; field_simp

/-- C149.  The depth factor is between zero and one, smaller than `w^2 h / g` and equal to one in infinitely deep water. -/
theorem C149_range (w2k : Solver) (hs : IsSolver w2k) (w d g : ℝ) (hw : 0 < w) (hd : 0 < d) (hg : 0 < g) :
    0 < phi1 w2k w (some d) g ∧ phi1 w2k w (some d) g < 1 ∧ phi1 w2k w (some d) g < w ^ 2 * d / g ∧ phi1 w2k w none g = 1 := by
  obtain ⟨hk, -⟩ := hs.finite w d g hw hd hg
  obtain ⟨e1, e2⟩ := phi1_eq hs hw hd hg
  have hx : 0 < w2k w (some d) g * d := mul_pos hk hd
  generalize w2k w (some d) g * d = x at hx e1 e2
  have t := Disp.tanh_pos hx
  have t1 := tanh_lt_one x
  have l := depthF_lt hx
  rw [e1]
  refine ⟨depthF_pos hx, by nlinarith, ?_, rfl⟩
  rw [← e2]
  have : tanh x ≤ x := by
    rw [tanh_eq_sinh_div_cosh, div_le_iff₀ (cosh_pos x)]
    have hd : ∀ y : ℝ, HasDerivAt (fun y => y * cosh y - sinh y) (1 * cosh y + y * sinh y - cosh y) y := fun y =>
      ((hasDerivAt_id y).mul (hasDerivAt_cosh y)).sub (hasDerivAt_sinh y)
    have hm : MonotoneOn (fun y : ℝ => y * cosh y - sinh y) (Ici 0) := by
      refine monotoneOn_of_deriv_nonneg (convex_Ici 0) (fun y _ => (hd y).continuousAt.continuousWithinAt) (fun y _ => (hd y).differentiableAt.differentiableWithinAt) ?_
      intro y hy
      rw [interior_Ici] at hy
      rw [(hd y).deriv]
      have : 0 < sinh y := sinh_pos_iff.2 hy
      have hy' : 0 < y := hy
      nlinarith [mul_pos hy' this]
    have := hm (show (0 : ℝ) ∈ Ici 0 by simp) (show x ∈ Ici (0 : ℝ) from hx.le) hx.le
    simp at this
    linarith
  nlinarith

theorem kh_mono {x y c c' : ℝ} (hx : 0 < x) (hy : 0 < y) (h1 : x * tanh x = c) (h2 : y * tanh y = c') (hc : c < c') : x < y := by
  by_contra hle
  have : y * tanh y ≤ x * tanh x := by
    have t : tanh y ≤ tanh x := by
      rcases (not_lt.1 hle).eq_or_lt with h | h
      · rw [h]
      · exact (tanh_lt h).le
    exact mul_le_mul (not_lt.1 hle) t (Disp.tanh_pos hy).le hx.le
  linarith

/-- C149.  The depth factor grows with the depth and with the frequency. -/
theorem C149_monotone (w2k : Solver) (hs : IsSolver w2k) (w d w' d' g : ℝ) (hw : 0 < w) (hd : 0 < d) (hg : 0 < g) (hw' : w ≤ w')
    (hd' : d ≤ d') (hlt : w < w' ∨ d < d') : phi1 w2k w (some d) g < phi1 w2k w' (some d') g := by
  have hw2 := hw.trans_le hw'
  have hd2 := hd.trans_le hd'
  obtain ⟨hk, -⟩ := hs.finite w d g hw hd hg
  obtain ⟨hk', -⟩ := hs.finite w' d' g hw2 hd2 hg
  obtain ⟨e1, e2⟩ := phi1_eq hs hw hd hg
  obtain ⟨e1', e2'⟩ := phi1_eq hs hw2 hd2 hg
  rw [e1, e1']
  refine depthF_mono (mul_pos hk hd) (kh_mono (mul_pos hk hd) (mul_pos hk' hd2) e2 e2' ?_)
  apply div_lt_div_of_pos_right _ hg
  rcases hlt with h | h
  · have : w ^ 2 < w' ^ 2 := by nlinarith
    nlinarith [pow_pos hw 2]
  · have : w ^ 2 ≤ w' ^ 2 := by nlinarith
    nlinarith [pow_pos hw 2]

/-- C149.  At frequency zero the factor is zero, except in infinitely deep water. -/
theorem C149_zero (w2k : Solver) (hs : IsSolver w2k) (d g : ℝ) : phi1 w2k 0 (some d) g = 0 := by
  unfold phi1
  simp only [hs.deep, Disp.deepK_zero]
  exact if_pos trivial

/-- C149, refuted for negative frequencies: if the solver is odd (as `w2k` is), the factor is negative, not the one of the same
wave with positive frequency. -/
theorem C149_negative_refuted (w2k : Solver) (hs : IsSolver w2k) (hodd : ∀ w h g, w2k (-w) h g = -w2k w h g) (w d g : ℝ) (hw : 0 < w)
    (hd : 0 < d) (hg : 0 < g) : phi1 w2k (-w) (some d) g = -phi1 w2k w (some d) g ∧ phi1 w2k (-w) (some d) g < 0 := by
  have e : phi1 w2k (-w) (some d) g = -phi1 w2k w (some d) g := by
    unfold phi1
    have h0 : w2k w none g ≠ 0 := by
      rw [hs.deep, Disp.deepK_pos hw]; positivity
    have hn0 : w2k (-w) none g ≠ 0 := by rw [hodd]; exact neg_ne_zero.2 h0
    simp only [if_neg h0, if_neg hn0]
    rw [hodd, hodd, neg_mul, tanh_neg, cosh_neg, neg_div_neg_eq]
    have : -tanh (w2k w (some d) g * d) + -(w2k w (some d) g * d) / cosh (w2k w (some d) g * d) ^ 2
      = -(tanh (w2k w (some d) g * d) + w2k w (some d) g * d / cosh (w2k w (some d) g * d) ^ 2) := by ring
    rw [this]
    generalize tanh (w2k w (some d) g * d) + w2k w (some d) g * d / cosh (w2k w (some d) g * d) ^ 2 = e
    rw [show (2 : ℝ) * -w / g = -(2 * w / g) by ring, neg_div_neg_eq, div_neg, mul_div_assoc, mul_div_assoc]
  refine ⟨e, ?_⟩
  rw [e]
  linarith [(C149_range w2k hs w d g hw hd hg).1]

/-! ### TMA spectrum -/

/-- C150.  In infinitely deep water the TMA spectrum is the Jonswap spectrum; a depth or gravity given to the call is used instead
of the one of the object. -/
theorem C150_call (w2k : Solver) (s : Tma) (w : ℝ) (h : Disp.Depth) (g : ℝ) :
    s.call w2k w (some h) (some g) = (Tma.mk s.jons h g).call w2k w none none ∧ s.call w2k w (some h) none = (Tma.mk s.jons h s.g).call w2k w none none ∧
    s.call w2k w none (some g) = (Tma.mk s.jons s.h g).call w2k w none none ∧ (Tma.mk s.jons none g).call w2k w none none = s.jons.call w := by
  refine ⟨rfl, rfl, rfl, ?_⟩
  unfold Tma.call phi1
  exact mul_one _

/-- C150.  At every frequency the TMA spectrum is at most the Jonswap spectrum, smaller where that is positive, and grows with the
depth. -/
theorem C150_bounds (w2k : Solver) (hs : IsSolver w2k) (a : JonsArgs) (s : Jons) (h : Jons.mk' a = .ok s) (hH : 0 < a.Hm0) (hT : 0 < a.Tp)
    (hN : 0 < a.N) (hM : 0 < a.M) (hA : 0 < s.Ag) (g : ℝ) (hg : 0 < g) :
    (∀ w d, w ≤ 0 → (Tma.mk s d g).call w2k w none none = 0) ∧
    (∀ w d, 0 < w → 0 < d → 0 < (Tma.mk s (some d) g).call w2k w none none ∧ (Tma.mk s (some d) g).call w2k w none none < s.call w) ∧
    (∀ w d d', 0 < w → 0 < d → d < d' → (Tma.mk s (some d) g).call w2k w none none < (Tma.mk s (some d') g).call w2k w none none) := by
  obtain ⟨h1, h2, h3⟩ := C146_peak a s h hH hT hN hM hA
  have hpos : ∀ w, 0 < w → 0 < s.call w := by
    intro w hw
    obtain ⟨f1, f2, f3, -⟩ := mk'_fields h
    rw [jons_call (by rw [f1]; exact hH)]
    have hp : 0 < wp s.Tp := wp_pos (by rw [f2]; exact hT)
    have hH' : 0 < s.Hm0 := by rw [f1]; exact hH
    have := localspec_pos (g := s.gamma) (sa := s.sigmaA) (sb := s.sigmaB) (N := s.N) (M := s.M) (by rw [f3]; exact jonsGamma_ge a hT.le) (w / wp s.Tp) (div_pos hw hp)
    positivity
  refine ⟨fun w d hw => ?_, fun w d hw hd => ?_, fun w d d' hw hd hlt => ?_⟩
  · unfold Tma.call
    rw [show (Tma.mk s d g).jons = s from rfl, h2 w hw, zero_mul]
  · obtain ⟨r1, r2, -⟩ := C149_range w2k hs w d g hw hd hg
    have := hpos w hw
    unfold Tma.call
    simp only [Option.getD_none]
    exact ⟨mul_pos this r1, by nlinarith⟩
  · have := hpos w hw
    unfold Tma.call
    simp only [Option.getD_none]
    exact mul_lt_mul_of_pos_left (C149_monotone w2k hs w d w d' g hw hd hg le_rfl hlt.le (Or.inr hlt)) this

/-- C150.  The energy of the TMA spectrum in finite depth is less than the one of the Jonswap spectrum. -/
theorem C150_energy (w2k : Solver) (hs : IsSolver w2k) (a : JonsArgs) (s : Jons) (h : Jons.mk' a = .ok s) (hH : 0 < a.Hm0) (hT : 0 < a.Tp)
    (hS : Shape a.N a.M) (hA : 0 < s.Ag) (g d : ℝ) (hg : 0 < g) (hd : 0 < d) :
    0 < ∫ w in Ioi (0 : ℝ), (Tma.mk s (some d) g).call w2k w none none ∧
    ∫ w in Ioi (0 : ℝ), (Tma.mk s (some d) g).call w2k w none none < ∫ w in Ioi (0 : ℝ), s.call w := by
  obtain ⟨b1, b2, b3⟩ := C150_bounds w2k hs a s h hH hT (by linarith [hS.hN]) hS.hM hA g hg
  obtain ⟨f1, f2, f3, -, -, f6, f7, -⟩ := mk'_fields h
  have hp : 0 < wp s.Tp := wp_pos (by rw [f2]; exact hT)
  have hi : IntegrableOn s.call (Ioi 0) := by
    have := scale_integrable (localspec s.gamma s.sigmaA s.sigmaB s.N s.M) ((s.Hm0 / 4) ^ 2 * s.Ag) (wp s.Tp) hp
      (localspec_integrable (by rw [f3]; exact jonsGamma_ge a hT.le) (by rw [f6, f7]; exact hS))
    refine IntegrableOn.congr_fun this (fun w _ => ?_) measurableSet_Ioi
    exact (jons_call (by rw [f1]; exact hH) w).symm
  have hmono : MonotoneOn (fun w => phi1 w2k w (some d) g) (Ioi 0) := by
    intro w hw w' hw' hle
    rcases hle.eq_or_lt with e | e
    · rw [e]
    · exact (C149_monotone w2k hs w d w' d g hw hd hg e.le le_rfl (Or.inl e)).le
  have hi2 : IntegrableOn (fun w => (Tma.mk s (some d) g).call w2k w none none) (Ioi 0) := by
    refine Integrable.mono' hi ?_ ?_
    · exact hi.aestronglyMeasurable.mul (aemeasurable_restrict_of_monotoneOn measurableSet_Ioi hmono).aestronglyMeasurable
    · filter_upwards [ae_restrict_mem measurableSet_Ioi] with w hw
      obtain ⟨p, q⟩ := b2 w d hw hd
      rw [norm_of_nonneg p.le]
      exact q.le
  refine ⟨pos_integral _ 0 hi2 fun w hw => (b2 w d hw hd).1, ?_⟩
  have := pos_integral _ 0 (hi.sub hi2) fun w hw => sub_pos.2 (b2 w d hw hd).2
  simp only [Pi.sub_apply] at this
  rw [integral_sub hi hi2] at this
  linarith

/-- C150, refuted: the significant wave height of a TMA spectrum is not `Hm0`: with peakedness one it is smaller, in every finite
depth. -/
theorem C150_height_refuted (w2k : Solver) (hs : IsSolver w2k) (Hm0 Tp g d : ℝ) (hH : 0 < Hm0) (hT : 0 < Tp) (hg : 0 < g) (hd : 0 < d) :
    ∃ s, Jons.mk' { Hm0 := Hm0, Tp := Tp, gamma := some 1 } = .ok s ∧
      4 * √(∫ w in Ioi (0 : ℝ), (Tma.mk s (some d) g).call w2k w none none) < Hm0 := by
  obtain ⟨s, hs1⟩ := C145_gamma_one_ok { Hm0 := Hm0, Tp := Tp, gamma := some 1 } rfl hH.le hT
  have hsh : Shape 5 4 := ⟨by norm_num, by norm_num⟩
  have hA : 0 < s.Ag := C146_normalisation_positive _ s hs1 hT hsh fun _ => by
    have : (4 : ℝ) ^ (0.28 : ℝ) ≤ 4 ^ (1 : ℝ) := rpow_le_rpow_of_exponent_le (by norm_num) (by norm_num)
    rw [rpow_one] at this
    norm_num
    linarith
  obtain ⟨e1, e2⟩ := C150_energy w2k hs _ s hs1 hH hT hsh hA g d hg hd
  refine ⟨s, hs1, ?_⟩
  have h3 : ∫ w in Ioi (0 : ℝ), s.call w = Hm0 ^ 2 / 16 := by
    obtain ⟨b, hb1, hb2, -⟩ := C144_energy Hm0 Tp 5 4 hH.le hT hsh false
    simp only [Bret.mk'] at hb1
    cases hb1
    rw [← hb2]
    congr 1
    funext w
    exact C145_gamma_one _ rfl s hs1 w
  rw [h3] at e2
  have : √(∫ w in Ioi (0 : ℝ), (Tma.mk s (some d) g).call w2k w none none) < Hm0 / 4 := by
    rw [sqrt_lt' (by positivity)]
    linarith
  linarith

end Wafo.Spec
