import Verif.LevelX.Estimate
import Mathlib.Analysis.SpecialFunctions.Trigonometric.Inverse
import Mathlib.Analysis.Real.Pi.Bounds

/-!
Model of the Gaussian part of `LevelCrossings.sim` in objects.py L415-440 over the real numbers, and properties.  The random numbers
are parameters.  The transformation of the Gaussian process to the wanted crossing spectrum (L442-480) is not modelled.
-/

set_option linter.unusedSectionVars false

namespace Wafo.LevelX
open Wafo.Cycles Real

noncomputable section

/-- `f = np.linspace(0, 0.49999, 1000)`, objects.py L415. -/
def fGrid (k : ℕ) : ℝ := 49999 / 100000 * k / 999

/-- `rho_st`, objects.py L416. -/
def rhoOf (f : ℝ) : ℝ := 2 * sin (f * π) ^ 2 - 1

/-- `tmp`, objects.py L417-418. -/
def tmpOf (alpha f : ℝ) : ℝ := sin (alpha * arcsin (sqrt ((1 + rhoOf f) / 2))) ^ 2

/-- `a2`, objects.py L419. -/
def a2Of (alpha f : ℝ) : ℝ := (tmpOf alpha f - rhoOf f) / (1 - tmpOf alpha f)

/-- `y`, objects.py L420. -/
def yOf (alpha f : ℝ) : ℝ := min (a2Of alpha f + rhoOf f) (1 - a2Of alpha f)

/-- The frequency with the largest `y`, objects.py L421. -/
def fBest (alpha : ℝ) : ℝ := fGrid (argmax ((List.range 1000).map fun k => yOf alpha (fGrid k)))

/-- The coefficients of the autoregression and its autocorrelations, objects.py L424-430. -/
structure Coefs where
  a1 : ℝ
  a2 : ℝ
  r1 : ℝ
  r2 : ℝ
  sigma2 : ℝ

/-- objects.py L424-430. -/
def coefs (alpha : ℝ) : Coefs :=
  let rho := rhoOf (fBest alpha)
  let a2 := a2Of alpha (fBest alpha)
  let a1 := 2 * rho + a2 - 1
  let r1 := -a1 / (1 + a2)
  let r2 := (a1 ^ 2 - a2 - a2 ^ 2) / (1 + a2)
  { a1 := a1, a2 := a2, r1 := r1, r2 := r2, sigma2 := 1 + a1 * r1 + a2 * r2 }

/-- The weights of the two random numbers in the second starting value, objects.py L435. -/
def startWeights (c : Coefs) : ℝ × ℝ := (c.r1, sqrt (1 - c.r2 ^ 2))

/-- `lfilter([1], [1, a1, a2], e, zi=[z0, z1])`: the transposed direct form of scipy. -/
def lfilterAR (a1 a2 : ℝ) : ℝ → ℝ → List ℝ → List ℝ
  | _, _, [] => []
  | z0, z1, e :: l => (e + z0) :: lfilterAR a1 a2 (z1 - a1 * (e + z0)) (-(a2 * (e + z0))) l

/-- The Gaussian process, objects.py L432-440: `e` are the `ns` random numbers for the noise, `g0` and `g1` those of the start; `z0 =
lfilter([1, a1, a2], [1], L0)` are the two values `L0[0]` and `L0[1] + a1 * L0[0]`. -/
def gaussProcess (c : Coefs) (e : List ℝ) (g0 g1 : ℝ) : List ℝ :=
  let noise := (e.zip (List.range e.length)).map fun p => if p.2 < 2 then 0 else p.1 * sqrt c.sigma2
  let l1 := (startWeights c).1 * g0 + (startWeights c).2 * g1
  lfilterAR c.a1 c.a2 g0 (l1 + c.a1 * g0) noise

/-! ### Lemmas -/

theorem fGrid_bounds (k : ℕ) (h1 : 1 ≤ k) (h2 : k < 1000) : 0 < fGrid k * π ∧ fGrid k * π < π / 2 := by
  have hk : (1 : ℝ) ≤ k := by exact_mod_cast h1
  have hk' : (k : ℝ) ≤ 999 := by exact_mod_cast (by omega : k ≤ 999)
  have hf : 0 < fGrid k ∧ fGrid k < 1 / 2 := by
    unfold fGrid
    constructor
    · positivity
    · linarith
  have := pi_pos
  constructor
  · exact mul_pos hf.1 this
  · nlinarith

/-- The quantities at a frequency between 0 and 1/2. -/
theorem at_freq (alpha f : ℝ) (h0 : 0 < alpha) (h1 : alpha < 1) (hf0 : 0 < f * π) (hf1 : f * π < π / 2) :
    tmpOf alpha f = sin (alpha * (f * π)) ^ 2 ∧ 0 < tmpOf alpha f ∧ tmpOf alpha f < sin (f * π) ^ 2 ∧ sin (f * π) ^ 2 < 1 := by
  have hsin : 0 < sin (f * π) := sin_pos_of_pos_of_lt_pi hf0 (by linarith)
  have ht : tmpOf alpha f = sin (alpha * (f * π)) ^ 2 := by
    unfold tmpOf rhoOf
    rw [show (1 + (2 * sin (f * π) ^ 2 - 1)) / 2 = sin (f * π) ^ 2 by ring, sqrt_sq hsin.le, arcsin_sin (by linarith) hf1.le]
  have ha0 : 0 < alpha * (f * π) := mul_pos h0 hf0
  have ha1 : alpha * (f * π) < f * π := by nlinarith
  have hs0 : 0 < sin (alpha * (f * π)) := sin_pos_of_pos_of_lt_pi ha0 (by linarith)
  have hs1 : sin (alpha * (f * π)) < sin (f * π) :=
    sin_lt_sin_of_lt_of_le_pi_div_two (by linarith) hf1.le ha1
  have hc : 0 < cos (f * π) := cos_pos_of_mem_Ioo ⟨by linarith, hf1⟩
  have hsc := sin_sq_add_cos_sq (f * π)
  refine ⟨ht, by rw [ht]; positivity, by rw [ht]; nlinarith, by nlinarith⟩

theorem y_pos (alpha f : ℝ) (h0 : 0 < alpha) (h1 : alpha < 1) (hf0 : 0 < f * π) (hf1 : f * π < π / 2) : 0 < yOf alpha f := by
  obtain ⟨-, ht0, ht1, hs⟩ := at_freq alpha f h0 h1 hf0 hf1
  unfold yOf a2Of rhoOf
  generalize tmpOf alpha f = t at *
  generalize sin (f * π) ^ 2 = S at *
  have h1t : 0 < 1 - t := by linarith
  rw [lt_min_iff]
  constructor
  · have : (t - (2 * S - 1)) / (1 - t) + (2 * S - 1) = 2 * t * (1 - S) / (1 - t) := by
      field_simp
      ring
    rw [this]
    exact div_pos (mul_pos (by linarith) (by linarith)) h1t
  · have : 1 - (t - (2 * S - 1)) / (1 - t) = 2 * (S - t) / (1 - t) := by
      field_simp
      ring
    rw [this]
    exact div_pos (by linarith) h1t

theorem y_zero (alpha : ℝ) : yOf alpha (fGrid 0) = 0 := by
  have hf : fGrid 0 = 0 := by simp [fGrid]
  have hr : rhoOf 0 = -1 := by simp [rhoOf]
  have ht : tmpOf alpha 0 = 0 := by simp [tmpOf, hr]
  simp [hf, yOf, a2Of, hr, ht]

/-- The chosen frequency is not zero. -/
theorem fBest_bounds (alpha : ℝ) (h0 : 0 < alpha) (h1 : alpha < 1) :
    ∃ k, 1 ≤ k ∧ k < 1000 ∧ fBest alpha = fGrid k := by
  obtain ⟨a, ha, hmax, -⟩ := argmax_spec ((List.range 1000).map fun k => yOf alpha (fGrid k)) (by simp)
  unfold fBest
  generalize argmax ((List.range 1000).map fun k => yOf alpha (fGrid k)) = k at *
  refine ⟨k, ?_, ?_, rfl⟩
  · by_contra hk
    obtain rfl : k = 0 := by omega
    rw [List.getElem?_map, List.getElem?_range (by norm_num)] at ha
    simp only [Option.map_some, Option.some.injEq] at ha
    rw [y_zero] at ha
    have := hmax (yOf alpha (fGrid 1)) (List.mem_map.2 ⟨1, by simp, rfl⟩)
    obtain ⟨hb0, hb1⟩ := fGrid_bounds 1 le_rfl (by norm_num)
    have := y_pos alpha (fGrid 1) h0 h1 hb0 hb1
    linarith
  · by_contra hk
    rw [List.getElem?_eq_none (by simp; omega)] at ha
    cases ha

/-- The coefficients in terms of `t` and `S`. -/
theorem coefs_eq (alpha : ℝ) (h0 : 0 < alpha) (h1 : alpha < 1) : ∃ k, 1 ≤ k ∧ k < 1000 ∧ ∃ t S, t = sin (alpha * (fGrid k * π)) ^ 2 ∧
    S = sin (fGrid k * π) ^ 2 ∧ 0 < t ∧ t < S ∧ S < 1 ∧ (coefs alpha).a2 = (t - (2 * S - 1)) / (1 - t) ∧
    (coefs alpha).a1 = 2 * (2 * S - 1) + (coefs alpha).a2 - 1 ∧ 1 + (coefs alpha).a2 = 2 * (1 - S) / (1 - t) ∧
    (coefs alpha).r1 = 1 - 2 * t ∧
    (coefs alpha).r2 = (coefs alpha).r1 ^ 2 * (1 + (coefs alpha).a2) - (coefs alpha).a2 ∧
    (coefs alpha).a1 = -(coefs alpha).r1 * (1 + (coefs alpha).a2) ∧
    (coefs alpha).sigma2 = 1 + (coefs alpha).a1 * (coefs alpha).r1 + (coefs alpha).a2 * (coefs alpha).r2 := by
  obtain ⟨k, hk1, hk2, hk⟩ := fBest_bounds alpha h0 h1
  obtain ⟨hb0, hb1⟩ := fGrid_bounds k hk1 hk2
  obtain ⟨ht, ht0, ht1, hS⟩ := at_freq alpha (fGrid k) h0 h1 hb0 hb1
  have ha2 : (coefs alpha).a2 = (tmpOf alpha (fGrid k) - (2 * sin (fGrid k * π) ^ 2 - 1)) / (1 - tmpOf alpha (fGrid k)) := by
    show a2Of alpha (fBest alpha) = _
    rw [hk]
    rfl
  have ha1 : (coefs alpha).a1 = 2 * (2 * sin (fGrid k * π) ^ 2 - 1) + (coefs alpha).a2 - 1 := by
    have h : (coefs alpha).a1 = 2 * rhoOf (fBest alpha) + (coefs alpha).a2 - 1 := rfl
    rw [h, hk]
    simp only [rhoOf]
  have hr1 : (coefs alpha).r1 = -(coefs alpha).a1 / (1 + (coefs alpha).a2) := rfl
  have hr2 : (coefs alpha).r2 = ((coefs alpha).a1 ^ 2 - (coefs alpha).a2 - (coefs alpha).a2 ^ 2) / (1 + (coefs alpha).a2) := rfl
  refine ⟨k, hk1, hk2, tmpOf alpha (fGrid k), _, ht, rfl, ht0, ht1, hS, ha2, ha1, ?_⟩
  have hs2 : (coefs alpha).sigma2 = 1 + (coefs alpha).a1 * (coefs alpha).r1 + (coefs alpha).a2 * (coefs alpha).r2 := rfl
  generalize coefs alpha = c at *
  generalize tmpOf alpha (fGrid k) = t at *
  generalize sin (fGrid k * π) ^ 2 = S at *
  have h1t : 1 - t ≠ 0 := by linarith
  have h1S : 1 - S ≠ 0 := by linarith
  have hp : 1 + c.a2 = 2 * (1 - S) / (1 - t) := by
    rw [ha2]
    field_simp
    ring
  have hpne : 1 + c.a2 ≠ 0 := by
    rw [hp]
    exact div_ne_zero (mul_ne_zero two_ne_zero h1S) h1t
  have hr1' : c.r1 = 1 - 2 * t := by
    rw [hr1, div_eq_iff hpne, ha1]
    have : c.a2 = 2 * (1 - S) / (1 - t) - 1 := by linarith
    rw [this]
    field_simp
    ring
  have ha1' : c.a1 = -c.r1 * (1 + c.a2) := by
    rw [hr1]
    field_simp
  refine ⟨hp, hr1', ?_, ha1', hs2⟩
  rw [hr2, ha1']
  field_simp
  ring

/-! ### C171: the simulated Gaussian process -/

/-- C171: for an irregularity factor between 0 and 1 the autoregression `X[n] + a1 X[n-1] + a2 X[n-2] = e[n]` is stationary, `1`,
`r1` and `r2` are its autocovariances when `e` has variance `sigma2` (Yule-Walker equations), and the ratio of the mean numbers of
zero crossings and of local extremes, by the arccos formula for Gaussian sequences applied to the process and to its increments, is
the wanted factor. -/
theorem C171_irregularity (alpha : ℝ) (h0 : 0 < alpha) (h1 : alpha < 1) :
    let c := coefs alpha
    (|c.a2| < 1 ∧ |c.a1| < 1 + c.a2) ∧
    (c.r1 + c.a1 + c.a2 * c.r1 = 0 ∧ c.r2 + c.a1 * c.r1 + c.a2 = 0 ∧ 1 + c.a1 * c.r1 + c.a2 * c.r2 = c.sigma2 ∧ 0 < c.sigma2) ∧
    (0 < arccos ((2 * c.r1 - 1 - c.r2) / (2 * (1 - c.r1))) ∧
      arccos c.r1 / arccos ((2 * c.r1 - 1 - c.r2) / (2 * (1 - c.r1))) = alpha) := by
  obtain ⟨k, hk1, hk2, t, S, ht, hS, ht0, htS, hS1, ha2, ha1, hp, hr1, hr2, ha1', hs2⟩ := coefs_eq alpha h0 h1
  obtain ⟨hb0, hb1⟩ := fGrid_bounds k hk1 hk2
  intro c
  change c.a2 = _ at ha2
  change c.a1 = _ at ha1
  change 1 + c.a2 = _ at hp
  change c.r1 = _ at hr1
  change c.r2 = _ at hr2
  change c.a1 = _ at ha1'
  change c.sigma2 = _ at hs2
  have h1t : 0 < 1 - t := by linarith
  have hppos : 0 < 1 + c.a2 := by
    rw [hp]
    exact div_pos (by linarith) h1t
  have hm : 0 < 1 - c.a2 := by
    have : 1 - c.a2 = 2 * (S - t) / (1 - t) := by
      rw [ha2]
      field_simp
      ring
    rw [this]
    exact div_pos (by linarith) h1t
  have hr1abs : |c.r1| < 1 := by
    rw [hr1, abs_lt]
    constructor <;> linarith
  have hr1sq : c.r1 ^ 2 < 1 := by
    rw [abs_lt] at hr1abs
    nlinarith
  refine ⟨⟨?_, ?_⟩, ⟨?_, ?_, hs2.symm, ?_⟩, ?_⟩
  · rw [abs_lt]
    constructor <;> linarith
  · rw [ha1', abs_mul, abs_neg, abs_of_pos hppos]
    nlinarith
  · rw [ha1']
    ring
  · rw [hr2, ha1']
    ring
  · have : c.sigma2 = (1 - c.a2) * (1 + c.a2) * (1 - c.r1 ^ 2) := by
      rw [hs2, hr2, ha1']
      ring
    rw [this]
    exact mul_pos (mul_pos hm hppos) (by linarith)
  · have hcorr : (2 * c.r1 - 1 - c.r2) / (2 * (1 - c.r1)) = 1 - 2 * S := by
      have hr1ne : 2 * (1 - c.r1) ≠ 0 := by
        rw [hr1]
        have : 0 < t := ht0
        linarith
      rw [div_eq_iff hr1ne, hr2]
      have e : c.r1 ^ 2 * (1 + c.a2) - c.a2 = c.r1 ^ 2 * (1 + c.a2) - (1 + c.a2) + 1 := by ring
      rw [e, hp, hr1]
      field_simp
      ring
    have e1 : (1 - 2 * S : ℝ) = cos (2 * (fGrid k * π)) := by
      rw [cos_two_mul, hS]
      have := sin_sq_add_cos_sq (fGrid k * π)
      linarith
    have e2 : c.r1 = cos (2 * (alpha * (fGrid k * π))) := by
      rw [hr1, cos_two_mul, ht]
      have := sin_sq_add_cos_sq (alpha * (fGrid k * π))
      linarith
    have ha0 : 0 < alpha * (fGrid k * π) := mul_pos h0 hb0
    have ha1 : alpha * (fGrid k * π) < fGrid k * π := by nlinarith
    rw [hcorr, e1, e2, arccos_cos (by linarith) (by linarith), arccos_cos (by linarith) (by linarith)]
    refine ⟨by linarith, ?_⟩
    rw [div_eq_iff (by linarith)]
    ring

theorem lfilterAR_get (a1 a2 : ℝ) : ∀ (e : List ℝ) (z0 z1 : ℝ),
    (lfilterAR a1 a2 z0 z1 e).length = e.length ∧
    (∀ e0, e[0]? = some e0 → (lfilterAR a1 a2 z0 z1 e)[0]? = some (e0 + z0)) ∧
    (∀ e0 e1, e[0]? = some e0 → e[1]? = some e1 → (lfilterAR a1 a2 z0 z1 e)[1]? = some (e1 + (z1 - a1 * (e0 + z0)))) ∧
    ∀ n en, e[n + 2]? = some en → ∃ y0 y1 y2, (lfilterAR a1 a2 z0 z1 e)[n]? = some y0 ∧ (lfilterAR a1 a2 z0 z1 e)[n + 1]? = some y1 ∧
      (lfilterAR a1 a2 z0 z1 e)[n + 2]? = some y2 ∧ y2 + a1 * y1 + a2 * y0 = en
  | [], z0, z1 => by simp [lfilterAR]
  | [e0], z0, z1 => by simp [lfilterAR]
  | [e0, e1], z0, z1 => by simp [lfilterAR]
  | e0 :: e1 :: e2 :: l, z0, z1 => by
    obtain ⟨h1, h2, h3, h4⟩ := lfilterAR_get a1 a2 (e1 :: e2 :: l) (z1 - a1 * (e0 + z0)) (-(a2 * (e0 + z0)))
    refine ⟨by rw [lfilterAR, List.length_cons, h1]; rfl, ?_, ?_, ?_⟩
    · intro a ha
      obtain rfl : e0 = a := by simpa using ha
      simp [lfilterAR]
    · intro a b ha hb
      obtain rfl : e0 = a := by simpa using ha
      obtain rfl : e1 = b := by simpa using hb
      simp [lfilterAR]
    · intro n en hn
      rcases n with _ | n
      · obtain rfl : e2 = en := by simpa using hn
        refine ⟨e0 + z0, e1 + (z1 - a1 * (e0 + z0)), e2 + (-(a2 * (e0 + z0)) - a1 * (e1 + (z1 - a1 * (e0 + z0)))), by simp [lfilterAR],
          by simp [lfilterAR], by simp [lfilterAR], ?_⟩
        ring
      · obtain ⟨y0, y1, y2, g0, g1, g2, g3⟩ := h4 n en (by simpa using hn)
        refine ⟨y0, y1, y2, ?_, ?_, ?_, g3⟩
        · rw [lfilterAR]
          simpa using g0
        · rw [lfilterAR]
          simpa using g1
        · rw [lfilterAR]
          simpa using g2

/-- C171: the process starts in the two starting values and obeys the autoregression with the noise scaled to variance `sigma2`. -/
theorem C171_process (c : Coefs) (e : List ℝ) (g0 g1 : ℝ) (h2 : 2 ≤ e.length) :
    let x := gaussProcess c e g0 g1
    x.length = e.length ∧ x[0]? = some g0 ∧ x[1]? = some ((startWeights c).1 * g0 + (startWeights c).2 * g1) ∧
    ∀ n en, e[n + 2]? = some en → ∃ x0 x1 x2, x[n]? = some x0 ∧ x[n + 1]? = some x1 ∧ x[n + 2]? = some x2 ∧
      x2 + c.a1 * x1 + c.a2 * x0 = en * sqrt c.sigma2 := by
  intro x
  have hx : x = lfilterAR c.a1 c.a2 g0 ((startWeights c).1 * g0 + (startWeights c).2 * g1 + c.a1 * g0)
      ((e.zip (List.range e.length)).map fun p => if p.2 < 2 then 0 else p.1 * sqrt c.sigma2) := rfl
  have hget : ∀ n en, e[n]? = some en →
      ((e.zip (List.range e.length)).map fun p => if p.2 < 2 then 0 else p.1 * sqrt c.sigma2)[n]? =
        some (if n < 2 then 0 else en * sqrt c.sigma2) := by
    intro n en h
    obtain ⟨hn, rfl⟩ := List.getElem?_eq_some_iff.1 h
    rw [List.getElem?_map, List.getElem?_eq_getElem (by simpa using hn)]
    simp
  obtain ⟨l1, l2, l3, l4⟩ := lfilterAR_get c.a1 c.a2 ((e.zip (List.range e.length)).map fun p => if p.2 < 2 then 0 else
    p.1 * sqrt c.sigma2) g0 ((startWeights c).1 * g0 + (startWeights c).2 * g1 + c.a1 * g0)
  have h0 := hget 0 e[0] (List.getElem?_eq_getElem (by omega))
  have h1 := hget 1 e[1] (List.getElem?_eq_getElem (by omega))
  simp only [Nat.zero_lt_two, if_true, Nat.one_lt_two] at h0 h1
  refine ⟨?_, ?_, ?_, ?_⟩
  · rw [hx, l1]
    simp
  · rw [hx, l2 _ h0]
    simp
  · rw [hx, l3 _ _ h0 h1]
    congr 1
    ring
  · intro n en hn
    have := hget (n + 2) en hn
    rw [if_neg (by omega)] at this
    rw [hx]
    exact l4 n _ this

/-- C171, refuting that the process starts in its stationary distribution: independent standard normal `g0` and `g1` give the second
starting value the variance `r1 ** 2 + (1 - r2 ** 2)`, which is not 1 for irregularity factors up to 1/4. -/
theorem C171_start_refuted (alpha : ℝ) (h0 : 0 < alpha) (h1 : alpha ≤ 1 / 4) :
    let w := startWeights (coefs alpha)
    w.1 ^ 2 + w.2 ^ 2 ≠ 1 := by
  obtain ⟨k, hk1, hk2, t, S, ht, hS, ht0, htS, hS1, ha2, ha1, hp, hr1, hr2, ha1', hs2⟩ := coefs_eq alpha h0 (by linarith)
  obtain ⟨hb0, hb1⟩ := fGrid_bounds k hk1 hk2
  have h1t : 0 < 1 - t := by linarith
  have hr2' : (coefs alpha).r2 = 1 - 8 * t * (1 - S) := by
    have e : (coefs alpha).r2 = (coefs alpha).r1 ^ 2 * (1 + (coefs alpha).a2) - (1 + (coefs alpha).a2) + 1 := by
      rw [hr2]
      ring
    rw [e, hp, hr1]
    field_simp
    ring
  have hangle : 0 < alpha * (fGrid k * π) ∧ alpha * (fGrid k * π) ≤ π / 8 := by
    constructor
    · exact mul_pos h0 hb0
    · nlinarith
  have htlt : t < 1 / 5 := by
    have h8 : cos (π / 4) ≤ cos (2 * (alpha * (fGrid k * π))) :=
      cos_le_cos_of_nonneg_of_le_pi (by linarith) (by linarith [pi_pos]) (by linarith)
    rw [cos_pi_div_four, cos_two_mul] at h8
    have hsc := sin_sq_add_cos_sq (alpha * (fGrid k * π))
    have h2 : (7 / 5 : ℝ) < sqrt 2 := by
      rw [lt_sqrt (by norm_num)]
      norm_num
    rw [ht]
    linarith
  intro w
  have hw1 : w.1 = 1 - 2 * t := hr1
  have hw2 : w.2 = sqrt (1 - (coefs alpha).r2 ^ 2) := rfl
  have hts : t * (1 - S) ≤ 1 / 4 := by nlinarith [sq_nonneg (2 * S - 1)]
  have htp : 0 < t * (1 - S) := mul_pos ht0 (by linarith)
  rw [hw1, hw2, hr2', sq_sqrt (by nlinarith)]
  intro hcon
  have hz : (1 - 2 * t - (1 - 8 * t * (1 - S))) * (1 - 2 * t + (1 - 8 * t * (1 - S))) = 0 := by linarith
  rcases mul_eq_zero.1 hz with h | h
  · have hS34 : S = 3 / 4 := by
      have : t * (8 * (1 - S) - 2) = 0 := by linarith
      rcases mul_eq_zero.1 this with h' | h'
      · linarith
      · linarith
    have hc : cos (2 * (fGrid k * π)) = cos (2 * (π / 3)) := by
      rw [cos_two_mul, cos_two_mul, cos_pi_div_three]
      have := sin_sq_add_cos_sq (fGrid k * π)
      rw [← hS, hS34] at this
      linarith
    have hinj := injOn_cos ⟨by linarith, by linarith⟩ ⟨by linarith [pi_pos], by linarith [pi_pos]⟩ hc
    have hf : fGrid k = 1 / 3 := by
      have := pi_pos
      have : fGrid k * π = 1 / 3 * π := by linarith
      exact mul_right_cancel₀ pi_pos.ne' this
    unfold fGrid at hf
    have hnat : (149997 : ℝ) * k = 99900000 := by linarith
    have hnat' : 149997 * k = 99900000 := by exact_mod_cast hnat
    omega
  · nlinarith

example : (0 : ℝ) < 1 / 5 ∧ (1 / 5 : ℝ) ≤ 1 / 4 := by norm_num

end

end Wafo.LevelX
