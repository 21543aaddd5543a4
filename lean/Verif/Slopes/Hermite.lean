import Mathlib.Algebra.Polynomial.Derivative
import Mathlib.Analysis.Calculus.Deriv.Polynomial
import Mathlib.Analysis.Calculus.Deriv.MeanValue
import Mathlib.Data.List.GetD
import Mathlib.Order.Monotone.Union
import Mathlib.Tactic.LinearCombination
import Mathlib.Tactic.FieldSimp
import Mathlib.Tactic.Linarith
import Mathlib.Tactic.Ring

/-! Specification of the cubic Hermite interpolant that `Pchip` and `CubicHermiteSpline` build from data and slopes
(`BPoly.from_derivatives(x, yyp, orders=3)`, interpolate.py L1214-1219, L1319-1325; scipy is outside the model): on
every interval a polynomial of degree at most three with the given values and slopes at both ends. -/

namespace Wafo.Slopes
open Polynomial

/-- `P` is the cubic on `[x0, x1]` with end values `y0`, `y1` and end slopes `d0`, `d1`. -/
structure IsCubic (P : ℝ[X]) (x0 x1 y0 y1 d0 d1 : ℝ) : Prop where
  deg : P.natDegree ≤ 3
  left : P.eval x0 = y0
  right : P.eval x1 = y1
  dleft : P.derivative.eval x0 = d0
  dright : P.derivative.eval x1 = d1

/-- `f` is the piecewise cubic Hermite interpolant of the points `(x[i], y[i])` with slopes `d[i]`. -/
def IsHermite (x y d : List ℝ) (f : ℝ → ℝ) : Prop :=
  ∀ i, i + 1 < x.length → ∃ P : ℝ[X],
    IsCubic P (x.getD i 0) (x.getD (i + 1) 0) (y.getD i 0) (y.getD (i + 1) 0) (d.getD i 0) (d.getD (i + 1) 0) ∧
    ∀ t ∈ Set.Icc (x.getD i 0) (x.getD (i + 1) 0), f t = P.eval t

theorem cubic_derivative (P : ℝ[X]) (x0 x1 y0 y1 d0 d1 : ℝ) (hP : IsCubic P x0 x1 y0 y1 d0 d1) (hx : x0 < x1)
    (t : ℝ) : P.derivative.eval (x0 + t * (x1 - x0)) =
      (y1 - y0) / (x1 - x0) * (6 * t * (1 - t)) + d0 * (1 - 4 * t + 3 * t ^ 2) + d1 * (3 * t ^ 2 - 2 * t) := by
  obtain ⟨hd, h0, h1, h2, h3⟩ := hP
  have hsum := P.as_sum_range_C_mul_X_pow' (show P.natDegree < 4 by omega)
  set a := P.coeff 0
  set b := P.coeff 1
  set c := P.coeff 2
  set e := P.coeff 3
  have hform : P = C a + C b * X + C c * X ^ 2 + C e * X ^ 3 := by
    rw [hsum]; simp [Finset.sum_range_succ, a, b, c, e]
  have hder : P.derivative = C b + C (2 * c) * X + C (3 * e) * X ^ 2 := by
    rw [hform]
    simp only [derivative_add, derivative_mul, derivative_C, derivative_X, derivative_X_pow, C_mul]
    simp only [map_ofNat, Nat.cast_ofNat]
    simp
    ring
  rw [hder] at h2 h3 ⊢
  rw [hform] at h0 h1
  simp only [eval_add, eval_mul, eval_C, eval_X, eval_pow] at *
  have hne : x1 - x0 ≠ 0 := sub_ne_zero.2 hx.ne'
  rw [← h0, ← h1, ← h2, ← h3]
  field_simp
  ring

theorem cubic_eval (P : ℝ[X]) (x0 x1 y0 y1 d0 d1 : ℝ) (hP : IsCubic P x0 x1 y0 y1 d0 d1)
    (t : ℝ) : (x1 - x0) * P.eval (x0 + t * (x1 - x0)) = (x1 - x0) *
      (y0 * (2 * t ^ 3 - 3 * t ^ 2 + 1) + (x1 - x0) * d0 * (t ^ 3 - 2 * t ^ 2 + t) + y1 * (3 * t ^ 2 - 2 * t ^ 3) +
        (x1 - x0) * d1 * (t ^ 3 - t ^ 2)) := by
  obtain ⟨hd, h0, h1, h2, h3⟩ := hP
  have hsum := P.as_sum_range_C_mul_X_pow' (show P.natDegree < 4 by omega)
  set a := P.coeff 0
  set b := P.coeff 1
  set c := P.coeff 2
  set e := P.coeff 3
  have hform : P = C a + C b * X + C c * X ^ 2 + C e * X ^ 3 := by
    rw [hsum]; simp [Finset.sum_range_succ, a, b, c, e]
  have hder : P.derivative = C b + C (2 * c) * X + C (3 * e) * X ^ 2 := by
    rw [hform]
    simp only [derivative_add, derivative_mul, derivative_C, derivative_X, derivative_X_pow, C_mul]
    simp only [map_ofNat, Nat.cast_ofNat]
    simp
    ring
  rw [hder] at h2 h3
  rw [hform] at h0 h1 ⊢
  simp only [eval_add, eval_mul, eval_C, eval_X, eval_pow] at *
  rw [← h0, ← h1, ← h2, ← h3]
  ring

/-- End slopes between 0 and three times the secant give a cubic whose derivative has the sign of the secant. -/
theorem cubic_sign (m d0 d1 t : ℝ) (h0 : 0 ≤ d0) (h0' : d0 ≤ 3 * m) (h1 : 0 ≤ d1) (h1' : d1 ≤ 3 * m)
    (ht0 : 0 ≤ t) (ht1 : t ≤ 1) :
    0 ≤ m * (6 * t * (1 - t)) + d0 * (1 - 4 * t + 3 * t ^ 2) + d1 * (3 * t ^ 2 - 2 * t) := by
  have hm : 0 ≤ m := by linarith
  have hu : 0 ≤ 1 - t := by linarith
  rcases hm.eq_or_lt with h | hm
  · have e0 : d0 = 0 := by linarith
    have e1 : d1 = 0 := by linarith
    simp [e0, e1, ← h]
  -- bilinear in d0/m, d1/m: combination of the four corners of [0,3]x[0,3]
  have key : 9 * m * (m * (6 * t * (1 - t)) + d0 * (1 - 4 * t + 3 * t ^ 2) + d1 * (3 * t ^ 2 - 2 * t)) * 1 =
      (3 * m - d0) * (3 * m - d1) * (6 * t * (1 - t)) + d0 * (3 * m - d1) * (3 * (1 - t) ^ 2) +
      (3 * m - d0) * d1 * (3 * t ^ 2) + d0 * d1 * (3 * (1 - 2 * t) ^ 2) := by ring
  have hk : 0 ≤ 9 * m * (m * (6 * t * (1 - t)) + d0 * (1 - 4 * t + 3 * t ^ 2) + d1 * (3 * t ^ 2 - 2 * t)) * 1 := by
    rw [key]
    have a0 : 0 ≤ 3 * m - d0 := by linarith
    have a1 : 0 ≤ 3 * m - d1 := by linarith
    positivity
  rw [mul_one] at hk
  exact nonneg_of_mul_nonneg_right hk (by linarith)

/-- Slopes between 0 and three times the secant, whatever its sign. -/
def Within {α : Type*} [Field α] [LinearOrder α] (m d : α) : Prop := (0 ≤ d ∧ d ≤ 3 * m) ∨ (3 * m ≤ d ∧ d ≤ 0)

/-- Monotone in the direction of the data on `[x0, x1]`. -/
theorem cubic_monotone (P : ℝ[X]) (x0 x1 y0 y1 d0 d1 : ℝ) (hP : IsCubic P x0 x1 y0 y1 d0 d1) (hx : x0 < x1)
    (h0 : Within ((y1 - y0) / (x1 - x0)) d0) (h1 : Within ((y1 - y0) / (x1 - x0)) d1) :
    (y0 ≤ y1 → MonotoneOn (fun t => P.eval t) (Set.Icc x0 x1)) ∧
    (y1 ≤ y0 → AntitoneOn (fun t => P.eval t) (Set.Icc x0 x1)) := by
  have hpos : 0 < x1 - x0 := sub_pos.2 hx
  have hcont : ContinuousOn (fun t => P.eval t) (Set.Icc x0 x1) := P.differentiable.continuous.continuousOn
  have hdiff : DifferentiableOn ℝ (fun t => P.eval t) (interior (Set.Icc x0 x1)) := P.differentiable.differentiableOn
  have hrep : ∀ s ∈ interior (Set.Icc x0 x1), ∃ t, 0 ≤ t ∧ t ≤ 1 ∧ s = x0 + t * (x1 - x0) := by
    intro s hs
    have hs := interior_subset hs
    refine ⟨(s - x0) / (x1 - x0), div_nonneg (sub_nonneg.2 hs.1) hpos.le, ?_, ?_⟩
    · rw [div_le_one hpos]; linarith [hs.2]
    · field_simp; ring
  constructor
  · intro hy
    have hm : 0 ≤ (y1 - y0) / (x1 - x0) := div_nonneg (sub_nonneg.2 hy) hpos.le
    refine monotoneOn_of_deriv_nonneg (convex_Icc _ _) hcont hdiff fun s hs => ?_
    obtain ⟨t, ht0, ht1, rfl⟩ := hrep s hs
    rw [Polynomial.deriv, cubic_derivative P x0 x1 y0 y1 d0 d1 hP hx]
    refine cubic_sign _ _ _ _ ?_ ?_ ?_ ?_ ht0 ht1 <;> rcases h0 with ⟨_, _⟩ | ⟨_, _⟩ <;>
      rcases h1 with ⟨_, _⟩ | ⟨_, _⟩ <;> linarith
  · intro hy
    have hm : (y1 - y0) / (x1 - x0) ≤ 0 := div_nonpos_of_nonpos_of_nonneg (sub_nonpos.2 hy) hpos.le
    refine antitoneOn_of_deriv_nonpos (convex_Icc _ _) hcont hdiff fun s hs => ?_
    obtain ⟨t, ht0, ht1, rfl⟩ := hrep s hs
    rw [Polynomial.deriv, cubic_derivative P x0 x1 y0 y1 d0 d1 hP hx]
    have := cubic_sign (-((y1 - y0) / (x1 - x0))) (-d0) (-d1) t
      (by rcases h0 with ⟨_, _⟩ | ⟨_, _⟩ <;> linarith) (by rcases h0 with ⟨_, _⟩ | ⟨_, _⟩ <;> linarith)
      (by rcases h1 with ⟨_, _⟩ | ⟨_, _⟩ <;> linarith) (by rcases h1 with ⟨_, _⟩ | ⟨_, _⟩ <;> linarith) ht0 ht1
    linarith

/-- Pieces that are monotone on each interval make a monotone function. -/
theorem monotoneOn_pieces (x : List ℝ) (hx : x.Pairwise (· < ·)) (f : ℝ → ℝ)
    (hf : ∀ i, i + 1 < x.length → MonotoneOn f (Set.Icc (x.getD i 0) (x.getD (i + 1) 0))) (k : ℕ) (hk : k < x.length) :
    MonotoneOn f (Set.Icc (x.getD 0 0) (x.getD k 0)) := by
  have hp := List.pairwise_iff_getElem.1 hx
  have hle : ∀ i j, i ≤ j → j < x.length → x.getD i 0 ≤ x.getD j 0 := by
    intro i j hij hj
    rw [List.getD_eq_getElem _ _ (by omega), List.getD_eq_getElem _ _ hj]
    rcases Nat.lt_or_ge i j with h | h
    · exact (hp i j (by omega) hj h).le
    · obtain rfl : i = j := by omega
      exact le_rfl
  induction k with
  | zero => intro a ha b hb _; simp at ha hb; rw [ha, hb]
  | succ k ih =>
    have h1 := ih (by omega)
    have h2 := hf k hk
    have := MonotoneOn.union_right h1 h2 (c := x.getD k 0) ⟨⟨hle 0 k (by omega) (by omega), le_rfl⟩, fun y hy => hy.2⟩
      ⟨⟨le_rfl, hle k (k + 1) (by omega) hk⟩, fun y hy => hy.1⟩
    rwa [Set.Icc_union_Icc_eq_Icc (hle 0 k (by omega) (by omega)) (hle k (k + 1) (by omega) hk)] at this

/-- The Hermite interpolant of data with slopes within the limits of both neighbouring secants is monotone on every
interval; it is monotone on the whole range when the data are. -/
theorem hermite_monotone (x y d : List ℝ) (hx : x.Pairwise (· < ·)) (f : ℝ → ℝ) (hf : IsHermite x y d f)
    (hd : ∀ i, i + 1 < x.length →
      Within ((y.getD (i + 1) 0 - y.getD i 0) / (x.getD (i + 1) 0 - x.getD i 0)) (d.getD i 0) ∧
      Within ((y.getD (i + 1) 0 - y.getD i 0) / (x.getD (i + 1) 0 - x.getD i 0)) (d.getD (i + 1) 0)) :
    (∀ i, i + 1 < x.length →
      (y.getD i 0 ≤ y.getD (i + 1) 0 → MonotoneOn f (Set.Icc (x.getD i 0) (x.getD (i + 1) 0))) ∧
      (y.getD (i + 1) 0 ≤ y.getD i 0 → AntitoneOn f (Set.Icc (x.getD i 0) (x.getD (i + 1) 0)))) ∧
    ((∀ i, i + 1 < x.length → y.getD i 0 ≤ y.getD (i + 1) 0) →
      MonotoneOn f (Set.Icc (x.getD 0 0) (x.getD (x.length - 1) 0))) ∧
    ((∀ i, i + 1 < x.length → y.getD (i + 1) 0 ≤ y.getD i 0) →
      AntitoneOn f (Set.Icc (x.getD 0 0) (x.getD (x.length - 1) 0))) := by
  have hp := List.pairwise_iff_getElem.1 hx
  have step : ∀ i, i + 1 < x.length →
      (y.getD i 0 ≤ y.getD (i + 1) 0 → MonotoneOn f (Set.Icc (x.getD i 0) (x.getD (i + 1) 0))) ∧
      (y.getD (i + 1) 0 ≤ y.getD i 0 → AntitoneOn f (Set.Icc (x.getD i 0) (x.getD (i + 1) 0))) := by
    intro i hi
    obtain ⟨P, hP, heq⟩ := hf i hi
    have hlt : x.getD i 0 < x.getD (i + 1) 0 := by
      rw [List.getD_eq_getElem _ _ (by omega), List.getD_eq_getElem _ _ hi]
      exact hp _ _ _ _ (by omega)
    obtain ⟨c1, c2⟩ := cubic_monotone P _ _ _ _ _ _ hP hlt (hd i hi).1 (hd i hi).2
    exact ⟨fun h a ha b hb hab => by rw [heq a ha, heq b hb]; exact c1 h ha hb hab,
      fun h a ha b hb hab => by rw [heq a ha, heq b hb]; exact c2 h ha hb hab⟩
  refine ⟨step, ?_, ?_⟩
  · intro hy
    rcases Nat.eq_zero_or_pos x.length with h | h
    · intro a ha b hb _; simp [List.length_eq_zero_iff.1 h] at ha hb; rw [ha, hb]
    · exact monotoneOn_pieces x hx f (fun i hi => (step i hi).1 (hy i hi)) _ (by omega)
  · intro hy
    rcases Nat.eq_zero_or_pos x.length with h | h
    · intro a ha b hb _; simp [List.length_eq_zero_iff.1 h] at ha hb; rw [ha, hb]
    · have := monotoneOn_pieces x hx (fun t => - f t)
        (fun i hi a ha b hb hab => neg_le_neg ((step i hi).2 (hy i hi) ha hb hab)) (x.length - 1) (by omega)
      intro a ha b hb hab
      have := this ha hb hab
      simpa using this

end Wafo.Slopes
