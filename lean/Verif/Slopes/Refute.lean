import Verif.Slopes.Mono

set_option linter.unusedSectionVars false

/-! Data for which `slopes(..., monotone=True)` does not preserve monotonicity (C71). -/

namespace Wafo.Slopes

/-- Value of the Hermite interpolant at the fraction `t` of interval `i`. -/
theorem hermite_value (x y d : List ℝ) (f : ℝ → ℝ) (hf : IsHermite x y d f) (i : ℕ) (hi : i + 1 < x.length)
    (h : ℝ) (hh : x.getD (i + 1) 0 - x.getD i 0 = h) (hpos : 0 < h) (t : ℝ) (h0 : 0 ≤ t) (h1 : t ≤ 1) :
    f (x.getD i 0 + t * h) = y.getD i 0 * (2 * t ^ 3 - 3 * t ^ 2 + 1) + h * d.getD i 0 * (t ^ 3 - 2 * t ^ 2 + t) +
      y.getD (i + 1) 0 * (3 * t ^ 2 - 2 * t ^ 3) + h * d.getD (i + 1) 0 * (t ^ 3 - t ^ 2) := by
  obtain ⟨P, hP, heq⟩ := hf i hi
  rw [heq _ ⟨by nlinarith, by nlinarith⟩]
  have := cubic_eval P _ _ _ _ _ _ hP t
  rw [hh] at this
  exact mul_left_cancel₀ hpos.ne' this

/-- **C71 refuted**, method 'parabola': the extrapolated first slope is negative and is left negative; the interpolant
of the increasing data 0, 1, 5 falls below 0. -/
theorem C71_parabola_refuted (eps garb : ℝ) : ∃ d,
    slopes eps garb Real.sqrt [0, 1, 2] [0, 1, 5] .parabola 0 true false = .ok d ∧
    ∀ f, IsHermite [0, 1, 2] [0, 1, 5] d f → ¬ MonotoneOn f (Set.Icc 0 2) := by
  refine ⟨[-1 / 2, 5 / 2, 11 / 2], ?_, ?_⟩
  · rw [slopes, if_neg (by simp), slopes0_ok eps garb Real.sqrt [0, 1, 2] [0, 1, 5] .parabola 0 true (by norm_num) rfl (by simp) (by simp)]
    have m0 : sec [(0 : ℝ), 1, 2] [0, 1, 5] 0 = 1 := by norm_num [sec]
    have m1 : sec [(0 : ℝ), 1, 2] [0, 1, 5] 1 = 4 := by norm_num [sec]
    have w0 : width [(0 : ℝ), 1, 2] 0 = 1 := by norm_num [width]
    have w1 : width [(0 : ℝ), 1, 2] 1 = 1 := by norm_num [width]
    set M := sec [(0 : ℝ), 1, 2] [0, 1, 5]
    set W := width [(0 : ℝ), 1, 2]
    have f0 : flatten 3 M (parabola 3 W M) 0 = -1 / 2 := by norm_num [flatten, parabola, withEnds, m0, m1, w0, w1]
    have f1 : flatten 3 M (parabola 3 W M) 1 = 5 / 2 := by norm_num [flatten, parabola, withEnds, m0, m1, w0, w1]
    have f2 : flatten 3 M (parabola 3 W M) 2 = 11 / 2 := by norm_num [flatten, parabola, withEnds, m0, m1, w0, w1]
    have d0 : dist M (flatten 3 M (parabola 3 W M)) 0 = 13 / 2 := by simp only [dist, f0, f1, m0]; norm_num
    have d1 : dist M (flatten 3 M (parabola 3 W M)) 1 = 73 / 32 := by simp only [dist, f1, f2, m1]; norm_num
    simp only [List.length_cons, List.length_nil, if_true, rawSlopes, Nat.reduceAdd]
    have hv : ∀ k, fixMonotone Real.sqrt 3 M (parabola 3 W M) k = _ := fun k => fixLoop_eq _ _ _ _ _ _
    have e : List.range 3 = [0, 1, 2] := rfl
    rw [e]
    simp only [List.map_cons, List.map_nil, hv]
    norm_num [d0, d1, f0, f1, f2, m0, m1]
  · intro f hf hm
    have v := hermite_value _ _ _ f hf 0 (by simp) 1 (by norm_num) one_pos (1 / 10) (by norm_num) (by norm_num)
    have v0 := hermite_value _ _ _ f hf 0 (by simp) 1 (by norm_num) one_pos 0 (by norm_num) (by norm_num)
    norm_num at v v0
    have := hm (a := 0) (b := 1 / 10) (by norm_num) (by norm_num) (by norm_num)
    rw [v, v0] at this
    norm_num at this

/-- **C71 refuted**, method 'steffen': the end slopes have the wrong sign for decreasing data, here three points of a
straight line. -/
theorem C71_steffen_refuted (eps garb : ℝ) : ∃ d,
    slopes eps garb Real.sqrt [0, 1, 2] [2, 1, 0] .steffen 0 true false = .ok d ∧ d = [1, -1, 1] ∧
    ∀ f, IsHermite [0, 1, 2] [2, 1, 0] d f → ¬ AntitoneOn f (Set.Icc 0 2) := by
  refine ⟨[1, -1, 1], ?_, rfl, ?_⟩
  · rw [slopes, if_neg (by simp), slopes0_ok eps garb Real.sqrt [0, 1, 2] [2, 1, 0] .steffen 0 true (by norm_num) rfl (by simp) (by simp)]
    have s1 : sgn (-1 : ℝ) = -1 := sgn_neg' (by norm_num)
    have m0 : sec [(0 : ℝ), 1, 2] [2, 1, 0] 0 = -1 := by norm_num [sec]
    have m1 : sec [(0 : ℝ), 1, 2] [2, 1, 0] 1 = -1 := by norm_num [sec]
    have w0 : width [(0 : ℝ), 1, 2] 0 = 1 := by norm_num [width]
    have w1 : width [(0 : ℝ), 1, 2] 1 = 1 := by norm_num [width]
    set M := sec [(0 : ℝ), 1, 2] [2, 1, 0]
    set W := width [(0 : ℝ), 1, 2]
    have f0 : flatten 3 M (steffen 3 W M) 0 = 1 := by norm_num [flatten, steffen, steffenEnd, m0, m1, w0, w1, s1]
    have f1 : flatten 3 M (steffen 3 W M) 1 = -1 := by norm_num [flatten, steffen, steffenEnd, m0, m1, w0, w1, s1]
    have f2 : flatten 3 M (steffen 3 W M) 2 = 1 := by norm_num [flatten, steffen, steffenEnd, m0, m1, w0, w1, s1]
    have d0 : dist M (flatten 3 M (steffen 3 W M)) 0 = 2 := by simp only [dist, f0, f1, m0]; norm_num
    have d1 : dist M (flatten 3 M (steffen 3 W M)) 1 = 2 := by simp only [dist, f1, f2, m1]; norm_num
    simp only [List.length_cons, List.length_nil, if_true, rawSlopes, Nat.reduceAdd]
    have hv : ∀ k, fixMonotone Real.sqrt 3 M (steffen 3 W M) k = _ := fun k => fixLoop_eq _ _ _ _ _ _
    have e : List.range 3 = [0, 1, 2] := rfl
    rw [e]
    simp only [List.map_cons, List.map_nil, hv]
    norm_num [d0, d1, f0, f1, f2, m0, m1]
  · intro f hf hm
    have v := hermite_value _ _ _ f hf 0 (by simp) 1 (by norm_num) one_pos (1 / 10) (by norm_num) (by norm_num)
    have v0 := hermite_value _ _ _ f hf 0 (by simp) 1 (by norm_num) one_pos 0 (by norm_num) (by norm_num)
    norm_num at v v0
    have := hm (a := 0) (b := 1 / 10) (by norm_num) (by norm_num) (by norm_num)
    rw [v, v0] at this
    norm_num at this

/-- **C71 refuted**, two neighbouring adjusted intervals (method 'secant'): the slope between them is set a second time,
from its original value, and ends up too large for the first interval. -/
theorem C71_neighbours_refuted (eps garb : ℝ) : ∃ d,
    slopes eps garb Real.sqrt [0, 1, 2, 3] [0, 1, 80 / 9, 1633 / 33] .secant 0 true false = .ok d ∧
    ∀ f, IsHermite [0, 1, 2, 3] [0, 1, 80 / 9, 1633 / 33] d f → ¬ MonotoneOn f (Set.Icc 0 3) := by
  refine ⟨[27 / 41, 781 / 183, 2343 / 2440 * (800 / 33), 4019 / 99], ?_, ?_⟩
  · rw [slopes, if_neg (by simp), slopes0_ok eps garb Real.sqrt [0, 1, 2, 3] [0, 1, 80 / 9, 1633 / 33] .secant 0 true (by norm_num) rfl (by simp) (by simp)]
    have m0 : sec [(0 : ℝ), 1, 2, 3] [0, 1, 80 / 9, 1633 / 33] 0 = 1 := by norm_num [sec]
    have m1 : sec [(0 : ℝ), 1, 2, 3] [0, 1, 80 / 9, 1633 / 33] 1 = 71 / 9 := by norm_num [sec]
    have m2 : sec [(0 : ℝ), 1, 2, 3] [0, 1, 80 / 9, 1633 / 33] 2 = 4019 / 99 := by norm_num [sec]
    set M := sec [(0 : ℝ), 1, 2, 3] [0, 1, 80 / 9, 1633 / 33]
    have f0 : flatten 4 M (secant 4 M) 0 = 1 := by norm_num [flatten, secant, m0]
    have f1 : flatten 4 M (secant 4 M) 1 = 40 / 9 := by norm_num [flatten, secant, m0, m1]
    have f2 : flatten 4 M (secant 4 M) 2 = 800 / 33 := by norm_num [flatten, secant, m1, m2]
    have f3 : flatten 4 M (secant 4 M) 3 = 4019 / 99 := by norm_num [flatten, secant, m2]
    have d0 : dist M (flatten 4 M (secant 4 M)) 0 = (41 / 9) ^ 2 := by simp only [dist, f0, f1, m0]; norm_num
    have d1 : dist M (flatten 4 M (secant 4 M)) 1 = (2440 / 781) ^ 2 := by simp only [dist, f1, f2, m1]; norm_num
    have d2 : dist M (flatten 4 M (secant 4 M)) 2 = (2400 / 4019) ^ 2 + 1 := by
      simp only [dist, f2, f3, m2]; norm_num
    simp only [List.length_cons, List.length_nil, if_true, rawSlopes, Nat.reduceAdd]
    have hv : ∀ k, fixMonotone Real.sqrt 4 M (secant 4 M) k = _ := fun k => fixLoop_eq _ _ _ _ _ _
    have e : List.range 4 = [0, 1, 2, 3] := rfl
    rw [e]
    simp only [List.map_cons, List.map_nil, hv]
    have r : ∀ a b : ℝ, 0 ≤ a → a ^ 2 = b → Real.sqrt b = a := by rintro a b ha rfl; exact Real.sqrt_sq ha
    have r1 : Real.sqrt 1681 = 41 := r _ _ (by norm_num) (by norm_num)
    have r2 : Real.sqrt 81 = 9 := r _ _ (by norm_num) (by norm_num)
    have r3 : Real.sqrt 5953600 = 2440 := r _ _ (by norm_num) (by norm_num)
    have r4 : Real.sqrt 609961 = 781 := r _ _ (by norm_num) (by norm_num)
    norm_num [d0, d1, d2, r1, r2, r3, r4, f0, f1, f2, f3, m0, m1, m2]
  · intro f hf hm
    have v := hermite_value _ _ _ f hf 0 (by simp) 1 (by norm_num) one_pos (1 / 5) (by norm_num) (by norm_num)
    have w := hermite_value _ _ _ f hf 0 (by simp) 1 (by norm_num) one_pos (7 / 20) (by norm_num) (by norm_num)
    norm_num at v w
    have := hm (a := 1 / 5) (b := 7 / 20) (by norm_num) (by norm_num) (by norm_num)
    rw [v, w] at this
    norm_num at this

/-- Data meeting the hypotheses of `C71_monotone_partial`: nothing is adjusted. -/
example : ∃ x y : List ℝ, x.Pairwise (· < ·) ∧ y.length = x.length ∧ 2 ≤ x.length ∧ y.Pairwise (· ≤ ·) ∧
    x = [0, 1, 2] ∧ y = [0, 1, 3] := ⟨[0, 1, 2], [0, 1, 3], by norm_num, rfl, by simp, by norm_num, rfl, rfl⟩

end Wafo.Slopes
