import Verif.Stine.Convex
import Mathlib.Analysis.Calculus.Deriv.Inv
import Mathlib.Analysis.Calculus.Deriv.Add
import Mathlib.Analysis.Calculus.Deriv.Mul
import Mathlib.Tactic.FieldSimp

set_option linter.unusedSectionVars false

/-! Documented properties of Stineman interpolation: the slopes at the data points (C99), convexity and monotonicity
(C100). -/

namespace Wafo.Stine

open Wafo.Slopes

theorem hasDerivAt_quot (N D : ℝ → ℝ) (N' D' t v : ℝ) (hN : HasDerivAt N N' t) (hD : HasDerivAt D D' t) (h0 : N t = 0)
    (hd : D t ≠ 0) (hv : N' = v * D t) : HasDerivAt (fun t => N t / D t) v t := by
  have := hN.div hD hd
  rw [h0, zero_mul, sub_zero, hv] at this
  have e : v * D t * D t / D t ^ 2 = v := by field_simp
  rw [e] at this
  exact this

/-- The two rational forms of the correction on a closed segment. -/
theorem pieceVal_form (x0 x1 y0 y1 p0 p1 xi : ℝ) (h0 : x0 ≤ xi) (h1 : xi ≤ x1) :
    let s := (y1 - y0) / (x1 - x0)
    let a := p0 - s
    let b := p1 - s
    (a * b < 0 → pieceVal x0 x1 y0 y1 p0 p1 xi =
      y0 + s * (xi - x0) + -(a * b * ((xi - x0) * (x1 - xi))) / (a * (xi - x0) - b * (x1 - xi))) ∧
    (0 < a * b → pieceVal x0 x1 y0 y1 p0 p1 xi =
      y0 + s * (xi - x0) + -(a * b * ((xi - x0) * (x1 - xi))) * (2 * xi - x0 - x1) /
        ((a * (xi - x0) + b * (x1 - xi)) * (x1 - x0))) ∧
    (a * b = 0 → pieceVal x0 x1 y0 y1 p0 p1 xi = y0 + s * (xi - x0)) := by
  intro s a b
  have hq : 0 ≤ (xi - x0) * (x1 - xi) := mul_nonneg (by linarith) (by linarith)
  have hp : a * (xi - x0) * (b * (xi - x1)) = -(a * b * ((xi - x0) * (x1 - xi))) := by ring
  simp only [pieceVal, chord]
  change (_ → y0 + s * (xi - x0) + (if a * (xi - x0) * (b * (xi - x1)) < 0 then a * (xi - x0) * (b * (xi - x1)) *
      ((2 * xi - x0 - x1) / ((a * (xi - x0) - b * (xi - x1)) * (x1 - x0)))
    else if a * (xi - x0) * (b * (xi - x1)) = 0 then 0 else a * (xi - x0) * (b * (xi - x1)) *
      (1 / (a * (xi - x0) + b * (xi - x1)))) = _) ∧ (_ → y0 + s * (xi - x0) +
    (if a * (xi - x0) * (b * (xi - x1)) < 0 then a * (xi - x0) * (b * (xi - x1)) *
      ((2 * xi - x0 - x1) / ((a * (xi - x0) - b * (xi - x1)) * (x1 - x0)))
    else if a * (xi - x0) * (b * (xi - x1)) = 0 then 0 else a * (xi - x0) * (b * (xi - x1)) *
      (1 / (a * (xi - x0) + b * (xi - x1)))) = _) ∧ (_ → y0 + s * (xi - x0) +
    (if a * (xi - x0) * (b * (xi - x1)) < 0 then a * (xi - x0) * (b * (xi - x1)) *
      ((2 * xi - x0 - x1) / ((a * (xi - x0) - b * (xi - x1)) * (x1 - x0)))
    else if a * (xi - x0) * (b * (xi - x1)) = 0 then 0 else a * (xi - x0) * (b * (xi - x1)) *
      (1 / (a * (xi - x0) + b * (xi - x1)))) = _)
  rw [hp]
  refine ⟨fun hab => ?_, fun hab => ?_, fun hab => ?_⟩
  · congr 1
    rw [if_neg (by nlinarith)]
    split_ifs with c
    · rw [c, zero_div]
    · rw [show a * (xi - x0) + b * (xi - x1) = a * (xi - x0) - b * (x1 - xi) by ring]; ring
  · congr 1
    rw [show a * (xi - x0) - b * (xi - x1) = a * (xi - x0) + b * (x1 - xi) by ring]
    split_ifs with c1 c2
    · ring
    · rw [c2]; simp
    · exact absurd (lt_of_le_of_ne (by nlinarith) c2) c1
  · rw [hab]; simp

theorem hasDeriv_prod (c x0 x1 t : ℝ) :
    HasDerivAt (fun t => -(c * ((t - x0) * (x1 - t)))) (-(c * ((x1 - t) - (t - x0)))) t := by
  have h1 : HasDerivAt (fun t : ℝ => t - x0) 1 t := (hasDerivAt_id t).sub_const x0
  have h2 : HasDerivAt (fun t : ℝ => x1 - t) (-1) t := (hasDerivAt_id t).const_sub x1
  have := ((h1.mul h2).const_mul c).neg
  rw [show -(c * (1 * (x1 - t) + (t - x0) * -1)) = -(c * ((x1 - t) - (t - x0))) by ring] at this
  exact this

theorem hasDeriv_lin (u v w t : ℝ) (x0 x1 : ℝ) :
    HasDerivAt (fun t => (u * (t - x0) + v * (x1 - t)) * w) ((u - v) * w) t := by
  have h1 : HasDerivAt (fun t : ℝ => t - x0) 1 t := (hasDerivAt_id t).sub_const x0
  have h2 : HasDerivAt (fun t : ℝ => x1 - t) (-1) t := (hasDerivAt_id t).const_sub x1
  have := ((h1.const_mul u).add (h2.const_mul v)).mul_const w
  rw [show (u * 1 + v * -1) * w = (u - v) * w by ring] at this
  exact this

/-- One-sided derivatives of a segment at its ends. -/
theorem pieceVal_deriv (x0 x1 y0 y1 p0 p1 : ℝ) (h : x0 < x1) :
    ((p1 ≠ (y1 - y0) / (x1 - x0) ∨ p0 = (y1 - y0) / (x1 - x0)) →
      HasDerivWithinAt (pieceVal x0 x1 y0 y1 p0 p1) p0 (Set.Icc x0 x1) x0) ∧
    ((p0 ≠ (y1 - y0) / (x1 - x0) ∨ p1 = (y1 - y0) / (x1 - x0)) →
      HasDerivWithinAt (pieceVal x0 x1 y0 y1 p0 p1) p1 (Set.Icc x0 x1) x1) := by
  have hx : x1 - x0 ≠ 0 := (sub_pos.2 h).ne'
  have form := fun xi h0 h1 => pieceVal_form x0 x1 y0 y1 p0 p1 xi h0 h1
  simp only at form
  set s := (y1 - y0) / (x1 - x0) with hs
  obtain ⟨a, rfl⟩ : ∃ a, p0 = s + a := ⟨p0 - s, by ring⟩
  obtain ⟨b, rfl⟩ : ∃ b, p1 = s + b := ⟨p1 - s, by ring⟩
  simp only [add_sub_cancel_left] at form
  have hlin : ∀ t, HasDerivAt (fun t => y0 + s * (t - x0)) s t := by
    intro t
    have h1 : HasDerivAt (fun t : ℝ => t - x0) 1 t := (hasDerivAt_id t).sub_const x0
    have := (h1.const_mul s).const_add y0
    rwa [mul_one] at this
  have c0 : (s + a = s) ↔ a = 0 := by constructor <;> intro h <;> linarith
  have c1 : (s + b = s) ↔ b = 0 := by constructor <;> intro h <;> linarith
  rw [ne_eq, ne_eq, c0, c1]
  have m0 : x0 ∈ Set.Icc x0 x1 := ⟨le_rfl, h.le⟩
  have m1 : x1 ∈ Set.Icc x0 x1 := ⟨h.le, le_rfl⟩
  rcases lt_trichotomy (a * b) 0 with hab | hab | hab
  · have hb0 : b ≠ 0 := by rintro rfl; simp at hab
    have ha0 : a ≠ 0 := by rintro rfl; simp at hab
    have key : ∀ t v, -(a * b * ((t - x0) * (x1 - t))) = 0 → a * (t - x0) - b * (x1 - t) ≠ 0 →
        (-(a * b * ((x1 - t) - (t - x0))) = v * (a * (t - x0) - b * (x1 - t))) → t ∈ Set.Icc x0 x1 →
        HasDerivWithinAt (pieceVal x0 x1 y0 y1 (s + a) (s + b)) (s + v) (Set.Icc x0 x1) t := by
      intro t v e1 e2 e3 ht
      have hD : HasDerivAt (fun t => a * (t - x0) - b * (x1 - t)) (a + b) t := by
        have := hasDeriv_lin a (-b) 1 t x0 x1
        convert this using 1
        · ext t; ring
        · ring
      have hq := hasDerivAt_quot _ _ _ _ t v (hasDeriv_prod (a * b) x0 x1 t) hD e1 e2 e3
      refine (((hlin t).add hq).hasDerivWithinAt).congr (fun y hy => (form y hy.1 hy.2).1 hab) ((form t ht.1 ht.2).1 hab)
    refine ⟨fun _ => key x0 a (by simp) (by simp [hb0, hx]) (by ring) m0,
      fun _ => key x1 b (by simp) (by simp [ha0, hx]) (by ring) m1⟩
  · rcases mul_eq_zero.1 hab with ha | hb
    · have e : ∀ t ∈ Set.Icc x0 x1, pieceVal x0 x1 y0 y1 (s + a) (s + b) t = y0 + s * (t - x0) :=
        fun t ht => (form t ht.1 ht.2).2.2 hab
      refine ⟨fun _ => ?_, fun h' => ?_⟩
      · rw [ha, add_zero] at *; exact (hlin x0).hasDerivWithinAt.congr e (e _ m0)
      · rcases h' with h' | h'
        · exact absurd ha h'
        · have := (hlin x1).hasDerivWithinAt.congr e (e _ m1)
          rw [h', add_zero] at *; exact this
    · have e : ∀ t ∈ Set.Icc x0 x1, pieceVal x0 x1 y0 y1 (s + a) (s + b) t = y0 + s * (t - x0) :=
        fun t ht => (form t ht.1 ht.2).2.2 hab
      refine ⟨fun h' => ?_, fun _ => ?_⟩
      · rcases h' with h' | h'
        · exact absurd hb h'
        · have := (hlin x0).hasDerivWithinAt.congr e (e _ m0)
          rw [h', add_zero] at *; exact this
      · have := (hlin x1).hasDerivWithinAt.congr e (e _ m1)
        rw [hb, add_zero] at *; exact this
  · have hb0 : b ≠ 0 := by rintro rfl; simp at hab
    have ha0 : a ≠ 0 := by rintro rfl; simp at hab
    have key : ∀ t v, -(a * b * ((t - x0) * (x1 - t))) = 0 → (a * (t - x0) + b * (x1 - t)) * (x1 - x0) ≠ 0 →
        (-(a * b * ((x1 - t) - (t - x0))) * (2 * t - x0 - x1) = v * ((a * (t - x0) + b * (x1 - t)) * (x1 - x0))) →
        t ∈ Set.Icc x0 x1 →
        HasDerivWithinAt (pieceVal x0 x1 y0 y1 (s + a) (s + b)) (s + v) (Set.Icc x0 x1) t := by
      intro t v e1 e2 e3 ht
      have hN : HasDerivAt (fun t => -(a * b * ((t - x0) * (x1 - t))) * (2 * t - x0 - x1))
          (-(a * b * ((x1 - t) - (t - x0))) * (2 * t - x0 - x1)) t := by
        have h2 : HasDerivAt (fun t : ℝ => 2 * t - x0 - x1) 2 t := by
          have := (((hasDerivAt_id t).const_mul 2).sub_const x0).sub_const x1
          simpa using this
        have := (hasDeriv_prod (a * b) x0 x1 t).mul h2
        rw [e1, zero_mul, add_zero] at this
        exact this
      have hq := hasDerivAt_quot _ _ _ _ t v hN (hasDeriv_lin a b (x1 - x0) t x0 x1) (by rw [e1, zero_mul]) e2 e3
      refine (((hlin t).add hq).hasDerivWithinAt).congr (fun y hy => (form y hy.1 hy.2).2.1 hab)
        ((form t ht.1 ht.2).2.1 hab)
    refine ⟨fun _ => key x0 a (by simp) (by simp [hb0, hx]) (by ring) m0,
      fun _ => key x1 b (by simp) (by simp [ha0, hx]) (by ring) m1⟩

/-- **C99 (partial)**  Let `f` be the function computed by `stineman_interp(., x, y, yp)`.  At each data point the
derivative of `f` from the right is the given slope `yp[j]`, unless the slope given at the next point equals the slope
of the chord (and `yp[j]` does not); likewise from the left.  At interior points where both sides apply `f` is
differentiable with derivative `yp[j]`.

Missing: segments with exactly one end slope equal to the chord's, where the claim is false (`C99_refuted`). -/
theorem C99_slopes_partial (x y yp : List ℝ) (hx : x.Pairwise (· < ·)) (hy : y.length = x.length)
    (hp : yp.length = x.length) (f : ℝ → ℝ) (hf : ∀ xi, interp x y yp xi = .ok (some (f xi)))
    (right left : ℕ → Prop)
    (hr : ∀ j, right j ↔ j + 1 < x.length ∧ (yp.getD (j + 1) 0 ≠ sec x y j ∨ yp.getD j 0 = sec x y j))
    (hl : ∀ j, left j ↔ 0 < j ∧ j < x.length ∧ (yp.getD (j - 1) 0 ≠ sec x y (j - 1) ∨ yp.getD j 0 = sec x y (j - 1)))
    (j : ℕ) :
    (right j → HasDerivWithinAt f (yp.getD j 0) (Set.Ici (x.getD j 0)) (x.getD j 0)) ∧
    (left j → HasDerivWithinAt f (yp.getD j 0) (Set.Iic (x.getD j 0)) (x.getD j 0)) ∧
    (right j → left j → HasDerivAt f (yp.getD j 0) (x.getD j 0)) := by
  have hX : ∀ j, j + 1 < x.length → x.getD j 0 < x.getD (j + 1) 0 := fun j hj => sub_pos.1 (width_pos x hx j hj)
  have hval : ∀ j, j + 1 < x.length → ∀ t ∈ Set.Icc (x.getD j 0) (x.getD (j + 1) 0), f t =
      pieceVal (x.getD j 0) (x.getD (j + 1) 0) (y.getD j 0) (y.getD (j + 1) 0) (yp.getD j 0) (yp.getD (j + 1) 0) t := by
    intro j hj t ht
    have := interp_on x y yp t hx hy hp j hj ht.1 ht.2
    rw [hf t, Except.ok.injEq, Option.some.injEq] at this
    exact this
  have A : right j → HasDerivWithinAt f (yp.getD j 0) (Set.Ici (x.getD j 0)) (x.getD j 0) := by
    rw [hr]
    rintro ⟨h1, h2⟩
    have := ((pieceVal_deriv _ _ (y.getD j 0) (y.getD (j + 1) 0) (yp.getD j 0) (yp.getD (j + 1) 0) (hX j h1)).1 h2).congr
      (hval j h1) (hval j h1 _ ⟨le_rfl, (hX j h1).le⟩)
    exact this.mono_of_mem_nhdsWithin (Icc_mem_nhdsGE (hX j h1))
  have B : left j → HasDerivWithinAt f (yp.getD j 0) (Set.Iic (x.getD j 0)) (x.getD j 0) := by
    rw [hl]
    rintro ⟨h0, h1, h2⟩
    obtain ⟨k, rfl⟩ : ∃ k, j = k + 1 := ⟨j - 1, by omega⟩
    have := ((pieceVal_deriv _ _ (y.getD k 0) (y.getD (k + 1) 0) (yp.getD k 0) (yp.getD (k + 1) 0) (hX k h1)).2 h2).congr
      (hval k h1) (hval k h1 _ ⟨(hX k h1).le, le_rfl⟩)
    exact this.mono_of_mem_nhdsWithin (Icc_mem_nhdsLE (hX k h1))
  refine ⟨A, B, fun h1 h2 => ?_⟩
  have := (A h1).union (B h2)
  rw [Set.union_comm, Set.Iic_union_Ici, hasDerivWithinAt_univ] at this
  exact this

/-- **C99 refuted**: for the points (0, 0) and (1, 0) with given slopes 1 and 0 the interpolant is constant, so its slope
at the first point is 0, not 1. -/
theorem C99_refuted (f : ℝ → ℝ) (hf : ∀ xi, interp [0, 1] [0, 0] [1, 0] xi = .ok (some (f xi))) :
    ¬ HasDerivWithinAt f 1 (Set.Ici 0) 0 := by
  have : f = fun _ => 0 := by
    funext t
    have h := hf t
    have hs : segment [(0 : ℝ), 1] t = 0 := by simp [segment]
    simp only [interp, hs] at h
    have : piece (0 : ℝ) 1 0 0 1 0 t = some 0 := by simp [piece, div?]
    simpa [this, eq_comm] using h
  rw [this]
  intro h
  have := (uniqueDiffWithinAt_Ici (0 : ℝ)).eq_deriv _ h (hasDerivWithinAt_const 0 _ 0)
  exact one_ne_zero this

/-- **C100 (convexity)**  Let at least three points be given with strictly increasing abscissae.  `StinemanInterp(x, y)`
(default slopes) evaluates everywhere; if the slopes of the chords increase, the curve is convex, if they decrease,
concave. -/
theorem C100_convex (eps garb : ℝ) (rt : ℝ → ℝ) (x y : List ℝ) (hx : x.Pairwise (· < ·))
    (hy : y.length = x.length) (hn : 3 ≤ x.length) :
    ∃ f : ℝ → ℝ, (∀ xi, interpDefault eps garb rt x y .stineman false false xi = .ok (some (f xi))) ∧
      ((∀ i, i + 2 < x.length → sec x y i ≤ sec x y (i + 1)) →
        ConvexOn ℝ (Set.Icc (x.getD 0 0) (x.getD (x.length - 1) 0)) f) ∧
      ((∀ i, i + 2 < x.length → sec x y (i + 1) ≤ sec x y i) →
        ConcaveOn ℝ (Set.Icc (x.getD 0 0) (x.getD (x.length - 1) 0)) f) := by
  have hex : ∀ xi, ∃ v, interpDefault eps garb rt x y .stineman false false xi = .ok (some v) := by
    intro xi
    rw [interpDefault_eq eps garb rt x y xi hx hy (by omega)]
    exact (C72_stineman x y _ hx hy (by simp) (by omega)).1 xi
  choose f hf using hex
  refine ⟨f, hf, fun h => (interpDefault_conv eps garb rt x y hx hy hn h f hf).1, fun h => ?_⟩
  have := (interpDefault_conv eps garb rt x (y.map (- ·)) hx (by simpa using hy) hn
    (fun i hi => by rw [sec_neg, sec_neg]; exact neg_le_neg (h i hi)) (fun t => - f t)
    (fun xi => interpDefault_neg eps garb rt x y xi hx hy (by omega) _ (hf xi))).1
  exact neg_convexOn_iff.1 this

/-- **C100 (monotonicity, partial)**  Under the hypotheses of `C100_convex`, if in addition the ordinates increase (or
decrease) and the flatter end chord is not horizontal, the curve increases (decreases).

Missing: data that begin or end with a horizontal chord, where the claim is false (`C100_refuted`). -/
theorem C100_monotone_partial (eps garb : ℝ) (rt : ℝ → ℝ) (x y : List ℝ) (hx : x.Pairwise (· < ·))
    (hy : y.length = x.length) (hn : 3 ≤ x.length) (f : ℝ → ℝ)
    (hf : ∀ xi, interpDefault eps garb rt x y .stineman false false xi = .ok (some (f xi))) :
    ((∀ i, i + 2 < x.length → sec x y i ≤ sec x y (i + 1)) →
      (0 < sec x y 0 → MonotoneOn f (Set.Icc (x.getD 0 0) (x.getD (x.length - 1) 0))) ∧
      (sec x y (x.length - 2) < 0 → AntitoneOn f (Set.Icc (x.getD 0 0) (x.getD (x.length - 1) 0)))) ∧
    ((∀ i, i + 2 < x.length → sec x y (i + 1) ≤ sec x y i) →
      (0 < sec x y (x.length - 2) → MonotoneOn f (Set.Icc (x.getD 0 0) (x.getD (x.length - 1) 0))) ∧
      (sec x y 0 < 0 → AntitoneOn f (Set.Icc (x.getD 0 0) (x.getD (x.length - 1) 0)))) := by
  refine ⟨fun h => (interpDefault_conv eps garb rt x y hx hy hn h f hf).2, fun h => ?_⟩
  have := (interpDefault_conv eps garb rt x (y.map (- ·)) hx (by simpa using hy) hn
    (fun i hi => by rw [sec_neg, sec_neg]; exact neg_le_neg (h i hi)) (fun t => - f t)
    (fun xi => interpDefault_neg eps garb rt x y xi hx hy (by omega) _ (hf xi))).2
  rw [sec_neg, sec_neg] at this
  refine ⟨fun h0 => ?_, fun h0 => ?_⟩
  · have := this.2 (by linarith)
    intro p hp q hq hpq
    exact neg_le_neg_iff.1 (this hp hq hpq)
  · have := this.1 (by linarith)
    intro p hp q hq hpq
    exact neg_le_neg_iff.1 (this hp hq hpq)

example : sec [0, 1, 3] [(0 : ℝ), 1, 5] 0 ≤ sec [0, 1, 3] [(0 : ℝ), 1, 5] 1 ∧ 0 < sec [0, 1, 3] [(0 : ℝ), 1, 5] 0 := by
  norm_num [sec]

/-- **C100 refuted** for data that begin with a horizontal chord: the points (0, 0), (1, 0), (2, 1) rise and are convex,
but the curve falls from 0 at 0 to -1/12 at 1/2. -/
theorem C100_refuted :
    interpDefault (1 / 1000000000 : ℚ) 0 id [0, 1, 2] [0, 0, 1] .stineman false false 0 = .ok (some 0) ∧
    interpDefault (1 / 1000000000 : ℚ) 0 id [0, 1, 2] [0, 0, 1] .stineman false false (1 / 2) = .ok (some (-1 / 12)) := by
  decide +kernel

end Wafo.Stine
