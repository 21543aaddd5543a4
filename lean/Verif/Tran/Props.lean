import Verif.Tran.Lemmas
import Mathlib.Analysis.SpecialFunctions.Log.Base
import Mathlib.Analysis.Calculus.IteratedDeriv.Lemmas
import Mathlib.Analysis.Calculus.Deriv.Pow
import Mathlib.Analysis.Calculus.ContDiff.Operations

/-!
Properties C49 (trangood), C50 (tranproc) and C51 (good_bins).
-/

set_option linter.unusedSectionVars false

namespace Wafo.Tran

section
variable {α : Type*} [Field α] [LinearOrder α] [IsStrictOrderedRing α] [FloorRing α]

/-! ## C49 -/

/-- **C49, without lower extrapolation.**  For at least two distinct abscissae in any order, all options, and
`min_x` not below the data: the grid is strictly increasing, starts at the smallest abscissa (hence covers
`min_x`), reaches at least `max_x` and the largest abscissa, and all steps equal the first one up to the tolerance
`10 eps L` per point (so exactly for `eps = 0`, and whenever the grid is resampled). -/
theorem C49_grid_partial (eps : α) (heps : 0 ≤ eps) (interp : List α → List α → α → α) (x f : List α)
    (minn : Option ℕ) (minx maxx : Option α) (maxn : Option ℕ) (hlen : f.length = x.length)
    (h2 : 2 ≤ x.length) (hnd : x.Nodup) (hmin : ∀ m, minx = some m → ∃ v ∈ x, v ≤ m) :
    ∃ g h x0 xl, trangood eps interp x f minn minx maxx maxn = .ok g ∧
      (g.map Prod.fst).Pairwise (· < ·) ∧ 0 < h ∧
      (g.map Prod.fst).head? = some x0 ∧ (∀ v ∈ x, x0 ≤ v) ∧ (∀ m, minx = some m → x0 ≤ m) ∧
      (g.map Prod.fst).getLast? = some xl ∧ (∀ v ∈ x, v ≤ xl) ∧ (∀ m, maxx = some m → m ≤ xl) ∧
      (∃ L, 0 < L ∧ Steps h (x.length * (10 * eps * L)) (g.map Prod.fst)) := by
  obtain ⟨g, x0, xn, h, hb, hx0, hxn, hbd, heq, _⟩ :=
    trangood_core eps heps interp x f minn minx maxx maxn hlen h2 hnd
  have hmin0 : ¬ minx.getD x0 < x0 := by
    cases minx with
    | none => simp
    | some m =>
      obtain ⟨v, hv, hvm⟩ := hmin m rfl
      exact not_lt.2 ((hbd v hv).1.trans hvm)
  obtain ⟨b, l, hxs, hbh⟩ := hb.two
  have hg2 : 2 ≤ g.length := by
    have := congrArg List.length hxs
    simp at this
    omega
  have hlow : extendLow h (minx.getD x0) g = .ok g := by
    unfold extendLow
    match g, hxs with
    | (xa, _) :: (xb, _) :: _, e =>
      simp only [List.map_cons, List.cons.injEq] at e
      obtain ⟨rfl, _⟩ := e
      dsimp only
      rw [if_neg hmin0]
    | [], e => simp at e
    | [_], e => simp at e
  rw [hlow] at heq
  dsimp only at heq
  have hlt : x0 < xn := by
    have := hb.last
    rw [hxs] at this
    have hm := List.mem_of_getLast? this
    rcases List.mem_cons.1 hm with h' | h'
    · exfalso
      rw [h', List.getLast?_cons] at this
      have hs := hb.sorted
      rw [hxs] at hs
      simp only [Option.some.injEq] at this
      have hx : x0 ∈ b :: l := by
        have h3 := List.getLast_mem (l := b :: l) (by simp)
        rw [List.getLast?_eq_some_getLast (by simp), Option.getD_some] at this
        rwa [this] at h3
      exact lt_irrefl _ ((List.pairwise_cons.1 hs).1 x0 hx)
    · have hs := hb.sorted
      rw [hxs] at hs
      exact (List.pairwise_cons.1 hs).1 xn h'
  have hδ : 0 ≤ (x.length : α) * (10 * eps * (xn - x0)) :=
    mul_nonneg (Nat.cast_nonneg _) (mul_nonneg (by linarith) (by linarith))
  obtain ⟨m, t, e1, e2, e3, _⟩ := extendHigh_spec h (maxx.getD xn) hb.pos f (by omega) g xn hg2 hb.last
  have hB := base_append h _ x0 xn hδ (g.map Prod.fst) hb m
  rw [← e2, ← List.map_append] at hB
  refine ⟨g ++ t, h, x0, xn + m * h, by rw [heq, e1], hB.sorted, hb.pos, ?_, fun v hv => (hbd v hv).1, ?_,
    hB.last, ?_, ?_, xn - x0, by linarith, hB.steps⟩
  · obtain ⟨b', l', e, _⟩ := hB.two
    rw [e]; rfl
  · intro m' hm'
    rw [hm'] at hmin0
    exact not_lt.1 hmin0
  · intro v hv
    have := (hbd v hv).2
    have h0 : (0 : α) ≤ m * h := mul_nonneg (Nat.cast_nonneg _) hb.pos.le
    linarith
  · intro m' hm'
    rw [hm'] at e3
    exact e3

/-- **C49 refuted.**  Whenever a `min_x` below all abscissae is requested, the result is wrong: either the
grid still starts at the smallest abscissa and does not cover `min_x`, or it has a gap of three steps in
front of the smallest abscissa. -/
theorem C49_lower_refuted (eps : α) (heps : 0 ≤ eps) (interp : List α → List α → α → α) (x f : List α)
    (minn : Option ℕ) (minx : α) (maxx : Option α) (maxn : Option ℕ) (hlen : f.length = x.length)
    (h2 : 2 ≤ x.length) (hnd : x.Nodup) (hmin : ∀ v ∈ x, minx < v) :
    ∃ g, trangood eps interp x f minn (some minx) maxx maxn = .ok g ∧
      ((∃ x0, (g.map Prod.fst).head? = some x0 ∧ minx < x0) ∨
       (∃ (k : ℕ) (h x0 : α), 0 < h ∧ (g.map Prod.fst)[k]? = some (x0 - 3 * h) ∧
        (g.map Prod.fst)[k + 1]? = some x0 ∧ (g.map Prod.fst)[k + 2]? = some (x0 + h))) := by
  obtain ⟨g, x0, xn, h, hb, hx0, hxn, hbd, heq, _⟩ :=
    trangood_core eps heps interp x f minn (some minx) maxx maxn hlen h2 hnd
  obtain ⟨b, l, hxs, hbh⟩ := hb.two
  have hg2 : 2 ≤ g.length := by
    have := congrArg List.length hxs
    simp at this
    omega
  have hlt := hmin x0 hx0
  rw [Option.getD_some] at heq
  obtain ⟨t1, hlow, ht1⟩ : ∃ t1, extendLow h minx g = .ok (t1 ++ g) ∧
      t1.map Prod.fst = (List.range (-2 - ⌊(minx - x0) / h⌋).toNat).map
        (fun k : ℕ => h * ((⌊(minx - x0) / h⌋ + k : ℤ) : α) + x0) := by
    unfold extendLow
    match g, hxs with
    | (xa, _) :: (xb, _) :: _, e =>
      simp only [List.map_cons, List.cons.injEq] at e
      obtain ⟨rfl, _⟩ := e
      dsimp only
      rw [if_pos hlt]
      refine ⟨_, rfl, ?_⟩
      rw [List.map_map, List.map_map]
      rfl
    | [], e => simp at e
    | [_], e => simp at e
  rw [hlow] at heq
  dsimp only at heq
  have hlast : ((t1 ++ g).map Prod.fst).getLast? = some xn := by
    rw [List.map_append, List.getLast?_append, hb.last]; rfl
  obtain ⟨m, t, e1, _⟩ := extendHigh_spec h (maxx.getD xn) hb.pos f (by omega) (t1 ++ g) xn
    (by rw [List.length_append]; omega) hlast
  refine ⟨_, by rw [heq, e1], ?_⟩
  have hall : ((t1 ++ g ++ t).map Prod.fst) = t1.map Prod.fst ++ (x0 :: b :: (l ++ t.map Prod.fst)) := by
    rw [List.map_append, List.map_append, hxs]; simp
  rw [hall]
  set c := (-2 - ⌊(minx - x0) / h⌋).toNat with hc
  rcases Nat.eq_zero_or_pos c with h0 | h0
  · left
    rw [ht1, h0]
    exact ⟨x0, rfl, hlt⟩
  · right
    have hl1 : (t1.map Prod.fst).length = c := by rw [ht1]; simp
    refine ⟨c - 1, h, x0, hb.pos, ?_, ?_, ?_⟩
    · rw [List.getElem?_append_left (by omega), ht1, List.getElem?_map, List.getElem?_range (by omega)]
      simp only [Option.map_some, Option.some.injEq]
      have : ⌊(minx - x0) / h⌋ + ((c - 1 : ℕ) : ℤ) = -3 := by omega
      rw [this]
      push_cast
      ring
    · rw [show c - 1 + 1 = c by omega, List.getElem?_append_right (by omega), hl1, Nat.sub_self]
      rfl
    · rw [show c - 1 + 2 = c + 1 by omega, List.getElem?_append_right (by omega), hl1,
        Nat.add_sub_cancel_left]
      simp only [List.getElem?_cons_succ, List.getElem?_cons_zero, Option.some.injEq]
      linarith

/-- **C49, values below the data.**  The points added in front of the smallest abscissa lie on the straight
line through the first two points of the (resampled) grid, whatever the order of the input. -/
theorem C49_lower_values (eps : α) (heps : 0 ≤ eps) (interp : List α → List α → α → α) (x f : List α)
    (minn : Option ℕ) (minx : α) (maxx : Option α) (maxn : Option ℕ) (hlen : f.length = x.length)
    (h2 : 2 ≤ x.length) (hnd : x.Nodup) (hmin : ∀ v ∈ x, minx < v) :
    ∃ t x0 f0 x1 f1 r, trangood eps interp x f minn (some minx) maxx maxn
        = .ok (t ++ (x0, f0) :: (x1, f1) :: r) ∧ x0 ∈ x ∧ (∀ v ∈ x, x0 ≤ v) ∧ x0 < x1 ∧
      ∀ q ∈ t, q.1 < x0 ∧ (q.2 - f0) * (x1 - x0) = (q.1 - x0) * (f1 - f0) := by
  obtain ⟨g, x0, xn, h, hb, hx0, hxn, hbd, heq, _⟩ :=
    trangood_core eps heps interp x f minn (some minx) maxx maxn hlen h2 hnd
  obtain ⟨b, l, hxs, hbh⟩ := hb.two
  have hlt := hmin x0 hx0
  have hpos := hb.pos
  rw [Option.getD_some] at heq
  match g, hxs with
  | (xa, fa) :: (xb, fb) :: g', e =>
    simp only [List.map_cons, List.cons.injEq] at e
    obtain ⟨rfl, rfl, _⟩ := e
    simp only [extendLow, if_pos hlt] at heq
    set t1 := List.map (fun v => (v + xa, fa + v * (fb - fa) / (xb - xa)))
      (List.map (fun k : ℕ => h * (((⌊(minx - xa) / h⌋ + k : ℤ)) : α))
        (List.range (-2 - ⌊(minx - xa) / h⌋).toNat)) with ht1
    have hlast : ((t1 ++ (xa, fa) :: (xb, fb) :: g').map Prod.fst).getLast? = some xn := by
      rw [List.map_append, List.getLast?_append, hb.last]; rfl
    obtain ⟨m, t, e1, _⟩ := extendHigh_spec h (maxx.getD xn) hpos f (by omega) _ xn
      (by simp only [List.length_append, List.length_cons]; omega) hlast
    refine ⟨t1, xa, fa, xb, fb, g' ++ t, ?_, hx0, fun v hv => (hbd v hv).1, by linarith, ?_⟩
    · rw [heq, e1]; simp
    · intro q hq
      rw [ht1, List.mem_map] at hq
      obtain ⟨v, hv, rfl⟩ := hq
      rw [List.mem_map] at hv
      obtain ⟨k, hk, rfl⟩ := hv
      rw [List.mem_range] at hk
      have hneg : (⌊(minx - xa) / h⌋ + k : ℤ) ≤ -1 := by omega
      have hneg' : (((⌊(minx - xa) / h⌋ + k : ℤ)) : α) ≤ -1 := by exact_mod_cast hneg
      have hx : xb - xa ≠ 0 := by
        have : xb - xa = h := by linarith
        rw [this]; exact hpos.ne'
      constructor
      · have : h * (((⌊(minx - xa) / h⌋ + k : ℤ)) : α) < 0 :=
          mul_neg_of_pos_of_neg hpos (by linarith)
        dsimp only
        linarith
      · dsimp only
        field_simp
        ring
  | [], e => simp at e
  | [_], e => simp at e

/-- Duplicate abscissae raise a ValueError. -/
theorem C49_duplicates (eps : α) (interp : List α → List α → α → α) (x f : List α) (minn : Option ℕ)
    (minx maxx : Option α) (maxn : Option ℕ) (hlen : f.length = x.length) (hnd : ¬ x.Nodup) :
    trangood eps interp x f minn minx maxx maxn = .error .valueError := by
  unfold trangood
  rw [if_neg (by omega)]
  dsimp only
  rw [if_neg]
  intro hall
  apply hnd
  rw [← sortPairs_strict x f hlen.ge, ← diff_pos_iff]
  rw [List.all_eq_true] at hall
  intro d hd
  simpa using hall d hd

end

/-- **C49, extrapolated values refuted.**  Data on the line `f = x`.  Given in decreasing order, the value
extrapolated at 3 is -1; not equally spaced, the value extrapolated at 9/2 is 5 (although interpolation of the
resampled points is exact). -/
theorem C49_values_refuted :
    trangood (0 : ℚ) (fun _ _ v => v) [2, 1, 0] [2, 1, 0] none none (some 3) none
      = .ok [(0, 0), (1, 1), (2, 2), (3, -1)] ∧
    trangood (0 : ℚ) (fun _ _ v => v) [0, 1, 3] [0, 1, 3] none none (some (9 / 2)) none
      = .ok [(0, 0), (3 / 2, 3 / 2), (3, 3), (9 / 2, 5)] := by
  constructor <;> decide +kernel

/-- A case with both extrapolations: requested from -4 to 4 with unit steps. -/
example : trangood (0 : ℚ) (fun _ _ v => v) [0, 1, 2] [0, 1, 2] none (some (-4)) (some 4) none
    = .ok [(-4, -4), (-3, -3), (0, 0), (1, 1), (2, 2), (3, 3), (4, 4)] := by decide +kernel

example : trangood (0 : ℚ) (fun _ _ v => 2 * v) [0, 4, 1] [0, 8, 2] (some 5) (some 1) (some (11 / 2)) (some 9)
    = .ok [(0, 0), (1, 2), (2, 4), (3, 6), (4, 8), (5, -4), (6, -10)] := by decide +kernel

/-! ## C50 -/

/-- **C50, formulas.**  For smooth `f` and `x` the combinations used for the first three derivatives are the
time derivatives of `f(x(t))`; the fourth is off by exactly `4 f''(x) x' (x''' - x'')`. -/
theorem C50_chain_rule_partial (f x : ℝ → ℝ) (hf : ContDiff ℝ 4 f) (hx : ContDiff ℝ 4 x) (t : ℝ) :
    let F := fun k => iteratedDeriv k f (x t)
    let X := fun k => iteratedDeriv k x t
    iteratedDeriv 1 (f ∘ x) t = der1 (F 1) (X 1) ∧
    iteratedDeriv 2 (f ∘ x) t = der2 (F 1) (F 2) (X 1) (X 2) ∧
    iteratedDeriv 3 (f ∘ x) t = der3 (F 1) (F 2) (F 3) (X 1) (X 2) (X 3) ∧
    iteratedDeriv 4 (f ∘ x) t = der4 (F 1) (F 2) (F 3) (F 4) (X 1) (X 2) (X 3) (X 4)
      + 4 * F 2 * X 1 * (X 3 - X 2) := by
  have hF : ∀ k : ℕ, k < 4 → ∀ u, HasDerivAt (iteratedDeriv k f) (iteratedDeriv (k + 1) f u) u := by
    intro k hk u
    rw [iteratedDeriv_succ]
    have : Differentiable ℝ (iteratedDeriv k f) := hf.differentiable_iteratedDeriv k (by exact_mod_cast hk)
    exact (this u).hasDerivAt
  have hX : ∀ k : ℕ, k < 4 → ∀ u, HasDerivAt (iteratedDeriv k x) (iteratedDeriv (k + 1) x u) u := by
    intro k hk u
    rw [iteratedDeriv_succ]
    have : Differentiable ℝ (iteratedDeriv k x) := hx.differentiable_iteratedDeriv k (by exact_mod_cast hk)
    exact (this u).hasDerivAt
  have hx0 : ∀ u, HasDerivAt x (iteratedDeriv 1 x u) u := by
    intro u
    have := hX 0 (by norm_num) u
    rwa [iteratedDeriv_zero] at this
  have hFx : ∀ k : ℕ, k < 4 → ∀ u, HasDerivAt (fun u => iteratedDeriv k f (x u))
      (iteratedDeriv (k + 1) f (x u) * iteratedDeriv 1 x u) u :=
    fun k hk u => (hF k hk (x u)).comp u (hx0 u)
  have e1 : iteratedDeriv 1 (f ∘ x) = fun u => iteratedDeriv 1 f (x u) * iteratedDeriv 1 x u := by
    rw [iteratedDeriv_one]
    funext u
    have := hFx 0 (by norm_num) u
    rw [iteratedDeriv_zero] at this
    exact this.deriv
  have e2 : iteratedDeriv 2 (f ∘ x) = fun u =>
      iteratedDeriv 2 f (x u) * iteratedDeriv 1 x u * iteratedDeriv 1 x u
        + iteratedDeriv 1 f (x u) * iteratedDeriv 2 x u := by
    rw [iteratedDeriv_succ, e1]
    funext u
    exact ((hFx 1 (by norm_num) u).mul (hX 1 (by norm_num) u)).deriv
  have e3 : iteratedDeriv 3 (f ∘ x) = fun u =>
      ((iteratedDeriv 3 f (x u) * iteratedDeriv 1 x u) * iteratedDeriv 1 x u
        + iteratedDeriv 2 f (x u) * iteratedDeriv 2 x u) * iteratedDeriv 1 x u
      + iteratedDeriv 2 f (x u) * iteratedDeriv 1 x u * iteratedDeriv 2 x u
      + (iteratedDeriv 2 f (x u) * iteratedDeriv 1 x u * iteratedDeriv 2 x u
        + iteratedDeriv 1 f (x u) * iteratedDeriv 3 x u) := by
    rw [iteratedDeriv_succ, e2]
    funext u
    have h1 := ((hFx 2 (by norm_num) u).mul (hX 1 (by norm_num) u)).mul (hX 1 (by norm_num) u)
    have h2 := (hFx 1 (by norm_num) u).mul (hX 2 (by norm_num) u)
    exact (h1.add h2).deriv
  have e3' : iteratedDeriv 3 (f ∘ x) = fun u =>
      iteratedDeriv 3 f (x u) * (iteratedDeriv 1 x u * iteratedDeriv 1 x u * iteratedDeriv 1 x u)
      + 3 * (iteratedDeriv 2 f (x u) * (iteratedDeriv 1 x u * iteratedDeriv 2 x u))
      + iteratedDeriv 1 f (x u) * iteratedDeriv 3 x u := by
    rw [e3]; funext u; ring
  have h1 := (hFx 3 (by norm_num) t).mul
    (((hX 1 (by norm_num) t).mul (hX 1 (by norm_num) t)).mul (hX 1 (by norm_num) t))
  have h2 := ((hFx 2 (by norm_num) t).mul ((hX 1 (by norm_num) t).mul (hX 2 (by norm_num) t))).const_mul 3
  have h3 := (hFx 1 (by norm_num) t).mul (hX 3 (by norm_num) t)
  have e4 := ((h1.add h2).add h3).deriv
  intro F X
  refine ⟨?_, ?_, ?_, ?_⟩
  · rw [e1]; simp only [F, X, der1]
  · rw [e2]; simp only [F, X, der2]; ring
  · rw [e3']; simp only [F, X, der3]; ring
  · rw [iteratedDeriv_succ, e3']
    refine e4.trans ?_
    simp only [F, X, der4, Pi.mul_apply]
    ring

/-- **C50 refuted, fourth derivative.**  For `f(u) = u²` and `x(t) = t + t²/2` at `t = 0` the fourth derivative
of `f(x(t))` is 6, `_der_4` gives 14. -/
theorem C50_fourth_refuted :
    let f : ℝ → ℝ := fun u => u ^ 2
    let x : ℝ → ℝ := fun t => t + t ^ 2 / 2
    let F := fun k => iteratedDeriv k f (x 0)
    let X := fun k => iteratedDeriv k x 0
    iteratedDeriv 4 (f ∘ x) 0 = 6 ∧ der4 (F 1) (F 2) (F 3) (F 4) (X 1) (X 2) (X 3) (X 4) = 14 := by
  intro f x F X
  have df1 : deriv f = fun u => 2 * u := by
    funext u
    have : HasDerivAt f (2 * u) u := by simpa using hasDerivAt_pow 2 u
    exact this.deriv
  have df2 : deriv (fun u : ℝ => 2 * u) = fun _ => 2 := by
    funext u
    have : HasDerivAt (fun u : ℝ => 2 * u) 2 u := by simpa using (hasDerivAt_id u).const_mul 2
    exact this.deriv
  have dx1 : deriv x = fun t => 1 + t := by
    funext t
    have h := (hasDerivAt_id t).add ((hasDerivAt_pow 2 t).div_const 2)
    have : HasDerivAt x (1 + t) t := by
      have e : (1 : ℝ) + (2 : ℕ) * t ^ (2 - 1) / 2 = 1 + t := by push_cast; ring
      rw [← e]
      exact h
    exact this.deriv
  have dx2 : deriv (fun t : ℝ => 1 + t) = fun _ => 1 := by
    funext t
    have : HasDerivAt (fun t : ℝ => 1 + t) 1 t := by simpa using (hasDerivAt_id t).const_add 1
    exact this.deriv
  have dc : ∀ c : ℝ, deriv (fun _ : ℝ => c) = fun _ => 0 := by intro c; funext u; simp
  have F2 : iteratedDeriv 2 f = fun _ => 2 := by
    rw [iteratedDeriv_succ, iteratedDeriv_one, df1, df2]
  have F3 : iteratedDeriv 3 f = fun _ => 0 := by rw [iteratedDeriv_succ, F2, dc]
  have F4 : iteratedDeriv 4 f = fun _ => 0 := by rw [iteratedDeriv_succ, F3, dc]
  have X2 : iteratedDeriv 2 x = fun _ => 1 := by
    rw [iteratedDeriv_succ, iteratedDeriv_one, dx1, dx2]
  have X3 : iteratedDeriv 3 x = fun _ => 0 := by rw [iteratedDeriv_succ, X2, dc]
  have X4 : iteratedDeriv 4 x = fun _ => 0 := by rw [iteratedDeriv_succ, X3, dc]
  have hx0 : x 0 = 0 := by simp [x]
  have hd : der4 (F 1) (F 2) (F 3) (F 4) (X 1) (X 2) (X 3) (X 4) = 14 := by
    simp only [F, X, F2, F3, F4, X2, X4, iteratedDeriv_one, df1, dx1, hx0, der4]
    norm_num
  refine ⟨?_, hd⟩
  have hfc : ContDiff ℝ 4 f := contDiff_id.pow 2
  have hxc : ContDiff ℝ 4 x := contDiff_id.add ((contDiff_id.pow 2).div_const 2)
  have := (C50_chain_rule_partial f x hfc hxc 0).2.2.2
  dsimp only at this
  rw [this]
  have hd' := hd
  simp only [F, X] at hd'
  rw [hd']
  simp only [F2, X2, X3, iteratedDeriv_one, dx1]
  norm_num

section
variable {α : Type*} [Field α] [LinearOrder α] [IsStrictOrderedRing α] [FloorRing α]

/-- `mapM` in `Except` when every call succeeds. -/
theorem mapM_ok {β γ : Type*} (F : β → Except PyErr γ) (l : List β) (h : ∀ v ∈ l, ∃ w, F v = .ok w) :
    ∃ r, l.mapM F = .ok r ∧ r.length = l.length ∧
      ∀ (i : ℕ) v w, l[i]? = some v → r[i]? = some w → F v = .ok w := by
  induction l with
  | nil => exact ⟨[], rfl, rfl, by simp⟩
  | cons a l ih =>
    obtain ⟨r, h1, h2, h3⟩ := ih (fun v hv => h v (List.mem_cons_of_mem _ hv))
    obtain ⟨w, hw⟩ := h a (by simp)
    refine ⟨w :: r, ?_, by simp [h2], ?_⟩
    · rw [List.mapM_cons, hw, h1]; rfl
    · intro i v w' hv hw'
      cases i with
      | zero => simp at hv hw'; subst hv hw'; exact hw
      | succ i => exact h3 i v w' (by simpa using hv) (by simpa using hw')

/-- **C50, values.**  On an exactly uniform grid of the argument and for points inside it (and `nmax` large
enough), `tranproc(x, f, x0)` is the piecewise linear interpolation of `f`, in particular `f` itself at grid
points. -/
theorem C50_value_partial (eps : α) (heps : 0 ≤ eps) (interp : List α → List α → α → α) (nmax : List α → ℕ)
    (a h : α) (hh : 0 < h) (N : ℕ) (hN : 1 ≤ N) (f x0 : List α) (hf : f.length = N + 1) (hx0 : x0 ≠ [])
    (hin : ∀ v ∈ x0, a ≤ v ∧ v ≤ a + N * h)
    (hmax : N + 1 ≤ nmax ((List.range (N + 1)).map (fun k : ℕ => a + (k : α) * h))) :
    ∃ y, tranproc0 eps interp nmax ((List.range (N + 1)).map (fun k : ℕ => a + (k : α) * h)) f x0 = .ok y ∧
      y.length = x0.length ∧
      ∀ (i : ℕ) v w, x0[i]? = some v → y[i]? = some w →
        ∃ (k : ℕ) (p q : α), f[k]? = some p ∧ f[k + 1]? = some q ∧ a + k * h ≤ v ∧ v ≤ a + (k + 1) * h ∧
          w = p + (q - p) * ((v - (a + k * h)) / h) := by
  set x := (List.range (N + 1)).map (fun k : ℕ => a + (k : α) * h) with hx
  have hxl : x.length = N + 1 := by simp [hx]
  have hxget : ∀ k, k < N + 1 → x[k]? = some (a + k * h) := by
    intro k hk
    rw [hx, List.getElem?_map, List.getElem?_range hk]; rfl
  have hxs : x.Pairwise (· < ·) := by
    rw [hx, List.pairwise_map]
    refine List.pairwise_lt_range.imp ?_
    intro i j hij
    have : (i : α) < j := by exact_mod_cast hij
    nlinarith
  have hsort : sortPairs x f = x.zip f := by
    unfold sortPairs
    apply List.Pairwise.insertionSort_eq
    have : (x.zip f).Pairwise (fun p q => p.1 < q.1) := by
      rw [← List.pairwise_map (f := Prod.fst), List.map_fst_zip (by omega)]
      exact hxs
    exact this.imp le_of_lt
  have hfst : (x.zip f).map Prod.fst = x := List.map_fst_zip (by omega)
  have hsnd : (x.zip f).map Prod.snd = f := List.map_snd_zip (by omega)
  have hdd : ∀ d ∈ diff (diff x), d = 0 := by
    have hd1 : ∀ (k : ℕ) d, (diff x)[k]? = some d → d = h := by
      intro k d hd
      have hlen : ∀ l : List α, (diff l).length = l.length - 1 := by
        intro l
        induction l with
        | nil => rfl
        | cons c l ih =>
          cases l with
          | nil => rfl
          | cons e l =>
            rw [show diff (c :: e :: l) = (e - c) :: diff (e :: l) from rfl, List.length_cons, ih]
            simp
      have hk := (List.getElem?_eq_some_iff.1 hd).1
      rw [hlen, hxl] at hk
      have := diff_get x k _ _ (hxget k (by omega)) (hxget (k + 1) (by omega))
      rw [this] at hd
      simp only [Option.some.injEq] at hd
      rw [← hd]; push_cast; ring
    intro d hd
    obtain ⟨k, u, v, h1, h2, rfl⟩ := mem_diff _ d hd
    rw [hd1 _ _ h1, hd1 _ _ h2]; ring
  -- extremes of x0
  obtain ⟨v0, vs, rfl⟩ := List.exists_cons_of_ne_nil hx0
  have hfold : ∀ (l : List α) (c : α) (P : α → Prop), P c → (∀ v ∈ l, P v) →
      P (l.foldl min c) ∧ P (l.foldl max c) := by
    intro l
    induction l with
    | nil => intro c P hc _; exact ⟨hc, hc⟩
    | cons b l ih =>
      intro c P hc hl
      have hb := hl b (by simp)
      constructor
      · refine (ih (min c b) P ?_ (fun v hv => hl v (List.mem_cons_of_mem _ hv))).1
        rcases min_choice c b with h | h <;> rw [h] <;> assumption
      · refine (ih (max c b) P ?_ (fun v hv => hl v (List.mem_cons_of_mem _ hv))).2
        rcases max_choice c b with h | h <;> rw [h] <;> assumption
  have hext := hfold vs v0 (fun v => a ≤ v ∧ v ≤ a + N * h) (hin v0 (by simp))
    (fun v hv => hin v (List.mem_cons_of_mem _ hv))
  have hlast : x.getLast? = some (a + N * h) := by
    rw [List.getLast?_eq_getElem?, hxl, Nat.add_sub_cancel, hxget N (by omega)]
  have hnpos : (0 : α) < N := by exact_mod_cast hN
  have htg : trangood eps interp x f none (some (vs.foldl min v0)) (some (vs.foldl max v0)) (some (nmax x))
      = .ok (x.zip f) := by
    unfold trangood
    rw [if_neg (by omega)]
    dsimp only
    rw [hsort, hfst, if_pos]
    · have hh0 : x.head? = some a := by
        rw [List.head?_eq_getElem?, hxget 0 (by omega)]; simp
      rw [hh0, hlast]
      dsimp only
      have hmr : mustResample eps x (max (Option.getD none x.length) 2)
          (Option.map (fun m => max m 2) (some (nmax x))) (a + N * h - a) = false := by
        unfold mustResample
        simp only [Option.getD_none, Option.map_some, hxl, Bool.or_eq_false_iff, decide_eq_false_iff_not]
        refine ⟨⟨by omega, by omega⟩, ?_⟩
        rw [List.any_eq_false]
        intro d hd
        rw [hdd d hd, abs_zero]
        have : 0 ≤ 10 * eps * (a + N * h - a) := mul_nonneg (by linarith) (by
          have : 0 < (N : α) * h := mul_pos hnpos hh
          linarith)
        simpa using this
      rw [hmr]
      simp only [Bool.false_eq_true, if_false]
      have hz : ∃ p q l, x.zip f = (a, p) :: (a + h, q) :: l := by
        match f, hf with
        | p :: q :: f', hf =>
          refine ⟨p, q, ?_⟩
          have hx2 : ∃ l, x = a :: (a + h) :: l := by
            match x, hxl, hxget with
            | u :: v :: l, _, hg =>
              have h0 := hg 0 (by omega)
              have h1 := hg 1 (by omega)
              simp at h0 h1
              exact ⟨l, by rw [h0, h1]⟩
            | [_], hl, _ => simp at hl; omega
            | [], hl, _ => simp at hl
          obtain ⟨l, hl⟩ := hx2
          exact ⟨l.zip f', by rw [hl]; rfl⟩
        | [_], hf => simp at hf; omega
        | [], hf => simp at hf
      obtain ⟨p, q, l, hz⟩ := hz
      rw [hz]
      dsimp only
      have hlow : extendLow (a + h - a) ((some (vs.foldl min v0)).getD a) ((a, p) :: (a + h, q) :: l)
          = .ok ((a, p) :: (a + h, q) :: l) := by
        unfold extendLow
        dsimp only
        rw [if_neg]
        simpa using hext.1.1
      rw [hlow]
      dsimp only
      rw [← hz]
      unfold extendHigh
      have e1 : fromEnd ((x.zip f).map Prod.fst) 1 = .ok (a + N * h) := by
        unfold fromEnd
        rw [hfst, if_pos (by omega)]
        rw [List.getLast?_eq_getElem?] at hlast
        rw [hlast]
      rw [e1]
      dsimp only
      rw [if_neg]
      simpa using hext.2.2
    · rw [List.all_eq_true]
      intro d hd
      simpa using (diff_pos_iff x).2 hxs d hd
  -- value at one point
  have hval : ∀ v, a ≤ v → v ≤ a + N * h → ∃ w, valueAt f.length (x.zip f) v = .ok w ∧
      ∃ (k : ℕ) (p q : α), f[k]? = some p ∧ f[k + 1]? = some q ∧ a + k * h ≤ v ∧ v ≤ a + (k + 1) * h ∧
          w = p + (q - p) * ((v - (a + k * h)) / h) := by
    intro v h1 h2
    unfold valueAt
    have e1 : fromEnd ((x.zip f).map Prod.fst) 1 = .ok (a + N * h) := by
      unfold fromEnd
      rw [hfst, if_pos (by omega)]
      rw [List.getLast?_eq_getElem?] at hlast
      rw [hlast]
    have e0 : pyGet ((x.zip f).map Prod.fst) 0 = .ok a := by
      unfold pyGet
      rw [hfst]
      have := hxget 0 (by omega)
      simp only [Nat.cast_zero, zero_mul, add_zero] at this
      simp [this]
    rw [e1, e0]
    dsimp only
    rw [hsnd, hf]
    have hxu : (((N + 1 : ℕ) : α) - 1) * (v - a) / (a + N * h - a) = (v - a) / h := by
      push_cast
      field_simp
      ring
    rw [hxu]
    set xu := (v - a) / h with hxud
    have hxu0 : 0 ≤ xu := div_nonneg (by linarith) hh.le
    have hxuN : xu ≤ N := by rw [hxud, div_le_iff₀ hh]; linarith
    have hv : v = a + xu * h := by rw [hxud]; field_simp; ring
    have hfl0 : 0 ≤ ⌊xu⌋ := Int.floor_nonneg.2 hxu0
    have hflN : ⌊xu⌋ ≤ (N : ℤ) := by
      have : ((⌊xu⌋ : ℤ) : α) ≤ ((N : ℤ) : α) := (Int.floor_le xu).trans (by exact_mod_cast hxuN)
      exact_mod_cast this
    obtain ⟨k, hkN, hk⟩ : ∃ k : ℕ, k < N ∧ (if ⌊xu⌋ = ((N + 1 : ℕ) : ℤ) - 1 then ⌊xu⌋ - 1 else ⌊xu⌋) = (k : ℤ) := by
      push_cast
      rw [add_sub_cancel_right]
      split
      · exact ⟨N - 1, by omega, by omega⟩
      · exact ⟨⌊xu⌋.toNat, by omega, by omega⟩
    have hku : (k : α) ≤ xu ∧ xu ≤ k + 1 := by
      push_cast at hk
      rw [add_sub_cancel_right] at hk
      have f1 := Int.floor_le xu
      have f2 := (Int.lt_floor_add_one xu).le
      split at hk
      · rename_i he
        have hkN' : k + 1 = N := by omega
        have : ((k : α) + 1) = N := by exact_mod_cast hkN'
        rw [he] at f1
        have f1' : (N : α) ≤ xu := by exact_mod_cast f1
        constructor
        · linarith
        · linarith
      · rw [hk] at f1 f2
        constructor
        · exact_mod_cast f1
        · exact_mod_cast f2
    rw [hk]
    have gf : ∀ j : ℕ, j < N + 1 → pyGet f (j : ℤ) = .ok (f.getD j 0) ∧ f[j]? = some (f.getD j 0) := by
      intro j hj
      have : f[j]? = some (f.getD j 0) := by
        rw [List.getD_eq_getElem?_getD, List.getElem?_eq_getElem (by omega)]; rfl
      refine ⟨?_, this⟩
      unfold pyGet
      dsimp only
      have h0 : ¬ (j : ℤ) < 0 := by omega
      have h0' : (0 : ℤ) ≤ j := by omega
      rw [if_neg h0, if_pos h0', Int.toNat_natCast, this]
    have g1 := gf k (by omega)
    have g2 := gf (k + 1) (by omega)
    rw [g1.1, show (k : ℤ) + 1 = ((k + 1 : ℕ) : ℤ) by push_cast; ring, g2.1]
    refine ⟨_, rfl, k, _, _, g1.2, g2.2, ?_, ?_, ?_⟩
    · rw [hv]; nlinarith [hku.1]
    · rw [hv]; nlinarith [hku.2]
    · congr 1
      rw [hv]
      push_cast
      field_simp
      ring
  unfold tranproc0
  dsimp only
  rw [htg]
  dsimp only
  obtain ⟨r, r1, r2, r3⟩ := mapM_ok (valueAt f.length (x.zip f)) (v0 :: vs) (fun v hv => by
    obtain ⟨w, hw, _⟩ := hval v (hin v hv).1 (hin v hv).2
    exact ⟨w, hw⟩)
  refine ⟨r, r1, r2, ?_⟩
  intro i v w hv hw
  have hvm := List.mem_of_getElem? hv
  obtain ⟨w', hw', hk⟩ := hval v (hin v hvm).1 (hin v hvm).2
  rw [r3 i v w hv hw] at hw'
  cases hw'
  exact hk
end

/-- **C50 refuted, outside the grid.**  Identity on 0, 1, 2 evaluated at 3 gives 2: the scale uses the number
of points before extrapolation. -/
theorem C50_outside_refuted :
    tranproc0 (0 : ℚ) (fun _ _ v => v) (fun _ => 1000) [0, 1, 2] [0, 1, 2] [3] = .ok [2] := by decide +kernel

/-- **C50 refuted, derivative at the left end.**  For `f(x) = x²` sampled at 0, 1, 2 the numerical derivative
at 0 is 2, the average of the first and the last difference quotient (an index -1 wraps around); the linear
extrapolation announced in the documentation gives 0. -/
theorem C50_left_end_refuted :
    diffs (0 : ℚ) (fun _ _ v => v) (fun _ => 1000) 1 [0] 1 [(0, 0), (1, 1), (2, 4)] = .ok [[2]] := by
  decide +kernel

example : tranproc0 (0 : ℚ) (fun _ _ v => v) (fun _ => 1000) [0, 1, 2] [0, 1, 4] [0, 1 / 2, 3 / 2, 2]
    = .ok [0, 1 / 2, 5 / 2, 4] := by decide +kernel

/-! ## C51 -/

theorem defaultStep_spec (mn mx : ℝ) (num : ℤ) (h : mn < mx) (hn : 0 < num) :
    0 < defaultStep mn mx num ∧ defaultStep mn mx num ≤ (mx - mn) / num * 2 ∧
      (mx - mn) / num * 2 < 5 / 2 * defaultStep mn mx num ∧
      ∃ (m e : ℤ), defaultStep mn mx num = m * (10 : ℝ) ^ e ∧ (m = 1 ∨ m = 2 ∨ m = 5) := by
  have hnr : (0 : ℝ) < num := by exact_mod_cast hn
  unfold defaultStep
  dsimp only
  set d := (mx - mn) / num * 2 with hd
  have hdpos : 0 < d := mul_pos (div_pos (by linarith) hnr) (by norm_num)
  have he : ⌊Real.log d / Real.log 10⌋ = Int.log 10 d := by
    have := Real.floor_logb_natCast (b := 10) (r := d) hdpos.le
    rw [← this]
    unfold Real.logb
    norm_num
  rw [he]
  set e := Int.log 10 d with hedef
  have hlo : (10 : ℝ) ^ e ≤ d := by
    have := Int.zpow_log_le_self (b := 10) (by norm_num) hdpos
    exact_mod_cast this
  have hhi : d < (10 : ℝ) ^ (e + 1) := by
    have := Int.lt_zpow_succ_log_self (b := 10) (by norm_num) d
    exact_mod_cast this
  have hp : (0 : ℝ) < (10 : ℝ) ^ e := by positivity
  rw [zpow_add₀ (by norm_num), zpow_one] at hhi
  set q := d / (10 : ℝ) ^ e with hq
  have hdq : d = q * (10 : ℝ) ^ e := by rw [hq]; field_simp
  have hq1 : 1 ≤ q := by rw [hq, le_div_iff₀ hp]; linarith
  have hq10 : q < 10 := by rw [hq, div_lt_iff₀ hp]; linarith
  have hf1 : 1 ≤ ⌊q⌋ := Int.le_floor.2 (by exact_mod_cast hq1)
  have hf10 : ⌊q⌋ < 10 := Int.floor_lt.2 (by exact_mod_cast hq10)
  have hle := Int.floor_le q
  have hlt := Int.lt_floor_add_one q
  -- the step mantissa
  have key : ∃ m : ℤ, (if 2 < max 0 (min ⌊q⌋ 5) ∧ max 0 (min ⌊q⌋ 5) < 5 then 2 else max 0 (min ⌊q⌋ 5)) = m ∧
      (m = 1 ∨ m = 2 ∨ m = 5) ∧ (m : ℝ) ≤ q ∧ q < 5 / 2 * m := by
    by_cases c1 : ⌊q⌋ = 1
    · refine ⟨1, by rw [c1]; decide, Or.inl rfl, ?_, ?_⟩
      · exact_mod_cast hq1
      · rw [c1] at hlt; push_cast at hlt ⊢; linarith
    · by_cases c5 : 5 ≤ ⌊q⌋
      · refine ⟨5, ?_, by norm_num, ?_, ?_⟩
        · rw [min_eq_right c5]; decide
        · have : ((5 : ℤ) : ℝ) ≤ (⌊q⌋ : ℝ) := by exact_mod_cast c5
          linarith
        · push_cast; linarith
      · refine ⟨2, ?_, by norm_num, ?_, ?_⟩
        · rw [min_eq_left (by omega), max_eq_right (by omega)]
          split
          · rfl
          · omega
        · have : ((2 : ℤ) : ℝ) ≤ (⌊q⌋ : ℝ) := by exact_mod_cast (by omega : 2 ≤ ⌊q⌋)
          linarith
        · have : (⌊q⌋ : ℝ) ≤ ((4 : ℤ) : ℝ) := by exact_mod_cast (by omega : ⌊q⌋ ≤ 4)
          push_cast at this ⊢
          linarith
  obtain ⟨m, hm, hm3, hm1, hm2⟩ := key
  rw [hm]
  have hmpos : (0 : ℝ) < m := by
    rcases hm3 with rfl | rfl | rfl <;> norm_num
  refine ⟨mul_pos hmpos hp, ?_, ?_, m, e, rfl, hm3⟩
  · rw [hdq]; exact mul_le_mul_of_nonneg_right hm1 hp.le
  · rw [hdq, ← mul_assoc]; exact mul_lt_mul_of_pos_right hm2 hp

theorem arange_count (lo d : ℝ) (hd : 0 < d) (K : ℕ) :
    arange lo (lo + K * d + d / 2) d = (List.range (K + 1)).map (fun k : ℕ => lo + (k : ℝ) * d) := by
  unfold arange
  have : (lo + K * d + d / 2 - lo) / d = (K : ℝ) + 1 / 2 := by field_simp; ring
  rw [this, ceil_half]
  congr 2

/-- **C51.**  For a non-degenerate range and a positive number of bins, whatever `odd` and `loose`: the edges
are equally spaced with a step of 1, 2 or 5 times a power of ten, the first edge is at or below the range, the last
at or above, and the step is at most twice and more than 4/5 of the range divided by the number of bins
wanted. -/
theorem C51_range (mn mx : ℝ) (num : ℤ) (odd loose : Bool) (h : mn < mx) (hn : 0 < num) :
    ∃ (d lo : ℝ) (K : ℕ), 0 < d ∧
      binLimits mn mx num odd loose = (List.range (K + 1)).map (fun k : ℕ => lo + (k : ℝ) * d) ∧
      lo ≤ mn ∧ mx ≤ lo + K * d ∧
      (∃ (m e : ℤ), d = m * (10 : ℝ) ^ e ∧ (m = 1 ∨ m = 2 ∨ m = 5)) ∧
      d ≤ 2 * ((mx - mn) / num) ∧ 4 / 5 * ((mx - mn) / num) < d ∧
      mn < lo + (1 + (if loose then 1 else 0) + (if odd then 1 else 0)) * d ∧
      lo + K * d < mx + (1 + (if loose then 1 else 0) + (if odd then 1 else 0)) * d := by
  obtain ⟨hd, hd1, hd2, hd3⟩ := defaultStep_spec mn mx num h hn
  unfold binLimits
  dsimp only
  set d := defaultStep mn mx num with hdd
  have hfl : (⌊mn / d⌋ : ℝ) * d ≤ mn := by
    have := Int.floor_le (mn / d)
    rwa [le_div_iff₀ hd] at this
  have hfl2 : mn < ((⌊mn / d⌋ : ℝ) + 1) * d := by
    have := Int.lt_floor_add_one (mn / d)
    rwa [div_lt_iff₀ hd] at this
  have hce : mx ≤ (⌈mx / d⌉ : ℝ) * d := by
    have := Int.le_ceil (mx / d)
    rwa [div_le_iff₀ hd] at this
  have hce2 : ((⌈mx / d⌉ : ℝ) - 1) * d < mx := by
    have := Int.ceil_lt_add_one (mx / d)
    rw [div_add' _ _ _ hd.ne', lt_div_iff₀ hd] at this
    linarith
  have hfc : ⌊mn / d⌋ ≤ ⌈mx / d⌉ := by
    have h1 : mn / d ≤ mx / d := div_le_div_of_nonneg_right h.le hd.le
    have : ((⌊mn / d⌋ : ℤ) : ℝ) ≤ ((⌈mx / d⌉ : ℤ) : ℝ) := (Int.floor_le _).trans (h1.trans (Int.le_ceil _))
    exact_mod_cast this
  set lo := ((⌊mn / d⌋ : ℝ) - (if loose then 1 else 0)) * d - (if odd then 1 else 0) * d / 2 with hlo
  set K : ℕ := (⌈mx / d⌉ - ⌊mn / d⌋ + (if loose then 2 else 0) + (if odd then 1 else 0)).toNat with hK
  have hKr : (K : ℝ) = (⌈mx / d⌉ : ℝ) - (⌊mn / d⌋ : ℝ) + (if loose then 2 else 0) + (if odd then 1 else 0) := by
    have h0 : 0 ≤ ⌈mx / d⌉ - ⌊mn / d⌋ + (if loose then 2 else 0) + (if odd then 1 else 0 : ℤ) := by
      cases loose <;> cases odd <;> simp <;> omega
    rw [hK, ← Int.cast_natCast, Int.toNat_of_nonneg h0]
    cases loose <;> cases odd <;> push_cast <;> simp
  have hhi : ((⌈mx / d⌉ : ℝ) + (if loose then 1 else 0)) * d + (if odd then 1 else 0) * d / 2 = lo + K * d := by
    rw [hKr, hlo]
    cases loose <;> cases odd <;> simp <;> ring
  refine ⟨d, lo, K, hd, ?_, ?_, ?_, hd3, by linarith, by linarith, ?_, ?_⟩
  · rw [hhi, arange_count lo d hd K]
  · rw [hlo]; cases loose <;> cases odd <;> simp <;> linarith
  · rw [← hhi]; cases loose <;> cases odd <;> simp <;> linarith
  · rw [hlo]; cases loose <;> cases odd <;> simp <;> linarith
  · rw [← hhi]; cases loose <;> cases odd <;> simp <;> linarith

/-- **C51, default number.**  Without an explicit number of bins, the smallest number `k` with
`k ^ 4 ≥ 256 n` is used, `n` the number of data (that is, `4 n ^ (1/4)` rounded up). -/
theorem C51_default_number (data : List ℝ) (range : Option (ℝ × ℝ)) (odd loose : Bool) :
    ∃ k : ℕ, goodBins data range none odd loose = goodBins data range (some (k : ℤ)) odd loose ∧
      256 * data.length ≤ k ^ 4 ∧ ∀ j : ℕ, 256 * data.length ≤ j ^ 4 → k ≤ j := by
  have hq : ∀ j : ℕ, (4 * Real.sqrt (Real.sqrt (data.length : ℝ)) ≤ j ↔ 256 * data.length ≤ j ^ 4) := by
    intro j
    have h0 : (0 : ℝ) ≤ data.length := Nat.cast_nonneg _
    have hs : (4 * Real.sqrt (Real.sqrt (data.length : ℝ))) ^ 4 = 256 * data.length := by
      rw [mul_pow, show 4 = 2 * 2 by rfl, pow_mul (Real.sqrt _), Real.sq_sqrt (Real.sqrt_nonneg _),
        Real.sq_sqrt h0]
      norm_num
    rw [← pow_le_pow_iff_left₀ (by positivity) (Nat.cast_nonneg j) (by norm_num : (4 : ℕ) ≠ 0), hs]
    exact_mod_cast Iff.rfl
  refine ⟨⌈4 * Real.sqrt (Real.sqrt (data.length : ℝ))⌉₊, ?_, (hq _).1 (Nat.le_ceil _), fun j hj =>
    Nat.ceil_le.2 ((hq j).2 hj)⟩
  unfold goodBins defaultBins
  simp only [Option.getD_none, Option.getD_some]
  rw [Int.natCast_ceil_eq_ceil (by positivity)]

/-- **C51, default range.**  Without an explicit range, for data that are not all equal, every datum lies
between the first and the last edge. -/
theorem C51_covers_data (data : List ℝ) (num : Option ℤ) (odd loose : Bool)
    (hd : ∃ u ∈ data, ∃ v ∈ data, u < v) (hn : ∀ k, num = some k → 0 < k) :
    ∃ (d lo : ℝ) (K : ℕ), 0 < d ∧
      goodBins data none num odd loose = (List.range (K + 1)).map (fun k : ℕ => lo + (k : ℝ) * d) ∧
      ∀ v ∈ data, lo ≤ v ∧ v ≤ lo + K * d := by
  have hmin : ∀ (l : List ℝ) (c : ℝ), l.foldl min c ≤ c ∧ ∀ v ∈ l, l.foldl min c ≤ v := by
    intro l
    induction l with
    | nil => intro c; simp
    | cons b l ih =>
      intro c
      obtain ⟨h1, h2⟩ := ih (min c b)
      rw [List.foldl_cons]
      refine ⟨h1.trans (min_le_left _ _), ?_⟩
      intro v hv
      rcases List.mem_cons.1 hv with rfl | hv
      · exact h1.trans (min_le_right _ _)
      · exact h2 v hv
  have hmax : ∀ (l : List ℝ) (c : ℝ), c ≤ l.foldl max c ∧ ∀ v ∈ l, v ≤ l.foldl max c := by
    intro l
    induction l with
    | nil => intro c; simp
    | cons b l ih =>
      intro c
      obtain ⟨h1, h2⟩ := ih (max c b)
      rw [List.foldl_cons]
      refine ⟨(le_max_left _ _).trans h1, ?_⟩
      intro v hv
      rcases List.mem_cons.1 hv with rfl | hv
      · exact (le_max_right _ _).trans h1
      · exact h2 v hv
  obtain ⟨u, hu, v, hv, huv⟩ := hd
  have h1 := (hmin data (data.headD 0)).2
  have h2 := (hmax data (data.headD 0)).2
  have hlt : data.foldl min (data.headD 0) < data.foldl max (data.headD 0) :=
    lt_of_le_of_lt (h1 u hu) (lt_of_lt_of_le huv (h2 v hv))
  have hnum : 0 < defaultBins num data.length := by
    unfold defaultBins
    cases num with
    | some k => exact hn k rfl
    | none =>
      rw [Option.getD_none]
      apply Int.ceil_pos.2
      have : (0 : ℝ) < data.length := by exact_mod_cast List.length_pos_of_mem hu
      positivity
  obtain ⟨d, lo, K, e1, e2, e3, e4, _⟩ := C51_range _ _ (defaultBins num data.length) odd loose hlt hnum
  refine ⟨d, lo, K, e1, e2, ?_⟩
  intro w hw
  exact ⟨e3.trans (h1 w hw), (h2 w hw).trans e4⟩

/-- The documented example `range=(0,5)`, `num_bins=6`: step 1. -/
example : defaultStep 0 5 6 = 1 := by
  obtain ⟨h1, h2, h3, m, e, h4, h5⟩ := defaultStep_spec 0 5 6 (by norm_num) (by norm_num)
  have hd : ((5 : ℝ) - 0) / ((6 : ℤ) : ℝ) * 2 = 5 / 3 := by norm_num
  rw [hd] at h2 h3
  have hlog : ⌊Real.log (5 / 3) / Real.log 10⌋ = 0 := by
    rw [Int.floor_eq_iff]
    have h10 : 0 < Real.log 10 := Real.log_pos (by norm_num)
    constructor
    · simp only [Int.cast_zero]
      exact div_nonneg (Real.log_nonneg (by norm_num)) h10.le
    · simp only [Int.cast_zero, zero_add]
      rw [div_lt_one h10]
      exact Real.log_lt_log (by norm_num) (by norm_num)
  unfold defaultStep
  dsimp only
  rw [hd, hlog]
  have : ⌊(5 / 3 : ℝ) / 10 ^ (0 : ℤ)⌋ = 1 := by
    rw [Int.floor_eq_iff]; norm_num
  rw [this]
  norm_num

end Wafo.Tran
