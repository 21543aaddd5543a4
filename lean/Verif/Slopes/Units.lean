import Verif.Slopes.Line

set_option linter.unusedSectionVars false

/-! Change of units of the data (C101). -/

namespace Wafo.Slopes

section general
variable {α : Type*} [Field α] [LinearOrder α] [IsStrictOrderedRing α]

theorem sgn_scale {r : α} (hr : 0 < r) (a : α) : sgn (r * a) = sgn a := by
  simp only [sgn, mul_pos_iff_of_pos_left hr, mul_neg_iff, hr, not_lt.2 hr.le, false_and, true_and, or_false]

theorem abs_scale {r : α} (hr : 0 < r) (a : α) : |r * a| = r * |a| := by rw [abs_mul, abs_of_pos hr]

theorem min_scale {r : α} (hr : 0 < r) (a b : α) : min (r * a) (r * b) = r * min a b :=
  (mul_min_of_nonneg a b hr.le).symm

theorem edgeCase_scale {c r : α} (hc : 0 < c) (hr : 0 < r) (h0 h1 m0 m1 : α) :
    edgeCase (c * h0) (c * h1) (r * m0) (r * m1) = r * edgeCase h0 h1 m0 m1 := by
  have e : ((2 * (c * h0) + c * h1) * (r * m0) - c * h0 * (r * m1)) / (c * h0 + c * h1) =
      r * (((2 * h0 + h1) * m0 - h0 * m1) / (h0 + h1)) := by
    rw [show (2 * (c * h0) + c * h1) * (r * m0) - c * h0 * (r * m1) = c * (r * ((2 * h0 + h1) * m0 - h0 * m1)) by ring,
      ← mul_add, mul_div_mul_left _ _ hc.ne', mul_div_assoc]
  simp only [edgeCase, e, sgn_scale hr, abs_scale hr]
  generalize ((2 * h0 + h1) * m0 - h0 * m1) / (h0 + h1) = d
  have c2 : (r * |d| > 3 * (r * |m0|)) ↔ (|d| > 3 * |m0|) := by
    rw [show 3 * (r * |m0|) = r * (3 * |m0|) by ring]
    exact mul_lt_mul_iff_right₀ hr
  simp only [c2]
  split_ifs
  · simp
  · ring
  · rfl

theorem pchipInner_scale {c r : α} (hc : 0 < c) (hr : 0 < r) (h0 h1 m0 m1 : α) :
    pchipInner (c * h0) (c * h1) (r * m0) (r * m1) = r * pchipInner h0 h1 m0 m1 := by
  simp only [pchipInner, sgn_scale hr, mul_eq_zero, hr.ne', false_or]
  split_ifs
  · simp
  · have e : ((2 * (c * h1) + c * h0) / (r * m0) + (c * h1 + 2 * (c * h0)) / (r * m1)) /
        (2 * (c * h1) + c * h0 + (c * h1 + 2 * (c * h0))) =
        r⁻¹ * (((2 * h1 + h0) / m0 + (h1 + 2 * h0) / m1) / (2 * h1 + h0 + (h1 + 2 * h0))) := by
      rw [show (2 * (c * h1) + c * h0 + (c * h1 + 2 * (c * h0))) = c * (2 * h1 + h0 + (h1 + 2 * h0)) by ring,
        show (2 * (c * h1) + c * h0) = c * (2 * h1 + h0) by ring, show (c * h1 + 2 * (c * h0)) = c * (h1 + 2 * h0) by ring]
      rw [show c * (2 * h1 + h0) / (r * m0) + c * (h1 + 2 * h0) / (r * m1) =
        c * (r⁻¹ * ((2 * h1 + h0) / m0 + (h1 + 2 * h0) / m1)) by
          rw [mul_comm r m0, mul_comm r m1, ← div_div, ← div_div]; ring]
      rw [mul_div_mul_left _ _ hc.ne', mul_div_assoc]
    rw [e, one_div, mul_inv, inv_inv, one_div]

theorem pchip_scale {c r : α} (hc : 0 < c) (hr : 0 < r) (n : ℕ) (h m : ℕ → α) (k : ℕ) :
    pchip n (fun i => c * h i) (fun i => r * m i) k = r * pchip n h m k := by
  simp only [pchip, edgeCase_scale hc hr, pchipInner_scale hc hr]
  split_ifs <;> rfl

theorem withEnds_scale (r : α) (n : ℕ) (m i1 i2 : ℕ → α) (h : ∀ k, i2 k = r * i1 k) (k : ℕ) :
    withEnds n (fun i => r * m i) i2 k = r * withEnds n m i1 k := by
  simp only [withEnds, h]; split_ifs <;> ring

theorem steffenEnd_scale {c r : α} (hc : 0 < c) (hr : 0 < r) (h0 h1 m0 m1 : α) :
    steffenEnd (c * h0) (c * h1) (r * m0) (r * m1) = r * steffenEnd h0 h1 m0 m1 := by
  have e : c * h0 / (c * h0 + c * h1) = h0 / (h0 + h1) := by rw [← mul_add, mul_div_mul_left _ _ hc.ne']
  simp only [steffenEnd, e]
  generalize h0 / (h0 + h1) = w
  have e2 : r * m0 * (1 + w) - r * m1 * w = r * (m0 * (1 + w) - m1 * w) := by ring
  rw [e2, sgn_scale hr, sgn_scale hr, abs_scale hr,
    show 1 / 2 * (r * (m0 * (1 + w) - m1 * w)) = r * (1 / 2 * (m0 * (1 + w) - m1 * w)) by ring, min_scale hr]
  ring

theorem foldl_max_scale {r : α} (hr : 0 < r) (l : List α) (b : α) :
    (l.map (r * ·)).foldl max (r * b) = r * l.foldl max b := by
  induction l generalizing b with
  | nil => rfl
  | cons a l ih =>
    simp only [List.map_cons, List.foldl_cons]
    rw [← mul_max_of_nonneg _ _ hr.le, ih]

theorem akima_scale {r : α} (hr : 0 < r) (eps garb : α) (n : ℕ) (hn : 3 ≤ n) (m : ℕ → α) (k : ℕ) :
    akima eps n (fun i => r * m i) garb k = r * akima eps n m garb k := by
  have hM : ∀ j, akimaM n (fun i => r * m i) garb j = r * akimaM n m garb j := by
    intro j
    simp only [akimaM, if_neg (show ¬ n = 2 by omega)]
    split_ifs <;> ring
  simp only [akima, hM]
  have e : ∀ a b : α, |r * a - r * b| = r * |a - b| := fun a b => by rw [← mul_sub, abs_scale hr]
  simp only [e, ← mul_add]
  set M := akimaM n m garb
  have hfold : ((List.range n).map fun k => r * (|M (k + 3) - M (k + 2)| + |M (k + 1) - M k|)).foldl max
      (r * (|M (0 + 3) - M (0 + 2)| + |M (0 + 1) - M 0|)) =
      r * (((List.range n).map fun k => (|M (k + 3) - M (k + 2)| + |M (k + 1) - M k|)).foldl max
      (|M (0 + 3) - M (0 + 2)| + |M (0 + 1) - M 0|)) := by
    rw [← foldl_max_scale hr, List.map_map]; rfl
  rw [hfold]
  generalize ((List.range n).map fun k => (|M (k + 3) - M (k + 2)| + |M (k + 1) - M k|)).foldl max
      (|M (0 + 3) - M (0 + 2)| + |M (0 + 1) - M 0|) = big
  generalize |M (k + 3) - M (k + 2)| = f1
  generalize |M (k + 1) - M k| = f2
  have c1 : (r * (f1 + f2) > eps * (r * big)) ↔ (f1 + f2 > eps * big) := by
    rw [show eps * (r * big) = r * (eps * big) by ring]
    exact mul_lt_mul_iff_right₀ hr
  simp only [c1]
  split_ifs
  · rw [show r * f1 * (r * M (k + 1)) + r * f2 * (r * M (k + 2)) = r * (r * (f1 * M (k + 1) + f2 * M (k + 2))) by ring,
      mul_div_mul_left _ _ hr.ne', mul_div_assoc]
  · ring

theorem raw_scale {c d : α} (hc : 0 < c) (hd : 0 < d) (eps garb tension : α) (n : ℕ) (x y h m : ℕ → α) (meth : Method)
    (hs : meth ≠ .stineman) (ha : meth = .akima → 3 ≤ n) (k : ℕ) :
    rawSlopes eps garb tension n (fun i => c * x i) (fun i => d * y i) (fun i => c * h i) (fun i => d / c * m i) meth k =
      d / c * rawSlopes eps garb tension n x y h m meth k := by
  have hr : 0 < d / c := div_pos hd hc
  have hcat : catmullRom n (fun i => c * x i) (fun i => d * y i) (fun i => d / c * m i) k = d / c * catmullRom n x y m k := by
    simp only [catmullRom]
    split_ifs
    · rfl
    · rfl
    · rw [← mul_sub, ← mul_sub, mul_div_mul_comm]
  cases meth with
  | parabola =>
    apply withEnds_scale
    intro k
    rw [show d / c * m (k - 1) * (c * h k) + d / c * m k * (c * h (k - 1)) =
      c * (d / c * (m (k - 1) * h k + m k * h (k - 1))) by ring, ← mul_add, mul_div_mul_left _ _ hc.ne', mul_div_assoc]
  | secant => simp only [rawSlopes, secant]; split_ifs <;> ring
  | cardinal => simp only [rawSlopes, hcat]; ring
  | catmullRom => exact hcat
  | akima => exact akima_scale hr eps garb n (ha rfl) m k
  | pchip => exact pchip_scale hc hr n h m k
  | stineman => exact absurd rfl hs
  | steffen =>
    simp only [rawSlopes, steffen, steffenEnd_scale hc hr, sgn_scale hr, abs_scale hr]
    split_ifs
    · rfl
    · rfl
    · rw [show d / c * m (k - 1) * (c * h k) + d / c * m k * (c * h (k - 1)) =
        c * (d / c * (m (k - 1) * h k + m k * h (k - 1))) by ring, ← mul_add c, abs_scale hc, abs_scale hr,
        show 1 / 2 * (c * (d / c * |m (k - 1) * h k + m k * h (k - 1)|)) =
          c * (d / c * (1 / 2 * |m (k - 1) * h k + m k * h (k - 1)|)) by ring, mul_div_mul_left _ _ hc.ne', mul_div_assoc,
        min_scale hr, min_scale hr]
      ring
  | fritsch =>
    simp only [rawSlopes, fritsch, pchip_scale hc hr]
    split_ifs <;> ring

theorem dist_scale {r : α} (hr : 0 < r) (m yp : ℕ → α) (i : ℕ) :
    dist (fun k => r * m k) (fun k => r * yp k) i = dist m yp i := by
  simp only [dist, mul_div_mul_left _ _ hr.ne']

theorem fix_scale {r : α} (hr : 0 < r) (rt : α → α) (n : ℕ) (m yp : ℕ → α) (k : ℕ) :
    fixMonotone rt n (fun k => r * m k) (fun k => r * yp k) k = r * fixMonotone rt n m yp k := by
  have hf : flatten n (fun k => r * m k) (fun k => r * yp k) = fun k => r * flatten n m yp k := by
    funext k
    simp only [flatten, mul_eq_zero, hr.ne', false_or]
    split_ifs <;> simp
  simp only [fixMonotone, hf, dist_scale hr]
  generalize flatten n m yp = g
  generalize (List.range (n - 1)).filter (fun i => decide (dist m g i > 9)) = idx
  have key : ∀ (idx : List ℕ) (f : ℕ → α), (idx.foldl (fun f i => fun k =>
        let tau := 3 / rt (dist m g i)
        if k = i + 1 then tau * (r * g (i + 1) / (r * m i)) * (r * m i)
        else if k = i then tau * (r * g i / (r * m i)) * (r * m i)
        else f k) (fun k => r * f k)) = fun k => r * (idx.foldl (fun f i => fun k =>
        let tau := 3 / rt (dist m g i)
        if k = i + 1 then tau * (g (i + 1) / m i) * m i
        else if k = i then tau * (g i / m i) * m i
        else f k) f) k := by
    intro idx
    induction idx with
    | nil => intro f; rfl
    | cons i l ih =>
      intro f
      simp only [List.foldl_cons]
      rw [← ih]
      congr 1
      funext k
      simp only [mul_div_mul_left _ _ hr.ne']
      split_ifs
      · ring
      · ring
      · rfl
  have := congrFun (key idx g) k
  simp only [fixLoop, dist_scale hr]
  exact this

theorem getD_scale (c : α) (l : List α) (k : ℕ) : (l.map (c * ·)).getD k 0 = c * l.getD k 0 := by
  simp only [List.getD_eq_getElem?_getD, List.getElem?_map]
  cases l[k]? <;> simp

theorem slopes0_scale {c d : α} (hc : 0 < c) (hd : 0 < d) (eps garb : α) (rt : α → α) (x y : List α) (meth : Method)
    (tension : α) (mono : Bool) (hs : meth ≠ .stineman) (ha : meth = .akima → 3 ≤ x.length) :
    slopes0 eps garb rt (x.map (c * ·)) (y.map (d * ·)) meth tension mono =
      (slopes0 eps garb rt x y meth tension mono).map fun l => l.map (d / c * ·) := by
  have hr : 0 < d / c := div_pos hd hc
  simp only [slopes0, List.length_map, getD_scale, ← mul_sub, mul_div_mul_comm d _ c]
  have c1 : ∀ v : α, (c * v ≤ 0) ↔ v ≤ 0 := fun v => by
    rw [← not_lt, ← not_lt, mul_pos_iff_of_pos_left hc]
  simp only [c1]
  split_ifs
  · rfl
  · rfl
  · rfl
  · simp only [Except.map, List.map_map]
    congr 1
    apply List.map_congr_left
    intro k _
    have e := fun k => raw_scale hc hd eps garb tension x.length (fun k => x.getD k 0) (fun k => y.getD k 0)
      (fun k => x.getD (k + 1) 0 - x.getD k 0)
      (fun k => (y.getD (k + 1) 0 - y.getD k 0) / (x.getD (k + 1) 0 - x.getD k 0)) meth hs ha k
    simp only [Function.comp_apply]
    rw [show rawSlopes eps garb tension x.length (fun i => c * x.getD i 0) (fun i => d * y.getD i 0)
      (fun k => c * (x.getD (k + 1) 0 - x.getD k 0))
      (fun k => d / c * ((y.getD (k + 1) 0 - y.getD k 0) / (x.getD (k + 1) 0 - x.getD k 0))) meth = _ from funext e]
    exact fix_scale hr rt _ _ _ k
  · simp only [Except.map, List.map_map]
    congr 1
    apply List.map_congr_left
    intro k _
    exact raw_scale hc hd eps garb tension x.length (fun k => x.getD k 0) (fun k => y.getD k 0)
      (fun k => x.getD (k + 1) 0 - x.getD k 0)
      (fun k => (y.getD (k + 1) 0 - y.getD k 0) / (x.getD (k + 1) 0 - x.getD k 0)) meth hs ha k

theorem spread_scale {c : α} (hc : 0 < c) (l : List α) : spread (l.map (c * ·)) = c * spread l := by
  cases l with
  | nil => simp [spread]
  | cons a l =>
    have hmin : ∀ (l : List α) (b : α), (l.map (c * ·)).foldl min (c * b) = c * l.foldl min b := by
      intro l
      induction l with
      | nil => intro b; rfl
      | cons a l ih =>
        intro b
        simp only [List.map_cons, List.foldl_cons]
        rw [min_scale hc, ih]
    simp only [spread, List.map_cons, foldl_max_scale hc, hmin]
    ring

/-- **C101 (partial)**  Without scaling, `slopes` follows a change of units of the data: multiplying the abscissae by
`c > 0` and the ordinates by `d > 0` multiplies the slopes by `d/c` (and raises the same error), for every method except
'stineman' (and 'akima' with fewer than three points).

Missing: the default method 'stineman' (`C101_refuted`). -/
theorem C101_units_partial {c d : α} (hc : 0 < c) (hd : 0 < d) (eps garb : α) (rt : α → α) (x y : List α) (meth : Method)
    (tension : α) (mono : Bool) (hs : meth ≠ .stineman) (ha : meth = .akima → 3 ≤ x.length) :
    slopes eps garb rt (x.map (c * ·)) (y.map (d * ·)) meth tension mono false =
      (slopes eps garb rt x y meth tension mono false).map fun l => l.map (d / c * ·) := by
  simp only [slopes, Bool.false_eq_true, if_false]
  exact slopes0_scale hc hd eps garb rt x y meth tension mono hs ha

/-- **C101 (scaled)**  With `scale=True` the slopes of data that are not constant follow a change of units for every
method. -/
theorem C101_scaled_units {c d : α} (hc : 0 < c) (hd : 0 < d) (eps garb : α) (rt : α → α) (x y : List α) (meth : Method)
    (tension : α) (mono : Bool) (hy : 0 < spread y) :
    slopes eps garb rt (x.map (c * ·)) (y.map (d * ·)) meth tension mono true =
      (slopes eps garb rt x y meth tension mono true).map fun l => l.map (d / c * ·) := by
  have e1 : ¬ (d * spread y ≤ 0) := not_le.2 (mul_pos hd hy)
  have e2 : ¬ (spread y ≤ 0) := not_le.2 hy
  have ex : (x.map (c * ·)).map (· / (c * spread x)) = x.map (· / spread x) := by
    rw [List.map_map]; apply List.map_congr_left; intro v _
    exact mul_div_mul_left _ _ hc.ne'
  have ey : (y.map (d * ·)).map (· / (d * spread y)) = y.map (· / spread y) := by
    rw [List.map_map]; apply List.map_congr_left; intro v _
    exact mul_div_mul_left _ _ hd.ne'
  simp only [slopes, if_true, List.map_eq_nil_iff, spread_scale hc, spread_scale hd, if_neg e1, if_neg e2, ex, ey]
  split_ifs with h
  · rfl
  · cases slopes0 eps garb rt (x.map (· / spread x)) (y.map (· / spread y)) meth tension mono with
    | error e => rfl
    | ok l =>
      simp only [Except.map, List.map_map]
      congr 1
      apply List.map_congr_left
      intro v _
      simp only [Function.comp_apply]
      rw [show v * (d * spread y) = d * (v * spread y) by ring, mul_div_mul_comm]

/-- **C101 (scale is neutral)**  For every method except 'stineman' (and 'akima' with fewer than three points), `scale=True`
returns the same slopes as `scale=False`. -/
theorem C101_scale_neutral (eps garb : α) (rt : α → α) (x y : List α) (meth : Method) (tension : α) (mono : Bool)
    (hs : meth ≠ .stineman) (ha : meth = .akima → 3 ≤ x.length) (hx : 0 < spread x) (hy : y ≠ []) :
    slopes eps garb rt x y meth tension mono true = slopes eps garb rt x y meth tension mono false := by
  have hx0 : x ≠ [] := by rintro rfl; simp [spread] at hx
  have hsy : 0 < (if spread y ≤ 0 then 1 else spread y : α) := by
    split_ifs with h
    · exact one_pos
    · exact not_le.1 h
  simp only [slopes, if_true, Bool.false_eq_true, if_false, hx0, hy, or_self]
  generalize (if spread y ≤ 0 then 1 else spread y : α) = sy at hsy
  have e := slopes0_scale (c := (spread x)⁻¹) (d := sy⁻¹) (inv_pos.2 hx) (inv_pos.2 hsy) eps garb rt x y meth tension mono hs ha
  have ex : ∀ (l : List α) (s : α), l.map (· / s) = l.map (s⁻¹ * ·) := by
    intro l s; apply List.map_congr_left; intro v _; rw [div_eq_inv_mul]
  rw [ex, ex, e]
  cases slopes0 eps garb rt x y meth tension mono with
  | error e => rfl
  | ok l =>
    simp only [Except.map, List.map_map]
    congr 1
    conv_rhs => rw [← List.map_id l]
    apply List.map_congr_left
    intro v _
    simp only [Function.comp_apply, id]
    have := hx.ne'
    have := hsy.ne'
    field_simp

end general

example : 0 < spread [(0 : ℚ), 1, 2] ∧ 0 < spread [(0 : ℚ), 1, 3] := by
  decide +kernel

example : slopes (1 / 1000000000 : ℚ) 0 id [0, 2, 6] [0, 3, 6] .akima 0 false false = .ok [15 / 8, 9 / 8, 3 / 8] := by
  decide +kernel

/-- **C101 refuted** for the default method: doubling the ordinates does not double the slopes. -/
theorem C101_refuted :
    slopes (1 / 1000000000 : ℚ) 0 id [0, 1, 2] [0, 0, 1] .stineman 0 false false = .ok [-1 / 3, 1 / 3, 5 / 3] ∧
    slopes (1 / 1000000000 : ℚ) 0 id [0, 1, 2] [0, 0, 2] .stineman 0 false false = .ok [-1 / 3, 1 / 3, 11 / 3] := by
  decide +kernel

end Wafo.Slopes
