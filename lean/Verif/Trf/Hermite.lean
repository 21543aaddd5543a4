import Verif.Trf.Props

/-!
Properties of the Hermite transformation, `TrHermite` of `/repo/src/wafo/transform/models.py`: C81, C108 and C109.
-/

namespace Wafo.Trf

/-! ### Roots of the cubic -/

theorem order_three (p : Cubic) (h : p.a ≠ 0) : p.order = 3 := by unfold Cubic.order; rw [if_pos h]

theorem order_two (p : Cubic) (h : p.a = 0) (hb : p.b ≠ 0) : p.order = 2 := by
  unfold Cubic.order; rw [if_neg (by simpa using h), if_pos hb]

theorem order_low (p : Cubic) (h : p.a = 0) (hb : p.b = 0) : p.order < 2 := by
  unfold Cubic.order; rw [if_neg (by simpa using h), if_neg (by simpa using hb)]; split <;> norm_num

theorem critical_nil (p : Cubic) (h : p.critical = []) : (p.a = 0 ∧ p.b = 0) ∨ (p.a ≠ 0 ∧ p.b ^ 2 - 3 * p.a * p.c < 0) := by
  unfold Cubic.critical at h
  by_cases ha : p.a = 0
  · left
    refine ⟨ha, ?_⟩
    by_contra hb
    rw [if_neg (by simpa using ha), if_pos hb] at h
    simp at h
  · right
    refine ⟨ha, ?_⟩
    by_contra hd
    rw [if_pos ha, if_neg hd] at h
    simp at h

theorem eval_injective (p : Cubic) (_ha : p.a ≠ 0) (hd : p.b ^ 2 - 3 * p.a * p.c < 0) (u v : ℝ) (h : p.eval u = p.eval v) : u = v := by
  by_contra hne
  have h1 : (u - v) * (p.a * (u ^ 2 + u * v + v ^ 2) + p.b * (u + v) + p.c) = 0 := by
    unfold Cubic.eval at h
    linear_combination h
  have h2 : p.a * (u ^ 2 + u * v + v ^ 2) + p.b * (u + v) + p.c = 0 := by
    rcases mul_eq_zero.1 h1 with h | h
    · exact absurd (sub_eq_zero.1 h) hne
    · exact h
  have h3 : p.a * (p.a * (u ^ 2 + u * v + v ^ 2) + p.b * (u + v) + p.c) = 0 := by rw [h2]; ring
  nlinarith [sq_nonneg (p.a * (u - v)), sq_nonneg (3 * p.a * (u + v) + 2 * p.b)]

/-- A cubic with positive leading coefficient and no critical point is strictly increasing. -/
theorem eval_strictMono (p : Cubic) (ha : 0 < p.a) (hd : p.b ^ 2 - 3 * p.a * p.c < 0) (u v : ℝ) (huv : u < v) : p.eval u < p.eval v := by
  have h1 : p.eval v - p.eval u = (v - u) * (p.a * (u ^ 2 + u * v + v ^ 2) + p.b * (u + v) + p.c) := by
    unfold Cubic.eval; ring
  have h2 : 0 < p.a * (p.a * (u ^ 2 + u * v + v ^ 2) + p.b * (u + v) + p.c) := by
    nlinarith [sq_nonneg (p.a * (u - v)), sq_nonneg (3 * p.a * (u + v) + 2 * p.b)]
  have h3 : 0 < p.a * (u ^ 2 + u * v + v ^ 2) + p.b * (u + v) + p.c := (mul_pos_iff_of_pos_left ha).1 h2
  have := mul_pos (sub_pos.2 huv) h3
  linarith

/-- The real cube root formula. -/
theorem solveThird_root (p : Cubic) (ha : p.a ≠ 0) (hd : p.b ^ 2 - 3 * p.a * p.c < 0) (xn : ℝ) :
    ∃ u, solveThird none p xn = .ok (some u) ∧ p.eval u = xn := by
  unfold solveThird
  simp only
  set x0 := p.b / p.a / 3 with hx0
  set p1 := p.c / p.a / 3 - x0 ^ 2 with hp1
  set q0 := x0 * (x0 ^ 2 - p.c / p.a / 2) + (p.d / p.a - xn / p.a) / 2 with hq0
  have hpos : 0 < p1 := by
    have : p1 = (3 * p.a * p.c - p.b ^ 2) / (9 * p.a ^ 2) := by rw [hp1, hx0]; field_simp; ring
    rw [this]
    have : 0 < p.a ^ 2 := by positivity
    exact div_pos (by linarith) (by linarith)
  have hp3 : 0 < p1 ^ 3 := by positivity
  have hnn : ¬ q0 ^ 2 + p1 ^ 3 < 0 := by have := sq_nonneg q0; linarith
  rw [if_neg hnn]
  set q1 := Real.sqrt (q0 ^ 2 + p1 ^ 3) with hq1
  have hq1sq : q1 ^ 2 = q0 ^ 2 + p1 ^ 3 := Real.sq_sqrt (by have := sq_nonneg q0; linarith)
  have habs : |q0| < q1 := by
    rw [hq1, ← Real.sqrt_sq_eq_abs]
    exact Real.sqrt_lt_sqrt (sq_nonneg _) (by linarith)
  obtain ⟨h1, h2⟩ := abs_lt.1 habs
  have hA : 0 < q1 - q0 := by linarith
  have hB : 0 < q1 + q0 := by linarith
  rw [if_neg (by rintro (h | h) <;> linarith)]
  refine ⟨_, rfl, ?_⟩
  set A := (q1 - q0) ^ (1 / 3 : ℝ) with hAd
  set B := (q1 + q0) ^ (1 / 3 : ℝ) with hBd
  have hA3 : A ^ 3 = q1 - q0 := by
    rw [hAd, ← Real.rpow_natCast, ← Real.rpow_mul hA.le]; norm_num
  have hB3 : B ^ 3 = q1 + q0 := by
    rw [hBd, ← Real.rpow_natCast, ← Real.rpow_mul hB.le]; norm_num
  have hAB : A * B = p1 := by
    have h3 : (A * B) ^ 3 = p1 ^ 3 := by rw [mul_pow, hA3, hB3]; linarith
    have h4 : 0 ≤ A * B := mul_nonneg (Real.rpow_nonneg hA.le _) (Real.rpow_nonneg hB.le _)
    exact (pow_left_inj₀ h4 hpos.le (by norm_num)).1 h3
  -- the depressed cubic
  set z := A + -B with hz
  have hz3 : z ^ 3 + 3 * p1 * z + 2 * q0 = 0 := by
    rw [hz, ← hAB]
    linear_combination hA3 - hB3
  have hb : p.b = 3 * p.a * x0 := by rw [hx0]; field_simp
  have hc : p.c = 3 * p.a * (p1 + x0 ^ 2) := by rw [hp1]; field_simp; ring
  have hdd : p.d - xn = p.a * (2 * q0 - 2 * x0 * (x0 ^ 2 - p.c / p.a / 2)) := by rw [hq0]; field_simp; ring
  have hca : p.c / p.a = 3 * (p1 + x0 ^ 2) := by rw [hc]; field_simp
  rw [hca] at hdd
  unfold Cubic.eval
  have hd' : p.d = xn + p.a * (2 * q0 - 2 * x0 * (x0 ^ 2 - 3 * (p1 + x0 ^ 2) / 2)) := by linarith
  rw [hd', hc, hb]
  linear_combination p.a * hz3

theorem polyInv_root (p : Cubic) (hid : p.a = 0 → p.b = 0 → ∀ x, p.eval x = x) (hcr : p.critical = []) :
    (∀ xn, ∃ u, polyInv none p xn = .ok (some u) ∧ p.eval u = xn) ∧ ∀ u, polyInv none p (p.eval u) = .ok (some u) := by
  rcases critical_nil p hcr with ⟨ha, hb⟩ | ⟨ha, hd⟩
  · have ho := order_low p ha hb
    have hi := hid ha hb
    constructor
    · intro xn
      exact ⟨xn, by unfold polyInv; rw [if_pos ho], hi xn⟩
    · intro u
      unfold polyInv
      rw [if_pos ho, hi]
  · have ho := order_three p ha
    have hpi : ∀ x, polyInv none p x = solveThird none p x := by
      intro x
      unfold polyInv
      rw [ho, if_neg (by norm_num), if_neg (by norm_num)]
    constructor
    · intro xn
      rw [hpi]
      exact solveThird_root p ha hd xn
    · intro u
      obtain ⟨v, h1, h2⟩ := solveThird_root p ha hd (p.eval u)
      rw [hpi, h1, eval_injective p ha hd v u h2]

/-! ### Constructed objects -/

/-- What construction gives. -/
theorem init_spec (tiny : ℝ) (pardef : ℤ) (s : Stats) (h : Herm) (hi : Herm.init tiny pardef s = .ok h) :
    h.st = s ∧ (h.hard = true ↔ s.kurt ≤ 3) ∧ limits s h.poly = .ok h.xLimit ∧
      (h.poly.a = 0 → h.poly.b = 0 → ∀ x, h.poly.eval x = x) ∧ (s.kurt ≤ 3 → h.poly = hardPoly (s.skew / 6) (checkC4 tiny ((s.kurt - 3) / 24))) := by
  unfold Herm.init at hi
  by_cases hk : s.kurt ≤ 3
  · rw [if_pos hk] at hi
    simp only at hi
    cases hl : limits s (hardPoly (hardening tiny s.skew (s.kurt - 3)).1 (hardening tiny s.skew (s.kurt - 3)).2) with
    | error e => rw [hl] at hi; simp [Except.map] at hi
    | ok l =>
      rw [hl] at hi
      simp only [Except.map, Except.ok.injEq] at hi
      subst hi
      refine ⟨rfl, by simp [hk], hl, ?_, fun _ => rfl⟩
      intro ha hb x
      simp only [hardPoly] at ha hb
      unfold Cubic.eval hardPoly
      simp only
      have h3 : (hardening tiny s.skew (s.kurt - 3)).1 = 0 := by linarith
      have h4 : (hardening tiny s.skew (s.kurt - 3)).2 = 0 := by linarith
      rw [h3, h4]
      ring
  · rw [if_neg hk] at hi
    cases hc : (if pardef = 2 then winterstein1988 tiny s.skew (s.kurt - 3) else winterstein1994 tiny s.skew (s.kurt - 3)) with
    | error e => rw [hc] at hi; simp at hi
    | ok c =>
      rw [hc] at hi
      simp only at hi
      cases hl : limits s (softPoly c.1 c.2) with
      | error e => rw [hl] at hi; simp [Except.map] at hi
      | ok l =>
        rw [hl] at hi
        simp only [Except.map, Except.ok.injEq] at hi
        subst hi
        refine ⟨rfl, by simp [hk], hl, ?_, fun h => absurd h hk⟩
        intro ha hb x
        simp only [softPoly] at ha hb
        have hK : Real.sqrt (1 + 2 * c.1 ^ 2 + 6 * c.2 ^ 2) ≠ 0 := (Real.sqrt_pos.2 (by positivity)).ne'
        have h4 : c.2 = 0 := by rcases div_eq_zero_iff.1 ha with h | h <;> [exact h; exact absurd h hK]
        have h3 : c.1 = 0 := by rcases div_eq_zero_iff.1 hb with h | h <;> [exact h; exact absurd h hK]
        unfold Cubic.eval softPoly
        simp only [h3, h4]
        norm_num

theorem limits_none (s : Stats) (p : Cubic) (h : limits s p = .ok none) : p.critical = [] := by
  unfold limits at h
  by_contra hc
  rw [if_neg hc] at h
  simp only at h
  split at h <;> split at h <;> simp at h

theorem mapM_some (f : ℝ → Except PyErr (Option ℝ)) (g : ℝ → ℝ) (h : ∀ v, f v = .ok (some (g v))) :
    ∀ l : List ℝ, l.mapM f = .ok ((l.map g).map some)
  | [] => rfl
  | a :: l => by
    rw [List.mapM_cons, h a, mapM_some f g h l]
    rfl

/-- **C81 (exact inverse).**  If the model has no critical point, then `dat2gauss` and `gauss2dat` are defined for all real data
(no error, no nan) and are inverse to each other. -/
theorem C81_inverse_partial (tiny : ℝ) (pardef : ℤ) (s : Stats) (h : Herm) (hi : Herm.init tiny pardef s = .ok h)
    (hx : h.xLimit = none) (hs : s.sigma ≠ 0) (hy : s.ysigma ≠ 0) (v : List ℝ) :
    (∃ y : List ℝ, hermDat2gauss h v = .ok (y.map some) ∧ hermGauss2dat h y = .ok (v.map some)) ∧
    (∃ x : List ℝ, hermGauss2dat h v = .ok (x.map some) ∧ hermDat2gauss h x = .ok (v.map some)) := by
  obtain ⟨hst, hhard, hlim, hid, -⟩ := init_spec tiny pardef s h hi
  have hcr := limits_none s h.poly (by rw [hlim, hx])
  obtain ⟨r1, r2⟩ := polyInv_root h.poly hid hcr
  choose inv hinv heval using r1
  have hinv2 : ∀ u, inv (h.poly.eval u) = u := by
    intro u
    have := hinv (h.poly.eval u)
    rw [r2] at this
    simpa using this.symm
  -- the two transformations as total functions
  obtain ⟨F, B, hF, hB, hBF, hFB⟩ : ∃ F B : ℝ → ℝ, (∀ x, h.forward x = .ok (some (F x))) ∧ (∀ x, h.backward x = .ok (some (B x))) ∧
      (∀ x, B (F x) = x) ∧ ∀ x, F (B x) = x := by
    by_cases hh : h.hard = true
    · refine ⟨h.poly.eval, inv, fun x => ?_, fun x => ?_, hinv2, heval⟩
      · unfold Herm.forward; rw [if_pos hh]
      · unfold Herm.backward; rw [if_pos hh, hx, hinv]
    · refine ⟨inv, h.poly.eval, fun x => ?_, fun x => ?_, heval, hinv2⟩
      · unfold Herm.forward; rw [if_neg hh, hx, hinv]
      · unfold Herm.backward; rw [if_neg hh]
  have hD : ∀ l : List ℝ, hermDat2gauss h l = .ok ((l.map (fun v => F ((v - s.mean) / s.sigma) * s.ysigma + s.ymean)).map some) := by
    intro l
    unfold hermDat2gauss
    rw [hx]
    simp only [checkForward]
    apply mapM_some
    intro v
    rw [hst, hF]
    rfl
  have hG : ∀ l : List ℝ, hermGauss2dat h l = .ok ((l.map (fun v => s.sigma * B ((v - s.ymean) / s.ysigma) + s.mean)).map some) := by
    intro l
    unfold hermGauss2dat
    apply mapM_some
    intro v
    rw [hst, hB]
    rfl
  constructor
  · refine ⟨_, hD v, ?_⟩
    rw [hG]
    refine congrArg (fun l => Except.ok (List.map some l)) ?_
    rw [List.map_map]
    conv_rhs => rw [← List.map_id v]
    apply List.map_congr_left
    intro a _
    simp only [Function.comp_apply, id]
    rw [show (F ((a - s.mean) / s.sigma) * s.ysigma + s.ymean - s.ymean) / s.ysigma = F ((a - s.mean) / s.sigma) by field_simp; ring, hBF]
    field_simp
    ring
  · refine ⟨_, hG v, ?_⟩
    rw [hD]
    refine congrArg (fun l => Except.ok (List.map some l)) ?_
    rw [List.map_map]
    conv_rhs => rw [← List.map_id v]
    apply List.map_congr_left
    intro a _
    simp only [Function.comp_apply, id]
    rw [show (s.sigma * B ((a - s.ymean) / s.ysigma) + s.mean - s.mean) / s.sigma = B ((a - s.ymean) / s.ysigma) by field_simp; ring, hFB]
    field_simp
    ring

/-- **C81 (the polynomial).**  For `kurt <= 3` (and an excess kurtosis that is not negligible) `dat2gauss` of a model without
critical points is the documented polynomial `xn - c3·(xn² - 1) - c4·(xn³ - 3·xn)`. -/
theorem C81_hardening_formula (tiny : ℝ) (pardef : ℤ) (s : Stats) (h : Herm) (hi : Herm.init tiny pardef s = .ok h)
    (hk : s.kurt ≤ 3) (ht : tiny ≤ |(s.kurt - 3) / 24|) (hx : h.xLimit = none) (v : List ℝ) :
    hermDat2gauss h v = .ok (v.map (fun x =>
      let xn := (x - s.mean) / s.sigma
      some ((xn - s.skew / 6 * (xn ^ 2 - 1) - (s.kurt - 3) / 24 * (xn ^ 3 - 3 * xn)) * s.ysigma + s.ymean))) := by
  obtain ⟨hst, hhard, hlim, hid, hp⟩ := init_spec tiny pardef s h hi
  have hpoly := hp hk
  have hc4 : checkC4 tiny ((s.kurt - 3) / 24) = (s.kurt - 3) / 24 := by unfold checkC4; rw [if_neg (not_lt.2 ht)]
  rw [hc4] at hpoly
  unfold hermDat2gauss
  rw [hx]
  simp only [checkForward]
  have := mapM_some (fun v => (h.forward ((v - h.st.mean) / h.st.sigma)).map (fun r => r.map (fun yn => yn * h.st.ysigma + h.st.ymean)))
    (fun x => ((x - s.mean) / s.sigma - s.skew / 6 * (((x - s.mean) / s.sigma) ^ 2 - 1) -
      (s.kurt - 3) / 24 * (((x - s.mean) / s.sigma) ^ 3 - 3 * ((x - s.mean) / s.sigma))) * s.ysigma + s.ymean) (fun v => by
      unfold Herm.forward
      rw [if_pos (hhard.2 hk), hst, hpoly]
      simp only [Except.map, Option.map_some, hardPoly, Cubic.eval]
      congr 3
      ring) v
  rw [this, List.map_map]
  rfl

/-- **C81 (increasing).**  A model with `kurt <= 3` without critical points is strictly increasing. -/
theorem C81_hardening_increasing (tiny : ℝ) (pardef : ℤ) (s : Stats) (h : Herm) (hi : Herm.init tiny pardef s = .ok h)
    (hk : s.kurt ≤ 3) (hx : h.xLimit = none) (u v : ℝ) (huv : u < v) : h.poly.eval u < h.poly.eval v := by
  obtain ⟨hst, hhard, hlim, hid, hp⟩ := init_spec tiny pardef s h hi
  have hcr := limits_none s h.poly (by rw [hlim, hx])
  rcases critical_nil h.poly hcr with ⟨ha, hb⟩ | ⟨ha, hd⟩
  · rw [hid ha hb, hid ha hb]; exact huv
  · have ha0 : 0 < h.poly.a := by
      refine lt_of_le_of_ne ?_ (Ne.symm ha)
      rw [hp hk]
      simp only [hardPoly]
      unfold checkC4
      split <;> linarith
    exact eval_strictMono h.poly ha0 hd u v huv

/-- **C81 (softening model of 1988).**  For `pardef = 2` and `kurt > 3` (with `c4` not negligible) the object is built without a
limit exactly when `c3² < 3·c4·(1 - 3·c4)`, and then `gauss2dat` is the documented increasing polynomial
`mean + K·sigma·(y + c3·(y² - 1) + c4·(y³ - 3·y))`. -/
theorem C81_softening1988 (tiny : ℝ) (htiny : 0 < tiny) (s : Stats) (hk : 3 < s.kurt) (c3 c4 : ℝ)
    (hc4 : c4 = (Real.sqrt (1 + 3 / 2 * (s.kurt - 3)) - 1) / 18) (hc3 : c3 = s.skew / (6 * (1 + 6 * c4))) (ht : tiny ≤ c4) :
    ((∃ h, Herm.init tiny 2 s = .ok h ∧ h.xLimit = none) ↔ c3 ^ 2 < 3 * c4 * (1 - 3 * c4)) ∧
    (c3 ^ 2 < 3 * c4 * (1 - 3 * c4) → ∃ h, Herm.init tiny 2 s = .ok h ∧
      (∀ y : List ℝ, hermGauss2dat h y = .ok (y.map (fun v =>
        let yn := (v - s.ymean) / s.ysigma
        some (s.sigma * ((yn + c3 * (yn ^ 2 - 1) + c4 * (yn ^ 3 - 3 * yn)) / Real.sqrt (1 + 2 * c3 ^ 2 + 6 * c4 ^ 2)) + s.mean)))) ∧
      ∀ u v, u < v → h.poly.eval u < h.poly.eval v) := by
  have hw : winterstein1988 tiny s.skew (s.kurt - 3) = .ok (c3, c4) := by
    unfold winterstein1988
    have : ((Real.sqrt (1 + 1.5 * (s.kurt - 3)) - 1) / 18 : ℝ) = c4 := by rw [hc4]; norm_num
    simp only [this]
    rw [← hc3]
    unfold checkC4
    rw [if_neg (by rw [abs_of_pos (by linarith)]; linarith)]
  have hc4p : 0 < c4 := by linarith
  have hKp : 0 < Real.sqrt (1 + 2 * c3 ^ 2 + 6 * c4 ^ 2) := Real.sqrt_pos.2 (by positivity)
  have hinit : Herm.init tiny 2 s = (limits s (softPoly c3 c4)).map (fun l => ⟨s, softPoly c3 c4, false, l⟩) := by
    unfold Herm.init
    rw [if_neg (not_le.2 hk), if_pos rfl, hw]
  have hpa : 0 < (softPoly c3 c4).a := div_pos hc4p hKp
  have hdisc : (softPoly c3 c4).b ^ 2 - 3 * (softPoly c3 c4).a * (softPoly c3 c4).c =
      (c3 ^ 2 - 3 * c4 * (1 - 3 * c4)) / Real.sqrt (1 + 2 * c3 ^ 2 + 6 * c4 ^ 2) ^ 2 := by
    simp only [softPoly]
    field_simp
  have hiff : (softPoly c3 c4).b ^ 2 - 3 * (softPoly c3 c4).a * (softPoly c3 c4).c < 0 ↔ c3 ^ 2 < 3 * c4 * (1 - 3 * c4) := by
    rw [hdisc, div_neg_iff]
    constructor
    · rintro (⟨_, h⟩ | ⟨h, _⟩)
      · exact absurd h (not_lt.2 (by positivity))
      · linarith
    · intro h
      exact Or.inr ⟨by linarith, by positivity⟩
  have hlim : c3 ^ 2 < 3 * c4 * (1 - 3 * c4) → limits s (softPoly c3 c4) = .ok none := by
    intro h
    have : (softPoly c3 c4).critical = [] := by unfold Cubic.critical; rw [if_pos hpa.ne', if_pos (hiff.2 h)]
    unfold limits
    rw [if_pos this]
  refine ⟨⟨?_, fun h => ⟨⟨s, softPoly c3 c4, false, none⟩, by rw [hinit, hlim h]; rfl, rfl⟩⟩, fun h => ?_⟩
  · rintro ⟨h, hi, hx⟩
    obtain ⟨-, -, hl, -, -⟩ := init_spec tiny 2 s h hi
    have hp : h.poly = softPoly c3 c4 := by
      rw [hinit] at hi
      cases hl' : limits s (softPoly c3 c4) with
      | error e => rw [hl'] at hi; simp [Except.map] at hi
      | ok l =>
        rw [hl'] at hi
        simp only [Except.map, Except.ok.injEq] at hi
        rw [← hi]
    have hcr := limits_none s h.poly (by rw [hl, hx])
    rw [hp] at hcr
    rcases critical_nil _ hcr with ⟨ha, -⟩ | ⟨-, hd⟩
    · exact absurd ha hpa.ne'
    · exact hiff.1 hd
  · refine ⟨⟨s, softPoly c3 c4, false, none⟩, by rw [hinit, hlim h]; rfl, fun y => ?_, fun u v huv => ?_⟩
    · unfold hermGauss2dat
      rw [mapM_some _ (fun v => s.sigma * (((v - s.ymean) / s.ysigma + c3 * (((v - s.ymean) / s.ysigma) ^ 2 - 1) +
        c4 * (((v - s.ymean) / s.ysigma) ^ 3 - 3 * ((v - s.ymean) / s.ysigma))) / Real.sqrt (1 + 2 * c3 ^ 2 + 6 * c4 ^ 2)) + s.mean) (fun v => by
          unfold Herm.backward
          simp only [Bool.false_eq_true, if_false, Except.map, Option.map_some, Cubic.eval, softPoly]
          congr 4
          generalize (v - s.ymean) / s.ysigma = w
          ring), List.map_map]
      rfl
    · exact eval_strictMono _ hpa (hiff.2 h) u v huv

/-- A concrete case: `skew = 0`, `kurt = 5`, so that `c4 = 1/18`. -/
example : (1 : ℝ) / 18 = (Real.sqrt (1 + 3 / 2 * (5 - 3)) - 1) / 18 ∧ (0 : ℝ) = 0 / (6 * (1 + 6 * (1 / 18))) ∧
    (0 : ℝ) ^ 2 < 3 * (1 / 18) * (1 - 3 * (1 / 18)) := by
  refine ⟨?_, by norm_num, by norm_num⟩
  rw [show (1 + 3 / 2 * (5 - 3) : ℝ) = 2 ^ 2 by norm_num, Real.sqrt_sq (by norm_num)]
  norm_num

/-! ### The quadratic model -/

/-- `_solve_quadratic` recovers the arguments on the rising branch. -/
theorem solveQuadratic_rising (p : Cubic) (ha : p.a = 0) (hc : 0 < p.c) (u : ℝ) (hu : 0 ≤ 2 * p.b * u + p.c) :
    solveQuadratic p (p.eval u) = some u := by
  have hdisc : p.c ^ 2 - 4 * p.b * (p.d - p.eval u) = (2 * p.b * u + p.c) ^ 2 := by
    unfold Cubic.eval; rw [ha]; ring
  unfold solveQuadratic
  simp only
  rw [hdisc, if_neg (not_lt.2 (sq_nonneg _)), Real.sqrt_sq hu]
  have hsg : npSign p.c = 1 := by unfold npSign; rw [if_neg (by linarith), if_neg hc.ne']
  rw [hsg]
  have ht : (0.5 : ℝ) * (p.c + 1 * (2 * p.b * u + p.c)) = p.b * u + p.c := by norm_num; ring
  have hpos : 0 < p.b * u + p.c := by linarith
  rw [ht, if_neg hpos.ne']
  congr 1
  rw [div_eq_iff hpos.ne']
  unfold Cubic.eval
  rw [ha]
  ring

/-- The quadratic model: `kurt = 3`. -/
theorem init_three (tiny : ℝ) (htiny : 0 < tiny) (pardef : ℤ) (s : Stats) (hk : s.kurt = 3) (h0 : s.skew ≠ 0) :
    Herm.init tiny pardef s = .ok ⟨s, ⟨0, -(s.skew / 6), 1, s.skew / 6⟩, true, some [3 / s.skew]⟩ := by
  have hc : hardening tiny s.skew (s.kurt - 3) = (s.skew / 6, 0) := by
    unfold hardening checkC4
    rw [hk]
    norm_num [htiny]
  unfold Herm.init
  rw [if_pos hk.le]
  simp only
  rw [hc]
  have hp : hardPoly (s.skew / 6) 0 = ⟨0, -(s.skew / 6), 1, s.skew / 6⟩ := by unfold hardPoly; norm_num
  simp only
  rw [hp]
  have hcr : Cubic.critical ⟨0, -(s.skew / 6), 1, s.skew / 6⟩ = [3 / s.skew] := by
    unfold Cubic.critical
    rw [if_neg (by simp), if_pos (by simpa using h0)]
    congr 1
    field_simp
    norm_num
  have hl : limits s ⟨0, -(s.skew / 6), 1, s.skew / 6⟩ = .ok (some [3 / s.skew]) := by
    unfold limits
    rw [hcr]
    simp [hk]
  rw [hl]
  rfl

/-- **C81 (quadratic model).**  For `kurt = 3` the inversion formula is exact on the rising branch `skew·xn <= 3` of the
parabola: data there that pass the check are recovered. -/
theorem C81_quadratic_partial (tiny : ℝ) (htiny : 0 < tiny) (pardef : ℤ) (s : Stats) (hk : s.kurt = 3) (h0 : s.skew ≠ 0)
    (hs : s.sigma ≠ 0) (hy : s.ysigma ≠ 0) (v : List ℝ) (hv : ∀ x ∈ v, s.skew * ((x - s.mean) / s.sigma) ≤ 3) :
    ∃ h, Herm.init tiny pardef s = .ok h ∧ ∀ y : List ℝ, hermDat2gauss h v = .ok (y.map some) →
      hermGauss2dat h y = .ok (v.map some) := by
  refine ⟨_, init_three tiny htiny pardef s hk h0, fun y hy' => ?_⟩
  set h : Herm := ⟨s, ⟨0, -(s.skew / 6), 1, s.skew / 6⟩, true, some [3 / s.skew]⟩ with hh
  have hfwd : ∀ x, h.forward x = .ok (some (h.poly.eval x)) := fun x => by unfold Herm.forward; rw [if_pos rfl]
  unfold hermDat2gauss at hy'
  cases hcf : checkForward h.xLimit v with
  | error e => rw [hcf] at hy'; simp at hy'
  | ok _ =>
    rw [hcf] at hy'
    simp only at hy'
    rw [mapM_some _ (fun x => h.poly.eval ((x - s.mean) / s.sigma) * s.ysigma + s.ymean) (fun x => by rw [hfwd]; rfl)] at hy'
    simp only [Except.ok.injEq] at hy'
    have hyv : y = v.map (fun x => h.poly.eval ((x - s.mean) / s.sigma) * s.ysigma + s.ymean) :=
      (List.map_injective_iff.2 (Option.some_injective ℝ)) hy'.symm
    have hback : ∀ x ∈ v, (h.backward ((h.poly.eval ((x - s.mean) / s.sigma) * s.ysigma + s.ymean - s.ymean) / s.ysigma)).map
        (fun r => r.map (fun xn => s.sigma * xn + s.mean)) = .ok (some x) := by
      intro x hx
      rw [show (h.poly.eval ((x - s.mean) / s.sigma) * s.ysigma + s.ymean - s.ymean) / s.ysigma = h.poly.eval ((x - s.mean) / s.sigma) by
        field_simp; ring]
      unfold Herm.backward polyInv
      rw [if_pos rfl, order_two h.poly rfl (by simp [hh, h0]), if_neg (by norm_num), if_pos rfl,
        solveQuadratic_rising h.poly rfl (by simp [hh]) _ (by simp only [hh]; linarith [hv x hx])]
      simp only [Except.map, Option.map_some]
      congr 2
      field_simp
      ring
    rw [hyv]
    unfold hermGauss2dat
    have : ∀ l : List ℝ, (∀ x ∈ l, x ∈ v) →
        (l.map (fun x => h.poly.eval ((x - s.mean) / s.sigma) * s.ysigma + s.ymean)).mapM (fun v =>
          (h.backward ((v - h.st.ymean) / h.st.ysigma)).map (fun r => r.map (fun xn => h.st.sigma * xn + h.st.mean))) = .ok (l.map some) := by
      intro l
      induction l with
      | nil => intro _; rfl
      | cons a l ih =>
        intro hl
        rw [List.map_cons, List.mapM_cons, ih (fun x hx => hl x (List.mem_cons_of_mem _ hx))]
        have := hback a (hl a (by simp))
        simp only [hh] at this ⊢
        rw [this]
        rfl
    exact this v (fun x hx => hx)

/-- **C81 (finding).**  Beyond the vertex the check does not look at the branch: with `kurt = 3`, `skew = 3/5` the single datum 7
passes, and the round trip returns 3. -/
theorem C81_beyond_refuted (tiny : ℝ) (htiny : 0 < tiny) (pardef : ℤ) :
    ∃ h y, Herm.init tiny pardef ⟨0, 1, 3 / 5, 3, 0, 1⟩ = .ok h ∧ hermDat2gauss h [7] = .ok [some y] ∧
      hermGauss2dat h [y] = .ok [some 3] := by
  refine ⟨_, 11 / 5, init_three tiny htiny pardef ⟨0, 1, 3 / 5, 3, 0, 1⟩ rfl (by norm_num), ?_, ?_⟩
  · have hc : checkForward (some [(3 : ℝ) / (3 / 5)]) [7] = .ok () := by
      unfold checkForward
      simp
      norm_num
    unfold hermDat2gauss
    simp only
    rw [hc]
    simp only [List.mapM_cons, List.mapM_nil, Herm.forward, if_true, Cubic.eval]
    norm_num [Except.map, pure, Except.pure, bind, Except.bind]
  · unfold hermGauss2dat
    have hq := solveQuadratic_rising ⟨0, -((3 : ℝ) / 5 / 6), 1, 3 / 5 / 6⟩ rfl (by norm_num) 3 (by norm_num)
    have he : Cubic.eval ⟨0, -((3 : ℝ) / 5 / 6), 1, 3 / 5 / 6⟩ 3 = 11 / 5 := by unfold Cubic.eval; norm_num
    rw [he] at hq
    simp only [List.mapM_cons, List.mapM_nil, Herm.backward, if_true, polyInv]
    rw [order_two _ rfl (by norm_num), if_neg (by norm_num), if_pos rfl, show ((11 : ℝ) / 5 - 0) / 1 = 11 / 5 by norm_num, hq]
    norm_num [Except.map, pure, Except.pure, bind, Except.bind]

/-! ### Construction -/

/-- **C109 (refuted).**  A cubic model that is not monotone is not built with a warning: formatting the warning text raises
TypeError.  This happens for `kurt < 3` exactly when `skew² / 36 >= -c4·(1 + 3·c4)·3` with `c4 = (kurt - 3)/24`. -/
theorem C109_nonmonotone_refuted (tiny : ℝ) (pardef : ℤ) (s : Stats) (hk : s.kurt < 3) (ht : tiny ≤ |(s.kurt - 3) / 24|) :
    Herm.init tiny pardef s = .error .typeError ↔
      3 * (-((s.kurt - 3) / 24)) * (1 + 3 * ((s.kurt - 3) / 24)) ≤ (s.skew / 6) ^ 2 := by
  have hc4 : checkC4 tiny ((s.kurt - 3) / 24) = (s.kurt - 3) / 24 := by unfold checkC4; rw [if_neg (not_lt.2 ht)]
  unfold Herm.init
  rw [if_pos hk.le]
  simp only [hardening]
  rw [hc4]
  set c4 := (s.kurt - 3) / 24 with hc4d
  have hneg : c4 ≠ 0 := by
    intro h
    rw [hc4d, div_eq_zero_iff] at h
    rcases h with h | h
    · linarith
    · norm_num at h
  set p := hardPoly (s.skew / 6) c4 with hp
  have hpa : p.a ≠ 0 := by rw [hp]; simpa [hardPoly] using hneg
  have hdisc : p.b ^ 2 - 3 * p.a * p.c = (s.skew / 6) ^ 2 - 3 * (-c4) * (1 + 3 * c4) := by rw [hp]; simp only [hardPoly]; ring
  unfold limits
  by_cases hd : p.b ^ 2 - 3 * p.a * p.c < 0
  · have hcr : p.critical = [] := by unfold Cubic.critical; rw [if_pos hpa, if_pos hd]
    rw [if_pos hcr]
    simp only [Except.map, reduceCtorEq, false_iff, not_le]
    linarith
  · have hcr : p.critical ≠ [] ∧ p.critical.length = 2 := by unfold Cubic.critical; rw [if_pos hpa, if_neg hd]; simp
    rw [if_neg hcr.1, if_pos hk.le, if_neg (by rw [hcr.2]; norm_num)]
    simp only [Except.map, true_iff]
    linarith

/-- **C109 (what can be built).**  Every constructed object has no critical point, or is a parabola (then it has one limit). -/
theorem C109_constructed (tiny : ℝ) (pardef : ℤ) (s : Stats) (h : Herm) (hi : Herm.init tiny pardef s = .ok h) :
    h.xLimit = none ∨ (h.poly.a = 0 ∧ h.poly.b ≠ 0 ∧ ∃ r, h.xLimit = some [r]) := by
  obtain ⟨hst, hhard, hlim, hid, -⟩ := init_spec tiny pardef s h hi
  unfold limits at hlim
  by_cases hc : h.poly.critical = []
  · rw [if_pos hc] at hlim
    left
    simpa using hlim.symm
  · right
    rw [if_neg hc] at hlim
    simp only at hlim
    have hlen : h.poly.critical.length = 1 := by
      by_contra hne
      rw [if_neg (by split <;> simpa using hne)] at hlim
      simp at hlim
    have ha : h.poly.a = 0 := by
      by_contra ha
      unfold Cubic.critical at hlen hc
      rw [if_pos ha] at hlen hc
      split at hlen <;> simp at hlen
    have hb : h.poly.b ≠ 0 := by
      intro hb
      apply hc
      unfold Cubic.critical
      rw [if_neg (by simpa using ha), if_neg (by simpa using hb)]
    refine ⟨ha, hb, ?_⟩
    rw [if_pos (by split <;> simpa using hlen)] at hlim
    simp only [Except.ok.injEq] at hlim
    obtain ⟨r, hr⟩ := List.length_eq_one_iff.1 hlen
    rw [hr] at hlim
    rw [← hlim]
    split <;> exact ⟨_, rfl⟩

/-- Concrete cases: a monotone cubic model is built, and a strongly skewed one raises. -/
example : (∃ h, Herm.init (1 / 1000) 1 ⟨0, 2, 1 / 10, 2, 0, 1⟩ = .ok h ∧ h.xLimit = none) ∧
    Herm.init (1 / 1000) 1 ⟨0, 2, 3, 2, 0, 1⟩ = .error .typeError := by
  constructor
  · have hne : Herm.init (1 / 1000) 1 ⟨0, 2, 1 / 10, 2, 0, 1⟩ ≠ .error .typeError := by
      rw [Ne, C109_nonmonotone_refuted _ _ _ (by norm_num) (by norm_num)]
      norm_num
    have hp : (hardPoly (hardening (1 / 1000) (1 / 10) (2 - 3)).1 (hardening (1 / 1000) (1 / 10) (2 - 3)).2).critical = [] := by
      unfold Cubic.critical hardPoly hardening checkC4
      norm_num
    refine ⟨⟨⟨0, 2, 1 / 10, 2, 0, 1⟩, hardPoly (hardening (1 / 1000) (1 / 10) (2 - 3)).1 (hardening (1 / 1000) (1 / 10) (2 - 3)).2, true, none⟩, ?_, rfl⟩
    unfold Herm.init
    rw [if_pos (by norm_num)]
    simp only
    unfold limits
    rw [if_pos hp]
    rfl
  · rw [C109_nonmonotone_refuted _ _ _ (by norm_num) (by norm_num)]
    norm_num

/-! ### The check of the data -/

/-- **C108 (standardized data).**  For `mean = 0`, `sigma = 1`, `kurt = 3` and data whose first value is not above the last one,
`dat2gauss` raises ValueError exactly when the vertex `3/skew` of the parabola lies between the first and the last value. -/
theorem C108_check_partial (tiny : ℝ) (htiny : 0 < tiny) (pardef : ℤ) (s : Stats) (hk : s.kurt = 3) (h0 : s.skew ≠ 0)
    (hm : s.mean = 0) (hs : s.sigma = 1) (v : List ℝ) (x0 x1 : ℝ) (hv0 : v.head? = some x0) (hv1 : v.getLast? = some x1) (hle : x0 ≤ x1) :
    ∃ h, Herm.init tiny pardef s = .ok h ∧
      (hermDat2gauss h v = .error .valueError ↔ x0 ≤ s.mean + s.sigma * (3 / s.skew) ∧ s.mean + s.sigma * (3 / s.skew) ≤ x1) := by
  refine ⟨_, init_three tiny htiny pardef s hk h0, ?_⟩
  rw [hm, hs, zero_add, one_mul]
  set r := 3 / s.skew
  have hcf : checkForward (some [r]) v = if x0 ≤ r ∧ r ≤ x1 then .error .valueError else .ok () := by
    unfold checkForward
    rw [hv0, hv1]
    simp only [List.any_cons, List.any_nil, Bool.or_false, Bool.and_eq_true, decide_eq_true_eq]
    by_cases h : x0 ≤ r ∧ r ≤ x1
    · simp [h]
    · rw [if_neg h, if_neg h]
      have : (xor (decide (r ≤ x0)) (decide (r ≤ x1))) = false := by
        rcases lt_or_ge r x0 with h1 | h1
        · simp [h1.le, h1.le.trans hle]
        · have h2 : ¬ r ≤ x1 := fun h2 => h ⟨h1, h2⟩
          have h3 : ¬ r ≤ x0 := fun h3 => h2 (h3.trans hle)
          simp [h2, h3]
      rw [List.countP_cons, List.countP_nil, this]
      simp
  unfold hermDat2gauss
  simp only
  rw [hcf]
  by_cases h : x0 ≤ r ∧ r ≤ x1
  · simp [h]
  · rw [if_neg h]
    simp only [h, iff_false]
    rw [mapM_some _ (fun x => Cubic.eval ⟨0, -(s.skew / 6), 1, s.skew / 6⟩ ((x - s.mean) / s.sigma) * s.ysigma + s.ymean) (fun x => by
      unfold Herm.forward; rw [if_pos rfl]; rfl)]
    simp

/-- **C108 (refuted).**  For `kurt <= 3` the limit is kept on the normalized scale, but compared with the data: with `sigma = 2`
data that contain the vertex at 10 pass, and data on the rising branch are rejected. -/
theorem C108_scale_refuted (tiny : ℝ) (htiny : 0 < tiny) (pardef : ℤ) :
    ∃ s h, s.kurt = 3 ∧ s.mean + s.sigma * (3 / s.skew) = 10 ∧ Herm.init tiny pardef s = .ok h ∧
      (∃ y, hermDat2gauss h [7, 12] = .ok y) ∧ hermDat2gauss h [-1, 6] = .error .valueError := by
  refine ⟨⟨0, 2, 3 / 5, 3, 0, 1⟩, _, rfl, by norm_num, init_three tiny htiny pardef ⟨0, 2, 3 / 5, 3, 0, 1⟩ rfl (by norm_num), ?_, ?_⟩
  · have hc : checkForward (some [(3 : ℝ) / (3 / 5)]) [7, 12] = .ok () := by
      unfold checkForward
      simp
      norm_num
    unfold hermDat2gauss
    simp only
    rw [hc]
    simp only
    rw [mapM_some _ (fun x => Cubic.eval ⟨0, -((3 : ℝ) / 5 / 6), 1, 3 / 5 / 6⟩ ((x - 0) / 2) * 1 + 0) (fun x => by
      unfold Herm.forward; rw [if_pos rfl]; rfl)]
    exact ⟨_, rfl⟩
  · have hc : checkForward (some [(3 : ℝ) / (3 / 5)]) [-1, 6] = .error .valueError := by
      unfold checkForward
      simp
      norm_num
    unfold hermDat2gauss
    simp only
    rw [hc]

end Wafo.Trf
