import Verif.Cheb.Lemmas
import Mathlib.Analysis.Calculus.Deriv.Polynomial

set_option linter.unusedSectionVars false

/-! Properties of the Chebyshev functions (C61 - C64, C94). -/

namespace Wafo.Cheb

open Wafo.Poly Polynomial.Chebyshev

variable {α : Type*} [Field α]

/-- **C61**  `chebval(x, ck, a, b, kind)` is the Chebyshev sum of the first kind (`kind=1`) or second kind (`kind=2`): the
coefficient `ck[n-1-k]` multiplies `T_k(y)` or `U_k(y)`, with `y` the image of `x` under `[a, b] -> [-1, 1]`.  An empty
coefficient list raises IndexError. -/
theorem C61_chebval (x a b : α) (ck : List α) (h : ck ≠ []) :
    chebval x ck a b 1 = .ok (∑ k ∈ Finset.range ck.length,
      ck.getD (ck.length - 1 - k) 0 * (T α k).eval ((x - (b + a) / 2) * (2 / (b - a)))) ∧
    chebval x ck a b 2 = .ok (∑ k ∈ Finset.range ck.length,
      ck.getD (ck.length - 1 - k) 0 * (U α k).eval ((x - (b + a) / 2) * (2 / (b - a)))) ∧
    chebval x [] a b 1 = .error .indexError := by
  refine ⟨?_, ?_, rfl⟩
  · rw [chebval, chebval0_T _ _ h, series_eq_sum]; rfl
  · rw [chebval, chebval0_U _ _ h, series_eq_sum]; rfl

example : chebval (1 / 2 : ℚ) [1, 0, 3] (-1) 1 1 = .ok (5 / 2) := by decide +kernel

/-- **C94** (float `fill`)  Inside `[a, b]` the value with `fill` is the value without, outside it is `fill`. -/
theorem C94_fill_partial [LinearOrder α] [IsStrictOrderedRing α] (x a b fill : α) (hab : a < b) (ck : List α) (kind : ℕ) :
    (a ≤ x ∧ x ≤ b → chebvalFill id x ck a b kind fill = chebval x ck a b kind) ∧
    (x < a ∨ b < x → chebvalFill id x ck a b kind fill = .ok fill) := by
  have hba : 0 < b - a := by linarith
  have hy : mapFromInterval x a b = (2 * x - (b + a)) / (b - a) := by
    unfold mapFromInterval; field_simp
  have habs : |mapFromInterval x a b| ≤ 1 ↔ a ≤ x ∧ x ≤ b := by
    rw [abs_le, hy, le_div_iff₀ hba, div_le_one hba]
    constructor
    · rintro ⟨h1, h2⟩; constructor <;> linarith
    · rintro ⟨h1, h2⟩; constructor <;> linarith
  constructor
  · intro h
    simp only [chebvalFill, if_pos (habs.2 h), chebval]
    cases chebval0 (mapFromInterval x a b) ck kind <;> rfl
  · intro h
    have : ¬ |mapFromInterval x a b| ≤ 1 := by
      rw [habs]; rintro ⟨h1, h2⟩; rcases h with h | h <;> linarith
    simp only [chebvalFill, if_neg this]

/-- **C94** negated for an integer `fill` such as 0: the result array has integer type, so the values inside the interval
are truncated.  `T_1(1/2) = 1/2` is returned as 0. -/
theorem C94_integer_fill_refuted :
    chebvalFill truncInt (1 / 2 : ℚ) [1, 0] (-1) 1 1 0 = .ok 0 ∧ chebval (1 / 2 : ℚ) [1, 0] (-1) 1 1 = .ok (1 / 2) := by
  constructor <;> decide +kernel

/-- **C62**  `cheb2poly(ck, a, b)` succeeds for every non-empty list and every `a != b`; the returned ordinary polynomial
has the values of the Chebyshev series at every point (and no leading zero). -/
theorem C62_cheb2poly [DecidableEq α] (ck : List α) (h : ck ≠ []) (a b : α) (hab : a ≠ b) (h2 : (2 : α) ≠ 0) :
    ∃ p, cheb2poly ck a b = .ok p ∧ (∀ x, chebval x ck a b 1 = .ok (peval p x)) ∧
      ∀ c, p.head? = some c → c ≠ 0 := by
  have hba : b - a ≠ 0 := fun e => hab (sub_eq_zero.1 e).symm
  set y0 := 2 / (b - a) with hy0
  set y1 := -(a + b) / (b - a) with hy1
  have hy : y0 ≠ 0 := div_ne_zero h2 hba
  have hstart : Shape ([0] : List α) [0] := by
    refine ⟨by simp, Or.inl ⟨?_, by simp, ?_, by simp⟩, by simp⟩ <;> simp [polytrim, polytrim.go]
  obtain ⟨b', m', e1, e2, e3⟩ := c2pLoop_ok y0 y1 hy h2 ck.dropLast [0] [0] hstart
  rcases List.eq_nil_or_concat ck with rfl | ⟨l, c, rfl⟩
  · exact absurd rfl h
  rw [List.concat_eq_append] at *
  rw [List.dropLast_concat] at e1 e3
  obtain ⟨r, f1, f2, f3⟩ := shape_step y0 y1 hy b' m' c e2
  refine ⟨polytrim r, ?_, ?_, (C59_polytrim r).2.1⟩
  · unfold cheb2poly
    rw [if_neg hba]
    simp only [List.map_cons, List.map_nil, List.dropLast_concat, ← hy0, ← hy1, e1,
      List.getLast?_append, List.getLast?_singleton, Option.some_or, f1]
  · intro x
    have hmap : mapFromInterval x a b = y0 * x + y1 := by
      unfold mapFromInterval; rw [hy0, hy1]; field_simp; ring
    have h0 : peval ([0] : List α) x = 0 := by simp [peval]
    have hst := e3 x
    rw [h0] at hst
    rw [(C59_polytrim r).1 x, f3, chebval, chebval0, hmap]
    simp only [List.getLast?_append, List.getLast?_singleton, Option.some_or, List.dropLast_concat, ← hst]
    simp

example : cheb2poly [(1 : ℚ), 0, 3] (-1) 1 = .ok [2, 0, 2] := by decide +kernel

/-! ### C63: chebder -/

theorem series_T_hasDerivAt (l : List ℝ) (c y : ℝ) :
    HasDerivAt (fun y => series (T ℝ) y (l ++ [c]) 0) (dsum y l) y := by
  have aux : ∀ l : List ℝ, HasDerivAt (fun y => series (T ℝ) y l 1) (dsum y l) y := by
    intro l
    induction l with
    | nil => simpa [series, dsum] using hasDerivAt_const y (0 : ℝ)
    | cons c l ih =>
      simp only [series, dsum]
      refine HasDerivAt.add ?_ ih
      have h := ((T ℝ (1 + (l.length : ℤ))).hasDerivAt y).const_mul c
      refine h.congr_deriv ?_
      rw [T_derivative_eq_U]
      simp
      ring
  have : (fun y => series (T ℝ) y (l ++ [c]) 0) = fun y => series (T ℝ) y l 1 + c := by
    funext y; rw [series_append]; simp
  rw [this]
  exact (aux l).add_const c

/-- **C63** (part).  For at least three coefficients the value of the series returned by `chebder` minus half of its
constant coefficient is the derivative of the series, at every point.  So the result is right exactly when its
constant coefficient is zero; see `C63_refuted`. -/
theorem C63_chebder_partial (ck : List ℝ) (hn : 3 ≤ ck.length) (a b : ℝ) (hab : a ≠ b) :
    ∃ cd, chebder ck a b = .ok cd ∧ cd.length = ck.length - 1 ∧ ∃ v w : ℝ → ℝ,
      (∀ x, chebval x ck a b 1 = .ok (v x)) ∧ (∀ x, chebval x cd a b 1 = .ok (w x)) ∧
      ∀ x, HasDerivAt v (w x - cd.getLastD 0 / 2) x := by
  have hba : b - a ≠ 0 := fun e => hab (sub_eq_zero.1 e).symm
  have hne : ck ≠ [] := by rintro rfl; simp at hn
  rcases List.eq_nil_or_concat ck with rfl | ⟨l, c, rfl⟩
  · exact absurd rfl hne
  rw [List.concat_eq_append] at *
  have hl : 2 ≤ l.length := by simp at hn; omega
  have hlen : ∀ (a b : ℝ) (l : List ℝ), (derGo a b l).length = l.length := by
    intro a b l
    induction l generalizing a b with
    | nil => rfl
    | cons c l ih => simp [derGo, ih]
  set k := 2 / (b - a) with hk
  have hcd : chebder (l ++ [c]) a b = .ok ((derGo 0 0 l).map (fun d => d * k)) := by
    unfold chebder
    rw [if_neg hne, if_neg (by simp; omega), List.dropLast_concat]
    simp only [hk, mul_div_assoc]
  have hdne : derGo 0 0 l ≠ [] := by intro h0; have := hlen 0 0 l; rw [h0] at this; simp at this; omega
  refine ⟨_, hcd, by simp [hlen], ?_⟩
  refine ⟨fun t => series (T ℝ) (mapFromInterval t a b) (l ++ [c]) 0,
    fun t => series (T ℝ) (mapFromInterval t a b) ((derGo 0 0 l).map (fun d => d * k)) 0,
    fun t => ?_, fun t => ?_, fun x => ?_⟩
  · rw [chebval, chebval0_T _ _ hne]
  · rw [chebval, chebval0_T _ _ (by simpa using hdne)]
  · have hm : HasDerivAt (fun t => mapFromInterval t a b) k x := by
      have := ((hasDerivAt_id x).sub_const ((b + a) / 2)).mul_const k
      simpa [mapFromInterval, hk] using this
    have h1 := (series_T_hasDerivAt l c (mapFromInterval x a b)).comp x hm
    refine h1.congr_deriv ?_
    have h2 := derGo_sum (mapFromInterval x a b) l 0 0
    simp only [zero_mul, add_zero] at h2
    have h3 : ((derGo 0 0 l).map (fun d => d * k)).getLastD 0 = (derGo 0 0 l).getLastD 0 * k := by
      rw [List.getLastD_eq_getLast?, List.getLastD_eq_getLast?, List.getLast?_map,
        List.getLast?_eq_getLast_of_ne_nil hdne]
      simp
    simp only [series_map_mul, h3]
    linear_combination (-k / 2) * h2

/-- **C63** negated: `chebder` of `T_3` on `[-1, 1]` is `6 T_2 + 6 T_0`; the derivative of
`T_3 = 4 x^3 - 3 x` at 0 is `-3`, the returned series has the value 0 there.  Shorter lists raise IndexError. -/
theorem C63_refuted :
    chebder [(1 : ℚ), 0, 0, 0] (-1) 1 = .ok [6, 0, 6] ∧ chebval (0 : ℚ) [6, 0, 6] (-1) 1 1 = .ok 0 ∧
    cheb2poly [(1 : ℚ), 0, 0, 0] (-1) 1 = .ok [4, 0, -3, 0] ∧ polyder [(4 : ℚ), 0, -3, 0] 1 = .ok [12, 0, -3] ∧
    peval [(12 : ℚ), 0, -3] 0 = -3 := by
  refine ⟨?_, ?_, ?_, ?_, ?_⟩ <;> decide +kernel

/-- **C63**: one or two coefficients (constants and straight lines) always raise IndexError. -/
theorem C63_short_raises (c d a b : α) :
    chebder [c] a b = .error .indexError ∧ chebder [c, d] a b = .error .indexError := by
  constructor <;> simp [chebder]

example : chebder [(1 : ℚ), 0, 0] (-1) 1 = .ok [4, 0] := by decide +kernel

/-! ### C64: chebint -/

/-- The Chebyshev series as a polynomial. -/
noncomputable def seriesPoly : List ℝ → Polynomial ℝ
  | [] => 0
  | c :: l => Polynomial.C c * T ℝ (l.length : ℤ) + seriesPoly l

theorem seriesPoly_eval (l : List ℝ) (y : ℝ) : (seriesPoly l).eval y = series (T ℝ) y l 0 := by
  induction l with
  | nil => simp [seriesPoly, series]
  | cons c l ih => simp [seriesPoly, series, ih]

theorem seriesPoly_degree_le (l : List ℝ) : (seriesPoly l).natDegree ≤ l.length - 1 := by
  induction l with
  | nil => simp [seriesPoly]
  | cons c l ih =>
    refine (Polynomial.natDegree_add_le _ _).trans (max_le ?_ ?_)
    · refine (Polynomial.natDegree_C_mul_le _ _).trans ?_
      rw [natDegree_T]; simp
    · refine ih.trans ?_; simp

theorem seriesPoly_degree (c : ℝ) (hc : c ≠ 0) (l : List ℝ) : (seriesPoly (c :: l)).natDegree = l.length := by
  by_cases hl : l = []
  · subst hl; simp [seriesPoly]
  · have hlt : (seriesPoly l).natDegree < (Polynomial.C c * T ℝ (l.length : ℤ)).natDegree := by
      rw [Polynomial.natDegree_C_mul hc, natDegree_T]
      have := seriesPoly_degree_le l
      have := List.length_pos_iff.2 hl
      simp; omega
    rw [seriesPoly, Polynomial.natDegree_add_eq_left_of_natDegree_lt hlt, Polynomial.natDegree_C_mul hc, natDegree_T]
    simp

theorem chebint_length (ck : List α) (a b : α) (r : List α) (h : chebint ck a b = .ok r) : r.length = ck.length := by
  unfold chebint at h
  simp only at h
  split at h
  · cases h
  · split at h
    · cases h
    · rw [← Except.ok.inj h]; simp

/-- **C64** negated in general: whenever the highest coefficient is not zero the series returned by `chebint` is not an
antiderivative (its degree is too small), for any interval. -/
theorem C64_chebint_refuted (c : ℝ) (hc : c ≠ 0) (l r : List ℝ) (a b : ℝ) (hab : a ≠ b)
    (h : chebint (c :: l) a b = .ok r) :
    ¬ ∃ v w : ℝ → ℝ, (∀ x, chebval x r a b 1 = .ok (v x)) ∧ (∀ x, chebval x (c :: l) a b 1 = .ok (w x)) ∧
      ∀ x, HasDerivAt v (w x) x := by
  rintro ⟨v, w, hv, hw, hd⟩
  have hba : b - a ≠ 0 := fun e => hab (sub_eq_zero.1 e).symm
  have hlen := chebint_length _ _ _ _ h
  have hr : r ≠ [] := by intro h0; rw [h0] at hlen; simp at hlen
  set k := 2 / (b - a) with hk
  have hk0 : k ≠ 0 := div_ne_zero two_ne_zero hba
  have hv' : v = fun x => (seriesPoly r).eval (mapFromInterval x a b) := by
    funext x
    have := hv x
    rw [chebval, chebval0_T _ _ hr] at this
    rw [seriesPoly_eval, Except.ok.inj this]
  have hw' : ∀ x, w x = (seriesPoly (c :: l)).eval (mapFromInterval x a b) := by
    intro x
    have := hw x
    rw [chebval, chebval0_T _ _ (by simp)] at this
    rw [seriesPoly_eval, Except.ok.inj this]
  have hder : ∀ x, HasDerivAt v ((Polynomial.derivative (seriesPoly r)).eval (mapFromInterval x a b) * k) x := by
    intro x
    have hm : HasDerivAt (fun t => mapFromInterval t a b) k x := by
      have := ((hasDerivAt_id x).sub_const ((b + a) / 2)).mul_const k
      simpa [mapFromInterval, hk] using this
    rw [hv']
    exact ((seriesPoly r).hasDerivAt (mapFromInterval x a b)).comp x hm
  have hpoly : Polynomial.C k * Polynomial.derivative (seriesPoly r) = seriesPoly (c :: l) := by
    apply Polynomial.funext
    intro y
    have hx : mapFromInterval (mapToInterval y a b) a b = y := (C58_interval_maps a b y hab two_ne_zero).2.2.2.2.2
    have := (hder (mapToInterval y a b)).unique (hd (mapToInterval y a b))
    rw [hw', hx] at this
    rw [← this]; simp; ring
  have hdeg := congrArg Polynomial.natDegree hpoly
  rw [Polynomial.natDegree_C_mul hk0, seriesPoly_degree c hc] at hdeg
  have h1 := Polynomial.natDegree_derivative_le (seriesPoly r)
  have h2 := seriesPoly_degree_le r
  rw [hlen, List.length_cons] at h2
  by_cases hl : l = []
  · subst hl; simp [chebint] at h
  · have := List.length_pos_iff.2 hl
    omega

/-- **C64** negated also without loss of degree: the constant 1, given as `[0, 0, 1]`, is "integrated" to `T_2 + T_1/2`. -/
theorem C64_constant_refuted :
    chebint [(0 : ℚ), 0, 1] (-1) 1 = .ok [1, 1 / 2, 0] ∧ cheb2poly [(1 : ℚ), 1 / 2, 0] (-1) 1 = .ok [2, 1 / 2, -1] ∧
    polyder [(2 : ℚ), 1 / 2, -1] 1 = .ok [4, 1 / 2] := by
  refine ⟨?_, ?_, ?_⟩ <;> decide +kernel

end Wafo.Cheb
