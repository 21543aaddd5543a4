import Verif.Slopes.Props

set_option linter.unusedSectionVars false

/-! Straight lines (C98) and the option `scale` (C99) of `slopes`. -/

namespace Wafo.Slopes

section general
variable {α : Type*} [Field α] [LinearOrder α] [IsStrictOrderedRing α]

theorem sgn_mul_abs (s : α) : sgn s * |s| = s := by
  rcases lt_trichotomy s 0 with h | h | h
  · rw [sgn_neg' h, abs_of_neg h]; ring
  · subst h; simp
  · rw [sgn_pos h, abs_of_pos h]; ring

theorem withEnds_line (n : ℕ) (m inner : ℕ → α) (s : α) (hn : 3 ≤ n) (hm : ∀ j, j + 1 < n → m j = s)
    (hi : ∀ k, 0 < k → k + 1 < n → inner k = s) (k : ℕ) (hk : k < n) : withEnds n m inner k = s := by
  have h0 : m 0 = s := hm 0 (by omega)
  have h1 : m (n - 2) = s := hm _ (by omega)
  have i1 : inner 1 = s := hi 1 (by omega) (by omega)
  simp only [withEnds]
  rw [if_pos (show 0 < 1 ∧ 1 + 1 < n by omega), h0, i1, h1]
  have e : (if n - 2 = 0 then 2 * s - s else if 0 < n - 2 ∧ n - 2 + 1 < n then inner (n - 2) else 0) = s := by
    rw [if_neg (by omega), if_pos ⟨by omega, by omega⟩, hi _ (by omega) (by omega)]
  rw [e]
  split_ifs with c1 c2 c3
  · ring
  · ring
  · exact hi k c3.1 c3.2
  · omega

theorem edgeCase_line (h0 h1 s : α) (hh0 : 0 < h0) (hh1 : 0 < h1) : edgeCase h0 h1 s s = s := by
  have e : ((2 * h0 + h1) * s - h0 * s) / (h0 + h1) = s := by
    have : h0 + h1 ≠ 0 := by positivity
    field_simp; ring
  simp only [edgeCase, e]
  simp

theorem pchipInner_line (h0 h1 s : α) (hh0 : 0 < h0) (hh1 : 0 < h1) : pchipInner h0 h1 s s = s := by
  simp only [pchipInner]
  by_cases hs : s = 0
  · simp [hs]
  · rw [if_neg (by simp [hs])]
    have : (2 * h1 + h0 + (h1 + 2 * h0)) ≠ 0 := by positivity
    field_simp

theorem pchip_line (n : ℕ) (h m : ℕ → α) (s : α) (hn : 2 ≤ n) (hh : ∀ j, j + 1 < n → 0 < h j)
    (hm : ∀ j, j + 1 < n → m j = s) (k : ℕ) (hk : k < n) : pchip n h m k = s := by
  unfold pchip
  split_ifs with c1 c2 c3
  · exact hm 0 (by omega)
  · rw [hm 0 (by omega), hm 1 (by omega)]; exact edgeCase_line _ _ _ (hh 0 (by omega)) (hh 1 (by omega))
  · rw [hm (n - 2) (by omega), hm (n - 3) (by omega)]
    exact edgeCase_line _ _ _ (hh _ (by omega)) (hh _ (by omega))
  · rw [hm (k - 1) (by omega), hm k (by omega)]
    exact pchipInner_line _ _ _ (hh _ (by omega)) (hh _ (by omega))

theorem foldl_max_const (l : List α) (c : α) (h : ∀ v ∈ l, v = c) : l.foldl max c = c := by
  induction l with
  | nil => rfl
  | cons a l ih =>
    have : a = c := h a (by simp)
    subst this
    simp only [List.foldl_cons, max_self]
    exact ih fun v hv => h v (by simp [hv])

theorem akima_line (eps garb : α) (n : ℕ) (m : ℕ → α) (s : α) (hn : 3 ≤ n) (hm : ∀ j, j + 1 < n → m j = s)
    (k : ℕ) : akima eps n m garb k = s := by
  have hM : ∀ j, akimaM n m garb j = s := by
    intro j
    have e0 : m 0 = s := hm 0 (by omega)
    have e1 : m 1 = s := hm 1 (by omega)
    have e2 : m (n - 2) = s := hm _ (by omega)
    have e3 : m (n - 3) = s := hm _ (by omega)
    simp only [akimaM, if_neg (show ¬ n = 2 by omega), e0, e1, e2, e3]
    split_ifs
    · ring
    · ring
    · exact hm _ (by omega)
    · ring
    · ring
  simp only [akima, hM, sub_self, abs_zero, add_zero]
  rw [foldl_max_const _ 0 (by simp), mul_zero, if_neg (by simp)]
  ring

/-- The slope expected on a straight line: `1 - tension` times the slope for 'Cardinal'. -/
def lineSlope (tension s : α) : Method → α
  | .cardinal => (1 - tension) * s
  | _ => s

theorem raw_line (eps garb tension : α) (n : ℕ) (x y h m : ℕ → α) (s c : α) (meth : Method) (hn : 3 ≤ n)
    (hst : meth = .steffen → 0 ≤ s)
    (hx : ∀ j, j + 1 < n → x j < x (j + 1)) (hh : ∀ j, j + 1 < n → h j = x (j + 1) - x j)
    (hy : ∀ j, j < n → y j = s * x j + c) (hm : ∀ j, j + 1 < n → m j = (y (j + 1) - y j) / h j)
    (k : ℕ) (hk : k < n) : rawSlopes eps garb tension n x y h m meth k = lineSlope tension s meth := by
  have hpos : ∀ j, j + 1 < n → 0 < h j := fun j hj => by rw [hh j hj]; exact sub_pos.2 (hx j hj)
  have hms : ∀ j, j + 1 < n → m j = s := by
    intro j hj
    rw [hm j hj, hy j (by omega), hy (j + 1) hj]
    have := (hpos j hj).ne'
    rw [div_eq_iff this, hh j hj]; ring
  have hcat : catmullRom n x y m k = s := by
    unfold catmullRom
    split_ifs with c1 c2
    · exact hms _ (by omega)
    · exact hms _ (by omega)
    · rw [hy (k + 1) (by omega), hy (k - 1) (by omega)]
      have a1 := hx (k - 1) (by omega)
      have a2 := hx k (by omega)
      rw [show k - 1 + 1 = k by omega] at a1
      have : x (k + 1) - x (k - 1) ≠ 0 := by
        have : 0 < x (k + 1) - x (k - 1) := by linarith
        exact this.ne'
      rw [div_eq_iff this]; ring
  cases meth with
  | parabola =>
    show parabola n h m k = s
    unfold parabola
    refine withEnds_line n m _ s hn hms (fun k h0 h1 => ?_) k hk
    have a := hpos (k - 1) (by omega)
    have b := hpos k h1
    have : h k + h (k - 1) ≠ 0 := by positivity
    rw [hms (k - 1) (by omega), hms k h1, div_eq_iff this]; ring
  | secant =>
    simp only [rawSlopes, secant, lineSlope]
    split_ifs
    · exact hms _ (by omega)
    · exact hms _ (by omega)
    · rw [hms (k - 1) (by omega), hms k (by omega)]; ring
  | cardinal => simp only [rawSlopes, lineSlope, hcat]
  | catmullRom => exact hcat
  | akima => exact akima_line eps garb n m s hn hms k
  | pchip => exact pchip_line n h m s (by omega) hpos hms k hk
  | stineman =>
    have hin : ∀ k, 0 < k → k + 1 < n → stinemanInner (h (k - 1)) (h k) (m (k - 1)) (m k) = s := by
      intro k h0 h1
      have a := hpos (k - 1) (by omega)
      have b := hpos k h1
      rw [hms (k - 1) (by omega), hms k h1]
      unfold stinemanInner
      have : h (k - 1) * h k ^ 2 * (1 + s ^ 2) + h k * h (k - 1) ^ 2 * (1 + s ^ 2) ≠ 0 := by positivity
      rw [div_eq_iff this]; ring
    have hw := withEnds_line n m (fun k => stinemanInner (h (k - 1)) (h k) (m (k - 1)) (m k)) s hn hms hin
    simp only [rawSlopes, stineman, lineSlope]
    split_ifs
    · rw [hw _ (by omega), hw _ (by omega), hms _ (by omega)]; simp [stinemanEnd]
    · rw [hw 1 (by omega), hw 0 (by omega), hms 0 (by omega)]; simp [stinemanEnd]
    · exact hw k hk
  | steffen =>
    have hs := hst rfl
    have hend : ∀ a b : α, 0 < a → 0 < b → steffenEnd a b s s = s := by
      intro a b ha hb
      have e : s * (1 + a / (a + b)) - s * (a / (a + b)) = s := by ring
      simp only [steffenEnd, e]
      rw [abs_of_nonneg hs, min_eq_right (by linarith)]
      have := sgn_mul_abs s
      rw [abs_of_nonneg hs] at this
      linear_combination this
    simp only [rawSlopes, steffen, lineSlope]
    split_ifs
    · rw [hms (n - 2) (by omega), hms (n - 3) (by omega)]
      exact hend _ _ (hpos _ (by omega)) (hpos _ (by omega))
    · rw [hms 0 (by omega), hms 1 (by omega)]
      exact hend _ _ (hpos _ (by omega)) (hpos _ (by omega))
    · have a := hpos (k - 1) (by omega)
      have b := hpos k (by omega)
      rw [hms (k - 1) (by omega), hms k (by omega), min_self]
      have e : 1 / 2 * |s * h k + s * h (k - 1)| / (h k + h (k - 1)) = 1 / 2 * |s| := by
        rw [← mul_add, abs_mul, abs_of_pos (show 0 < h k + h (k - 1) by positivity)]
        field_simp
      rw [e, min_eq_right (by have := abs_nonneg s; linarith)]
      linear_combination sgn_mul_abs s
  | fritsch =>
    have hp := pchip_line n h m s (by omega) hpos hms
    simp only [rawSlopes, fritsch, lineSlope]
    rw [if_neg (show ¬ n - 2 = 0 by omega), hp _ (by omega), hms 0 (by omega), hms _ (by omega), hp 1 (by omega)]
    split_ifs
    · ring
    · ring
    · exact hp k hk

theorem fix_line (rt : α → α) (n : ℕ) (m yp : ℕ → α) (s r : α) (hr : r = 0 ∨ 2 * r ^ 2 ≤ 9)
    (hm : ∀ j, j + 1 < n → m j = s) (hy : ∀ k, k < n → yp k = r * s) (k : ℕ) (hk : k < n) :
    fixMonotone rt n m yp k = r * s := by
  have hf : ∀ k, k < n → flatten n m yp k = r * s := by
    intro k hk
    simp only [flatten]
    split_ifs with c
    · rcases c with ⟨c1, c2⟩ | ⟨c1, c2⟩
      · rw [hm k c1] at c2; simp [c2]
      · rw [hm (k - 1) (by omega)] at c2; simp [c2]
    · exact hy k hk
  have hno : ∀ i, i + 1 < n → ¬ (decide (dist m (flatten n m yp) i > 9) = true) := by
    intro i hi h
    rw [decide_eq_true_eq] at h
    simp only [dist] at h
    rw [hf i (by omega), hf (i + 1) hi, hm i hi] at h
    by_cases hs : s = 0
    · simp [hs] at h
      exact absurd h (by norm_num)
    · rw [mul_div_cancel_right₀ _ hs] at h
      rcases hr with rfl | hr
      · norm_num at h
      · linarith
  have : (List.range (n - 1)).filter (fun i => decide (dist m (flatten n m yp) i > 9)) = [] := by
    rw [List.filter_eq_nil_iff]
    intro i hi
    exact hno i (by have := List.mem_range.1 hi; omega)
  simp only [fixMonotone]
  rw [this]
  exact hf k hk

/-- **C98 (partial)**  For at least three points on a straight line `y = s*x + c`, `slopes` returns the slope `s` at
every point (`(1 - tension)*s` for 'Cardinal' with a tension between 0 and 1), for every method except 'steffen' with a falling line, with
and without `monotone=True`.

Missing: falling lines with 'steffen' (`C71_steffen_refuted`), and two points with 'parabola', 'stineman' or 'akima'
(`C98_refuted`, `C98_akima_refuted`). -/
theorem C98_lines_partial (eps garb tension : α) (rt : α → α) (x y : List α) (s c : α) (meth : Method) (mono : Bool)
    (hx : x.Pairwise (· < ·)) (hn : 3 ≤ x.length) (hy : y = x.map fun t => s * t + c)
    (hst : meth = .steffen → 0 ≤ s) (ht : 0 ≤ tension ∧ tension ≤ 1) :
    slopes eps garb rt x y meth tension mono false = .ok (List.replicate x.length (lineSlope tension s meth)) := by
  have hyl : y.length = x.length := by rw [hy]; simp
  rw [slopes, if_neg (by simp), slopes0_ok eps garb rt x y meth tension mono hx hyl (by omega) (by intro; omega)]
  have hY : ∀ j, j < x.length → y.getD j 0 = s * x.getD j 0 + c := by
    intro j hj
    rw [List.getD_eq_getElem _ _ (by omega), List.getD_eq_getElem _ _ hj]; simp [hy]
  have hX : ∀ j, j + 1 < x.length → x.getD j 0 < x.getD (j + 1) 0 := fun j hj => sub_pos.1 (width_pos x hx j hj)
  have hraw := raw_line eps garb tension x.length (fun k => x.getD k 0) (fun k => y.getD k 0) (width x) (sec x y) s c
    meth hn hst hX (fun j _ => rfl) hY (fun j _ => rfl)
  have hsec : ∀ j, j + 1 < x.length → sec x y j = s := by
    intro j hj
    have := (width_pos x hx j hj).ne'
    unfold sec
    unfold width at this
    rw [hY j (by omega), hY (j + 1) hj, div_eq_iff this]; ring
  rw [Except.ok.injEq]
  apply List.ext_getElem (by simp)
  intro k h1 h2
  have h3 : k < x.length := by simpa using h1
  rw [List.getElem_map, List.getElem_range, List.getElem_replicate]
  cases mono with
  | false => simp only [Bool.false_eq_true, if_false]; exact hraw k h3
  | true =>
    rw [if_pos rfl]
    have : ∃ r, (r = 0 ∨ 2 * r ^ 2 ≤ 9) ∧ lineSlope tension s meth = r * s := by
      cases meth <;> simp only [lineSlope]
      case cardinal => exact ⟨1 - tension, .inr (by nlinarith), rfl⟩
      all_goals exact ⟨1, .inr (by norm_num), (one_mul s).symm⟩
    obtain ⟨r, hr, e⟩ := this
    rw [e]
    exact fix_line rt x.length _ _ s r hr hsec (fun k hk => by rw [hraw k hk, e]) k h3

end general

example : slopes (1 / 1000000000 : ℚ) 7 id [0, 1, 3] [5, 3, -1] .akima 0 false false = .ok [-2, -2, -2] := by
  decide +kernel

/-- **C98 refuted** for two points: 'parabola' and the default 'stineman' give 2 and 0, and 2 and 1/2, for the line through
(0, 0) and (1, 1). -/
theorem C98_refuted :
    slopes (1 / 1000000000 : ℚ) 0 id [0, 1] [0, 1] .parabola 0 false false = .ok [2, 0] ∧
    slopes (1 / 1000000000 : ℚ) 0 id [0, 1] [0, 1] .stineman 0 false false = .ok [2, 1 / 2] := by
  decide +kernel

/-- **C98 refuted** for 'akima' with two points: the result depends on the content of unset memory. -/
theorem C98_akima_refuted :
    slopes (1 / 1000000000 : ℚ) 1 id [0, 1] [0, 1] .akima 0 false false = .ok [1, 1] ∧
    slopes (1 / 1000000000 : ℚ) 5 id [0, 1] [0, 1] .akima 0 false false ≠ .ok [1, 1] := by
  decide +kernel

end Wafo.Slopes
