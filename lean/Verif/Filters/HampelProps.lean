import Verif.Filters.HampelLemmas
import Mathlib.Algebra.Field.Rat
import Mathlib.Algebra.Order.Ring.Rat
import Mathlib.Tactic.NormNum

set_option linter.unusedSectionVars false

/-!
# `HampelFilter`: outliers are replaced by the local median; errors and the adaptive search
-/

namespace Wafo.Hampel

variable {α : Type*} [Field α] [LinearOrder α] [IsStrictOrderedRing α]

/-- Specification: the values whose abscissa is at most `d` from `xi`. -/
def near (X Y : List α) (d xi : α) : List α :=
  ((X.zip Y).filter fun p => decide (|p.1 - xi| ≤ d)).map Prod.snd

section helpers

theorem window_eq (X Y : List α) (d xi : α) : window X Y d xi = near X Y d xi := by
  unfold window near
  congr 1
  refine List.filter_congr fun p _ => ?_
  rw [← Bool.decide_and, decide_eq_decide, abs_le]
  constructor
  · rintro ⟨h1, h2⟩; constructor <;> linarith
  · rintro ⟨h1, h2⟩; constructor <;> linarith

theorem near_ne_nil {X Y : List α} {d : α} (hd : 0 ≤ d) {i : ℕ} (hX : i < X.length)
    (hY : i < Y.length) : near X Y d X[i] ≠ [] := by
  have hz : (X[i], Y[i]) ∈ X.zip Y := by
    rw [← List.getElem_zip (h := by rw [List.length_zip]; omega)]
    exact List.getElem_mem _
  exact List.ne_nil_of_mem (a := Y[i]) (List.mem_map.2 ⟨(X[i], Y[i]),
    List.mem_filter.2 ⟨hz, by simpa using hd⟩, rfl⟩)

theorem localWindow_spec {X Y : List α} {d xi : α} (h : near X Y d xi ≠ []) :
    ∃ y0 mad, localWindow X Y d xi = some (y0, 14826 / 10000 * mad) ∧
      IsMedian (near X Y d xi) y0 ∧ IsMedian ((near X Y d xi).map fun y => |y - y0|) mad := by
  obtain ⟨y0, h1, m1⟩ := npMedian_spec h
  obtain ⟨mad, h2, m2⟩ := npMedian_spec (l := (near X Y d xi).map fun y => |y - y0|) (by simpa using h)
  refine ⟨y0, mad, ?_, m1, m2⟩
  simp [localWindow, window_eq, h1, h2]

theorem call_fixed {d T : α} {X Y : List α} (hd : 0 < d) (hlen : X.length = Y.length)
    (h2 : 2 ≤ Y.length) :
    call (some d) T Y (some X) = .ok (output T Y (fixedParams X Y d)) := by
  have : Y ≠ [] := by rintro rfl; simp at h2
  simp [call, effDx, hd, hlen, this, show ¬ Y.length ≤ 1 by omega]

theorem mad_nonneg {l : List α} {y0 mad : α} (h : IsMedian (l.map fun y => |y - y0|) mad) :
    0 ≤ mad :=
  h.nonneg fun y hy => by
    obtain ⟨z, -, rfl⟩ := List.mem_map.1 hy
    exact abs_nonneg _

end helpers

/-- **C336.** For two or more values and a positive window, every value of the result is the original value
when it is within `t` times 1.4826 times the median absolute deviation of the median
of its window, and that median otherwise; the outlier mask says which. -/
theorem C336_result {d T : α} {X Y : List α} (hd : 0 < d) (hlen : X.length = Y.length)
    (h2 : 2 ≤ Y.length) :
    ∃ r, call (some d) T Y (some X) = .ok r ∧ r.YY.length = Y.length ∧
      ∀ i (hi : i < Y.length), ∃ y0 mad, IsMedian (near X Y d (X[i]'(by omega))) y0 ∧
        IsMedian ((near X Y d (X[i]'(by omega))).map fun y => |y - y0|) mad ∧
        r.Y0[i]? = some (some y0) ∧
        r.YY[i]? = some (if |Y[i] - y0| ≤ T * (14826 / 10000 * mad) then Y[i] else y0) ∧
        r.outliers[i]? = some (decide (T * (14826 / 10000 * mad) < |Y[i] - y0|)) := by
  refine ⟨_, call_fixed hd hlen h2, by simp [output, fixedParams, hlen], fun i hi => ?_⟩
  have hiX : i < X.length := by omega
  obtain ⟨y0, mad, e, m1, m2⟩ := localWindow_spec (near_ne_nil hd.le hiX hi)
  refine ⟨y0, mad, m1, m2, ?_, ?_, ?_⟩
  · simp [output, fixedParams, List.getElem?_eq_getElem hiX, e]
  · simp only [output, fixedParams, List.getElem?_map, List.getElem?_zip_eq_some,
      List.getElem?_eq_getElem hi, List.getElem?_eq_getElem hiX]
    rw [List.getElem?_eq_getElem (by simp [hlen]; omega)]
    simp only [List.getElem_zip, List.getElem_map, Option.map_some, e, replaced, isOutlier]
    by_cases hle : |Y[i] - y0| ≤ T * (14826 / 10000 * mad)
    · simp [hle, not_lt.2 hle]
    · simp [hle, not_le.1 hle]
  · simp only [output, fixedParams, List.getElem?_map]
    rw [List.getElem?_eq_getElem (by simp [hlen]; omega)]
    simp only [List.getElem_zip, List.getElem_map, Option.map_some, e, isOutlier]

/-- **C336.** With `t ≥ 0` the result lies within the documented bounds `Y0 - t S0` and `Y0 + t S0`. -/
theorem C336_within_bounds {d T : α} {X Y : List α} (hd : 0 < d) (hT : 0 ≤ T)
    (hlen : X.length = Y.length) (h2 : 2 ≤ Y.length) :
    ∃ r, call (some d) T Y (some X) = .ok r ∧ ∀ i (hi : i < Y.length), ∃ y0 mad v,
      IsMedian (near X Y d (X[i]'(by omega))) y0 ∧
      IsMedian ((near X Y d (X[i]'(by omega))).map fun y => |y - y0|) mad ∧
      r.YY[i]? = some v ∧ y0 - T * (14826 / 10000 * mad) ≤ v ∧
      v ≤ y0 + T * (14826 / 10000 * mad) := by
  obtain ⟨r, hr, -, h⟩ := C336_result (T := T) hd hlen h2
  refine ⟨r, hr, fun i hi => ?_⟩
  obtain ⟨y0, mad, m1, m2, -, hv, -⟩ := h i hi
  refine ⟨y0, mad, _, m1, m2, hv, ?_⟩
  have hs : 0 ≤ T * (14826 / 10000 * mad) := mul_nonneg hT (mul_nonneg (by norm_num) (mad_nonneg m2))
  split_ifs with hle
  · have := abs_le.1 hle
    constructor <;> linarith [this.1, this.2]
  · constructor <;> linarith

/-- **C337.** With `t = 0` the filter is the median filter (as the docstring says). -/
theorem C337_t_zero_is_median {d : α} {X Y : List α} (hd : 0 < d) (hlen : X.length = Y.length)
    (h2 : 2 ≤ Y.length) :
    ∃ r, call (some d) 0 Y (some X) = .ok r ∧ ∀ i (hi : i < Y.length), ∃ y0,
      IsMedian (near X Y d (X[i]'(by omega))) y0 ∧ r.YY[i]? = some y0 := by
  obtain ⟨r, hr, -, h⟩ := C336_result (T := (0 : α)) hd hlen h2
  refine ⟨r, hr, fun i hi => ?_⟩
  obtain ⟨y0, mad, m1, -, -, hv, -⟩ := h i hi
  refine ⟨y0, m1, ?_⟩
  rw [hv]
  split_ifs with hle
  · rw [zero_mul] at hle
    have := abs_nonpos_iff.1 hle
    rw [sub_eq_zero.1 this]
  · rfl

/-- **C337.** A value which more than half of the window has replaces everything else in it,
whatever `t`. -/
theorem C337_majority {d T : α} {X Y : List α} (hd : 0 < d) (hlen : X.length = Y.length)
    (h2 : 2 ≤ Y.length) (i : ℕ) (hi : i < Y.length) (c : α)
    (hc : (near X Y d (X[i]'(by omega))).length
      < 2 * (near X Y d (X[i]'(by omega))).countP (fun y => decide (y = c))) :
    ∃ r, call (some d) T Y (some X) = .ok r ∧ r.YY[i]? = some c := by
  obtain ⟨r, hr, -, h⟩ := C336_result (T := T) hd hlen h2
  refine ⟨r, hr, ?_⟩
  obtain ⟨y0, mad, m1, m2, -, hv, -⟩ := h i hi
  have e0 : y0 = c := m1.majority hc
  subst e0
  have em : mad = 0 := by
    refine m2.majority ?_
    rw [List.length_map, List.countP_map]
    refine hc.trans_le (Nat.mul_le_mul_left 2 (List.countP_mono_left fun y _ hy => ?_))
    simp only [decide_eq_true_eq] at hy
    simp [hy]
  rw [hv, em]
  split_ifs with hle
  · rw [mul_zero, mul_zero] at hle
    rw [sub_eq_zero.1 (abs_nonpos_iff.1 hle)]
  · rfl

/-- Non-trivial case for C336 and C337: a spike is removed. -/
example : (call (some (2 : ℚ)) 3 [1, 1, 9, 1, 1] (some [0, 1, 2, 3, 4])).toOption.map Result.YY
    = some [1, 1, 1, 1, 1] := by decide +kernel

section equivariance

theorem near_map (X Y : List α) (d xi : α) (f : α → α) :
    near X (Y.map f) d xi = (near X Y d xi).map f := by
  unfold near
  rw [List.zip_map_right, List.filter_map, List.map_map, List.map_map]
  congr 1

theorem localWindow_affine (X Y : List α) (d xi : α) {c : α} (hc : c ≠ 0) (e : α) :
    localWindow X (Y.map fun y => c * y + e) d xi
      = (localWindow X Y d xi).map fun p => (c * p.1 + e, |c| * p.2) := by
  simp only [localWindow, window_eq, near_map, npMedian_affine _ hc]
  cases npMedian (near X Y d xi) with
  | none => rfl
  | some y0 =>
    have : (List.map (fun y => |y - (c * y0 + e)|) (List.map (fun y => c * y + e) (near X Y d xi)))
        = ((near X Y d xi).map fun y => |y - y0|).map fun y => |c| * y + 0 := by
      rw [List.map_map, List.map_map]
      refine List.map_congr_left fun y _ => ?_
      simp only [Function.comp]
      rw [add_zero, ← abs_mul]
      congr 1; ring
    simp only [Option.map_some, Option.bind_some, this, npMedian_affine _ (abs_ne_zero.2 hc),
      Option.map_map]
    congr 1
    funext m
    simp only [Function.comp, Prod.mk.injEq, true_and]
    ring

end equivariance

/-- **C338.** The filter follows changes of unit, sign and origin of the data: it commutes with
`y ↦ c y + e` for `c ≠ 0`, and finds the same outliers. -/
theorem C338_affine {d T : α} {X Y : List α} (hd : 0 < d) (hlen : X.length = Y.length)
    (h2 : 2 ≤ Y.length) {c : α} (hc : c ≠ 0) (e : α) :
    ∃ r r', call (some d) T Y (some X) = .ok r ∧
      call (some d) T (Y.map fun y => c * y + e) (some X) = .ok r' ∧
      r'.YY = (r.YY.map fun y => c * y + e) ∧ r'.outliers = r.outliers := by
  refine ⟨_, _, call_fixed hd hlen h2, call_fixed hd (by simpa using hlen) (by simpa using h2), ?_, ?_⟩
  all_goals
    have hp : fixedParams X (Y.map fun y => c * y + e) d
        = (fixedParams X Y d).map (Option.map fun p => (c * p.1 + e, |c| * p.2)) := by
      simp only [fixedParams, List.map_map]
      exact List.map_congr_left fun xi _ => localWindow_affine X Y d xi hc e
    have hout : ∀ (y : α) (w : Option (α × α)),
        isOutlier T (c * y + e) (w.map fun p => (c * p.1 + e, |c| * p.2)) = isOutlier T y w := by
      intro y w
      cases w with
      | none => rfl
      | some p =>
        obtain ⟨y0, s0⟩ := p
        simp only [Option.map_some, isOutlier, decide_eq_decide]
        have h1 : |c * y + e - (c * y0 + e)| = |c| * |y - y0| := by
          rw [← abs_mul]; congr 1; ring
        rw [h1, mul_left_comm, mul_lt_mul_iff_of_pos_left (abs_pos.2 hc)]
    simp only [output, hp, List.zip_map, List.map_map]
    refine List.map_congr_left fun p _ => ?_
    obtain ⟨y, w⟩ := p
    simp only [Function.comp, Prod.map]
  · cases w with
    | none => rfl
    | some q =>
      have := hout y (some q)
      obtain ⟨y0, s0⟩ := q
      simp only [Option.map_some, replaced] at this ⊢
      simp only [this]
      split_ifs <;> rfl
  · exact hout y w

/-- Non-trivial case for C338. -/
example : (call (some (2 : ℚ)) 3 [-1, -1, -17, -1, -1] (some [0, 1, 2, 3, 4])).toOption.map
    Result.YY = some [-1, -1, -1, -1, -1] := by decide +kernel

section errors

theorem diff_pos {X : List α} (h : X.Pairwise (· < ·)) : ∀ y ∈ diff X, 0 < y := by
  induction X with
  | nil => simp [diff]
  | cons a l ih =>
    cases l with
    | nil => simp [diff]
    | cons b l =>
      simp only [diff, List.mem_cons, forall_eq_or_imp]
      rw [List.pairwise_cons] at h
      exact ⟨sub_pos.2 (h.1 b (by simp)), ih h.2⟩

theorem diff_neg {X : List α} (h : X.Pairwise (fun a b => b < a)) : ∀ y ∈ diff X, y < 0 := by
  induction X with
  | nil => simp [diff]
  | cons a l ih =>
    cases l with
    | nil => simp [diff]
    | cons b l =>
      simp only [diff, List.mem_cons, forall_eq_or_imp]
      rw [List.pairwise_cons] at h
      exact ⟨sub_neg.2 (h.1 b (by simp)), ih h.2⟩

theorem diff_ne_nil {X : List α} (h : 2 ≤ X.length) : diff X ≠ [] := by
  rcases X with - | ⟨a, - | ⟨b, l⟩⟩
  · simp at h
  · simp at h
  · simp [diff]

end errors

/-- **C339.** With the default window, increasing abscissas never fail, and decreasing ones always
do. -/
theorem C339_default_window {T : α} {X Y : List α} (hlen : X.length = Y.length)
    (h2 : 2 ≤ Y.length) :
    (X.Pairwise (· < ·) → ∃ r, call none T Y (some X) = .ok r) ∧
    (X.Pairwise (fun a b => b < a) → call none T Y (some X) = .error .valueError) := by
  obtain ⟨m, hm, a, b, rfl, ha, hb, -⟩ := npMedian_spec (diff_ne_nil (X := X) (by omega))
  have hY : Y ≠ [] := by rintro rfl; simp at h2
  constructor
  · intro h
    have := diff_pos h a ha
    have := diff_pos h b hb
    have hp : 0 < 3 * ((a + b) / 2) := by linarith
    exact ⟨output T Y (fixedParams X Y (3 * ((a + b) / 2))), by
      simp [call, effDx, hm, hp, hlen, hY, show ¬ Y.length ≤ 1 by omega]⟩
  · intro h
    have := diff_neg h a ha
    have := diff_neg h b hb
    have hp : ¬ 0 < 3 * ((a + b) / 2) := by linarith
    simp [call, effDx, hm, hp]

/-- **C339.** A single value: with a given window it is returned, but with the default window
`ValueError` is raised, since the median of no differences is NaN. -/
theorem C339_single_value_refuted (T y : α) :
    (∀ d : α, 0 < d → ∃ r, call (some d) T [y] none = .ok r ∧ r.YY = [y]) ∧
    call none T [y] none = .error .valueError := by
  constructor
  · intro d hd
    exact ⟨output T [y] [none], by simp [call, effDx, hd], by simp [output, replaced]⟩
  · simp [call, effDx, diff, npMedian]

section adaptive

theorem searchFrom_ok {adaptive : α} (ha : 0 ≤ adaptive) (a : Option α) (j : ℕ)
    (l : List (Option α)) (b : Option α) (hl : (a :: l).reverse.take 2 = [b, b]) :
    ∃ k, searchFrom adaptive a j l = .ok k ∧ j + 1 ≤ k ∧ k ≤ j + l.length := by
  have self : ∀ s : Option α, goesOn adaptive s s = false := by
    intro s
    cases s with
    | none => rfl
    | some s =>
      simp only [goesOn, sub_self, zero_div, abs_zero]
      split_ifs
      · rfl
      · simpa using ha
  induction l generalizing a j with
  | nil => simp at hl
  | cons s rest ih =>
    simp only [searchFrom]
    by_cases hg : goesOn adaptive a s = true
    · rw [if_pos hg]
      cases rest with
      | nil =>
        simp only [List.reverse_cons, List.reverse_nil, List.nil_append, List.singleton_append,
          List.take_succ_cons, List.take_zero, List.cons.injEq, and_true] at hl
        obtain ⟨rfl, rfl⟩ := hl
        rw [self] at hg
        exact absurd hg (by simp)
      | cons s' rest' =>
        obtain ⟨k, h1, h2, h3⟩ := ih s (j + 1) (by
          rw [List.reverse_cons, List.take_append_of_le_length (by simp)] at hl
          exact hl)
        exact ⟨k, h1, by omega, by simp only [List.length_cons] at h3 ⊢; omega⟩
    · rw [if_neg hg]
      exact ⟨j + 1, rfl, le_rfl, by simp only [List.length_cons]; omega⟩

theorem near_all {X Y : List α} {d xi : α} (h : ∀ x ∈ X, |x - xi| ≤ d) :
    near X Y d xi = (X.zip Y).map Prod.snd := by
  unfold near
  rw [List.filter_eq_self.2]
  intro p hp
  simpa using h p.1 (List.of_mem_zip (a := p.1) (b := p.2) hp).1

end adaptive

/-- **C340.** The search for the window of the adaptive filter ends without error, with a window
other than the last, when `adaptive ≥ 0` and `n - 1` steps of `dx` reach all the data. -/
theorem C340_search_ends_partial {adaptive dx xi : α} {X Y : List α} (ha : 0 ≤ adaptive)
    (hdx : 0 ≤ dx) (h2 : 2 ≤ Y.length)
    (hr : ∀ x ∈ X, |x - xi| ≤ ((Y.length : α) - 1) * dx) :
    ∃ k, chosen adaptive X Y dx xi = .ok k ∧ k + 1 < Y.length := by
  obtain ⟨n, hn⟩ : ∃ n, Y.length = n + 2 := ⟨Y.length - 2, by omega⟩
  have eloc : ∀ d d' : α, (∀ x ∈ X, |x - xi| ≤ d) → (∀ x ∈ X, |x - xi| ≤ d') →
      localWindow X Y d xi = localWindow X Y d' xi := by
    intro d d' h h'
    simp only [localWindow, window_eq, near_all h, near_all h']
  have e1 : localWindow X Y (((n + 1 : ℕ) : α) * dx + dx) xi
      = localWindow X Y (((n : ℕ) : α) * dx + dx) xi := by
    have base : ∀ x ∈ X, |x - xi| ≤ (n : α) * dx + dx := fun x hx => by
      have := hr x hx
      rw [hn] at this
      push_cast at this
      linarith
    refine eloc _ _ (fun x hx => ?_) base
    have := base x hx
    push_cast
    linarith
  have hsc : scales X Y dx xi = (localWindow X Y (((0 : ℕ) : α) * dx + dx) xi).map Prod.snd ::
      (List.range (n + 1)).map fun j : ℕ =>
        (localWindow X Y (((j + 1 : ℕ) : α) * dx + dx) xi).map Prod.snd := by
    simp only [scales, hn, List.range_succ_eq_map (n := n + 1), List.map_cons, List.map_map]
    congr 1
    · congr 2; ring
    · refine List.map_congr_left fun j _ => ?_
      simp only [Function.comp]
      congr 2
      push_cast; ring
  obtain ⟨k, hk, h3, h4⟩ := searchFrom_ok ha
    ((localWindow X Y (((0 : ℕ) : α) * dx + dx) xi).map Prod.snd) 1
    ((List.range (n + 1)).map fun j : ℕ =>
        (localWindow X Y (((j + 1 : ℕ) : α) * dx + dx) xi).map Prod.snd)
    ((localWindow X Y (((n : ℕ) : α) * dx + dx) xi).map Prod.snd) (by
      rw [← e1]
      cases n with
      | zero =>
        simp only [zero_add, List.range_one, List.map_cons, List.map_nil, List.reverse_cons,
          List.reverse_nil, List.nil_append, List.singleton_append, List.take_succ_cons,
          List.take_zero]
        rw [e1]
      | succ n =>
        rw [List.range_succ, List.range_succ]
        simp only [List.map_append, List.map_cons, List.map_nil, List.reverse_cons,
          List.reverse_append, List.reverse_nil, List.nil_append, List.singleton_append,
          List.cons_append, List.take_succ_cons, List.take_zero]
        rw [e1])
  refine ⟨k - 2, by rw [chosen, hsc]; simp only [search]; rw [hk]; rfl, ?_⟩
  simp only [List.length_map, List.length_range] at h4
  omega

/-- **C340.** Without that condition the search can run past its table and raise `IndexError`:
two values one apart with `dx = 1/2`, for every `adaptive` below one half. -/
theorem C340_index_error_refuted (adaptive : ℚ) (h : adaptive < 1 / 2) :
    chosen adaptive [0, 1] [0, 1] (1 / 2) 0 = .error .indexError := by
  have e : scales [0, 1] [0, 1] (1 / 2) (0 : ℚ) = [some 0, some (7413 / 10000)] := by decide +kernel
  have g : goesOn adaptive (some 0) (some (7413 / 10000)) = true := by
    have : |(0 - 7413 / 10000 : ℚ) / (0 + 7413 / 10000) / 2| = 1 / 2 := by norm_num [abs_div]
    simp only [goesOn, this]
    norm_num
    linarith
  rw [chosen, e]
  simp only [search, searchFrom, g, if_true, Except.bind]

/-- **C340.** The relative change is measured on a scale where it is at most one half, so with
`adaptive ≥ 1/2` the window is always the first. -/
theorem C340_half_is_never_exceeded {adaptive dx xi : α} {X Y : List α} (ha : 1 / 2 ≤ adaptive)
    (h2 : 2 ≤ Y.length) : chosen adaptive X Y dx xi = .ok 0 := by
  have hnn : ∀ d s, (localWindow X Y d xi).map Prod.snd = some s → 0 ≤ s := by
    intro d s h
    by_cases hne : near X Y d xi = []
    · simp [localWindow, window_eq, hne, npMedian] at h
    · obtain ⟨y0, mad, e, -, m2⟩ := localWindow_spec hne
      rw [e] at h
      simp only [Option.map_some, Option.some.injEq] at h
      rw [← h]
      exact mul_nonneg (by norm_num) (mad_nonneg m2)
  have stop : ∀ d d', goesOn adaptive ((localWindow X Y d xi).map Prod.snd)
      ((localWindow X Y d' xi).map Prod.snd) = false := by
    intro d d'
    have ga := hnn d
    have gb := hnn d'
    cases hA : (localWindow X Y d xi).map Prod.snd with
    | none => rfl
    | some a =>
      cases hB : (localWindow X Y d' xi).map Prod.snd with
      | none => rfl
      | some b =>
        have ha' := ga a hA
        have hb' := gb b hB
        simp only [goesOn]
        split_ifs with h0
        · rfl
        · have hs : 0 < a + b := lt_of_le_of_ne (by linarith) (Ne.symm h0)
          rw [decide_eq_false_iff_not, not_lt]
          refine le_trans ?_ ha
          rw [abs_div, abs_div, abs_of_pos hs, abs_of_pos (by norm_num : (0 : α) < 2)]
          have : |a - b| / (a + b) ≤ 1 := by
            rw [div_le_one hs, abs_le]
            constructor <;> linarith
          linarith
  obtain ⟨n, hn⟩ : ∃ n, Y.length = n + 2 := ⟨Y.length - 2, by omega⟩
  simp only [chosen, scales, hn, List.range_succ_eq_map, List.map_cons, search, searchFrom, stop,
    Except.bind, Bool.false_eq_true, if_false]

end Wafo.Hampel
