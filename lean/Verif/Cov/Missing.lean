import Verif.Cov.Estimate

/-! Properties C173-C175: scaling, missing values and the default lag of the autocovariance function of a time series. -/

set_option linter.unusedSectionVars false

namespace Wafo.Cov
open Finset

noncomputable section

section gen
variable {α : Type} [Field α] [DecidableEq α]

theorem mapM_ok {β γ : Type} (f : β → Except PyErr γ) (g : β → γ) : ∀ l : List β, (∀ a ∈ l, f a = .ok (g a)) →
    l.mapM f = .ok (l.map g)
  | [], _ => rfl
  | a :: l, h => by
    rw [List.mapM_cons, h a (by simp), mapM_ok f g l fun b hb => h b (by simp [hb])]
    rfl

theorem picked_ok (a b : Option α) (x : List (Option α)) :
    picked (a :: b :: x) = .ok ((a :: b :: x).map fun v => if v.isNone then a else b) := by
  unfold picked
  apply mapM_ok
  intro v _
  cases v <;> rfl

theorem center_ok (x : List (Option α)) (h : 2 ≤ x.length) :
    ∃ c, center x = .ok (c, x.length - x.countP Option.isNone) := by
  match x, h with
  | a :: b :: x, _ =>
    unfold center
    split
    · rw [picked_ok]
      exact ⟨_, rfl⟩
    · next h0 =>
      have : (a :: b :: x).countP Option.isNone = 0 := by
        rw [List.countP_eq_zero]
        intro v hv hv'
        exact h0 (List.any_eq_true.2 ⟨v, hv, hv'⟩)
      rw [this]
      exact ⟨_, rfl⟩
end gen

theorem autoCovO_length (x : List (Option ℝ)) (n ncens : ℕ) : (autoCovO x n ncens).length = pow2 n := by
  unfold autoCovO
  split
  · split <;> simp [autoCov_length]
  · simp

/-- The number of observed values. -/
def observed (x : List (Option ℝ)) : ℕ := x.length - x.countP Option.isNone

theorem unbiased_error (r : List (Option ℝ)) (c : ℕ) (hc : 3 ≤ c) (hr : c ≤ r.length) : unbiased r c = .error .valueError := by
  unfold unbiased bmul
  have h1 : ((r.take c).map fun v => v.map (· * (c : ℝ))).length = c := by simp; omega
  have h2 : ((List.range (c - 1)).map fun i : ℕ => 1 / ((c : ℝ) - i)).length = c - 1 := by simp
  rw [if_neg (by rw [h1, h2]; omega)]
  generalize ((r.take c).map fun v => v.map (· * (c : ℝ))) = a at h1
  generalize ((List.range (c - 1)).map fun i : ℕ => 1 / ((c : ℝ) - i)) = b at h2
  match a, b, h1, h2 with
  | [], _, h1, _ => simp at h1; omega
  | [_], _, h1, _ => simp at h1; omega
  | _ :: _ :: _, [], _, h2 => simp at h2; omega
  | _ :: _ :: _, [_], _, h2 => simp at h2; omega
  | _ :: _ :: _, _ :: _ :: _, _, _ => rfl

/-! ### Properties -/

/-- The unbiased estimate is never returned: with three or more observed values the lengths of the two arrays of the division differ
by one and a ValueError is raised, for every lag, window and normalization. -/
theorem C173_unbiased_refuted (e : Estimator) (he : e.unbiased = true) (x : List (Option ℝ)) (h : 3 ≤ observed x) (dt : ℝ) :
    tocovdata e x dt = .error .valueError := by
  have hl : 3 ≤ x.length := by unfold observed at h; omega
  obtain ⟨c, hc⟩ := center_ok x (by omega)
  unfold tocovdata rawAcf
  rw [hc, he]
  have hu : unbiased (autoCovO c x.length (x.length - x.countP Option.isNone)) (x.length - x.countP Option.isNone) =
      .error .valueError := by
    apply unbiased_error _ _ h
    rw [autoCovO_length]
    have := le_pow2 x.length (by omega)
    exact (Nat.sub_le _ _).trans this
  simp only [bind, Except.bind, if_true, hu]

example : 3 ≤ observed [some 1, none, some 2, some (5 : ℝ)] := by decide +kernel

/-- The normalized estimate is the plain one divided by the variance, if the series is not constant. -/
theorem C173_normalized (x : List ℝ) (lag : ℕ) (hlag : 1 ≤ lag) (hn : 3 ≤ x.length) (dt : ℝ) (hv : biased x 0 ≠ 0) :
    ∃ out, tocovdata { plain lag boxcar with norm := true } (x.map some) dt = .ok out ∧
      (∀ l < min lag (x.length - 2), out.data[l]? = some (some ((biased x l + biased x (pow2 x.length - l)) / biased x 0))) ∧
      out.data[0]? = some (some 1) := by
  have hne : x ≠ [] := by intro h; simp [h] at hn
  have hp := le_pow2 x.length (by omega)
  set e : Estimator := { plain (lag : ℤ) boxcar with norm := true } with he
  set a := autoCov (x.map fun a => a - x.sum / x.length) x.length x.length with ha
  have hget : ∀ l < pow2 x.length, a[l]? = some (biased x l + biased x (pow2 x.length - l)) := by
    intro l hl
    rw [ha, autoCov_get _ _ _ (by simpa using hp) l hl]
    simp only [List.length_map]
    rw [add_div, lagSum_biased, lagSum_biased]
  have h00 : biased x (pow2 x.length - 0) = 0 := by
    unfold biased
    rw [show x.length - (pow2 x.length - 0) = 0 by omega]
    simp
  have hraw : rawAcf e (x.map some) = .ok (a.map fun v => some (v / biased x 0), x.length) := by
    have h1 := rawAcf_plain (plain lag boxcar) rfl rfl x hne
    unfold rawAcf at h1 ⊢
    rw [center_some x hne] at h1 ⊢
    have h2 : autoCovO ((x.map fun a => a - x.sum / x.length).map some) (x.map some).length x.length = a.map some :=
      congrArg Prod.fst (Except.ok.inj h1)
    have h3 : normalized (a.map some) = .ok (a.map fun v => some (v / biased x 0)) := by
      unfold normalized item
      rw [List.getElem?_map, hget 0 (pow2_pos _), h00, add_zero]
      simp [hv, bind, Except.bind]
    have e1 : e.unbiased = false := rfl
    have e2 : e.norm = true := rfl
    simp only [bind, Except.bind, e1, e2, if_true, h2, h3]
    rfl
  set L := min lag (x.length - 2) with hL
  have hLi : (min (lag : ℤ) ((x.length : ℤ) - 2)) = (L : ℤ) := by rw [hL]; omega
  set r := a.map fun v => some (v / biased x 0) with hr
  have hrl : r.length = pow2 x.length := by rw [hr, List.length_map, ha, autoCov_length]
  have hL1 : 1 ≤ L := by rw [hL]; omega
  have hww : (e.window (2 * L - 1)).length = 2 * L - 1 := by
    show (boxcar (2 * L - 1)).length = _
    simp [boxcar]
  have key : tocovdata e (x.map some) dt = windowed e r x.length (L : ℤ) dt := by
    unfold tocovdata
    rw [hraw]
    have : chooseLag e r (x.map some).length x.length = .ok (L : ℤ) := by
      rw [← hLi, List.length_map]; rfl
    simp only [bind, Except.bind, this]
  have hok := windowed_ok e r x.length L dt hL1 (by omega) hww
  have hdata : ∀ l < L, ∀ rest, (List.zipWith (fun (a : Option ℝ) y => a.map (· * y)) (r.take L)
      ((e.window (2 * L - 1)).drop (L - 1)) ++ rest)[l]? =
      some (some ((biased x l + biased x (pow2 x.length - l)) / biased x 0)) := by
    intro l hl rest
    rw [zip_get r _ L l hl ((biased x l + biased x (pow2 x.length - l)) / biased x 0) 1 ?_ ?_ rest, mul_one]
    · rw [hr, List.getElem?_map, hget l (by omega)]; rfl
    · rw [List.getElem?_drop]
      show (boxcar (2 * L - 1))[L - 1 + l]? = some 1
      unfold boxcar
      rw [List.getElem?_replicate, if_pos (by omega)]
  refine ⟨_, key.trans hok, fun l hl => hdata l hl _, ?_⟩
  rw [hdata 0 (by omega), h00, add_zero, div_self hv]

example : biased [1, 2, 4] 0 ≠ 0 := by
  unfold biased meanOf
  norm_num [sum_range_succ]

/-- Without missing values the mean of the series is subtracted. -/
theorem C174_mean_partial {α : Type} [Field α] [CharZero α] [DecidableEq α] (v : List α) (h : v ≠ []) :
    ∃ c, center (v.map some) = .ok (List.map some c, v.length) ∧ c.sum = 0 ∧
      ∃ m, c = v.map (fun a => a - m) := by
  refine ⟨_, center_some v h, ?_, _, rfl⟩
  have hl : (v.length : α) ≠ 0 := by
    have : v.length ≠ 0 := by simpa using h
    exact_mod_cast this
  have : ∀ (m : α) (l : List α), (l.map fun a => a - m).sum = l.sum - l.length * m := by
    intro m l
    induction l with
    | nil => simp
    | cons a l ih => simp [ih]; ring
  rw [this]
  field_simp
  ring

example : ([3, 4, 8] : List ℚ) ≠ [] ∧ (center (([3, 4, 8] : List ℚ).map some)).map (fun p => p.1) =
    .ok [some (-2), some (-1), some 3] := by
  constructor
  · simp
  · decide +kernel

/-- With missing values, the first two values being observed, a weighted mean of these two is subtracted: the first one counts once for
each missing value, the second one once for each observed value. -/
theorem C174_missing {α : Type} [Field α] [DecidableEq α] (a b : α) (x : List (Option α))
    (hm : none ∈ x) :
    center (some a :: some b :: x) = .ok ((some a :: some b :: x).map (fun v => match v with
        | none => some 0
        | some y => some (y - (x.countP Option.isNone * a + (x.length + 2 - x.countP Option.isNone : ℕ) * b) / (x.length + 2 : ℕ))),
      x.length + 2 - x.countP Option.isNone) := by
  have hsum : ∀ l : List (Option α), (l.map fun v => if v.isNone then a else b).sum =
      l.countP Option.isNone * a + (l.length - l.countP Option.isNone : ℕ) * b := by
    intro l
    induction l with
    | nil => simp
    | cons v l ih =>
      have hle := List.countP_le_length (p := Option.isNone) (l := l)
      cases v with
      | none =>
        simp only [List.map_cons, List.sum_cons, ih, Option.isNone_none, if_true, List.countP_cons, List.length_cons]
        rw [show l.length + 1 - (l.countP Option.isNone + 1) = l.length - l.countP Option.isNone by omega]
        push_cast; ring
      | some v =>
        simp only [List.map_cons, List.sum_cons, ih, Option.isNone_some, Bool.false_eq_true, if_false, List.countP_cons,
          List.length_cons, Nat.add_zero]
        rw [show l.length + 1 - l.countP Option.isNone = l.length - l.countP Option.isNone + 1 by omega]
        push_cast; ring
  have hany : (some a :: some b :: x).any Option.isNone = true := List.any_eq_true.2 ⟨none, by simp [hm], rfl⟩
  have hp : picked (some a :: some b :: x) =
      .ok (((some a :: some b :: x).map fun v => if v.isNone then a else b).map some) := by
    rw [picked_ok, List.map_map]
    congr 1
    refine List.map_congr_left fun v _ => ?_
    cases v <;> rfl
  have hc : (some a :: some b :: x).countP Option.isNone = x.countP Option.isNone := by simp
  have hmean : meanO (((some a :: some b :: x).map fun v => if v.isNone then a else b).map some) =
      some ((x.countP Option.isNone * a + (x.length + 2 - x.countP Option.isNone : ℕ) * b) / (x.length + 2 : ℕ)) := by
    rw [meanO_some _ (by simp), hsum, hc]
    simp only [List.length_map, List.length_cons]
  unfold center
  rw [if_pos hany, hp]
  simp only [bind, Except.bind, hmean, hc, List.length_cons]
  rfl

/-- The mean of the observed values is not what is subtracted: the observed values 1, 3 and 5 are changed by 5/2, not by 3, so that
their centred values do not sum to zero. -/
theorem C174_missing_refuted : ∃ (x : List (Option ℚ)) (c : List (Option ℚ)) (n : ℕ), center x = .ok (c, n) ∧
    x = [some 1, some 3, none, some 5] ∧ c = [some (-3 / 2), some (1 / 2), some 0, some (5 / 2)] ∧ n = 3 ∧
    (-3 / 2 : ℚ) + 1 / 2 + 5 / 2 ≠ 0 :=
  ⟨_, [some (-3 / 2), some (1 / 2), some 0, some (5 / 2)], 3, by decide +kernel, rfl, rfl, rfl, by norm_num⟩

theorem zip_none (n l : ℕ) (w : List ℝ) (k : ℕ) (hk : k < l) (hl : l ≤ n) (hw : l ≤ w.length) (rest : List (Option ℝ)) :
    (List.zipWith (fun (a : Option ℝ) y => a.map (· * y)) ((List.replicate n none).take l) w ++ rest)[k]? = some none := by
  have hlen : (List.zipWith (fun (a : Option ℝ) y => a.map (· * y)) ((List.replicate n none).take l) w).length = l := by
    simp; omega
  rw [List.getElem?_append_left (by omega), List.getElem?_zipWith, List.getElem?_take_of_lt hk,
    List.getElem?_replicate, if_pos (by omega), List.getElem?_eq_getElem (show k < w.length by omega)]
  rfl

/-- If the first or the second value is missing, all values of the estimate but the last zero are NaN. -/
theorem C174_first_missing_refuted (a b : Option ℝ) (x : List (Option ℝ)) (h : a = none ∨ b = none)
    (ho : ∃ y, some y ∈ a :: b :: x) (hx : x ≠ []) (lag : ℕ) (hlag : 1 ≤ lag) (dt : ℝ) :
    ∃ out, tocovdata (plain lag boxcar) (a :: b :: x) dt = .ok out ∧
      ∀ l < min lag x.length, out.data[l]? = some none := by
  obtain ⟨y, hy⟩ := ho
  have hany : (a :: b :: x).any Option.isNone = true := by
    rcases h with h | h <;> simp [h]
  have hnone : none ∈ (a :: b :: x).map fun v => if v.isNone then a else b := by
    rcases h with h | h
    · exact List.mem_map.2 ⟨a, by simp, by simp [h]⟩
    · exact List.mem_map.2 ⟨some y, hy, by simp [h]⟩
  have hl0 : 0 < x.length := List.length_pos_iff.2 hx
  obtain ⟨c, hc, hcn⟩ : ∃ c, center (a :: b :: x) = .ok (c, (a :: b :: x).length - (a :: b :: x).countP Option.isNone) ∧
      none ∈ c := by
    unfold center
    rw [if_pos hany, picked_ok]
    simp only [bind, Except.bind, meanO_none _ hnone]
    exact ⟨_, rfl, List.mem_map.2 ⟨some y, hy, rfl⟩⟩
  set n := (a :: b :: x).length with hn
  have hn2 : n = x.length + 2 := by rw [hn]; simp
  have hp := le_pow2 n (by omega)
  set L := min lag x.length with hL
  have hLi : (min (lag : ℤ) ((n : ℤ) - 2)) = (L : ℤ) := by rw [hL]; omega
  have hraw : rawAcf (plain lag boxcar) (a :: b :: x) = .ok (List.replicate (pow2 n) none, n - (a :: b :: x).countP Option.isNone) := by
    unfold rawAcf
    rw [hc]
    have : autoCovO c n (n - (a :: b :: x).countP Option.isNone) = List.replicate (pow2 n) none := by
      unfold autoCovO
      rw [allSome_none c hcn]
    simp only [bind, Except.bind, plain, Bool.false_eq_true, if_false]
    rw [← hn, this]
  have key : tocovdata (plain lag boxcar) (a :: b :: x) dt =
      windowed (plain lag boxcar) (List.replicate (pow2 n) none) (n - (a :: b :: x).countP Option.isNone) (L : ℤ) dt := by
    unfold tocovdata
    rw [hraw]
    simp only [bind, Except.bind, chooseLag_plain]
    rw [← hn, hLi]
  have hww : ((plain (lag : ℤ) boxcar).window (2 * L - 1)).length = 2 * L - 1 := by
    show (boxcar (2 * L - 1)).length = _
    simp [boxcar]
  have hok := windowed_ok (plain lag boxcar) (List.replicate (pow2 n) none) (n - (a :: b :: x).countP Option.isNone) L dt
    (by omega) (by simp; omega) hww
  refine ⟨_, key.trans hok, fun l hl => ?_⟩
  exact zip_none _ _ _ l hl (by omega) (by rw [List.length_drop, hww]; omega) _

example : (none = (none : Option ℝ) ∨ some (1 : ℝ) = none) ∧ (∃ y : ℝ, some y ∈ [none, some 1, some 2]) ∧ [some (2 : ℝ)] ≠ [] :=
  ⟨Or.inl rfl, ⟨1, by simp⟩, by simp⟩

/-! ### The default lag -/

theorem argmaxB_spec (f : ℕ → Bool) (m : ℕ) (h : ∃ k ≤ m, f k = true) :
    ∃ q ≤ m, f q = true ∧ (∀ k, q < k → k ≤ m → f k = false) ∧ argmaxB ((List.range (m + 1)).reverse.map f) = m - q := by
  set b := (List.range (m + 1)).reverse.map f with hb
  have hlen : b.length = m + 1 := by rw [hb]; simp
  have hget : ∀ i, (hi : i < b.length) → b[i] = f (m - i) := by
    intro i hi
    simp only [hb, List.getElem_map, List.getElem_reverse, List.getElem_range, List.length_range]
    congr 1
  have hany : b.any id = true := by
    obtain ⟨k, hk, hf⟩ := h
    exact List.any_eq_true.2 ⟨true, List.mem_map.2 ⟨k, by simp; omega, hf⟩, rfl⟩
  have hlt : b.findIdx id < b.length := by
    rw [List.findIdx_lt_length]
    obtain ⟨v, hv, hv'⟩ := List.any_eq_true.1 hany
    exact ⟨v, hv, hv'⟩
  refine ⟨m - b.findIdx id, by omega, ?_, ?_, ?_⟩
  · have := List.findIdx_getElem (w := hlt)
    rw [hget] at this
    exact this
  · intro k h1 h2
    have h3 : m - k < b.findIdx id := by omega
    have := List.not_of_lt_findIdx h3
    rw [hget, show m - (m - k) = k by omega] at this
    simpa using this
  · unfold argmaxB
    rw [if_pos hany]
    omega

theorem take_sq_sum (t : List ℝ) (m : ℕ) (hm : m ≤ t.length) :
    ((t.take m).map (· ^ 2)).sum = ∑ i ∈ range m, t.getD i 0 ^ 2 := by
  induction m with
  | zero => simp
  | succ m ih =>
    rw [sum_range_succ, ← ih (by omega), ← List.take_append_getElem (show m < t.length by omega), List.map_append, List.sum_append,
      List.getD_eq_getElem?_getD, List.getElem?_eq_getElem (show m < t.length by omega)]
    simp

/-- The default lag is two more than the last lag, of the first 301, at which the estimate exceeds twice its large lag standard
deviation, computed from the values at smaller lags; the Parzen window gets four thirds of it. -/
theorem C175_default_lag (r : List ℝ) (hr : r ≠ []) (h0 : r.getD 0 0 ≠ 0) (ncens : ℕ) (parzen : Bool) :
    ∃ q, q ≤ 300 ∧ q < r.length ∧
      (q ≠ 0 → 2 * Real.sqrt ((r.getD 0 0 ^ 2 + 2 * ∑ i ∈ range (q - 1), r.getD (i + 1) 0 ^ 2) / ncens) < |r.getD q 0|) ∧
      (∀ k, q < k → k ≤ 300 → k < r.length →
        |r.getD k 0| ≤ 2 * Real.sqrt ((r.getD 0 0 ^ 2 + 2 * ∑ i ∈ range (k - 1), r.getD (i + 1) 0 ^ 2) / ncens)) ∧
      estimateLag parzen (r.map some) ncens = .ok (if parzen then 4 * (q + 2) / 3 else q + 2) := by
  have hl : 0 < r.length := List.length_pos_iff.2 hr
  have hsig : ∀ k, k < r.length → significant (r.map some) ncens k =
      if k = 0 then true
      else decide (2 * Real.sqrt ((r.getD 0 0 ^ 2 + 2 * ∑ i ∈ range (k - 1), r.getD (i + 1) 0 ^ 2) / ncens) < |r.getD k 0|) := by
    intro k hk
    unfold significant sigmaAt
    rw [List.getElem?_map, List.getElem?_eq_getElem hk]
    have hkd : r.getD k 0 = r[k] := by rw [List.getD_eq_getElem?_getD, List.getElem?_eq_getElem hk]; rfl
    by_cases hk0 : k = 0
    · subst hk0
      rw [hkd] at h0
      simp [h0]
    · rw [if_neg hk0, if_neg hk0, ← List.map_take, allSome_map_some]
      match r, hr, hk with
      | r0 :: t, _, hk =>
        obtain ⟨m, rfl⟩ : ∃ m, k = m + 1 := ⟨k - 1, by omega⟩
        have hsum : ((t.take m).map (· ^ 2)).sum = ∑ i ∈ range m, (r0 :: t).getD (i + 1) 0 ^ 2 := by
          rw [take_sq_sum t m (by simp at hk; omega)]
          rfl
        simp only [List.take_succ_cons, Option.map_some, hsum, hkd, Nat.add_sub_cancel]
        rfl
  obtain ⟨q, hq, hq1, hq2, hq3⟩ := argmaxB_spec (significant (r.map some) ncens) (min 300 ((r.map some).length - 1))
    ⟨0, by omega, by rw [hsig 0 hl]; rfl⟩
  rw [List.length_map] at hq hq2
  refine ⟨q, by omega, by omega, ?_, ?_, ?_⟩
  · intro hq0
    rw [hsig q (by omega), if_neg hq0] at hq1
    simpa using hq1
  · intro k h1 h2 h3
    have := hq2 k h1 (by omega)
    rw [hsig k h3, if_neg (by omega)] at this
    simpa using this
  · unfold estimateLag
    rw [if_neg (by simpa using hr)]
    simp only [hq3]
    rw [List.length_map]
    have : min 300 (r.length - 1) + 2 - (min 300 (r.length - 1) - q) = q + 2 := by omega
    rw [this]

example : ([2, 1, 0] : List ℝ) ≠ [] ∧ ([2, 1, 0] : List ℝ).getD 0 0 ≠ 0 := by simp

end

end Wafo.Cov
