import Verif.Cov.Lemmas
import Mathlib.Tactic.NormNum.RealSqrt

/-! Properties C172-C175: the autocovariance function of a time series. -/

set_option linter.unusedSectionVars false

namespace Wafo.Cov
open Finset

noncomputable section

/-! ### Specification -/

/-- The mean of a series. -/
def meanOf (x : List ℝ) : ℝ := x.sum / x.length

/-- The autocovariance of the docstring: the products of the deviations from the mean at distance `l`, divided by `n`.  It is 0 from
distance `n` on. -/
def biased (x : List ℝ) (l : ℕ) : ℝ :=
  (∑ j ∈ range (x.length - l), (x.getD j 0 - meanOf x) * (x.getD (j + l) 0 - meanOf x)) / x.length

/-- The estimator without scaling for the lag and without normalization. -/
def plain (lag : ℤ) (window : ℕ → List ℝ) : Estimator :=
  { lag := some lag, window := window, parzen := false, unbiased := false, norm := false }

/-- The window of ones. -/
def boxcar (m : ℕ) : List ℝ := List.replicate m 1

/-! ### Lemmas -/

section gen
variable {α : Type} [Field α] [DecidableEq α]

theorem allSome_map_some (v : List α) : allSome (v.map some) = some v := by
  induction v with
  | nil => rfl
  | cons a l ih => simp [allSome, ih]

theorem allSome_none (x : List (Option α)) (h : none ∈ x) : allSome x = none := by
  induction x with
  | nil => simp at h
  | cons a l ih =>
    cases a with
    | none => rfl
    | some a =>
      have : none ∈ l := by simpa using h
      simp [allSome, ih this]

theorem meanO_none (x : List (Option α)) (h : none ∈ x) : meanO x = none := by
  unfold meanO; rw [allSome_none x h]

theorem meanO_some (v : List α) (h : v ≠ []) : meanO (v.map some) = some (v.sum / v.length) := by
  unfold meanO
  rw [allSome_map_some]
  cases v with
  | nil => exact absurd rfl h
  | cons a l => rfl

theorem center_some (v : List α) (h : v ≠ []) :
    center (v.map some) = .ok ((v.map fun a => a - v.sum / v.length).map some, v.length) := by
  unfold center
  have : (v.map some).any Option.isNone = false := by simp
  rw [if_neg (by simp), meanO_some v h]
  simp [Function.comp_def]
end gen

theorem centred_getD (x : List ℝ) (m : ℝ) (j : ℕ) (hj : j < x.length) : (x.map fun a => a - m).getD j 0 = x.getD j 0 - m := by
  rw [List.getD_eq_getElem?_getD, List.getD_eq_getElem?_getD, List.getElem?_map, List.getElem?_eq_getElem hj]
  rfl

theorem lagSum_biased (x : List ℝ) (l : ℕ) :
    lagSum (fun j => (x.map fun a => a - x.sum / x.length).getD j 0) x.length l / x.length = biased x l := by
  unfold lagSum biased
  congr 1
  refine sum_congr rfl fun j hj => ?_
  have := mem_range.1 hj
  simp only []
  rw [centred_getD x _ j (by omega), centred_getD x _ (j + l) (by omega)]
  rfl

theorem rawAcf_plain (e : Estimator) (hu : e.unbiased = false) (hn : e.norm = false) (x : List ℝ) (h : x ≠ []) :
    rawAcf e (x.map some) = .ok ((autoCov (x.map fun a => a - x.sum / x.length) x.length x.length).map some, x.length) := by
  have hl : x.length ≠ 0 := by simpa using h
  unfold rawAcf
  rw [center_some x h, hu, hn]
  have e1 : autoCovO ((x.map fun a => a - x.sum / x.length).map some) x.length x.length =
      (autoCov (x.map fun a => a - x.sum / x.length) x.length x.length).map some := by
    unfold autoCovO
    rw [allSome_map_some]
    simp [hl]
  have e2 : autoCovO ((x.map fun a => a - x.sum / x.length).map some) (x.map some).length x.length =
      (autoCov (x.map fun a => a - x.sum / x.length) x.length x.length).map some := by
    rw [List.length_map]; exact e1
  show (Except.ok (autoCovO ((x.map fun a => a - x.sum / x.length).map some) (x.map some).length x.length, x.length) :
    Except PyErr (List (Option ℝ) × ℕ)) = _
  rw [e2]

theorem windowed_ok (e : Estimator) (r : List (Option ℝ)) (ncens : ℕ) (l : ℕ) (dt : ℝ) (hl : 1 ≤ l) (hr : l < r.length)
    (hw : (e.window (2 * l - 1)).length = 2 * l - 1) :
    windowed e r ncens (l : ℤ) dt =
      .ok { data := List.zipWith (fun a y => a.map (· * y)) (r.take l) ((e.window (2 * l - 1)).drop (l - 1)) ++ [some 0]
            args := (List.range (l + 1)).map fun k : ℕ => (k : ℝ) * dt
            sigma := (List.range ((List.zipWith (fun a y => a.map (· * y)) (r.take l) ((e.window (2 * l - 1)).drop (l - 1)) ++
              some 0 :: r.drop (l + 1)).length + 1)).map (sigmaAt (List.zipWith (fun a y => a.map (· * y)) (r.take l)
                ((e.window (2 * l - 1)).drop (l - 1)) ++ some 0 :: r.drop (l + 1)) ncens) } := by
  have h0 : ¬ (2 * (l : ℤ) - 1 < 0) := by omega
  have h1 : (r.take l).length = ((e.window (2 * l - 1)).drop (l - 1)).length := by
    rw [List.length_take, List.length_drop, hw]; omega
  have hlen : (List.zipWith (fun (a : Option ℝ) y => a.map (· * y)) (r.take l) ((e.window (2 * l - 1)).drop (l - 1))).length = l := by
    rw [List.length_zipWith, List.length_take, List.length_drop, hw]; omega
  have h2 : assign (r.take l).length (List.zipWith (fun (a : Option ℝ) y => a.map (· * y)) (r.take l)
      ((e.window (2 * l - 1)).drop (l - 1))) = .ok (List.zipWith (fun (a : Option ℝ) y => a.map (· * y)) (r.take l)
      ((e.window (2 * l - 1)).drop (l - 1))) := by
    unfold assign
    rw [if_pos (by rw [hlen, List.length_take]; omega)]
  have h3 : ¬ r.length ≤ l := by omega
  unfold windowed
  rw [if_neg h0]
  simp only [Int.toNat_natCast]
  unfold bmul
  rw [if_pos h1]
  simp only [bind, Except.bind, h2, if_neg h3]
  congr 2
  rw [List.take_append, hlen]
  simp [List.take_of_length_le, hlen]

theorem zip_get (r : List (Option ℝ)) (w : List ℝ) (l k : ℕ) (hk : k < l) (a : ℝ) (y : ℝ) (ha : r[k]? = some (some a))
    (hy : w[k]? = some y) (rest : List (Option ℝ)) :
    (List.zipWith (fun (a : Option ℝ) y => a.map (· * y)) (r.take l) w ++ rest)[k]? = some (some (a * y)) := by
  have h : (List.zipWith (fun (a : Option ℝ) y => a.map (· * y)) (r.take l) w)[k]? = some (some (a * y)) := by
    rw [List.getElem?_zipWith, List.getElem?_take_of_lt hk, ha, hy]
    rfl
  rw [List.getElem?_append_left, h]
  by_contra hc
  rw [List.getElem?_eq_none (by omega)] at h
  exact absurd h (by simp)

theorem chooseLag_plain (lag : ℤ) (w : ℕ → List ℝ) (r : List (Option ℝ)) (n ncens : ℕ) :
    chooseLag (plain lag w) r n ncens = .ok (min lag ((n : ℤ) - 2)) := rfl

/-! ### Properties -/

/-- The estimate of a series without missing values: at lag `l` it is the sum of the documented values at the lags `l` and `nfft - l`,
times the window; the last value is replaced by zero.  `nfft` is the least power of two that is at least the length of the series. -/
theorem C172_estimate (x : List ℝ) (lag : ℕ) (hlag : 1 ≤ lag) (hn : 3 ≤ x.length) (dt : ℝ) (window : ℕ → List ℝ)
    (hw : ∀ m, (window m).length = m) :
    ∃ out, tocovdata (plain lag window) (x.map some) dt = .ok out ∧
      out.data.length = min lag (x.length - 2) + 1 ∧
      out.args = (List.range (min lag (x.length - 2) + 1)).map (fun k : ℕ => (k : ℝ) * dt) ∧
      (∀ l < min lag (x.length - 2), ∀ w, (window (2 * min lag (x.length - 2) - 1))[min lag (x.length - 2) - 1 + l]? = some w →
        out.data[l]? = some (some ((biased x l + biased x (pow2 x.length - l)) * w))) ∧
      out.data[min lag (x.length - 2)]? = some (some 0) := by
  have hne : x ≠ [] := by intro h; simp [h] at hn
  set r := (autoCov (x.map fun a => a - x.sum / x.length) x.length x.length).map some with hr
  have hrl : r.length = pow2 x.length := by rw [hr, List.length_map, autoCov_length]
  have hp := le_pow2 x.length (by omega)
  set L := min lag (x.length - 2) with hL
  have hLi : (min (lag : ℤ) ((x.length : ℤ) - 2)) = (L : ℤ) := by rw [hL]; omega
  have key : tocovdata (plain lag window) (x.map some) dt = windowed (plain lag window) r x.length (L : ℤ) dt := by
    unfold tocovdata
    rw [rawAcf_plain _ rfl rfl x hne]
    simp only [bind, Except.bind, chooseLag_plain, List.length_map]
    rw [hLi]
  have hL1 : 1 ≤ L := by rw [hL]; omega
  have hLr : L < r.length := by rw [hrl, hL]; omega
  have hww : ((plain lag window).window (2 * L - 1)).length = 2 * L - 1 := hw _
  have hwin : (plain (lag : ℤ) window).window = window := rfl
  have hok := windowed_ok (plain lag window) r x.length L dt hL1 hLr hww
  have hzl : (List.zipWith (fun (a : Option ℝ) y => a.map (· * y)) (r.take L)
      (((plain lag window).window (2 * L - 1)).drop (L - 1))).length = L := by
    rw [List.length_zipWith, List.length_take, List.length_drop, hww]; omega
  refine ⟨_, key.trans hok, ?_, rfl, ?_, ?_⟩
  · simp only [List.length_append, hzl, List.length_singleton]
  · intro l hl w hwl
    refine zip_get r _ L l hl _ w ?_ ?_ _
    · rw [hr, List.getElem?_map, autoCov_get _ _ _ (by simpa using hp) l (by omega)]
      simp only [Option.map_some, List.length_map]
      rw [add_div, lagSum_biased, lagSum_biased]
    · rw [List.getElem?_drop, hwin]; exact hwl
  · simp only []
    rw [List.getElem?_append_right (by rw [hzl]), hzl]
    simp

/-- As long as the lag does not exceed `nfft - n`, the estimate is the documented one. -/
theorem C172_documented_partial (x : List ℝ) (lag : ℕ) (hlag : 1 ≤ lag) (hn : 3 ≤ x.length) (dt : ℝ) :
    ∃ out, tocovdata (plain lag boxcar) (x.map some) dt = .ok out ∧
      ∀ l < min lag (x.length - 2), l + x.length ≤ pow2 x.length → out.data[l]? = some (some (biased x l)) := by
  obtain ⟨out, h, _, _, hd, _⟩ := C172_estimate x lag hlag hn dt boxcar (by simp [boxcar])
  refine ⟨out, h, fun l hl hlp => ?_⟩
  rw [hd l hl 1 (by unfold boxcar; rw [List.getElem?_replicate, if_pos (by omega)])]
  have : biased x (pow2 x.length - l) = 0 := by
    unfold biased
    rw [show x.length - (pow2 x.length - l) = 0 by omega]
    simp
  rw [this, add_zero, mul_one]

example : ∃ x : List ℝ, 3 ≤ x.length ∧ (1 : ℕ) + x.length ≤ pow2 x.length ∧ 1 < min 5 (x.length - 2) := by
  refine ⟨[1, 2, 3, 4, 5], by simp, ?_, by simp⟩
  have h2 : pow2 5 = 2 ^ (2 + 1) := pow2_eq 5 2 (by norm_num) (by norm_num)
  show 1 + 5 ≤ pow2 5
  omega

/-- The estimate is not the documented one: four values that alternate have the value -3/4 at lag one, the code returns -1. -/
theorem C172_documented_refuted : ∃ (x : List ℝ) (lag : ℕ) (out : CovOut), 1 ≤ lag ∧ 3 ≤ x.length ∧
    tocovdata (plain lag boxcar) (x.map some) 1 = .ok out ∧ 1 < min lag (x.length - 2) ∧
    out.data[1]? = some (some (-1 : ℝ)) ∧ biased x 1 = -3 / 4 := by
  have hb : biased [1, -1, 1, -1] 1 = -3 / 4 := by
    unfold biased meanOf
    simp [sum_range_succ]
    norm_num
  have hb3 : biased [1, -1, 1, -1] 3 = -1 / 4 := by
    unfold biased meanOf
    simp
  obtain ⟨out, h, _, _, hd, _⟩ := C172_estimate [1, -1, 1, -1] 2 (by norm_num) (by simp) 1 boxcar (by simp [boxcar])
  refine ⟨[1, -1, 1, -1], 2, out, by norm_num, by simp, h, by simp, ?_, hb⟩
  rw [hd 1 (by simp) 1 (by simp [boxcar])]
  rw [show ([1, -1, 1, -1] : List ℝ).length = 2 ^ 2 by simp, pow2_pow]
  rw [hb, show 2 ^ 2 - 1 = 3 by norm_num, hb3]
  norm_num

/-- If the length of the series is a power of two the estimate is a mirror image: the values at the lags `l` and `n - l` agree. -/
theorem C172_mirror (x : List ℝ) (m : ℕ) (hx : x.length = 2 ^ m) (lag : ℕ) (hn : 3 ≤ x.length) (dt : ℝ) (out : CovOut)
    (h : tocovdata (plain lag boxcar) (x.map some) dt = .ok out) (l : ℕ) (hl : 1 ≤ l) (h1 : l < min lag (x.length - 2))
    (h2 : x.length - l < min lag (x.length - 2)) : out.data[l]? = out.data[x.length - l]? := by
  obtain ⟨out', h', _, _, hd, _⟩ := C172_estimate x lag (by omega) hn dt boxcar (by simp [boxcar])
  have : out = out' := Except.ok.inj (h.symm.trans h')
  subst this
  rw [hd l h1 1 (by unfold boxcar; rw [List.getElem?_replicate, if_pos (by omega)]),
    hd _ h2 1 (by unfold boxcar; rw [List.getElem?_replicate, if_pos (by omega)])]
  have e : pow2 x.length = x.length := by rw [hx, pow2_pow]
  rw [e, show x.length - (x.length - l) = l by omega, add_comm]

example : ∃ (x : List ℝ) (lag l : ℕ), x.length = 2 ^ 3 ∧ 1 ≤ l ∧ l < min lag (x.length - 2) ∧
    x.length - l < min lag (x.length - 2) := ⟨[1, 2, 3, 4, 5, 6, 7, 9], 7, 3, by simp, by simp, by simp, by simp⟩

/-- The value at lag zero is the variance, and no value of the estimate exceeds it. -/
theorem C172_maximum (x : List ℝ) (lag : ℕ) (hlag : 1 ≤ lag) (hn : 3 ≤ x.length) (dt : ℝ) :
    ∃ out, tocovdata (plain lag boxcar) (x.map some) dt = .ok out ∧
      out.data[0]? = some (some ((∑ j ∈ range x.length, (x.getD j 0 - meanOf x) ^ 2) / x.length)) ∧
      ∀ (l : ℕ) (v : ℝ), out.data[l]? = some (some v) → |v| ≤ (∑ j ∈ range x.length, (x.getD j 0 - meanOf x) ^ 2) / x.length := by
  have hp := le_pow2 x.length (by omega)
  have hvar : biased x 0 = (∑ j ∈ range x.length, (x.getD j 0 - meanOf x) ^ 2) / x.length := by
    unfold biased
    simp only [Nat.sub_zero, Nat.add_zero, sq]
  have h00 : biased x (pow2 x.length - 0) = 0 := by
    unfold biased
    rw [show x.length - (pow2 x.length - 0) = 0 by omega]
    simp
  obtain ⟨out, h, hlen, _, hd, hlast⟩ := C172_estimate x lag hlag hn dt boxcar (by simp [boxcar])
  have hz : out.data[0]? = some (some (biased x 0)) := by
    rw [hd 0 (by omega) 1 (by unfold boxcar; rw [List.getElem?_replicate, if_pos (by omega)]), h00, add_zero, mul_one]
  have hget : ∀ l < pow2 x.length, (autoCov (x.map fun a => a - x.sum / x.length) x.length x.length)[l]? =
      some (biased x l + biased x (pow2 x.length - l)) := by
    intro l hl
    rw [autoCov_get _ _ _ (by simpa using hp) l hl]
    simp only [List.length_map]
    rw [add_div, lagSum_biased, lagSum_biased]
  refine ⟨out, h, by rw [hz, hvar], fun l v hv => ?_⟩
  rw [← hvar]
  have hl : l < min lag (x.length - 2) + 1 := by
    by_contra hc
    rw [List.getElem?_eq_none (by omega)] at hv
    exact absurd hv (by simp)
  rcases Nat.lt_or_ge l (min lag (x.length - 2)) with hl' | hl'
  · rw [hd l hl' 1 (by unfold boxcar; rw [List.getElem?_replicate, if_pos (by omega)]), mul_one] at hv
    have hv' : biased x l + biased x (pow2 x.length - l) = v := by simpa using hv
    have := autoCov_abs (x.map fun a => a - x.sum / x.length) x.length x.length l _ _ (hget 0 (pow2_pos _)) (hget l (by omega))
    rw [h00, add_zero, hv'] at this
    exact this
  · have : l = min lag (x.length - 2) := by omega
    rw [this, hlast] at hv
    have hv' : v = 0 := by simpa using hv.symm
    rw [hv', abs_zero, hvar]
    exact div_nonneg (sum_nonneg fun _ _ => sq_nonneg _) (Nat.cast_nonneg _)

example : ∃ x : List ℝ, 3 ≤ x.length ∧ meanOf x ≠ 0 := ⟨[1, 2, 4], by simp, by unfold meanOf; norm_num⟩

end

end Wafo.Cov
