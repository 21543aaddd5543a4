import Verif.LevelX.Model
import Mathlib.Analysis.SpecialFunctions.Exp
import Mathlib.Analysis.SpecialFunctions.Log.Basic
import Mathlib.Analysis.Real.Sqrt
import Mathlib.Tactic.LinearCombination

/-!
Model of `LevelCrossings.__init__` and `estimate_mean_and_stdev` in objects.py L91-133 over the real numbers, and properties.

`np.polyfit(x, y, 1)` is the exact least squares line.  `none` stands for a result that is not a finite number; the minimum norm
solution that numpy returns when all levels in the window are equal is not modelled and is `none` here too.
-/

set_option linter.unusedSectionVars false

namespace Wafo.LevelX
open Wafo.Cycles

noncomputable section

/-- `logcros` after objects.py L124-127: `sqrt(2 * |log(c_max) - log(c)|)` with the sign changed up to the largest count; `none` is
`inf`, for a count of zero. -/
def folded (data : List ℝ) (i : ℕ) : List (Option ℝ) :=
  let cmax := data.getD i 0
  let s := fun c : ℝ => Real.sqrt (2 * |-Real.log c - -Real.log cmax|)
  (data.zip (List.range data.length)).map fun p =>
    if p.1 = 0 ∨ cmax = 0 then none else some (if p.2 ≤ i then 2 * s cmax - s p.1 else s p.1)

/-- `l[ncr:-ncr]` with `ncr = 10`, objects.py L128-130. -/
def window {β : Type} (l : List β) : List β := (l.drop 10).take (l.length - 20)

/-- The mean of a list. -/
def meanOf (l : List ℝ) : ℝ := l.sum / l.length

/-- The sum of squares about the mean. -/
def sxx (x : List ℝ) : ℝ := (x.map fun a => (a - meanOf x) ^ 2).sum

/-- The sum of products about the means. -/
def sxy (x y : List ℝ) : ℝ := ((x.zip y).map fun p => (p.1 - meanOf x) * (p.2 - meanOf y)).sum

/-- The least squares line `np.polyfit(x, y, 1)` as slope and intercept. -/
def polyfit1 (x y : List ℝ) : Option (ℝ × ℝ) :=
  if sxx x = 0 then none else some (sxy x y / sxx x, meanOf y - sxy x y / sxx x * meanOf x)

/-- All entries of a list, if none is infinite. -/
def allSome : List (Option ℝ) → Option (List ℝ)
  | [] => some []
  | none :: _ => none
  | some a :: l => (allSome l).map (a :: ·)

/-- `estimate_mean_and_stdev()`, objects.py L118-133: mean and standard deviation.  `argmax` of an empty array is a ValueError, and
`polyfit` of nothing, or of vectors with different lengths, a TypeError. -/
def estimate (data args : List ℝ) : Except PyErr (Option (ℝ × ℝ)) :=
  if data = [] then .error .valueError
  else
    let x := window args
    let y := window (folded data (argmax data))
    if x = [] ∨ x.length ≠ y.length then .error .typeError
    else
      match allSome y with
      | none => .ok none
      | some ys =>
        match polyfit1 x ys with
        | none => .ok none
        | some (p0, p1) => if p0 = 0 then .ok none else .ok (some (-p1 / p0, 1 / p0))

/-- The attributes that `LevelCrossings(data, args, sigma=, mean=)` sets, objects.py L101-116: mean, standard deviation and the values
of the Gaussian curve in `children`. -/
def init (data args : List ℝ) (sigma mean : Option ℝ) : Except PyErr (Option (ℝ × ℝ × List ℝ)) :=
  let child := fun m s : ℝ => args.map fun u => data.getD (argmax data) 0 * Real.exp (-((u - m) / s) ^ 2 / 2)
  if data = [] then .error .valueError
  else
    match mean, sigma with
    | some m, some s => .ok (some (m, s, child m s))
    | _, _ =>
      match estimate data args with
      | .error e => .error e
      | .ok none => .ok none
      | .ok (some (m0, s0)) =>
        let m := mean.getD m0
        let s := sigma.getD s0
        .ok (some (m, s, child m s))

/-! ### Lemmas -/

theorem argmax_eq (l : List ℝ) (i : ℕ) (a : ℝ) (hi : l[i]? = some a) (hmax : ∀ b ∈ l, b ≤ a) (hfirst : ∀ j < i, ∀ b, l[j]? = some b → b < a) :
    argmax l = i := by
  obtain ⟨hlt, rfl⟩ := List.getElem?_eq_some_iff.1 hi
  unfold argmax
  rw [List.findIdx_eq hlt]
  constructor
  · simpa using hmax
  · intro j hj
    have := hfirst j hj _ (List.getElem?_eq_getElem (by omega))
    have hm : l[i] ∈ l := List.getElem_mem _
    simp only [List.all_eq_false, decide_eq_true_eq, not_le]
    exact ⟨_, hm, this⟩

theorem argmax_spec (l : List ℝ) (h : l ≠ []) : ∃ a, l[argmax l]? = some a ∧ (∀ b ∈ l, b ≤ a) ∧
    ∀ j < argmax l, ∀ b, l[j]? = some b → b < a := by
  obtain ⟨c, hc, hmax⟩ : ∃ c ∈ l, ∀ d ∈ l, d ≤ c := by
    obtain ⟨c, hc⟩ : ∃ c, l.max? = some c := by
      cases h' : l.max? with
      | none => rw [List.max?_eq_none_iff] at h'; exact absurd h' h
      | some c => exact ⟨c, rfl⟩
    rw [List.max?_eq_some_iff] at hc
    exact ⟨c, hc⟩
  have hlt : argmax l < l.length := by
    unfold argmax
    rw [List.findIdx_lt_length]
    exact ⟨c, hc, by simpa using hmax⟩
  have hp := List.findIdx_getElem (w := hlt)
  have hub : ∀ b ∈ l, b ≤ l[argmax l] := by
    have h' : (l.all fun y => decide (y ≤ l[argmax l])) = true := hp
    simpa using h'
  refine ⟨l[argmax l], List.getElem?_eq_getElem hlt, hub, ?_⟩
  intro j hj b hb
  obtain ⟨hjl, rfl⟩ := List.getElem?_eq_some_iff.1 hb
  have h' := List.not_of_lt_findIdx hj
  by_contra hcon
  have hcon := not_lt.1 hcon
  rw [List.all_eq_false] at h'
  obtain ⟨y, hy, hy'⟩ := h'
  exact hy' (by simpa using (hub y hy).trans hcon)

theorem argmax_mul (l : List ℝ) (c : ℝ) (hc : 0 < c) (h : l ≠ []) : argmax (l.map (c * ·)) = argmax l := by
  obtain ⟨a, ha, hmax, hfirst⟩ := argmax_spec l h
  refine argmax_eq _ _ (c * a) (by rw [List.getElem?_map, ha]; rfl) ?_ ?_
  · intro b hb
    obtain ⟨b', hb', rfl⟩ := List.mem_map.1 hb
    exact mul_le_mul_of_nonneg_left (hmax b' hb') hc.le
  · intro j hj b hb
    rw [List.getElem?_map] at hb
    cases hj' : l[j]? with
    | none => rw [hj'] at hb; cases hb
    | some b' =>
      rw [hj'] at hb
      obtain rfl := Option.some.inj hb
      exact mul_lt_mul_of_pos_left (hfirst j hj b' hj') hc

theorem window_map {β γ : Type} (f : β → γ) (l : List β) : window (l.map f) = (window l).map f := by
  unfold window
  rw [List.length_map, List.map_take, List.map_drop]

theorem allSome_map (f : ℝ → ℝ) (l : List ℝ) : allSome (l.map fun x => some (f x)) = some (l.map f) := by
  induction l with
  | nil => rfl
  | cons a l ih => simp [allSome, ih]

theorem sum_affine (a b : ℝ) (l : List ℝ) : (l.map fun x => a * x + b).sum = a * l.sum + l.length * b := by
  induction l with
  | nil => simp
  | cons x l ih =>
    simp only [List.map_cons, List.sum_cons, List.length_cons, ih]
    push_cast
    ring

theorem meanOf_affine (a b : ℝ) (l : List ℝ) (h : l ≠ []) : meanOf (l.map fun x => a * x + b) = a * meanOf l + b := by
  have hl : (l.length : ℝ) ≠ 0 := by
    have : l.length ≠ 0 := by simpa using h
    exact_mod_cast this
  unfold meanOf
  rw [sum_affine, List.length_map]
  field_simp

theorem sum_mul (a : ℝ) (f : ℝ → ℝ) (l : List ℝ) : (l.map fun x => a * f x).sum = a * (l.map f).sum := by
  induction l with
  | nil => simp
  | cons x l ih => simp only [List.map_cons, List.sum_cons, ih, mul_add]

theorem sum_mul2 (a : ℝ) (f : ℝ × ℝ → ℝ) (l : List (ℝ × ℝ)) : (l.map fun x => a * f x).sum = a * (l.map f).sum := by
  induction l with
  | nil => simp
  | cons x l ih => simp only [List.map_cons, List.sum_cons, ih, mul_add]

theorem sxx_affine (a b : ℝ) (l : List ℝ) (h : l ≠ []) : sxx (l.map fun x => a * x + b) = a ^ 2 * sxx l := by
  unfold sxx
  rw [meanOf_affine a b l h, List.map_map, ← sum_mul]
  congr 1
  apply List.map_congr_left
  intro x _
  simp only [Function.comp]
  ring

theorem sxy_affine (a b : ℝ) (x y : List ℝ) (h : x ≠ []) : sxy (x.map fun t => a * t + b) y = a * sxy x y := by
  unfold sxy
  rw [meanOf_affine a b x h, List.zip_map_left, List.map_map, ← sum_mul2]
  congr 1
  apply List.map_congr_left
  intro p _
  simp only [Function.comp, Prod.map, id]
  ring

theorem sxx_pos (l : List ℝ) (h2 : 2 ≤ l.length) (hl : l.Pairwise (· < ·)) : 0 < sxx l := by
  rcases l with _ | ⟨a, _ | ⟨b, l⟩⟩
  · simp at h2
  · simp at h2
  have hab : a < b := (List.pairwise_cons.1 hl).1 b (by simp)
  unfold sxx
  generalize meanOf (a :: b :: l) = m
  have hr : 0 ≤ (l.map fun c => (c - m) ^ 2).sum := by
    apply List.sum_nonneg
    intro c hc
    obtain ⟨d, -, rfl⟩ := List.mem_map.1 hc
    positivity
  simp only [List.map_cons, List.sum_cons]
  have h0 : 0 < (a - m) ^ 2 + (b - m) ^ 2 := by
    rcases eq_or_ne a m with rfl | h
    · have := pow_pos (sub_pos.2 hab) 2
      simpa using this
    · have : 0 < (a - m) ^ 2 := by
        have := sub_ne_zero.2 h
        positivity
      positivity
  linarith

/-- The least squares line through points on a line is this line. -/
theorem polyfit1_line (x : List ℝ) (a b : ℝ) (h : sxx x ≠ 0) : polyfit1 x (x.map fun t => a * t + b) = some (a, b) := by
  have hne : x ≠ [] := by
    rintro rfl
    simp [sxx] at h
  have hxy : sxy x (x.map fun t => a * t + b) = a * sxx x := by
    unfold sxy sxx
    rw [meanOf_affine a b x hne, ← sum_mul]
    congr 1
    have : ∀ l : List ℝ, (l.zip (l.map fun t => a * t + b)).map (fun p => (p.1 - meanOf x) * (p.2 - (a * meanOf x + b))) =
        l.map fun t => a * (t - meanOf x) ^ 2 := by
      intro l
      induction l with
      | nil => rfl
      | cons t l ih =>
        simp only [List.map_cons, List.zip_cons_cons, ih]
        congr 1
        ring
    exact this x
  unfold polyfit1
  rw [if_neg h, hxy, meanOf_affine a b x hne, mul_div_cancel_right₀ _ h]
  simp

theorem folded_get (data : List ℝ) (i k : ℕ) (c : ℝ) (h : data[k]? = some c) :
    (folded data i)[k]? = some (if c = 0 ∨ data.getD i 0 = 0 then none else
      some (if k ≤ i then 2 * Real.sqrt (2 * |-Real.log (data.getD i 0) - -Real.log (data.getD i 0)|) -
        Real.sqrt (2 * |-Real.log c - -Real.log (data.getD i 0)|) else Real.sqrt (2 * |-Real.log c - -Real.log (data.getD i 0)|))) := by
  obtain ⟨hk, rfl⟩ := List.getElem?_eq_some_iff.1 h
  unfold folded
  simp only
  rw [List.getElem?_map, List.getElem?_eq_getElem (by simpa using hk)]
  simp

theorem folded_length (data : List ℝ) (i : ℕ) : (folded data i).length = data.length := by
  simp [folded]

/-- The Gaussian crossing spectrum with its largest value `c` at `m`. -/
def gaussSpectrum (c m s : ℝ) (u : List ℝ) : List ℝ := u.map fun x => c * Real.exp (-(x - m) ^ 2 / (2 * s ^ 2))

theorem gauss_argmax (c m s : ℝ) (hc : 0 < c) (hs : 0 < s) (u : List ℝ) (hu : u.Pairwise (· < ·)) (j : ℕ) (hj : u[j]? = some m) :
    argmax (gaussSpectrum c m s u) = j ∧ (gaussSpectrum c m s u).getD j 0 = c := by
  have hval : (gaussSpectrum c m s u)[j]? = some c := by
    unfold gaussSpectrum
    rw [List.getElem?_map, hj]
    simp
  have hle : ∀ x : ℝ, c * Real.exp (-(x - m) ^ 2 / (2 * s ^ 2)) ≤ c := by
    intro x
    have : Real.exp (-(x - m) ^ 2 / (2 * s ^ 2)) ≤ 1 := by
      rw [Real.exp_le_one_iff]
      exact div_nonpos_of_nonpos_of_nonneg (by nlinarith [sq_nonneg (x - m)]) (by positivity)
    nlinarith
  refine ⟨argmax_eq _ j c hval ?_ ?_, by simp [List.getD_eq_getElem?_getD, hval]⟩
  · intro b hb
    obtain ⟨x, -, rfl⟩ := List.mem_map.1 hb
    exact hle x
  · intro k hk b hb
    unfold gaussSpectrum at hb
    rw [List.getElem?_map] at hb
    cases hx : u[k]? with
    | none => rw [hx] at hb; cases hb
    | some x =>
      rw [hx] at hb
      obtain rfl := Option.some.inj hb
      obtain ⟨hkl, hkx⟩ := List.getElem?_eq_some_iff.1 hx
      obtain ⟨hjl, hjm⟩ := List.getElem?_eq_some_iff.1 hj
      have hxm : x < m := by
        rw [← hkx, ← hjm]
        exact List.pairwise_iff_getElem.1 hu k j hkl hjl hk
      have : Real.exp (-(x - m) ^ 2 / (2 * s ^ 2)) < 1 := by
        rw [Real.exp_lt_one_iff]
        exact div_neg_of_neg_of_pos (by have := pow_pos (sub_pos.2 hxm) 2; nlinarith) (by positivity)
      nlinarith

theorem gauss_folded (c m s : ℝ) (hc : 0 < c) (hs : 0 < s) (u : List ℝ) (hu : u.Pairwise (· < ·)) (j : ℕ) (hj : u[j]? = some m) :
    folded (gaussSpectrum c m s u) j = u.map fun x => some (1 / s * x + -m / s) := by
  apply List.ext_getElem?
  intro k
  cases hx : u[k]? with
  | none =>
    have h1 : u.length ≤ k := List.getElem?_eq_none_iff.1 hx
    rw [List.getElem?_eq_none (by rw [folded_length]; simpa [gaussSpectrum] using h1), List.getElem?_eq_none (by simpa using h1)]
  | some x =>
    have hd : (gaussSpectrum c m s u)[k]? = some (c * Real.exp (-(x - m) ^ 2 / (2 * s ^ 2))) := by
      unfold gaussSpectrum
      rw [List.getElem?_map, hx]
      rfl
    rw [folded_get _ _ _ _ hd, (gauss_argmax c m s hc hs u hu j hj).2, List.getElem?_map, hx]
    have he := Real.exp_pos (-(x - m) ^ 2 / (2 * s ^ 2))
    have hne : ¬ (c * Real.exp (-(x - m) ^ 2 / (2 * s ^ 2)) = 0 ∨ c = 0) := by
      rintro (h | h)
      · exact absurd h (mul_pos hc he).ne'
      · exact absurd h hc.ne'
    rw [if_neg hne, Real.log_mul hc.ne' he.ne', Real.log_exp]
    have h1 : Real.sqrt (2 * |-Real.log c - -Real.log c|) = 0 := by simp
    have h2 : Real.sqrt (2 * |-(Real.log c + -(x - m) ^ 2 / (2 * s ^ 2)) - -Real.log c|) = |x - m| / s := by
      have e : -(Real.log c + -(x - m) ^ 2 / (2 * s ^ 2)) - -Real.log c = (x - m) ^ 2 / (2 * s ^ 2) := by ring
      rw [e, abs_of_nonneg (by positivity)]
      have e2 : 2 * ((x - m) ^ 2 / (2 * s ^ 2)) = ((x - m) / s) ^ 2 := by field_simp
      rw [e2, Real.sqrt_sq_eq_abs, abs_div, abs_of_pos hs]
    rw [h1, h2]
    obtain ⟨hkl, hkx⟩ := List.getElem?_eq_some_iff.1 hx
    obtain ⟨hjl, hjm⟩ := List.getElem?_eq_some_iff.1 hj
    simp only [Option.map_some]
    congr 2
    split
    · rename_i hkj
      have hxm : x ≤ m := by
        rcases hkj.eq_or_lt with rfl | hkj
        · rw [hx] at hj
          exact (Option.some.inj hj).le
        · rw [← hkx, ← hjm]
          exact (List.pairwise_iff_getElem.1 hu k j hkl hjl hkj).le
      rw [abs_of_nonpos (by linarith)]
      field_simp
      ring
    · rename_i hkj
      have hxm : m ≤ x := by
        rw [← hkx, ← hjm]
        exact (List.pairwise_iff_getElem.1 hu j k hjl hkl (by omega)).le
      rw [abs_of_nonneg (by linarith)]
      field_simp
      ring

/-! ### C170: mean and standard deviation -/

/-- C170: a Gaussian crossing spectrum whose mean is one of at least 22 increasing levels: mean and standard deviation are found, and
the Gaussian curve in `children` is the spectrum. -/
theorem C170_gauss (c m s : ℝ) (hc : 0 < c) (hs : 0 < s) (u : List ℝ) (hu : u.Pairwise (· < ·)) (hn : 22 ≤ u.length) (hm : m ∈ u) :
    estimate (gaussSpectrum c m s u) u = .ok (some (m, s)) ∧
    init (gaussSpectrum c m s u) u none none = .ok (some (m, s, gaussSpectrum c m s u)) := by
  obtain ⟨j, hjl, hj⟩ := List.getElem_of_mem hm
  have hj : u[j]? = some m := List.getElem?_eq_some_iff.2 ⟨hjl, hj⟩
  obtain ⟨hmax, hval⟩ := gauss_argmax c m s hc hs u hu j hj
  have hwl : (window u).length = u.length - 20 := by
    unfold window
    rw [List.length_take, List.length_drop]
    omega
  have hws : (window u).Pairwise (· < ·) := (hu.sublist ((List.take_sublist _ _).trans (List.drop_sublist _ _)))
  have hsx := sxx_pos (window u) (by omega) hws
  have hne : gaussSpectrum c m s u ≠ [] := by
    intro h
    have := congrArg List.length h
    simp [gaussSpectrum] at this
    simp [this] at hn
  have hest : estimate (gaussSpectrum c m s u) u = .ok (some (m, s)) := by
    unfold estimate
    rw [if_neg hne]
    simp only
    rw [hmax, gauss_folded c m s hc hs u hu j hj, window_map]
    have h1 : ¬ (window u = [] ∨ (window u).length ≠ (List.map (fun x => some (1 / s * x + -m / s)) (window u)).length) := by
      rintro (h | h)
      · rw [h] at hwl
        simp at hwl
        omega
      · simp at h
    rw [if_neg h1, allSome_map]
    simp only
    rw [polyfit1_line _ _ _ hsx.ne']
    simp only
    rw [if_neg (by positivity)]
    congr 3
    · field_simp
    · field_simp
  refine ⟨hest, ?_⟩
  unfold init
  simp only
  rw [if_neg hne, hest]
  simp only [Option.getD_none]
  rw [hmax, hval]
  congr 4
  unfold gaussSpectrum
  apply List.map_congr_left
  intro x _
  congr 2
  field_simp

/-- C170: units of the levels.  Levels `a u + b` with `a > 0` change the mean to `a m + b` and the standard deviation to `a s`. -/
theorem C170_units (data u : List ℝ) (a b : ℝ) (ha : 0 < a) :
    estimate data (u.map fun x => a * x + b) = (estimate data u).map (Option.map fun r => (a * r.1 + b, a * r.2)) := by
  unfold estimate
  by_cases hd : data = []
  · rw [if_pos hd, if_pos hd]
    rfl
  rw [if_neg hd, if_neg hd]
  simp only
  rw [window_map]
  by_cases hx : window u = []
  · rw [if_pos (Or.inl (by simp [hx])), if_pos (Or.inl hx)]
    rfl
  by_cases hl : (window u).length ≠ (window (folded data (argmax data))).length
  · rw [if_pos (Or.inr (by simpa using hl)), if_pos (Or.inr hl)]
    rfl
  rw [if_neg (by rintro (h | h); exacts [hx (by simpa using h), hl (by simpa using h)]), if_neg (by rintro (h | h); exacts [hx h, hl h])]
  cases allSome (window (folded data (argmax data))) with
  | none => rfl
  | some ys =>
    simp only [polyfit1]
    rw [sxx_affine a b _ hx, sxy_affine a b _ _ hx, meanOf_affine a b _ hx]
    by_cases h0 : sxx (window u) = 0
    · rw [if_pos (by simp [h0]), if_pos h0]
      rfl
    · have h0' : ¬ a ^ 2 * sxx (window u) = 0 := mul_ne_zero (by positivity) h0
      rw [if_neg h0', if_neg h0]
      simp only
      generalize sxy (window u) ys = p at *
      generalize sxx (window u) = q at *
      by_cases hp : p = 0
      · rw [if_pos (by simp [hp]), if_pos (by simp [hp])]
        rfl
      · rw [if_neg (div_ne_zero (mul_ne_zero ha.ne' hp) h0'), if_neg (div_ne_zero hp h0)]
        simp only [Except.map, Option.map_some]
        congr 3
        · field_simp
          ring
        · field_simp

theorem folded_mul (data : List ℝ) (i : ℕ) (c : ℝ) (hc : 0 < c) : folded (data.map (c * ·)) i = folded data i := by
  apply List.ext_getElem?
  intro k
  cases hd : data[k]? with
  | none =>
    have h1 : data.length ≤ k := List.getElem?_eq_none_iff.1 hd
    rw [List.getElem?_eq_none (by simpa [folded_length] using h1), List.getElem?_eq_none (by simpa [folded_length] using h1)]
  | some d =>
    have hd' : (data.map (c * ·))[k]? = some (c * d) := by rw [List.getElem?_map, hd]; rfl
    have hg : (data.map (c * ·)).getD i 0 = c * data.getD i 0 := by
      rw [List.getD_eq_getElem?_getD, List.getD_eq_getElem?_getD, List.getElem?_map]
      cases data[i]? <;> simp
    rw [folded_get _ _ _ _ hd', folded_get _ _ _ _ hd, hg]
    generalize data.getD i 0 = e
    by_cases h : d = 0 ∨ e = 0
    · rw [if_pos (by rcases h with h | h <;> simp [h]), if_pos h]
    · have h' : ¬ (c * d = 0 ∨ c * e = 0) := by
        simp only [mul_eq_zero, hc.ne', false_or]
        exact h
      rw [if_neg h, if_neg h']
      rw [not_or] at h
      rw [Real.log_mul hc.ne' h.1, Real.log_mul hc.ne' h.2]
      have e1 : -(Real.log c + Real.log d) - -(Real.log c + Real.log e) = -Real.log d - -Real.log e := by ring
      have e2 : -(Real.log c + Real.log e) - -(Real.log c + Real.log e) = -Real.log e - -Real.log e := by ring
      rw [e1, e2]

/-- C170: the result does not depend on the number of crossings, only on their distribution over the levels: crossing counts and
crossing intensities give the same. -/
theorem C170_intensity (data u : List ℝ) (c : ℝ) (hc : 0 < c) : estimate (data.map (c * ·)) u = estimate data u := by
  unfold estimate
  by_cases hd : data = []
  · subst hd
    rfl
  have hd' : data.map (c * ·) ≠ [] := by simpa using hd
  simp only [if_neg hd, if_neg hd']
  rw [argmax_mul data c hc hd, folded_mul data _ c hc]

/-- C170: given values are kept. -/
theorem C170_given (data u : List ℝ) (h : data ≠ []) (m s : ℝ) :
    (∃ y, init data u (some s) (some m) = .ok (some (m, s, y))) ∧
    (∀ m0 s0, estimate data u = .ok (some (m0, s0)) → (∃ y, init data u none (some m) = .ok (some (m, s0, y))) ∧
      ∃ y, init data u (some s) none = .ok (some (m0, s, y))) := by
  constructor
  · unfold init
    simp only
    rw [if_neg h]
    exact ⟨_, rfl⟩
  · intro m0 s0 he
    unfold init
    simp only
    rw [if_neg h, if_neg h, he]
    exact ⟨⟨_, rfl⟩, _, rfl⟩

/-- C170, refuting that any spectrum can be used: with 20 levels or less nothing is left for the fit. -/
theorem C170_short_refuted (data u : List ℝ) (h : data ≠ []) (hn : u.length ≤ 20) : estimate data u = .error .typeError := by
  have : window u = [] := by
    unfold window
    rw [show u.length - 20 = 0 by omega]
    rfl
  unfold estimate
  simp only
  rw [if_neg h, if_pos (Or.inl this)]

/-- C170, refuting the claim for a mean between the levels: levels 0, ..., 23 with mean 23/2 and standard deviation 1. -/
theorem C170_between_refuted : estimate (gaussSpectrum 1 (23 / 2) 1 ((List.range 24).map fun k : ℕ => (k : ℝ)))
    ((List.range 24).map fun k : ℕ => (k : ℝ)) = .ok (some (23 / 2, 5 / (3 * Real.sqrt 2))) ∧ 5 / (3 * Real.sqrt 2) ≠ 1 := by
  have h2 : Real.sqrt 2 ^ 2 = 2 := Real.sq_sqrt (by norm_num)
  have hpos : 0 < Real.sqrt 2 := by positivity
  have hdata : gaussSpectrum 1 (23 / 2) 1 ((List.range 24).map fun k : ℕ => (k : ℝ)) =
      (List.range 24).map fun k : ℕ => Real.exp (-((k : ℝ) - 23 / 2) ^ 2 / 2) := by
    unfold gaussSpectrum
    rw [List.map_map]
    apply List.map_congr_left
    intro k _
    simp
  have hmax : argmax ((List.range 24).map fun k : ℕ => Real.exp (-((k : ℝ) - 23 / 2) ^ 2 / 2)) = 11 := by
    refine argmax_eq _ 11 (Real.exp (-1 / 8)) ?_ ?_ ?_
    · rw [List.getElem?_map, List.getElem?_range (by norm_num)]
      simp only [Option.map_some]
      congr 2
      norm_num
    · intro b hb
      obtain ⟨k, -, rfl⟩ := List.mem_map.1 hb
      apply Real.exp_le_exp.2
      have : 1 ≤ (2 * (k : ℝ) - 23) ^ 2 := by
        have h : (1 : ℤ) ≤ (2 * (k : ℤ) - 23) ^ 2 := by
          have : (2 * (k : ℤ) - 23) ≠ 0 := by omega
          have := sq_nonneg (2 * (k : ℤ) - 23)
          have hne : (2 * (k : ℤ) - 23) ^ 2 ≠ 0 := pow_ne_zero 2 ‹_›
          omega
        exact_mod_cast h
      nlinarith
    · intro j hj b hb
      rw [List.getElem?_map, List.getElem?_range (by omega)] at hb
      obtain rfl := Option.some.inj hb
      apply Real.exp_lt_exp.2
      have : (j : ℝ) ≤ 10 := by exact_mod_cast (by omega : j ≤ 10)
      nlinarith
  have hg : ((List.range 24).map fun k : ℕ => Real.exp (-((k : ℝ) - 23 / 2) ^ 2 / 2)).getD 11 0 = Real.exp (-1 / 8) := by
    rw [List.getD_eq_getElem?_getD, List.getElem?_map, List.getElem?_range (by norm_num)]
    simp only [Option.map_some, Option.getD_some]
    congr 1
    norm_num
  have hget : ∀ k : ℕ, k < 24 → (folded ((List.range 24).map fun k : ℕ => Real.exp (-((k : ℝ) - 23 / 2) ^ 2 / 2)) 11)[k]? =
      some (some (if k ≤ 11 then -Real.sqrt (((k : ℝ) - 23 / 2) ^ 2 - 1 / 4) else Real.sqrt (((k : ℝ) - 23 / 2) ^ 2 - 1 / 4))) := by
    intro k hk
    have hd : ((List.range 24).map fun k : ℕ => Real.exp (-((k : ℝ) - 23 / 2) ^ 2 / 2))[k]? =
        some (Real.exp (-((k : ℝ) - 23 / 2) ^ 2 / 2)) := by
      rw [List.getElem?_map, List.getElem?_range hk]
      rfl
    rw [folded_get _ _ _ _ hd, hg, if_neg (by rintro (h | h) <;> exact absurd h (Real.exp_pos _).ne'), Real.log_exp, Real.log_exp]
    have h1 : 1 ≤ (2 * (k : ℝ) - 23) ^ 2 := by
      have h : (1 : ℤ) ≤ (2 * (k : ℤ) - 23) ^ 2 := by
        have : (2 * (k : ℤ) - 23) ≠ 0 := by omega
        have := sq_nonneg (2 * (k : ℤ) - 23)
        have hne : (2 * (k : ℤ) - 23) ^ 2 ≠ 0 := pow_ne_zero 2 ‹_›
        omega
      exact_mod_cast h
    have e1 : 2 * |-(-((k : ℝ) - 23 / 2) ^ 2 / 2) - -(-1 / 8 : ℝ)| = ((k : ℝ) - 23 / 2) ^ 2 - 1 / 4 := by
      rw [abs_of_nonneg (by nlinarith)]
      ring
    rw [e1]
    simp
  have hw : window (folded ((List.range 24).map fun k : ℕ => Real.exp (-((k : ℝ) - 23 / 2) ^ 2 / 2)) 11) =
      [some (-Real.sqrt 2), some 0, some 0, some (Real.sqrt 2)] := by
    have hlen : (folded ((List.range 24).map fun k : ℕ => Real.exp (-((k : ℝ) - 23 / 2) ^ 2 / 2)) 11).length = 24 := by
      rw [folded_length]
      simp
    generalize folded ((List.range 24).map fun k : ℕ => Real.exp (-((k : ℝ) - 23 / 2) ^ 2 / 2)) 11 = F at hget hlen
    have e10 := hget 10 (by norm_num)
    have e11 := hget 11 (by norm_num)
    have e12 := hget 12 (by norm_num)
    have e13 := hget 13 (by norm_num)
    norm_num at e10 e11 e12 e13
    apply List.ext_getElem?
    intro k
    unfold window
    rw [hlen]
    rcases k with _ | _ | _ | _ | k
    · simp [List.getElem?_take, List.getElem?_drop, e10]
    · simp [List.getElem?_take, List.getElem?_drop, e11]
    · simp [List.getElem?_take, List.getElem?_drop, e12]
    · simp [List.getElem?_take, List.getElem?_drop, e13]
    · simp [List.getElem?_take]
  have hwu : window ((List.range 24).map fun k : ℕ => (k : ℝ)) = [10, 11, 12, 13] := by
    rw [window_map, show window (List.range 24) = [10, 11, 12, 13] by decide]
    simp
  have hm1 : meanOf [10, 11, 12, 13] = 23 / 2 := by norm_num [meanOf]
  have hm2 : meanOf [-Real.sqrt 2, 0, 0, Real.sqrt 2] = 0 := by simp [meanOf]
  have hxx : sxx [10, 11, 12, 13] = 5 := by
    unfold sxx
    rw [hm1]
    norm_num
  have hxy : sxy [10, 11, 12, 13] [-Real.sqrt 2, 0, 0, Real.sqrt 2] = 3 * Real.sqrt 2 := by
    unfold sxy
    rw [hm1, hm2]
    simp
    ring
  refine ⟨?_, ?_⟩
  · rw [hdata]
    unfold estimate
    rw [if_neg (by simp)]
    simp only
    rw [hmax, hw, hwu, if_neg (by simp)]
    simp only [allSome, Option.map_some, polyfit1]
    rw [hxx, hxy, hm1, hm2, if_neg (by norm_num)]
    simp only
    rw [if_neg (by positivity)]
    congr 3
    · field_simp
      ring
    · field_simp
  · intro h
    rw [div_eq_one_iff_eq (by positivity)] at h
    nlinarith

example : (0 : ℝ) < 5 ∧ ((List.range 30).map fun k : ℕ => (k : ℝ)).Pairwise (· < ·) ∧
    22 ≤ ((List.range 30).map fun k : ℕ => (k : ℝ)).length ∧ (14 : ℝ) ∈ (List.range 30).map fun k : ℕ => (k : ℝ) := by
  refine ⟨by norm_num, ?_, by simp, List.mem_map.2 ⟨14, by simp, by norm_num⟩⟩
  rw [List.pairwise_map]
  exact List.pairwise_lt_range.imp fun h => by exact_mod_cast h

end

end Wafo.LevelX
