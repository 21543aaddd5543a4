import Mathlib.Data.List.Sort
import Mathlib.Algebra.BigOperators.Group.List.Basic
import Mathlib.Algebra.Order.BigOperators.Group.List
import Mathlib.Tactic.FieldSimp
import Mathlib.Tactic.Positivity
import Mathlib.Tactic.LinearCombination
import Verif.Stats.Edf
import Verif.Thresh.Model

set_option linter.unusedSectionVars false

/-!
Properties C221 (`edfcnd`) and C222 (`reslife`) of stats/core.py.
-/

namespace Wafo.Thresh

section
variable {α : Type} [Field α] [LinearOrder α] [IsStrictOrderedRing α] [FloorRing α]

theorem foldl_min_le (l : List α) (a : α) : ∀ b ∈ a :: l, l.foldl min a ≤ b := by
  induction l generalizing a with
  | nil => intro b hb; simp at hb; simp [hb]
  | cons c l ih =>
    intro b hb
    simp only [List.foldl_cons]
    rcases List.mem_cons.1 hb with rfl | hb
    · exact (ih (min b c) _ List.mem_cons_self).trans (min_le_left _ _)
    · rcases List.mem_cons.1 hb with rfl | hb
      · exact (ih (min a b) _ List.mem_cons_self).trans (min_le_right _ _)
      · exact ih (min a c) b (List.mem_cons_of_mem _ hb)

/-- C221: without a condition, `edfcnd` is the empirical distribution function of all data. -/
theorem C221_default (x : List α) (hx : x ≠ []) (method : ℤ) : edfcnd x none method = .ok (Stats.edf x true method).1 := by
  rcases x with _ | ⟨a, l⟩
  · exact absurd rfl hx
  · simp only [edfcnd]
    have : (a :: l).filter (fun z => decide (((⌊min (l.foldl min a) 0⌋ : ℤ) : α) ≤ z)) = a :: l := by
      rw [List.filter_eq_self]
      intro z hz
      have h1 : ((⌊min (l.foldl min a) 0⌋ : ℤ) : α) ≤ min (l.foldl min a) 0 := Int.floor_le _
      have h2 := foldl_min_le l a z hz
      exact decide_eq_true ((h1.trans (min_le_left _ _)).trans h2)
    rw [this]

theorem filter_sorted (l : List α) (hs : l.Pairwise (· ≤ ·)) (c : α) :
    l.filter (fun z => decide (c ≤ z)) = l.drop (l.filter fun z => decide (z < c)).length := by
  induction l with
  | nil => rfl
  | cons a l ih =>
    obtain ⟨h1, h2⟩ := List.pairwise_cons.1 hs
    by_cases h : a < c
    · simp only [List.filter_cons, h, not_le.2 h, decide_true, decide_false, if_true, Bool.false_eq_true, if_false, List.length_cons, List.drop_succ_cons]
      exact ih h2
    · have hca : c ≤ a := not_lt.1 h
      have hall : l.filter (fun z => decide (z < c)) = [] := by
        rw [List.filter_eq_nil_iff]
        intro z hz
        simpa using hca.trans (h1 z hz)
      have hself : l.filter (fun z => decide (c ≤ z)) = l := by
        rw [List.filter_eq_self]
        intro z hz
        simpa using hca.trans (h1 z hz)
      simp [h, hca, hall, hself]

theorem sort_filter (x : List α) (c : α) :
    (x.filter fun z => decide (c ≤ z)).insertionSort (· ≤ ·) = (x.insertionSort (· ≤ ·)).filter fun z => decide (c ≤ z) := by
  apply List.Perm.eq_of_pairwise (le := (· ≤ ·))
  · intro a b _ _ h1 h2; exact le_antisymm h1 h2
  · exact List.pairwise_insertionSort _ _
  · exact (List.pairwise_insertionSort _ _).sublist List.filter_sublist
  · exact (List.perm_insertionSort _ _).trans ((List.perm_insertionSort (· ≤ ·) x).symm.filter _)

/-- C221: with a condition `c`, the abscissae are the ordered data from the first one that is not below `c` on, and with method 3 the probabilities are those of
the empirical distribution function conditioned on `X >= c`: `(F - F0) / (1 - F0)`, where `F0` is the fraction of the data below `c`. -/
theorem C221_conditional (x : List α) (c : α) :
    ∃ p z, edfcnd x (some c) 3 = .ok (p, z) ∧ p.length = z.length ∧
      z = (Stats.edf x true 3).1.2.drop (x.filter fun v => decide (v < c)).length ∧
      ∀ (k : ℕ), k < z.length → ∃ F, (Stats.edf x true 3).1.1[(x.filter fun v => decide (v < c)).length + k]? = some F ∧
        p[k]? = some ((F - ((x.filter fun v => decide (v < c)).length : α) / (x.length : α)) /
          (1 - ((x.filter fun v => decide (v < c)).length : α) / (x.length : α))) := by
  set m := (x.filter fun v => decide (v < c)).length with hm
  have hcount : (x.filter fun v => decide (c ≤ v)).length + m = x.length := by
    rw [hm]
    have : ∀ l : List α, (l.filter fun v => decide (c ≤ v)).length + (l.filter fun v => decide (v < c)).length = l.length := by
      intro l
      induction l with
      | nil => rfl
      | cons a l ih =>
        by_cases h : a < c
        · simp only [List.filter_cons, h, not_le.2 h, decide_true, decide_false, if_true, Bool.false_eq_true, if_false, List.length_cons]
          omega
        · simp only [List.filter_cons, h, not_lt.1 h, decide_true, decide_false, if_true, Bool.false_eq_true, if_false, List.length_cons]
          omega
    exact this x
  obtain ⟨hl, hk⟩ := Stats.C75_positions (x.filter fun v => decide (c ≤ v)) true 3
  obtain ⟨hl', hk'⟩ := Stats.C75_positions x true 3
  have hz : (Stats.edf (x.filter fun v => decide (c ≤ v)) true 3).1.2 = (x.filter fun z => decide (c ≤ z)).insertionSort (· ≤ ·) := rfl
  refine ⟨(Stats.edf (x.filter fun v => decide (c ≤ v)) true 3).1.1, (Stats.edf (x.filter fun v => decide (c ≤ v)) true 3).1.2, rfl, ?_, ?_, ?_⟩
  · rw [hz, List.length_insertionSort, hl]
  · rw [hz, sort_filter, filter_sorted _ (List.pairwise_insertionSort _ _)]
    have : ((x.insertionSort (· ≤ ·)).filter fun z => decide (z < c)).length = m :=
      ((List.perm_insertionSort (· ≤ ·) x).filter _).length_eq
    rw [this]
    rfl
  · intro k hkl
    rw [hz, List.length_insertionSort] at hkl
    have hx : m + k < x.length := by omega
    refine ⟨_, hk' (m + k) hx, ?_⟩
    rw [hk k hkl]
    simp only [show ¬ ((3 : ℤ) = 1) by norm_num, if_false, if_true]
    have hn : (0 : α) < (x.length : α) := by exact_mod_cast (show 0 < x.length by omega)
    have hc : ((x.filter fun v => decide (c ≤ v)).length : α) = (x.length : α) - (m : α) := by
      rw [← hcount]; push_cast; ring
    have hpos : (0 : α) < (x.length : α) - (m : α) := by
      rw [← hc]; exact_mod_cast (show 0 < (x.filter fun v => decide (c ≤ v)).length by omega)
    rw [hc]
    congr 1
    push_cast
    field_simp
    ring

example : edfcnd ([3, 1, 2, 5] : List ℚ) (some 2) 3 = .ok ([1 / 3, 2 / 3, 1], [2, 3, 5]) := by decide +kernel

/-! ### C222: mean residual life -/

theorem meanOf_none (data : List α) (u : α) : meanOf (excesses data u) = none ↔ ∀ d ∈ data, d ≤ u := by
  unfold meanOf excesses
  by_cases h : ((data.filter fun d => decide (u < d)).map fun d => d - u) = []
  · rw [if_pos h]
    rw [List.map_eq_nil_iff, List.filter_eq_nil_iff] at h
    simp only [true_iff]
    intro d hd
    simpa using h d hd
  · rw [if_neg h]
    simp only [reduceCtorEq, false_iff]
    intro hall
    apply h
    rw [List.map_eq_nil_iff, List.filter_eq_nil_iff]
    intro d hd
    simpa using hall d hd

theorem meanOf_pos (data : List α) (u m : α) (h : meanOf (excesses data u) = some m) : 0 < m := by
  unfold meanOf at h
  split at h
  · simp at h
  · rename_i hne
    have := Option.some.inj h
    rw [← this]
    have hpos : ∀ v ∈ excesses data u, 0 < v := by
      intro v hv
      obtain ⟨d, hd, rfl⟩ := List.mem_map.1 hv
      have := (List.mem_filter.1 hd).2
      simp only [decide_eq_true_eq] at this
      linarith
    have hs : 0 < (excesses data u).sum := List.sum_pos _ hpos hne
    have hl : (0 : α) < ((excesses data u).length : α) := by exact_mod_cast List.length_pos_iff.2 hne
    exact div_pos hs hl

theorem excesses_shift (data : List α) (u v : α) (huv : u ≤ v) (hgap : ∀ d ∈ data, ¬ (u < d ∧ d ≤ v)) :
    excesses data v = (excesses data u).map fun e => e - (v - u) := by
  unfold excesses
  have : (data.filter fun d => decide (v < d)) = data.filter fun d => decide (u < d) := by
    apply List.filter_congr
    intro d hd
    have := hgap d hd
    by_cases h : u < d
    · have hv : v < d := by
        by_contra hle
        exact this ⟨h, not_lt.1 hle⟩
      simp [h, hv]
    · have hv : ¬ v < d := fun hv => h (huv.trans_lt hv)
      simp [h, hv]
  rw [this, List.map_map]
  apply List.map_congr_left
  intro d _
  simp only [Function.comp]
  ring

theorem sum_map_sub (l : List α) (c : α) : (l.map fun e => e - c).sum = l.sum - (l.length : α) * c := by
  induction l with
  | nil => simp
  | cons a l ih => simp only [List.map_cons, List.sum_cons, ih, List.length_cons]; push_cast; ring

end

/-- C222: the value at a threshold is missing exactly if no datum is above it; otherwise it is the mean of the excesses, hence positive, it lies in the middle of the limits, and
the limits are ordered if the quantile is not negative. -/
theorem C222_mean (za : ℕ → Option ℝ) (data : List ℝ) (u : ℝ) :
    ((reslifeAt za data u).1 = none ↔ ∀ d ∈ data, d ≤ u) ∧
    (reslifeAt za data u).2.2 = (data.filter fun d => u < d).length ∧
    ∀ m, (reslifeAt za data u).1 = some m →
      0 < m ∧ m * ((reslifeAt za data u).2.2 : ℝ) = (data.filter fun d => u < d).sum - ((reslifeAt za data u).2.2 : ℝ) * u ∧
      ∀ lo hi, (reslifeAt za data u).2.1 = some (lo, hi) → lo + hi = 2 * m ∧ ((∀ z, za (reslifeAt za data u).2.2 = some z → 0 ≤ z) → lo ≤ m ∧ m ≤ hi) := by
  have h1 : (reslifeAt za data u).1 = meanOf (excesses data u) := by
    cases h : meanOf (excesses data u) with
    | none => simp only [reslifeAt, h]
    | some m => cases hz : za (excesses data u).length <;> simp only [reslifeAt, h, hz]
  have h2 : (reslifeAt za data u).2.2 = (excesses data u).length := by
    cases h : meanOf (excesses data u) with
    | none => simp only [reslifeAt, h]
    | some m => cases hz : za (excesses data u).length <;> simp only [reslifeAt, h, hz]
  refine ⟨by rw [h1]; exact meanOf_none data u, by rw [h2]; simp [excesses], ?_⟩
  intro m hm
  rw [h1] at hm
  refine ⟨meanOf_pos data u m hm, ?_, ?_⟩
  · rw [h2]
    unfold meanOf at hm
    split at hm
    · simp at hm
    · rename_i hne
      have := Option.some.inj hm
      rw [← this]
      have hl : ((excesses data u).length : ℝ) ≠ 0 := by exact_mod_cast (List.length_pos_iff.2 hne).ne'
      rw [div_mul_cancel₀ _ hl]
      simp only [excesses, sum_map_sub, List.length_map]
  · intro lo hi hlh
    rw [h2]
    cases hz : za (excesses data u).length with
    | none => simp [reslifeAt, hm, hz] at hlh
    | some z =>
      simp only [reslifeAt, hm, hz, Option.some.injEq, Prod.mk.injEq] at hlh
      obtain ⟨rfl, rfl⟩ := hlh
      refine ⟨by ring, fun hz0 => ?_⟩
      have hz1 := hz0 z rfl
      have : 0 ≤ z * Real.sqrt (((excesses data u).map fun v => (v - m) ^ 2).sum / ((excesses data u).length : ℝ)) / Real.sqrt ((excesses data u).length : ℝ) := by
        positivity
      constructor <;> linarith

/-- C222: between two neighbouring data the mean excess falls with slope -1, with the same number of data and limits at the same distance. -/
theorem C222_slope (za : ℕ → Option ℝ) (data : List ℝ) (u v : ℝ) (huv : u ≤ v) (hgap : ∀ d ∈ data, ¬ (u < d ∧ d ≤ v)) :
    reslifeAt za data v = ((reslifeAt za data u).1.map (· - (v - u)), (reslifeAt za data u).2.1.map fun p => (p.1 - (v - u), p.2 - (v - u)),
      (reslifeAt za data u).2.2) := by
  have he := excesses_shift data u v huv hgap
  by_cases hne : excesses data u = []
  · simp [reslifeAt, he, hne, meanOf]
  · have hl : ((excesses data u).length : ℝ) ≠ 0 := by exact_mod_cast (List.length_pos_iff.2 hne).ne'
    have hne' : ¬ (excesses data v = []) := by rw [he]; simpa using hne
    have hmu : meanOf (excesses data u) = some ((excesses data u).sum / ((excesses data u).length : ℝ)) := by simp [meanOf, hne]
    have hmv : meanOf (excesses data v) = some ((excesses data u).sum / ((excesses data u).length : ℝ) - (v - u)) := by
      rw [meanOf, if_neg hne', he, sum_map_sub, List.length_map]
      congr 1
      field_simp
    have hlen : (excesses data v).length = (excesses data u).length := by rw [he, List.length_map]
    have hvar : ((excesses data v).map fun e => (e - ((excesses data u).sum / ((excesses data u).length : ℝ) - (v - u))) ^ 2) =
        (excesses data u).map fun e => (e - (excesses data u).sum / ((excesses data u).length : ℝ)) ^ 2 := by
      rw [he, List.map_map]
      apply List.map_congr_left
      intro e _
      simp only [Function.comp]
      ring
    unfold reslifeAt
    simp only [hmu, hmv, hlen, hvar]
    cases za (excesses data u).length with
    | none => rfl
    | some z =>
      simp only [Option.map_some, Prod.mk.injEq, Option.some.injEq, and_true, true_and]
      constructor <;> ring

/-- C222: data and thresholds in other units (a positive factor and a shift): mean and limits are multiplied by the factor. -/
theorem C222_units (za : ℕ → Option ℝ) (data : List ℝ) (u s c : ℝ) (hs : 0 < s) :
    reslifeAt za (data.map fun d => s * d + c) (s * u + c) = ((reslifeAt za data u).1.map (s * ·), (reslifeAt za data u).2.1.map fun p => (s * p.1, s * p.2),
      (reslifeAt za data u).2.2) := by
  have he : excesses (data.map fun d => s * d + c) (s * u + c) = (excesses data u).map (s * ·) := by
    unfold excesses
    rw [List.filter_map, List.map_map, List.map_map]
    have : (data.filter ((fun d => decide (s * u + c < d)) ∘ fun d => s * d + c)) = data.filter fun d => decide (u < d) := by
      apply List.filter_congr
      intro d _
      simp [Function.comp, mul_lt_mul_iff_right₀ hs]
    rw [this]
    apply List.map_congr_left
    intro d _
    simp only [Function.comp]
    ring
  by_cases hne : excesses data u = []
  · simp [reslifeAt, he, hne, meanOf]
  · have hl : ((excesses data u).length : ℝ) ≠ 0 := by exact_mod_cast (List.length_pos_iff.2 hne).ne'
    have hmu : meanOf (excesses data u) = some ((excesses data u).sum / ((excesses data u).length : ℝ)) := by simp [meanOf, hne]
    have hmv : meanOf ((excesses data u).map (s * ·)) = some (s * ((excesses data u).sum / ((excesses data u).length : ℝ))) := by
      rw [meanOf, if_neg (by simpa using hne), List.length_map, List.sum_map_mul_left]
      simp [mul_div_assoc]
    have hvar : (((excesses data u).map (s * ·)).map fun e => (e - s * ((excesses data u).sum / ((excesses data u).length : ℝ))) ^ 2).sum =
        s ^ 2 * ((excesses data u).map fun e => (e - (excesses data u).sum / ((excesses data u).length : ℝ)) ^ 2).sum := by
      rw [List.map_map, ← List.sum_map_mul_left]
      congr 1
      apply List.map_congr_left
      intro e _
      simp only [Function.comp]
      ring
    have hsq : ∀ X : ℝ, Real.sqrt (s ^ 2 * X / ((excesses data u).length : ℝ)) = s * Real.sqrt (X / ((excesses data u).length : ℝ)) := by
      intro X
      rw [mul_div_assoc, Real.sqrt_mul (sq_nonneg s), Real.sqrt_sq hs.le]
    unfold reslifeAt
    simp only [he, hmu, hmv, hvar, hsq, List.length_map]
    cases za (excesses data u).length with
    | none => rfl
    | some z =>
      simp only [Option.map_some, Prod.mk.injEq, Option.some.injEq, and_true, true_and]
      constructor <;> ring

section
variable {α : Type} [Field α] [LinearOrder α] [IsStrictOrderedRing α] [FloorRing α]

theorem sorted_get_le {l : List α} (h : l.Pairwise (· ≤ ·)) {i j : ℕ} (hij : i ≤ j) (hj : j < l.length) : l[i] ≤ l[j] := by
  rcases eq_or_lt_of_le hij with rfl | hlt
  · exact le_rfl
  · exact List.pairwise_iff_getElem.1 h i j (by omega) hj hlt

/-- The number of data above a value, in terms of the sorted data. -/
theorem count_sorted (data : List α) (u : α) :
    (data.filter fun d => decide (u < d)).length = ((data.insertionSort (· ≤ ·)).filter fun d => decide (u < d)).length :=
  (((List.perm_insertionSort (· ≤ ·) data).filter _).length_eq).symm

/-- C222: the default thresholds for `nmin` and `nu` (`nu >= 2`): they are evenly spaced from the smallest datum to `sd[-nmin]`, the datum that has `nmin` of the ordered data at its place or after.  At each
threshold below `sd[-nmin]` at least `nmin` data are above the threshold. -/
theorem C222_thresholds_partial (data : List α) (nmin : ℕ) (hn : 1 ≤ nmin) (hl : nmin ≤ data.length) (nu : ℕ) (h2 : 2 ≤ nu) :
    ∃ u lo hi, thresholds data none none (some nu) nmin = .ok u ∧ lo ∈ data ∧ (∀ d ∈ data, lo ≤ d) ∧ hi ∈ data ∧ u.length = nu ∧ u[0]? = some lo ∧
      u[nu - 1]? = some hi ∧ (∀ v ∈ u, lo ≤ v ∧ v ≤ hi) ∧ ∀ v, v < hi → nmin ≤ (data.filter fun d => decide (v < d)).length := by
  set sd := data.insertionSort (· ≤ ·) with hsd
  have hlen : sd.length = data.length := List.length_insertionSort _ _
  have hs : sd.Pairwise (· ≤ ·) := List.pairwise_insertionSort _ _
  have hmem : ∀ d, d ∈ sd ↔ d ∈ data := fun d => (List.perm_insertionSort (· ≤ ·) data).mem_iff
  have i1 : data.length - nmin < sd.length := by omega
  have i0 : 0 < sd.length := by omega
  have hmax : max nmin 1 = nmin := max_eq_left hn
  have hle : sd[0] ≤ sd[data.length - nmin] := sorted_get_le hs (Nat.zero_le _) i1
  have hnu : (0 : α) < ((nu - 1 : ℕ) : α) := by exact_mod_cast (show 0 < nu - 1 by omega)
  refine ⟨Waves.linspace sd[0] sd[data.length - nmin] nu, sd[0], sd[data.length - nmin], ?_, (hmem _).1 (List.getElem_mem i0), ?_, (hmem _).1 (List.getElem_mem i1), ?_, ?_, ?_, ?_, ?_⟩
  · simp only [thresholds, hmax, ← hsd]
    rw [if_neg (by omega), List.getElem?_eq_getElem i1, List.getElem?_eq_getElem i0]
    simp
  · intro d hd
    obtain ⟨i, hi, rfl⟩ := List.mem_iff_getElem.1 ((hmem d).2 hd)
    exact sorted_get_le hs (Nat.zero_le _) hi
  · simp [Waves.linspace]
  · have : ¬ nu ≤ 1 := by omega
    simp [Waves.linspace, this, show 0 < nu by omega]
  · have h1 : ¬ nu ≤ 1 := by omega
    simp only [Waves.linspace, h1, if_false, List.getElem?_map, List.getElem?_range (show nu - 1 < nu by omega), Option.map_some]
    congr 1
    field_simp
    ring
  · intro v hv
    have h1 : ¬ nu ≤ 1 := by omega
    simp only [Waves.linspace, h1, if_false, List.mem_map, List.mem_range] at hv
    obtain ⟨k, hk, rfl⟩ := hv
    have hk0 : (0 : α) ≤ (k : α) := by exact_mod_cast Nat.zero_le k
    have hk1 : (k : α) ≤ ((nu - 1 : ℕ) : α) := by exact_mod_cast (show k ≤ nu - 1 by omega)
    have hd : (0 : α) ≤ (sd[data.length - nmin] - sd[0]) / ((nu - 1 : ℕ) : α) := div_nonneg (sub_nonneg.2 hle) hnu.le
    constructor
    · nlinarith
    · have : (k : α) * ((sd[data.length - nmin] - sd[0]) / ((nu - 1 : ℕ) : α)) ≤ ((nu - 1 : ℕ) : α) * ((sd[data.length - nmin] - sd[0]) / ((nu - 1 : ℕ) : α)) :=
        mul_le_mul_of_nonneg_right hk1 hd
      rw [mul_div_cancel₀ _ hnu.ne'] at this
      linarith
  · intro v hv
    rw [count_sorted, ← hsd]
    have hsub : (sd.drop (data.length - nmin)).Sublist (sd.filter fun d => decide (v < d)) := by
      have hall : (sd.drop (data.length - nmin)).filter (fun d => decide (v < d)) = sd.drop (data.length - nmin) := by
        rw [List.filter_eq_self]
        intro d hd
        obtain ⟨i, hi, rfl⟩ := List.mem_iff_getElem.1 hd
        rw [List.getElem_drop]
        rw [List.length_drop] at hi
        exact decide_eq_true (hv.trans_le (sorted_get_le hs (by omega) (by omega)))
      have := (List.drop_sublist (data.length - nmin) sd).filter fun d => decide (v < d)
      rwa [hall] at this
    have := hsub.length_le
    rw [List.length_drop] at this
    omega

/-- C222: given limits are clipped to the default ones: the thresholds then run from the larger of `umin` and the smallest datum to the smaller of `umax` and `sd[-nmin]`. -/
theorem C222_given_limits (data : List α) (nmin : ℕ) (hn : 1 ≤ nmin) (hl : nmin ≤ data.length) (nu : ℕ) (h2 : 2 ≤ nu) (a b : α) :
    ∃ u u0 lo hi, thresholds data none none (some nu) nmin = .ok u0 ∧ u0[0]? = some lo ∧ u0[nu - 1]? = some hi ∧
      thresholds data (some a) (some b) (some nu) nmin = .ok u ∧ u.length = nu ∧ u[0]? = some (max a lo) ∧ u[nu - 1]? = some (min b hi) := by
  set sd := data.insertionSort (· ≤ ·) with hsd
  have hlen : sd.length = data.length := List.length_insertionSort _ _
  have i1 : data.length - nmin < sd.length := by omega
  have i0 : 0 < sd.length := by omega
  have hmax : max nmin 1 = nmin := max_eq_left hn
  have hnu : (0 : α) < ((nu - 1 : ℕ) : α) := by exact_mod_cast (show 0 < nu - 1 by omega)
  have first : ∀ p q : α, (Waves.linspace p q nu)[0]? = some p := by
    intro p q
    have : ¬ nu ≤ 1 := by omega
    simp [Waves.linspace, this, show 0 < nu by omega]
  have last : ∀ p q : α, (Waves.linspace p q nu)[nu - 1]? = some q := by
    intro p q
    have h1 : ¬ nu ≤ 1 := by omega
    simp only [Waves.linspace, h1, if_false, List.getElem?_map, List.getElem?_range (show nu - 1 < nu by omega), Option.map_some]
    congr 1
    field_simp
    ring
  refine ⟨Waves.linspace (max a sd[0]) (min b sd[data.length - nmin]) nu, Waves.linspace sd[0] sd[data.length - nmin] nu, sd[0], sd[data.length - nmin],
    ?_, first _ _, last _ _, ?_, ?_, first _ _, last _ _⟩
  · simp only [thresholds, hmax, ← hsd]
    rw [if_neg (by omega), List.getElem?_eq_getElem i1, List.getElem?_eq_getElem i0]
    simp
  · simp only [thresholds, hmax, ← hsd]
    rw [if_neg (by omega), List.getElem?_eq_getElem i1, List.getElem?_eq_getElem i0]
    simp
  · simp [Waves.linspace]

example : thresholds ([5, 1, 2, 4, 3] : List ℚ) (some 2) (some 9) (some 3) 1 = .ok [2, 7 / 2, 5] := by decide +kernel

/-- C222: `nmin` is documented as the minimum number of data to include, but at the last default threshold fewer than `nmin` data are above the threshold, whatever the data; for `nmin = 1`
none is, and the mean is nan. -/
theorem C222_nmin_refuted (data : List α) (nmin : ℕ) (hn : 1 ≤ nmin) (hl : nmin ≤ data.length) (nu : ℕ) (h2 : 2 ≤ nu) :
    ∃ u last, thresholds data none none (some nu) nmin = .ok u ∧ u[nu - 1]? = some last ∧ (data.filter fun d => decide (last < d)).length < nmin := by
  set sd := data.insertionSort (· ≤ ·) with hsd
  have hlen : sd.length = data.length := List.length_insertionSort _ _
  have hs : sd.Pairwise (· ≤ ·) := List.pairwise_insertionSort _ _
  have i1 : data.length - nmin < sd.length := by omega
  have i0 : 0 < sd.length := by omega
  have hmax : max nmin 1 = nmin := max_eq_left hn
  have hnu : (0 : α) < ((nu - 1 : ℕ) : α) := by exact_mod_cast (show 0 < nu - 1 by omega)
  refine ⟨Waves.linspace sd[0] sd[data.length - nmin] nu, sd[data.length - nmin], ?_, ?_, ?_⟩
  · simp only [thresholds, hmax, ← hsd]
    rw [if_neg (by omega), List.getElem?_eq_getElem i1, List.getElem?_eq_getElem i0]
    simp
  · have h1 : ¬ nu ≤ 1 := by omega
    simp only [Waves.linspace, h1, if_false, List.getElem?_map, List.getElem?_range (show nu - 1 < nu by omega), Option.map_some]
    congr 1
    field_simp
    ring
  · rw [count_sorted, ← hsd]
    have hsplit : sd = sd.take (data.length - nmin + 1) ++ sd.drop (data.length - nmin + 1) := (List.take_append_drop _ _).symm
    have htake : (sd.take (data.length - nmin + 1)).filter (fun d => decide (sd[data.length - nmin] < d)) = [] := by
      rw [List.filter_eq_nil_iff]
      intro d hd
      obtain ⟨i, hi, rfl⟩ := List.mem_iff_getElem.1 hd
      rw [List.getElem_take]
      rw [List.length_take] at hi
      have : sd[i]'(by omega) ≤ sd[data.length - nmin] := sorted_get_le hs (by omega) i1
      simpa using this
    have h3 : (sd.filter fun d => decide (sd[data.length - nmin] < d)).length ≤ (sd.drop (data.length - nmin + 1)).length := by
      have e : sd.filter (fun d => decide (sd[data.length - nmin] < d)) =
          (sd.take (data.length - nmin + 1)).filter (fun d => decide (sd[data.length - nmin] < d)) ++
          (sd.drop (data.length - nmin + 1)).filter (fun d => decide (sd[data.length - nmin] < d)) := by
        rw [← List.filter_append, List.take_append_drop]
      rw [e, htake, List.nil_append]
      exact List.length_filter_le _ _
    rw [List.length_drop] at h3
    omega

/-- C222: more data than available cannot be required: an IndexError; and with exactly `nmin` data there is no default threshold, which ends in a ValueError of `reslife`. -/
theorem C222_short (za : ℕ → Option ℝ) (data : List ℝ) (nmin : ℕ) (hn : 1 ≤ nmin) :
    (data.length < nmin → reslife za data none none none none nmin = .error .indexError) ∧
    (data.length = nmin → reslife za data none none none none nmin = .error .valueError) := by
  have hmax : max nmin 1 = nmin := max_eq_left hn
  constructor
  · intro h
    simp only [reslife, thresholds, hmax]
    rw [if_pos h]
  · intro h
    simp only [reslife, thresholds, hmax]
    rw [if_neg (by omega)]
    have i0 : 0 < (data.insertionSort (· ≤ ·)).length := by rw [List.length_insertionSort]; omega
    have e : data.length - nmin = 0 := by omega
    rw [e, List.getElem?_eq_getElem i0]
    have e2 : ((data.length : ℤ) - (nmin : ℤ)) = 0 := by omega
    simp [e2, Waves.linspace]

example : thresholds ([5, 1, 2, 4, 3] : List ℚ) none none none 3 = .ok [1, 3] := by decide +kernel
example : (([5, 1, 2, 4, 3] : List ℚ).filter fun d => decide (3 < d)).length = 2 := by decide +kernel

end

end Wafo.Thresh
