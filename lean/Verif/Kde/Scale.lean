import Mathlib.Data.List.Sort
import Mathlib.Tactic.LinearCombination
import Verif.Kde.Psi
import Verif.Kde.Moments

/-! The normal scale bandwidth. -/

set_option linter.unusedSectionVars false

namespace Wafo.Kde

open Real

/-- The sorted data. -/
noncomputable def srt (data : List ℝ) : List ℝ := data.mergeSort (fun a b => decide (a ≤ b))

theorem srt_perm (data : List ℝ) : (srt data).Perm data := List.mergeSort_perm _ _

theorem srt_length (data : List ℝ) : (srt data).length = data.length := (srt_perm data).length_eq

theorem srt_sorted (data : List ℝ) : (srt data).Pairwise (· ≤ ·) := by
  have := List.pairwise_mergeSort (le := fun a b : ℝ => decide (a ≤ b)) (fun a b c h1 h2 => by
    simp only [decide_eq_true_eq] at *; exact h1.trans h2) (fun a b => by
    simpa using le_total a b) data
  refine this.imp fun h => by simpa using h

theorem srt_unique (data l : List ℝ) (hp : l.Perm data) (hs : l.Pairwise (· ≤ ·)) : srt data = l :=
  List.Perm.eq_of_pairwise' (srt_sorted data) hs ((srt_perm data).trans hp.symm)

theorem srt_incr (data : List ℝ) (f : ℝ → ℝ) (hf : Monotone f) : srt (data.map f) = (srt data).map f := by
  refine srt_unique _ _ ((srt_perm data).map f) ?_
  rw [List.pairwise_map]
  exact (srt_sorted data).imp fun h => hf h

theorem srt_neg (data : List ℝ) : srt (data.map fun x => -x) = ((srt data).map fun x => -x).reverse := by
  refine srt_unique _ _ ((List.reverse_perm _).trans ((srt_perm data).map _)) ?_
  rw [List.pairwise_reverse, List.pairwise_map]
  exact (srt_sorted data).imp fun h => by linarith

/-- Linear interpolation in a list. -/
noncomputable def lerp (s : List ℝ) (n : ℕ) (v : ℝ) : ℝ :=
  s.getD ⌊v⌋₊ 0 + (s.getD (min (⌊v⌋₊ + 1) (n - 1)) 0 - s.getD ⌊v⌋₊ 0) * (v - ⌊v⌋₊)

theorem percentile_eq (data : List ℝ) (q : ℝ) :
    percentile data q = lerp (srt data) data.length (q / 100 * ((data.length : ℝ) - 1)) := rfl

theorem getD_map' (s : List ℝ) (f : ℝ → ℝ) (i : ℕ) (hi : i < s.length) : (s.map f).getD i 0 = f (s.getD i 0) := by
  rw [List.getD_eq_getElem?_getD, List.getD_eq_getElem?_getD, List.getElem?_map, List.getElem?_eq_getElem hi]
  rfl

theorem lerp_affine (s : List ℝ) (n : ℕ) (hn : s.length = n) (hn0 : n ≠ 0) (v : ℝ) (hv : v ≤ (n : ℝ) - 1) (a b : ℝ) :
    lerp (s.map fun x => a * x + b) n v = a * lerp s n v + b := by
  have hfl : ⌊v⌋₊ ≤ n - 1 := by
    refine Nat.floor_le_of_le ?_
    rw [Nat.cast_sub (Nat.one_le_iff_ne_zero.mpr hn0), Nat.cast_one]
    exact hv
  unfold lerp
  rw [getD_map' s _ _ (by omega), getD_map' s _ _ (by omega)]
  ring

theorem percentile_affine (data : List ℝ) (hd : data ≠ []) (a b q : ℝ) (ha : 0 ≤ a) (hq : q ≤ 100) :
    percentile (data.map fun x => a * x + b) q = a * percentile data q + b := by
  have hl : data.length ≠ 0 := by simpa using hd
  rw [percentile_eq, percentile_eq, srt_incr _ _ (fun x y h => by nlinarith), List.length_map]
  refine lerp_affine _ _ (srt_length data) hl _ ?_ a b
  have h1 : (1 : ℝ) ≤ data.length := by exact_mod_cast Nat.one_le_iff_ne_zero.mpr hl
  nlinarith

theorem getD_rev_neg (s : List ℝ) (n : ℕ) (hn : s.length = n) (i : ℕ) (hi : i < n) :
    ((s.map fun x => -x).reverse).getD i 0 = -s.getD (n - 1 - i) 0 := by
  rw [List.getD_eq_getElem?_getD, List.getElem?_reverse (by simpa [hn] using hi), List.length_map, hn,
    ← List.getD_eq_getElem?_getD, getD_map' s _ _ (by omega)]

theorem lerp_neg (s : List ℝ) (n : ℕ) (hn : s.length = n) (hn0 : n ≠ 0) (v : ℝ) (hv0 : 0 ≤ v)
    (hv : v ≤ (n : ℝ) - 1) :
    lerp ((s.map fun x => -x).reverse) n v = -lerp s n ((n : ℝ) - 1 - v) := by
  have hcast : ((n - 1 : ℕ) : ℝ) = (n : ℝ) - 1 := by
    rw [Nat.cast_sub (Nat.one_le_iff_ne_zero.mpr hn0), Nat.cast_one]
  have hfl : ⌊v⌋₊ ≤ n - 1 := Nat.floor_le_of_le (by rw [hcast]; exact hv)
  have hle := Nat.floor_le hv0
  have hlt := Nat.lt_floor_add_one v
  unfold lerp
  rcases hle.eq_or_lt with he | he
  · -- integer
    have hw : (n : ℝ) - 1 - v = ((n - 1 - ⌊v⌋₊ : ℕ) : ℝ) := by
      rw [Nat.cast_sub hfl, hcast, he]
    rw [hw, Nat.floor_natCast, he]
    rw [getD_rev_neg s n hn _ (by omega)]
    ring
  · have hm : ⌊v⌋₊ + 1 ≤ n - 1 := by
      have : (⌊v⌋₊ : ℝ) < ((n - 1 : ℕ) : ℝ) := by rw [hcast]; linarith
      have : ⌊v⌋₊ < n - 1 := by exact_mod_cast this
      omega
    have hw : ⌊(n : ℝ) - 1 - v⌋₊ = n - 2 - ⌊v⌋₊ := by
      rw [Nat.floor_eq_iff (by linarith)]
      have : ((n - 2 - ⌊v⌋₊ : ℕ) : ℝ) = (n : ℝ) - 2 - ⌊v⌋₊ := by
        rw [Nat.cast_sub (by omega), Nat.cast_sub (by omega)]; norm_num
      rw [this]
      constructor <;> linarith
    rw [hw]
    have hc : ((n - 2 - ⌊v⌋₊ : ℕ) : ℝ) = (n : ℝ) - 2 - ⌊v⌋₊ := by
      rw [Nat.cast_sub (by omega), Nat.cast_sub (by omega)]; norm_num
    rw [hc, min_eq_left hm, min_eq_left (by omega), getD_rev_neg s n hn _ (by omega), getD_rev_neg s n hn _ (by omega)]
    rw [show n - 1 - (⌊v⌋₊ + 1) = n - 2 - ⌊v⌋₊ by omega, show n - 1 - ⌊v⌋₊ = n - 2 - ⌊v⌋₊ + 1 by omega]
    ring

theorem percentile_neg (data : List ℝ) (hd : data ≠ []) (q : ℝ) (hq0 : 0 ≤ q) (hq : q ≤ 100) :
    percentile (data.map fun x => -x) q = -percentile data (100 - q) := by
  have hl : data.length ≠ 0 := by simpa using hd
  have h1 : (1 : ℝ) ≤ data.length := by exact_mod_cast Nat.one_le_iff_ne_zero.mpr hl
  rw [percentile_eq, percentile_eq, srt_neg, List.length_map,
    lerp_neg _ _ (srt_length data) hl _ (by have : (0 : ℝ) ≤ data.length - 1 := by linarith
                                            positivity) (by nlinarith)]
  congr 2
  ring

theorem iqrange_affine (data : List ℝ) (hd : data ≠ []) (a b : ℝ) :
    iqrange (data.map fun x => a * x + b) = |a| * iqrange data := by
  unfold iqrange
  rcases le_total 0 a with ha | ha
  · rw [percentile_affine data hd a b 75 ha (by norm_num),
      percentile_affine data hd a b 25 ha (by norm_num), ← abs_mul]
    congr 1; ring
  · have e : (data.map fun x => a * x + b) = (data.map fun x => -x).map fun x => (-a) * x + b := by
      rw [List.map_map]
      refine List.map_congr_left fun x _ => ?_
      simp
    have hd' : (data.map fun x => -x) ≠ [] := by simpa using hd
    rw [e, percentile_affine _ hd' (-a) b 75 (by linarith) (by norm_num),
      percentile_affine _ hd' (-a) b 25 (by linarith) (by norm_num),
      percentile_neg data hd 75 (by norm_num) (by norm_num), percentile_neg data hd 25 (by norm_num) (by norm_num),
      show (100 : ℝ) - 75 = 25 by norm_num, show (100 : ℝ) - 25 = 75 by norm_num, ← abs_mul, ← abs_neg]
    congr 1; ring

theorem std_affine (data : List ℝ) (hd : data ≠ []) (a b : ℝ) :
    std (data.map fun x => a * x + b) = |a| * std data := by
  have hl : (data.length : ℝ) ≠ 0 := by
    have : data.length ≠ 0 := by simpa using hd
    exact_mod_cast this
  have hsum : (data.map fun x => a * x + b).sum / (data.length : ℝ) = a * (data.sum / data.length) + b := by
    have : (data.map fun x => a * x + b).sum = a * data.sum + data.length * b := by
      clear hd hl
      induction data with
      | nil => simp
      | cons x l ih => simp only [List.map_cons, List.sum_cons, ih, List.length_cons]; push_cast; ring
    rw [this]
    field_simp
  unfold std
  simp only [List.length_map]
  rw [hsum, List.map_map]
  have : (data.map ((fun x => (x - (a * (data.sum / data.length) + b)) ^ 2) ∘ fun x => a * x + b)).sum
      = a ^ 2 * (data.map fun x => (x - data.sum / data.length) ^ 2).sum := by
    generalize data.sum / (data.length : ℝ) = m
    clear hd hl hsum
    induction data with
    | nil => simp
    | cons x l ih => simp only [List.map_cons, List.sum_cons, ih, Function.comp]; ring
  rw [this, mul_div_assoc, sqrt_mul (sq_nonneg a), sqrt_sq_eq_abs]

theorem hns_affine (k : Obj) (data : List ℝ) (hd : data ≠ []) (a b : ℝ) :
    hns k (data.map fun x => a * x + b) = |a| * hns k data := by
  simp only [hns]
  rw [iqrange_affine data hd, std_affine data hd, List.length_map]
  rcases (abs_nonneg a).eq_or_lt with h | h
  · rw [← h]; simp
  · by_cases hi : iqrange data > 0
    · rw [if_pos hi, if_pos (mul_pos h hi), mul_div_assoc, ← mul_min_of_nonneg _ _ h.le]; ring
    · rw [if_neg hi, if_neg (by
        intro hc
        exact hi ((mul_pos_iff_of_pos_left h).mp hc))]
      ring

/-! ### The asymptotic mean integrated squared error -/

/-- `R(K) / (n h) + h⁴ mu2² R(f'') / 4`. -/
noncomputable def amise (R mu2 Rf : ℝ) (n : ℕ) (h : ℝ) : ℝ := R / (n * h) + h ^ 4 * mu2 ^ 2 * Rf / 4

theorem amise_min (R mu2 Rf : ℝ) (n : ℕ) (h0 h : ℝ) (hn : n ≠ 0) (hm : 0 < mu2) (hf : 0 < Rf) (hh0 : 0 < h0)
    (hh : 0 < h) (he : h0 ^ 5 * (mu2 ^ 2 * Rf * n) = R) : amise R mu2 Rf n h0 ≤ amise R mu2 Rf n h := by
  have hn' : (0 : ℝ) < n := by exact_mod_cast Nat.pos_of_ne_zero hn
  unfold amise
  subst he
  have e1 : h0 ^ 5 * (mu2 ^ 2 * Rf * n) / (n * h0) = h0 ^ 4 * (mu2 ^ 2 * Rf) := by field_simp
  have e2 : h0 ^ 5 * (mu2 ^ 2 * Rf * n) / (n * h) = h0 ^ 5 / h * (mu2 ^ 2 * Rf) := by field_simp
  rw [e1, e2]
  have hp : 0 < mu2 ^ 2 * Rf := by positivity
  have key : 5 / 4 * h0 ^ 4 ≤ h0 ^ 5 / h + h ^ 4 / 4 := by
    rw [div_add' _ _ _ hh.ne', le_div_iff₀ hh]
    have : 0 ≤ (h - h0) ^ 2 * (h ^ 3 + 2 * h0 * h ^ 2 + 3 * h0 ^ 2 * h + 4 * h0 ^ 3) := by positivity
    nlinarith
  nlinarith

theorem amiseConstant_pow (k : Obj) (n : ℕ) (hn : n ≠ 0) (hm : 0 < k.mu2) (hR : 0 < k.R) (s : ℝ) (hs : 0 < s) :
    (s * amiseConstant k n) ^ 5 * (k.mu2 ^ 2 * (3 / (8 * √π * s ^ 5)) * n) = k.R := by
  have hn' : (0 : ℝ) < n := by exact_mod_cast Nat.pos_of_ne_zero hn
  have hpi : 0 < √π := sqrt_pos.mpr pi_pos
  rw [mul_pow, amiseConstant, ← rpow_natCast (_ ^ _) 5, ← rpow_mul (by positivity)]
  norm_num
  field_simp

/-- The bandwidth `g` that makes the leading bias terms of an estimate of `psi` cancel. -/
theorem getG_spec (K mu2 P : ℝ) (n order : ℕ) (hn : n ≠ 0) (hb : 0 < -2 * K / (mu2 * P * n)) :
    0 < getG K mu2 P n order ∧
    K / (n * getG K mu2 P n order ^ (order - 1)) + getG K mu2 P n order ^ 2 / 2 * mu2 * P = 0 ∨ order = 0 := by
  rcases Nat.eq_zero_or_pos order with h0 | h0
  · exact Or.inr h0
  left
  have hn' : (0 : ℝ) < n := by exact_mod_cast Nat.pos_of_ne_zero hn
  have hg : 0 < getG K mu2 P n order := rpow_pos_of_pos hb _
  refine ⟨hg, ?_⟩
  have hp : getG K mu2 P n order ^ (order + 1) = -2 * K / (mu2 * P * n) := by
    rw [getG, ← rpow_natCast, ← rpow_mul hb.le]
    push_cast
    rw [one_div, inv_mul_cancel₀ (by positivity), rpow_one]
  obtain ⟨m, rfl⟩ : ∃ m, order = m + 1 := ⟨order - 1, by omega⟩
  generalize getG K mu2 P n (m + 1) = g at *
  have hmP : mu2 * P * n ≠ 0 := by
    intro h
    rw [h, div_zero] at hb
    exact lt_irrefl _ hb
  rw [eq_div_iff hmP] at hp
  simp only [Nat.add_sub_cancel]
  have : (n : ℝ) * g ^ m ≠ 0 := by positivity
  rw [div_add' _ _ _ this, div_eq_zero_iff]
  left
  rw [show m + 1 + 1 = m + 2 by ring, pow_add] at hp
  linear_combination hp / 2

end Wafo.Kde
