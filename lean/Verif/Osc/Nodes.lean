import Mathlib.Analysis.SpecialFunctions.Trigonometric.Chebyshev.Basic
import Mathlib.Analysis.SpecialFunctions.Trigonometric.Complex
import Verif.Osc.Levin

/-! Quadrature of oscillating functions: the sets of nodes. -/

set_option linter.unusedSectionVars false

namespace Wafo.Osc
open Finset

noncomputable section

theorem pairwise_range_map {n : ℕ} {R : ℝ → ℝ → Prop} {f : ℕ → ℝ} (h : ∀ i j, i < j → j < n → R (f i) (f j)) :
    ((List.range n).map f).Pairwise R := by
  rw [List.pairwise_map]
  refine List.Pairwise.imp_of_mem ?_ (List.pairwise_lt_range (n := n))
  intro i j _ hj hij
  exact h i j hij (List.mem_range.1 hj)

/-! ### C211 -/

/-- `chebyshev_roots(m)`: the roots of the Chebyshev polynomial of degree `m`, all of them, in decreasing order in `(-1, 1)`. -/
theorem C211_roots (m : ℕ) : (chebRoots m).length = m ∧ (chebRoots m).Pairwise (· > ·) ∧ (∀ x ∈ chebRoots m, -1 < x ∧ x < 1) ∧
    ∀ x, x ∈ chebRoots m ↔ (Polynomial.Chebyshev.T ℝ m).eval x = 0 := by
  have hlen : (chebRoots m).length = m := by simp [chebRoots]
  have hpos : ∀ i < m, 0 < (2 * (i : ℝ) + 1) * (1 / 2) * Real.pi / m := fun i hi => by
    have hm : (0 : ℝ) < m := by exact_mod_cast (by omega : 0 < m)
    have := Real.pi_pos
    positivity
  have hlt : ∀ i < m, (2 * (i : ℝ) + 1) * (1 / 2) * Real.pi / m < Real.pi := fun i hi => by
    have hm : (0 : ℝ) < m := by exact_mod_cast (by omega : 0 < m)
    rw [div_lt_iff₀ hm]
    have h1 : (i : ℝ) + 1 ≤ m := by exact_mod_cast hi
    nlinarith [Real.pi_pos]
  have hpw : (chebRoots m).Pairwise (· > ·) := by
    refine pairwise_range_map (f := fun i : ℕ => Real.cos ((2 * i + 1 : ℝ) * (1 / 2) * Real.pi / m)) fun i j hij hj => ?_
    have hm : (0 : ℝ) < m := by exact_mod_cast (by omega : 0 < m)
    refine Real.strictAntiOn_cos ⟨(hpos i (by omega)).le, (hlt i (by omega)).le⟩ ⟨(hpos j hj).le, (hlt j hj).le⟩ ?_
    refine div_lt_div_of_pos_right ?_ hm
    have : (i : ℝ) < j := by exact_mod_cast hij
    nlinarith [Real.pi_pos]
  have hroot : ∀ x ∈ chebRoots m, (Polynomial.Chebyshev.T ℝ m).eval x = 0 := by
    intro x hx
    simp only [chebRoots, List.mem_map, List.mem_range] at hx
    obtain ⟨i, hi, rfl⟩ := hx
    have hm : (m : ℝ) ≠ 0 := by exact_mod_cast (by omega : m ≠ 0)
    rw [Polynomial.Chebyshev.T_real_cos, Real.cos_eq_zero_iff]
    refine ⟨i, ?_⟩
    push_cast
    field_simp
  refine ⟨hlen, hpw, fun x hx => ?_, fun x => ⟨hroot x, fun h => ?_⟩⟩
  · simp only [chebRoots, List.mem_map, List.mem_range] at hx
    obtain ⟨i, hi, rfl⟩ := hx
    constructor
    · have := Real.strictAntiOn_cos ⟨(hpos i hi).le, (hlt i hi).le⟩ ⟨Real.pi_pos.le, le_rfl⟩ (hlt i hi)
      rwa [Real.cos_pi] at this
    · have := Real.strictAntiOn_cos ⟨le_rfl, Real.pi_pos.le⟩ ⟨(hpos i hi).le, (hlt i hi).le⟩ (hpos i hi)
      rwa [Real.cos_zero] at this
  · have hT : Polynomial.Chebyshev.T ℝ m ≠ 0 := by
      have := cheb_graded.deg m
      intro h0
      rw [h0, Polynomial.degree_zero] at this
      exact absurd this (by simp)
    have hsub : (chebRoots m).toFinset ⊆ (Polynomial.Chebyshev.T ℝ m).roots.toFinset := by
      intro y hy
      rw [Multiset.mem_toFinset, Polynomial.mem_roots hT]
      exact hroot y (List.mem_toFinset.1 hy)
    have hcard : (Polynomial.Chebyshev.T ℝ m).roots.toFinset.card ≤ (chebRoots m).toFinset.card := by
      rw [List.toFinset_card_of_nodup (hpw.imp fun h => ne_of_gt h), hlen]
      refine (Multiset.toFinset_card_le _).trans ((Polynomial.card_roots' _).trans ?_)
      exact (Polynomial.natDegree_eq_of_degree_eq_some (cheb_graded.deg m)).le
    have := Finset.eq_of_subset_of_card_le hsub hcard
    rw [← List.mem_toFinset, this, Multiset.mem_toFinset, Polynomial.mem_roots hT]
    exact h

example : chebRoots 1 = [0] := by
  have h : Real.cos ((2 * (0 : ℕ) + 1 : ℝ) * (1 / 2) * Real.pi / (1 : ℕ)) = 0 := by
    rw [show (2 * ((0 : ℕ) : ℝ) + 1) * (1 / 2) * Real.pi / ((1 : ℕ) : ℝ) = Real.pi / 2 by push_cast; ring]
    exact Real.cos_pi_div_two
  simp only [chebRoots, List.range_one, List.map_cons, List.map_nil, h]

/-- `chebyshev_extrema(m)` for at least two points: decreasing from 1 to -1.  For one point it is nan. -/
theorem C211_extrema {m : ℕ} (hm : 2 ≤ m) : ∃ l : List ℝ, chebExtrema m = l.map some ∧ l.length = m ∧ l.Pairwise (· > ·) ∧
    l.head? = some 1 ∧ l.getLast? = some (-1) ∧ ∀ x ∈ l, -1 ≤ x ∧ x ≤ 1 := by
  have hm1 : (0 : ℝ) < (m : ℝ) - 1 := by
    have : (2 : ℝ) ≤ m := by exact_mod_cast hm
    linarith
  refine ⟨(List.range m).map fun k : ℕ => Real.cos (k * Real.pi / (m - 1 : ℝ)), ?_, by simp, ?_, ?_, ?_, ?_⟩
  · unfold chebExtrema
    rw [List.map_map]
    refine List.map_congr_left fun k _ => ?_
    rw [if_neg (by omega)]
    rfl
  · refine pairwise_range_map (f := fun k : ℕ => Real.cos (k * Real.pi / (m - 1 : ℝ))) fun i j hij hj => ?_
    have hj' : (j : ℝ) ≤ m - 1 := by
      have : (j : ℝ) + 1 ≤ m := by exact_mod_cast hj
      linarith
    have hij' : (i : ℝ) < j := by exact_mod_cast hij
    have hpi := Real.pi_pos
    refine Real.strictAntiOn_cos ⟨by positivity, ?_⟩ ⟨by positivity, ?_⟩ ?_
    · rw [div_le_iff₀ hm1]; nlinarith
    · rw [div_le_iff₀ hm1]; nlinarith
    · exact div_lt_div_of_pos_right (by nlinarith) hm1
  · obtain ⟨k, rfl⟩ : ∃ k, m = k + 1 := ⟨m - 1, by omega⟩
    rw [List.range_succ_eq_map]
    simp
  · obtain ⟨k, rfl⟩ : ∃ k, m = k + 1 := ⟨m - 1, by omega⟩
    rw [List.range_succ, List.map_append]
    simp only [List.map_cons, List.map_nil, List.getLast?_append, List.getLast?_singleton, Option.some_or]
    congr 1
    have hk : (k : ℝ) ≠ 0 := by exact_mod_cast (by omega : k ≠ 0)
    have : (k : ℝ) * Real.pi / (((k + 1 : ℕ) : ℝ) - 1) = Real.pi := by
      rw [show (((k + 1 : ℕ) : ℝ) - 1) = k by push_cast; ring, mul_comm, mul_div_assoc, div_self hk, mul_one]
    rw [this, Real.cos_pi]
  · intro x hx
    obtain ⟨k, _, rfl⟩ := List.mem_map.1 hx
    exact ⟨Real.neg_one_le_cos _, Real.cos_le_one _⟩

theorem C211_extrema_one_refuted : chebExtrema 1 = [none] := by simp [chebExtrema]

/-- The loop of `adaptive_levin_points` ends for positive `delta`, with `delta` times a power of two and more than half of `m - 1`. -/
theorem C211_loop (m : ℕ) {delta : ℝ} (hd : 0 < delta) : ∃ j : ℕ, (∀ fuel, j < fuel → spread (m - 1) fuel delta = some (delta * 2 ^ j)) ∧
    ((m : ℝ) - 1) / 2 < delta * 2 ^ j ∧ (0 < j → delta * 2 ^ (j - 1) ≤ ((m : ℝ) - 1) / 2) := by
  have key : ∀ (J : ℕ) (delta : ℝ), 0 < delta → ((m : ℝ) - 1) / 2 < delta * 2 ^ J →
      ∃ j : ℕ, (∀ fuel, j < fuel → spread (m - 1) fuel delta = some (delta * 2 ^ j)) ∧
    ((m : ℝ) - 1) / 2 < delta * 2 ^ j ∧ (0 < j → delta * 2 ^ (j - 1) ≤ ((m : ℝ) - 1) / 2) := by
    intro J
    induction J with
    | zero =>
      intro d hd h
      refine ⟨0, fun fuel hf => ?_, h, fun h => absurd h (lt_irrefl _)⟩
      obtain ⟨n, rfl⟩ : ∃ n, fuel = n + 1 := ⟨fuel - 1, by omega⟩
      unfold spread
      rw [if_neg]
      · simp
      · rintro (⟨h0, -⟩ | h1)
        · exact hd.ne' h0
        · rw [le_div_iff₀ hd] at h1
          simp only [pow_zero, mul_one] at h
          linarith
    | succ J ih =>
      intro d hd h
      by_cases h0 : ((m : ℝ) - 1) / 2 < d
      · refine ⟨0, fun fuel hf => ?_, by simpa using h0, fun h => absurd h (lt_irrefl _)⟩
        obtain ⟨n, rfl⟩ : ∃ n, fuel = n + 1 := ⟨fuel - 1, by omega⟩
        unfold spread
        rw [if_neg]
        · simp
        · rintro (⟨h0, -⟩ | h1)
          · exact hd.ne' h0
          · rw [le_div_iff₀ hd] at h1
            linarith
      · obtain ⟨j, h1, h2, h3⟩ := ih (2 * d) (by linarith) (by rw [pow_succ] at h; linarith)
        refine ⟨j + 1, fun fuel hf => ?_, by rw [pow_succ]; linarith, fun _ => ?_⟩
        · obtain ⟨n, rfl⟩ : ∃ n, fuel = n + 1 := ⟨fuel - 1, by omega⟩
          unfold spread
          rw [if_pos (Or.inr (by rw [le_div_iff₀ hd]; linarith)), h1 n (by omega), pow_succ]
          congr 1
          ring
        · rcases Nat.eq_zero_or_pos j with rfl | hj
          · simpa using not_lt.1 h0
          · have := h3 hj
            obtain ⟨i, rfl⟩ : ∃ i, j = i + 1 := ⟨j - 1, by omega⟩
            simp only [Nat.add_sub_cancel] at this ⊢
            rw [pow_succ]
            linarith
  obtain ⟨J, hJ⟩ := pow_unbounded_of_one_lt (((m : ℝ) - 1) / 2 / delta) (by norm_num : (1 : ℝ) < 2)
  refine key J delta hd ?_
  rw [div_lt_iff₀ hd] at hJ
  linarith

/-- For `delta = 0` and at least two points it does not end. -/
theorem C211_loop_refuted {m : ℕ} (hm : 2 ≤ m) (fuel : ℕ) : spread (m - 1) fuel 0 = none := by
  have h : (0 : ℝ) < (m : ℝ) - 1 := by
    have : (2 : ℝ) ≤ m := by exact_mod_cast hm
    linarith
  induction fuel with
  | zero => rfl
  | succ n ih =>
    unfold spread
    rw [if_pos (Or.inl ⟨rfl, h⟩), mul_zero, ih]

theorem levinPoints_odd (n : ℕ) (d : ℝ) : levinPoints (2 * n + 1) d = (List.range (2 * n + 1)).map fun k : ℕ =>
    if k < n then -1 + k / d else if k = n then 0 else 1 - (2 * n - k) / d := by
  unfold levinPoints
  refine List.map_congr_left fun k _ => ?_
  have e : 1 / 2 * (((2 * n + 1 : ℕ) : ℝ) - 1) = (n : ℕ) := by push_cast; ring
  have e2 : ((2 * n + 1 : ℕ) : ℝ) - 1 = 2 * n := by push_cast; ring
  have e3 : ⌈((n : ℕ) : ℝ)⌉ = (n : ℤ) := Int.ceil_natCast n
  simp only [e]
  rw [e3, e2]
  simp only [Nat.cast_lt, Nat.cast_inj]

/-- `adaptive_levin_points` for an odd number of points (`_QaL` requests only such numbers): increasing from -1 to 1 for more than one
point, symmetric about 0, and in `[-1, 1]`. -/
theorem C211_levin (n : ℕ) {d : ℝ} (hd : (n : ℝ) < d) : (levinPoints (2 * n + 1) d).length = 2 * n + 1 ∧
    (levinPoints (2 * n + 1) d).Pairwise (· < ·) ∧ (∀ x ∈ levinPoints (2 * n + 1) d, -1 ≤ x ∧ x ≤ 1) ∧
    (levinPoints (2 * n + 1) d).reverse = (levinPoints (2 * n + 1) d).map (fun x => -x) ∧
    (0 < n → (levinPoints (2 * n + 1) d).head? = some (-1) ∧ (levinPoints (2 * n + 1) d).getLast? = some 1) := by
  have hd0 : 0 < d := (Nat.cast_nonneg n).trans_lt hd
  rw [levinPoints_odd]
  have hlow : ∀ k : ℕ, k < n → -1 + (k : ℝ) / d < 0 := fun k hk => by
    have : (k : ℝ) < d := (by exact_mod_cast hk : (k : ℝ) < n).trans hd
    have := (div_lt_one hd0).2 this
    linarith
  have hhigh : ∀ k : ℕ, n < k → 0 < 1 - (2 * (n : ℝ) - k) / d := fun k hk => by
    have : 2 * (n : ℝ) - k < d := by
      have : (n : ℝ) < k := by exact_mod_cast hk
      linarith
    have := (div_lt_one hd0).2 this
    linarith
  refine ⟨by simp, ?_, ?_, ?_, fun hn => ?_⟩
  · refine pairwise_range_map fun i j hij hj => ?_
    have hij' : (i : ℝ) < j := by exact_mod_cast hij
    by_cases h1 : j < n
    · rw [if_pos h1, if_pos (by omega)]
      linarith [div_lt_div_of_pos_right hij' hd0]
    · rw [if_neg h1]
      by_cases h2 : j = n
      · rw [if_pos h2, if_pos (by omega)]
        exact hlow i (by omega)
      · rw [if_neg h2]
        have hj0 := hhigh j (by omega)
        by_cases h3 : i < n
        · rw [if_pos h3]
          linarith [hlow i h3]
        · rw [if_neg h3]
          by_cases h4 : i = n
          · rw [if_pos h4]; exact hj0
          · rw [if_neg h4]
            have := div_lt_div_of_pos_right (by linarith : 2 * (n : ℝ) - j < 2 * n - i) hd0
            linarith
  · intro x hx
    simp only [List.mem_map, List.mem_range] at hx
    obtain ⟨k, hk, rfl⟩ := hx
    split_ifs with h1 h2
    · have : 0 ≤ (k : ℝ) / d := by positivity
      exact ⟨by linarith, by linarith [hlow k h1]⟩
    · norm_num
    · have h0 : 0 ≤ 2 * (n : ℝ) - k := by
        have : (k : ℝ) < 2 * n + 1 := by exact_mod_cast hk
        have : (k : ℝ) ≤ 2 * n := by exact_mod_cast (by omega : k ≤ 2 * n)
        linarith
      have : 0 ≤ (2 * (n : ℝ) - k) / d := div_nonneg h0 hd0.le
      exact ⟨by linarith [hhigh k (by omega)], by linarith⟩
  · refine List.ext_getElem (by simp) fun i h1 h2 => ?_
    have hi : i < 2 * n + 1 := by simpa using h2
    rw [List.getElem_reverse]
    simp only [List.getElem_map, List.getElem_range, List.length_map, List.length_range]
    have hc : ((2 * n + 1 - 1 - i : ℕ) : ℝ) = 2 * n - i := by
      rw [Nat.cast_sub (by omega)]
      push_cast
      ring
    rcases lt_trichotomy i n with h | h | h
    · rw [if_neg (by omega), if_neg (by omega), if_pos h, hc]
      ring
    · rw [if_neg (by omega), if_pos (by omega), if_neg (by omega), if_pos h]
      simp
    · rw [if_pos (by omega), if_neg (by omega), if_neg (by omega), hc]
      ring
  · constructor
    · rw [List.range_succ_eq_map]
      simp [hn]
    · rw [List.range_succ, List.map_append]
      simp only [List.map_cons, List.map_nil, List.getLast?_append, List.getLast?_singleton, Option.some_or]
      rw [if_neg (by omega), if_neg (by omega)]
      push_cast
      simp

/-- For an even number of points the last limit or the symmetry is lost. -/
theorem C211_levin_refuted (d : ℝ) : levinPoints 2 d = [-1, 0] := by
  have hc : ⌈(2 : ℝ)⁻¹⌉ = 1 := by
    rw [Int.ceil_eq_iff]
    norm_num
  norm_num [levinPoints, List.range_succ, hc]

/-- Every set of points that `_QaL` can choose, for a positive `delta` (a set for large `delta` and `alpha` has the final value of
`delta` above), has the requested number of distinct elements of `[-1, 1]`. -/
theorem C211_points (kind : PointKind) {m k : ℕ} (hm : 1 ≤ m) (hk : k ∈ counts m) {d : ℝ} (hd : ((k : ℝ) + 1) / 2 < d) :
    ∃ l : List ℝ, ptsOf kind k d = l.map some ∧ l.length = k ∧ l.Nodup ∧ ∀ t ∈ l, t ∈ Set.Icc (-1 : ℝ) 1 := by
  obtain ⟨n, hn, rfl⟩ : ∃ n, 1 ≤ n ∧ k = 2 * n + 1 := by
    simp only [counts, List.mem_map, List.mem_cons, List.not_mem_nil, or_false] at hk
    obtain ⟨i, hi, rfl⟩ := hk
    rcases hi with rfl | rfl | rfl | rfl
    · exact ⟨m, hm, by ring⟩
    · exact ⟨m * 2, by omega, by ring⟩
    · exact ⟨m * 4, by omega, by ring⟩
    · exact ⟨m * 8, by omega, by ring⟩
  push_cast at hd
  cases kind with
  | extrema =>
    obtain ⟨l, h1, h2, h3, -, -, h4⟩ := C211_extrema (by omega : 2 ≤ 2 * n + 1)
    exact ⟨l, h1, h2, h3.imp fun h => ne_of_gt h, h4⟩
  | levin =>
    obtain ⟨h1, h2, h3, -, -⟩ := C211_levin n (by linarith : (n : ℝ) < d)
    exact ⟨_, rfl, h1, h2.imp fun h => ne_of_lt h, h3⟩
  | roots =>
    obtain ⟨h1, h2, h3, -⟩ := C211_roots (2 * n + 1)
    exact ⟨_, rfl, h1, h2.imp fun h => ne_of_gt h, fun t ht => ⟨(h3 t ht).1.le, (h3 t ht).2.le⟩⟩
  | openLevin =>
    obtain ⟨h1, h2, h3, -, -⟩ := C211_levin (n + 1) (by push_cast; linarith : ((n + 1 : ℕ) : ℝ) < d)
    have hsub : (openPoints (2 * n + 1) d).Sublist (levinPoints (2 * (n + 1) + 1) d) :=
      (List.dropLast_sublist _).trans (List.drop_sublist _ _)
    refine ⟨_, rfl, ?_, (h2.imp fun h => ne_of_lt h).sublist hsub, fun t ht => h3 t (hsub.subset ht)⟩
    unfold openPoints
    rw [List.length_dropLast, List.length_drop, show 2 * n + 1 + 2 = 2 * (n + 1) + 1 by ring, h1]
    omega

/-- The number of points is at least one for every precision. -/
theorem C211_num {prec : ℝ} (hp : 0 ≤ prec) (s : ℕ) (betam : ℝ) : 1 ≤ levinNum s prec betam ∧ 1 ≤ ewNum s prec betam := by
  have h : 1 ≤ (⌊prec / max (Real.log (betam + 1) / Real.log 10) 1 + 1⌋).toNat := by
    have h0 : 0 ≤ prec / max (Real.log (betam + 1) / Real.log 10) 1 := by
      have : (0 : ℝ) < max (Real.log (betam + 1) / Real.log 10) 1 := lt_max_of_lt_right one_pos
      positivity
    have : (1 : ℤ) ≤ ⌊prec / max (Real.log (betam + 1) / Real.log 10) 1 + 1⌋ := Int.le_floor.2 (by push_cast; linarith)
    omega
  unfold levinNum ewNum
  constructor
  · split_ifs
    · exact le_rfl
    · exact h
  · split_ifs
    · norm_num
    · exact h

/-- `QuadOsc` with its default nodes is exact for polynomials of degree less than `s` and a linear phase. -/
theorem C211_quadOsc {lstsq : Lstsq} (hl : Solves lstsq) (dea3 : ℂ → ℂ → ℂ → ℂ) (tiny : ℝ) {abseps : ℝ} (he : 0 ≤ abseps) {maxiter : ℕ}
    (hm : 2 ≤ maxiter) {B : Basis} (hB : IsBasis B) {om r : ℝ} (hr : om * r ≠ 0) (o : ℝ) (s : ℕ) {F : Polynomial ℂ} (hF : F.degree < s)
    (a b : ℝ) : ∃ e n, quad lstsq dea3 tiny abseps maxiter (fun t => F.eval (t : ℂ)) (fun t => r * t + o) (fun _ => r) om B (chebRoots s) a b =
      .ok (∫ t in a..b, F.eval (t : ℂ) * Complex.exp (Complex.I * om * (r * t + o : ℝ)), e, n) := by
  obtain ⟨h1, h2, h3, -⟩ := C211_roots s
  exact ⟨_, _, C206_linear hl dea3 tiny he hm hB hr o (h2.imp fun h => ne_of_gt h) (fun t ht => ⟨(h3 t ht).1.le, (h3 t ht).2.le⟩)
    (by rw [h1]; exact hF) a b⟩

/-- The default: fifteen nodes, a polynomial of degree fourteen. -/
example : ((Polynomial.X : Polynomial ℂ) ^ 14).degree < (15 : ℕ) := by
  rw [Polynomial.degree_X_pow]
  norm_num

end

end Wafo.Osc
