import Mathlib.Analysis.SpecialFunctions.Integrals.Basic
import Mathlib.MeasureTheory.Integral.IntervalIntegral.IntegrationByParts
import Verif.Padua.Lemmas

/-! Lemmas on evaluation, reproduction of polynomials and integration for the Padua points. -/

set_option linter.unusedSectionVars false

namespace Wafo.Padua
open Finset Poly

noncomputable section

theorem degree_points (n : ℕ) (dom : Domain) : degree (points n dom).length = n := by
  unfold degree points
  rw [List.length_map, findM_length]
  have h8 : (1 + 8 * (((n + 1) * (n + 2) / 2 : ℕ) : ℝ)) = (2 * n + 3) ^ 2 := by
    have hev : 2 * ((n + 1) * (n + 2) / 2) = (n + 1) * (n + 2) := by
      have hev : (n + 1) * (n + 2) % 2 = 0 := by
        rw [Nat.mul_mod]
        rcases Nat.mod_two_eq_zero_or_one n with h | h
        · rw [show (n + 2) % 2 = 0 by omega]; simp
        · rw [show (n + 1) % 2 = 0 by omega]; simp
      omega
    have : (2 : ℝ) * (((n + 1) * (n + 2) / 2 : ℕ) : ℝ) = (n + 1) * (n + 2) := by exact_mod_cast hev
    linear_combination 4 * this
  rw [h8, Real.sqrt_sq (by positivity), show (-3 : ℝ) + (2 * n + 3) = ((2 * n : ℤ) : ℝ) by push_cast; ring]
  unfold Quad.npRound
  rw [Int.floor_intCast, sub_self, if_pos (by norm_num)]
  omega

theorem from_to {x a b : ℝ} (h : a ≠ b) : mapFromInterval (mapToInterval x a b) a b = x := by
  have : b - a ≠ 0 := sub_ne_zero.2 h.symm
  unfold mapFromInterval mapToInterval
  field_simp
  ring

theorem to_from {x a b : ℝ} (h : a ≠ b) : mapToInterval (mapFromInterval x a b) a b = x := by
  have : b - a ≠ 0 := sub_ne_zero.2 h.symm
  unfold mapFromInterval mapToInterval
  field_simp
  ring

/-- The angle at which a coordinate is evaluated. -/
def ang (x a b : ℝ) : ℝ := Real.arccos (min (max (mapFromInterval x a b) (-1)) 1)

theorem trans_eq (p : ℕ) (x a b : ℝ) : trans p x a b = nrm p * Real.cos (p * ang x a b) := by
  unfold trans nrm ang
  by_cases h : p = 0
  · simp [h]
  · simp [h, mul_comm]

theorem ang_to {t a b : ℝ} (h : a ≠ b) (h0 : 0 ≤ t) (h1 : t ≤ Real.pi) : ang (mapToInterval (Real.cos t) a b) a b = t := by
  unfold ang
  rw [from_to h, max_eq_left (Real.neg_one_le_cos t), min_eq_left (Real.cos_le_one t), Real.arccos_cos h0 h1]

theorem to_ang {x a b : ℝ} (h : a ≠ b) (hx : mapFromInterval x a b ∈ Set.Icc (-1 : ℝ) 1) : mapToInterval (Real.cos (ang x a b)) a b = x := by
  unfold ang
  rw [max_eq_left hx.1, min_eq_left hx.2, Real.cos_arccos hx.1 hx.2, to_from h]

theorem zn_eq {n : ℕ} (hn : 0 < n) (dom : Domain) (j : ℕ) : zn n dom j = mapToInterval (Real.cos (j * Real.pi / n)) dom.a dom.b := by
  unfold zn angle
  rw [if_neg hn.ne']
  rfl

theorem zn1_eq (n : ℕ) (dom : Domain) (k : ℕ) : zn1 n dom k = mapToInterval (Real.cos (k * Real.pi / (n + 1 : ℕ))) dom.c dom.d := by
  unfold zn1 angle
  rfl

theorem frac_mem {m j : ℕ} (h : j ≤ m) : 0 ≤ (j : ℝ) * Real.pi / m ∧ (j : ℝ) * Real.pi / m ≤ Real.pi := by
  have hp := Real.pi_pos
  refine ⟨by positivity, ?_⟩
  rcases Nat.eq_zero_or_pos m with h0 | h0
  · rw [h0]; simp [hp.le]
  · have : (0 : ℝ) < m := by exact_mod_cast h0
    rw [div_le_iff₀ this, mul_comm]
    exact mul_le_mul_of_nonneg_left (by exact_mod_cast h) hp.le

theorem trans_zn {n : ℕ} (hn : 0 < n) {dom : Domain} (h : dom.a ≠ dom.b) {j : ℕ} (hj : j ≤ n) (p : ℕ) :
    trans p (zn n dom j) dom.a dom.b = wave n p j := by
  rw [trans_eq, zn_eq hn, ang_to h (frac_mem hj).1 (frac_mem hj).2, wave]
  congr 2
  ring

theorem trans_zn1 {n : ℕ} {dom : Domain} (h : dom.c ≠ dom.d) {k : ℕ} (hk : k ≤ n + 1) (q : ℕ) :
    trans q (zn1 n dom k) dom.c dom.d = wave (n + 1) q k := by
  rw [trans_eq, zn1_eq, ang_to h (frac_mem hk).1 (frac_mem hk).2, wave]
  congr 2
  ring

/-- A matrix as a list of rows. -/
def table (n : ℕ) (t : ℕ → ℕ → ℝ) : List (List ℝ) := (List.range n).map fun p => (List.range n).map fun q => t p q

theorem table_get {n : ℕ} (t : ℕ → ℕ → ℝ) {p q : ℕ} (hp : p < n) (hq : q < n) : ((table n t).getD p []).getD q 0 = t p q := by
  simp [table, hp, hq]

theorem table_cols {n : ℕ} (hn : 0 < n) (t : ℕ → ℕ → ℝ) : ((table n t).headD []).length = n := by
  obtain ⟨m, rfl⟩ : ∃ m, n = m + 1 := ⟨n - 1, by omega⟩
  unfold table
  rw [List.range_succ_eq_map]
  simp

theorem val_table {n : ℕ} (hn : 0 < n) (t : ℕ → ℕ → ℝ) (dom : Domain) (x y : ℝ) :
    val (table n t) dom x y = ∑ p ∈ range n, ∑ q ∈ range n, t p q * (trans p x dom.a dom.b * trans q y dom.c dom.d) := by
  unfold val
  rw [table_cols hn]
  simp only []
  rw [sum_comm]
  refine sum_congr rfl fun q hq => ?_
  rw [sum_mul]
  refine sum_congr rfl fun p hp => ?_
  rw [table_get t (mem_range.1 hp) (mem_range.1 hq)]
  ring

theorem sum_triangle (n : ℕ) (F : ℕ → ℕ → ℝ) (h : ∀ p q, p ≤ n → q ≤ n → n < p + q → F p q = 0) :
    ∑ p ∈ range (n + 1), ∑ q ∈ range (n + 1), F p q = ∑ x ∈ degrees n, F x.1 x.2 := by
  rw [← sum_product', degrees, sum_filter]
  refine sum_congr rfl fun x hx => ?_
  have hx := mem_product.1 hx
  have hx1 := mem_range.1 hx.1
  have hx2 := mem_range.1 hx.2
  split
  · rfl
  · exact h _ _ (by omega) (by omega) (by omega)

theorem fit_points {n : ℕ} (hn : 0 < n) (dom : Domain) (f : ℝ → ℝ → ℝ) :
    fit (points n dom) f = .ok (table (n + 1) (coef n (sample n fun j k => f (zn n dom j) (zn1 n dom k))),
      errorEstimate (table (n + 1) (coef n (sample n fun j k => f (zn n dom j) (zn1 n dom k)))) (n + 1)) := by
  have hs : (points n dom).map (fun P => f P.1 P.2) = sample n fun j k => f (zn n dom j) (zn1 n dom k) := by
    unfold points sample
    rw [List.map_map]; rfl
  unfold fit
  rw [degree_points, hs]
  simp only []
  rw [if_pos hn]
  rfl

theorem coef_zero {n : ℕ} (hn : 0 < n) (g : ℕ → ℕ → ℝ) {p q : ℕ} (hq : q ≤ n) (h : n < p + q) : coef n (sample n g) p q = 0 := by
  rw [coef_eq hn, if_neg (by omega)]

/-- The fitted polynomial at any point. -/
theorem val_coef {n : ℕ} (hn : 0 < n) (g : ℕ → ℕ → ℝ) (dom : Domain) (x y : ℝ) :
    val (table (n + 1) (coef n (sample n g))) dom x y =
      ∑ z ∈ degrees n, ((if z.1 = n then 1 / 2 else 1) *
        ∑ j ∈ range (n + 1), ∑ k ∈ range (n + 2), wt n j k * (wave n z.1 j * wave (n + 1) z.2 k) * g j k) *
        (trans z.1 x dom.a dom.b * trans z.2 y dom.c dom.d) := by
  rw [val_table (by omega), sum_triangle n (fun p q => coef n (sample n g) p q * (trans p x dom.a dom.b * trans q y dom.c dom.d))
    (fun p q _ hq h => by rw [coef_zero hn g hq h, zero_mul])]
  refine sum_congr rfl fun z hz => ?_
  have := mem_degrees.1 (show (z.1, z.2) ∈ degrees n from hz)
  rw [coef_eq hn, if_pos (by omega)]

theorem interpolates {n : ℕ} (hn : 0 < n) (g : ℕ → ℕ → ℝ) {dom : Domain} (h1 : dom.a ≠ dom.b) (h2 : dom.c ≠ dom.d) {j k : ℕ}
    (h : (j, k) ∈ oddPairs n) : val (table (n + 1) (coef n (sample n g))) dom (zn n dom j) (zn1 n dom k) = g j k := by
  obtain ⟨hj, hk, hodd⟩ := mem_oddPairs.1 h
  rw [val_coef hn]
  simp only [trans_zn hn h1 hj, trans_zn1 h2 hk]
  have e : ∀ z : ℕ × ℕ, ((if z.1 = n then 1 / 2 else 1) *
      ∑ j ∈ range (n + 1), ∑ k ∈ range (n + 2), wt n j k * (wave n z.1 j * wave (n + 1) z.2 k) * g j k) *
      (wave n z.1 j * wave (n + 1) z.2 k) =
      ∑ y ∈ oddPairs n, (wave n z.1 j * wave (n + 1) z.2 k * ((if z.1 = n then 1 / 2 else 1) * wt n y.1 y.2 *
        (wave n z.1 y.1 * wave (n + 1) z.2 y.2))) * g y.1 y.2 := by
    intro z
    rw [← sum_product', mul_sum, sum_mul, oddPairs, sum_filter]
    refine sum_congr rfl fun y _ => ?_
    by_cases hy : (y.1 + y.2) % 2 = 1
    · rw [if_pos hy]; ring
    · rw [if_neg hy, wt, if_neg hy]; ring
  simp only [e]
  rw [sum_comm]
  have e2 : ∀ y ∈ oddPairs n, ∑ z ∈ degrees n, (wave n z.1 j * wave (n + 1) z.2 k * ((if z.1 = n then 1 / 2 else 1) * wt n y.1 y.2 *
      (wave n z.1 y.1 * wave (n + 1) z.2 y.2))) * g y.1 y.2 = if (j, k) = y then g j k else 0 := by
    rintro ⟨j', k'⟩ hy
    rw [← sum_mul, inverse hn h hy]
    by_cases c : j = j' ∧ k = k'
    · obtain ⟨rfl, rfl⟩ := c
      simp
    · rw [if_neg c, if_neg (by rintro ⟨⟩; exact c ⟨rfl, rfl⟩), zero_mul]
  rw [sum_congr rfl e2, sum_ite_eq, if_pos h]

/-- The coefficients of a combination of products of Chebyshev polynomials are recovered. -/
theorem coef_val {n : ℕ} (hn : 0 < n) {dom : Domain} (h1 : dom.a ≠ dom.b) (h2 : dom.c ≠ dom.d) (t : ℕ → ℕ → ℝ)
    (ht : ∀ p q, n < p + q → t p q = 0) {p q : ℕ} (_hp : p ≤ n) (hq : q ≤ n) :
    coef n (sample n fun j k => val (table (n + 1) t) dom (zn n dom j) (zn1 n dom k)) p q = t p q := by
  rw [coef_eq hn]
  by_cases h : p ≤ n - q
  · rw [if_pos h]
    have hpq : p + q ≤ n := by omega
    have e : ∑ j ∈ range (n + 1), ∑ k ∈ range (n + 2), wt n j k * (wave n p j * wave (n + 1) q k) *
        val (table (n + 1) t) dom (zn n dom j) (zn1 n dom k) =
        ∑ z ∈ degrees n, t z.1 z.2 * ∑ j ∈ range (n + 1), ∑ k ∈ range (n + 2),
          wt n j k * ((wave n p j * wave (n + 1) q k) * (wave n z.1 j * wave (n + 1) z.2 k)) := by
      simp only [mul_sum]
      rw [sum_comm (s := degrees n)]
      refine sum_congr rfl fun j hj => ?_
      rw [sum_comm (s := degrees n)]
      refine sum_congr rfl fun k hk => ?_
      rw [val_table (by omega), sum_triangle n (fun p q => t p q * (trans p (zn n dom j) dom.a dom.b * trans q (zn1 n dom k) dom.c dom.d))
        (fun p q _ _ h => by rw [ht p q h, zero_mul]), mul_sum]
      refine sum_congr rfl fun z _ => ?_
      rw [trans_zn hn h1 (by have := mem_range.1 hj; omega), trans_zn1 h2 (by have := mem_range.1 hk; omega)]
      ring
    rw [e]
    have e2 : ∀ z ∈ degrees n, t z.1 z.2 * ∑ j ∈ range (n + 1), ∑ k ∈ range (n + 2),
        wt n j k * ((wave n p j * wave (n + 1) q k) * (wave n z.1 j * wave (n + 1) z.2 k)) =
        if (p, q) = z then t p q * (if p = n then 2 else 1) else 0 := by
      rintro ⟨p', q'⟩ hz
      rw [ortho hn hpq (mem_degrees.1 hz)]
      by_cases c : p = p' ∧ q = q'
      · obtain ⟨rfl, rfl⟩ := c
        simp
      · rw [if_neg c, if_neg (by rintro ⟨⟩; exact c ⟨rfl, rfl⟩), mul_zero]
    rw [sum_congr rfl e2, sum_ite_eq, if_pos (mem_degrees.2 hpq)]
    split <;> ring
  · rw [if_neg h, ht p q (by omega)]

/-! ### Polynomials -/

/-- The span of the products of cosines of total degree at most `n`. -/
def cosSpan (n : ℕ) : Submodule ℝ (ℝ → ℝ → ℝ) :=
  Submodule.span ℝ {F | ∃ p q : ℕ, p + q ≤ n ∧ F = fun s t => Real.cos (p * s) * Real.cos (q * t)}

theorem cosSpan_mono {n m : ℕ} (h : n ≤ m) : cosSpan n ≤ cosSpan m := by
  refine Submodule.span_mono ?_
  rintro F ⟨p, q, hpq, rfl⟩
  exact ⟨p, q, by omega, rfl⟩

theorem cos_cos (p : ℕ) (s : ℝ) : Real.cos s * Real.cos (p * s) =
    (Real.cos ((p + 1 : ℕ) * s) + Real.cos ((if p = 0 then 1 else p - 1 : ℕ) * s)) / 2 := by
  have h1 : Real.cos ((p + 1 : ℕ) * s) = Real.cos (p * s) * Real.cos s - Real.sin (p * s) * Real.sin s := by
    rw [← Real.cos_add]; push_cast; congr 1; ring
  have h2 : Real.cos ((if p = 0 then 1 else p - 1 : ℕ) * s) = Real.cos (p * s) * Real.cos s + Real.sin (p * s) * Real.sin s := by
    rw [← Real.cos_sub]
    by_cases h : p = 0
    · simp [h]
    · rw [if_neg h, Nat.cast_sub (by omega)]; push_cast; congr 1; ring
  rw [h1, h2]; ring

theorem mul_cos_left {n : ℕ} {F : ℝ → ℝ → ℝ} (h : F ∈ cosSpan n) : (fun s t => Real.cos s * F s t) ∈ cosSpan (n + 1) := by
  induction h using Submodule.span_induction with
  | mem F hF =>
    obtain ⟨p, q, hpq, rfl⟩ := hF
    have e : (fun s t => Real.cos s * (Real.cos (p * s) * Real.cos (q * t))) =
        (1 / 2 : ℝ) • (fun s t : ℝ => Real.cos ((p + 1 : ℕ) * s) * Real.cos (q * t)) +
        (1 / 2 : ℝ) • (fun s t : ℝ => Real.cos ((if p = 0 then 1 else p - 1 : ℕ) * s) * Real.cos (q * t)) := by
      funext s t
      simp only [Pi.add_apply, Pi.smul_apply, smul_eq_mul]
      linear_combination Real.cos (q * t) * cos_cos p s
    rw [e]
    refine Submodule.add_mem _ (Submodule.smul_mem _ _ (Submodule.subset_span ⟨_, q, ?_, rfl⟩))
      (Submodule.smul_mem _ _ (Submodule.subset_span ⟨_, q, ?_, rfl⟩))
    · omega
    · split <;> omega
  | zero => convert Submodule.zero_mem _; simp
  | add F G _ _ hF hG => convert Submodule.add_mem _ hF hG using 1; funext s t; simp [mul_add]
  | smul r F _ hF => convert Submodule.smul_mem _ r hF using 1; funext s t; simp; ring

theorem mul_cos_right {n : ℕ} {F : ℝ → ℝ → ℝ} (h : F ∈ cosSpan n) : (fun s t => Real.cos t * F s t) ∈ cosSpan (n + 1) := by
  induction h using Submodule.span_induction with
  | mem F hF =>
    obtain ⟨p, q, hpq, rfl⟩ := hF
    have e : (fun s t => Real.cos t * (Real.cos (p * s) * Real.cos (q * t))) =
        (1 / 2 : ℝ) • (fun s t : ℝ => Real.cos (p * s) * Real.cos ((q + 1 : ℕ) * t)) +
        (1 / 2 : ℝ) • (fun s t : ℝ => Real.cos (p * s) * Real.cos ((if q = 0 then 1 else q - 1 : ℕ) * t)) := by
      funext s t
      simp only [Pi.add_apply, Pi.smul_apply, smul_eq_mul]
      linear_combination Real.cos (p * s) * cos_cos q t
    rw [e]
    refine Submodule.add_mem _ (Submodule.smul_mem _ _ (Submodule.subset_span ⟨p, _, ?_, rfl⟩))
      (Submodule.smul_mem _ _ (Submodule.subset_span ⟨p, _, ?_, rfl⟩))
    · omega
    · split <;> omega
  | zero => convert Submodule.zero_mem _; simp
  | add F G _ _ hF hG => convert Submodule.add_mem _ hF hG using 1; funext s t; simp [mul_add]
  | smul r F _ hF => convert Submodule.smul_mem _ r hF using 1; funext s t; simp; ring

theorem monomial_mem (dom : Domain) (i j : ℕ) :
    (fun s t => mapToInterval (Real.cos s) dom.a dom.b ^ i * mapToInterval (Real.cos t) dom.c dom.d ^ j) ∈ cosSpan (i + j) := by
  induction i with
  | zero =>
    induction j with
    | zero => exact Submodule.subset_span ⟨0, 0, le_refl _, by funext s t; simp⟩
    | succ j ih =>
      have e : (fun s t => mapToInterval (Real.cos s) dom.a dom.b ^ 0 * mapToInterval (Real.cos t) dom.c dom.d ^ (j + 1)) =
          ((dom.d - dom.c) / 2) • (fun s t => Real.cos t * (mapToInterval (Real.cos s) dom.a dom.b ^ 0 * mapToInterval (Real.cos t) dom.c dom.d ^ j)) +
          ((dom.d + dom.c) / 2) • (fun s t => mapToInterval (Real.cos s) dom.a dom.b ^ 0 * mapToInterval (Real.cos t) dom.c dom.d ^ j) := by
        funext s t
        simp only [Pi.add_apply, Pi.smul_apply, smul_eq_mul, mapToInterval]
        ring
      rw [e]
      exact Submodule.add_mem _ (Submodule.smul_mem _ _ (mul_cos_right ih)) (Submodule.smul_mem _ _ (cosSpan_mono (by omega) ih))
  | succ i ih =>
    have e : (fun s t => mapToInterval (Real.cos s) dom.a dom.b ^ (i + 1) * mapToInterval (Real.cos t) dom.c dom.d ^ j) =
        ((dom.b - dom.a) / 2) • (fun s t => Real.cos s * (mapToInterval (Real.cos s) dom.a dom.b ^ i * mapToInterval (Real.cos t) dom.c dom.d ^ j)) +
        ((dom.b + dom.a) / 2) • (fun s t => mapToInterval (Real.cos s) dom.a dom.b ^ i * mapToInterval (Real.cos t) dom.c dom.d ^ j) := by
      funext s t
      simp only [Pi.add_apply, Pi.smul_apply, smul_eq_mul, mapToInterval]
      ring
    rw [e]
    have h := mul_cos_left ih
    exact Submodule.add_mem _ (Submodule.smul_mem _ _ (cosSpan_mono (by omega) h)) (Submodule.smul_mem _ _ (cosSpan_mono (by omega) ih))

theorem trans_cos (p : ℕ) (x a b : ℝ) : Real.cos (p * ang x a b) = trans p x a b / nrm p := by
  have : nrm p ≠ 0 := by unfold nrm; split <;> positivity
  rw [trans_eq]
  field_simp

/-- Functions in the span are reproduced everywhere. -/
theorem reproduces {n : ℕ} (hn : 0 < n) {dom : Domain} (h1 : dom.a ≠ dom.b) (h2 : dom.c ≠ dom.d) {F : ℝ → ℝ → ℝ} (hF : F ∈ cosSpan n)
    (x y : ℝ) : val (table (n + 1) (coef n (sample n fun j k => F (j * Real.pi / n) (k * Real.pi / (n + 1 : ℕ))))) dom x y =
      F (ang x dom.a dom.b) (ang y dom.c dom.d) := by
  induction hF using Submodule.span_induction with
  | mem F hF =>
    obtain ⟨p, q, hpq, rfl⟩ := hF
    let t : ℕ → ℕ → ℝ := fun p' q' => if p' = p ∧ q' = q then 1 / (nrm p * nrm q) else 0
    have ht : ∀ p' q', n < p' + q' → t p' q' = 0 := by
      intro p' q' h
      refine if_neg ?_
      omega
    have hval : ∀ x y, val (table (n + 1) t) dom x y = Real.cos (p * ang x dom.a dom.b) * Real.cos (q * ang y dom.c dom.d) := by
      intro x y
      rw [val_table (by omega), trans_cos, trans_cos, sum_eq_single p, sum_eq_single q]
      · simp only [t, and_self, if_true]
        field_simp
      · intro q' _ hq'
        simp [t, hq']
      · intro hq'
        exact absurd (mem_range.2 (by omega)) hq'
      · intro p' _ hp'
        refine sum_eq_zero fun q' _ => ?_
        simp [t, hp']
      · intro hp'
        exact absurd (mem_range.2 (by omega)) hp'
    have hs : (sample n fun j k => Real.cos (p * (j * Real.pi / n)) * Real.cos (q * (k * Real.pi / (n + 1 : ℕ)))) =
        sample n fun j k => val (table (n + 1) t) dom (zn n dom j) (zn1 n dom k) := by
      unfold sample
      refine List.map_congr_left fun i hi => ?_
      have hi := (mem_findM n i).1 hi
      have b1 : i / (n + 2) < n + 1 := Nat.div_lt_of_lt_mul (by rw [mul_comm]; exact hi.1)
      have b2 := Nat.mod_lt i (by omega : 0 < n + 2)
      simp only []
      rw [hval, zn_eq hn, zn1_eq, ang_to h1 (frac_mem (by omega)).1 (frac_mem (by omega)).2,
        ang_to h2 (frac_mem (by omega)).1 (frac_mem (by omega)).2]
    simp only []
    rw [hs, ← hval, val_table (by omega), val_table (by omega)]
    refine sum_congr rfl fun p' hp' => sum_congr rfl fun q' hq' => ?_
    rw [coef_val hn h1 h2 t ht (by have := mem_range.1 hp'; omega) (by have := mem_range.1 hq'; omega)]
  | zero =>
    rw [val_coef hn]
    simp
  | add F G _ _ hF hG =>
    rw [val_coef hn] at hF hG ⊢
    simp only [Pi.add_apply]
    rw [← hF, ← hG, ← sum_add_distrib]
    refine sum_congr rfl fun z _ => ?_
    simp only [mul_add, sum_add_distrib, add_mul]
  | smul r F _ hF =>
    rw [val_coef hn] at hF ⊢
    simp only [Pi.smul_apply, smul_eq_mul]
    rw [← hF, mul_sum]
    refine sum_congr rfl fun z _ => ?_
    have : ∀ j k : ℕ, wt n j k * (wave n z.1 j * wave (n + 1) z.2 k) * (r * F (j * Real.pi / n) (k * Real.pi / (n + 1 : ℕ))) =
        r * (wt n j k * (wave n z.1 j * wave (n + 1) z.2 k) * F (j * Real.pi / n) (k * Real.pi / (n + 1 : ℕ))) := by
      intro j k; ring
    simp only [this, ← mul_sum]
    ring

/-! ### Integration -/

theorem integral_sin_mul (k : ℕ) : ∫ t in (0 : ℝ)..Real.pi, Real.sin (k * t) = if k % 2 = 0 then 0 else 2 / (k : ℝ) := by
  rcases Nat.eq_zero_or_pos k with h0 | h0
  · simp [h0]
  · have hk : (k : ℝ) ≠ 0 := by exact_mod_cast h0.ne'
    rw [intervalIntegral.integral_comp_mul_left (fun x => Real.sin x) hk, integral_sin, mul_zero, Real.cos_zero, Real.cos_nat_mul_pi]
    split
    · rw [Even.neg_one_pow (Nat.even_iff.2 (by assumption))]; simp
    · rw [Odd.neg_one_pow (Nat.odd_iff.2 (by omega)), smul_eq_mul]
      field_simp
      norm_num

theorem integral_cheb (p : ℕ) : ∫ u in (-1 : ℝ)..1, Real.cos (p * Real.arccos u) = if p % 2 = 0 then 2 / (1 - (p : ℝ) ^ 2) else 0 := by
  have hsub : ∫ t in Real.pi..0, ((fun u => Real.cos (p * Real.arccos u)) ∘ Real.cos) t * (-Real.sin t) =
      ∫ u in Real.cos Real.pi..Real.cos 0, Real.cos (p * Real.arccos u) := by
    refine intervalIntegral.integral_comp_mul_deriv (fun x _ => Real.hasDerivAt_cos x) ?_ ?_
    · exact (Real.continuous_sin.neg).continuousOn
    · exact Real.continuous_cos.comp (continuous_const.mul Real.continuous_arccos)
  rw [Real.cos_pi, Real.cos_zero] at hsub
  rw [← hsub, intervalIntegral.integral_symm]
  have e : ∀ t ∈ Set.uIcc (0 : ℝ) Real.pi, ((fun u => Real.cos (p * Real.arccos u)) ∘ Real.cos) t * (-Real.sin t) =
      (1 / 2) * (if p = 0 then -Real.sin ((1 : ℕ) * t) else Real.sin ((p - 1 : ℕ) * t)) - (1 / 2) * Real.sin ((p + 1 : ℕ) * t) := by
    intro t ht
    rw [Set.uIcc_of_le Real.pi_pos.le] at ht
    simp only [Function.comp]
    rw [Real.arccos_cos ht.1 ht.2]
    have a1 : Real.sin ((p + 1 : ℕ) * t) = Real.sin (p * t) * Real.cos t + Real.cos (p * t) * Real.sin t := by
      rw [← Real.sin_add]; push_cast; congr 1; ring
    rw [a1]
    by_cases h : p = 0
    · simp [h]; ring
    · rw [if_neg h]
      have a2 : Real.sin ((p - 1 : ℕ) * t) = Real.sin (p * t) * Real.cos t - Real.cos (p * t) * Real.sin t := by
        rw [← Real.sin_sub, Nat.cast_sub (by omega)]; push_cast; congr 1; ring
      rw [a2]; ring
  rw [intervalIntegral.integral_congr e]
  have ic : ∀ k : ℕ, IntervalIntegrable (fun t => (1 / 2 : ℝ) * Real.sin (k * t)) MeasureTheory.volume 0 Real.pi := fun k =>
    (continuous_const.mul (Real.continuous_sin.comp (continuous_const.mul continuous_id))).intervalIntegrable _ _
  by_cases h : p = 0
  · subst h
    simp only [if_true]
    have : ∀ t : ℝ, 1 / 2 * -Real.sin ((1 : ℕ) * t) - 1 / 2 * Real.sin ((0 + 1 : ℕ) * t) = -Real.sin t := by
      intro t; push_cast; simp; ring
    simp only [this]
    rw [intervalIntegral.integral_neg, integral_sin]
    simp
    norm_num
  · simp only [h, if_false]
    rw [intervalIntegral.integral_sub (ic _) (ic _), intervalIntegral.integral_const_mul, intervalIntegral.integral_const_mul,
      integral_sin_mul, integral_sin_mul]
    by_cases hp : p % 2 = 0
    · rw [if_neg (by omega), if_neg (by omega), if_pos hp, Nat.cast_sub (by omega)]
      have p2 : (2 : ℝ) ≤ p := by exact_mod_cast (by omega : 2 ≤ p)
      have q1 : (p : ℝ) - 1 ≠ 0 := by linarith
      have q2 : (p : ℝ) + 1 ≠ 0 := by linarith
      have q3 : 1 - (p : ℝ) ^ 2 ≠ 0 := by nlinarith
      push_cast
      field_simp
      ring
    · rw [if_pos (by omega), if_pos (by omega), if_neg hp]; simp

/-- The integral of one normalized Chebyshev polynomial over the interval. -/
theorem integral_trans (p : ℕ) (a b : ℝ) : ∫ x in a..b, trans p x a b = (b - a) / 2 * (if p % 2 = 0 then moment (p / 2) else 0) := by
  by_cases hab : a = b
  · subst hab; simp
  have hba : b - a ≠ 0 := sub_ne_zero.2 (Ne.symm hab)
  have hc : (2 / (b - a)) ≠ 0 := div_ne_zero two_ne_zero hba
  have e : ∀ x : ℝ, trans p x a b = (fun u => nrm p * Real.cos (p * Real.arccos (min (max u (-1)) 1))) ((2 / (b - a)) * x - (b + a) / (b - a)) := by
    intro x
    rw [trans_eq]
    simp only [ang, mapFromInterval]
    congr 6
    field_simp
  simp only [e]
  rw [intervalIntegral.integral_comp_mul_sub (fun u => nrm p * Real.cos (p * Real.arccos (min (max u (-1)) 1))) hc]
  have l1 : 2 / (b - a) * a - (b + a) / (b - a) = -1 := by field_simp; ring
  have l2 : 2 / (b - a) * b - (b + a) / (b - a) = 1 := by field_simp; ring
  rw [l1, l2, intervalIntegral.integral_const_mul]
  have e2 : ∀ u ∈ Set.uIcc (-1 : ℝ) 1, Real.cos (p * Real.arccos (min (max u (-1)) 1)) = Real.cos (p * Real.arccos u) := by
    intro u hu
    rw [Set.uIcc_of_le (by norm_num)] at hu
    rw [max_eq_left hu.1, min_eq_left hu.2]
  rw [intervalIntegral.integral_congr e2, integral_cheb, smul_eq_mul]
  by_cases hp : p % 2 = 0
  · rw [if_pos hp, if_pos hp]
    unfold nrm moment
    by_cases h0 : p = 0
    · subst h0; simp
    · rw [if_neg h0, if_neg (by omega)]
      have : (2 : ℝ) * ((p / 2 : ℕ) : ℝ) = p := by exact_mod_cast (by omega : 2 * (p / 2) = p)
      rw [this, inv_div]
      ring
  · rw [if_neg hp, if_neg hp]; simp

theorem sum_even (n : ℕ) (F : ℕ → ℝ) (h : ∀ p, p % 2 = 1 → F p = 0) : ∑ p ∈ range n, F p = ∑ p ∈ range ((n + 1) / 2), F (2 * p) := by
  induction n with
  | zero => simp
  | succ n ih =>
    rw [sum_range_succ, ih]
    rcases Nat.mod_two_eq_zero_or_one n with e | e
    · rw [show (n + 1 + 1) / 2 = (n + 1) / 2 + 1 by omega, sum_range_succ, show 2 * ((n + 1) / 2) = n by omega]
    · rw [h n e, show (n + 1 + 1) / 2 = (n + 1) / 2 by omega, add_zero]

end

end Wafo.Padua
