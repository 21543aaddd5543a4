import Verif.Padua.Eval

/-! Properties C197-C202: interpolation at Padua points. -/

set_option linter.unusedSectionVars false

namespace Wafo.Padua
open Finset Poly

noncomputable section

/-! ### C197: the points -/

/-- Point number `(j, k)` of the grid of extrema of Chebyshev polynomials of degrees `n` and `n + 1` on the rectangle. -/
def gridPoint (n : ℕ) (dom : Domain) (j k : ℕ) : ℝ × ℝ :=
  ((dom.a + dom.b) / 2 + (dom.b - dom.a) / 2 * Real.cos (j * Real.pi / n),
    (dom.c + dom.d) / 2 + (dom.d - dom.c) / 2 * Real.cos (k * Real.pi / (n + 1)))

theorem point_eq {n : ℕ} (hn : 0 < n) (dom : Domain) (j k : ℕ) : (zn n dom j, zn1 n dom k) = gridPoint n dom j k := by
  rw [zn_eq hn, zn1_eq, gridPoint]
  unfold mapToInterval
  push_cast
  refine Prod.ext ?_ ?_ <;> simp only [] <;> ring

theorem cos_inj {m j j' : ℕ} (hm : 0 < m) (h : j ≤ m) (h' : j' ≤ m) (e : Real.cos (j * Real.pi / m) = Real.cos (j' * Real.pi / m)) : j = j' := by
  have hm' : (m : ℝ) ≠ 0 := by exact_mod_cast hm.ne'
  have := Real.injOn_cos ⟨(frac_mem h).1, (frac_mem h).2⟩ ⟨(frac_mem h').1, (frac_mem h').2⟩ e
  have hp := Real.pi_pos.ne'
  field_simp at this
  exact_mod_cast this

/-- **C197.** `padua_points(n)` returns `(n+1)(n+2)/2` points: exactly the points of the Chebyshev grid whose indices have odd sum.  On a
proper rectangle there is no duplicate. -/
theorem C197_points {n : ℕ} (hn : 0 < n) (dom : Domain) :
    2 * (points n dom).length = (n + 1) * (n + 2) ∧
      (∀ P, P ∈ points n dom ↔ ∃ j k : ℕ, j ≤ n ∧ k ≤ n + 1 ∧ (j + k) % 2 = 1 ∧ P = gridPoint n dom j k) ∧
      (dom.a ≠ dom.b → dom.c ≠ dom.d → (points n dom).Nodup) := by
  refine ⟨?_, ?_, ?_⟩
  · unfold points
    rw [List.length_map, findM_length]
    have hev : (n + 1) * (n + 2) % 2 = 0 := by
      rw [Nat.mul_mod]
      rcases Nat.mod_two_eq_zero_or_one n with h | h
      · rw [show (n + 2) % 2 = 0 by omega]; simp
      · rw [show (n + 1) % 2 = 0 by omega]; simp
    omega
  · intro P
    unfold points
    rw [List.mem_map]
    constructor
    · rintro ⟨i, hi, rfl⟩
      obtain ⟨h1, h2⟩ := (mem_findM n i).1 hi
      have b1 : i / (n + 2) < n + 1 := Nat.div_lt_of_lt_mul (by rw [mul_comm]; exact h1)
      have b2 := Nat.mod_lt i (by omega : 0 < n + 2)
      exact ⟨_, _, by omega, by omega, h2, point_eq hn dom _ _⟩
    · rintro ⟨j, k, hj, hk, ho, rfl⟩
      refine ⟨j * (n + 2) + k, (index_mem hj hk).2 ho, ?_⟩
      have e1 : (j * (n + 2) + k) / (n + 2) = j := by
        rw [mul_comm, Nat.mul_add_div (by omega), Nat.div_eq_of_lt (by omega : k < n + 2), add_zero]
      have e2 : (j * (n + 2) + k) % (n + 2) = k := by
        rw [mul_comm, Nat.mul_add_mod, Nat.mod_eq_of_lt (by omega : k < n + 2)]
      rw [e1, e2, point_eq hn]
  · intro hab hcd
    unfold points
    refine List.Nodup.map_on ?_ (findM_nodup n)
    intro i hi i' hi' e
    obtain ⟨h1, _⟩ := (mem_findM n i).1 hi
    obtain ⟨h1', _⟩ := (mem_findM n i').1 hi'
    have b1 : i / (n + 2) < n + 1 := Nat.div_lt_of_lt_mul (by rw [mul_comm]; exact h1)
    have b2 := Nat.mod_lt i (by omega : 0 < n + 2)
    have b1' : i' / (n + 2) < n + 1 := Nat.div_lt_of_lt_mul (by rw [mul_comm]; exact h1')
    have b2' := Nat.mod_lt i' (by omega : 0 < n + 2)
    rw [Prod.mk.injEq, zn_eq hn, zn_eq hn, zn1_eq, zn1_eq] at e
    have c1 := congrArg (fun x => mapFromInterval x dom.a dom.b) e.1
    have c2 := congrArg (fun x => mapFromInterval x dom.c dom.d) e.2
    simp only [from_to hab, from_to hcd] at c1 c2
    have d1 := cos_inj hn (by omega) (by omega) c1
    have d2 := cos_inj (by omega) (by omega) (by omega) c2
    have g1 := Nat.div_add_mod i (n + 2)
    have g2 := Nat.div_add_mod i' (n + 2)
    rw [d1, d2] at g1
    omega

/-- **C197, degree zero.** A single point, the corner `(a, c)` of the rectangle. -/
theorem C197_zero (dom : Domain) : points 0 dom = [(dom.a, dom.c)] := by
  unfold points findM zn zn1 angle mapToInterval
  simp
  constructor <;> ring

example : 2 * (points 4 ⟨0, 1, -1, 3⟩).length = 30 := (C197_points (by norm_num) _).1

/-! ### C198: interpolation -/

/-- **C198.** For every function and every degree `n >= 1`, `padua_fit` on the Padua points of a proper rectangle succeeds.  The
coefficients form a square matrix of which only total degrees up to `n` are used, and `padua_val` returns the value of the function at
every Padua point. -/
theorem C198_interpolates {n : ℕ} (hn : 0 < n) (dom : Domain) (h1 : dom.a ≠ dom.b) (h2 : dom.c ≠ dom.d) (f : ℝ → ℝ → ℝ) :
    ∃ (C : List (List ℝ)) (e : ℝ), fit (points n dom) f = .ok (C, e) ∧ C.length = n + 1 ∧ (∀ r ∈ C, r.length = n + 1) ∧
      (∀ p q, n < p + q → (C.getD p []).getD q 0 = 0) ∧ ∀ P ∈ points n dom, val C dom P.1 P.2 = f P.1 P.2 := by
  refine ⟨_, _, fit_points hn dom f, by simp [table], ?_, ?_, ?_⟩
  · intro r hr
    unfold table at hr
    obtain ⟨p, _, rfl⟩ := List.mem_map.1 hr
    simp
  · intro p q h
    by_cases hp : p < n + 1
    · by_cases hq : q < n + 1
      · rw [table_get _ hp hq]
        exact coef_zero hn _ (by omega) h
      · simp [table, hp, hq]
    · simp [table, hp]
  · intro P hP
    unfold points at hP
    obtain ⟨i, hi, rfl⟩ := List.mem_map.1 hP
    obtain ⟨hi1, hi2⟩ := (mem_findM n i).1 hi
    have b1 : i / (n + 2) < n + 1 := Nat.div_lt_of_lt_mul (by rw [mul_comm]; exact hi1)
    have b2 := Nat.mod_lt i (by omega : 0 < n + 2)
    exact interpolates hn (fun j k => f (zn n dom j) (zn1 n dom k)) h1 h2 (mem_oddPairs.2 ⟨by omega, by omega, hi2⟩)

example : ∃ (C : List (List ℝ)) (e : ℝ), fit (points 3 ⟨0, 1, -1, 3⟩) (fun x y => Real.exp (x * y)) = .ok (C, e) ∧ C.length = 4 ∧
    (∀ r ∈ C, r.length = 4) ∧ (∀ p q, 3 < p + q → (C.getD p []).getD q 0 = 0) ∧
    ∀ P ∈ points 3 ⟨0, 1, -1, 3⟩, val C ⟨0, 1, -1, 3⟩ P.1 P.2 = Real.exp (P.1 * P.2) :=
  C198_interpolates (by norm_num) ⟨0, 1, -1, 3⟩ (by norm_num) (by norm_num) _

/-- **C198, refuted for degree zero.** `padua_fit` always raises an IndexError on the point of degree zero. -/
theorem C198_zero_refuted (dom : Domain) (f : ℝ → ℝ → ℝ) : fit (points 0 dom) f = .error .indexError := by
  unfold fit
  rw [degree_points]
  simp

/-! ### C199: reproduction of polynomials -/

theorem square_table {n : ℕ} {C : List (List ℝ)} (hl : C.length = n) (hr : ∀ r ∈ C, r.length = n) :
    table n (fun p q => (C.getD p []).getD q 0) = C := by
  refine List.ext_getElem (by simp [table, hl]) fun p h1 h2 => ?_
  have hp : p < n := by rw [← hl]; exact h2
  have hrow : (C[p]).length = n := hr _ (List.getElem_mem h2)
  refine List.ext_getElem (by simp [table, hrow]) fun q h3 h4 => ?_
  simp only [table, List.getElem_map, List.getElem_range]
  simp [List.getD, List.getElem?_eq_getElem h2, List.getElem?_eq_getElem h4]

/-- **C199.** The coefficients of a polynomial in Padua form are recovered from its values at the Padua points. -/
theorem C199_recovers {n : ℕ} (hn : 0 < n) (dom : Domain) (h1 : dom.a ≠ dom.b) (h2 : dom.c ≠ dom.d) (C : List (List ℝ))
    (hl : C.length = n + 1) (hr : ∀ r ∈ C, r.length = n + 1) (ht : ∀ p q, n < p + q → (C.getD p []).getD q 0 = 0) :
    ∃ e, fit (points n dom) (val C dom) = .ok (C, e) := by
  have hC := square_table hl hr
  have key : table (n + 1) (coef n (sample n fun j k => val C dom (zn n dom j) (zn1 n dom k))) = C := by
    conv_rhs => rw [← hC]
    unfold table
    refine List.map_congr_left fun p hp => List.map_congr_left fun q hq => ?_
    have := coef_val hn h1 h2 _ ht (p := p) (q := q) (by have := List.mem_range.1 hp; omega) (by have := List.mem_range.1 hq; omega)
    rw [hC] at this
    exact this
  have h := fit_points hn dom (val C dom)
  rw [key] at h
  exact ⟨_, h⟩

example : ∃ e, fit (points 1 ⟨0, 1, -1, 3⟩) (val [[1, 2], [3, 0]] ⟨0, 1, -1, 3⟩) = .ok ([[1, 2], [3, 0]], e) :=
  C199_recovers (by norm_num) ⟨0, 1, -1, 3⟩ (by norm_num) (by norm_num) [[1, 2], [3, 0]] (by simp) (by simp) (by
    intro p q h
    match p, q with
    | 0, 0 => omega
    | 0, 1 => omega
    | 0, q + 2 => simp
    | 1, 0 => omega
    | 1, 1 => simp
    | 1, q + 2 => simp
    | p + 2, q => simp)

theorem from_mem {x a b : ℝ} (h : a ≠ b) (hx : x ∈ Set.uIcc a b) : mapFromInterval x a b ∈ Set.Icc (-1 : ℝ) 1 := by
  unfold mapFromInterval
  rcases lt_or_gt_of_ne h with l | l
  · rw [Set.uIcc_of_le l.le] at hx
    have : 0 < b - a := by linarith
    rw [Set.mem_Icc, mul_div_assoc', le_div_iff₀ this, div_le_iff₀ this]
    constructor <;> linarith [hx.1, hx.2]
  · rw [Set.uIcc_of_ge l.le] at hx
    have : b - a < 0 := by linarith
    rw [Set.mem_Icc, mul_div_assoc', le_div_iff_of_neg this, div_le_iff_of_neg this]
    constructor <;> linarith [hx.1, hx.2]

/-- **C199, polynomials.** Every polynomial of total degree at most `n` is reproduced at every point of the rectangle. -/
theorem C199_polynomial {n : ℕ} (hn : 0 < n) (dom : Domain) (h1 : dom.a ≠ dom.b) (h2 : dom.c ≠ dom.d) (w : ℕ → ℕ → ℝ)
    (f : ℝ → ℝ → ℝ) (hf : ∀ x y, f x y = ∑ i ∈ range (n + 1), ∑ j ∈ range (n + 1 - i), w i j * (x ^ i * y ^ j)) :
    ∃ (C : List (List ℝ)) (e : ℝ), fit (points n dom) f = .ok (C, e) ∧
      ∀ x ∈ Set.uIcc dom.a dom.b, ∀ y ∈ Set.uIcc dom.c dom.d, val C dom x y = f x y := by
  refine ⟨_, _, fit_points hn dom f, fun x hx y hy => ?_⟩
  have hmem : (fun s t => f (mapToInterval (Real.cos s) dom.a dom.b) (mapToInterval (Real.cos t) dom.c dom.d)) ∈ cosSpan n := by
    have e : (fun s t => f (mapToInterval (Real.cos s) dom.a dom.b) (mapToInterval (Real.cos t) dom.c dom.d)) =
        ∑ i ∈ range (n + 1), ∑ j ∈ range (n + 1 - i), w i j •
          (fun s t => mapToInterval (Real.cos s) dom.a dom.b ^ i * mapToInterval (Real.cos t) dom.c dom.d ^ j) := by
      funext s t
      rw [hf]
      simp only [Finset.sum_apply, Pi.smul_apply, smul_eq_mul]
    rw [e]
    refine Submodule.sum_mem _ fun i hi => Submodule.sum_mem _ fun j hj => Submodule.smul_mem _ _ (cosSpan_mono ?_ (monomial_mem dom i j))
    have := mem_range.1 hj
    omega
  have h := reproduces hn h1 h2 hmem x y
  simp only [to_ang h1 (from_mem h1 hx), to_ang h2 (from_mem h2 hy)] at h
  rw [← h]
  congr 4
  funext j k
  rw [zn_eq hn, zn1_eq]

example : ∃ (C : List (List ℝ)) (e : ℝ), fit (points 3 ⟨0, 1, -1, 3⟩) (fun x y => x ^ 2 * y) = .ok (C, e) ∧
    ∀ x ∈ Set.uIcc (0 : ℝ) 1, ∀ y ∈ Set.uIcc (-1 : ℝ) 3, val C ⟨0, 1, -1, 3⟩ x y = x ^ 2 * y :=
  C199_polynomial (by norm_num) ⟨0, 1, -1, 3⟩ (by norm_num) (by norm_num) (fun i j => if i = 2 ∧ j = 1 then 1 else 0) _ (by
    intro x y
    simp [sum_range_succ])

/-! ### C200: cubature -/

theorem val_cont (p : ℕ) (a b : ℝ) : Continuous fun x => trans p x a b := by
  unfold trans mapFromInterval
  split
  · exact continuous_const
  · exact (Real.continuous_cos.comp (continuous_const.mul (Real.continuous_arccos.comp
      ((((continuous_id.sub continuous_const).mul continuous_const).max continuous_const).min continuous_const)))).mul continuous_const

/-- **C200.** `padua_cubature` returns the exact integral over the rectangle of the polynomial that `padua_val` evaluates. -/
theorem C200_cubature {n : ℕ} (hn : 0 < n) (C : List (List ℝ)) (hl : C.length = n) (hr : ∀ r ∈ C, r.length = n) (dom : Domain) :
    cubature C dom = ∫ x in dom.a..dom.b, ∫ y in dom.c..dom.d, val C dom x y := by
  have hC := square_table hl hr
  set t : ℕ → ℕ → ℝ := fun p q => (C.getD p []).getD q 0 with ht
  have hcols : (C.headD []).length = n := by rw [← hC]; exact table_cols hn t
  have hval : ∀ x y, val C dom x y = ∑ p ∈ range n, ∑ q ∈ range n, t p q * (trans p x dom.a dom.b * trans q y dom.c dom.d) := by
    intro x y
    conv_lhs => rw [← hC]
    exact val_table hn t dom x y
  have inner : ∀ x, ∫ y in dom.c..dom.d, val C dom x y =
      ∑ p ∈ range n, trans p x dom.a dom.b * ∑ q ∈ range n, t p q * ∫ y in dom.c..dom.d, trans q y dom.c dom.d := by
    intro x
    simp only [hval]
    rw [intervalIntegral.integral_finsetSum]
    · refine sum_congr rfl fun p _ => ?_
      rw [intervalIntegral.integral_finsetSum, mul_sum]
      · refine sum_congr rfl fun q _ => ?_
        rw [intervalIntegral.integral_const_mul, intervalIntegral.integral_const_mul]
        ring
      · intro q _
        exact (continuous_const.mul (continuous_const.mul (val_cont q _ _))).intervalIntegrable _ _
    · intro p _
      exact (continuous_finsetSum _ fun q _ => continuous_const.mul (continuous_const.mul (val_cont q _ _))).intervalIntegrable _ _
  simp only [inner]
  rw [intervalIntegral.integral_finsetSum]
  · simp only [intervalIntegral.integral_mul_const, integral_trans]
    rw [sum_even n]
    · unfold cubature
      rw [hcols]
      simp only []
      have e1 : ∀ p ∈ range ((n + 1) / 2), (dom.b - dom.a) / 2 * (if (2 * p) % 2 = 0 then moment (2 * p / 2) else 0) *
          ∑ q ∈ range n, t (2 * p) q * ((dom.d - dom.c) / 2 * (if q % 2 = 0 then moment (q / 2) else 0)) =
          (dom.b - dom.a) * (dom.d - dom.c) / 4 * ∑ q ∈ range ((n + 1) / 2), t (2 * p) (2 * q) * (moment q * moment p) := by
        intro p _
        rw [sum_even n (fun q => t (2 * p) q * ((dom.d - dom.c) / 2 * (if q % 2 = 0 then moment (q / 2) else 0))), mul_sum, mul_sum]
        · refine sum_congr rfl fun q _ => ?_
          rw [if_pos (by omega), if_pos (by omega), Nat.mul_div_cancel_left _ (by norm_num), Nat.mul_div_cancel_left _ (by norm_num)]
          ring
        · intro q hq
          rw [if_neg (by omega)]; ring
      rw [sum_congr rfl e1, ← mul_sum]
      ring
    · intro p hp
      rw [if_neg (by omega)]; simp
  · intro p _
    exact ((val_cont p _ _).mul continuous_const).intervalIntegrable _ _

example : cubature [[1, 2], [3, 0]] ⟨0, 1, -1, 3⟩ = ∫ x in (0 : ℝ)..1, ∫ y in (-1 : ℝ)..3, val [[1, 2], [3, 0]] ⟨0, 1, -1, 3⟩ x y :=
  C200_cubature (n := 2) (by norm_num) [[1, 2], [3, 0]] (by simp) (by simp) ⟨0, 1, -1, 3⟩

/-- **C200, polynomials.** Fit and cubature integrate every polynomial of total degree at most `n` exactly. -/
theorem C200_polynomial {n : ℕ} (hn : 0 < n) (dom : Domain) (h1 : dom.a ≠ dom.b) (h2 : dom.c ≠ dom.d) (w : ℕ → ℕ → ℝ)
    (f : ℝ → ℝ → ℝ) (hf : ∀ x y, f x y = ∑ i ∈ range (n + 1), ∑ j ∈ range (n + 1 - i), w i j * (x ^ i * y ^ j)) :
    ∃ (C : List (List ℝ)) (e : ℝ), fit (points n dom) f = .ok (C, e) ∧
      cubature C dom = ∫ x in dom.a..dom.b, ∫ y in dom.c..dom.d, f x y := by
  obtain ⟨C, e, hfit, hrep⟩ := C199_polynomial hn dom h1 h2 w f hf
  obtain ⟨C', e', hfit', hl, hr, -⟩ := C198_interpolates hn dom h1 h2 f
  obtain ⟨rfl, rfl⟩ : C = C' ∧ e = e' := by
    have := Except.ok.inj (hfit.symm.trans hfit')
    simpa using this
  refine ⟨C, e, hfit, ?_⟩
  rw [C200_cubature (by omega) C hl hr]
  refine intervalIntegral.integral_congr fun x hx => intervalIntegral.integral_congr fun y hy => ?_
  exact hrep x hx y hy

example : ∃ (C : List (List ℝ)) (e : ℝ), fit (points 3 ⟨0, 1, -1, 3⟩) (fun x y => x ^ 2 * y) = .ok (C, e) ∧
    cubature C ⟨0, 1, -1, 3⟩ = ∫ x in (0 : ℝ)..1, ∫ y in (-1 : ℝ)..3, x ^ 2 * y :=
  C200_polynomial (by norm_num) ⟨0, 1, -1, 3⟩ (by norm_num) (by norm_num) (fun i j => if i = 2 ∧ j = 1 then 1 else 0) _ (by
    intro x y
    simp [sum_range_succ])

/-! ### C201: the error estimate -/

theorem estimate_table (n : ℕ) (t : ℕ → ℕ → ℝ) (ht : ∀ p q, p ≤ n → q ≤ n → n < p + q → t p q = 0) :
    errorEstimate (table (n + 1) t) (n + 1) = 2 * ∑ p ∈ range (n + 1), |t p (n - p)| := by
  have hrev : ∀ p q, p < n + 1 → q < n + 1 → ((table (n + 1) t).getD p []).reverse.getD q 0 = t p (n - q) := by
    intro p q hp hq
    have : (table (n + 1) t).getD p [] = (List.range (n + 1)).map fun q => t p q := by simp [table, hp]
    rw [this]
    simp [List.getD, hq]
  have hd : ∀ s, 1 ≤ s → ∑ i ∈ range (min ((table (n + 1) t).length - s) (n + 1)), |((table (n + 1) t).getD (i + s) []).reverse.getD i 0| = 0 := by
    intro s hs
    refine sum_eq_zero fun i hi => ?_
    have hlen : (table (n + 1) t).length = n + 1 := by simp [table]
    rw [hlen, mem_range] at hi
    rw [hrev _ _ (by omega) (by omega), ht _ _ (by omega) (by omega) (by omega), abs_zero]
  have h0 : ∑ i ∈ range (min ((table (n + 1) t).length - 0) (n + 1)), |((table (n + 1) t).getD (i + 0) []).reverse.getD i 0| =
      ∑ p ∈ range (n + 1), |t p (n - p)| := by
    have hlen : (table (n + 1) t).length = n + 1 := by simp [table]
    rw [hlen, Nat.sub_zero, min_self]
    refine sum_congr rfl fun i hi => ?_
    rw [add_zero, hrev _ _ (mem_range.1 hi) (mem_range.1 hi)]
  unfold errorEstimate
  simp only [hd 1 le_rfl, hd 2 (by norm_num), add_zero, ite_self]
  simp only [add_zero] at h0
  rw [h0]

/-- **C201.** The error estimate of a fit is twice the sum of the absolute values of the coefficients of total degree exactly `n`: the
two further diagonals that `error_estimate` adds lie beyond the triangle and are zero. -/
theorem C201_estimate {n : ℕ} (hn : 0 < n) (dom : Domain) (f : ℝ → ℝ → ℝ) :
    ∃ (C : List (List ℝ)) (e : ℝ), fit (points n dom) f = .ok (C, e) ∧ e = 2 * ∑ p ∈ range (n + 1), |(C.getD p []).getD (n - p) 0| := by
  refine ⟨_, _, fit_points hn dom f, ?_⟩
  rw [estimate_table n _ fun p q _ hq h => coef_zero hn _ hq h]
  congr 1
  refine sum_congr rfl fun p hp => ?_
  rw [table_get _ (mem_range.1 hp) (by omega)]

/-- **C201, refuted as a bound.** For `(x + 1) y` the estimate of the fit of degree one is zero, but the error at the corner `(1, 1)` is
two. -/
theorem C201_bound_refuted : ∃ (C : List (List ℝ)), fit (points 1 ⟨-1, 1, -1, 1⟩) (fun x y => (x + 1) * y) = .ok (C, 0) ∧
    |(1 + 1) * 1 - val C ⟨-1, 1, -1, 1⟩ 1 1| = 2 := by
  have hs : (sample 1 fun j k => (zn 1 ⟨-1, 1, -1, 1⟩ j + 1) * zn1 1 ⟨-1, 1, -1, 1⟩ k) = sample 1 fun _ _ => 0 := by
    have hm : findM 1 = [1, 3, 5] := by decide
    unfold sample
    rw [hm]
    simp only [List.map_cons, List.map_nil, zn_eq (by norm_num : 0 < 1), zn1_eq, mapToInterval]
    norm_num
  have hz : ∀ p q, coef 1 (sample 1 fun _ _ => 0) p q = 0 := by
    intro p q
    rw [coef_eq (by norm_num)]
    simp
  refine ⟨table 2 fun _ _ => 0, ?_, ?_⟩
  · rw [fit_points (by norm_num)]
    simp only [hs]
    have : coef 1 (sample 1 fun _ _ => 0) = fun _ _ => 0 := by funext p q; exact hz p q
    rw [this, estimate_table 1 _ fun _ _ _ _ _ => rfl]
    simp
  · rw [val_table (by norm_num)]
    norm_num

example : ∃ (C : List (List ℝ)) (e : ℝ), fit (points 5 ⟨0, 1, -1, 3⟩) (fun x y => Real.exp (x * y)) = .ok (C, e) ∧
    e = 2 * ∑ p ∈ range 6, |(C.getD p []).getD (5 - p) 0| := C201_estimate (by norm_num) _ _

/-! ### C202: evaluation -/

/-- **C202.** With `use_meshgrid` the result has one row for each `y` and one column for each `x`, and each entry is the value that the
evaluation at scattered points gives. -/
theorem C202_mesh (C : List (List ℝ)) (dom : Domain) (X Y : List ℝ) :
    (valMesh C dom X Y).length = Y.length ∧ (∀ r ∈ valMesh C dom X Y, r.length = X.length) ∧
      ∀ (i j : ℕ) (x y : ℝ), X[i]? = some x → Y[j]? = some y → ((valMesh C dom X Y)[j]?.bind fun r => r[i]?) = some (val C dom x y) := by
  refine ⟨by simp [valMesh], ?_, ?_⟩
  · intro r hr
    unfold valMesh at hr
    obtain ⟨y, _, rfl⟩ := List.mem_map.1 hr
    simp
  · intro i j x y hx hy
    unfold valMesh val
    simp only [List.getElem?_map, hy, hx, Option.map_some, Option.bind_some]
    congr 1
    simp only [mul_sum, sum_mul]
    rw [sum_comm]
    refine sum_congr rfl fun q _ => sum_congr rfl fun p _ => ?_
    ring

/-- **C202, outside.** A point outside the rectangle gets the value of the nearest point of the rectangle. -/
theorem C202_clipped (C : List (List ℝ)) (dom : Domain) (h1 : dom.a < dom.b) (h2 : dom.c < dom.d) (x y : ℝ) :
    val C dom x y = val C dom (max dom.a (min x dom.b)) (max dom.c (min y dom.d)) := by
  have key : ∀ (p : ℕ) (x a b : ℝ), a < b → trans p x a b = trans p (max a (min x b)) a b := by
    intro p x a b hab
    have hb : 0 < b - a := by linarith
    have hf : ∀ z, mapFromInterval z a b = (2 * z - (a + b)) / (b - a) := by
      intro z; unfold mapFromInterval; field_simp; ring
    have : min (max (mapFromInterval x a b) (-1)) 1 = min (max (mapFromInterval (max a (min x b)) a b) (-1)) 1 := by
      rw [hf, hf]
      rcases le_total x a with hx | hx
      · rw [min_eq_left (hx.trans hab.le), max_eq_left hx]
        rw [max_eq_right (by rw [div_le_iff₀ hb]; linarith), max_eq_right (by rw [div_le_iff₀ hb]; linarith)]
      · rcases le_total x b with hx' | hx'
        · rw [min_eq_left hx', max_eq_right hx]
        · rw [min_eq_right hx', max_eq_right hab.le]
          rw [min_eq_right (le_max_of_le_left (by rw [le_div_iff₀ hb]; linarith)),
            min_eq_right (le_max_of_le_left (by rw [le_div_iff₀ hb]; linarith))]
    unfold trans
    rw [this]
  unfold val
  simp only [← key _ x dom.a dom.b h1, ← key _ y dom.c dom.d h2]

/-- **C202, refuted outside.** The fit of degree one to the function `x` reproduces it in the rectangle, but not outside. -/
theorem C202_outside_refuted : ∃ (C : List (List ℝ)) (e : ℝ), fit (points 1 ⟨-1, 1, -1, 1⟩) (fun x _ => x) = .ok (C, e) ∧
    val C ⟨-1, 1, -1, 1⟩ 1 0 = 1 ∧ val C ⟨-1, 1, -1, 1⟩ 2 0 = 1 := by
  obtain ⟨C, e, hfit, h⟩ := C199_polynomial (n := 1) (by norm_num) ⟨-1, 1, -1, 1⟩ (by norm_num) (by norm_num)
    (fun i j => if i = 1 ∧ j = 0 then 1 else 0) (fun x _ => x) (by intro x y; simp [sum_range_succ])
  have hv := h 1 (by simp) 0 (by rw [Set.uIcc_of_le (by norm_num)]; constructor <;> norm_num)
  refine ⟨C, e, hfit, hv, ?_⟩
  have hc := C202_clipped C ⟨-1, 1, -1, 1⟩ (by norm_num) (by norm_num) 2 0
  have e1 : max (-1 : ℝ) (min 2 1) = 1 := by norm_num
  have e2 : max (-1 : ℝ) (min 0 1) = 0 := by norm_num
  simp only [e1, e2] at hc
  rw [hc, hv]

example : val [[1, 2], [3, 0]] ⟨0, 1, -1, 3⟩ 5 0 = val [[1, 2], [3, 0]] ⟨0, 1, -1, 3⟩ 1 0 := by
  have h := C202_clipped [[1, 2], [3, 0]] ⟨0, 1, -1, 3⟩ (by norm_num) (by norm_num) 5 0
  have e1 : max (0 : ℝ) (min 5 1) = 1 := by norm_num
  have e2 : max (-1 : ℝ) (min 0 3) = 0 := by norm_num
  simp only [e1, e2] at h
  exact h

end

end Wafo.Padua
